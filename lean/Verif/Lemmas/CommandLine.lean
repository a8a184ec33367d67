import Verif.Lemmas.Disk
import Verif.Lemmas.Lex

/-! # Lemmas about the words of a command line -/

namespace Nsasm.CommandLine

open Spec Props Disk Tools

/-! ## Numbers -/

theorem hex_char {c : Char} (h : isHexDigit c = true) : isSpace c = false ∧ c ≠ '-' ∧ c ≠ '+' ∧ c ≠ 'x' ∧ c ≠ 'X' ∧ c ≠ '@' := by
  have hm := (digit_hex.mpr ⟨h, rfl⟩).1
  have : ∀ x ∈ digitTable, isSpace x.1 = false ∧ x.1 ≠ '-' ∧ x.1 ≠ '+' ∧ x.1 ≠ 'x' ∧ x.1 ≠ 'X' ∧ x.1 ≠ '@' := by decide +kernel
  exact this _ hm

theorem stripLeading_cons {c : Char} {s : Str} (h : isSpace c = false) : stripLeading (c :: s) = c :: s := by
  unfold stripLeading; rw [List.dropWhile_cons_of_neg (by rw [h]; simp)]

theorem scanSign_none {c : Char} {s : Str} (h1 : c ≠ '-') (h2 : c ≠ '+') : scanSign (c :: s) = (false, c :: s) := by
  unfold scanSign
  split
  · rename_i heq; exact absurd (List.cons.inj heq).1 h1
  · rename_i heq; exact absurd (List.cons.inj heq).1 h2
  · rfl

theorem dropPrefix_digits {s : Str} (h : ∀ c ∈ s, isHexDigit c = true) : dropPrefix s = s := by
  unfold dropPrefix
  split
  · exact absurd rfl (hex_char (h 'x' (by simp))).2.2.2.1
  · exact absurd rfl (hex_char (h 'X' (by simp))).2.2.2.2.1
  · rfl

theorem takeWhile_all {p : Char → Bool} : ∀ {s : Str}, (∀ c ∈ s, p c = true) → s.takeWhile p = s
  | [], _ => rfl
  | c :: s, h => by
    rw [List.takeWhile_cons_of_pos (h c (by simp)), takeWhile_all fun d hd => h d (by simp [hd])]

/-- Reading a word that begins with a character that is no blank and no sign. -/
theorem scanHex_cons {c : Char} {s : Str} (hb : isSpace c = false) (h1 : c ≠ '-') (h2 : c ≠ '+') :
    scanHex (c :: s) = if (dropPrefix (c :: s)).takeWhile isHexDigit = [] then .mismatch
      else if numberValue 16 ((dropPrefix (c :: s)).takeWhile isHexDigit) > 0xffffffff then .misfit
      else .number (numberValue 16 ((dropPrefix (c :: s)).takeWhile isHexDigit)) := by
  unfold scanHex
  rw [stripLeading_cons hb]
  dsimp only
  rw [scanSign_none h1 h2]
  simp

theorem scanHex_word {s : Str} {v : Nat} (h : HexWord s v) (hv : v < 0x100000000) : scanHex s = .number v := by
  have key : ∀ (c : Char) (t ds : Str), isSpace c = false → c ≠ '-' → c ≠ '+' → dropPrefix (c :: t) = ds → Digits 16 ds v →
      scanHex (c :: t) = .number v := by
    intro c t ds hb h1 h2 hd hds
    obtain ⟨hne, hall, hval⟩ := digits_hex.mp hds
    rw [scanHex_cons hb h1 h2, hd, takeWhile_all hall, if_neg hne, ← hval, if_neg (by omega)]
  cases h with
  | plain hd =>
    obtain ⟨hne, hall, -⟩ := digits_hex.mp hd
    rcases s with _ | ⟨c, t⟩
    · exact absurd rfl hne
    · obtain ⟨g1, g2, g3, -⟩ := hex_char (hall c (by simp))
      exact key c t _ g1 g2 g3 (dropPrefix_digits hall) hd
  | small hd => exact key '0' _ _ (by decide) (by decide) (by decide) rfl hd
  | capital hd => exact key '0' _ _ (by decide) (by decide) (by decide) rfl hd

theorem hexWord_head {s : Str} {v : Nat} (h : HexWord s v) : s.head? ≠ some '@' := by
  cases h with
  | plain hd =>
    obtain ⟨hne, hall, -⟩ := digits_hex.mp hd
    rcases s with _ | ⟨c, t⟩
    · simp
    · intro hc
      exact (hex_char (hall c (by simp))).2.2.2.2.2 (Option.some.inj hc)
  | small hd => simp
  | capital hd => simp

theorem scanInt_word {s : Str} {v : Int} (h : IntWord s v) (h1 : -0x80000000 ≤ v) (h2 : v ≤ 0x7fffffff) :
    scanInt s = .number v := by
  have dec : ∀ {c : Char}, isDecimalDigit c = true → isSpace c = false ∧ c ≠ '-' ∧ c ≠ '+' := by
    intro c hc
    have := hex_char (digit_not_letter hc).2.2.2.2.2.2
    exact ⟨this.1, this.2.1, this.2.2.1⟩
  cases h with
  | plain hd =>
    obtain ⟨hne, hall, hval⟩ := digits_decimal.mp hd
    rcases s with _ | ⟨c, t⟩
    · exact absurd rfl hne
    · obtain ⟨g1, g2, g3⟩ := dec (hall c (by simp))
      unfold scanInt
      rw [stripLeading_cons g1]
      dsimp only
      rw [scanSign_none g2 g3]
      dsimp only
      rw [takeWhile_all hall, if_neg hne, ← hval]
      simp only [Bool.false_eq_true, if_false]
      rw [if_neg (by omega)]
  | plus hd =>
    obtain ⟨hne, hall, hval⟩ := digits_decimal.mp hd
    unfold scanInt
    rw [stripLeading_cons (by decide)]
    dsimp only
    rw [show scanSign ('+' :: _) = (false, _) from rfl]
    dsimp only
    rw [takeWhile_all hall, if_neg hne, ← hval]
    simp only [Bool.false_eq_true, if_false]
    rw [if_neg (by omega)]
  | minus hd =>
    obtain ⟨hne, hall, hval⟩ := digits_decimal.mp hd
    unfold scanInt
    rw [stripLeading_cons (by decide)]
    dsimp only
    rw [show scanSign ('-' :: _) = (true, _) from rfl]
    dsimp only
    rw [takeWhile_all hall, if_neg hne, ← hval, if_pos rfl, if_neg (by omega)]

/-! ## Words of quick_disassemble -/

theorem readPair_word {msg : Err → Str} {prog : Str} {rom : Rom} {address s mode : Str} {v : Nat} {ind : Bool}
    (ha : address.head? = some '@' ↔ ind = true) (hs : (if ind then address.tail else address) = s) (hw : HexWord s v)
    (hv : v < 0x100000000) :
    readPair msg prog rom address mode = (do
      match ← readSeed msg rom ⟨ind, v, mode⟩ with
      | .error line => .ok (.error [line])
      | .ok seed => .ok (.ok seed)) := by
  unfold readPair
  rcases hm : StatusFlags.fromName mode with _ | f
  · dsimp only
    unfold readSeed
    dsimp only
    rw [hm]
    rfl
  · have hdec : (decide (address.head? = some '@')) = ind := by
      cases ind with
      | true => simpa using ha.mpr rfl
      | false =>
        have : ¬ address.head? = some '@' := fun h => absurd (ha.mp h) (by simp)
        simpa using this
    have hadr : (if address.head? = some '@' then address.tail else address) = s := by
      rw [← hs]
      cases ind with
      | true => rw [if_pos (ha.mpr rfl)]; rfl
      | false => rw [if_neg fun h => absurd (ha.mp h) (by simp)]; rfl
    simp only [hadr, scanHex_word hw hv, afterScan, hdec]
    rfl

theorem readPairs_words {msg : Err → Str} {prog : Str} {rom : Rom} {words : List Str} {args : List SeedArg}
    (h : SeedWords words args) : ∀ (seeds : OMap StatusFlags), readPairs msg prog rom seeds words = (do
      match ← readSeeds msg rom seeds args with
      | .error line => .ok (.error [line])
      | .ok seeds => .ok (.ok seeds)) := by
  have step : ∀ {address mode : Str} {arg : SeedArg} {words : List Str} {args : List SeedArg},
      (readPair msg prog rom address mode = (do
        match ← readSeed msg rom arg with
        | .error line => .ok (.error [line])
        | .ok seed => .ok (.ok seed))) →
      (∀ (seeds : OMap StatusFlags), readPairs msg prog rom seeds words = (do
        match ← readSeeds msg rom seeds args with
        | .error line => .ok (.error [line])
        | .ok seeds => .ok (.ok seeds))) →
      ∀ (seeds : OMap StatusFlags), readPairs msg prog rom seeds (address :: mode :: words) = (do
        match ← readSeeds msg rom seeds (arg :: args) with
        | .error line => .ok (.error [line])
        | .ok seeds => .ok (.ok seeds)) := by
    intro address mode arg words args h1 h2 seeds
    rw [readPairs, h1, readSeeds]
    rcases readSeed msg rom arg with (line | ⟨a, f⟩) | e | u
    · rfl
    · exact h2 _
    · rfl
    · rfl
  induction h with
  | nil => intro seeds; rfl
  | @direct s mode v words args hw hv _ ih =>
    refine step (readPair_word (ind := false) ?_ rfl hw hv) ih
    simpa using hexWord_head hw
  | indirect hw hv _ ih =>
    refine step (readPair_word (ind := true) (by simp) rfl hw hv) ih

/-! ## Reading the files -/

def sourcesGood (w : World) : List Str → Res (List (List Str))
  | [] => .ok []
  | path :: paths => do
    let file ← sourceGood (w.files path)
    let files ← sourcesGood w paths
    .ok (file :: files)

theorem sourcesGood_congr {w w' : World} (h : w'.files = w.files) : ∀ paths, sourcesGood w' paths = sourcesGood w paths
  | [] => rfl
  | path :: paths => by unfold sourcesGood; rw [h, sourcesGood_congr h paths]

theorem sourcesGood_err (w : World) : ∀ (paths : List Str), sourcesGood w paths = .err .other ∨
    ∃ files, sourcesGood w paths = .ok files
  | [] => .inr ⟨_, rfl⟩
  | path :: paths => by
    unfold sourcesGood
    rcases w.files path with _ | bytes
    · exact .inl rfl
    · rcases sourcesGood_err w paths with h | ⟨files, h⟩
      · left; rw [h]; rfl
      · right; exact ⟨_, by rw [h]; rfl⟩

theorem openSources_spec : ∀ (paths : List Str) (w : World),
    (openSources paths w).1.files = w.files ∧
      ((openSources paths w).2 = sourcesGood w paths ∨ (openSources paths w).2 = .err .other) ∧
      (Sound w → (openSources paths w).2 = sourcesGood w paths)
  | [], w => ⟨rfl, .inl rfl, fun _ => rfl⟩
  | path :: paths, w => by
    obtain ⟨g1, g2, g3, g4, g5⟩ := openSource_spec path w
    unfold openSources sourcesGood
    generalize hr : openSource path w = r at *
    obtain ⟨w1, r1⟩ := r
    dsimp only at g1 g2 g3 g4 g5
    obtain ⟨i1, i2, i3⟩ := openSources_spec paths w1
    rw [sourcesGood_congr g1 paths] at i2 i3
    rcases hp : w.files path with _ | bytes
    · rw [hp] at g4
      have : r1 = .err .other := by rcases g4 with h | h <;> exact h
      rw [this]
      exact ⟨g1, .inl rfl, fun _ => rfl⟩
    · rw [hp] at g4 g5
      rcases g4 with h | h
      · rw [h]
        dsimp only [sourceGood]
        generalize openSources paths w1 = q at *
        obtain ⟨w2, r2⟩ := q
        dsimp only at i1 i2 i3
        generalize sourcesGood w paths = good at *
        rcases i2 with rfl | rfl
        · rcases r2 with x | e | u <;> exact ⟨i1.trans g1, .inl rfl, fun _ => rfl⟩
        · exact ⟨i1.trans g1, .inr rfl, fun hs => by rw [← i3 (g3 hs)]; rfl⟩
      · rw [h]
        refine ⟨g1, .inr rfl, fun hs => ?_⟩
        have := g5 hs
        rw [h] at this
        exact absurd this (by simp [sourceGood])

theorem sourcesGood_sources {w : World} {paths : List Str} {files : List (List Str)} (h : Sources w paths files) :
    sourcesGood w paths = .ok files := by
  induction h with
  | nil => rfl
  | cons h _ ih =>
    obtain ⟨bytes, hb, rfl⟩ := h
    unfold sourcesGood
    rw [hb, ih]
    rfl

theorem sourcesGood_missing {w : World} {p : Str} (hp : w.files p = none) : ∀ {paths : List Str}, p ∈ paths →
    sourcesGood w paths = .err .other
  | path :: paths, h => by
    unfold sourcesGood
    rcases hb : w.files path with _ | bytes
    · rfl
    · rcases List.mem_cons.mp h with rfl | h
      · rw [hp] at hb; cases hb
      · rw [sourcesGood_missing hp h]; rfl

theorem mended_sound (w : World) : Sound (mended w) := fun _ h => nomatch h

/-- A tool that goes on with `k` when the ROM is loaded, and otherwise fails with a line. -/
def afterLoad (pre : Str) (msg : Err → Str) (path : Str) (k : RomFile → World → World × Res Outcome) (w : World) :
    World × Res Outcome :=
  match loadRomFile path w with
  | (w, .ub u) => (w, .ub u)
  | (w, .err e) => (w, fails (pre ++ msg e))
  | (w, .ok r) => k r w

/-- A tool that goes on with `k` when the sources are read, and otherwise fails with a line. -/
def afterSources (msg : Err → Str) (paths : List Str) (k : List (List Str) → Res Outcome) (w : World) : World × Res Outcome :=
  match openSources paths w with
  | (w, .ub u) => (w, .ub u)
  | (w, .err e) => (w, fails (cs!"Error loading file: " ++ msg e))
  | (w, .ok files) => (w, k files)

/-- What a failing disk may do to an outcome. -/
def Robust (msg : Err → Str) (k : World → World × Res Outcome) : Prop :=
  ∀ w w' : World, w'.files = w.files → Sound w' → (k w).1.files = w.files ∧
    ((k w).2 = (k w').2 ∨ ∃ out line, (k w).2 = .ok out ∧ FailsWith out line ∧ msg .other <:+ line)

theorem robust_const (msg : Err → Str) (x : Res Outcome) : Robust msg fun w => (w, x) := fun _ _ _ _ => ⟨rfl, .inl rfl⟩

theorem robust_afterSources (msg : Err → Str) (paths : List Str) (k : List (List Str) → Res Outcome) :
    Robust msg (afterSources msg paths k) := by
  intro w w' hf hs
  obtain ⟨g1, g2, -⟩ := openSources_spec paths w
  obtain ⟨-, -, k3⟩ := openSources_spec paths w'
  replace k3 := k3 hs
  rw [sourcesGood_congr hf] at k3
  unfold afterSources
  generalize openSources paths w = q at *
  generalize openSources paths w' = q' at *
  obtain ⟨w1, r1⟩ := q
  obtain ⟨w1', r1'⟩ := q'
  dsimp only at g1 g2 k3
  subst k3
  rcases g2 with h | h
  · subst h
    rcases sourcesGood w paths with x | e | u <;> exact ⟨g1, .inl rfl⟩
  · subst h
    exact ⟨g1, .inr ⟨_, _, rfl, rfl, List.suffix_append _ _⟩⟩

theorem robust_afterLoad {pre : Str} {msg : Err → Str} {path : Str} {k : RomFile → World → World × Res Outcome}
    (hk : ∀ r, Robust msg (k r)) : Robust msg (afterLoad pre msg path k) := by
  intro w w' hf hs
  obtain ⟨g1, -, -, -, g5, -⟩ := loadRomFile_spec path w
  obtain ⟨k1, -, -, k4, -, k6⟩ := loadRomFile_spec path w'
  replace k6 := k6 hs
  replace k4 := k4 hs
  rw [hf] at k6 k1
  unfold afterLoad
  generalize loadRomFile path w = q at *
  generalize loadRomFile path w' = q' at *
  obtain ⟨w1, r1⟩ := q
  obtain ⟨w1', r1'⟩ := q'
  dsimp only at g1 g5 k1 k4 k6
  subst k6
  rcases g5 with h | h
  · subst h
    rcases loadGood (w.files path) with x | e | u
    · obtain ⟨m1, m2⟩ := hk x w1 w1' (k1.trans g1.symm) k4
      exact ⟨m1.trans g1, m2⟩
    · exact ⟨g1, .inl rfl⟩
    · exact ⟨g1, .inl rfl⟩
  · subst h
    exact ⟨g1, .inr ⟨_, _, rfl, rfl, List.suffix_append _ _⟩⟩

/-! ## The tools in this form -/

/-- What quick_assemble does with the sources and this ROM. -/
def assembleWith (msg : Err → Str) (fuel : Nat) (path : Str) (paths : List Str) (r : RomFile) : World → World × Res Outcome :=
  if isAsmPath path then fun w => (w, fails (cs!"Error: " ++ path ++ cs!" given as output path"))
  else if path = cs!"-" then afterSources msg paths fun files => assembleRom msg fuel r cs!"-" files
  else fun w => (w, .ub .nullDeref)

theorem quickAssemble_eq (msg : Err → Str) (fuel : Nat) (prog rom path source : Str) (sources : List Str) (w : World) :
    quickAssemble msg fuel (prog :: rom :: path :: source :: sources) w =
      afterLoad cs!"Error loading ROM: " msg rom (assembleWith msg fuel path (source :: sources)) w := by
  unfold quickAssemble afterLoad
  dsimp only
  rcases loadRomFile rom w with ⟨w1, r | e | u⟩
  · show assembleLoaded msg fuel r path (source :: sources) w1 = assembleWith msg fuel path (source :: sources) r w1
    unfold assembleLoaded assembleWith
    split
    · rfl
    · split
      · rename_i hp
        subst hp
        rfl
      · rfl
  · rfl
  · rfl

theorem disassembleMore_eq (msg : Err → Str) (fuel : Nat) (prog rom source : Str) (sources : List Str) (w : World) :
    disassembleMore msg fuel (prog :: rom :: source :: sources) w =
      afterLoad cs!"Error loading ROM: " msg rom
        (fun r => afterSources msg (source :: sources) fun files => disassembleMoreRom msg fuel r.rom files) w := rfl

theorem quickDisassemble_eq (msg : Err → Str) (fuel : Nat) (prog path address mode : Str) (rest : List Str) (w : World) :
    quickDisassemble msg fuel (prog :: path :: address :: mode :: rest) w =
      afterLoad [] msg path (fun r w => (w, do
        match ← readPairs msg prog r.rom [] (address :: mode :: rest) with
        | .error lines => .ok { lines := lines, status := 1 }
        | .ok seeds =>
          let (d, _, ls) ← passes msg fuel r.rom.read (fun _ => false) 100 .empty seeds
          finishListing msg d ls)) w := rfl

/-- What dumb_disassemble does with a ROM. -/
def dumbWith (msg : Err → Str) (fuel : Nat) (address mode : Str) (r : RomFile) : Res Outcome :=
  match scanHex address with
  | .mismatch => .ok { lines := usageDumb address, status := 1 }
  | .misfit => .ub .overflow
  | .number v => dumbRom msg fuel r.rom v mode
  | .exhausted => if StatusFlags.fromName mode = none then dumbRom msg fuel r.rom 0 mode else .ub .nullDeref

theorem dumbDisassemble_eq (msg : Err → Str) (fuel : Nat) (prog path address mode : Str) (rest : List Str) (w : World) :
    dumbDisassemble msg fuel (prog :: path :: address :: mode :: rest) w =
      afterLoad [] msg path (fun r w => (w, dumbWith msg fuel address mode r)) w := by
  unfold dumbDisassemble afterLoad dumbWith
  dsimp only
  rcases loadRomFile path w with ⟨w1, r | e | u⟩
  · dsimp only
    rcases scanHex address with v | _ | _ | _ <;> rfl
  · rfl
  · rfl

theorem quickDump_eq (msg : Err → Str) (prog path address count : Str) (rest : List Str) (w : World) :
    quickDump msg (prog :: path :: address :: count :: rest) w =
      afterLoad [] msg path (fun r w => (w, dumpLoaded prog r.rom address count rest)) w := rfl

/-- A tool prints its usage, or goes on after loading the ROM named first. -/
theorem tool_cases {msg : Err → Str} {fuel : Nat} {tool : Tool} (h : IsTool msg fuel tool) (argv : List Str) :
    (argv.length < 4 ∧ ∃ lines, ∀ w, tool argv w = (w, .ok { lines := lines, status := 0 })) ∨
      ∃ pre rom k, argv[1]? = some rom ∧ (∀ r, Robust msg (k r)) ∧ ∀ w, tool argv w = afterLoad pre msg rom k w := by
  cases h with
  | quickAssemble =>
    rcases argv with _ | ⟨prog, _ | ⟨rom, _ | ⟨path, _ | ⟨source, sources⟩⟩⟩⟩
    · exact .inl ⟨by simp, _, fun _ => rfl⟩
    · exact .inl ⟨by simp, _, fun _ => rfl⟩
    · exact .inl ⟨by simp, _, fun _ => rfl⟩
    · exact .inl ⟨by simp, _, fun _ => rfl⟩
    · refine .inr ⟨_, rom, _, rfl, fun r => ?_, quickAssemble_eq msg fuel prog rom path source sources⟩
      unfold assembleWith
      split
      · exact robust_const _ _
      · split
        · exact robust_afterSources _ _ _
        · exact robust_const _ _
  | disassembleMore =>
    rcases argv with _ | ⟨prog, _ | ⟨rom, _ | ⟨source, sources⟩⟩⟩
    · exact .inl ⟨by simp, _, fun _ => rfl⟩
    · exact .inl ⟨by simp, _, fun _ => rfl⟩
    · exact .inl ⟨by simp, _, fun _ => rfl⟩
    · exact .inr ⟨_, rom, _, rfl, fun r => robust_afterSources _ _ _, disassembleMore_eq msg fuel prog rom source sources⟩
  | quickDisassemble =>
    rcases argv with _ | ⟨prog, _ | ⟨rom, _ | ⟨address, _ | ⟨mode, rest⟩⟩⟩⟩
    · exact .inl ⟨by simp, _, fun _ => rfl⟩
    · exact .inl ⟨by simp, _, fun _ => rfl⟩
    · exact .inl ⟨by simp, _, fun _ => rfl⟩
    · exact .inl ⟨by simp, _, fun _ => rfl⟩
    · exact .inr ⟨_, rom, _, rfl, fun r => robust_const _ _, quickDisassemble_eq msg fuel prog rom address mode rest⟩
  | dumbDisassemble =>
    rcases argv with _ | ⟨prog, _ | ⟨rom, _ | ⟨address, _ | ⟨mode, rest⟩⟩⟩⟩
    · exact .inl ⟨by simp, _, fun _ => rfl⟩
    · exact .inl ⟨by simp, _, fun _ => rfl⟩
    · exact .inl ⟨by simp, _, fun _ => rfl⟩
    · exact .inl ⟨by simp, _, fun _ => rfl⟩
    · exact .inr ⟨_, rom, _, rfl, fun r => robust_const _ _, dumbDisassemble_eq msg fuel prog rom address mode rest⟩
  | quickDump =>
    rcases argv with _ | ⟨prog, _ | ⟨rom, _ | ⟨address, _ | ⟨count, rest⟩⟩⟩⟩
    · exact .inl ⟨by simp, _, fun _ => rfl⟩
    · exact .inl ⟨by simp, _, fun _ => rfl⟩
    · exact .inl ⟨by simp, _, fun _ => rfl⟩
    · exact .inl ⟨by simp, _, fun _ => rfl⟩
    · exact .inr ⟨_, rom, _, rfl, fun r => robust_const _ _, quickDump_eq msg prog rom address count rest⟩

/-- Loading on a disk that does not fail. -/
theorem afterLoad_sound {pre : Str} {msg : Err → Str} {path : Str} {k : RomFile → World → World × Res Outcome} {w : World}
    {file : List UInt8} (hs : Sound w) (hf : w.files path = some file) (hl : file.length < 0x80000000) :
    ∃ w1, w1.files = w.files ∧ Sound w1 ∧ (afterLoad pre msg path k w).2 = match RomFile.load file with
      | .ub u => .ub u
      | .err e => .ok { lines := [pre ++ msg e], status := 1 }
      | .ok r => (k r w1).2 := by
  obtain ⟨g1, -, -, g4, -, g6⟩ := loadRomFile_spec path w
  replace g6 := g6 hs
  rw [hf, loadGood_eq hl] at g6
  unfold afterLoad
  generalize loadRomFile path w = q at *
  obtain ⟨w1, r1⟩ := q
  dsimp only at g1 g4 g6
  subst g6
  refine ⟨w1, g1, g4 hs, ?_⟩
  rcases RomFile.load file with r | e | u <;> rfl

theorem afterSources_sound {msg : Err → Str} {paths : List Str} {k : List (List Str) → Res Outcome} {w : World}
    {files : List (List Str)} (hs : Sound w) (hf : Sources w paths files) : (afterSources msg paths k w).2 = k files := by
  obtain ⟨-, -, g3⟩ := openSources_spec paths w
  replace g3 := g3 hs
  rw [sourcesGood_sources hf] at g3
  unfold afterSources
  generalize openSources paths w = q at *
  obtain ⟨w1, r1⟩ := q
  dsimp only at g3
  subst g3
  rfl

theorem afterSources_missing {msg : Err → Str} {paths : List Str} {k : List (List Str) → Res Outcome} {w : World}
    {p : Str} (hp : p ∈ paths) (hf : w.files p = none) :
    (afterSources msg paths k w).2 = .ok { lines := [cs!"Error loading file: " ++ msg .other], status := 1 } := by
  obtain ⟨-, g2, -⟩ := openSources_spec paths w
  rw [sourcesGood_missing hf hp] at g2
  unfold afterSources
  generalize openSources paths w = q at *
  obtain ⟨w1, r1⟩ := q
  dsimp only at g2
  have : r1 = .err .other := by rcases g2 with h | h <;> exact h
  subst this
  rfl

end Nsasm.CommandLine
