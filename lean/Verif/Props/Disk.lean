import Verif.Lemmas.CommandLine

/-!
# An error of the disk is reported

C91.
-/

namespace Nsasm.Props

open Nsasm Nsasm.Spec Disk Tools

/-- Loading a ROM changes no file.  What is loaded is what the file holds, whatever the disk does; a disk that does not fail loads
every file that is a ROM, and there is an error when the file is missing.  Missing: files of 2 GiB and more
(`C91_violated_large`). -/
theorem C91_load_partial {path : Str} {w w' : World} {r : Res RomFile} (h : loadRomFile path w = (w', r)) :
    w'.files = w.files ∧ (w.files path = none → ∃ e, r = .err e) ∧
    ∀ bytes, w.files path = some bytes → bytes.length < 2147483648 →
      (∀ f, r = .ok f → IsRomFile bytes f) ∧ (∀ f, Sound w → IsRomFile bytes f → r = .ok f) ∧
      (∀ u, r = .ub u → bytes.length = 512) := by
  obtain ⟨g1, -, -, -, g5, g6⟩ := loadRomFile_spec path w
  rw [h] at g1 g5 g6
  dsimp only at g1 g5 g6
  refine ⟨g1, fun hn => ?_, fun bytes hb hl => ⟨fun f hf => ?_, fun f hs hf => ?_, fun u hu => ?_⟩⟩
  · rw [hn] at g5
    rcases g5 with g5 | g5 <;> exact ⟨_, g5⟩
  · rw [hb, loadGood_eq hl, hf] at g5
    rcases g5 with g5 | g5
    · exact (C60_load _ _).1 g5.symm
    · cases g5
  · rw [g6 hs, hb, loadGood_eq hl]
    exact (C60_load _ _).2 hf
  · rw [hb, loadGood_eq hl, hu] at g5
    rcases g5 with g5 | g5
    · by_contra hne
      have := C60_defined_partial (file := bytes) hne
      rw [← g5] at this
      exact this
    · cases g5

/-- A file of more than 4 GiB is taken for the ROM that it begins with. -/
theorem C91_violated_large : ∃ (w : World) (path : Str) (bytes : List UInt8) (f : RomFile),
    w.files path = some bytes ∧ Sound w ∧ (loadRomFile path w).2 = .ok f ∧ ¬ IsRomFile bytes f := by
  have hlen : (plainImage 0x7fdc 0x10000).length = 0x10000 := plainImage_length (by omega)
  have hok : RomFile.load (plainImage 0x7fdc 0x10000) = .ok ⟨[], ⟨.loRom, plainImage 0x7fdc 0x10000⟩⟩ := by
    refine (C60_load _ _).2 ⟨.bare ?_, ?_, plainImage_checksum .., ?_⟩ <;>
    first
      | exact plainImage_no_checksum (by omega)
      | (simp only; rw [hlen]; omega)
      | rw [hlen]
  generalize plainImage 0x7fdc 0x10000 = image at hlen hok
  obtain ⟨bytes, hbytes⟩ : ∃ bytes, bytes = image ++ List.replicate 0x100000000 (0 : UInt8) := ⟨_, rfl⟩
  have hbl : bytes.length = 0x100010000 := by rw [hbytes, List.length_append, List.length_replicate, hlen]
  have hti : toInt bytes.length = 0x10000 := by rw [hbl]; rfl
  refine ⟨⟨fun _ => some bytes, [], 0⟩, [], bytes, ⟨[], ⟨.loRom, image⟩⟩, rfl, (fun _ h => nomatch h), ?_, ?_⟩
  · obtain ⟨-, -, -, -, -, g6⟩ := loadRomFile_spec [] ⟨fun _ => some bytes, [], 0⟩
    rw [g6 (fun _ h => nomatch h), ← hok, ← loadGood_eq (bytes := image) (by omega)]
    show loadGood (some bytes) = _
    unfold loadGood
    dsimp only
    rw [hti, toInt_small (by omega), hlen]
    rw [if_neg (by decide), if_neg (by decide)]
    unfold sizedGood
    rw [if_neg (by decide), if_neg (by decide), if_neg (by decide), if_neg (by decide), if_neg (by decide), if_neg (by decide)]
    have : bytes.take 0x10000 = image := by rw [hbytes, List.take_left' hlen]
    show recognise [] (bytes.take 0x10000) 0x10000 = recognise [] (image.take 0x10000) 0x10000
    rw [this, List.take_of_length_le (by omega)]
  · rintro ⟨hs, -, -⟩
    dsimp only at hs
    generalize hH : ([] : List UInt8) = H at hs
    have := splits_unique hs
    rw [if_neg (by rw [hbl]; decide)] at this
    have h2 := congrArg List.length this.2.2
    rw [if_neg (by rw [hbl]; decide)] at h2
    omega

/-- Opening a source file changes no file and leaves no stream open.  Either there is an error, or the lines are those of the
whole file; a disk that does not fail reads every file that is there. -/
theorem C91_source {path : Str} {w w' : World} {r : Res (List Str)} (h : openSource path w = (w', r)) :
    w'.files = w.files ∧ w'.open_ = w.open_ ∧
    ((∃ e, r = .err e) ∨ ∃ bytes, w.files path = some bytes ∧ r = .ok (sourceLines bytes)) ∧
    ∀ bytes, Sound w → w.files path = some bytes → r = .ok (sourceLines bytes) := by
  obtain ⟨g1, g2, -, g4, g5⟩ := openSource_spec path w
  rw [h] at g1 g2 g4 g5
  dsimp only at g1 g2 g4 g5
  refine ⟨g1, g2, ?_, fun bytes hs hb => ?_⟩
  · rcases g4 with g4 | g4
    · rcases hb : w.files path with _ | bytes
      · rw [hb] at g4; exact .inl ⟨_, g4⟩
      · rw [hb] at g4; exact .inr ⟨bytes, rfl, g4⟩
    · exact .inl ⟨_, g4⟩
  · rw [g5 hs, hb]; rfl

/-- A ROM that was loaded leaves no stream open, and neither does a file that was not loaded, if it has no header.  Missing:
files with a header (`C91_violated_open`). -/
theorem C91_closed_partial {path : Str} {w w' : World} {r : Res RomFile} (h : loadRomFile path w = (w', r))
    (hc : (∃ f, r = .ok f) ∨ ∀ bytes, w.files path = some bytes → bytes.length % 4096 ≠ 512) : w'.open_ = w.open_ := by
  obtain ⟨-, g2, g3, -⟩ := loadRomFile_spec path w
  rw [h] at g2 g3
  rcases hc with ⟨f, hf⟩ | hc
  · exact g3 f hf
  · exact g2 hc

/-- A disk error while the header is read leaves the stream open. -/
theorem C91_violated_open : ∃ (w w' : World) (path : Str) (e : Err), loadRomFile path w = (w', .err e) ∧
    w'.open_ = w.open_ + 1 := by
  obtain ⟨w, hw⟩ : ∃ w : World, w = ⟨fun _ => some (List.replicate 512 0), [.fine, .fine, .fine, .fine, .fails 0], 0⟩ := ⟨_, rfl⟩
  have h1 : (match (loadRomFile [] w).2 with | .err .other => true | _ => false) = true := by rw [hw]; decide +kernel
  have h2 : (loadRomFile [] w).1.open_ = w.open_ + 1 := by rw [hw]; decide +kernel
  refine ⟨w, _, [], .other, Prod.ext rfl ?_, h2⟩
  generalize (loadRomFile [] w).2 = r at h1 ⊢
  split at h1
  · rfl
  · cases h1

/-- Saving writes the header and the image to the file, and nothing else; no other file is changed, even when it fails.  If there
is no error, the file holds all of it and is closed; otherwise it is as it was, or holds the beginning.  There is no error when
the disk does not fail. -/
theorem C91_save {file : List UInt8} {f : RomFile} (hf : IsRomFile file f) {path : Str} {image : List UInt8} (hi : image ≠ [])
    {w w' : World} {r : Res Unit} (h : createFile path f.header image w = (w', r)) :
    (∀ p, p ≠ path → w'.files p = w.files p) ∧
    (r = .ok () ∧ w'.files path = some (f.header ++ image) ∧ w'.open_ = w.open_ ∨
      (∃ e, r = .err e) ∧ (w'.files path = w.files path ∨ ∃ n, w'.files path = some ((f.header ++ image).take n))) ∧
    (Sound w → r = .ok ()) := by
  obtain ⟨g1, g2, g3, g4, g5⟩ := createFile_spec path f.header image w hi
  rw [h] at g1 g2 g3 g4 g5
  dsimp only at g1 g2 g3 g4 g5
  have hl : f.header = [] ∨ f.header.length = 512 := by
    obtain ⟨hs, -, -⟩ := hf
    generalize f.header = H, f.rom.data = D at hs
    cases hs with
    | bare => exact .inl rfl
    | headed size => exact .inr size
  have hsv : savedBytes f.header image = f.header ++ image := by
    unfold savedBytes
    rcases hl with hl | hl
    · rw [if_neg (by simp [hl]), hl]
    · rw [List.take_of_length_le (by omega)]
      split
      · rfl
      · rename_i hne; rw [Classical.not_not.mp hne]
  rw [hsv] at g3 g4
  refine ⟨g1, ?_, fun hs => g5 hs (by rcases hl with hl | hl; exact .inl hl; exact .inr (by omega))⟩
  rcases g2 with g2 | g2
  · exact .inl ⟨g2, (g4 g2).1, (g4 g2).2⟩
  · exact .inr ⟨⟨_, g2⟩, g3⟩

/-- When saving fails, what was in the file is lost, and the stream is left open. -/
theorem C91_violated_save : ∃ (w w' : World) (path : Str) (old image : List UInt8) (e : Err), w.files path = some old ∧
    createFile path [] image w = (w', .err e) ∧ w'.files path = some [] ∧ old ≠ [] ∧ image ≠ [] ∧ w'.open_ = w.open_ + 1 :=
  ⟨⟨fun _ => some [1, 2, 3], [.fine, .fails 0], 0⟩, _, [], [1, 2, 3], [4, 5, 6], .other, rfl, rfl, by decide +kernel, by decide,
    by decide, by decide +kernel⟩

/-- A tool changes no file, and an error of the disk either makes no difference or is reported in one line, with status 1. -/
theorem C91_tools {msg : Err → Str} {fuel : Nat} {tool : Tool} (h : IsTool msg fuel tool) (argv : List Str) (w : World) :
    (tool argv w).1.files = w.files ∧
    ((tool argv w).2 = (tool argv (mended w)).2 ∨
      ∃ out line, (tool argv w).2 = .ok out ∧ FailsWith out line ∧ msg .other <:+ line) := by
  rcases CommandLine.tool_cases h argv with ⟨-, lines, hu⟩ | ⟨pre, rom, k, -, hk, he⟩
  · rw [hu, hu]; exact ⟨rfl, .inl rfl⟩
  · rw [he, he]
    exact CommandLine.robust_afterLoad hk w (mended w) rfl (CommandLine.mended_sound w)

/-- Without the ROM, every tool fails with status 1. -/
theorem C91_no_rom {msg : Err → Str} {fuel : Nat} {tool : Tool} (h : IsTool msg fuel tool) {argv : List Str} {w : World}
    {rom : Str} (hl : 4 ≤ argv.length) (ha : argv[1]? = some rom) (hn : w.files rom = none) :
    ∃ out line, (tool argv w).2 = .ok out ∧ FailsWith out line := by
  rcases CommandLine.tool_cases h argv with ⟨hs, -⟩ | ⟨pre, rom', k, hr, -, he⟩
  · omega
  · rw [ha] at hr
    obtain rfl := Option.some.inj hr
    rw [he]
    obtain ⟨-, -, -, -, g5, -⟩ := loadRomFile_spec rom w
    rw [hn] at g5
    unfold CommandLine.afterLoad
    generalize loadRomFile rom w = q at *
    obtain ⟨w1, r1⟩ := q
    dsimp only at g5
    have : r1 = .err .other := by rcases g5 with h | h <;> exact h
    subst this
    exact ⟨_, _, rfl, rfl⟩

/-- Without one of the sources, quick_assemble and disassemble_more fail with status 1, if they come to an end. -/
theorem C91_no_source {msg : Err → Str} {fuel : Nat} {prog rom path p : Str} {sources : List Str} {w : World} {out : Outcome}
    (hp : p ∈ sources) (hn : w.files p = none)
    (h : (CommandLine.quickAssemble msg fuel (prog :: rom :: path :: sources) w).2 = .ok out ∨
      (CommandLine.disassembleMore msg fuel (prog :: rom :: sources) w).2 = .ok out) : ∃ line, FailsWith out line := by
  rcases sources with _ | ⟨source, sources⟩
  · simp at hp
  have key : ∀ (k : RomFile → World → World × Res Outcome), (∀ r w', w'.files = w.files →
      ∀ out, (k r w').2 = .ok out → ∃ line, FailsWith out line) →
      ∀ out, (CommandLine.afterLoad cs!"Error loading ROM: " msg rom k w).2 = .ok out → ∃ line, FailsWith out line := by
    intro k hk out h
    obtain ⟨g1, -⟩ := loadRomFile_spec rom w
    unfold CommandLine.afterLoad at h
    generalize loadRomFile rom w = q at *
    obtain ⟨w1, r | e | u⟩ := q
    · exact hk r w1 g1 out h
    · exact ⟨_, (Res.ok.inj h).symm⟩
    · cases h
  rcases h with h | h
  · rw [CommandLine.quickAssemble_eq] at h
    refine key _ (fun r w' hw out h => ?_) out h
    unfold CommandLine.assembleWith at h
    split at h
    · exact ⟨_, (Res.ok.inj h).symm⟩
    · split at h
      · rw [CommandLine.afterSources_missing hp (by rw [hw]; exact hn)] at h
        exact ⟨_, (Res.ok.inj h).symm⟩
      · cases h
  · rw [CommandLine.disassembleMore_eq] at h
    refine key _ (fun r w' hw out h => ?_) out h
    rw [CommandLine.afterSources_missing hp (by rw [hw]; exact hn)] at h
    exact ⟨_, (Res.ok.inj h).symm⟩

/-! ## Examples -/

/-- A disk with a ROM with a header, and a source file. -/
def exampleDisk (answers : List Answer) : World :=
  ⟨fun p => if p = cs!"game.sfc" then some (List.replicate 512 7 ++ plainImage 0x7fdc 0x10000)
    else if p = cs!"a.asm" then some [32, 110, 111, 112, 10, 10, 32, 114, 116, 115] else none, answers, 0⟩

theorem exampleRom : IsRomFile (List.replicate 512 7 ++ plainImage 0x7fdc 0x10000)
    ⟨List.replicate 512 7, ⟨.loRom, plainImage 0x7fdc 0x10000⟩⟩ := by
  refine ⟨.headed (List.length_replicate ..) ?_, ?_, plainImage_checksum .., ?_⟩ <;>
    first
      | exact plainImage_no_checksum (by omega)
      | (simp only; rw [plainImage_length (by omega)]; omega)
      | rw [plainImage_length (by omega)]

theorem exampleRom_length : (List.replicate 512 7 ++ plainImage 0x7fdc 0x10000).length = 66048 := by
  rw [List.length_append, List.length_replicate, plainImage_length (by omega)]

theorem exampleDisk_rom (answers : List Answer) :
    (exampleDisk answers).files cs!"game.sfc" = some (List.replicate 512 7 ++ plainImage 0x7fdc 0x10000) := rfl

/-- The ROM is loaded when the disk does not fail. -/
example : (loadRomFile cs!"game.sfc" (exampleDisk [])).2 = .ok ⟨List.replicate 512 7, ⟨.loRom, plainImage 0x7fdc 0x10000⟩⟩ :=
  ((C91_load_partial (Prod.eta (loadRomFile cs!"game.sfc" (exampleDisk []))).symm).2.2 _ (exampleDisk_rom [])
    (by rw [exampleRom_length]; omega)).2.1 _ (fun _ h => nomatch h) exampleRom

/-- The source is read, or not when reading fails. -/
example : (openSource cs!"a.asm" (exampleDisk [])).2 = .ok [cs!" nop", [], cs!" rts"] ∧
    (openSource cs!"a.asm" (exampleDisk [.fine, .fails 4])).2 = .err .other := by
  constructor <;> decide +kernel

/-- A missing source. -/
example : ∃ out, (CommandLine.quickAssemble (fun _ => cs!"why") 10
      [cs!"quick_assemble", cs!"game.sfc", cs!"-", cs!"a.asm", cs!"b.asm"] (exampleDisk [])).2 = .ok out ∧
    out.lines = [cs!"Error loading file: why"] ∧ out.status = 1 := by
  refine ⟨{ lines := [cs!"Error loading file: why"], status := 1 }, ?_, rfl, rfl⟩
  rw [CommandLine.quickAssemble_eq]
  obtain ⟨w1, hf, hs, he⟩ := CommandLine.afterLoad_sound (pre := cs!"Error loading ROM: ") (msg := fun _ => cs!"why")
    (k := CommandLine.assembleWith (fun _ => cs!"why") 10 cs!"-" [cs!"a.asm", cs!"b.asm"]) (w := exampleDisk [])
    (fun _ h => nomatch h) (exampleDisk_rom []) (by rw [exampleRom_length]; omega)
  rw [he, (C60_load _ _).2 exampleRom]
  exact CommandLine.afterSources_missing (p := cs!"b.asm") (by simp) (by rw [hf]; rfl)

/-- Saving. -/
example : (createFile cs!"out" [] [1, 2, 3] (exampleDisk [])).2 = .ok () ∧
    (createFile cs!"out" [] [1, 2, 3] (exampleDisk [])).1.files cs!"out" = some [1, 2, 3] := by
  constructor <;> decide +kernel

end Nsasm.Props
