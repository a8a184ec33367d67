import Verif.Lemmas.Driver
import Verif.Props.Accept
import Verif.Props.Tools

/-! # C67, C68: the disassembling tool -/

namespace Nsasm.Props
open Nsasm Nsasm.Spec Tools

/-! ## C67 -/

theorem comment_tokens {l : Str} (h : l.head? = some ';') : tokenize l = .ok [.eol] := by
  cases l with
  | nil => cases h
  | cons c l =>
    simp only [List.head?_cons, Option.some.injEq] at h
    subst h
    unfold tokenize tokenizeLoop
    simp [stripLeading, isSpace]

theorem loadLines_comments : ∀ {printed : List Str} (ld : Module.Loading) (rest : List Str),
    (∀ l ∈ printed, l.head? = some ';') → Module.loadLines ld (printed ++ rest) = Module.loadLines ld rest := by
  intro printed
  induction printed with
  | nil => intro ld rest _; rfl
  | cons l printed ih =>
    intro ld rest h
    rw [List.cons_append]
    conv => lhs; unfold Module.loadLines
    rw [comment_tokens (h l (by simp))]
    exact ih ld rest fun x hx => h x (by simp [hx])

theorem assembleFiles_comments {σ : Type} {printed rest : List Str} (h : ∀ l ∈ printed, l.head? = some ';')
    (fuel : Nat) (sink : Sink σ) (s : σ) :
    Assembler.assembleFiles fuel [printed ++ rest] sink s = Assembler.assembleFiles fuel [rest] sink s := by
  unfold Assembler.assembleFiles Assembler.loadAll Module.loadAsmFile
  rw [loadLines_comments _ _ h]

theorem empty_reported (src : Source) : Reported HasName src .empty [] := .new

/-- **What the tool prints** is the listing of a disassembly of the ROM, after some comment lines about calls that
failed. -/
theorem C67_output {msg : Err → Str} {fuel : Nat} {rom : Rom} {args : List SeedArg} {out : Outcome}
    (h : disassembleRom msg fuel rom args = .ok out) (h0 : out.status = 0) :
    ∃ d d' printed, Session HasName rom.read d ∧ d.cleanup = .ok d' ∧ (∀ l ∈ printed, l.head? = some ';') ∧
      out.lines = printed ++ Print.listing d'.disassembly := by
  unfold disassembleRom at h
  obtain ⟨x, hx, h⟩ := Res.bind_eq_ok.mp h
  cases x with
  | error line => simp only [Res.ok.injEq] at h; subst h; cases h0
  | ok seeds =>
    simp only at h
    obtain ⟨⟨d, left, printed⟩, hp, h⟩ := Res.bind_eq_ok.mp h
    have hs := (readSeeds_spec args ⟨List.Pairwise.nil, fun a f h => by cases h⟩ hx).1
    obtain ⟨⟨-, -, ⟨log, hr, -⟩, hc, -⟩, -⟩ := passes_did 100 (empty_reported rom.read) hs hp
    simp only [finishListing] at h
    split at h
    · cases h
    · cases h; cases h0
    · next d' hcl =>
      cases h
      exact ⟨d, d', printed, reported_session hr, hcl, hc, rfl⟩

/-- **What the tool prints can be assembled back.**  When the disassembling tool ends well, then the assembling tool,
given the same ROM and the printed lines, finds that they assemble to what the ROM has.

Partial: as `C65_listing_accepted_partial`; when no errors were printed, the last hypothesis only concerns the mode
and the sizes (`C67_entries`). -/
theorem C67_round_trip_partial {msg : Err → Str} {fuel : Nat} {r : RomFile} {args : List SeedArg} {seeds left : OMap StatusFlags}
    {d d' : Disassembler} {printed : List Str} (hseeds : readSeeds msg r.rom [] args = .ok (.ok seeds))
    (hrun : passes msg fuel r.rom.read (fun _ => false) 100 .empty seeds = .ok (d, left, printed))
    (hcl : d.cleanup = .ok d') (hlaid : LaidOut d.disassembly)
    (hok : ∀ a it, Lists d.disassembly a it → it.instruction.mnemonic ≠ .per ∧ SizeSettled it)
    (hentry : ∀ a it, Lists d'.disassembly a it → it.isEntry = true → Declarable it.current) :
    ∃ out, disassembleRom msg fuel r.rom args = .ok out ∧ out.status = 0 ∧
      ∃ N, ∀ fuel' ≥ N, ∀ msg', ∃ out', assembleRom msg' fuel' r cs!"-" [out.lines] = .ok out' ∧ out'.status = 0 := by
  have hs := (readSeeds_spec args ⟨List.Pairwise.nil, fun a f h => by cases h⟩ hseeds).1
  obtain ⟨⟨-, -, ⟨log, hr, -⟩, hc, -⟩, -⟩ := passes_did 100 (empty_reported r.rom.read) hs hrun
  refine ⟨{ lines := printed ++ Print.listing d'.disassembly, status := 0 }, ?_, rfl, ?_⟩
  · unfold disassembleRom
    rw [hseeds]
    simp only [Res.bind_ok, hrun]
    simp only [finishListing, hcl]
  · obtain ⟨N, hN⟩ := C65_rom_round_trip_partial r.rom (reported_session hr) hcl hlaid hok hentry
    refine ⟨N, fun fuel' hf msg' => ?_⟩
    obtain ⟨ws, a, ha, vs, hv, -, hin, -⟩ := hN fuel' hf recorder (fun _ _ _ => rfl) []
    have hvw := feeds_recorder_eq hv
    simp only [List.nil_append] at hvw
    subst hvw
    refine ⟨_, (C66_identity_check _).mpr ⟨ws, a, ?_, hin, rfl⟩⟩
    unfold Assembles
    rw [assembleFiles_comments hc]
    exact ha

/-- When no errors were printed, nothing is recorded about the carry or the stack at the entry points of the listing,
so whether they can be declared only depends on the mode and the sizes. -/
theorem C67_entries {msg : Err → Str} {fuel : Nat} {rom : Rom} {args : List SeedArg} {seeds left : OMap StatusFlags}
    {d d' : Disassembler} (hseeds : readSeeds msg rom [] args = .ok (.ok seeds))
    (hrun : passes msg fuel rom.read (fun _ => false) 100 .empty seeds = .ok (d, left, []))
    (hcl : d.cleanup = .ok d') {a : Addr} {it : DisItem} (hl : Lists d'.disassembly a it) (he : it.isEntry = true) :
    Declarable it.current ↔
      Decided it.current.flags.e ∨ ¬ Decided it.current.flags.m ∧ ¬ Decided it.current.flags.x := by
  have hs := (readSeeds_spec args ⟨List.Pairwise.nil, fun a f h => by cases h⟩ hseeds).1
  obtain ⟨⟨-, -, -, -, hx⟩, -⟩ := passes_did 100 (empty_reported rom.read) hs hrun
  exact C65_entries (hx rfl .new) hcl hl he

/-! ## C68 -/

/-- **The seeds are what was asked for.**  Each address asked for is a seed, and the flags of a seed are those that
one of the arguments gives for its address. -/
theorem C68_seeds {msg : Err → Str} {rom : Rom} {args : List SeedArg} {seeds : OMap StatusFlags}
    (hseeds : readSeeds msg rom [] args = .ok (.ok seeds)) :
    (∀ arg ∈ args, ∃ a f g, AsksFor rom arg a f ∧ seeds.find a = some g) ∧
    (∀ a f, seeds.find a = some f → ∃ arg ∈ args, AsksFor rom arg a f) := by
  obtain ⟨-, -, h1, h2⟩ := readSeeds_spec args ⟨List.Pairwise.nil, fun a f h => by cases h⟩ hseeds
  exact ⟨h1, fun a f h => (h2 a f h).resolve_left (by simp [OMap.find])⟩

/-- **All seeds and all calls are followed.**  When the passes end with nothing left to do, every seed is listed,
with a recorded state that is right whenever the flags were; and so is the target of every listed jump or call to
a known address, for all flags that the state at the call site allows.  Otherwise the tool has printed that
disassembling there failed.

Partial: the tool stops after 100 passes even if something is left to do (`C68_violated`). -/
theorem C68_all_followed_partial {msg : Err → Str} {fuel : Nat} {rom : Rom} {args : List SeedArg} {seeds : OMap StatusFlags}
    {d : Disassembler} {printed : List Str} (hseeds : readSeeds msg rom [] args = .ok (.ok seeds))
    (hrun : passes msg fuel rom.read (fun _ => false) 100 .empty seeds = .ok (d, [], printed)) :
    (∀ a f, seeds.find a = some f → Handled msg d.disassembly printed a f) ∧
    (∀ a it t, Lists d.disassembly a it → JumpsTo it.instruction a t →
      Handled msg d.disassembly printed t it.current.flags) := by
  have hs := (readSeeds_spec args ⟨List.Pairwise.nil, fun a f h => by cases h⟩ hseeds).1
  have hnone : ∀ {a : Addr} {f : StatusFlags},
      ¬ ∃ g, OMap.find ([] : OMap StatusFlags) a = some g ∧ FlagsBelow f g := by
    rintro a f ⟨g, h, -⟩; cases h
  obtain ⟨⟨-, -, ⟨log, hr, hlog⟩, -, -⟩, hseed⟩ := passes_did 100 (empty_reported rom.read) hs hrun
  rw [List.append_nil] at hr
  have hnc := noConventions_passes 100 (empty_reported rom.read) hs ⟨rfl, fun a it h => by cases h⟩ hrun
  refine ⟨fun a f ha => (hseed a f ha).resolve_right hnone, fun a it t hl hj => ?_⟩
  obtain ⟨T, hT, f, h1, h2⟩ := C53_call_sites_partial hr hl hj (by rw [hnc.2 a it hl]; simp)
  exact handled_below ((hlog T hT t f h1).resolve_right hnone) h2

theorem asIn_anything {p : Cpu} {es : ExecutionState} (h : Describes (.asIn p) es p) : Describes .anything es p := by
  obtain ⟨h1, ⟨a1, a2, a3, a4⟩, h3⟩ := h
  have bit : ∀ {o : Bool → Prop} {b : BitState} {v : Bool}, BitIs o b v → BitIs (fun _ => True) b v := by
    intro o b v h; cases b <;> first | exact h | trivial
  refine ⟨h1, ⟨bit a1, bit a2, bit a3, a4⟩, ?_⟩
  cases hs : es.stack with
  | abandoned => trivial
  | live l =>
    rw [hs] at h3
    simp only at h3 ⊢
    have : ∀ (l : List StackValue) (s : List UInt8), StackDescribes (.asIn p) l s → StackDescribes .anything l s := by
      intro l
      induction l with
      | nil => intro s _; trivial
      | cons v l ih =>
        rintro s ⟨bs, rest, h1, h2, h3⟩
        refine ⟨bs, rest, h1, ?_, ih rest h3⟩
        cases v with
        | flags f =>
          obtain ⟨b, e, b1, b2, b3⟩ := h2
          exact ⟨b, e, bit b1, bit b2, b3⟩
        | var r _ => cases r <;> trivial
        | _ => exact h2
    exact this l _ h3

/-- **Whatever a processor executes is listed.**  Let the passes end with nothing left to do and without errors.
Start a processor at an address asked for, with the flags asked for, and let it execute the bytes of the ROM, also
in the routines it calls and jumps to.  Wherever it gets, the listing has an entry: it shows the instruction that
the processor finds there, and every flag recorded as known is right.

Partial: as `C68_all_followed_partial` and `C49_shows_execution_partial`. -/
theorem C68_execution_partial {msg : Err → Str} {fuel : Nat} {rom : Rom} {args : List SeedArg} {seeds : OMap StatusFlags}
    {d : Disassembler} (hseeds : readSeeds msg rom [] args = .ok (.ok seeds))
    (hrun : passes msg fuel rom.read (fun _ => false) 100 .empty seeds = .ok (d, [], []))
    (ht : ListingTame d.disassembly) {a : Addr} {p : Cpu}
    (hp : ProgramRuns rom.read (fun a f => seeds.find a = some f) a p) :
    ∃ it j, Lists d.disassembly a it ∧ Fetches rom.read a p j ∧ Shows j it.instruction ∧
      KnownFlagsRight it.current.flags p := by
  have hs := (readSeeds_spec args ⟨List.Pairwise.nil, fun a f h => by cases h⟩ hseeds).1
  obtain ⟨⟨-, -, ⟨log, hr, -⟩, -, -⟩, -⟩ := passes_did 100 (empty_reported rom.read) hs hrun
  have hd := reported_session hr
  have hnc := noConventions_passes 100 (empty_reported rom.read) hs ⟨rfl, fun a it h => by cases h⟩ hrun
  obtain ⟨hall, hcalls⟩ := C68_all_followed_partial hseeds hrun
  have hret : ∀ a, listedReturn d.disassembly a = .default := by
    intro a
    unfold listedReturn
    split
    · next it h => exact hnc.2 a it h
    · rfl
  have listed : ∀ {t : Addr} {f : StatusFlags} {q : Cpu}, Handled msg d.disassembly [] t f → q.Ok → KnownFlagsRight f q →
      ListsFor d t q := by
    intro t f q hh hq hk
    cases hh with
    | listed it here covers => exact ⟨it, here, asIn_anything (covers q hq hk)⟩
    | failed g e lines general => simp [errorLines] at lines
  have key : ListsFor d a p := by
    induction hp with
    | start here ok agrees => exact listed (hall _ _ here) ok agrees
    | @next a p q j operand before fetches goesOn assembled executes ih =>
      have hj : ({ j with ret := .default } : Instruction) = j := by
        obtain ⟨bytes, -, hd⟩ := fetches
        have := (decode_ret hd).1
        cases j
        simp only at this
        rw [this]
      refine listsFor_next hd ht ih fetches (by rw [hret, hj]; exact goesOn) assembled (by rw [hret]; exact executes)
    | branch before fetches may offset executes ih => exact listsFor_branch hd ih fetches may offset executes
    | @jump a t p j pushed before fetches jumps ih =>
      obtain ⟨it, hit, hdesc⟩ := ih
      have hk := describes_known hdesc
      have hsh := listed_fetch hd hit hk fetches
      have hnb : ¬ MayBranch j := by
        rw [← mayBranch_iff]
        intro hb
        have := branch_no_far hb a
        rw [jumpsTo_far jumps] at this
        cases this
      have hji : JumpsTo it.instruction a t := by
        have e := hsh.plain hnb
        cases jumps with
        | long mode jump value bound => exact .long (hsh.mode.trans mode) (by rw [hsh.mnemonic]; exact jump) (by rw [e]; exact value) bound
        | near mode jump value bound target =>
          exact .near (hsh.mode.trans mode) (by rw [hsh.mnemonic]; exact jump) (by rw [e]; exact value) bound target
      exact listed (hcalls a it t hit hji) hdesc.1 hk
  obtain ⟨it, j, h1, h2, h3, h4⟩ := listsFor_shows hd key
  exact ⟨it, j, h1, h2, h3, describes_known h4⟩

theorem readSeeds_ends {msg : Err → Str} {rom : Rom} : ∀ (args : List SeedArg) (seeds : OMap StatusFlags),
    readSeeds msg rom seeds args ≠ .err .steps := by
  have ofInt : ∀ v : Int, (∃ a, Address.ofInt v = .ok a) ∨ ∃ u, Address.ofInt v = .ub u := by
    intro v
    unfold Address.ofInt
    split
    · exact .inl ⟨_, rfl⟩
    · exact .inr ⟨_, rfl⟩
  have one : ∀ arg : SeedArg, (∃ x, readSeed msg rom arg = .ok x) ∨ ∃ u, readSeed msg rom arg = .ub u := by
    intro arg
    unfold readSeed
    split
    · exact .inl ⟨_, rfl⟩
    · next f _ =>
      rcases ofInt arg.number with ⟨a, h⟩ | ⟨u, h⟩
      · rw [h, Res.bind_ok]
        split
        · split
          · exact .inr ⟨_, rfl⟩
          · exact .inl ⟨_, rfl⟩
          · next v _ =>
            rcases ofInt v with ⟨a, h⟩ | ⟨u, h⟩
            · rw [h, Res.bind_ok]; exact .inl ⟨_, rfl⟩
            · rw [h]; exact .inr ⟨_, rfl⟩
        · exact .inl ⟨_, rfl⟩
      · rw [h]; exact .inr ⟨_, rfl⟩
  intro args
  induction args with
  | nil => intro seeds; simp [readSeeds]
  | cons arg args ih =>
    intro seeds
    unfold readSeeds
    rcases one arg with ⟨x, h⟩ | ⟨u, h⟩
    · rw [h, Res.bind_ok]
      split
      · simp
      · exact ih _
    · rw [h]; exact fun h => by cases h

/-- **The tool always comes to an end**, whatever the ROM has and whatever was asked for: with enough steps the
result no longer depends on their number. -/
theorem C68_terminates (msg : Err → Str) (rom : Rom) (args : List SeedArg) :
    ∃ N res, res ≠ .err .steps ∧ ∀ fuel ≥ N, disassembleRom msg fuel rom args = res := by
  show ComesToEnd fun fuel => disassembleRom msg fuel rom args
  unfold disassembleRom
  refine ComesToEnd.bind (f := fun _ => readSeeds msg rom [] args) (.const (readSeeds_ends args [])) fun N x hx => ?_
  cases x with
  | error line => exact .const (by simp)
  | ok seeds =>
    have hs := (readSeeds_spec args ⟨List.Pairwise.nil, fun a f h => by cases h⟩ (hx N (Nat.le_refl N))).1
    refine (passes_halts (rom_answers rom) 100 (empty_reported rom.read) hs).bind (g := fun _ x => _) fun _ x _ => ?_
    refine .const ?_
    obtain ⟨d, left, ls⟩ := x
    simp only [finishListing]
    cases d.cleanup <;> simp

/-! ## The hypotheses are met -/

/-- `m8x8`. -/
def eightBit : StatusFlags := ⟨.off, .on, .on, .unknown⟩

/-- Asking for a disassembly from $8000. -/
def chainArgs : List SeedArg := [⟨false, 0x8000, cs!"m8x8"⟩]

/-- What the tool finds in the demonstration, which has a routine that calls another one. -/
def toolRun : Res (Disassembler × OMap StatusFlags × List Str) :=
  passes (fun _ => []) 20 demoRom.read (fun _ => false) 100 .empty [(0x8000, eightBit)]

/-- The disassembly. -/
def toolFound : Disassembler :=
  match toolRun with
  | .ok (d, _, _) => d
  | _ => .empty

/-- The disassembly, cleaned up. -/
def toolClean : Disassembler :=
  match cleanupEval toolFound with
  | .ok d => d
  | _ => .empty

theorem tool_run : toolRun = .ok (toolFound, [], []) := by
  have key : (match toolRun with
      | .ok (_, left, printed) => decide (left = [] ∧ printed = [])
      | _ => false) = true := by decide +kernel
  unfold toolFound
  split at key
  · next d left printed h =>
    obtain ⟨rfl, rfl⟩ := of_decide_eq_true key
    rw [h]
  · cases key

theorem tool_clean : toolFound.cleanup = .ok toolClean := by
  have key : (match cleanupEval toolFound with | .ok _ => true | _ => false) = true := by decide +kernel
  unfold toolClean
  cases h : cleanupEval toolFound with
  | ok d => rw [cleanup_eval, h]
  | err e => rw [h] at key; cases key
  | ub u => rw [h] at key; cases key

/-- The demonstration meets the hypotheses of the theorems above; both routines are found, the called one at $8010. -/
example : readSeeds (fun _ => []) demoRom [] chainArgs = .ok (.ok [(0x8000, eightBit)]) ∧
    passes (fun _ => []) 20 demoRom.read (fun _ => false) 100 .empty [(0x8000, eightBit)] = .ok (toolFound, [], []) ∧
    toolFound.cleanup = .ok toolClean ∧ LaidOut toolFound.disassembly ∧ ListingTame toolFound.disassembly ∧
    (∀ a it, Lists toolFound.disassembly a it → it.instruction.mnemonic ≠ .per ∧ SizeSettled it) ∧
    (∀ a it, Lists toolClean.disassembly a it → it.isEntry = true → Declarable it.current) ∧
    (toolClean.disassembly.find 0x8010).isSome := by
  have hall : ∀ {m : OMap DisItem} (p : Nat × DisItem → Prop) [DecidablePred p], (m.all fun n => decide (p n)) = true →
      ∀ {a it}, Lists m a it → p (a, it) :=
    fun p _ h a it hl => of_decide_eq_true (List.all_eq_true.mp h _ (OMap.mem_of_find hl))
  refine ⟨by decide +kernel, tool_run, tool_clean, ⟨fun a it hl => ?_, fun a b it jt hl hl' => ?_, fun a it hl => ?_,
    fun a it hl => ?_⟩, listingTame_of_all (by decide +kernel), fun a it hl => ?_, fun a it hl => ?_, by decide +kernel⟩
  · exact hall (m := toolFound.disassembly) (fun n => n.1 < 0x1000000) (by decide +kernel) hl
  · exact hall (m := toolFound.disassembly) (fun n => ∀ k ∈ toolFound.disassembly, n.1 < k.1 →
      n.1 + instructionLength n.2.instruction.mode ≤ k.1) (by decide +kernel) hl (b, jt) (OMap.mem_of_find hl')
  · exact hall (m := toolFound.disassembly) (fun n => n.1 % 0x10000 + instructionLength n.2.instruction.mode ≤ 0x10000)
      (by decide +kernel) hl
  · exact hall (m := toolFound.disassembly) (fun n => n.2.instruction.isExitInstruction = false →
      n.1 % 0x10000 + instructionLength n.2.instruction.mode < 0x10000) (by decide +kernel) hl
  · exact hall (m := toolFound.disassembly) (fun n => n.2.instruction.mnemonic ≠ .per ∧ SizeSettled n.2)
      (by decide +kernel) hl
  · exact hall (m := toolClean.disassembly) (fun n => n.2.isEntry = true → Declarable n.2.current) (by decide +kernel) hl

/-! ## Where the tool falls short -/

/-- 101 jumps, each to the next; the last one to an address beyond the image. -/
def chainRom : Rom :=
  ⟨.loRom, (List.range 101).flatMap fun k =>
    [0x4c, UInt8.ofNat ((0x8003 + 3 * k) % 256), UInt8.ofNat ((0x8003 + 3 * k) / 256)]⟩

/-- What the tool finds. -/
def chainRun : Res (Disassembler × OMap StatusFlags × List Str) :=
  passes (fun _ => []) 3 chainRom.read (fun _ => false) 100 .empty [(0x8000, eightBit)]

theorem chain_seeds : readSeeds (fun _ => []) chainRom [] chainArgs = .ok (.ok [(0x8000, eightBit)]) := by
  decide +kernel

/-- The tool stops after 100 passes, and says nothing about it: the hundredth jump of the chain is listed, its
target is not, and no error was printed. -/
theorem C68_violated : ∃ d left, chainRun = .ok (d, left, []) ∧
    ∃ it, Lists d.disassembly 0x8129 it ∧ JumpsTo it.instruction 0x8129 0x812c ∧
      ¬ Handled (fun _ => []) d.disassembly [] 0x812c it.current.flags := by
  have key : (match chainRun with
      | .ok (d, _, printed) => decide (printed = []) && (d.disassembly.find 0x812c).isNone &&
          (match d.disassembly.find 0x8129 with
          | some it => decide (it.instruction = ⟨.jmp, .none, .dir_w, .lit 0x812c .word, .null, .default⟩)
          | none => false)
      | _ => false) = true := by decide +kernel
  cases hr : chainRun with
  | ok x =>
    obtain ⟨d, left, printed⟩ := x
    rw [hr] at key
    simp only [Bool.and_eq_true, decide_eq_true_eq, Option.isNone_iff_eq_none] at key
    obtain ⟨⟨rfl, h1⟩, h2⟩ := key
    refine ⟨d, left, rfl, ?_⟩
    cases hf : OMap.find d.disassembly 0x8129 with
    | none => rw [hf] at h2; cases h2
    | some it =>
      rw [hf] at h2
      simp only [decide_eq_true_eq] at h2
      refine ⟨it, hf, ?_, ?_⟩
      · rw [h2]; exact .near rfl (.inl rfl) (v := 0x812c) rfl (by decide) (by decide)
      · intro hh
        cases hh with
        | listed it here _ => rw [Lists, h1] at here; cases here
        | failed g e lines _ => simp [errorLines] at lines
  | err e => rw [hr] at key; cases key
  | ub u => rw [hr] at key; cases key

/-- Asking for an address in two modes: the second one is dropped without a word. -/
theorem C68_violated_repeated : readSeeds (fun _ => []) chainRom [] [⟨false, 0x8000, cs!"m8x8"⟩, ⟨false, 0x8000, cs!"m16x16"⟩] =
    .ok (.ok [(0x8000, eightBit)]) ∧
    AsksFor chainRom ⟨false, 0x8000, cs!"m16x16"⟩ 0x8000 ⟨.off, .off, .off, .unknown⟩ :=
  ⟨by decide +kernel, by decide +kernel, by simp⟩

end Nsasm.Props
