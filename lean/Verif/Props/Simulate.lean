import Verif.Lemmas.Simulate
import Verif.Props.Driver

/-! # C75, C76, C77: the image executes the program and nothing else, and disassembling it shows the program -/

namespace Nsasm.Props
open Nsasm Nsasm.Spec

/-- `rom` holds what the files assemble to.  File `n` is `m` when it is read and `m'` after the analysis; `ctx k` gives
the values that names have on its line `k`.  From every byte of the program on, four bytes can be read. -/
structure Built (fuel : Nat) (files : List (List Str)) (rom : Rom) (n : Nat) (m m' : Module) (ctx : Nat → Ctx) : Prop where
  image : ∃ ws a externs M file items, Assembles fuel files ws a ∧ InRom rom ws ∧ FourReadable rom.read ws ∧
    files[n]? = some file ∧ Module.loadAsmFile file = .ok m ∧ m.runFirstPass fuel = .ok m' ∧
    a.modules[n]? = some M ∧ FileItems file items ∧ Publishes a.modules externs ∧
    ∀ k, k < M.lines.length → Sees (program [] items) M externs k (ctx k)

/-- The program keeps to what the analysis gets right (`Consistent`, `StackTame`: see `C41_violated`), branches to
places, and sets origins in the address space. -/
structure Regular (m m' : Module) : Prop where
  consistent : Consistent m m'
  tame : StackTame m'
  origins : ProperOrigins m'.lines
  branches : BranchesToCode m

/-- What a processor in state `p` finds at `x` is the instruction `i` of the source, with its operands.  A pseudo-op
is two instructions: CLC and ADC, or SEC and SBC. -/
def FindsWritten (src : Source) (ctx : Ctx) (x : Addr) (p : Cpu) (i : Instruction) : Prop :=
  if i.mnemonic = .padd ∨ i.mnemonic = .psub then
    Fetches src x p ⟨leadIn i.mnemonic, .none, .imp, .null, .null, .default⟩ ∧
    ∀ c, ∃ j, Fetches src (wrapped x 1) { p with c := c } j ∧ j.mnemonic = realMnemonic i.mnemonic ∧
      (i.mode ≠ .imm_fm → i.mode ≠ .imm_fx → j.mode = i.mode) ∧
      OperandsMatch x ctx { i with mnemonic := realMnemonic i.mnemonic, mode := j.mode } j
  else ∃ j, Fetches src x p j ∧ j.mnemonic = i.mnemonic ∧
    (i.mode ≠ .imm_fm → i.mode ≠ .imm_fx → j.mode = i.mode) ∧ OperandsMatch x ctx { i with mode := j.mode } j

theorem built_image {fuel : Nat} {files : List (List Str)} {rom : Rom} {n : Nat} {m m' : Module} {ctx : Nat → Ctx}
    (h : Built fuel files rom n m m' ctx) : ∃ file ctx₀, Module.loadAsmFile file = .ok m ∧ m.runFirstPass fuel = .ok m' ∧
      Image rom.read m' ctx₀ ∧ ∀ k id v, ctx₀ k id = .ok v → ctx k id = .ok v := by
  obtain ⟨ws, a, externs, M, file, items, h1, h2, h3, h4, h5, h6, h7, h8, h9, h10⟩ := h.image
  refine ⟨file, _, h5, h6, image_of_assembly h1 h2 h3 h4 h5 h6 h7, ?_⟩
  intro k id v hv
  cases hl : M.lines[k]? with
  | none => simp [hl, nullCtx] at hv
  | some l =>
    simp only [hl] at hv
    obtain ⟨order, wss, hA⟩ := assembled h1
    obtain ⟨f, m₀, m₁, m₂, ex, hf, h0, h1', h2', hs, -⟩ := hA.passes n M h7
    rw [h4] at hf; cases hf
    rw [h5] at h0; cases h0
    rw [h6] at h1'; cases h1'
    obtain ⟨items', hF, hI, -, -⟩ := loadAsmFile_ok h5
    cases fileItems_unique h8 hF
    obtain ⟨hmore, -, -⟩ := secondLoop_spec _ 0 m' m₂ h2' (fun j l d _ => unvalued_first h5 h6 j l d)
    have hN₂ := names_more (names_firstPass (names_loaded hI) h6) hmore
    have hN : Names (program [] items) M :=
      ⟨fun k l hl name t => by rw [hs.localIndex]; rw [hs.2.1] at hl; exact hN₂.locals k l hl name t,
       fun name t => by rw [hs.localIndex]; exact hN₂.globals name t⟩
    have hm := (lookup_means hN _ hl id v).1 hv
    refine (h10 k (List.getElem?_eq_some_iff.mp hl).1 id v).2 ?_
    have hex : ∀ id v, Assembler.lookup a.modules a.names id = .ok v ↔ externs id = .ok v := fun id v =>
      (assembled_publishes hA id v).trans (h9 id v).symm
    unfold Means at hm ⊢
    cases hid : id.module with
    | none => simp only [hid] at hm ⊢; exact hm.imp_right fun h => ⟨h.1, (hex _ _).1 h.2⟩
    | some other => simp only [hid] at hm ⊢; exact hm.imp_right fun h => ⟨h.1, (hex _ _).1 h.2⟩

/-- **The processor executes the program as written.**  Assemble files into a ROM, and let a processor run the ROM from
the address of an entry point of a file, in a state that agrees with the flags declared there.  Wherever the program, as it
is written, gets by executing its lines, the processor gets too: to the address at which that line stands, in the same
state.

Partial: the program is `Regular` (the analysis gets the size of immediate operands right, and no branch goes to an `.equ`
name: otherwise the claim is false, see `C41_violated` and `C75_violated`). -/
theorem C75_simulates_partial {fuel : Nat} {files : List (List Str)} {rom : Rom} {n : Nat} {m m' : Module} {ctx : Nat → Ctx}
    (h : Built fuel files rom n m m' ctx) (hreg : Regular m m') {ret : Addr → ReturnConvention}
    (hret : KeepsReturns m'.lines ret) {i start : Nat} {f : StatusFlags} (entry : DeclaresEntry m i f)
    (hstart : StandsAt m'.lines (i + 1) start) {k : Nat} {p : Cpu} (hrun : RunsFrom m ctx i k p) :
    ∃ x, StandsAt m'.lines k x ∧ CodeRuns rom.read ret start f x p := by
  obtain ⟨file, ctx₀, hm, h1, hI, hctx⟩ := built_image h
  exact simulates hm h1 hreg.consistent hreg.tame hreg.origins hreg.branches hI hret hctx entry hstart hrun

/-- **What the processor finds is what was written.**  Wherever the program gets, the processor finds, at the address of
that line, the instruction of the line, with its operands.

Partial: as `C75_simulates_partial`. -/
theorem C75_finds_partial {fuel : Nat} {files : List (List Str)} {rom : Rom} {n : Nat} {m m' : Module} {ctx : Nat → Ctx}
    (h : Built fuel files rom n m m' ctx) (hreg : Regular m m') {k : Nat} {p : Cpu} (hrun : Spec.Runs m ctx k p)
    {x : Nat} (hx : StandsAt m'.lines k x) {l : Line} {i : Instruction} (hl : m.lines[k]? = some l)
    (hi : l.statement = .instr i) : FindsWritten rom.read (ctx k) x p i := by
  obtain ⟨file, ctx₀, hm, h1, hI, hctx⟩ := built_image h
  obtain ⟨l', hl', -, hsize⟩ := C41_sizes_right_partial hm h1 hreg.consistent hreg.tame hrun
  obtain ⟨l₀, hl₀, -, -, -, hdir, -⟩ := firstPass_line h1 hl'
  rw [hl] at hl₀; cases hl₀
  obtain ⟨j, hj⟩ : ∃ j, l'.statement = .instr j := by
    cases hs : l'.statement with
    | instr j => exact ⟨j, rfl⟩
    | dir d => rw [(hdir d).1 hs] at hi; cases hi
  obtain ⟨-, l₁, i₁, g1, g2, -, g3, g3', -, -, g4, g5, -⟩ := C42_every_instruction_analysed hm h1 hl' hj
  rw [hl] at g1; cases g1
  rw [hi] at g2; cases g2
  have ej : j.mnemonic = i.mnemonic := by rw [g3]
  have emode : i.mode ≠ .imm_fm → i.mode ≠ .imm_fx → j.mode = i.mode := fun a b => by rw [g3' a b]
  unfold FindsWritten
  split_ifs with hps
  · rw [← ej] at hps
    obtain ⟨f1, f2⟩ := fetches_pseudo hI hl' hj hx g4 g5 hps (hsize j hj)
    rw [ej] at f1
    refine ⟨f1, fun c => ?_⟩
    obtain ⟨jj, q1, q2, q3, q4⟩ := f2 c
    refine ⟨jj, q1, by rw [q2, ej], fun a b => by rw [q3]; exact emode a b, operandsMatch_mono (hctx k) ?_⟩
    rw [q3]
    rw [g3] at q4
    exact q4
  · rw [not_or, ← ej] at hps
    obtain ⟨jj, q1, q2, q3, q4⟩ := fetches_real hI hl' hj hx g4 g5 hps (hsize j hj)
    refine ⟨jj, q1, by rw [q2, ej], fun a b => by rw [q3]; exact emode a b, operandsMatch_mono (hctx k) ?_⟩
    rw [q3]
    rw [g3] at q4
    exact q4

/-! ## C76 -/

/-- **The processor executes nothing else.**  Let a processor run the ROM from the address of an entry point, as in
`C75_simulates_partial`.  Whenever it is about to execute an instruction, it is one of the program: the program, as it is
written, gets to that line in that state, and the line stands at that address.  (Between the two instructions of a
pseudo-op the processor is in the middle of a line.)

Partial: as `C75_simulates_partial` (see `C76_violated`); and the promises that the file makes with `.mode` and `.halt`
hold. -/
theorem C76_nothing_else_partial {fuel : Nat} {files : List (List Str)} {rom : Rom} {n : Nat} {m m' : Module}
    {ctx : Nat → Ctx} (h : Built fuel files rom n m m' ctx) (hreg : Regular m m') {ret : Addr → ReturnConvention}
    (hret : KeepsReturns m'.lines ret) {i start : Nat} {f : StatusFlags} (entry : DeclaresEntry m i f)
    (hp : KeepsPromises m ctx i) (hstart : StandsAt m'.lines (i + 1) start) {x : Addr} {p : Cpu}
    (hrun : CodeRuns rom.read ret start f x p) : Executing m m'.lines ctx i x p := by
  obtain ⟨file, ctx₀, hm, h1, hI, hctx⟩ := built_image h
  exact executes_only ⟨hm, h1, hreg.consistent, hreg.tame, hreg.origins, hreg.branches, hI, hret, hctx⟩ hp entry hstart hrun

/-! ## C77 -/

/-- The listing shows at `x` the instruction `i` of the source, with its operands; a pseudo-op is shown as the two
instructions that it is. -/
def ListsWritten (m : OMap DisItem) (ctx : Ctx) (x : Addr) (i : Instruction) : Prop :=
  if i.mnemonic = .padd ∨ i.mnemonic = .psub then
    (∃ it, Lists m x it ∧ it.instruction.mnemonic = leadIn i.mnemonic ∧ it.instruction.mode = .imp) ∧
    ∃ it j, Lists m (wrapped x 1) it ∧ Shows j it.instruction ∧ j.mnemonic = realMnemonic i.mnemonic ∧
      (i.mode ≠ .imm_fm → i.mode ≠ .imm_fx → j.mode = i.mode) ∧
      OperandsMatch x ctx { i with mnemonic := realMnemonic i.mnemonic, mode := j.mode } j
  else ∃ it j, Lists m x it ∧ Shows j it.instruction ∧ j.mnemonic = i.mnemonic ∧
    (i.mode ≠ .imm_fm → i.mode ≠ .imm_fx → j.mode = i.mode) ∧ OperandsMatch x ctx { i with mode := j.mode } j

/-- **Disassembling what was assembled shows the program.**  Assemble files into a ROM, and disassemble the ROM from the
address of an entry point of a file with the flags declared there, perhaps after and before other calls.  For every
instruction that the program can get to, the listing has an entry at the address of its line, and shows that instruction
with its operands.

Partial: as `C75_simulates_partial` and `C49_shows_execution_partial`; calls return as both the source and the listing say
(`KeepsReturns`). -/
theorem C77_lists_program_partial {fuel : Nat} {files : List (List Str)} {rom : Rom} {n : Nat} {m m' : Module}
    {ctx : Nat → Ctx} (h : Built fuel files rom n m m' ctx) (hreg : Regular m m')
    {i start : Nat} {f : StatusFlags} (entry : DeclaresEntry m i f) (hf : Constructible f)
    (hstart : StandsAt m'.lines (i + 1) start)
    {d₀ d₁ d : Disassembler} (h₀ : Session HasName rom.read d₀) {fuel' : Nat} {far : OMap StatusFlags}
    (hdis : d₀.disassemble fuel' rom.read start f = (d₁, .ok far)) (hlater : Later HasName rom.read d₁ d)
    (ht : ListingTame d.disassembly) (hret : KeepsReturns m'.lines (listedReturn d.disassembly))
    {k : Nat} {p : Cpu} (hrun : RunsFrom m ctx i k p) {l : Line} {ins : Instruction} (hl : m.lines[k]? = some l)
    (hi : l.statement = .instr ins) :
    ∃ x, StandsAt m'.lines k x ∧ ListsWritten d.disassembly (ctx k) x ins := by
  obtain ⟨x, hx, hcr⟩ := C75_simulates_partial h hreg hret entry hstart hrun
  refine ⟨x, hx, ?_⟩
  have hfw := C75_finds_partial h hreg (runsFrom_runs hrun) hx hl hi
  have hs : start ≤ 0x1000000 := Nat.le_of_lt (standsAt_lt hstart)
  obtain ⟨it, j, hit, hfe, hsh, -⟩ := C49_shows_execution_partial h₀ hs hf hdis hlater ht hcr
  unfold FindsWritten at hfw
  unfold ListsWritten
  split_ifs at hfw ⊢ with hps
  · obtain ⟨f1, f2⟩ := hfw
    obtain rfl := fetches_unique hfe f1
    refine ⟨⟨it, hit, hsh.mnemonic, hsh.mode⟩, ?_⟩
    obtain ⟨file, ctx₀, hm, h1, hI, hctx⟩ := built_image h
    obtain ⟨l', hl', -⟩ := C41_sizes_right_partial hm h1 hreg.consistent hreg.tame (runsFrom_runs hrun)
    obtain ⟨l₀, hl₀, -, -, -, hdir, -⟩ := firstPass_line h1 hl'
    rw [hl] at hl₀; cases hl₀
    obtain ⟨j, hj⟩ : ∃ j, l'.statement = .instr j := by
      cases hs : l'.statement with
      | instr j => exact ⟨j, rfl⟩
      | dir d => rw [(hdir d).1 hs] at hi; cases hi
    obtain ⟨-, l₁, i₁, g1, g2, -, g3, -⟩ := C42_every_instruction_analysed hm h1 hl' hj
    rw [hl] at g1; cases g1
    rw [hi] at g2; cases g2
    have ej : j.mnemonic = ins.mnemonic := by rw [g3]
    obtain ⟨r1, r2⟩ := hret.pseudo k l' j x hl' hj hx (by rw [ej]; exact hps)
    obtain ⟨c, hc⟩ : ∃ c, Follows (leadIn ins.mnemonic) 0 (listedReturn d.disassembly x) p { p with c := c } := by
      rcases hps with h | h <;> rw [h]
      · exact ⟨false, rfl⟩
      · exact ⟨true, rfl⟩
    have s1 := CodeRuns.next (operand := 0) hcr f1
      (by
        simp only [Stops, not_or]
        refine ⟨?_, ?_⟩
        · rcases hps with h | h <;> rw [h] <;> decide
        · rw [r1]; simp)
      (by intro v hv; cases hv) hc
    have efol : following x ⟨leadIn ins.mnemonic, .none, .imp, .null, .null, .default⟩ = wrapped x 1 :=
      wrapped_eq (standsAt_lt hx) 1
    rw [efol] at s1
    obtain ⟨it', j', hit', hfe', hsh', -⟩ := C49_shows_execution_partial h₀ hs hf hdis hlater ht s1
    obtain ⟨jj, q1, q2, q3, q4⟩ := f2 c
    obtain rfl := fetches_unique hfe' q1
    exact ⟨it', j', hit', hsh', q2, q3, q4⟩
  · obtain ⟨j', f1, f2, f3, f4⟩ := hfw
    obtain rfl := fetches_unique hfe f1
    exact ⟨it, j, hit, hsh, f2, f3, f4⟩

/-- A file without return conventions, and a listing without any. -/
theorem keepsReturns_default {lines : List Line} {ret : Addr → ReturnConvention} (h : ∀ x, ret x = .default)
    (hl : ∀ l ∈ lines, ∀ j, l.statement = .instr j → j.ret = .default) : KeepsReturns lines ret :=
  ⟨fun k l j x h1 h2 _ => by rw [h, hl l (List.mem_of_getElem? h1) j h2], fun k l j x _ _ _ _ => ⟨h _, h _⟩⟩

/-- **Disassembling afresh shows the program.**  As `C77_lists_program_partial`, for a disassembler that has just been
made and a file that uses no return conventions. -/
theorem C77_fresh_partial {fuel : Nat} {files : List (List Str)} {rom : Rom} {n : Nat} {m m' : Module}
    {ctx : Nat → Ctx} (h : Built fuel files rom n m m' ctx) (hreg : Regular m m')
    (hplain : ∀ l ∈ m'.lines, ∀ j, l.statement = .instr j → j.ret = .default)
    {i start : Nat} {f : StatusFlags} (entry : DeclaresEntry m i f) (hf : Constructible f)
    (hstart : StandsAt m'.lines (i + 1) start) {d : Disassembler} {fuel' : Nat} {far : OMap StatusFlags}
    (hdis : Disassembler.empty.disassemble fuel' rom.read start f = (d, .ok far)) (ht : ListingTame d.disassembly)
    {k : Nat} {p : Cpu} (hrun : RunsFrom m ctx i k p) {l : Line} {ins : Instruction} (hl : m.lines[k]? = some l)
    (hi : l.statement = .instr ins) :
    ∃ x, StandsAt m'.lines k x ∧ ListsWritten d.disassembly (ctx k) x ins := by
  refine C77_lists_program_partial h hreg entry hf hstart .new hdis .now ht (keepsReturns_default ?_ hplain) hrun hl hi
  have hs : start ≤ 0x1000000 := Nat.le_of_lt (standsAt_lt hstart)
  have hn := noConventions_call (session_closed (src := rom.read) (d := .empty) .new) ⟨rfl, fun a it h => by cases h⟩ hs
    (constructible_normal hf) hdis
  intro a
  unfold listedReturn
  split
  · next it h => exact hn.2 a it h
  · rfl

/-! ### The hypotheses can be met -/

/-- Every assembly that is put into a ROM is `Built`, with the values that its names have. -/
theorem built_intro {fuel : Nat} {files : List (List Str)} {ws : Writes} {a : Assembler} (h : Assembles fuel files ws a)
    {rom : Rom} (hin : InRom rom ws) (hread : FourReadable rom.read ws) {n : Nat} {file : List Str} (hf : files[n]? = some file)
    {m m' : Module} (hm : Module.loadAsmFile file = .ok m) (h1 : m.runFirstPass fuel = .ok m') :
    ∃ ctx, Built fuel files rom n m m' ctx := by
  obtain ⟨order, wss, hA⟩ := assembled h
  have hn : n < a.modules.length := by rw [hA.length]; exact (List.getElem?_eq_some_iff.mp hf).1
  obtain ⟨M, hM⟩ : ∃ M, a.modules[n]? = some M := ⟨_, List.getElem?_eq_getElem hn⟩
  obtain ⟨f, m₀, m₁, m₂, ex, hf', h0, h1', h2, hs, -⟩ := hA.passes n M hM
  rw [hf] at hf'; cases hf'
  rw [hm] at h0; cases h0
  rw [h1] at h1'; cases h1'
  obtain ⟨items, hF, hI, -, -⟩ := loadAsmFile_ok hm
  obtain ⟨hmore, -, -⟩ := secondLoop_spec _ 0 m' m₂ h2 (fun j l d _ => unvalued_first hm h1 j l d)
  have hN₂ := names_more (names_firstPass (names_loaded hI) h1) hmore
  have hN : Names (program [] items) M :=
    ⟨fun k l hl name t => by rw [hs.localIndex]; rw [hs.2.1] at hl; exact hN₂.locals k l hl name t,
     fun name t => by rw [hs.localIndex]; exact hN₂.globals name t⟩
  refine ⟨fun k => match M.lines[k]? with
      | some l => M.lookup l.scopes (Assembler.lookup a.modules a.names)
      | none => nullCtx,
    ⟨ws, a, _, M, file, items, h, hin, hread, hf, hm, h1, hM, hF, assembled_publishes hA, fun k hk => ?_⟩⟩
  intro id v
  rw [List.getElem?_eq_getElem hk]
  exact lookup_means hN _ (List.getElem?_eq_getElem hk) id v

/-- A check that a ROM holds the writes, and that they can be read. -/
def inRomCheck (rom : Rom) (ws : Writes) : Bool :=
  (Spec.stored ws).all fun n =>
    (match snesToRom n.1 rom.mapping with | .ok off => decide (rom.data[off]? = some n.2) | _ => false) &&
    (match rom.read n.1 4 with | .ok _ => true | _ => false)

theorem inRom_of_check {rom : Rom} {ws : Writes} (h : inRomCheck rom ws = true) : InRom rom ws ∧ FourReadable rom.read ws := by
  constructor
  · intro x b hx
    have := List.all_eq_true.mp h _ hx
    simp only [Bool.and_eq_true] at this
    have := this.1
    split at this
    · next off ho => exact ⟨off, ho, by simpa using this⟩
    · cases this
  · intro x b hx
    have := List.all_eq_true.mp h _ hx
    simp only [Bool.and_eq_true] at this
    have := this.2
    split at this
    · next r hr => exact ⟨r, hr⟩
    · cases this

theorem built_of_check {fuel : Nat} {files : List (List Str)} {rom : Rom} {n : Nat} {file : List Str}
    (hf : files[n]? = some file) {m m' : Module} (hm : Module.loadAsmFile file = .ok m) (h1 : m.runFirstPass fuel = .ok m')
    (h : (match Assembler.assembleFiles fuel files recorder [] with
      | (ws, .ok _) => inRomCheck rom ws
      | _ => false) = true) : ∃ ctx, Built fuel files rom n m m' ctx := by
  obtain ⟨ws, a, ha, hc⟩ := assembles_of_check (fun ws _ => inRomCheck rom ws) h
  obtain ⟨h2, h3⟩ := inRom_of_check hc
  exact built_intro ha h2 h3 hf hm h1

theorem plainReturns_of_check {lines : List Line} (h : (lines.all fun l : Line =>
    match l.statement with | .instr j => decide (j.ret = .default) | .dir _ => true) = true) :
    ∀ l ∈ lines, ∀ j, l.statement = .instr j → j.ret = .default := by
  intro l hl j hj
  have := List.all_eq_true.mp h l hl
  rw [hj] at this
  simpa using this

theorem keepsPromises_of_check {m : Module} (h : (m.lines.all fun l => !(l.statement.isDir .mode) && !(l.statement.isDir .halt)) = true)
    (ctx : Nat → Ctx) (i : Nat) : KeepsPromises m ctx i := by
  constructor
  · intro k p l d _ hl hd hn
    have := List.all_eq_true.mp h l (List.mem_of_getElem? hl)
    rw [(isDir_iff _ _).2 ⟨d, hd, hn⟩] at this
    simp at this
  · intro k p l d _ hl hd hn
    have := List.all_eq_true.mp h l (List.mem_of_getElem? hl)
    rw [(isDir_iff _ .halt).2 ⟨d, hd, hn⟩] at this
    simp at this

theorem properOrigins_of_check {lines : List Line} (h : (lines.all fun l =>
    match l.statement with
    | .dir d => decide (d.name ≠ .org) || (match d.argument.eval nullCtx with | .ok v => decide (v < 0x1000000) | _ => true)
    | .instr _ => true) = true) : ProperOrigins lines := by
  rintro l hl v ⟨d, hd, hn, hv⟩
  have := List.all_eq_true.mp h l hl
  simp only [hd, hn, hv] at this
  simpa using this

theorem branchesToCode_of_check {m : Module} (h : ((List.range m.lines.length).all fun k =>
    match branchTarget m k with
    | some t => (match m.lines[t]? with | some l => !(l.statement.isDir .equ) | none => true)
    | none => true) = true) : BranchesToCode m := by
  intro k t l hb hl he
  have ht := branchesTo_target hb
  have := List.all_eq_true.mp h k (List.mem_range.mpr (branchTarget_lt ht))
  simp only [ht, hl] at this
  rw [(isDir_iff _ _).2 he] at this
  cases this

theorem standsAt_of_lines {lines : List Line} {k o : Nat} {v : Int} (ho : o ≤ k) {l : Line} (hl : lines[o]? = some l)
    (hs : SetsOrigin l v) (hn : ((List.range (k + 1)).all fun q => decide (q ≤ o) ||
      match lines[q]? with | some l => !(l.statement.isDir .org) | none => true) = true) (hv : v < 0x1000000)
    {x : Nat} (hx : (x : Int) = place v (bytesBetween lines o k)) : StandsAt lines k x := by
  refine ⟨o, v, ⟨ho, ⟨l, hl, hs⟩, fun q l' h1 h2 h3 h4 => ?_⟩, hv, hx⟩
  have := List.all_eq_true.mp hn q (List.mem_range.2 (by omega))
  simp only [h3, (isDir_iff _ _).2 h4] at this
  simp at this
  omega

/-- A loop with a pseudo-op. -/
def loopFile : List Str := [cs!" .org $8000", cs!" .entry m8x8", cs!" rep #$20", cs!"loop: add #$1234",
  cs!" bne loop", cs!" rts"]

/-- A ROM that holds it. -/
def loopRom : Rom := ⟨.loRom, [0xc2, 0x20, 0x18, 0x69, 0x34, 0x12, 0xd0, 0xfa, 0x60, 0, 0, 0, 0]⟩

/-- Disassembling it. -/
def loopCall : Disassembler × Res (OMap StatusFlags) :=
  Disassembler.empty.disassemble 20 loopRom.read 0x8000 ⟨.off, .on, .on, .unknown⟩

/-- The loop meets all hypotheses: those of C75 and of C76; those of C77; and the program, as it is written, goes round the
loop. -/
example : ∃ m m' ctx, Built 100 [loopFile] loopRom 0 m m' ctx ∧ Regular m m' ∧
    KeepsReturns m'.lines (fun _ => .default) ∧ (∀ l ∈ m'.lines, ∀ j, l.statement = .instr j → j.ret = .default) ∧
    KeepsPromises m ctx 1 ∧ DeclaresEntry m 1 ⟨.off, .on, .on, .unknown⟩ ∧ StandsAt m'.lines 2 0x8000 ∧
    (∃ far, loopCall.2 = .ok far) ∧ ListingTame loopCall.1.disassembly ∧
    RunsFrom m ctx 1 3 ⟨false, false, true, true, []⟩ := by
  obtain ⟨m, hm⟩ : ∃ m, Module.loadAsmFile loopFile = .ok m := ⟨_, rfl⟩
  obtain ⟨m', h1⟩ : ∃ m', m.runFirstPass 100 = .ok m' := by cases hm; exact ⟨_, rfl⟩
  obtain ⟨ctx, hb⟩ := built_of_check (rom := loopRom) (n := 0) (files := [loopFile]) rfl hm h1 (by decide +kernel)
  have hplain : ∀ l ∈ m'.lines, ∀ j, l.statement = .instr j → j.ret = .default := by
    cases hm; cases h1
    exact plainReturns_of_check (by decide +kernel)
  refine ⟨m, m', ctx, hb, ⟨?_, ?_, ?_, ?_⟩, keepsReturns_default (fun _ => rfl) hplain, hplain, ?_, ?_, ?_, ?_, ?_, ?_⟩
  · cases hm; cases h1; exact consistent_of_check (fuel := 100) rfl (by decide +kernel)
  · cases hm; cases h1; exact stackTame_of_unused (by decide +kernel)
  · cases hm; cases h1; exact properOrigins_of_check (by decide +kernel)
  · cases hm; exact branchesToCode_of_check (by decide +kernel)
  · cases hm; exact keepsPromises_of_check (by decide +kernel) _ _
  · cases hm; exact ⟨_, _, rfl, rfl, rfl, by decide +kernel⟩
  · cases hm; cases h1
    exact standsAt_of_lines (o := 0) (v := 0x8000) (by omega) rfl ⟨_, rfl, rfl, by decide +kernel⟩ (by decide +kernel) (by decide)
      (by decide +kernel)
  · exact ⟨[], by decide +kernel⟩
  · exact listingTame_of_all (by decide +kernel)
  · cases hm
    refine .move (k := 4) (.move (k := 3) (p := ⟨false, false, true, true, []⟩) (.move (k := 2) (p := ⟨false, true, true, true, []⟩)
      (.start (f := ⟨.off, .on, .on, .unknown⟩) ⟨_, _, rfl, rfl, rfl, by decide +kernel⟩ (by simp [Cpu.Ok]) (by simp [KnownFlagsRight]))
      (.next (operand := 0x20) rfl rfl (by decide +kernel) ?_ ?_))
      (.next (operand := 0x34) rfl rfl (by decide +kernel) ?_ ⟨true, rfl⟩))
      (.branch (name := cs!"loop") rfl rfl (by decide +kernel) rfl rfl ?_)
    · intro v hv; cases hv; decide
    · show (_ : Cpu) = _
      decide +kernel
    · intro v hv; cases hv; decide
    · exact rfl

/-! ### Where the claims are false -/

/-- No instruction of the program stands at `x`, and there are no pseudo-ops: a sufficient check. -/
theorem not_executing_of_check {m : Module} {lines : List Line} {x : Nat} (h : ((List.range m.lines.length).all fun k =>
    match m.lines[k]? with
    | some l =>
      (match l.statement with
        | .instr i => decide (i.mnemonic ≠ .padd ∧ i.mnemonic ≠ .psub) && (List.range (k + 1)).all fun o =>
          (match lines[o]? with
            | some q =>
              (match q.statement with
                | .dir d => decide (d.name ≠ .org) ||
                  (match d.argument.eval nullCtx with | .ok v => decide ((x : Int) ≠ place v (bytesBetween lines o k)) | _ => true)
                | .instr _ => true)
            | none => true)
        | .dir _ => true)
    | none => true) = true) (ctx : Nat → Ctx) (i : Nat) (p : Cpu) : ¬ Executing m lines ctx i x p := by
  have key : ∀ (k : Nat) (l : Line) (ins : Instruction), m.lines[k]? = some l → l.statement = .instr ins →
      (ins.mnemonic ≠ .padd ∧ ins.mnemonic ≠ .psub) ∧ ¬ StandsAt lines k x := by
    intro k l ins hl hi
    have := List.all_eq_true.mp h k (List.mem_range.2 (List.getElem?_eq_some_iff.mp hl).1)
    simp only [hl, hi, Bool.and_eq_true, decide_eq_true_eq] at this
    refine ⟨this.1, ?_⟩
    rintro ⟨o, v, ⟨ho, ⟨q, hq, d, hd, hn, hv⟩, -⟩, -, hx⟩
    have := List.all_eq_true.mp this.2 o (List.mem_range.2 (by omega))
    simp only [hq, hd, hn, hv] at this
    simp at this
    exact this hx
  intro he
  cases he with
  | line k l ins here instr runs stands => exact (key k l ins here instr).2 stands
  | between k l ins y q here instr pseudo runs stands next carry =>
    rcases pseudo with hp | hp
    · exact (key k l ins here instr).1.1 hp
    · exact (key k l ins here instr).1.2 hp

/-- A branch to a name that `.equ` gives a value. -/
def hopFile : List Str := [cs!" .org $8000", cs!" .entry m8x8", cs!" bra spot", cs!"spot: .equ $8004", cs!" rep #$20",
  cs!" lda #$1234", cs!" rts"]

def hopRom : Rom := ⟨.loRom, [0x80, 0x02, 0xc2, 0x20, 0xa9, 0x34, 0x12, 0x60, 0, 0, 0, 0]⟩

/-- The claim of C76 is false in general.  In this program the name branched to stands for a number.  The analysis takes
the branch to go to the line of the `.equ` and through REP, so it assembles the LDA with a 16-bit operand; the processor
goes to the LDA with an 8-bit accumulator, and then executes the second byte of its operand. -/
theorem C76_violated : ∃ (m m' : Module) (ctx : Nat → Ctx) (p : Cpu), Built 100 [hopFile] hopRom 0 m m' ctx ∧
    Consistent m m' ∧ StackTame m' ∧ ProperOrigins m'.lines ∧ KeepsReturns m'.lines (fun _ => .default) ∧
    KeepsPromises m ctx 1 ∧ DeclaresEntry m 1 ⟨.off, .on, .on, .unknown⟩ ∧ StandsAt m'.lines 2 0x8000 ∧
    CodeRuns hopRom.read (fun _ => .default) 0x8000 ⟨.off, .on, .on, .unknown⟩ 0x8006 p ∧
    ¬ Executing m m'.lines ctx 1 0x8006 p := by
  obtain ⟨m, hm⟩ : ∃ m, Module.loadAsmFile hopFile = .ok m := ⟨_, rfl⟩
  obtain ⟨m', h1⟩ : ∃ m', m.runFirstPass 100 = .ok m' := by cases hm; exact ⟨_, rfl⟩
  obtain ⟨ctx, hb⟩ := built_of_check (rom := hopRom) (n := 0) (files := [hopFile]) rfl hm h1 (by decide +kernel)
  refine ⟨m, m', ctx, ⟨false, true, true, true, []⟩, hb, ?_, ?_, ?_, keepsReturns_default (fun _ => rfl) ?_, ?_, ?_, ?_, ?_, ?_⟩
  · cases hm; cases h1; exact consistent_of_check (fuel := 100) rfl (by decide +kernel)
  · cases hm; cases h1; exact stackTame_of_unused (by decide +kernel)
  · cases hm; cases h1; exact properOrigins_of_check (by decide +kernel)
  · cases hm; cases h1; exact plainReturns_of_check (by decide +kernel)
  · cases hm; exact keepsPromises_of_check (by decide +kernel) _ _
  · cases hm; exact ⟨_, _, rfl, rfl, rfl, by decide +kernel⟩
  · cases hm; cases h1
    exact standsAt_of_lines (o := 0) (v := 0x8000) (by omega) rfl ⟨_, rfl, rfl, by decide +kernel⟩ (by decide +kernel) (by decide)
      (by decide +kernel)
  · refine .next (a := 0x8004) (p := ⟨false, true, true, true, []⟩)
      (j := ⟨.lda, .none, .imm_b, .lit 0x34 .byte, .null, .default⟩) (operand := 0x34) ?_ ⟨_, rfl, rfl⟩ (by decide +kernel)
      (by intro v h; cases h; rfl) rfl
    refine .branch (a := 0x8000) (p := ⟨false, true, true, true, []⟩) (v := 2)
      (j := ⟨.bra, .none, .rel8, .lit 2 .sbyte, .null, .default⟩) (.start (by simp [Cpu.Ok]) (by simp [KnownFlagsRight]))
      ⟨_, rfl, rfl⟩ (by decide +kernel) rfl rfl
  · cases hm; cases h1
    exact not_executing_of_check (by decide +kernel) _ _ _

/-- A shorter hop. -/
def skipFile : List Str := [cs!" .org $8000", cs!" .entry m8x8", cs!" bra spot", cs!"spot: .equ $8003", cs!" nop", cs!" rts"]

def skipRom : Rom := ⟨.loRom, [0x80, 0x01, 0xea, 0x60, 0, 0, 0, 0]⟩

/-- So is that of C75: the branch skips the NOP, which the analysis takes to be executed next. -/
theorem C75_violated : ∃ (m m' : Module) (ctx : Nat → Ctx) (p : Cpu), Built 100 [skipFile] skipRom 0 m m' ctx ∧
    Consistent m m' ∧ StackTame m' ∧ ProperOrigins m'.lines ∧ KeepsReturns m'.lines (fun _ => .default) ∧
    DeclaresEntry m 1 ⟨.off, .on, .on, .unknown⟩ ∧ StandsAt m'.lines 2 0x8000 ∧
    RunsFrom m ctx 1 4 p ∧ StandsAt m'.lines 4 0x8002 ∧
    ∀ q, ¬ CodeRuns skipRom.read (fun _ => .default) 0x8000 ⟨.off, .on, .on, .unknown⟩ 0x8002 q := by
  obtain ⟨m, hm⟩ : ∃ m, Module.loadAsmFile skipFile = .ok m := ⟨_, rfl⟩
  obtain ⟨m', h1⟩ : ∃ m', m.runFirstPass 100 = .ok m' := by cases hm; exact ⟨_, rfl⟩
  obtain ⟨ctx, hb⟩ := built_of_check (rom := skipRom) (n := 0) (files := [skipFile]) rfl hm h1 (by decide +kernel)
  refine ⟨m, m', ctx, ⟨false, true, true, true, []⟩, hb, ?_, ?_, ?_, keepsReturns_default (fun _ => rfl) ?_, ?_, ?_, ?_, ?_, ?_⟩
  · cases hm; cases h1; exact consistent_of_check (fuel := 100) rfl (by decide +kernel)
  · cases hm; cases h1; exact stackTame_of_unused (by decide +kernel)
  · cases hm; cases h1; exact properOrigins_of_check (by decide +kernel)
  · cases hm; cases h1; exact plainReturns_of_check (by decide +kernel)
  · cases hm; exact ⟨_, _, rfl, rfl, rfl, by decide +kernel⟩
  · cases hm; cases h1
    exact standsAt_of_lines (o := 0) (v := 0x8000) (by omega) rfl ⟨_, rfl, rfl, by decide +kernel⟩ (by decide +kernel) (by decide)
      (by decide +kernel)
  · cases hm
    refine .move (k := 3) (.move (k := 2) (p := ⟨false, true, true, true, []⟩)
      (.start (f := ⟨.off, .on, .on, .unknown⟩) ⟨_, _, rfl, rfl, rfl, by decide +kernel⟩ (by simp [Cpu.Ok]) (by simp [KnownFlagsRight]))
      (.branch (name := cs!"spot") rfl rfl (by decide +kernel) rfl rfl rfl)) (.pass rfl rfl (by decide +kernel) ?_)
    intro h; cases h
  · cases hm; cases h1
    exact standsAt_of_lines (o := 0) (v := 0x8000) (by omega) rfl ⟨_, rfl, rfl, by decide +kernel⟩ (by decide +kernel) (by decide)
      (by decide +kernel)
  · have key : ∀ {x q}, CodeRuns skipRom.read (fun _ => .default) 0x8000 ⟨.off, .on, .on, .unknown⟩ x q →
        x = 0x8000 ∨ x = 0x8003 := by
      have h0 : ∀ {p j}, Fetches skipRom.read 0x8000 p j → j = ⟨.bra, .none, .rel8, .lit 1 .sbyte, .null, .default⟩ := by
        rintro ⟨e, m, x, c, st⟩ j ⟨bs, hb, hd⟩
        have e1 : skipRom.read 0x8000 4 = .ok [0x80, 0x01, 0xea, 0x60] := by decide +kernel
        rw [e1] at hb; cases hb
        have e2 : ∀ e m x c, decode [0x80, 0x01, 0xea, 0x60] (actualFlags ⟨e, m, x, c, []⟩) =
            .ok ⟨.bra, .none, .rel8, .lit 1 .sbyte, .null, .default⟩ := by decide +kernel
        have e3 : actualFlags ⟨e, m, x, c, st⟩ = actualFlags ⟨e, m, x, c, []⟩ := rfl
        rw [e3, e2] at hd; cases hd; rfl
      have h3 : ∀ {p j}, Fetches skipRom.read 0x8003 p j → j = ⟨.rts, .none, .imp, .null, .null, .default⟩ := by
        rintro ⟨e, m, x, c, st⟩ j ⟨bs, hb, hd⟩
        have e1 : skipRom.read 0x8003 4 = .ok [0x60, 0, 0, 0] := by decide +kernel
        rw [e1] at hb; cases hb
        have e2 : ∀ e m x c, decode [0x60, 0, 0, 0] (actualFlags ⟨e, m, x, c, []⟩) =
            .ok ⟨.rts, .none, .imp, .null, .null, .default⟩ := by decide +kernel
        have e3 : actualFlags ⟨e, m, x, c, st⟩ = actualFlags ⟨e, m, x, c, []⟩ := rfl
        rw [e3, e2] at hd; cases hd; rfl
      intro x q h
      induction h with
      | start => exact .inl rfl
      | next before fetches goesOn _ _ ih =>
        exfalso
        rcases ih with rfl | rfl
        · rw [h0 fetches] at goesOn; exact goesOn (by decide)
        · rw [h3 fetches] at goesOn; exact goesOn (by decide)
      | branch before fetches may offset _ ih =>
        rcases ih with rfl | rfl
        · rw [h0 fetches] at offset ⊢
          cases offset
          exact .inr (by decide)
        · rw [h3 fetches] at may; exact absurd may (by decide)
    intro q hq
    rcases key hq with h | h <;> exact absurd h (by decide)

/-- An RTS in the last byte of a bank, which holds 32 KiB of ROM. -/
def lastFile : List Str := [cs!" .org $ffff", cs!" .entry m8x8", cs!" rts"]

/-- And C77 needs that four bytes can be read from each byte of the program on.  This program has its only instruction in the
last byte of a bank.  It can be assembled, but no ROM with LoROM mapping that holds it can be disassembled there: the disassembler reads four bytes. -/
theorem C77_violated (data : List UInt8) (fuel : Nat) (f : StatusFlags) :
    (∃ ws a, Assembles 100 [lastFile] ws a ∧ Spec.stored ws = [(0xffff, 0x60)]) ∧
    (∀ far, (Disassembler.empty.disassemble fuel (Rom.read ⟨.loRom, data⟩) 0xffff f).2 ≠ .ok far) := by
  constructor
  · obtain ⟨ws, a, h, hp⟩ := assembles_of_check (fuel := 100) (files := [lastFile])
      (fun ws _ => decide (Spec.stored ws = [(0xffff, 0x60)])) (by decide +kernel)
    exact ⟨ws, a, h, by simpa using hp⟩
  · have e1 : snesToRom 0xffff .loRom = .ok 0x7fff := by decide +kernel
    have e2 : ∃ e, snesToRom (Address.addWrapped 0xffff 3) .loRom = .err e := ⟨_, rfl⟩
    obtain ⟨e, e2⟩ := e2
    have hread : Rom.read ⟨.loRom, data⟩ 0xffff 4 = .err e := by
      show (snesToRom 0xffff .loRom >>= fun first => snesToRom (Address.addWrapped 0xffff 3) .loRom >>= fun last => _) = _
      rw [e1, e2]; rfl
    intro far
    cases fuel with
    | zero => simp [Disassembler.disassemble, Disassembler.run]
    | succ n =>
      have hstep : Disassembler.step (Rom.read ⟨.loRom, data⟩) .empty (Disassembler.begin .empty 0xffff f) = .err e := by
        have : Disassembler.visitNew (Rom.read ⟨.loRom, data⟩) .empty
            { Disassembler.begin .empty 0xffff f with stack := [] } 0xffff (.init f) = .err e := by
          unfold Disassembler.visitNew
          rw [hread]; rfl
        show (do .ok (some (← Disassembler.visitNew (Rom.read ⟨.loRom, data⟩) .empty
            { Disassembler.begin .empty 0xffff f with stack := [] } 0xffff (.init f)))) = _
        rw [this]; rfl
      simp [Disassembler.disassemble, Disassembler.run, hstep]

end Nsasm.Props
