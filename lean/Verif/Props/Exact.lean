import Verif.Lemmas.Exact
import Verif.Props.Simulate

/-! # C78: disassembling an assembled program shows exactly the program -/

namespace Nsasm.Props
open Nsasm Nsasm.Spec

/-- What the claims of C78 ask of a program: the analysis has come to rest, origins are addresses, branches go to places,
and the file says nothing about its execution that the bytes do not show. -/
structure Disassemblable (m m' : Module) : Prop where
  rest : AtRest m m'
  origins : ProperOrigins m'.lines
  branches : BranchesToCode m
  plain : Unassisted m

theorem built_ground {fuel : Nat} {files : List (List Str)} {rom : Rom} {n : Nat} {m m' : Module} {ctx : Nat → Ctx}
    (h : Built fuel files rom n m m' ctx) (hd : Disassemblable m m') :
    ∃ file ctx₀, Ground file fuel m m' rom.read ctx₀ ∧ ∀ k id v, ctx₀ k id = .ok v → ctx k id = .ok v := by
  obtain ⟨file, ctx₀, h1, h2, h3, h4⟩ := built_image h
  obtain ⟨ws, a, externs, M, file', items, g1, g2, g3, g4, g5, g6, g7, g8, g9, g10⟩ := h.image
  exact ⟨file, ctx₀, ⟨h1, h2, hd.rest, hd.origins, hd.branches, hd.plain, h3, apart_of_assembly g1 g4 g5 g6 g7⟩, h4⟩

theorem spot_begins {file : List Str} {fuel : Nat} {m m' : Module} {src : Source} {ctx₀ : Nat → Ctx}
    (G : Ground file fuel m m' src ctx₀) {i a : Nat} {t : ExecutionState} (h : Spot m m' i a t) :
    BeginsAt m m'.lines i a := by
  have key : ∀ {k : Nat} {l' : Line} {j : Instruction}, m'.lines[k]? = some l' → l'.statement = .instr j →
      ∃ l ins, m.lines[k]? = some l ∧ l.statement = .instr ins ∧ ins.mnemonic = j.mnemonic := by
    intro k l' j hl' hj
    obtain ⟨-, l, ins, h1, h2, -, h3, -⟩ := C42_every_instruction_analysed G.load G.pass hl' hj
    exact ⟨l, ins, h1, h2, by rw [h3]⟩
  cases h with
  | line r1 r2 r3 r4 =>
    obtain ⟨l, ins, h1, h2, -⟩ := key r2 r3
    exact .line _ l ins r1 h1 h2 r4
  | between r1 r2 r3 r5 r4 =>
    obtain ⟨l, ins, h1, h2, h3⟩ := key r2 r3
    exact .second _ l ins _ r1 h1 h2 (by rw [h3]; exact r5) r4 rfl

theorem standsAt_unique {lines : List Line} {k x y : Nat} (h : StandsAt lines k x) (h' : StandsAt lines k y) : x = y := by
  obtain ⟨o, v, ⟨h1, ⟨l, hl, d, hd, hn, hv⟩, h2⟩, -, hx⟩ := h
  obtain ⟨o', v', ⟨h1', ⟨l', hl', d', hd', hn', hv'⟩, h2'⟩, -, hy⟩ := h'
  have : o = o' := by
    rcases Nat.lt_trichotomy o o' with h | h | h
    · exact absurd ⟨d', hd', hn'⟩ (h2 o' l' h h1' hl')
    · exact h
    · exact absurd ⟨d, hd, hn⟩ (h2' o l h h1 hl)
  subst this
  rw [hl] at hl'; cases hl'
  rw [hd] at hd'; cases hd'
  rw [hv] at hv'; cases hv'
  omega

theorem entry_constructible {file : List Str} {m : Module} (hm : Module.loadAsmFile file = .ok m) {i : Nat} {f : StatusFlags}
    (entry : DeclaresEntry m i f) : Constructible f := by
  obtain ⟨l, d, h1, h2, h3, rfl⟩ := entry
  have := loaded_written hm l (List.mem_of_getElem? h1)
  rw [h2] at this
  exact written_constructible (this (by rw [h3]; decide))

/-- The start is on the chart. -/
theorem start_covered {file : List Str} {fuel : Nat} {m m' : Module} {src : Source} {ctx₀ : Nat → Ctx}
    (G : Ground file fuel m m' src ctx₀) {i start : Nat} {f : StatusFlags} (entry : DeclaresEntry m i f)
    (hf : Constructible f) (hstart : StandsAt m'.lines (i + 1) start) : Covered (Spot m m' i) start (.init f) := by
  have hk : ReachableFrom m i (i + 1) := .entry entry
  refine covered_line G _ (i + 1) start _ (Nat.le_refl _) hk hstart fun l' hl' => ?_
  obtain ⟨-, q₁, -, hq₁, -, hqn, -⟩ := reached_facts G hk
  rw [hl'] at hq₁; cases hq₁
  exact Above.state hqn (normal_init (constructible_normal hf)) (G.rest.entry i f l' entry hl')

/-- **Disassembling an assembled program succeeds.**  Assemble files into a ROM, and disassemble the ROM, with a new
disassembler, from the address of an entry point of a file, with the flags declared there.  That succeeds.

Partial: the program is `Disassemblable` (see `C78_violated`), and the entry gives the size of the accumulator and of the
index registers. -/
theorem C78_succeeds_partial {fuel : Nat} {files : List (List Str)} {rom : Rom} {n : Nat} {m m' : Module} {ctx : Nat → Ctx}
    (h : Built fuel files rom n m m' ctx) (hd : Disassemblable m m') {i start : Nat} {f : StatusFlags}
    (entry : DeclaresEntry m i f) (hsz : GivesSizes f) (hstart : StandsAt m'.lines (i + 1) start) :
    ∃ N d far, ∀ fuel' ≥ N, Disassembler.empty.disassemble fuel' rom.read start f = (d, .ok far) := by
  obtain ⟨file, ctx₀, G, -⟩ := built_ground h hd
  have hf := entry_constructible G.load entry
  have hs : start ≤ 0x1000000 := Nat.le_of_lt (standsAt_lt hstart)
  obtain ⟨N, d, r, hr, hN⟩ := C48_rom_terminates rom (d := .empty) .new hs hf
  obtain ⟨h1 | ⟨far, h1⟩, -⟩ := charted_call (spot_chart G) hs (constructible_normal hf) hsz
    (start_covered G entry hf hstart) (hN N (Nat.le_refl N))
  · exact absurd h1 hr
  · exact ⟨N, d, far, fun fuel' h' => by rw [hN fuel' h', h1]⟩

/-- **The listing has exactly the instructions of the program.**  There is an entry at an address if and only if an
instruction that can be reached from the entry point begins there.

Partial: as `C78_succeeds_partial`. -/
theorem C78_exact_partial {fuel : Nat} {files : List (List Str)} {rom : Rom} {n : Nat} {m m' : Module} {ctx : Nat → Ctx}
    (h : Built fuel files rom n m m' ctx) (hd : Disassemblable m m') {i start : Nat} {f : StatusFlags}
    (entry : DeclaresEntry m i f) (hsz : GivesSizes f) (hstart : StandsAt m'.lines (i + 1) start)
    {fuel' : Nat} {d : Disassembler} {far : OMap StatusFlags}
    (hdis : Disassembler.empty.disassemble fuel' rom.read start f = (d, .ok far)) (a : Addr) :
    (∃ it, Lists d.disassembly a it) ↔ BeginsAt m m'.lines i a := by
  obtain ⟨file, ctx₀, G, -⟩ := built_ground h hd
  have hf := entry_constructible G.load entry
  have hs : start ≤ 0x1000000 := Nat.le_of_lt (standsAt_lt hstart)
  obtain ⟨-, hcov⟩ := charted_call (spot_chart G) hs (constructible_normal hf) hsz (start_covered G entry hf hstart) hdis
  obtain ⟨hcl, hst⟩ := disassemble_closed (session_closed (src := rom.read) (d := .empty) .new) hs (constructible_normal hf) hdis
  obtain ⟨jt, hjt, -⟩ := hst rfl
  constructor
  · rintro ⟨it, hit⟩
    obtain ⟨t, ht, -⟩ := (hcov a it hit).1
    exact spot_begins G ht
  · have key : ∀ {k : Nat} {y : Addr}, ReachableFrom m i k → StandsAt m'.lines k y → ∃ it, d.disassembly.find y = some it := by
      intro k y hk hy
      obtain ⟨x, it, hx, hit⟩ := listed_all G hcl hcov hstart hjt hk
      rw [standsAt_unique hy hx]
      exact ⟨it, hit⟩
    intro hb
    cases hb with
    | line k l ins reached here instr stands => exact key reached stands
    | second k l ins y reached here instr pseudo stands next =>
      obtain ⟨it, hit⟩ := key reached stands
      obtain ⟨l₀, l', hl₀, hl', -, -, -, -, -, -, hins⟩ := reached_facts G reached
      rw [here] at hl₀; cases hl₀
      obtain ⟨j, -, hj, -, ej, -⟩ := hins ins instr
      have e1 : j.mnemonic = ins.mnemonic := by rw [ej]
      obtain ⟨-, it2, -, hit2, -⟩ := listed_pseudo G hcl hcov reached stands hit hl' hj (by rw [e1]; exact pseudo)
      rw [next]
      exact ⟨it2, hit2⟩

/-- **The listing shows each instruction as it was written.**  For every instruction that can be reached from the entry
point, the listing shows at the address of its line that instruction, with its operands.  (A pseudo-op is shown as the two
instructions that it is.)

Partial: as `C78_succeeds_partial`. -/
theorem C78_shows_partial {fuel : Nat} {files : List (List Str)} {rom : Rom} {n : Nat} {m m' : Module} {ctx : Nat → Ctx}
    (h : Built fuel files rom n m m' ctx) (hd : Disassemblable m m') {i start : Nat} {f : StatusFlags}
    (entry : DeclaresEntry m i f) (hsz : GivesSizes f) (hstart : StandsAt m'.lines (i + 1) start)
    {fuel' : Nat} {d : Disassembler} {far : OMap StatusFlags}
    (hdis : Disassembler.empty.disassemble fuel' rom.read start f = (d, .ok far)) {k : Nat} (hk : ReachableFrom m i k)
    {l : Line} {ins : Instruction} (hl : m.lines[k]? = some l) (hi : l.statement = .instr ins) :
    ∃ x, StandsAt m'.lines k x ∧ ListsWritten d.disassembly (ctx k) x ins := by
  obtain ⟨file, ctx₀, G, hctx⟩ := built_ground h hd
  have hf := entry_constructible G.load entry
  have hs : start ≤ 0x1000000 := Nat.le_of_lt (standsAt_lt hstart)
  obtain ⟨-, hcov⟩ := charted_call (spot_chart G) hs (constructible_normal hf) hsz (start_covered G entry hf hstart) hdis
  obtain ⟨hcl, hst⟩ := disassemble_closed (session_closed (src := rom.read) (d := .empty) .new) hs (constructible_normal hf) hdis
  obtain ⟨jt, hjt, -⟩ := hst rfl
  obtain ⟨x, it, hx, hit⟩ := listed_all G hcl hcov hstart hjt hk
  refine ⟨x, hx, ?_⟩
  obtain ⟨l₀, l', hl₀, hl', -, -, -, -, -, -, hins⟩ := reached_facts G hk
  rw [hl] at hl₀; cases hl₀
  obtain ⟨j, -, hj, -, ej, ej', -⟩ := hins ins hi
  have e1 : j.mnemonic = ins.mnemonic := by rw [ej]
  have emode : ins.mode ≠ .imm_fm → ins.mode ≠ .imm_fx → j.mode = ins.mode := fun a b => by rw [ej' a b]
  unfold ListsWritten
  split_ifs with hps
  · obtain ⟨⟨p1, p2⟩, it2, i0, hit2, hsh, -, q1, q2, q3⟩ := listed_pseudo G hcl hcov hk hx hit hl' hj (by rw [e1]; exact hps)
    refine ⟨⟨it, hit, by rw [p1, e1], p2⟩, it2, i0, hit2, hsh, by rw [q1, e1], fun a b => by rw [q2]; exact emode a b,
      operandsMatch_mono (hctx k) ?_⟩
    rw [q2]
    rw [ej] at q3
    exact q3
  · obtain ⟨i0, hsh, -, q1, q2, q3⟩ := listed_real G hcl hcov hk hx hit hl' hj (by rw [e1]; exact hps)
    refine ⟨it, i0, hit, hsh, by rw [q1, e1], fun a b => by rw [q2]; exact emode a b, operandsMatch_mono (hctx k) ?_⟩
    rw [q2]
    rw [ej] at q3
    exact q3

/-- **Without backward branches the analysis comes to rest**, and the claims hold: disassembling from an entry point
succeeds, there is an entry at an address if and only if an instruction that can be reached begins there, and every
instruction is shown as it was written.

Partial: as `C78_succeeds_partial`, but that the analysis has come to rest is proved here, for programs in which every
local branch goes to the same or a later line. -/
theorem C78_forward_partial {fuel : Nat} {files : List (List Str)} {rom : Rom} {n : Nat} {m m' : Module} {ctx : Nat → Ctx}
    (h : Built fuel files rom n m m' ctx) (hforward : ∀ k t, BranchesTo m k t → k ≤ t) (horg : ProperOrigins m'.lines)
    (hbr : BranchesToCode m) (hplain : Unassisted m) {i start : Nat} {f : StatusFlags}
    (entry : DeclaresEntry m i f) (hsz : GivesSizes f) (hstart : StandsAt m'.lines (i + 1) start) :
    ∃ N d far, (∀ fuel' ≥ N, Disassembler.empty.disassemble fuel' rom.read start f = (d, .ok far)) ∧
      (∀ a, (∃ it, Lists d.disassembly a it) ↔ BeginsAt m m'.lines i a) ∧
      ∀ k l ins, ReachableFrom m i k → m.lines[k]? = some l → l.statement = .instr ins →
        ∃ x, StandsAt m'.lines k x ∧ ListsWritten d.disassembly (ctx k) x ins := by
  have hd : Disassemblable m m' := by
    obtain ⟨file, ctx₀, h1, h2, -⟩ := built_image h
    obtain ⟨a1, a2, a3⟩ := absorbs_of_forward h1 h2 hforward
    exact ⟨⟨fun i f l a b => (a1 i f l a b).same, fun k l₀ l l' s a b c d e f => (a2 k l₀ l l' s a b c d e f).same,
      fun k t l₀ l l' i name s a b c d e f g h j => (a3 k t l₀ l l' i name s a b c d e f g h j).same⟩, horg, hbr, hplain⟩
  obtain ⟨N, d, far, hN⟩ := C78_succeeds_partial h hd entry hsz hstart
  exact ⟨N, d, far, hN, C78_exact_partial h hd entry hsz hstart (hN N (Nat.le_refl N)),
    fun k l ins hk hl hi => C78_shows_partial h hd entry hsz hstart (hN N (Nat.le_refl N)) hk hl hi⟩

/-! ### The hypotheses can be met -/

/-- A check for `AtRest`, line by line. -/
def atRestCheck (m m' : Module) : Bool :=
  (List.range m.lines.length).all fun k =>
    match m.lines[k]?, m'.lines[k]? with
    | some l₀, some l =>
      (match m'.lines[k + 1]? with
        | some l' =>
          (match l₀.statement.execute l.incoming with
            | .ok s => decide (l'.incoming.merge s = l'.incoming) || decide (Stops l₀.statement) || !l.reached
            | _ => true) &&
          (match l₀.statement with
            | .dir d => decide (d.name ≠ .entry) || decide (l'.incoming.merge (.init d.flags) = l'.incoming)
            | .instr _ => true)
        | none => true) &&
      (match branchTarget m k, l₀.statement with
        | some t, .instr i =>
          (match m'.lines[t]?, i.executeBranch l.incoming with
            | some l', .ok s => decide (l'.incoming.merge s = l'.incoming)
            | _, _ => true)
        | _, _ => true)
    | _, _ => true

theorem atRest_of_check {fuel : Nat} {m m' : Module} (hf : m.runFirstPass fuel = .ok m')
    (h : atRestCheck m m' = true) : AtRest m m' := by
  have hlen := firstPass_length hf
  have hk : ∀ (k : Nat) (l₀ : Line), m.lines[k]? = some l₀ → k ∈ List.range m.lines.length :=
    fun k l₀ hl => List.mem_range.mpr (List.getElem?_eq_some_iff.mp hl).1
  refine ⟨?_, ?_, ?_⟩
  · rintro i f l' ⟨l₀, d, h0, hd, he, rfl⟩ hl'
    have hlt := (List.getElem?_eq_some_iff.mp h0).1
    have hl : m'.lines[i]? = some (m'.lines[i]'(by omega)) := List.getElem?_eq_getElem _
    have := List.all_eq_true.mp h i (hk i l₀ h0)
    simp only [h0, hl, hl', hd, he, Bool.and_eq_true] at this
    simpa using this.1.2
  · intro k l₀ l l' s h0 hl hl' hns hr hex
    have := List.all_eq_true.mp h k (hk k l₀ h0)
    simp only [h0, hl, hl', hex, Bool.and_eq_true] at this
    have := this.1.1
    simpa [hns, hr] using this
  · intro k t l₀ l l' i name s h0 hl hl' hi hb hn ht _ hex
    have := List.all_eq_true.mp h k (hk k l₀ h0)
    have htt := branchesTo_target (m := m) ⟨l₀, i, name, h0, hi, hb, hn, ht⟩
    simp only [h0, hl, Bool.and_eq_true] at this
    have := this.2
    simp only [htt, hi, hl', hex] at this
    simpa using this

theorem unassisted_of_check {m : Module} (h : (m.lines.all fun l =>
    match l.statement with
    | .dir d => decide (d.name ≠ .mode ∧ d.name ≠ .halt)
    | .instr i => decide (i.ret = .default)) = true) : Unassisted m := by
  constructor
  · intro l hl d hd
    have := List.all_eq_true.mp h l hl
    simpa [hd] using this
  · intro l hl i hi
    have := List.all_eq_true.mp h l hl
    simpa [hi] using this

/-- The loop meets the hypotheses, and it has an instruction at `$8002` that can be reached. -/
example : ∃ m m' ctx, Built 100 [loopFile] loopRom 0 m m' ctx ∧ Disassemblable m m' ∧
    DeclaresEntry m 1 ⟨.off, .on, .on, .unknown⟩ ∧
    GivesSizes ⟨.off, .on, .on, .unknown⟩ ∧ StandsAt m'.lines 2 0x8000 ∧ (∃ far, loopCall.2 = .ok far) ∧
    BeginsAt m m'.lines 1 0x8002 ∧ ∃ l ins, m.lines[3]? = some l ∧ l.statement = .instr ins ∧ ReachableFrom m 1 3 := by
  obtain ⟨m, hm⟩ : ∃ m, Module.loadAsmFile loopFile = .ok m := ⟨_, rfl⟩
  obtain ⟨m', h1⟩ : ∃ m', m.runFirstPass 100 = .ok m' := by cases hm; exact ⟨_, rfl⟩
  obtain ⟨ctx, hb⟩ := built_of_check (rom := loopRom) (n := 0) (files := [loopFile]) rfl hm h1 (by decide +kernel)
  have hr : ReachableFrom m 1 3 := by
    cases hm
    exact .next (.entry (f := ⟨.off, .on, .on, .unknown⟩) ⟨_, _, rfl, rfl, rfl, by decide +kernel⟩) ⟨_, rfl, by decide +kernel⟩
  refine ⟨m, m', ctx, hb, ⟨?_, ?_, ?_, ?_⟩, ?_, by simp [GivesSizes], ?_, ?_, ?_, ?_⟩
  · cases hm; cases h1; exact atRest_of_check (fuel := 100) rfl (by decide +kernel)
  · cases hm; cases h1; exact properOrigins_of_check (by decide +kernel)
  · cases hm; exact branchesToCode_of_check (by decide +kernel)
  · cases hm; exact unassisted_of_check (by decide +kernel)
  · cases hm; exact ⟨_, _, rfl, rfl, rfl, by decide +kernel⟩
  · cases hm; cases h1
    exact standsAt_of_lines (o := 0) (v := 0x8000) (by omega) rfl ⟨_, rfl, rfl, by decide +kernel⟩ (by decide +kernel) (by decide)
      (by decide +kernel)
  · exact ⟨[], by decide +kernel⟩
  · cases hm; cases h1
    exact .line 3 _ _ hr rfl rfl
      (standsAt_of_lines (o := 0) (v := 0x8000) (by omega) rfl ⟨_, rfl, rfl, by decide +kernel⟩ (by decide +kernel) (by decide)
        (by decide +kernel))
  · cases hm; exact ⟨_, _, rfl, rfl, hr⟩

/-- A program that branches forward over an instruction. -/
def overFile : List Str := [cs!" .org $8000", cs!" .entry m8x8", cs!" beq skip", cs!" inx", cs!"skip: lda #$12", cs!" rts"]

def overRom : Rom := ⟨.loRom, [0xf0, 0x01, 0xe8, 0xa9, 0x12, 0x60, 0, 0, 0, 0, 0, 0]⟩

/-- A program with a forward branch meets the hypotheses of `C78_forward_partial`. -/
example : ∃ m m' ctx, Built 100 [overFile] overRom 0 m m' ctx ∧ (∀ k t, BranchesTo m k t → k ≤ t) ∧
    BranchesTo m 2 4 ∧ ProperOrigins m'.lines ∧ BranchesToCode m ∧ Unassisted m ∧
    DeclaresEntry m 1 ⟨.off, .on, .on, .unknown⟩ ∧
    GivesSizes ⟨.off, .on, .on, .unknown⟩ ∧ StandsAt m'.lines 2 0x8000 := by
  obtain ⟨m, hm⟩ : ∃ m, Module.loadAsmFile overFile = .ok m := ⟨_, rfl⟩
  obtain ⟨m', h1⟩ : ∃ m', m.runFirstPass 100 = .ok m' := by cases hm; exact ⟨_, rfl⟩
  obtain ⟨ctx, hb⟩ := built_of_check (rom := overRom) (n := 0) (files := [overFile]) rfl hm h1 (by decide +kernel)
  refine ⟨m, m', ctx, hb, ?_, ?_, ?_, ?_, ?_, ?_, by simp [GivesSizes], ?_⟩
  · intro k t hbr
    have hlt : k < m.lines.length := by obtain ⟨l₀, i, name, h0, -⟩ := hbr; exact (List.getElem?_eq_some_iff.mp h0).1
    have htt := branchesTo_target hbr
    have : ((List.range m.lines.length).all fun k => match branchTarget m k with | some t => decide (k ≤ t) | none => true) = true := by
      cases hm; decide +kernel
    have := List.all_eq_true.mp this k (List.mem_range.mpr hlt)
    simpa [htt] using this
  · cases hm; exact ⟨_, _, _, rfl, rfl, by decide +kernel, rfl, by decide +kernel⟩
  · cases hm; cases h1; exact properOrigins_of_check (by decide +kernel)
  · cases hm; exact branchesToCode_of_check (by decide +kernel)
  · cases hm; exact unassisted_of_check (by decide +kernel)
  · cases hm; exact ⟨_, _, rfl, rfl, rfl, by decide +kernel⟩
  · cases hm; cases h1
    exact standsAt_of_lines (o := 0) (v := 0x8000) (by omega) rfl ⟨_, rfl, rfl, by decide +kernel⟩ (by decide +kernel) (by decide)
      (by decide +kernel)

/-! ### Where the claims are false -/

/-- No instruction of the program stands at `x`, and there are no pseudo-ops: a sufficient check. -/
theorem not_begins_of_check {m : Module} {lines : List Line} {x : Nat} (h : ((List.range m.lines.length).all fun k =>
    match m.lines[k]? with
    | some l =>
      (match l.statement with
        | .instr i => decide (i.mnemonic ≠ .padd ∧ i.mnemonic ≠ .psub) && (List.range (k + 1)).all fun o =>
          (match lines[o]? with
            | some q =>
              (match q.statement with
                | .dir d => decide (d.name ≠ .org) ||
                  (match d.argument.eval nullCtx with | .ok v => decide ((x : Int) ≠ place v (bytesBetween lines o k)) | _ => true)
                | .instr _ => true)
            | none => true)
        | .dir _ => true)
    | none => true) = true) (i : Nat) : ¬ BeginsAt m lines i x := by
  have key : ∀ (k : Nat) (l : Line) (ins : Instruction), m.lines[k]? = some l → l.statement = .instr ins →
      (ins.mnemonic ≠ .padd ∧ ins.mnemonic ≠ .psub) ∧ ¬ StandsAt lines k x := by
    intro k l ins hl hi
    have := List.all_eq_true.mp h k (List.mem_range.2 (List.getElem?_eq_some_iff.mp hl).1)
    simp only [hl, hi, Bool.and_eq_true, decide_eq_true_eq] at this
    refine ⟨this.1, ?_⟩
    rintro ⟨o, v, ⟨ho, ⟨q, hq, d, hd, hn, hv⟩, -⟩, -, hx⟩
    have := List.all_eq_true.mp this.2 o (List.mem_range.2 (by omega))
    simp only [hq, hd, hn, hv] at this
    simp at this
    exact this hx
  intro hb
  cases hb with
  | line k l ins reached here instr stands => exact (key k l ins here instr).2 stands
  | second k l ins y reached here instr pseudo stands next =>
    rcases pseudo with hp | hp
    · exact (key k l ins here instr).1.1 hp
    · exact (key k l ins here instr).1.2 hp

/-- The program of `C41_violated`. -/
def restlessFile : List Str := [cs!" .org $8000", cs!" .entry m8x8", cs!"loop: lda #$12", cs!" rep #$20", cs!" bra loop"]

def restlessRom : Rom := ⟨.loRom, [0xa9, 0x12, 0x00, 0xc2, 0x20, 0x80, 0xf9, 0x60, 0, 0, 0, 0]⟩

def restlessCall : Disassembler × Res (OMap StatusFlags) :=
  Disassembler.empty.disassemble 20 restlessRom.read 0x8000 ⟨.off, .on, .on, .unknown⟩

/-- The claim is false in general.  The analysis of this loop forgets that it is entered with an 8-bit accumulator, so the
LDA is assembled with a 16-bit operand.  The disassembler is told the flags of the entry point, takes the operand to have 8
bits, and lists an instruction in the middle of the LDA. -/
theorem C78_violated : ∃ (m m' : Module) (ctx : Nat → Ctx) (far : OMap StatusFlags),
    Built 100 [restlessFile] restlessRom 0 m m' ctx ∧ ProperOrigins m'.lines ∧ BranchesToCode m ∧ Unassisted m ∧
    DeclaresEntry m 1 ⟨.off, .on, .on, .unknown⟩ ∧ StandsAt m'.lines 2 0x8000 ∧ restlessCall.2 = .ok far ∧
    (∃ it, Lists restlessCall.1.disassembly 0x8002 it) ∧ ¬ BeginsAt m m'.lines 1 0x8002 := by
  obtain ⟨m, hm⟩ : ∃ m, Module.loadAsmFile restlessFile = .ok m := ⟨_, rfl⟩
  obtain ⟨m', h1⟩ : ∃ m', m.runFirstPass 100 = .ok m' := by cases hm; exact ⟨_, rfl⟩
  obtain ⟨ctx, hb⟩ := built_of_check (rom := restlessRom) (n := 0) (files := [restlessFile]) rfl hm h1 (by decide +kernel)
  have hl : (restlessCall.1.disassembly.find 0x8002).isSome = true := by decide +kernel
  refine ⟨m, m', ctx, _, hb, ?_, ?_, ?_, ?_, ?_, rfl, Option.isSome_iff_exists.1 hl, ?_⟩
  · cases hm; cases h1; exact properOrigins_of_check (by decide +kernel)
  · cases hm; exact branchesToCode_of_check (by decide +kernel)
  · cases hm; exact unassisted_of_check (by decide +kernel)
  · cases hm; exact ⟨_, _, rfl, rfl, rfl, by decide +kernel⟩
  · cases hm; cases h1
    exact standsAt_of_lines (o := 0) (v := 0x8000) (by omega) rfl ⟨_, rfl, rfl, by decide +kernel⟩ (by decide +kernel) (by decide)
      (by decide +kernel)
  · cases hm; cases h1
    exact not_begins_of_check (by decide +kernel) _

end Nsasm.Props
