import Verif.Lemmas.Flow
import Verif.Lemmas.SecondPass
import Verif.Props.FirstPass

/-! # C41, C56: assembled code on the processor -/

namespace Nsasm.Props
open Nsasm Nsasm.Spec

/-- What the analysis recorded is in the result of the pass. -/
theorem recorded {fuel : Nat} {m m' : Module} {p : Module.Pass} {l1 l2 : List Line}
    (hS : SameLines m p) (hfix : Module.fixLines p.lines = .ok l1)
    (hlay : Module.layout none l1 = .ok l2) {k : Nat} {l : Line} (hl : l2[k]? = some l) :
    ∃ c, p.lines[k]? = some c ∧ c.incoming = l.incoming ∧ c.reached = l.reached ∧
      c.scopes = l.scopes ∧
      (∀ d, c.statement = .dir d ↔ l.statement = .dir d) ∧
      (∀ j, l.statement = .instr j → ∃ i, c.statement = .instr i ∧
        i.fixAddressingMode l.incoming.flags = .ok j) := by
  obtain ⟨b, hb, hlr⟩ := forall2_getElem? (layout_rel hlay) hl
  obtain ⟨c, hc, hfr⟩ := forall2_getElem? (fixLines_rel hfix) hb
  refine ⟨c, hc, ?_⟩
  unfold FixRel at hfr
  cases hcs : c.statement with
  | dir d =>
    rw [hcs] at hfr
    simp only at hfr
    subst hfr
    refine ⟨by rw [hlr], by rw [hlr], by rw [hlr], ?_, ?_⟩
    · intro d'; rw [hlr]; simp [hcs]
    · intro j hj; rw [hlr] at hj; simp [hcs] at hj
  | instr i =>
    rw [hcs] at hfr
    obtain ⟨hr, j', hj', hb'⟩ := hfr
    have hinc : c.incoming = l.incoming := by rw [hlr, hb']
    have hst : l.statement = .instr j' := by rw [hlr, hb']
    refine ⟨hinc, by rw [hlr, hb'], by rw [hlr, hb'], ?_, ?_⟩
    · intro d'; rw [hst]; simp
    · intro j hj
      rw [hst] at hj; cases hj
      exact ⟨i, rfl, by rw [← hinc]; exact hj'⟩

theorem recorded_conv {p : Module.Pass} {l1 l2 : List Line}
    (hfix : Module.fixLines p.lines = .ok l1) (hlay : Module.layout none l1 = .ok l2) {k : Nat}
    {c : Line} (hc : p.lines[k]? = some c) : ∃ l, l2[k]? = some l := by
  have h1 := (fixLines_rel hfix).length_eq
  have h2 := (layout_rel hlay).length_eq
  have h3 := (List.getElem?_eq_some_iff.mp hc).1
  exact ⟨l2[k], List.getElem?_eq_getElem (by omega)⟩

/-! ## C56 -/

/-- **Assembled code never runs off the end of the file or into data.**  If the first pass
succeeds on a loaded file, every line that execution may reach from a declared entry point, by
falling through or by taking local branches any number of times, is a line of the file, has been
analysed, and is neither data nor an `.org`. -/
theorem C56_never_into_data {file : List Str} {fuel : Nat} {m m' : Module}
    (hm : Module.loadAsmFile file = .ok m) (h : m.runFirstPass fuel = .ok m') {k : Nat}
    (hk : Reachable m k) :
    ∃ l, m'.lines[k]? = some l ∧ l.reached = true ∧ ¬ IsData l.statement := by
  obtain ⟨items, -, hI, -, -⟩ := loadAsmFile_ok hm
  obtain ⟨p, l1, l2, he, hfix, hlay, rfl⟩ := firstPass_parts h
  obtain ⟨hD, hE, hw, hS, -⟩ := explored_accounts (K := Seen)
    (fun p p' _ hg hs => seen_accounts hg hs) (fun t s ⟨v, hv, _⟩ => .inl ⟨v, hv⟩)
    (loaded_written hm) (fun k l hl => (hI.line k l hl).2.2.1) he
  have hseen : ∀ t s, Seen p t s → ∃ l, p.lines[t]? = some l ∧ l.reached = true := by
    intro t s h
    rcases h with ⟨v, hv⟩ | h
    · rw [hw] at hv; cases hv
    · exact h
  have key : ∃ c, p.lines[k]? = some c ∧ c.reached = true := by
    induction hk with
    | entry h => exact hseen _ _ (hE _ _ h)
    | @next k _ hf ih =>
      obtain ⟨c, hc, hr⟩ := ih
      obtain ⟨⟨next, hn, hK⟩, -⟩ := hD k c hc hr
      obtain ⟨l0, h0, hns⟩ := hf
      obtain ⟨l', hl', hst, -⟩ := flow_original hS hc
      rw [h0] at hl'; cases hl'
      exact hseen _ _ (hK (by rw [hst]; exact hns))
    | @branch k t _ hb ih =>
      obtain ⟨c, hc, hr⟩ := ih
      obtain ⟨l0, i, name, h0, hi, hmb, hnm, ht⟩ := hb
      obtain ⟨l', hl', hst, hsc⟩ := flow_original hS hc
      rw [h0] at hl'; cases hl'
      obtain ⟨name', t', nb, e1, e2, -, hK⟩ := (hD k c hc hr).2 i (by rw [hst]; exact hi) hmb
      rw [hnm] at e1; cases e1
      rw [hsc, ht] at e2; cases e2
      exact hseen _ _ hK
  obtain ⟨c, hc, hr⟩ := key
  obtain ⟨l, hl⟩ := recorded_conv hfix hlay hc
  obtain ⟨c', hc', -, hr', -, hd, -⟩ := recorded (fuel := 0) (m' := m) hS hfix hlay hl
  rw [hc] at hc'; cases hc'
  refine ⟨l, hl, by rw [← hr']; exact hr, ?_⟩
  intro hdata
  obtain ⟨⟨next, hn, -⟩, -⟩ := hD k c hc hr
  cases hst : l.statement with
  | instr i => rw [hst] at hdata; exact hdata
  | dir d =>
    rw [hst] at hdata
    rw [(hd d).mpr hst] at hn
    simp only [IsData] at hdata
    simp only [Statement.execute, Directive.execute] at hn
    rw [if_pos (by simp at hdata ⊢; tauto)] at hn
    cases hn

/-- A file that meets the hypotheses, with data that is branched around. -/
example : ∃ m m', Module.loadAsmFile [cs!" .org $8000", cs!" .entry m8x8", cs!" bra over",
      cs!" .db 1, 2", cs!"over: rts"] = .ok m ∧ m.runFirstPass 20 = .ok m' ∧ Reachable m 4 ∧
    ¬ Reachable m 3 := by
  obtain ⟨m, m', hm, hf, hl⟩ : ∃ m m' : Module, Module.loadAsmFile [cs!" .org $8000",
      cs!" .entry m8x8", cs!" bra over", cs!" .db 1, 2", cs!"over: rts"] = .ok m ∧
      m.runFirstPass 20 = .ok m' ∧ (∃ l, m'.lines[3]? = some l ∧ IsData l.statement) ∧
      Reachable m 4 := by
    refine ⟨_, _, rfl, rfl, ⟨_, rfl, by decide +kernel⟩, ?_⟩
    exact .branch (k := 2) (.entry (i := 1) ⟨_, _, rfl, rfl, rfl, rfl⟩)
      ⟨_, _, cs!"over", rfl, rfl, by decide +kernel, rfl, rfl⟩
  refine ⟨m, m', hm, hf, hl.2, fun h => ?_⟩
  obtain ⟨l, hl1, -, hd⟩ := C56_never_into_data hm hf h
  obtain ⟨⟨l', hl2, hd'⟩, -⟩ := hl
  rw [hl1] at hl2; cases hl2
  exact hd hd'

/-! ## C41 -/

/-- The stack instructions that the analysis does not track occur only where nothing is tracked on
the stack. -/
def StackTame (m' : Module) : Prop :=
  ∀ (k : Nat) (l : Line) (j : Instruction), m'.lines[k]? = some l → l.statement = .instr j →
    Untracked j.mnemonic → l.incoming.stack = .abandoned ∨ l.incoming.stack = .live []

/-- The states recorded in `m'` by analysing `m` cover what flows into them: from the entry points,
from the line before and from branches. -/
structure Consistent (m m' : Module) : Prop where
  entry : ∀ i f l, DeclaresEntry m i f → m'.lines[i + 1]? = some l → Subsumes l.incoming (.init f)
  next : ∀ (k : Nat) (l₀ l l' : Line) s, m.lines[k]? = some l₀ → m'.lines[k]? = some l →
    m'.lines[k + 1]? = some l' → ¬ Stops l₀.statement → l.reached = true →
    l₀.statement.execute l.incoming = .ok s → Subsumes l'.incoming s
  branch : ∀ (k t : Nat) (l₀ l l' : Line) i name s, m.lines[k]? = some l₀ → m'.lines[k]? = some l →
    m'.lines[t]? = some l' → l₀.statement = .instr i → MayBranch i →
    i.arg1.simpleIdentifier = some name → m.localIndex name l₀.scopes = some t → l.reached = true →
    i.executeBranch l.incoming = .ok s → Subsumes l'.incoming s

theorem describes_init {f : StatusFlags} {p : Cpu} (hp : p.Ok) (hf : KnownFlagsRight f p) :
    Describes .anything (.init f) p := by
  refine ⟨hp, ?_, trivial⟩
  obtain ⟨e, m, x, c⟩ := f
  obtain ⟨h1, h2, h3, h4, h5, h6, h7, h8⟩ := hf
  refine ⟨?_, ?_, ?_, ?_⟩
  · show BitIs _ (StatusFlags.incomingBit e) p.e
    cases e <;> simp_all [StatusFlags.incomingBit, BitIs, Meaning.anything]
  · show BitIs _ (StatusFlags.incomingBit m) p.m
    cases m <;> simp_all [StatusFlags.incomingBit, BitIs, Meaning.anything]
  · show BitIs _ (StatusFlags.incomingBit x) p.x
    cases x <;> simp_all [StatusFlags.incomingBit, BitIs, Meaning.anything]
  · show BitKnown (StatusFlags.incomingBit c) p.c
    cases c <;> simp_all [StatusFlags.incomingBit, BitKnown]

theorem describes_mode {f : StatusFlags} {p : Cpu} {s : ExecutionState}
    (hd : Describes .anything s p) (hf : KnownFlagsRight f p) :
    Describes .anything { s with flags := f } p := by
  obtain ⟨hp, -, hs⟩ := hd
  refine ⟨hp, ?_, hs⟩
  obtain ⟨e, m, x, c⟩ := f
  obtain ⟨h1, h2, h3, h4, h5, h6, h7, h8⟩ := hf
  refine ⟨?_, ?_, ?_, ?_⟩
  · show BitIs _ e p.e
    cases e <;> simp_all [BitIs, Meaning.anything]
  · show BitIs _ m p.m
    cases m <;> simp_all [BitIs, Meaning.anything]
  · show BitIs _ x p.x
    cases x <;> simp_all [BitIs, Meaning.anything]
  · show BitKnown c p.c
    cases c <;> simp_all [BitKnown]

theorem sizeRight_of_agrees {mn : Mnemonic} {mode : Mode} {f : StatusFlags} {p : Cpu}
    (h : SizeAgrees mn mode f) (hk : KnownFlagsRight f p) : SizeRight mn mode p := by
  obtain ⟨-, -, h3, h4, h5, h6, -, -⟩ := hk
  exact ⟨fun hM => ⟨fun e => h3 ((h.1 hM).1 e), fun e => h4 ((h.1 hM).2 e)⟩,
    fun hX => ⟨fun e => h5 ((h.2 hX).1 e), fun e => h6 ((h.2 hX).2 e)⟩⟩

/-- The recorded state describes the processor whenever it gets to a line. -/
theorem run_described {file : List Str} {fuel : Nat} {m m' : Module}
    (hm : Module.loadAsmFile file = .ok m) (h : m.runFirstPass fuel = .ok m')
    (hc : Consistent m m') (ht : StackTame m') {ctx : Nat → Ctx} {k : Nat} {p : Cpu}
    (hrun : Runs m ctx k p) :
    Reachable m k ∧ ∀ (l : Line), m'.lines[k]? = some l → Describes .anything l.incoming p := by
  have hw := loaded_written hm
  obtain ⟨items, -, hI, -, -⟩ := loadAsmFile_ok hm
  obtain ⟨pp, l1, l2, he, hfix, hlay, rfl⟩ := firstPass_parts h
  obtain ⟨hD, hE, hwork, hS, -⟩ := explored_accounts (K := Seen)
    (fun p p' _ hg hs => seen_accounts hg hs) (fun t s ⟨v, hv, _⟩ => .inl ⟨v, hv⟩)
    hw (fun k l hl => (hI.line k l hl).2.2.1) he
  -- the line in the pass
  have hline : ∀ (k : Nat) (l₀ : Line), Reachable m k → m.lines[k]? = some l₀ →
      ∃ l next, l2[k]? = some l ∧ l.reached = true ∧ l₀.statement.execute l.incoming = .ok next ∧
        (∀ i, l₀.statement = .instr i → MayBranch i → ∃ nb, i.executeBranch l.incoming = .ok nb) ∧
        (∀ i, l₀.statement = .instr i → Untracked i.mnemonic →
          l.incoming.stack = .abandoned ∨ l.incoming.stack = .live []) := by
    intro k l₀ hR h0
    obtain ⟨l, hl, hr, -⟩ := C56_never_into_data hm h hR
    obtain ⟨c, hcl, hi, hr', -, hdir, hin⟩ := recorded (fuel := 0) (m' := m) hS hfix hlay hl
    obtain ⟨l', hl', hst, -⟩ := flow_original hS hcl
    rw [h0] at hl'; cases hl'
    obtain ⟨⟨next, hn, -⟩, hb⟩ := hD k c hcl (by rw [hr']; exact hr)
    refine ⟨l, next, hl, hr, by rw [← hst, ← hi]; exact hn, ?_, ?_⟩
    · intro i hi' hmb
      obtain ⟨-, -, nb, -, -, hnb, -⟩ := hb i (by rw [hst]; exact hi') hmb
      exact ⟨nb, by rw [← hi]; exact hnb⟩
    · intro i hi' hu
      cases hls : l.statement with
      | dir d => rw [(hdir d).mpr hls] at hst; rw [← hst] at hi'; cases hi'
      | instr j =>
        obtain ⟨i', hci, hfx⟩ := hin j hls
        obtain rfl : i' = i := by rw [← hst, hci] at hi'; cases hi'; rfl
        have hmn : j.mnemonic = i'.mnemonic := by
          unfold Instruction.fixAddressingMode at hfx
          split at hfx
          · split at hfx <;> cases hfx <;> rfl
          · cases hfx; rfl
        exact ht k l j hl hls (by rw [hmn]; exact hu)
  induction hrun with
  | start entry ok agrees =>
    exact ⟨.entry entry, fun l hl => hc.entry _ _ l entry hl _ _ (describes_init ok agrees)⟩
  | @move k k' p q _ mv ih =>
    obtain ⟨hR, hdesc⟩ := ih
    cases mv with
    | @next l₀ i _ _ operand line instr goesOn assembled executes =>
      refine ⟨.next hR ⟨l₀, line, goesOn⟩, fun l' hl' => ?_⟩
      obtain ⟨l, next, hl, hr, hex, -, hu⟩ := hline k l₀ hR line
      have hcov := hc.next k l₀ l l' next line hl hl' goesOn hr hex
      refine hcov _ _ ?_
      rw [instr] at hex
      refine execute_sound good_anything (hdesc l hl) ⟨?_, ?_, hu i instr, fun _ _ => trivial⟩ hex
        executes
      · intro v hv
        exact assembled v (eval_mono (ctx := nullCtx) (fun id v h => by cases h) _ v hv)
      · have := hw l₀ (List.mem_of_getElem? line)
        rw [instr] at this
        exact this
    | @branch _ l₀ i name _ _ line instr may label target executes =>
      refine ⟨.branch hR ⟨l₀, i, name, line, instr, may, label, target⟩, fun l' hl' => ?_⟩
      obtain ⟨l, next, hl, hr, hex, hb, -⟩ := hline k l₀ hR line
      obtain ⟨nb, hnb⟩ := hb i instr may
      have hcov := hc.branch k k' l₀ l l' i name nb line hl hl' instr may label target hr hnb
      exact hcov _ _ (branch_sound (hdesc l hl) ((mayBranch_iff i).mpr may) hnb executes)
    | @pass l₀ d _ line dir goesOn asserted =>
      refine ⟨.next hR ⟨l₀, line, goesOn⟩, fun l' hl' => ?_⟩
      obtain ⟨l, next, hl, hr, hex, -, -⟩ := hline k l₀ hR line
      have hcov := hc.next k l₀ l l' next line hl hl' goesOn hr hex
      refine hcov _ _ ?_
      rw [dir] at hex
      simp only [Statement.execute, Directive.execute] at hex
      split at hex
      · cases hex
      · split at hex
        · next hmode => cases hex; exact describes_mode (hdesc l hl) (asserted hmode)
        · cases hex; exact hdesc l hl

/-- **Immediate sizes are right on every execution path**, if the states recorded by the analysis
cover what flows into them (`Consistent`, which can be checked on the result; see
`C41_forward_partial` for a class of programs where it always holds): whenever the processor gets
to an instruction, after any number of moves from a declared entry point, its M and X flags agree
with the size of the immediate operand that was assembled, and all flags recorded as known are
right.

Partial: `Consistent` fails for programs where a branch goes back to a line in a state that the
state recorded there does not cover, because the analysis then replaces the recorded state instead
of merging; the claim is false there, see `C41_violated`.  `StackTame` excludes PHB, PHD, PHK, PLB,
PLD, TCS, TXS where something is tracked on the stack (`C18_violated`). -/
theorem C41_sizes_right_partial {file : List Str} {fuel : Nat} {m m' : Module}
    (hm : Module.loadAsmFile file = .ok m) (h : m.runFirstPass fuel = .ok m')
    (hc : Consistent m m') (ht : StackTame m') {ctx : Nat → Ctx} {k : Nat} {p : Cpu}
    (hrun : Runs m ctx k p) :
    ∃ l, m'.lines[k]? = some l ∧ KnownFlagsRight l.incoming.flags p ∧
      ∀ j, l.statement = .instr j → SizeRight j.mnemonic j.mode p := by
  obtain ⟨hR, hd⟩ := run_described hm h hc ht hrun
  obtain ⟨l, hl, -, -⟩ := C56_never_into_data hm h hR
  have hk := describes_known (hd l hl)
  refine ⟨l, hl, hk, fun j hj => ?_⟩
  obtain ⟨-, -, -, -, -, -, -, -, -, hs, -, -, -⟩ := C42_every_instruction_analysed hm h hl hj
  exact sizeRight_of_agrees hs hk

/-- As `Consistent`, for merging. -/
structure Rests (m m' : Module) : Prop where
  entry : ∀ i f l, DeclaresEntry m i f → m'.lines[i + 1]? = some l → Absorbs l.incoming (.init f)
  next : ∀ (k : Nat) (l₀ l l' : Line) s, m.lines[k]? = some l₀ → m'.lines[k]? = some l →
    m'.lines[k + 1]? = some l' → ¬ Stops l₀.statement → l.reached = true →
    l₀.statement.execute l.incoming = .ok s → Absorbs l'.incoming s
  branch : ∀ (k t : Nat) (l₀ l l' : Line) i name s, m.lines[k]? = some l₀ → m'.lines[k]? = some l →
    m'.lines[t]? = some l' → l₀.statement = .instr i → MayBranch i →
    i.arg1.simpleIdentifier = some name → m.localIndex name l₀.scopes = some t → l.reached = true →
    i.executeBranch l.incoming = .ok s → Absorbs l'.incoming s

/-- Where no branch goes back, the recorded states absorb what flows into them. -/
theorem absorbs_of_forward {file : List Str} {fuel : Nat} {m m' : Module}
    (hm : Module.loadAsmFile file = .ok m) (h : m.runFirstPass fuel = .ok m')
    (hf : NoBackward m) : Rests m m' := by
  obtain ⟨items, -, hI, -, -⟩ := loadAsmFile_ok hm
  obtain ⟨p, l1, l2, he, hfix, hlay, rfl⟩ := firstPass_parts h
  obtain ⟨hD, hE, hw, hS, -⟩ := explored_accounts (K := Settled)
    (fun p p' hS hg hs => settled_accounts hf hS hg hs) (fun t s h => .inl h)
    (loaded_written hm) (fun k l hl => (hI.line k l hl).2.2.1) he
  have hset : ∀ t s l, Settled p t s → l2[t]? = some l → Absorbs l.incoming s := by
    intro t s l hst hl
    obtain ⟨c, hc, hi, -, -, -, -⟩ := recorded (fuel := 0) (m' := m) hS hfix hlay hl
    rcases hst with ⟨v, hv, -⟩ | ⟨-, c', hc', -, hcov⟩
    · rw [hw] at hv; cases hv
    · rw [hc] at hc'; cases hc'; rw [← hi]; exact hcov
  refine ⟨fun i f l hent hl => hset _ _ _ (hE i f hent) hl, ?_, ?_⟩
  · intro k l₀ l l' s h0 hl hl' hns hr hex
    obtain ⟨c, hc, hi, hr', -, -, -⟩ := recorded (fuel := 0) (m' := m) hS hfix hlay hl
    obtain ⟨l0', h0', hst, -⟩ := flow_original hS hc
    rw [h0] at h0'; cases h0'
    obtain ⟨⟨next, hn, hK⟩, -⟩ := hD k c hc (by rw [hr']; exact hr)
    rw [hi, hst, hex] at hn; cases hn
    exact hset _ _ _ (hK (by rw [hst]; exact hns)) hl'
  · intro k t l₀ l l' i name s h0 hl hl' hin hmb hnm ht hr hex
    obtain ⟨c, hc, hi, hr', -, -, -⟩ := recorded (fuel := 0) (m' := m) hS hfix hlay hl
    obtain ⟨l0', h0', hst, hsc⟩ := flow_original hS hc
    rw [h0] at h0'; cases h0'
    obtain ⟨-, hb⟩ := hD k c hc (by rw [hr']; exact hr)
    obtain ⟨name', t', nb, e1, e2, e3, hK⟩ := hb i (by rw [hst]; exact hin) hmb
    rw [hnm] at e1; cases e1
    rw [hsc, ht] at e2; cases e2
    rw [hi, hex] at e3; cases e3
    exact hset _ _ _ hK hl'

/-- Where no branch goes back, the recorded states cover what flows into them. -/
theorem consistent_of_forward {file : List Str} {fuel : Nat} {m m' : Module}
    (hm : Module.loadAsmFile file = .ok m) (h : m.runFirstPass fuel = .ok m')
    (hf : NoBackward m) : Consistent m m' := by
  obtain ⟨h1, h2, h3⟩ := absorbs_of_forward hm h hf
  exact ⟨fun i f l a b => (h1 i f l a b).subsumes, fun k l₀ l l' s a b c d e f => (h2 k l₀ l l' s a b c d e f).subsumes,
    fun k t l₀ l l' i name s a b c d e f g h j => (h3 k t l₀ l l' i name s a b c d e f g h j).subsumes⟩

/-- **Immediate sizes are right on every execution path of a program without backward branches.**

Partial: as `C41_sizes_right_partial`, for programs in which every local branch goes to the same
line or a later one. -/
theorem C41_forward_partial {file : List Str} {fuel : Nat} {m m' : Module}
    (hm : Module.loadAsmFile file = .ok m) (h : m.runFirstPass fuel = .ok m')
    (hf : ∀ k t, BranchesTo m k t → k ≤ t) (ht : StackTame m') {ctx : Nat → Ctx} {k : Nat} {p : Cpu}
    (hrun : Runs m ctx k p) :
    ∃ l, m'.lines[k]? = some l ∧ KnownFlagsRight l.incoming.flags p ∧
      ∀ j, l.statement = .instr j → SizeRight j.mnemonic j.mode p :=
  C41_sizes_right_partial hm h (consistent_of_forward hm h hf) ht hrun

/-- No untracked stack instruction is used at all. -/
theorem stackTame_of_unused {m' : Module} (h : (m'.lines.all fun l =>
    match l.statement with
    | .instr j => !decide (Untracked j.mnemonic)
    | .dir _ => true) = true) : StackTame m' := by
  intro k l j hl hj hu
  have := List.all_eq_true.mp h l (List.mem_of_getElem? hl)
  rw [hj] at this
  simp [hu] at this

/-- The claim is false in general.  In this program the branch comes back to the loop with a
16-bit accumulator; the analysis forgets that the loop was entered with an 8-bit accumulator and
assembles a 16-bit immediate, which the processor executes with M set. -/
theorem C41_violated : ∃ (file : List Str) (m m' : Module) (k : Nat) (p : Cpu) (l : Line)
    (j : Instruction), Module.loadAsmFile file = .ok m ∧ m.runFirstPass 100 = .ok m' ∧
    StackTame m' ∧ Runs m (fun _ => nullCtx) k p ∧ m'.lines[k]? = some l ∧
    l.statement = .instr j ∧ ¬ SizeRight j.mnemonic j.mode p := by
  refine ⟨[cs!".org $8000", cs!".entry m8x8", cs!"loop: lda #$12", cs!"rep #$20", cs!"bra loop"],
    _, _, 2, ⟨false, true, true, false, []⟩, _, _, rfl, rfl, ?_, ?_, rfl, rfl, ?_⟩
  · exact stackTame_of_unused (by decide +kernel)
  · refine .start (i := 1) (f := ⟨.off, .on, .on, .unknown⟩) ⟨_, _, rfl, rfl, rfl, ?_⟩ ?_ ?_
    · decide +kernel
    · simp [Cpu.Ok]
    · simp [KnownFlagsRight]
  · intro hs
    have := (hs.1 (by decide)).2 (by decide +kernel)
    cases this

/-! ### The hypotheses can be checked -/

instance (s : ExecutionState) : Decidable (NormalState s) := by
  unfold NormalState NormalStack
  have : ∀ v, Decidable (NormalEntry v) := by
    intro v; unfold NormalEntry Normal; split <;> infer_instance
  have : ∀ f, Decidable (Normal f) := by intro f; unfold Normal; infer_instance
  cases s.stack <;> infer_instance

/-- Where line `k` may branch to. -/
def branchTarget (m : Module) (k : Nat) : Option Nat :=
  match m.lines[k]? with
  | some l =>
    match l.statement with
    | .instr i =>
      if MayBranch i then i.arg1.simpleIdentifier.bind fun n => m.localIndex n l.scopes else none
    | .dir _ => none
  | none => none

theorem branchesTo_target {m : Module} {k t : Nat} (h : BranchesTo m k t) :
    branchTarget m k = some t := by
  obtain ⟨l, i, name, hl, hi, hb, hn, ht⟩ := h
  simp [branchTarget, hl, hi, hb, hn, ht]

theorem branchTarget_lt {m : Module} {k t : Nat} (h : branchTarget m k = some t) :
    k < m.lines.length := by
  unfold branchTarget at h
  cases hl : m.lines[k]? with
  | none => rw [hl] at h; cases h
  | some l => exact (List.getElem?_eq_some_iff.mp hl).1

/-- A sufficient check for the absence of backward branches. -/
theorem forward_of_check {m : Module} (h : ((List.range m.lines.length).all fun k =>
    match branchTarget m k with
    | some t => decide (k ≤ t)
    | none => true) = true) : ∀ k t, BranchesTo m k t → k ≤ t := by
  intro k t hb
  have ht := branchesTo_target hb
  have := List.all_eq_true.mp h k (List.mem_range.mpr (branchTarget_lt ht))
  rw [ht] at this
  simpa using this

/-- A sufficient check for `Subsumes`. -/
def coversCheck (w s : ExecutionState) : Bool :=
  decide (NormalState s) && decide ((w.merge s).flags = w.flags ∧ (w.merge s).stack = w.stack)

theorem covers_of_check {w s : ExecutionState} (h : coversCheck w s = true) : Subsumes w s := by
  simp [coversCheck] at h
  intro o p hd
  have := (C15_state_sound h.1 hd w).2
  unfold Describes at this ⊢
  rwa [h.2.1, h.2.2] at this

/-- A sufficient check for `Consistent`, line by line. -/
def consistentCheck (m m' : Module) : Bool :=
  (List.range m.lines.length).all fun k =>
    match m.lines[k]?, m'.lines[k]? with
    | some l₀, some l =>
      (match m'.lines[k + 1]? with
        | some l' =>
          (match l₀.statement.execute l.incoming with
            | .ok s => coversCheck l'.incoming s || decide (Stops l₀.statement) || !l.reached
            | _ => true) &&
          (match l₀.statement with
            | .dir d => decide (d.name ≠ .entry) || coversCheck l'.incoming (.init d.flags)
            | .instr _ => true)
        | none => true) &&
      (match branchTarget m k, l₀.statement with
        | some t, .instr i =>
          (match m'.lines[t]?, i.executeBranch l.incoming with
            | some l', .ok s => coversCheck l'.incoming s
            | _, _ => true)
        | _, _ => true)
    | _, _ => true

theorem consistent_of_check {fuel : Nat} {m m' : Module} (hf : m.runFirstPass fuel = .ok m')
    (h : consistentCheck m m' = true) : Consistent m m' := by
  have hlen := firstPass_length hf
  have hk : ∀ (k : Nat) (l₀ : Line), m.lines[k]? = some l₀ → k ∈ List.range m.lines.length :=
    fun k l₀ hl => List.mem_range.mpr (List.getElem?_eq_some_iff.mp hl).1
  refine ⟨?_, ?_, ?_⟩
  · rintro i f l' ⟨l₀, d, h0, hd, he, rfl⟩ hl'
    have hlt := (List.getElem?_eq_some_iff.mp h0).1
    have hl : m'.lines[i]? = some (m'.lines[i]'(by omega)) := List.getElem?_eq_getElem _
    have := List.all_eq_true.mp h i (hk i l₀ h0)
    simp only [h0, hl, hl', hd, he, Bool.and_eq_true] at this
    exact covers_of_check (by simpa using this.1.2)
  · intro k l₀ l l' s h0 hl hl' hns hr hex
    have := List.all_eq_true.mp h k (hk k l₀ h0)
    simp only [h0, hl, hl', hex, Bool.and_eq_true] at this
    have := this.1.1
    simp only [hns, hr, decide_false, Bool.or_false, Bool.not_true] at this
    exact covers_of_check this
  · intro k t l₀ l l' i name s h0 hl hl' hi hb hn ht _ hex
    have := List.all_eq_true.mp h k (hk k l₀ h0)
    have htt := branchesTo_target (m := m) ⟨l₀, i, name, h0, hi, hb, hn, ht⟩
    simp only [h0, hl, Bool.and_eq_true] at this
    have := this.2
    simp only [htt, hi, hl', hex] at this
    exact covers_of_check this

/-- A program with a loop, a skip and two calls that meets the hypotheses of
`C41_sizes_right_partial`. -/
example : ∃ m m', Module.loadAsmFile
      [cs!" .org $8000", cs!" .entry m8x16", cs!"again: lda #$12", cs!" beq skip", cs!" ldx #$1234",
       cs!" jsr $9000", cs!"skip: rep #$20", cs!" lda #$1234", cs!" sep #$20", cs!" bne again",
       cs!" rts"] = .ok m ∧
    m.runFirstPass 100 = .ok m' ∧ Consistent m m' ∧ StackTame m' := by
  refine ⟨_, _, rfl, rfl, consistent_of_check (fuel := 100) rfl ?_, stackTame_of_unused ?_⟩
  · decide +kernel
  · decide +kernel

/-- A program that meets the hypotheses of `C41_forward_partial`, and a way to reach its last
line. -/
example : ∃ m m', Module.loadAsmFile
      [cs!" .org $8000", cs!" .entry m8x16", cs!" bcs wide", cs!" lda #$12", cs!" rts",
       cs!"wide: rep #$20", cs!" lda #$1234"  , cs!" rts"] = .ok m ∧
    m.runFirstPass 100 = .ok m' ∧ (∀ k t, BranchesTo m k t → k ≤ t) ∧ StackTame m' ∧
    Runs m (fun _ => nullCtx) 6 ⟨false, false, false, true, []⟩ := by
  refine ⟨_, _, rfl, rfl, forward_of_check ?_, stackTame_of_unused ?_, ?_⟩
  · decide +kernel
  · decide +kernel
  · refine .move (.move (.start (i := 1) (f := ⟨.off, .on, .off, .unknown⟩)
      (p := ⟨false, true, false, true, []⟩) ⟨_, _, rfl, rfl, rfl, ?_⟩ ?_ ?_)
      (.branch (k := 2) (t := 5) (name := cs!"wide") rfl rfl ?_ rfl rfl ⟨rfl, rfl⟩))
      (.next (k := 5) (operand := 0x20) rfl rfl ?_ ?_ ?_)
    · decide +kernel
    · simp [Cpu.Ok]
    · simp [KnownFlagsRight]
    · decide +kernel
    · decide +kernel
    · intro v hv; cases hv; decide
    · show (_ : Cpu) = _
      decide +kernel

end Nsasm.Props
