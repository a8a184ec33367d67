import Verif.Spec.Exact
import Verif.Lemmas.Simulate
import Verif.Lemmas.Chart
import Mathlib.Data.List.Flatten

/-! # Disassembling an assembled program: the chart of the program -/

namespace Nsasm.Props
open Nsasm Nsasm.Spec Disassembler

/-! ## The recorded states are normal -/

theorem incoming_normal {file : List Str} {fuel : Nat} {m m' : Module} (hm : Module.loadAsmFile file = .ok m)
    (h : m.runFirstPass fuel = .ok m') {k : Nat} {l : Line} (hl : m'.lines[k]? = some l) (hr : l.reached = true) :
    NormalState l.incoming := by
  obtain ⟨items, -, hI, -, -⟩ := loadAsmFile_ok hm
  obtain ⟨p, l1, l2, he, hfix, hlay, rfl⟩ := firstPass_parts h
  obtain ⟨s1, s2⟩ := seeds_good m.lines 0 [] List.Pairwise.nil (by simp) (loaded_written hm)
  obtain ⟨⟨-, hS, hN⟩, -⟩ := explore_induct (m := m)
    (I := fun p => GoodPass p ∧ SameLines m p ∧ ∀ (k : Nat) (l : Line), p.lines[k]? = some l → l.reached = true →
      NormalState l.incoming) (fun p p' ⟨g1, g2, g3⟩ hs => by
        refine ⟨good_step g1 hs, sameLines_step g2 hs, ?_⟩
        obtain ⟨k, state, rest, line, hw, hl, h1 | ⟨-, next, h1, h2, h3⟩⟩ := step_cases hs
        · rw [h1.2.2]; exact g3
        · intro k' q hq hr
          rw [h3, List.getElem?_set] at hq
          split at hq
          · split at hq
            · cases hq
              exact g1.normal k state (by rw [hw]; simp)
            · cases hq
          · exact g3 k' q hq hr) fuel _ p
    ⟨⟨s1, s2, loaded_written hm⟩, (by unfold SameLines; rfl), fun k l hl hr => by rw [(hI.line k l hl).2.2.1] at hr; cases hr⟩ he
  obtain ⟨c, hc, e1, e2, -⟩ := recorded (fuel := 0) (m' := m) hS hfix hlay hl
  rw [← e1]
  exact hN k c hc (by rw [e2]; exact hr)

/-! ## Different instructions are at different addresses -/

/-- No address belongs to two instructions, or twice to one. -/
def Apart (m' : Module) : Prop :=
  ∀ (k k' : Nat) (l l' : Line) (j j' : Instruction) (x x' a b : Nat), m'.lines[k]? = some l → l.statement = .instr j →
    StandsAt m'.lines k x → m'.lines[k']? = some l' → l'.statement = .instr j' → StandsAt m'.lines k' x' →
    a < j.serializedSize → b < j'.serializedSize → wrapped x a = wrapped x' b → k = k' ∧ a = b

theorem nodup_flatten_index {α : Type} : ∀ (L : List (List α)), L.flatten.Nodup → ∀ (k k' : Nat) (u v : List α) (z : α),
    L[k]? = some u → L[k']? = some v → z ∈ u → z ∈ v → k = k' := by
  intro L
  induction L with
  | nil => intro _ k k' u v z h; simp at h
  | cons w L ih =>
    intro hn k k' u v z hk hk' hu hv
    rw [List.flatten_cons, List.nodup_append] at hn
    obtain ⟨-, h2, h3⟩ := hn
    cases k with
    | zero =>
      cases k' with
      | zero => rfl
      | succ k' =>
        simp only [List.getElem?_cons_zero, Option.some.injEq, List.getElem?_cons_succ] at hk hk'
        subst hk
        exact absurd rfl (h3 z hu z (List.mem_flatten.2 ⟨v, List.mem_of_getElem? hk', hv⟩))
    | succ k =>
      cases k' with
      | zero =>
        simp only [List.getElem?_cons_zero, Option.some.injEq, List.getElem?_cons_succ] at hk hk'
        subst hk'
        exact absurd rfl (h3 z hv z (List.mem_flatten.2 ⟨u, List.mem_of_getElem? hk, hu⟩))
      | succ k' =>
        simp only [List.getElem?_cons_succ] at hk hk'
        rw [ih h2 k k' u v z hk hk' hu hv]

theorem allFilled_flatten (L : List Writes) : allFilled L.flatten = (L.map allFilled).flatten := by
  induction L with
  | nil => rfl
  | cons w L ih => rw [List.flatten_cons, allFilled_append, ih]; rfl

theorem nodup_part {α : Type} {L : List (List α)} (h : L.flatten.Nodup) {u : List α} (hu : u ∈ L) : u.Nodup :=
  h.sublist (List.sublist_flatten_of_mem hu)

theorem apart_of_assembly {fuel : Nat} {files : List (List Str)} {ws : Writes} {a : Assembler}
    (h : Assembles fuel files ws a) {n : Nat} {file : List Str} (hf : files[n]? = some file) {m m' : Module}
    (hm : Module.loadAsmFile file = .ok m) (h1 : m.runFirstPass fuel = .ok m')
    {M : Module} (hM : a.modules[n]? = some M) : Apart m' := by
  obtain ⟨order, wss, hA⟩ := assembled h
  obtain ⟨f, m₀, m₁, m₂, externs, hf', h0, h1', h2, hs, -⟩ := hA.passes n M hM
  rw [hf] at hf'; cases hf'
  rw [hm] at h0; cases h0
  rw [h1] at h1'; cases h1'
  obtain ⟨hmore, -, hkeep⟩ := secondLoop_spec _ 0 m' m₂ h2 (fun j l d _ => unvalued_first hm h1 j l d)
  -- the writes of the file
  have hmem : n ∈ order := by
    refine hA.perm.mem_iff.2 (List.mem_range.2 ?_)
    exact (List.getElem?_eq_some_iff.mp hf).1
  obtain ⟨q, hq⟩ := List.mem_iff_getElem?.1 hmem
  have hlen := hA.writes.length_eq
  have hq' : q < wss.length := by rw [← hlen]; exact (List.getElem?_eq_some_iff.mp hq).1
  obtain ⟨n', hn', M', hM', hlw⟩ := forall2_getElem? hA.writes (List.getElem?_eq_getElem hq')
  rw [hq] at hn'; cases hn'
  rw [hM] at hM'; cases hM'
  generalize hW : wss[q] = W at hlw
  have hWmem : W ∈ wss := by rw [← hW]; exact List.getElem_mem hq'
  have hnd : (W.map allFilled).flatten.Nodup := by
    rw [← allFilled_flatten]
    have h1 := hA.claims.nodup
    rw [allFilled_flatten, List.map_flatten] at h1
    have h2 : (W.map allFilled) ∈ wss.map (List.map allFilled) := List.mem_map_of_mem hWmem
    rw [allFilled_flatten]
    have h3 := List.sublist_flatten_of_mem h2
    exact h1.sublist (List.Sublist.flatten h3)
  -- what a line writes
  have key : ∀ (k : Nat) (l : Line) (j : Instruction) (x : Nat), m'.lines[k]? = some l → l.statement = .instr j →
      StandsAt m'.lines k x → ∃ bs : List UInt8, W[k]? = some [(x, bs)] ∧ bs.length = j.serializedSize := by
    intro k l j x hl hj hx
    have hne : ¬ IsEqu l := by rintro ⟨d, hd, -⟩; rw [hj] at hd; cases hd
    obtain ⟨L, hL', hv⟩ := getElem?_valueless hmore.lines hl
    have : L = l := hkeep k l L hl hL' (by rw [← Bool.not_eq_true, isDir_iff]; exact hne)
    subst this
    have hL : M.lines[k]? = some L := by rw [hs.2.1]; exact hL'
    have hk' : k < W.length := by rw [← hlw.length_eq]; exact (List.getElem?_eq_some_iff.mp hL).1
    obtain ⟨L', hL'', hw⟩ := forall2_getElem? hlw (List.getElem?_eq_getElem hk')
    rw [hL] at hL''; cases hL''
    rcases hw with ⟨hz, -⟩ | ⟨y, bs, hy, hbs, hlen, -, hwk⟩
    · exfalso
      obtain ⟨-, -, -, -, -, -, -, -, -, -, g1, g2, -⟩ := C42_every_instruction_analysed hm h1 hl hj
      rw [hj] at hz
      have := instructionLength_pos j.mode g1 g2
      simp only [Statement.serializedSize, Instruction.serializedSize] at hz
      omega
    · obtain ⟨o, v, hO, hv, hp⟩ := hx
      have hval := (C39_layout hm h1 hl).1 o v hO hv hne
      rw [hy, ← hp] at hval
      have hyx : y = x := by injection hval with hval; omega
      subst hyx
      refine ⟨bs, by rw [List.getElem?_eq_getElem hk', hwk], ?_⟩
      rw [hlen, hj]; rfl
  intro k k' l l' j j' x x' a b hl hj hx hl' hj' hx' ha hb heq
  obtain ⟨bs, hw, hlen⟩ := key k l j x hl hj hx
  obtain ⟨bs', hw', hlen'⟩ := key k' l' j' x' hl' hj' hx'
  have e : k = k' := by
    refine nodup_flatten_index _ hnd k k' (allFilled [(x, bs)]) (allFilled [(x', bs')]) (wrapped x a) ?_ ?_ ?_ ?_
    · rw [List.getElem?_map, hw]; rfl
    · rw [List.getElem?_map, hw']; rfl
    · simp only [allFilled, filled, List.flatMap_cons, List.flatMap_nil, List.append_nil, List.mem_map, List.mem_range]
      exact ⟨a, by omega, rfl⟩
    · simp only [allFilled, filled, List.flatMap_cons, List.flatMap_nil, List.append_nil, List.mem_map, List.mem_range]
      exact ⟨b, by omega, heq.symm⟩
  subst e
  rw [hw] at hw'
  simp only [Option.some.injEq, List.cons.injEq, Prod.mk.injEq, and_true] at hw'
  obtain ⟨rfl, rfl⟩ := hw'
  refine ⟨rfl, ?_⟩
  have hnd' : (allFilled [(x, bs)]).Nodup := nodup_part hnd (List.mem_map.2 ⟨_, List.mem_of_getElem? hw, rfl⟩)
  simp only [allFilled, filled, List.flatMap_cons, List.flatMap_nil, List.append_nil] at hnd'
  have := (List.pairwise_map.1 hnd')
  by_contra hab
  have key2 : ∀ a b, a < b → b < bs.length → wrapped x a ≠ wrapped x b := by
    intro a b hab hb
    have h1 := List.pairwise_iff_getElem.1 this a b (by simp; omega) (by simp; omega) hab
    simpa using h1
  rcases Nat.lt_or_ge a b with h | h
  · exact key2 a b h (by omega) heq
  · exact key2 b a (by omega) (by omega) heq.symm

/-! ## The lines of the program -/

structure Ground (file : List Str) (fuel : Nat) (m m' : Module) (src : Source) (ctx₀ : Nat → Ctx) : Prop where
  load : Module.loadAsmFile file = .ok m
  pass : m.runFirstPass fuel = .ok m'
  rest : AtRest m m'
  origins : ProperOrigins m'.lines
  code : BranchesToCode m
  plain : Unassisted m
  image : Image src m' ctx₀
  apart : Apart m'

theorem reachableFrom_reachable {m : Module} {i k : Nat} (h : ReachableFrom m i k) : Reachable m k := by
  induction h with
  | entry h => exact .entry h
  | next _ h ih => exact .next ih h
  | branch _ h ih => exact .branch ih h

section
variable {file : List Str} {fuel : Nat} {m m' : Module} {src : Source} {ctx₀ : Nat → Ctx} {i : Nat}

/-- What is known of a line that can be reached. -/
theorem reached_facts (G : Ground file fuel m m' src ctx₀) {k : Nat} (hk : ReachableFrom m i k) :
    ∃ l l', m.lines[k]? = some l ∧ m'.lines[k]? = some l' ∧ l'.reached = true ∧ NormalState l'.incoming ∧
      ¬ IsData l'.statement ∧ ¬ IsOrg l' ∧ l'.scopes = l.scopes ∧ (∀ d, l'.statement = .dir d ↔ l.statement = .dir d) ∧
      ∀ ins, l.statement = .instr ins → ∃ j next, l'.statement = .instr j ∧ ins.execute l'.incoming nullCtx = .ok next ∧
        j = { ins with mode := j.mode } ∧ (ins.mode ≠ .imm_fm → ins.mode ≠ .imm_fx → j = ins) ∧ (MayBranch j → j = ins) ∧
        SizeAgrees j.mnemonic j.mode l'.incoming.flags ∧ j.mode ≠ .imm_fm ∧ j.mode ≠ .imm_fx ∧ ins.ret = .default := by
  obtain ⟨l', hl', hr, hd⟩ := C56_never_into_data G.load G.pass (reachableFrom_reachable hk)
  obtain ⟨l, hl, -, hsc, -, hdir, -⟩ := firstPass_line G.pass hl'
  refine ⟨l, l', hl, hl', hr, incoming_normal G.load G.pass hl' hr, hd, ?_, hsc, hdir, fun ins hi => ?_⟩
  · rintro ⟨d, hd', hn⟩
    exact hd (by rw [hd']; simp [IsData, hn])
  · obtain ⟨j, hj⟩ : ∃ j, l'.statement = .instr j := by
      cases hs : l'.statement with
      | instr j => exact ⟨j, rfl⟩
      | dir d => rw [(hdir d).1 hs] at hi; cases hi
    obtain ⟨-, l₁, i₁, g1, g2, ⟨next, gx⟩, g3, g3', g6, g7, g4, g5, -⟩ := C42_every_instruction_analysed G.load G.pass hl' hj
    rw [hl] at g1; cases g1
    rw [hi] at g2; cases g2
    refine ⟨j, next, hj, gx, g3, g3', fun hb => ?_, g7, g4, g5, G.plain.returns l (List.mem_of_getElem? hl) ins hi⟩
    have key : ¬ (ins.mode = .imm_fm ∨ ins.mode = .imm_fx) := by
      intro h
      rcases hb.1 with hb | hb <;> rcases g6 h with h | h <;> rw [h] at hb <;> cases hb
    rw [not_or] at key
    exact g3' key.1 key.2

/-- The addresses of the instructions of the program, with the states recorded at their lines. -/
inductive Spot (m m' : Module) (i : Nat) : Nat → ExecutionState → Prop
  | line {k x : Nat} {l' : Line} {j : Instruction} (reached : ReachableFrom m i k) (here : m'.lines[k]? = some l')
      (instr : l'.statement = .instr j) (stands : StandsAt m'.lines k x) : Spot m m' i x l'.incoming
  | between {k x : Nat} {l' : Line} {j : Instruction} (reached : ReachableFrom m i k) (here : m'.lines[k]? = some l')
      (instr : l'.statement = .instr j) (pseudo : j.mnemonic = .padd ∨ j.mnemonic = .psub)
      (stands : StandsAt m'.lines k x) :
      Spot m m' i (wrapped x 1) { l'.incoming with flags := l'.incoming.flags.setC .unknown }

theorem directive_size {d : Directive} (h : ¬ IsData (.dir d)) : (Statement.dir d).serializedSize = 0 := by
  simp only [IsData, List.mem_cons, not_or] at h
  simp only [Statement.serializedSize, Directive.serializedSize]
  cases hn : d.name <;> simp_all

theorem directive_execute (G : Ground file fuel m m' src ctx₀) {l : Line} (hl : l ∈ m.lines) {d : Directive}
    (hs : l.statement = .dir d) (hd : ¬ IsData (.dir d)) (s : ExecutionState) :
    ¬ Stops l.statement ∧ l.statement.execute s = .ok s := by
  obtain ⟨h1, h2⟩ := G.plain.dirs l hl d hs
  rw [hs]
  refine ⟨h2, ?_⟩
  simp only [IsData, List.mem_cons, List.not_mem_nil, or_false, not_or] at hd
  simp [Statement.execute, Directive.execute, h1, hd]

/-- Directives are passed over until an instruction is reached. -/
theorem covered_line (G : Ground file fuel m m' src ctx₀) : ∀ (n k x : Nat) (s : ExecutionState),
    m.lines.length - k ≤ n → ReachableFrom m i k → StandsAt m'.lines k x →
    (∀ l', m'.lines[k]? = some l' → StateAbove l'.incoming s) → Covered (Spot m m' i) x s := by
  intro n
  induction n with
  | zero =>
    intro k x s hn hk hx hs
    obtain ⟨l, l', hl, -⟩ := reached_facts G hk
    have := (List.getElem?_eq_some_iff.mp hl).1
    omega
  | succ n ih =>
    intro k x s hn hk hx hs
    obtain ⟨l, l', hl, hl', hr, hnorm, hd, -, hsc, hdir, hins⟩ := reached_facts G hk
    cases hst : l.statement with
    | instr ins =>
      obtain ⟨j, next, hj, -⟩ := hins ins hst
      exact ⟨_, .line hk hl' hj hx, hs l' hl'⟩
    | dir d =>
      have hst' := (hdir d).2 hst
      rw [hst'] at hd
      obtain ⟨e1, e2⟩ := directive_execute G (List.mem_of_getElem? hl) hst hd l'.incoming
      have hk' : ReachableFrom m i (k + 1) := .next hk ⟨l, hl, e1⟩
      obtain ⟨q, q', hq, hq', -, hqn, -, ho, -⟩ := reached_facts G hk'
      have hnext := standsAt_next hx hl' (fun l'' h'' => by rw [hq'] at h''; cases h''; exact ho)
      rw [hst', directive_size hd] at hnext
      have hnext : StandsAt m'.lines (k + 1) x := by
        have := addWrapped_zero (standsAt_lt hx)
        rw [this] at hnext
        exact hnext
      refine ih (k + 1) x s ?_ hk' hnext fun l'' h'' => ?_
      · have := (List.getElem?_eq_some_iff.mp hl).1
        omega
      · rw [hq'] at h''; cases h''
        have := G.rest.next k l l' q' _ hl hl' hq' e1 hr e2
        exact (Above.state hqn hnorm this).trans (hs l' hl')

/-! ## What is read at a line -/

theorem real_code (hI : Image src m' ctx₀) {k x : Nat} {l : Line} {j : Instruction} (hl : m'.lines[k]? = some l)
    (hj : l.statement = .instr j) (hx : StandsAt m'.lines k x) (hm1 : j.mode ≠ .imm_fm) (hm2 : j.mode ≠ .imm_fx)
    (hreal : j.mnemonic ≠ .padd ∧ j.mnemonic ≠ .psub) {g₀ : StatusFlags} (hs : SizeAgrees j.mnemonic j.mode g₀) :
    ∃ bytes i0, src x 4 = .ok bytes ∧ i0.mnemonic = j.mnemonic ∧ i0.mode = j.mode ∧ OperandsMatch x (ctx₀ k) j i0 ∧
      ∀ g, SizeAgrees j.mnemonic j.mode g → decode bytes g = .ok i0 := by
  obtain ⟨bs, hbs, hb⟩ := hI.bytes k l j hl hj x hx
  have hlen := bytes_length hbs
  simp only [Instruction.serializedSize, hreal, or_self, if_false, Nat.add_zero] at hlen
  have hpos := instructionLength_pos j.mode hm1 hm2
  obtain ⟨r, hr, hpre, -⟩ := hb 0 (by omega)
  have hlt := standsAt_lt hx
  have e0 : wrapped x 0 = x := by unfold wrapped; omega
  rw [e0] at hr
  simp only [Nat.zero_add] at hpre
  obtain ⟨rest, rfl⟩ := prefix_of hpre (by rw [hlen]; exact instructionLength_le _)
  obtain ⟨i0, h1, h2, h3, h4⟩ := C06_decode_assembled j x hlt (ctx₀ k) bs rest g₀ hreal hs (assemble_log.2 hbs)
  refine ⟨_, i0, hr, h2, h3, h4, fun g hg => ?_⟩
  obtain ⟨i1, h1', h2', h3', -⟩ := C06_decode_assembled j x hlt (ctx₀ k) bs rest g hreal hg (assemble_log.2 hbs)
  rw [decode_same h1 h1' (by rw [h3, h3'])]
  exact h1'

theorem pseudo_code (hI : Image src m' ctx₀) {k x : Nat} {l : Line} {j : Instruction} (hl : m'.lines[k]? = some l)
    (hj : l.statement = .instr j) (hx : StandsAt m'.lines k x) (hm1 : j.mode ≠ .imm_fm) (hm2 : j.mode ≠ .imm_fx)
    (hps : j.mnemonic = .padd ∨ j.mnemonic = .psub) {g₀ : StatusFlags} (hs : SizeAgrees j.mnemonic j.mode g₀) :
    (∃ bytes, src x 4 = .ok bytes ∧ ∀ g, decode bytes g = .ok ⟨leadIn j.mnemonic, .none, .imp, .null, .null, .default⟩) ∧
    ∃ bytes i0, src (wrapped x 1) 4 = .ok bytes ∧ i0.mnemonic = realMnemonic j.mnemonic ∧ i0.mode = j.mode ∧
      OperandsMatch x (ctx₀ k) { j with mnemonic := realMnemonic j.mnemonic } i0 ∧
      ∀ g, SizeAgrees j.mnemonic j.mode g → decode bytes g = .ok i0 := by
  obtain ⟨bs, hbs, hb⟩ := hI.bytes k l j hl hj x hx
  have hlen := bytes_length hbs
  simp only [Instruction.serializedSize, hps, if_true] at hlen
  have hpos := instructionLength_pos j.mode hm1 hm2
  have hlt := standsAt_lt hx
  have e0 : wrapped x 0 = x := by unfold wrapped; omega
  have hpo := fun g => C06_pseudo_op j x (ctx₀ k) bs [] g hps (assemble_log.2 hbs)
  obtain ⟨b, bs', rfl, -, has⟩ := hpo g₀
  constructor
  · obtain ⟨r, hr, hpre, hrl⟩ := hb 0 (by omega)
    rw [e0] at hr
    have h0 := hpre 0 b (by simp) (by omega)
    cases r with
    | nil => simp at h0
    | cons b' r =>
      simp at h0
      subst h0
      refine ⟨_, hr, fun g => ?_⟩
      obtain ⟨b'', bs'', e, hd, -⟩ := hpo g
      cases e
      exact decode_lead (by simpa using hd) r
  · obtain ⟨r, hr, hpre, hrl⟩ := hb 1 (by omega)
    have hpre' : ∀ i b, bs'[i]? = some b → i < 4 → r[i]? = some b := by
      intro i b hb hi
      exact hpre i b (by rw [Nat.add_comm]; simpa using hb) hi
    simp only [List.length_cons] at hlen
    have h4 := instructionLength_le j.mode
    obtain ⟨rest, rfl⟩ := prefix_of hpre' (by omega)
    have hag : ∀ g, SizeAgrees j.mnemonic j.mode g → SizeAgrees (realMnemonic j.mnemonic) j.mode g := by
      intro g h5
      have hM : SizedByM j.mnemonic := by rcases hps with h | h <;> rw [h] <;> decide
      refine ⟨fun _ => h5.1 hM, fun h => ?_⟩
      rcases hps with h' | h' <;> rw [h'] at h <;> exact absurd h (by decide)
    have hre : (realMnemonic j.mnemonic) ≠ .padd ∧ (realMnemonic j.mnemonic) ≠ .psub := by
      rcases hps with h | h <;> simp [h, realMnemonic]
    have hdec := fun g hg => C06_decode_assembled { j with mnemonic := realMnemonic j.mnemonic } x hlt (ctx₀ k) bs' rest g
      hre (hag g hg) has
    obtain ⟨i0, h1, h2, h3, h4⟩ := hdec g₀ hs
    refine ⟨_, i0, hr, h2, h3, h4, fun g hg => ?_⟩
    obtain ⟨i1, h1', h2', h3', -⟩ := hdec g hg
    rw [decode_same h1 h1' (by rw [h3, h3'])]
    exact h1'

theorem sizeAgrees_above {mn : Mnemonic} {md : Mode} {f g : StatusFlags} (hf : FlagsAbove f g) (h : SizeAgrees mn md f) :
    SizeAgrees mn md g := by
  have key : ∀ {b c : BitState}, BitAbove b c → (b = .on → c = .on) ∧ (b = .off → c = .off) := by
    rintro b c (rfl | rfl)
    · exact ⟨id, id⟩
    · exact ⟨fun h => (by cases h), fun h => (by cases h)⟩
  exact ⟨fun hM => ⟨fun e => (key hf.m).1 ((h.1 hM).1 e), fun e => (key hf.m).2 ((h.1 hM).2 e)⟩,
    fun hX => ⟨fun e => (key hf.x).1 ((h.2 hX).1 e), fun e => (key hf.x).2 ((h.2 hX).2 e)⟩⟩

/-! ## Where a line goes -/

/-- The line after one that does not stop. -/
theorem goes_next (G : Ground file fuel m m' src ctx₀) {k x : Nat} (hk : ReachableFrom m i k) (hx : StandsAt m'.lines k x)
    {l l' : Line} (hl : m.lines[k]? = some l) (hl' : m'.lines[k]? = some l') (hst : ¬ Stops l.statement) :
    ReachableFrom m i (k + 1) ∧ StandsAt m'.lines (k + 1) (Address.addWrapped x l'.statement.serializedSize) := by
  have hk' : ReachableFrom m i (k + 1) := .next hk ⟨l, hl, hst⟩
  obtain ⟨q, q', hq, hq', -, hqn, -, ho, -⟩ := reached_facts G hk'
  exact ⟨hk', standsAt_next hx hl' (fun l'' h'' => by rw [hq'] at h''; cases h''; exact ho)⟩

/-- The line that a branch goes to. -/
theorem goes_branch (G : Ground file fuel m m' src ctx₀) {k x : Nat} (hk : ReachableFrom m i k)
    {l l' : Line} {j jj : Instruction} (hl : m.lines[k]? = some l) (hl' : m'.lines[k]? = some l')
    (hx : StandsAt m'.lines k x) (hj : l.statement = .instr j) (hj' : l'.statement = .instr j) (may : MayBranch j)
    (e2 : jj.mode = j.mode) (hop : OperandsMatch x (ctx₀ k) j jj) :
    ∃ name t v, j.arg1.simpleIdentifier = some name ∧ m.localIndex name l.scopes = some t ∧ jj.arg1.eval nullCtx = .ok v ∧
      StandsAt m'.lines t (Address.addWrapped (nextAddr x jj) v) := by
  obtain ⟨name, t, label, target⟩ := branch_local G.load G.pass (reachableFrom_reachable hk) hl hj may
  have hb : BranchesTo m k t := ⟨l, j, name, hl, hj, may, label, target⟩
  obtain ⟨q, q', hq, hq', -⟩ := reached_facts G (.branch hk hb)
  obtain ⟨l₀, hl₀, -, hsc, -⟩ := firstPass_line G.pass hl'
  rw [hl] at hl₀; cases hl₀
  obtain ⟨bs, hbs, -⟩ := G.image.bytes k l' j hl' hj' x hx
  unfold OperandsMatch at hop
  rw [if_pos (show Relative j.mode from may.1)] at hop
  obtain ⟨tgt, off, htgt, hoff, heq⟩ := hop
  have hv : ctx₀ k ⟨none, name⟩ = .ok tgt := simple_eval label htgt
  have hloc : m'.localIndex name l'.scopes = some t := by
    rw [firstPass_localIndex G.pass, hsc]; exact target
  have hneq : ¬ IsEqu q' := by
    obtain ⟨q₀, hq₀, -, -, -, hd, -⟩ := firstPass_line G.pass hq'
    rintro ⟨d, hd', hn⟩
    exact G.code k t q₀ hb hq₀ ⟨d, (hd d).1 hd', hn⟩
  have hval := G.image.label k t l' q' name tgt hl' hloc hq' hneq hv
  obtain ⟨y, hy, rfl⟩ := standsAt_of_value G.load G.pass G.origins hq' hval hneq
  refine ⟨name, t, off, label, target, hoff nullCtx, ?_⟩
  have e3 : Address.addWrapped (nextAddr x jj) off = y := by
    have hsz : j.serializedSize = instructionLength jj.mode := by
      simp only [Instruction.serializedSize, rel_real may.1 (encoded hbs), or_self, if_false, e2, Nat.add_zero]
    rw [hsz] at heq
    have hlt := standsAt_lt hx
    unfold nextAddr Address.addWrapped
    omega
  rw [e3]; exact hy

theorem spot_unique (G : Ground file fuel m m' src ctx₀) {a : Nat} {t t' : ExecutionState} (h : Spot m m' i a t)
    (h' : Spot m m' i a t') : t = t' := by
  have size : ∀ {k : Nat} {l' : Line} {j : Instruction}, ReachableFrom m i k → m'.lines[k]? = some l' →
      l'.statement = .instr j → 0 < instructionLength j.mode := by
    intro k l' j hk hl' hj
    obtain ⟨-, -, -, -, -, -, -, -, -, -, g1, g2, -⟩ := C42_every_instruction_analysed G.load G.pass hl' hj
    exact instructionLength_pos j.mode g1 g2
  have key : ∀ {a b : Nat}, Spot m m' i a t → Spot m m' i b t' → a = b → t = t' := by
    intro a b h h' hab
    cases h with
    | @line k x l' j r1 r2 r3 r4 =>
      have p1 := size r1 r2 r3
      have ex : wrapped a 0 = a := by have := standsAt_lt r4; unfold wrapped; omega
      cases h' with
      | @line k2 x2 l2' j2 s1 s2 s3 s4 =>
        have p2 := size s1 s2 s3
        have ex2 : wrapped b 0 = b := by have := standsAt_lt s4; unfold wrapped; omega
        obtain ⟨rfl, -⟩ := G.apart k k2 l' l2' j j2 a b 0 0 r2 r3 r4 s2 s3 s4
          (by unfold Instruction.serializedSize; omega) (by unfold Instruction.serializedSize; omega) (by rw [ex, ex2, hab])
        rw [r2] at s2; cases s2; rfl
      | @between k2 x2 l2' j2 s1 s2 s3 s5 s4 =>
        have p2 := size s1 s2 s3
        obtain ⟨-, hh⟩ := G.apart k k2 l' l2' j j2 a x2 0 1 r2 r3 r4 s2 s3 s4
          (by unfold Instruction.serializedSize; omega) (by simp only [Instruction.serializedSize, s5, if_true]; omega)
          (by rw [ex, hab])
        cases hh
    | @between k x l' j r1 r2 r3 r5 r4 =>
      have p1 := size r1 r2 r3
      cases h' with
      | @line k2 x2 l2' j2 s1 s2 s3 s4 =>
        have p2 := size s1 s2 s3
        have ex2 : wrapped b 0 = b := by have := standsAt_lt s4; unfold wrapped; omega
        obtain ⟨-, hh⟩ := G.apart k k2 l' l2' j j2 x b 1 0 r2 r3 r4 s2 s3 s4
          (by simp only [Instruction.serializedSize, r5, if_true]; omega) (by unfold Instruction.serializedSize; omega)
          (by rw [ex2, hab])
        cases hh
      | @between k2 x2 l2' j2 s1 s2 s3 s5 s4 =>
        have p2 := size s1 s2 s3
        obtain ⟨rfl, -⟩ := G.apart k k2 l' l2' j j2 x x2 1 1 r2 r3 r4 s2 s3 s4
          (by simp only [Instruction.serializedSize, r5, if_true]; omega)
          (by simp only [Instruction.serializedSize, s5, if_true]; omega) hab
        rw [r2] at s2; cases s2; rfl
  exact key h h' rfl

theorem spot_normal (G : Ground file fuel m m' src ctx₀) {a : Nat} {t : ExecutionState} (h : Spot m m' i a t) :
    NormalState t := by
  cases h with
  | line r1 r2 r3 r4 =>
    obtain ⟨l, l₁, -, hl, -, hn, -⟩ := reached_facts G r1
    rw [r2] at hl; cases hl
    exact hn
  | between r1 r2 r3 r4 r5 =>
    obtain ⟨l, l₁, -, hl, -, hn, -⟩ := reached_facts G r1
    rw [r2] at hl; cases hl
    exact ⟨hn.1, hn.2⟩

/-! ## The chart -/

theorem sum_execute {ins : Instruction} (hm : ins.mnemonic ∈ [Mnemonic.adc, .sbc, .padd, .psub]) {s : ExecutionState}
    {ctx : Ctx} (hc : ins.checkConsistency s.flags = .ok ()) :
    ins.execute s ctx = .ok { s with a := .unknown, flags := s.flags.setC .unknown } := by
  unfold Instruction.execute
  rw [hc, Res.bind_ok]
  simp only [List.mem_cons, List.not_mem_nil, or_false] at hm
  rcases hm with hm | hm | hm | hm <;> simp [hm]

theorem lead_execute {ins : Instruction} (hm : ins.mnemonic = .clc ∨ ins.mnemonic = .sec) {s : ExecutionState}
    {ctx : Ctx} (hc : ins.checkConsistency s.flags = .ok ()) :
    ∃ b, ins.execute s ctx = .ok { s with flags := s.flags.setC b } := by
  unfold Instruction.execute
  rw [hc, Res.bind_ok]
  rcases hm with hm | hm
  · exact ⟨.off, by simp [hm]⟩
  · exact ⟨.on, by simp [hm]⟩

theorem branchState_above {j j' : Instruction} (hm : j'.mnemonic = j.mnemonic) {t s : ExecutionState} (h : StateAbove t s) :
    StateAbove (branchState j t) (branchState j' s) := by
  unfold branchState
  rw [hm]
  split
  · exact ⟨setC_mono h.flags .rfl', h.stack⟩
  · split
    · exact ⟨setC_mono h.flags .rfl', h.stack⟩
    · exact h

theorem sameByte_of_operands (hI : Image src m' ctx₀) {k x : Nat} {l : Line} {j ins i0 : Instruction}
    (hl : m'.lines[k]? = some l) (hj : l.statement = .instr j) (hx : StandsAt m'.lines k x) (ej : j = { ins with mode := j.mode })
    (hop : OperandsMatch x (ctx₀ k) j i0) : SameByte ins i0 := by
  intro hrs v hv
  have e1 : j.mnemonic = ins.mnemonic := by rw [ej]
  have e2 : j.arg1 = ins.arg1 := by rw [ej]
  obtain ⟨bs, hbs, -⟩ := hI.bytes k l j hl hj x hx
  have hmd : j.mode = .imm_b := by
    refine rep_mode (mn := realMnemonic j.mnemonic) ?_ (encoded hbs)
    rw [e1]
    rcases hrs with h | h <;> rw [h] <;> simp [realMnemonic]
  unfold OperandsMatch at hop
  rw [if_neg (by rw [hmd]; decide), if_neg (by rw [hmd]; decide), hmd] at hop
  rcases hop with hop | ⟨w, hw, hwj⟩
  · exact absurd hop (by decide)
  · have h1 : ins.arg1.eval (ctx₀ k) = .ok v := eval_mono (ctx := nullCtx) (fun id v h => by simp [nullCtx] at h) _ v hv
    rw [e2, h1] at hw; cases hw
    refine ⟨_, hwj nullCtx, ?_⟩
    simp [operandBytes, fieldValue]

theorem leadIn_cases {j : Instruction} (h : j.mnemonic = .padd ∨ j.mnemonic = .psub) :
    leadIn j.mnemonic = .clc ∨ leadIn j.mnemonic = .sec := by
  rcases h with h | h <;> rw [h] <;> decide

theorem spot_chart (G : Ground file fuel m m' src ctx₀) : Chart src (Spot m m' i) := by
  refine ⟨fun a t t' => spot_unique G, fun a t => spot_normal G, fun a t hT => ?_⟩
  cases hT with
  | @line k x l' j hk hl' hj hx =>
    obtain ⟨l, l₁, hl, hl₁, hr, hn, hd, ho, hsc, hdir, hins⟩ := reached_facts G hk
    rw [hl'] at hl₁; cases hl₁
    obtain ⟨ins, hi⟩ : ∃ ins, l.statement = .instr ins := by
      cases hs : l.statement with
      | instr j => exact ⟨j, rfl⟩
      | dir d => rw [(hdir d).2 hs] at hj; cases hj
    obtain ⟨j', next, hj', gx, ej, ej', eb, hsz, g1, g2, hret⟩ := hins ins hi
    rw [hj] at hj'; cases hj'
    have e1 : j.mnemonic = ins.mnemonic := by rw [ej]
    have hw := loaded_written G.load l (List.mem_of_getElem? hl)
    by_cases hps : j.mnemonic = .padd ∨ j.mnemonic = .psub
    · obtain ⟨⟨bytes, hb, hdec⟩, -⟩ := pseudo_code G.image hl' hj hx g1 g2 hps hsz
      refine ⟨bytes, ⟨leadIn j.mnemonic, .none, .imp, .null, .null, .default⟩, hb, fun s hs hf hab => ?_⟩
      obtain ⟨b, hb⟩ := lead_execute (ctx := nullCtx) (leadIn_cases hps) (decoded_consistent (hdec s.flags))
      refine ⟨_, hdec _, hb, fun _ => ?_, fun hbr => ?_⟩
      · have e : nextAddr a ⟨leadIn j.mnemonic, .none, .imp, .null, .null, .default⟩ = wrapped a 1 :=
          wrapped_eq (standsAt_lt hx) 1
        rw [e]
        exact ⟨_, .between hk hl' hj hps hx, setC_mono hab.flags .unk, hab.stack⟩
      · simp [Instruction.isLocalBranch] at hbr
    · rw [not_or] at hps
      obtain ⟨bytes, i0, hb, q1, q2, q3, hdec⟩ := real_code G.image hl' hj hx g1 g2 hps hsz
      refine ⟨bytes, i0, hb, fun s hs hf hab => ?_⟩
      have hds := hdec s.flags (sizeAgrees_above hab.flags hsz)
      have hnu : (i0.execute s nullCtx).noUb := by
        rcases like_execute hds (like_self i0) hf with h | ⟨h, -⟩
        · exact h
        · exact absurd trivial h
      obtain ⟨nx, hx', habove⟩ := execute_over hab hs (q1.trans e1) (decoded_consistent hds) hret (decode_ret hds).1
        (sameByte_of_operands G.image hl' hj hx ej q3) gx hnu
      refine ⟨nx, hds, hx', fun hex => ?_, fun hbr v hv => ?_⟩
      · have hst : ¬ Stops l.statement := by
          rw [hi]
          intro hS
          have := (stops_iff i0).1 (by
            simp only [Stops] at hS ⊢
            rw [q1, e1, (decode_ret hds).1]
            rw [hret] at hS
            exact hS)
          rw [this] at hex; cases hex
        obtain ⟨hk', hx2⟩ := goes_next G hk hx hl hl' hst
        have e : nextAddr a i0 = Address.addWrapped a l'.statement.serializedSize := by
          unfold nextAddr
          rw [hj, q2]
          simp only [Statement.serializedSize, Instruction.serializedSize, hps, or_self, if_false, Nat.add_zero]
        rw [e]
        refine covered_line G _ (k + 1) _ nx (Nat.le_refl _) hk' hx2 fun q' hq' => ?_
        obtain ⟨-, q₁, -, hq₁, -, hqn, -⟩ := reached_facts G hk'
        rw [hq'] at hq₁; cases hq₁
        have hx3 : l.statement.execute l'.incoming = .ok next := by rw [hi]; exact gx
        exact (Above.state hqn (normal_statement hw hn hx3) (G.rest.next k l l' q' next hl hl' hq' hst hr hx3)).trans habove
      · have may : MayBranch j := by
          have := (mayBranch_iff i0).1 hbr
          unfold MayBranch at this ⊢
          rwa [q1, q2] at this
        obtain rfl := eb may
        obtain ⟨name, t, v', h1, h2, h3, h4⟩ := goes_branch G hk hl hl' hx hi hj may q2 q3
        rw [hv] at h3; cases h3
        have hk' : ReachableFrom m i t := .branch hk ⟨l, j, name, hl, hi, may, h1, h2⟩
        refine covered_line G _ t _ _ (Nat.le_refl _) hk' h4 fun q' hq' => ?_
        obtain ⟨-, q₁, -, hq₁, -, hqn, -⟩ := reached_facts G hk'
        rw [hq'] at hq₁; cases hq₁
        have hbt := branch_taken ((mayBranch_iff j).2 may) gx
        rw [hi] at hw
        exact (Above.state hqn (normal_branch hw hn hbt) (G.rest.branch k t l l' q' j name _ hl hl' hq' hi may h1 h2 hr hbt)).trans
          (branchState_above q1 hab)
  | @between k x l' j hk hl' hj hps hx =>
    obtain ⟨l, l₁, hl, hl₁, hr, hn, hd, ho, hsc, hdir, hins⟩ := reached_facts G hk
    rw [hl'] at hl₁; cases hl₁
    obtain ⟨ins, hi⟩ : ∃ ins, l.statement = .instr ins := by
      cases hs : l.statement with
      | instr j => exact ⟨j, rfl⟩
      | dir d => rw [(hdir d).2 hs] at hj; cases hj
    obtain ⟨j', next, hj', gx, ej, ej', eb, hsz, g1, g2, hret⟩ := hins ins hi
    rw [hj] at hj'; cases hj'
    have e1 : j.mnemonic = ins.mnemonic := by rw [ej]
    have hw := loaded_written G.load l (List.mem_of_getElem? hl)
    obtain ⟨-, bytes, i0, hb, q1, q2, q3, hdec⟩ := pseudo_code G.image hl' hj hx g1 g2 hps hsz
    refine ⟨bytes, i0, hb, fun s hs hf hab => ?_⟩
    have hag : FlagsAbove (l'.incoming.flags.setC .unknown) s.flags := hab.flags
    have hds := hdec s.flags (sizeAgrees_above hag hsz)
    have hsum := sum_execute (ins := i0) (s := s) (ctx := nullCtx) (by
      rw [q1]; rcases hps with h | h <;> rw [h] <;> decide) (decoded_consistent hds)
    refine ⟨_, hds, hsum, fun hex => ?_, fun hbr => ?_⟩
    · have hst : ¬ Stops l.statement := by
        rw [hi]
        simp only [Stops, hret, ← e1]
        rcases hps with h | h <;> rw [h] <;> decide
      obtain ⟨hk', hx2⟩ := goes_next G hk hx hl hl' hst
      have e : nextAddr (wrapped x 1) i0 = Address.addWrapped x l'.statement.serializedSize := by
        unfold nextAddr
        rw [hj, q2]
        simp only [Statement.serializedSize, Instruction.serializedSize, hps, if_true]
        unfold Address.addWrapped wrapped
        omega
      rw [e]
      refine covered_line G _ (k + 1) _ _ (Nat.le_refl _) hk' hx2 fun q' hq' => ?_
      obtain ⟨-, q₁, -, hq₁, -, hqn, -⟩ := reached_facts G hk'
      rw [hq'] at hq₁; cases hq₁
      have hx3 : l.statement.execute l'.incoming = .ok next := by rw [hi]; exact gx
      have hnext := sum_execute (ins := ins) (s := l'.incoming) (ctx := nullCtx) (by
        rw [← e1]; rcases hps with h | h <;> rw [h] <;> decide) (checkConsistency_of_execute' gx)
      rw [gx] at hnext
      cases hnext
      refine (Above.state hqn (normal_statement hw hn hx3) (G.rest.next k l l' q' _ hl hl' hq' hst hr hx3)).trans
        ⟨⟨hag.e, hag.m, hag.x, .unk⟩, hab.stack⟩
    · have may := (mayBranch_iff i0).1 hbr
      unfold MayBranch at may
      rw [q2] at may
      obtain ⟨bs, hbs, -⟩ := G.image.bytes k l' j hl' hj x hx
      exact absurd hps (by have := rel_real may.1 (encoded hbs); rw [not_or]; exact this)

/-! ## What a listing shows -/

theorem shown_arg {i0 it : Instruction} (h : Shows i0 it) {v : Int} (hv : i0.arg1.eval nullCtx = .ok v) :
    it.arg1.eval nullCtx = .ok v := by
  by_cases hb : MayBranch i0
  · obtain ⟨n, hn⟩ := h.branch hb
    have hne : i0.arg1 ≠ .null := by intro e; rw [e] at hv; simp [Expr.eval] at hv
    rw [hn]
    simpa [Expr.eval, hne] using hv
  · rw [h.plain hb]; exact hv

/-- The entry at the address of a line shows the instruction of the line. -/
theorem listed_real (G : Ground file fuel m m' src ctx₀) {d : Disassembler} (hcl : Closed src d)
    (hcov : ∀ a it, d.disassembly.find a = some it → Covered (Spot m m' i) a it.current ∧ it.instruction.ret = .default)
    {k x : Nat} (hk : ReachableFrom m i k) (hx : StandsAt m'.lines k x) {it : DisItem} (hit : d.disassembly.find x = some it)
    {l' : Line} {j : Instruction} (hl' : m'.lines[k]? = some l') (hj : l'.statement = .instr j)
    (hps : ¬ (j.mnemonic = .padd ∨ j.mnemonic = .psub)) :
    ∃ i0, Shows i0 it.instruction ∧ i0.ret = .default ∧ i0.mnemonic = j.mnemonic ∧ i0.mode = j.mode ∧
      OperandsMatch x (ctx₀ k) j i0 := by
  obtain ⟨-, l₀, ins, -, -, -, -, -, -, hsz, g1, g2, -⟩ := C42_every_instruction_analysed G.load G.pass hl' hj
  rw [not_or] at hps
  obtain ⟨bytes, i0, hb, q1, q2, q3, hdec⟩ := real_code G.image hl' hj hx g1 g2 hps hsz
  obtain ⟨t, ht, hab⟩ := (hcov x it hit).1
  cases spot_unique G ht (.line hk hl' hj hx)
  obtain ⟨bytes', i1, hb', hd', hsh⟩ := (hcl.items x it hit).bytes
  rw [hb] at hb'; cases hb'
  rw [hdec _ (sizeAgrees_above hab.flags hsz)] at hd'; cases hd'
  exact ⟨i0, hsh, (decode_ret (hdec _ hsz)).1, q1, q2, q3⟩

/-- The entries at the address of a pseudo-op. -/
theorem listed_pseudo (G : Ground file fuel m m' src ctx₀) {d : Disassembler} (hcl : Closed src d)
    (hcov : ∀ a it, d.disassembly.find a = some it → Covered (Spot m m' i) a it.current ∧ it.instruction.ret = .default)
    {k x : Nat} (hk : ReachableFrom m i k) (hx : StandsAt m'.lines k x) {it : DisItem} (hit : d.disassembly.find x = some it)
    {l' : Line} {j : Instruction} (hl' : m'.lines[k]? = some l') (hj : l'.statement = .instr j)
    (hps : j.mnemonic = .padd ∨ j.mnemonic = .psub) :
    (it.instruction.mnemonic = leadIn j.mnemonic ∧ it.instruction.mode = .imp) ∧
    ∃ it2 i0, d.disassembly.find (wrapped x 1) = some it2 ∧ Shows i0 it2.instruction ∧ i0.ret = .default ∧
      i0.mnemonic = realMnemonic j.mnemonic ∧ i0.mode = j.mode ∧
      OperandsMatch x (ctx₀ k) { j with mnemonic := realMnemonic j.mnemonic } i0 := by
  obtain ⟨-, l₀, ins, -, -, -, -, -, -, hsz, g1, g2, -⟩ := C42_every_instruction_analysed G.load G.pass hl' hj
  obtain ⟨⟨b1, hb1, hdec1⟩, bytes, i0, hb, q1, q2, q3, hdec⟩ := pseudo_code G.image hl' hj hx g1 g2 hps hsz
  obtain ⟨bytes', i1, hb', hd', hsh⟩ := (hcl.items x it hit).bytes
  rw [hb1] at hb'; cases hb'
  rw [hdec1] at hd'; cases hd'
  have e1 := hsh.mnemonic
  have e2 := hsh.mode
  simp only at e1 e2
  refine ⟨⟨e1, e2⟩, ?_⟩
  have hne : it.instruction.isExitInstruction = false := by
    have := (hcov x it hit).2
    unfold Instruction.isExitInstruction
    rw [this, e1]
    rcases hps with h | h <;> rw [h] <;> decide
  obtain ⟨it2, hit2, -⟩ := hcl.next x it hit hne
  have e : nextAddr x it.instruction = wrapped x 1 := by
    unfold nextAddr
    rw [e2]
    exact wrapped_eq (standsAt_lt hx) 1
  rw [e] at hit2
  obtain ⟨t, ht, hab⟩ := (hcov _ it2 hit2).1
  cases spot_unique G ht (.between hk hl' hj hps hx)
  obtain ⟨bytes', i1, hb', hd', hsh2⟩ := (hcl.items _ it2 hit2).bytes
  rw [hb] at hb'; cases hb'
  have hag : FlagsAbove (l'.incoming.flags.setC .unknown) it2.current.flags := hab.flags
  rw [hdec _ (sizeAgrees_above hag hsz)] at hd'; cases hd'
  exact ⟨it2, i0, hit2, hsh2, (decode_ret (hdec _ hsz)).1, q1, q2, q3⟩

/-- Every line that can be reached has an entry at its address. -/
theorem listed_all (G : Ground file fuel m m' src ctx₀) {d : Disassembler} (hcl : Closed src d)
    (hcov : ∀ a it, d.disassembly.find a = some it → Covered (Spot m m' i) a it.current ∧ it.instruction.ret = .default)
    {start : Nat} (hstart : StandsAt m'.lines (i + 1) start) {jt : DisItem} (hjt : d.disassembly.find start = some jt)
    {k : Nat} (hk : ReachableFrom m i k) : ∃ x it, StandsAt m'.lines k x ∧ d.disassembly.find x = some it := by
  induction hk with
  | entry h => exact ⟨start, jt, hstart, hjt⟩
  | @next k hk hf ih =>
    obtain ⟨x, it, hx, hit⟩ := ih
    obtain ⟨l, hl, hst⟩ := hf
    obtain ⟨l₁, l', hl₁, hl', hr, hn, hd, ho, hsc, hdir, hins⟩ := reached_facts G hk
    rw [hl] at hl₁; cases hl₁
    obtain ⟨-, hx2⟩ := goes_next G hk hx hl hl' hst
    cases hs : l.statement with
    | dir dd =>
      have hs' := (hdir dd).2 hs
      rw [hs'] at hd hx2
      rw [directive_size hd] at hx2
      have := addWrapped_zero (standsAt_lt hx)
      rw [this] at hx2
      exact ⟨x, it, hx2, hit⟩
    | instr ins =>
      obtain ⟨j, next, hj, gx, ej, ej', eb, hsz, g1, g2, hret⟩ := hins ins hs
      have e1 : j.mnemonic = ins.mnemonic := by rw [ej]
      have hr' := (hcov x it hit).2
      by_cases hps : j.mnemonic = .padd ∨ j.mnemonic = .psub
      · obtain ⟨-, it2, i0, hit2, hsh, hr0, q1, q2, -⟩ := listed_pseudo G hcl hcov hk hx hit hl' hj hps
        have hne : it2.instruction.isExitInstruction = false := by
          unfold Instruction.isExitInstruction
          rw [(hcov _ it2 hit2).2, hsh.mnemonic, q1]
          rcases hps with h | h <;> rw [h] <;> decide
        obtain ⟨it3, hit3, -⟩ := hcl.next _ it2 hit2 hne
        have e : nextAddr (wrapped x 1) it2.instruction = Address.addWrapped x l'.statement.serializedSize := by
          unfold nextAddr
          rw [hsh.mode, hj, q2]
          simp only [Statement.serializedSize, Instruction.serializedSize, hps, if_true]
          unfold Address.addWrapped wrapped
          omega
        rw [e] at hit3
        exact ⟨_, it3, hx2, hit3⟩
      · obtain ⟨i0, hsh, hr0, q1, q2, -⟩ := listed_real G hcl hcov hk hx hit hl' hj hps
        have hne : it.instruction.isExitInstruction = false := by
          rw [hs] at hst
          rw [← Bool.not_eq_true, ← stops_iff]
          simp only [Stops] at hst ⊢
          rw [hr', hsh.mnemonic, q1, e1]
          rw [hret] at hst
          exact hst
        obtain ⟨it2, hit2, -⟩ := hcl.next _ it hit hne
        have e : nextAddr x it.instruction = Address.addWrapped x l'.statement.serializedSize := by
          unfold nextAddr
          rw [hsh.mode, hj, q2]
          simp only [Statement.serializedSize, Instruction.serializedSize, hps, if_false, Nat.add_zero]
        rw [e] at hit2
        exact ⟨_, it2, hx2, hit2⟩
  | @branch k t hk hb ih =>
    obtain ⟨x, it, hx, hit⟩ := ih
    obtain ⟨l, ins, name, hl, hs, may, label, target⟩ := hb
    obtain ⟨l₁, l', hl₁, hl', hr, hn, hd, ho, hsc, hdir, hins⟩ := reached_facts G hk
    rw [hl] at hl₁; cases hl₁
    obtain ⟨j, next, hj, gx, ej, ej', eb, hsz, g1, g2, hret⟩ := hins ins hs
    obtain rfl : j = ins := ej' (by rcases may.1 with h | h <;> rw [h] <;> decide)
      (by rcases may.1 with h | h <;> rw [h] <;> decide)
    obtain ⟨bs, hbs, -⟩ := G.image.bytes k l' j hl' hj x hx
    have hps : ¬ (j.mnemonic = .padd ∨ j.mnemonic = .psub) := by rw [not_or]; exact rel_real may.1 (encoded hbs)
    obtain ⟨i0, hsh, hr0, q1, q2, q3⟩ := listed_real G hcl hcov hk hx hit hl' hj hps
    obtain ⟨name', t', v, h1, h2, h3, h4⟩ := goes_branch G hk hl hl' hx hs hj may q2 q3
    rw [label] at h1; cases h1
    rw [target] at h2; cases h2
    have hbr : it.instruction.isLocalBranch = true := by
      rw [mayBranch_iff]
      unfold MayBranch at may ⊢
      rw [hsh.mnemonic, hsh.mode, q1, q2]
      exact may
    obtain ⟨it2, hit2, -⟩ := hcl.branch x it v hit hbr (shown_arg hsh h3)
    refine ⟨_, it2, h4, ?_⟩
    rw [shown_next hsh] at hit2
    exact hit2

end

end Nsasm.Props
