import Verif.Lemmas.Coverage
import Verif.Spec.Disassemble

/-! # Rounds of the disassembler, seen from outside -/

namespace Nsasm
open Spec Props Disassembler

/-- The three kinds of rounds.  `it` is what is stored for `pc`, `outs` what is pushed. -/
inductive Round (src : Source) (d : Disassembler) (w : Work) (pc : Nat) (s : ExecutionState)
    (rest : OMap ExecutionState) (w' : Work) : DisItem → List (Nat × ExecutionState) → Prop
  | skip {it : DisItem} (seen : look d w.fresh pc = some it) (same : s.merge it.current = it.current)
      (far : w'.far = w.far) (labels : w'.labels = w.labels) (sym : w'.sym = w.sym) :
      Round src d w pc s rest w' it []
  | first {bytes : List UInt8} {i0 : Instruction} {nx0 : ExecutionState} {it : DisItem}
      {outs : List (Nat × ExecutionState)} (unseen : look d w.fresh pc = none) (read : src pc 4 = .ok bytes)
      (decoded : decode bytes s.flags = .ok i0) (executed : i0.execute s nullCtx = .ok nx0)
      (visit : FirstVisit d { w with stack := rest } pc s i0 nx0 w' it) : Round src d w pc s rest w' it outs
  | again {di : DisItem} {bytes : List UInt8} {i0 : Instruction} {nx : ExecutionState}
      {bo : List (Nat × ExecutionState)} (seen : look d w.fresh pc = some di)
      (change : s.merge di.current ≠ di.current) (read : src pc 4 = .ok bytes)
      (decoded : decode bytes (s.merge di.current).flags = .ok i0)
      (executed : di.instruction.execute (s.merge di.current) nullCtx = .ok nx)
      (far : FarAfter pc di.instruction nx.flags w.far w'.far)
      (branch : BranchOuts pc di.instruction s bo) (labels : w'.labels = w.labels) (sym : w'.sym = w.sym) :
      Round src d w pc s rest w' { di with current := s.merge di.current, next := nx }
        (nextOuts pc di.instruction nx ++ bo)

/-- What a round does to the maps and to the stack. -/
structure Effect (d : Disassembler) (w : Work) (pc : Nat) (rest : OMap ExecutionState) (w' : Work)
    (it : DisItem) (outs : List (Nat × ExecutionState)) : Prop where
  sorted : OMap.Sorted w'.fresh
  look : ∀ b, look d w'.fresh b = if pc = b then some it else Nsasm.look d w.fresh b
  stack : w'.stack = pushAll rest outs

theorem first_effect {d : Disassembler} {w w' : Work} {pc : Nat} {s : ExecutionState}
    {rest : OMap ExecutionState} {i0 : Instruction} {nx0 : ExecutionState} {it : DisItem}
    (hs : OMap.Sorted w.fresh) (h : FirstVisit d { w with stack := rest } pc s i0 nx0 w' it) :
    ∃ bo, Effect d w pc rest w' it (bo ++ nextOuts pc it.instruction it.next) ∧
      ((i0.isLocalBranch = true ∧ ∃ v b, i0.arg1.eval nullCtx = .ok v ∧
        it.instruction = { i0 with
          arg1 := i0.arg1.applyLabel
            (getLabel d { w with stack := rest } (Address.addWrapped (nextAddr pc i0) v)).1 } ∧
        it.instruction.executeBranch s = .ok b ∧ bo = [(Address.addWrapped (nextAddr pc i0) v, b)]) ∨
       (i0.isLocalBranch = false ∧ bo = [])) := by
  cases h with
  | branch isBranch value target named taken =>
    subst target
    exact ⟨_, ⟨OMap.sorted_upsert hs _ _, fun b => look_set hs _ b _, rfl⟩, .inl ⟨isBranch, _, _, value, named, taken, rfl⟩⟩
  | plain noBranch noTarget =>
    exact ⟨[], ⟨OMap.sorted_upsert hs _ _, fun b => look_set hs _ b _, rfl⟩, .inr ⟨noBranch, rfl⟩⟩
  | far noBranch target convention looked =>
    exact ⟨[], ⟨OMap.sorted_upsert hs _ _, fun b => look_set hs _ b _, rfl⟩, .inr ⟨noBranch, rfl⟩⟩

theorem step_round {src : Source} {d : Disassembler} {w w' : Work} (hs : OMap.Sorted w.fresh)
    (h : step src d w = .ok (some w')) : ∃ pc s rest it outs, w.stack = (pc, s) :: rest ∧
      Round src d w pc s rest w' it outs ∧ Effect d w pc rest w' it outs := by
  obtain ⟨pc, s, rest, w1, hst, hw1, hv⟩ := step_inv h
  have hg := getInstruction_rest d { w with stack := rest } hs pc
  rw [← hw1] at hg
  obtain ⟨g1, g2, g3, g4, g5, g6⟩ := hg
  rcases hv with ⟨hl, hv⟩ | ⟨di, hl, hv⟩
  · have : w1 = { w with stack := rest } := by
      rw [hw1]
      unfold getInstruction
      unfold look at hl
      split at hl
      · cases hl
      · rename_i hf
        simp only [hf, hl]
    subst this
    obtain ⟨bytes, i0, nx0, it, h1, h2, h3, h4⟩ := visitNew_inv hv
    obtain ⟨bo, he, -⟩ := first_effect hs h4
    exact ⟨pc, s, rest, it, _, hst, .first hl h1 h2 h3 h4, he⟩
  · rcases visitOld_inv hv with ⟨hc, rfl⟩ | ⟨hc, bytes, i0, nx, far, bo, h1, h2, h3, h4, h5, rfl⟩
    · refine ⟨pc, s, rest, di, [], hst, .skip hl hc g5 g3 g6, ⟨g2, fun b => ?_, g4⟩⟩
      rw [g1]
      split
      · rename_i hb; subst hb; exact hl
      · rfl
    · refine ⟨pc, s, rest, _, _, hst, .again hl hc h1 h2 h3 (g5 ▸ h4) h5 g3 g6,
        ⟨OMap.sorted_upsert g2 _ _, fun b => ?_, by simp only [g4]⟩⟩
      simp only
      rw [look_set g2, g1]

/-! ## The basic invariant -/

/-- The states on the stack and in the maps are normal, and so are the conventions. -/
structure Tidy (d : Disassembler) (w : Work) : Prop where
  fresh : OMap.Sorted w.fresh
  stack : OMap.Sorted w.stack
  states : AllNormal (fun a => (look d w.fresh a).map DisItem.current) w.stack
  rets : ∀ a it f, look d w.fresh a = some it → it.instruction.ret = .yields f → Normal f
  table : ∀ a f, d.conventions.find a = some (.yields f) → Normal f
  low : ∀ a s, w.stack.find a = some s → a ≤ 0x1000000

theorem addWrapped_le (a : Nat) (v : Int) : Address.addWrapped a v ≤ 0x1000000 := by
  unfold Address.addWrapped
  have : (((a : Int) + v) % 0x10000).toNat < 0x10000 := by omega
  have : a / 0x10000 % 0x100 < 0x100 := Nat.mod_lt _ (by omega)
  omega

theorem pushAll_low : ∀ (outs : List (Nat × ExecutionState)) {st : OMap ExecutionState}, OMap.Sorted st →
    (∀ a s, st.find a = some s → a ≤ 0x1000000) → (∀ o ∈ outs, o.1 ≤ 0x1000000) →
    ∀ a s, (pushAll st outs).find a = some s → a ≤ 0x1000000 := by
  intro outs
  induction outs with
  | nil => intro st _ h _; exact h
  | cons o os ih =>
    intro st hs h ho
    refine ih (OMap.sorted_upsert (f := fun old => ExecutionState.merge old o.2) hs o.1 o.2) ?_
      (fun o' h' => ho o' (by simp [h']))
    intro a s ha
    rw [OMap.find_upsert hs] at ha
    by_cases hoa : o.1 = a
    · rw [← hoa]; exact ho o (by simp)
    · rw [if_neg hoa] at ha; exact h a s ha

theorem nextOuts_mem {pc : Nat} {i : Instruction} {nx : ExecutionState} {o : Nat × ExecutionState}
    (h : o ∈ nextOuts pc i nx) : i.isExitInstruction = false ∧ o = (nextAddr pc i, nx) := by
  unfold nextOuts at h
  split at h
  · cases h
  · rename_i hn
    rw [List.mem_singleton] at h
    exact ⟨by simpa using hn, h⟩

/-- What a first visit stores. -/
theorem first_item {d : Disassembler} {w w' : Work} {pc : Nat} {s : ExecutionState} {i0 : Instruction}
    {nx0 : ExecutionState} {it : DisItem} (h : FirstVisit d w pc s i0 nx0 w' it) :
    it.current = s ∧ it.label = [] ∧ it.isEntry = false ∧
    it.instruction.mnemonic = i0.mnemonic ∧ it.instruction.mode = i0.mode ∧ it.instruction.arg2 = i0.arg2 ∧
    it.instruction.suffix = i0.suffix ∧
    (it.instruction.ret = i0.ret ∨ ∃ t, d.conventions.find t = some it.instruction.ret) ∧
    it.next = (if i0.farBranchTarget pc = .ok none then nx0 else it.instruction.ret.applyTo nx0) := by
  cases h with
  | branch isBranch value target named taken =>
    subst named
    exact ⟨rfl, rfl, rfl, rfl, rfl, rfl, rfl, .inl rfl, by rw [if_pos (branch_no_far isBranch pc)]⟩
  | plain noBranch noTarget =>
    exact ⟨rfl, rfl, rfl, rfl, rfl, rfl, rfl, .inl rfl, by rw [if_pos noTarget]⟩
  | far noBranch target convention looked =>
    have hne : ¬ i0.farBranchTarget pc = .ok none := by rw [target]; simp
    rcases convention with rfl | ⟨-, r, hr, rfl⟩
    · exact ⟨rfl, rfl, rfl, rfl, rfl, rfl, rfl, .inl rfl, by rw [if_neg hne]⟩
    · exact ⟨rfl, rfl, rfl, rfl, rfl, rfl, rfl, .inr ⟨_, hr⟩, by rw [if_neg hne]⟩

theorem normal_executeBranch {i : Instruction} {s b : ExecutionState} (hr : ∀ f, i.ret = .yields f → Normal f)
    (h : i.executeBranch s = .ok b) (hn : NormalState s) : NormalState b := by
  unfold Instruction.executeBranch at h
  obtain ⟨e, he, h⟩ := Res.bind_eq_ok.1 h
  have := normal_execute hr he hn
  split at h
  · cases h; exact ⟨this.1, this.2⟩
  · split at h
    · cases h; exact ⟨this.1, this.2⟩
    · cases h; exact this

/-- What a round pushes and stores is normal, and the addresses are addresses. -/
theorem round_outs {src : Source} {d : Disassembler} {w w' : Work} {pc : Nat} {s : ExecutionState}
    {rest : OMap ExecutionState} {it : DisItem} {outs : List (Nat × ExecutionState)} (ht : Tidy d w)
    (hst : w.stack = (pc, s) :: rest) (hr : Round src d w pc s rest w' it outs)
    (he : Effect d w pc rest w' it outs) :
    ∃ outs', w'.stack = pushAll rest outs' ∧ (∀ o ∈ outs', NormalState o.2 ∧ o.1 ≤ 0x1000000) ∧
    (∀ f, it.instruction.ret = .yields f → Normal f) ∧
    it.current = (match look d w.fresh pc with | some di => s.merge di.current | none => s) := by
  have hsn : NormalState s := ht.states.2 pc s (by rw [hst]; simp [OMap.find])
  cases hr with
  | skip seen same far labels sym =>
    refine ⟨_, he.stack, by simp, fun f hf => ht.rets pc it f seen hf, ?_⟩
    rw [seen]; exact same.symm
  | first unseen read decoded executed visit =>
    rename_i bytes i0 nx0
    obtain ⟨bo, he', hbo⟩ := first_effect ht.fresh visit
    obtain ⟨hi1, -, -, hi4, hi5, -, -, hi8, hi9⟩ := first_item visit
    have hd := decode_ret decoded
    have hret : ∀ f, it.instruction.ret = .yields f → Normal f := by
      intro f hf
      rcases hi8 with h | ⟨t, h⟩
      · rw [hf, hd.1] at h; cases h
      · rw [hf] at h; exact ht.table t f h
    have hnx0 : NormalState nx0 := normal_execute (fun f hf => by rw [hd.1] at hf; cases hf) executed hsn
    have hnx : NormalState it.next := by
      rw [hi9]
      split
      · exact hnx0
      · cases hr : it.instruction.ret with
        | default => exact hnx0
        | noreturn => exact hnx0
        | yields f => exact ⟨hret f hr, hnx0.2⟩
    refine ⟨_, he'.stack, ?_, hret, by rw [unseen]; exact hi1⟩
    intro o ho
    rw [List.mem_append] at ho
    rcases ho with ho | ho
    · rcases hbo with ⟨-, v, b, -, -, hb, rfl⟩ | ⟨-, rfl⟩
      · rw [List.mem_singleton] at ho
        subst ho
        exact ⟨normal_executeBranch hret hb hsn, addWrapped_le _ _⟩
      · cases ho
    · obtain ⟨-, rfl⟩ := nextOuts_mem ho
      exact ⟨hnx, addWrapped_le _ _⟩
  | again seen change read decoded executed far branch labels sym =>
    rename_i di bytes i0 nx bo
    have hret : ∀ f, di.instruction.ret = .yields f → Normal f := fun f hf => ht.rets pc di f seen hf
    refine ⟨_, he.stack, ?_, hret, by rw [seen]⟩
    intro o ho
    rw [List.mem_append] at ho
    rcases ho with ho | ho
    · obtain ⟨-, rfl⟩ := nextOuts_mem ho
      exact ⟨normal_execute hret executed (normal_merge hsn), addWrapped_le _ _⟩
    · rcases branch with ⟨-, rfl⟩ | ⟨-, v, b, -, hb, rfl⟩
      · cases ho
      · rw [List.mem_singleton] at ho
        subst ho
        exact ⟨normal_executeBranch hret hb hsn, addWrapped_le _ _⟩

/-- The states seen after a round. -/
theorem effect_states {d : Disassembler} {w w' : Work} {pc : Nat} {s : ExecutionState}
    {rest : OMap ExecutionState} {it : DisItem} {outs : List (Nat × ExecutionState)}
    (he : Effect d w pc rest w' it outs)
    (hc : it.current = (match look d w.fresh pc with | some di => s.merge di.current | none => s)) :
    ((look d w'.fresh pc).map DisItem.current = some (match (look d w.fresh pc).map DisItem.current with
      | some c => s.merge c | none => s)) ∧
    (∀ a, a ≠ pc → (look d w'.fresh a).map DisItem.current = (look d w.fresh a).map DisItem.current) := by
  constructor
  · rw [he.look, if_pos rfl, Option.map_some, hc]
    cases look d w.fresh pc <;> rfl
  · intro a ha
    rw [he.look, if_neg (fun h => ha h.symm)]

theorem tidy_step {src : Source} {d : Disassembler} {w w' : Work} (ht : Tidy d w)
    (h : step src d w = .ok (some w')) : Tidy d w' ∧
      (∀ a s, NormalState s → Has (fun a => (look d w.fresh a).map DisItem.current) w.stack a s →
        Has (fun a => (look d w'.fresh a).map DisItem.current) w'.stack a s) := by
  obtain ⟨pc, s, rest, it, outs, hst, hr, he⟩ := step_round ht.fresh h
  obtain ⟨outs', hst', hn, hret, hc⟩ := round_outs ht hst hr he
  obtain ⟨hp1, hp2⟩ := effect_states he hc
  have hsorted := ht.stack
  have hstates := ht.states
  rw [hst] at hsorted hstates
  obtain ⟨hsn, hpop⟩ := pop_normal (V' := fun a => (look d w'.fresh a).map DisItem.current)
    hsorted hstates hp1 hp2
  have hrest : OMap.Sorted rest := by
    unfold OMap.Sorted at hsorted; rw [List.pairwise_cons] at hsorted; exact hsorted.2
  obtain ⟨q1, q2, q3, q4⟩ := pushAll_props outs' hrest hpop (fun o ho => (hn o ho).1)
  refine ⟨⟨he.sorted, hst' ▸ q1, hst' ▸ q2, ?_, ht.table, ?_⟩, ?_⟩
  · intro a jt f hl hf
    rw [he.look] at hl
    by_cases ha : pc = a
    · rw [if_pos ha] at hl; cases hl; exact hret f hf
    · rw [if_neg ha] at hl; exact ht.rets a jt f hl hf
  · rw [hst']
    refine pushAll_low outs' hrest ?_ (fun o ho => (hn o ho).2)
    intro a t ha
    refine ht.low a t ?_
    rw [hst]
    unfold OMap.Sorted at hsorted
    rw [List.pairwise_cons] at hsorted
    have := hsorted.1 _ (OMap.mem_of_find ha)
    simp only at this
    rw [OMap.find, if_neg (by omega)]
    exact ha
  · intro a t htn hh
    rw [hst] at hh
    rw [hst']
    exact q3 a t htn (has_pop hsorted hp1 hp2 hh)
