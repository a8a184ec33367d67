import Verif.Lemmas.FirstPass
import Verif.Lemmas.Written
import Verif.Props.Stack

/-! # The analysis loop of the first pass ends -/

namespace Nsasm
open Spec Props

/-! ## No step bound is hit inside a round -/

/-- The outcome is not the exhaustion of a step bound. -/
def Res.NoSteps {α : Type} : Res α → Prop
  | .err .steps => False
  | _ => True

theorem Res.noSteps_bind {α β : Type} {x : Res α} {f : α → Res β} (hx : x.NoSteps)
    (hf : ∀ a, x = .ok a → (f a).NoSteps) : (x >>= f).NoSteps := by
  cases x with
  | ok a => exact hf a rfl
  | err e => cases e <;> first | exact hx | trivial
  | ub u => trivial

theorem noSteps_ite {α : Type} {c : Prop} [Decidable c] {a b : Res α} (ha : c → a.NoSteps)
    (hb : ¬c → b.NoSteps) : (if c then a else b).NoSteps := by
  split
  · exact ha ‹_›
  · exact hb ‹_›

theorem i32_noSteps (v : Int) : (i32 v).NoSteps := by
  unfold i32; split <;> trivial

theorem add_noSteps (r : RegisterValue) (o : Int) (k : Nat) : (r.add o k).NoSteps := by
  unfold RegisterValue.add
  split
  · exact Res.noSteps_bind (i32_noSteps _) fun _ _ => trivial
  · trivial

theorem maybeArg_noSteps (e : Expr) (ctx : Ctx) : (Instruction.maybeArg e ctx).NoSteps := by
  unfold Instruction.maybeArg; split <;> trivial

theorem pullVarsize_noSteps (s : Stack) : s.pullVarsize.NoSteps := by
  unfold Stack.pullVarsize
  split <;> try trivial
  all_goals (split <;> trivial)

theorem pullReg_noSteps (s : Stack) (r : RegName) (b : BitState) : (s.pullReg r b).NoSteps := by
  unfold Stack.pullReg
  split
  · trivial
  · split
    · trivial
    · refine Res.noSteps_bind (pullVarsize_noSteps _) fun ⟨v, _⟩ _ => ?_
      simp only
      split
      · split <;> trivial
      · trivial
    · simp only
      split
      · split <;> trivial
      · trivial
      · trivial
    · simp only
      split
      · split <;> trivial
      · trivial
      · trivial

theorem checkConsistency_noSteps (i : Instruction) (f : StatusFlags) :
    (i.checkConsistency f).NoSteps := by
  unfold Instruction.checkConsistency
  simp only
  generalize (if i.mnemonic = .padd ∨ i.mnemonic = .psub then Mnemonic.adc else i.mnemonic) = eff
  split
  · trivial
  · refine Res.noSteps_bind ?_ fun _ _ => ?_
    · unfold Instruction.checkSuffix
      split
      · trivial
      · split
        · trivial
        · simp only
          split_ifs <;> trivial
    · unfold Instruction.checkImmediate
      simp only
      split_ifs <;> trivial

theorem execute_noSteps (i : Instruction) (es : ExecutionState) (ctx : Ctx) :
    (i.execute es ctx).NoSteps := by
  unfold Instruction.execute
  refine Res.noSteps_bind (checkConsistency_noSteps _ _) fun _ _ => ?_
  extract_lets m
  subst m
  iterate 2
    refine noSteps_ite (fun _ => trivial) fun _ => ?_
  refine noSteps_ite (fun _ => Res.noSteps_bind (maybeArg_noSteps _ _) fun _ _ => trivial) fun _ => ?_
  iterate 3
    refine noSteps_ite (fun _ => trivial) fun _ => ?_
  refine noSteps_ite (fun _ => ?_) fun _ => ?_
  · unfold Instruction.executeIncDec
    refine noSteps_ite (fun _ => trivial) fun _ => ?_
    simp only
    refine noSteps_ite (fun _ => Res.noSteps_bind (add_noSteps _ _ _) fun _ _ => trivial) fun _ => ?_
    refine noSteps_ite (fun _ => Res.noSteps_bind (add_noSteps _ _ _) fun _ _ => trivial) fun _ => ?_
    exact Res.noSteps_bind (add_noSteps _ _ _) fun _ _ => trivial
  refine noSteps_ite (fun _ => ?_) fun _ => ?_
  · unfold Instruction.executeLoad
    refine noSteps_ite (fun _ => ?_) fun _ => trivial
    refine Res.noSteps_bind (maybeArg_noSteps _ _) fun _ _ => ?_
    simp only
    refine noSteps_ite (fun _ => trivial) fun _ => ?_
    exact noSteps_ite (fun _ => trivial) fun _ => trivial
  refine noSteps_ite (fun hm => ?_) fun _ => ?_
  · unfold Instruction.executeMove
    refine Res.noSteps_bind (maybeArg_noSteps _ _) fun ini hini => ?_
    refine Res.noSteps_bind ?_ fun ⟨_, _⟩ _ => ?_
    · cases ini with
      | none => trivial
      | some v =>
        refine Res.noSteps_bind (i32_noSteps _) fun o ho => ?_
        refine Res.noSteps_bind (add_noSteps _ _ _) fun _ _ => ?_
        exact Res.noSteps_bind (add_noSteps _ _ _) fun _ _ => trivial
    · exact Res.noSteps_bind (maybeArg_noSteps _ _) fun _ _ => trivial
  refine noSteps_ite (fun _ => Res.noSteps_bind (maybeArg_noSteps _ _) fun _ _ => trivial) fun _ => ?_
  iterate 4
    refine noSteps_ite (fun _ => trivial) fun _ => ?_
  iterate 3
    refine noSteps_ite
      (fun _ => Res.noSteps_bind (pullReg_noSteps _ _ _) fun ⟨_, _⟩ _ => trivial) fun _ => ?_
  iterate 4
    refine noSteps_ite (fun _ => trivial) fun _ => ?_
  trivial

theorem statement_noSteps (st : Statement) (es : ExecutionState) : (st.execute es).NoSteps := by
  cases st with
  | instr i => exact execute_noSteps i es nullCtx
  | dir d =>
    simp only [Statement.execute, Directive.execute]
    split_ifs <;> trivial

theorem executeBranch_noSteps (i : Instruction) (es : ExecutionState) :
    (i.executeBranch es).NoSteps := by
  unfold Instruction.executeBranch
  refine Res.noSteps_bind (execute_noSteps _ _ _) fun _ _ => ?_
  split_ifs <;> trivial

theorem branchWork_noSteps (m : Module) (l : Line) (s : ExecutionState) (w : OMap ExecutionState) :
    (m.branchWork l s w).NoSteps := by
  unfold Module.branchWork
  split
  · trivial
  · split
    · trivial
    · split
      · trivial
      · split
        · trivial
        · exact Res.noSteps_bind (executeBranch_noSteps _ _) fun _ _ => trivial

theorem step_noSteps (m : Module) (p : Module.Pass) : (m.step p).NoSteps := by
  unfold Module.step
  split
  · trivial
  · split
    · trivial
    · split
      · trivial
      · split
        · trivial
        · refine Res.noSteps_bind ?_ fun _ _ => trivial
          unfold Module.visit
          refine Res.noSteps_bind (statement_noSteps _ _) fun _ _ => ?_
          exact Res.noSteps_bind (branchWork_noSteps _ _ _ _) fun _ _ => trivial

/-! ## Merging loses information -/

def BitState.rank : BitState → Nat
  | .unknown => 0
  | _ => 1

def StatusFlags.rank (f : StatusFlags) : Nat := f.e.rank + f.m.rank + f.x.rank + f.c.rank

def RegisterValue.rank : RegisterValue → Nat
  | .unknown => 0
  | _ => 1

def StackValue.rank : StackValue → Nat
  | .unknown => 0
  | .flags f => 1 + f.rank
  | .var _ true => 2
  | _ => 1

def Stack.rank : Stack → Nat
  | .abandoned => 0
  | .live l => 1 + (l.map StackValue.rank).sum

def ExecutionState.rank (s : ExecutionState) : Nat :=
  s.a.rank + s.x.rank + s.y.rank + s.dbr.rank + s.flags.rank + s.stack.rank

theorem bit_rank (a b : BitState) : a.merge b = a ∨ (a.merge b).rank < a.rank := by
  cases a <;> cases b <;> simp [BitState.merge, BitState.rank]

theorem sized_rank (m e m' e' : BitState) (h : constrainedForEBit m e = m)
    (h' : constrainedForEBit m' e' = m') :
    constrainedForEBit (m.merge m') (e.merge e') = m ∨
      (constrainedForEBit (m.merge m') (e.merge e')).rank < m.rank := by
  revert h h'
  cases m <;> cases e <;> cases m' <;> cases e' <;> decide

theorem le_of_rank {α : Type} {r : α → Nat} {x y : α} (h : y = x ∨ r y < r x) : r y ≤ r x := by
  rcases h with h | h
  · rw [h]; exact Nat.le_refl _
  · omega

theorem flags_rank {f g : StatusFlags} (hf : Normal f) (hg : Normal g) :
    f.merge g = f ∨ (f.merge g).rank < f.rank := by
  have h1 := bit_rank f.e g.e
  have h2 := sized_rank f.m f.e g.m g.e hf.1 hg.1
  have h3 := sized_rank f.x f.e g.x g.e hf.2 hg.2
  have h4 := bit_rank f.c g.c
  have e1 := le_of_rank (r := BitState.rank) h1
  have e2 := le_of_rank (r := BitState.rank) h2
  have e3 := le_of_rank (r := BitState.rank) h3
  have e4 := le_of_rank (r := BitState.rank) h4
  simp only [StatusFlags.merge, StatusFlags.make, StatusFlags.rank]
  rcases h1 with h1 | h1
  · rcases h2 with h2 | h2
    · rcases h3 with h3 | h3
      · rcases h4 with h4 | h4
        · left; rw [h2, h3, h4, h1]
        · right; omega
      · right; omega
    · right; omega
  · right; omega

theorem reg_rank (a b : RegisterValue) : a.merge b = a ∨ (a.merge b).rank < a.rank := by
  unfold RegisterValue.merge
  split
  · exact .inl rfl
  · cases a <;> simp [RegisterValue.rank]

theorem entry_rank {a b : StackValue} (ha : NormalEntry a) (hb : NormalEntry b) :
    a.merge b = a ∨ (a.merge b).rank < a.rank := by
  unfold StackValue.merge
  cases hs : StackValue.sameType a b with
  | false =>
    simp only [Bool.not_false, if_true]
    cases a with
    | var r o => right; cases o <;> simp [StackValue.rank]
    | flags f => right; simp only [StackValue.rank]; omega
    | _ => simp [StackValue.rank]
  | true =>
    simp only [Bool.not_true, Bool.false_eq_true, if_false]
    cases a <;> cases b <;> simp only [StackValue.sameType, Bool.false_eq_true] at hs <;> simp only
    case flags.flags f g =>
      rcases flags_rank ha hb with h | h
      · left; rw [h]
      · right; simp only [StackValue.rank]; omega
    case byte.byte v w =>
      split
      · exact .inl rfl
      · right; simp [StackValue.rank]
    case var.var r o r' o' =>
      split
      · exact .inl rfl
      · cases o <;> cases o' <;> simp_all [StackValue.rank]
    all_goals exact .inl trivial

theorem mergeList_rank : ∀ {l r k : List StackValue}, (∀ v ∈ l, NormalEntry v) →
    (∀ v ∈ r, NormalEntry v) → Stack.mergeList l r = some k →
    k = l ∨ (k.map StackValue.rank).sum < (l.map StackValue.rank).sum := by
  intro l
  induction l with
  | nil =>
    intro r k _ _ h
    cases r with
    | nil => simp [Stack.mergeList] at h; exact .inl h
    | cons b r => simp [Stack.mergeList] at h
  | cons a l ih =>
    intro r k hl hr h
    cases r with
    | nil => simp [Stack.mergeList] at h
    | cons b r =>
      rw [Stack.mergeList] at h
      split at h
      · rw [Option.map_eq_some_iff] at h
        obtain ⟨k', hk, rfl⟩ := h
        have h1 := entry_rank (hl a (by simp)) (hr b (by simp))
        have h2 := ih (fun v hv => hl v (by simp [hv])) (fun v hv => hr v (by simp [hv])) hk
        have e1 := le_of_rank (r := StackValue.rank) h1
        have e2 : (k'.map StackValue.rank).sum ≤ (l.map StackValue.rank).sum := by
          rcases h2 with h2 | h2
          · rw [h2]; exact Nat.le_refl _
          · omega
        simp only [List.map_cons, List.sum_cons]
        rcases h1 with h1 | h1
        · rcases h2 with h2 | h2
          · left; rw [h1, h2]
          · right; omega
        · right; omega
      · cases h

theorem stack_rank {s t : Stack} (hs : NormalStack s) (ht : NormalStack t) :
    s.merge t = s ∨ (s.merge t).rank < s.rank := by
  cases s with
  | abandoned => exact .inl rfl
  | live l =>
    cases t with
    | abandoned => right; simp only [Stack.merge, Stack.rank]; omega
    | live r =>
      simp only [Stack.merge]
      cases hm : Stack.mergeList l r with
      | none => right; simp only [Stack.rank]; omega
      | some k =>
        rcases mergeList_rank hs ht hm with h | h
        · left; rw [h]
        · right; simp only [Stack.rank]; omega

/-- Merging either changes nothing or loses some of what was known. -/
theorem state_rank {s t : ExecutionState} (hs : NormalState s) (ht : NormalState t) :
    s.merge t = s ∨ (s.merge t).rank < s.rank := by
  have h1 := reg_rank s.a t.a
  have h2 := reg_rank s.x t.x
  have h3 := reg_rank s.y t.y
  have h4 := reg_rank s.dbr t.dbr
  have h5 := flags_rank hs.1 ht.1
  have h6 := stack_rank hs.2 ht.2
  have e1 := le_of_rank (r := RegisterValue.rank) h1
  have e2 := le_of_rank (r := RegisterValue.rank) h2
  have e3 := le_of_rank (r := RegisterValue.rank) h3
  have e4 := le_of_rank (r := RegisterValue.rank) h4
  have e5 := le_of_rank (r := StatusFlags.rank) h5
  have e6 := le_of_rank (r := Stack.rank) h6
  simp only [ExecutionState.merge, ExecutionState.rank]
  rcases h1 with h1 | h1
  · rcases h2 with h2 | h2
    · rcases h3 with h3 | h3
      · rcases h4 with h4 | h4
        · rcases h5 with h5 | h5
          · rcases h6 with h6 | h6
            · left; rw [h1, h2, h3, h4, h5, h6]
            · right; omega
          · right; omega
        · right; omega
      · right; omega
    · right; omega
  · right; omega

theorem normal_merge {s t : ExecutionState} (hs : NormalState s) : NormalState (s.merge t) := by
  refine ⟨normal_make _ _ _ _, ?_⟩
  simp only [ExecutionState.merge]
  cases hst : s.stack with
  | abandoned => exact trivial
  | live l =>
    cases htt : t.stack with
    | abandoned => exact trivial
    | live r =>
      simp only [Stack.merge]
      cases hm : Stack.mergeList l r with
      | none => exact trivial
      | some k =>
        clear hst htt
        show ∀ v ∈ k, NormalEntry v
        induction l generalizing r k with
        | nil => cases r <;> simp [Stack.mergeList] at hm; subst hm; simp
        | cons a l ih =>
          cases r with
          | nil => simp [Stack.mergeList] at hm
          | cons b r =>
            rw [Stack.mergeList] at hm
            split at hm
            · rw [Option.map_eq_some_iff] at hm
              obtain ⟨k', hk, rfl⟩ := hm
              intro v hv
              rw [List.mem_cons] at hv
              rcases hv with rfl | hv
              · exact normal_entry_merge
              · exact ih r k' hk v hv
            · cases hm

/-! ## Sorted maps -/

/-- Keys in ascending order. -/
def OMap.Sorted {ν : Type} (m : OMap ν) : Prop := m.Pairwise fun a b => a.1 < b.1

theorem OMap.find_none_of_lt {ν : Type} {m : OMap ν} {k : Nat} (h : ∀ x ∈ m, k < x.1) :
    m.find k = none := by
  induction m with
  | nil => rfl
  | cons x m ih =>
    rw [OMap.find, if_neg (by have := h x (by simp); omega)]
    exact ih fun y hy => h y (by simp [hy])

theorem OMap.sorted_upsert {ν : Type} {f : ν → ν} {m : OMap ν} (h : m.Sorted) (k : Nat) (v : ν) :
    (m.upsert f k v).Sorted := by
  induction m with
  | nil => simp [OMap.upsert, OMap.Sorted]
  | cons x m ih =>
    obtain ⟨kx, w⟩ := x
    unfold OMap.Sorted at h
    rw [List.pairwise_cons] at h
    rw [OMap.upsert]
    split
    · next hlt =>
      refine List.pairwise_cons.mpr ⟨?_, ih h.2⟩
      rintro ⟨k', w'⟩ hm
      rcases upsert_mem hm with rfl | hm
      · exact hlt
      · exact h.1 _ hm
    · split
      · next he =>
        subst he
        exact List.pairwise_cons.mpr ⟨fun y hy => h.1 y hy, h.2⟩
      · next h1 h2 =>
        refine List.pairwise_cons.mpr ⟨?_, List.pairwise_cons.mpr h⟩
        intro y hy
        rw [List.mem_cons] at hy
        rcases hy with rfl | hy
        · show k < kx; omega
        · have := h.1 y hy; simp only at this ⊢; omega

theorem OMap.find_upsert {ν : Type} {f : ν → ν} {m : OMap ν} (h : m.Sorted) (k j : Nat) (v : ν) :
    (m.upsert f k v).find j =
      if k = j then some (match m.find k with | some w => f w | none => v) else m.find j := by
  induction m with
  | nil => simp [OMap.upsert, OMap.find]
  | cons x m ih =>
    obtain ⟨kx, w⟩ := x
    unfold OMap.Sorted at h
    rw [List.pairwise_cons] at h
    rw [OMap.upsert]
    split
    · next hlt =>
      rw [OMap.find, ih h.2]
      by_cases hkj : k = j
      · subst hkj
        rw [if_neg (by omega), if_pos rfl, if_pos rfl, OMap.find, if_neg (by omega)]
      · rw [if_neg hkj, if_neg hkj, OMap.find]
    · split
      · next he =>
        subst he
        by_cases hkj : kx = j
        · subst hkj; simp [OMap.find]
        · simp [OMap.find, hkj]
      · next h1 h2 =>
        by_cases hkj : k = j
        · subst hkj
          have : OMap.find m k = none :=
            OMap.find_none_of_lt fun y hy => by have := h.1 y hy; simp only at this; omega
          simp [OMap.find, h2, this]
        · simp [OMap.find, hkj]

theorem OMap.mem_of_find {ν : Type} {m : OMap ν} {k : Nat} {v : ν} (h : m.find k = some v) :
    (k, v) ∈ m := by
  induction m with
  | nil => cases h
  | cons x m ih =>
    obtain ⟨kx, w⟩ := x
    rw [OMap.find] at h
    split at h
    · next he => subst he; cases h; simp
    · exact List.mem_cons_of_mem _ (ih h)

theorem OMap.find_of_mem {ν : Type} {m : OMap ν} (hs : m.Sorted) {k : Nat} {v : ν}
    (h : (k, v) ∈ m) : m.find k = some v := by
  induction m with
  | nil => simp at h
  | cons x m ih =>
    obtain ⟨kx, w⟩ := x
    unfold OMap.Sorted at hs
    rw [List.pairwise_cons] at hs
    rw [List.mem_cons] at h
    rcases h with h | h
    · cases h; simp [OMap.find]
    · have := hs.1 _ h
      simp only at this
      rw [OMap.find, if_neg (by omega)]
      exact ih hs.2 h

/-! ## Termination -/

/-- What every state of the loop satisfies. -/
structure GoodPass (p : Module.Pass) : Prop where
  sorted : OMap.Sorted p.work
  normal : ∀ k s, (k, s) ∈ p.work → NormalState s
  written : ∀ l ∈ p.lines, StatementWritten l.statement

theorem normal_written {f : StatusFlags} (h : FlagsWritten f) : Normal f := by
  obtain ⟨s, hs⟩ := h; exact normal_fromName hs

theorem normal_statement {st : Statement} (hw : StatementWritten st) {s s' : ExecutionState}
    (hs : NormalState s) (h : st.execute s = .ok s') : NormalState s' := by
  cases st with
  | instr i => exact normal_execute (fun f hf => normal_written (hw f hf)) h hs
  | dir d =>
    simp only [Statement.execute, Directive.execute] at h
    split_ifs at h with h1 h2
    · cases h
      exact ⟨normal_written (hw (by simp [h2])), hs.2⟩
    · cases h; exact hs

theorem normal_branch {i : Instruction} (hw : StatementWritten (.instr i)) {s s' : ExecutionState}
    (hs : NormalState s) (h : i.executeBranch s = .ok s') : NormalState s' := by
  unfold Instruction.executeBranch at h
  replace h := Res.bind_eq_ok.mp h
  obtain ⟨t, ht, h⟩ := h
  have hn : NormalState t := normal_execute (fun f hf => normal_written (hw f hf)) ht hs
  split_ifs at h <;> cases h
  · exact ⟨normal_setC hn.1 _, hn.2⟩
  · exact ⟨normal_setC hn.1 _, hn.2⟩
  · exact hn

/-- The state became less informative, or stayed. -/
def Up (s s' : ExecutionState) : Prop := s' = s ∨ s'.rank < s.rank

theorem Up.refl (s : ExecutionState) : Up s s := .inl rfl

theorem Up.trans {a b c : ExecutionState} (h : Up a b) (h' : Up b c) : Up a c := by
  rcases h with rfl | h
  · exact h'
  · rcases h' with rfl | h'
    · exact .inr h
    · right; omega

/-- A larger work list: the same keys with less informative states, and new keys. -/
structure Grows (w w' : OMap ExecutionState) : Prop where
  sorted : OMap.Sorted w'
  normal : ∀ k s, (k, s) ∈ w' → NormalState s
  up : ∀ k s, w.find k = some s → ∃ s', w'.find k = some s' ∧ Up s s'

theorem grows_refl {w : OMap ExecutionState} (h1 : OMap.Sorted w)
    (h2 : ∀ k s, (k, s) ∈ w → NormalState s) : Grows w w :=
  ⟨h1, h2, fun _ s h => ⟨s, h, .refl _⟩⟩

theorem grows_add {w w' : OMap ExecutionState} (h : Grows w w') (k : Nat) {s : ExecutionState}
    (hs : NormalState s) : Grows w (Module.addWork w' k s) := by
  refine ⟨OMap.sorted_upsert h.sorted k s, ?_, ?_⟩
  · intro k' s' hm
    have hf := OMap.find_of_mem (OMap.sorted_upsert h.sorted k s) hm
    rw [OMap.find_upsert h.sorted] at hf
    split at hf
    · cases hw : OMap.find w' k with
      | none => rw [hw] at hf; cases hf; exact hs
      | some t => rw [hw] at hf; cases hf; exact normal_merge (h.normal k t (OMap.mem_of_find hw))
    · exact h.normal k' s' (OMap.mem_of_find hf)
  · intro k' t ht
    obtain ⟨t', h1, h2⟩ := h.up k' t ht
    unfold Module.addWork
    rw [OMap.find_upsert h.sorted]
    split
    · next he =>
      subst he
      rw [h1]
      exact ⟨_, rfl, h2.trans (state_rank (h.normal k t' (OMap.mem_of_find h1)) hs)⟩
    · exact ⟨t', h1, h2⟩

theorem visit_grows {m : Module} {p p' : Module.Pass} (hg : GoodPass p) {k : Nat}
    {state next : ExecutionState} {line : Line} (hl : p.lines[k]? = some line)
    (hst : NormalState state) (h1 : line.statement.execute state = .ok next)
    (h2 : m.branchWork line state
      (if line.statement.isExitInstruction then p.work else Module.addWork p.work (k + 1) next)
      = .ok p'.work) : Grows p.work p'.work := by
  have hw := hg.written line (List.mem_of_getElem? hl)
  have h0 : Grows p.work
      (if line.statement.isExitInstruction then p.work else Module.addWork p.work (k + 1) next) := by
    split
    · exact grows_refl hg.sorted hg.normal
    · exact grows_add (grows_refl hg.sorted hg.normal) _ (normal_statement hw hst h1)
  rcases branchWork_cases h2 with ⟨-, h4⟩ | ⟨i, name, t, nx, a1, a2, a3, a4, a5, a6⟩
  · rw [h4]; exact h0
  · rw [a6]
    rw [a1] at hw
    exact grows_add h0 t (normal_branch hw hst a5)

theorem good_step {m : Module} {p p' : Module.Pass} (hg : GoodPass p)
    (hs : m.step p = .ok (some p')) : GoodPass p' := by
  obtain ⟨k, state, rest, line, hw, hl, h1 | ⟨-, next, h1, h2, h3⟩⟩ := step_cases hs
  · rw [h1.2.2]
    have hsort := hg.sorted
    rw [hw] at hsort
    exact ⟨(List.pairwise_cons.mp hsort).2,
      fun k' s' hm => hg.normal k' s' (by rw [hw]; exact List.mem_cons_of_mem _ hm), hg.written⟩
  · have hgr := visit_grows hg hl (hg.normal k state (by rw [hw]; simp)) h1 h2
    refine ⟨hgr.sorted, hgr.normal, ?_⟩
    rw [h3]
    intro l hm
    rcases List.mem_or_eq_of_mem_set hm with hm | hm
    · exact hg.written l hm
    · rw [hm]; exact hg.written line (List.mem_of_getElem? hl)

/-- The loop ends: from some bound on, the bound plays no role. -/
def Halts (m : Module) (p : Module.Pass) : Prop :=
  ∃ N r, Res.NoSteps r ∧ ∀ n, N ≤ n → m.explore n p = r

theorem halts_step {m : Module} {p p' : Module.Pass} (hs : m.step p = .ok (some p'))
    (h : Halts m p') : Halts m p := by
  obtain ⟨N, r, h1, h2⟩ := h
  refine ⟨N + 1, r, h1, ?_⟩
  intro n hn
  cases n with
  | zero => omega
  | succ n =>
    rw [Module.explore, hs]
    exact h2 n (by omega)

/-- Unless a round continues, the loop ends. -/
theorem halts_or_step (m : Module) (p : Module.Pass) :
    Halts m p ∨ ∃ p', m.step p = .ok (some p') := by
  cases hs : m.step p with
  | ok o =>
    cases o with
    | some p' => exact .inr ⟨p', rfl⟩
    | none =>
      left
      refine ⟨1, .ok p, trivial, ?_⟩
      intro n hn
      cases n with
      | zero => omega
      | succ n => rw [Module.explore, hs]; rfl
  | err e =>
    left
    have := step_noSteps m p
    rw [hs] at this
    refine ⟨1, .err e, by cases e <;> first | exact this | trivial, ?_⟩
    intro n hn
    cases n with
    | zero => omega
    | succ n => rw [Module.explore, hs]; rfl
  | ub u =>
    left
    refine ⟨1, .ub u, trivial, ?_⟩
    intro n hn
    cases n with
    | zero => omega
    | succ n => rw [Module.explore, hs]; rfl

/-- From `p` the loop ends, or it gets to a state where the keys below `K` are done, having
touched neither the lines from `K` on nor, except by merging, what was to be done there. -/
def Clears (m : Module) (K : Nat) (p : Module.Pass) : Prop :=
  Halts m p ∨ ∃ p', (Halts m p' → Halts m p) ∧ GoodPass p' ∧ KeysSat (K ≤ ·) p'.work ∧
    (∀ k, K ≤ k → p'.lines[k]? = p.lines[k]?) ∧
    (∀ k s, K ≤ k → OMap.find p.work k = some s → ∃ s', OMap.find p'.work k = some s' ∧ Up s s')

theorem clears_trans {m : Module} {J K : Nat} (hJK : J ≤ K) {p q : Module.Pass}
    (h : Halts m q → Halts m p) (hlines : ∀ k, J ≤ k → k ≠ J → q.lines[k]? = p.lines[k]?)
    (hJ : J = K → q.lines[K]? = p.lines[K]?)
    (hwork : ∀ k s, K ≤ k → OMap.find p.work k = some s → ∃ s', OMap.find q.work k = some s' ∧ Up s s')
    (hc : Clears m K q) : Clears m K p := by
  rcases hc with hc | ⟨p', h1, h2, h3, h4, h5⟩
  · exact .inl (h hc)
  · refine .inr ⟨p', fun x => h (h1 x), h2, h3, ?_, ?_⟩
    · intro k hk
      rw [h4 k hk]
      by_cases hkJ : k = J
      · have : J = K := by omega
        subst this
        rw [hkJ]; exact hJ rfl
      · exact hlines k (by omega) hkJ
    · intro k s hk hf
      obtain ⟨s', h6, h7⟩ := hwork k s hk hf
      obtain ⟨s'', h8, h9⟩ := h5 k s' hk h6
      exact ⟨s'', h8, h7.trans h9⟩

theorem clears_all (m : Module) : ∀ (K : Nat) (p : Module.Pass), GoodPass p → Clears m K p := by
  intro K
  induction K with
  | zero =>
    intro p hg
    exact .inr ⟨p, id, hg, fun _ _ _ => Nat.zero_le _, fun _ _ => rfl,
      fun k s _ h => ⟨s, h, .refl _⟩⟩
  | succ K ih =>
    -- the inner induction, on what is known in the state pending for line `K`
    have inner : ∀ (r : Nat) (p : Module.Pass), GoodPass p → KeysSat (K ≤ ·) p.work →
        (∀ s, OMap.find p.work K = some s → s.rank ≤ r) → Clears m (K + 1) p := by
      intro r
      induction r using Nat.strongRecOn with
      | ind r ihr =>
        intro p hg hkeys hrank
        rcases halts_or_step m p with hh | ⟨q, hq⟩
        · exact .inl hh
        by_cases hK : ∃ s, OMap.find p.work K = some s
        swap
        · -- line `K` is not pending
          refine .inr ⟨p, id, hg, ?_, fun _ _ => rfl, fun k s _ h => ⟨s, h, .refl _⟩⟩
          intro k s hm
          have h1 := hkeys k s hm
          by_contra hc
          have : k = K := by omega
          subst this
          exact hK ⟨s, OMap.find_of_mem hg.sorted hm⟩
        obtain ⟨s, hs⟩ := hK
        obtain ⟨k, state, rest, line, hw, hl, hcase⟩ := step_cases hq
        -- the pending line is `K`
        have hkK : k = K := by
          have h1 := hkeys k state (by rw [hw]; simp)
          have h2 := OMap.mem_of_find hs
          rw [hw, List.mem_cons] at h2
          rcases h2 with h2 | h2
          · cases h2; rfl
          · have h3 := hg.sorted
            rw [hw] at h3
            have := (List.pairwise_cons.mp h3).1 _ h2
            simp only at this
            omega
        subst hkK
        have hst : state = s := by
          rw [hw] at hs
          simpa [OMap.find] using hs
        subst hst
        have hgq := good_step hg hq
        rcases hcase with ⟨h1, h2, h3⟩ | ⟨-, next, h1, h2, h3⟩
        · -- nothing changed: the entry is removed
          have hsort := hg.sorted
          rw [hw] at hsort
          have hlt := (List.pairwise_cons.mp hsort).1
          refine .inr ⟨q, halts_step hq, hgq, ?_, ?_, ?_⟩
          · rw [h3]
            intro k' s' hm
            exact hlt _ hm
          · intro k' _; rw [h3]
          · intro k' s' hk' hf
            rw [h3]
            rw [hw, OMap.find, if_neg (by omega)] at hf
            exact ⟨s', hf, .refl _⟩
        · -- the line is analysed
          have hgr := visit_grows hg hl (hg.normal k state (by rw [hw]; simp)) h1 h2
          have hline : q.lines[k]? = some (Module.reach line state) := by
            rw [h3, List.getElem?_set]
            simp [(List.getElem?_eq_some_iff.mp hl).1]
          refine clears_trans (J := k) (by omega) (halts_step hq) ?_ (by omega)
            (fun k' s' _ hf => hgr.up k' s' hf) ?_
          · intro k' _ hne
            rw [h3, List.getElem?_set, if_neg (fun e => hne e.symm)]
          · -- then the lines before it
            obtain ⟨s1, hs1, hup1⟩ := hgr.up k state hs
            rcases ih q hgq with hh | ⟨p', g1, g2, g3, g4, g5⟩
            · exact .inl hh
            obtain ⟨s2, hs2, hup2⟩ := g5 k s1 (Nat.le_refl _) hs1
            have hup := hup1.trans hup2
            refine clears_trans (J := k + 1) (Nat.le_refl _) g1 (fun k' hk' _ => g4 k' (by omega))
              (fun _ => g4 (k + 1) (by omega)) (fun k' s' hk' => g5 k' s' (by omega)) ?_
            rcases hup with hup | hup
            · -- the pending state is the one just analysed
              subst hup
              rcases halts_or_step m p' with hh | ⟨q', hq'⟩
              · exact .inl hh
              obtain ⟨k2, state2, rest2, line2, hw2, hl2, hcase2⟩ := step_cases hq'
              have hk2 : k2 = k := by
                have h1 := g3 k2 state2 (by rw [hw2]; simp)
                have h2 := OMap.mem_of_find hs2
                rw [hw2, List.mem_cons] at h2
                rcases h2 with h2 | h2
                · cases h2; rfl
                · have h3 := g2.sorted
                  rw [hw2] at h3
                  have := (List.pairwise_cons.mp h3).1 _ h2
                  simp only at this
                  omega
              subst hk2
              have hst2 : state2 = s2 := by
                rw [hw2] at hs2
                simpa [OMap.find] using hs2
              subst hst2
              have hl3 : line2 = Module.reach line state2 := by
                rw [g4 k2 (Nat.le_refl _), hline] at hl2
                exact (Option.some.inj hl2).symm
              rcases hcase2 with ⟨-, -, h3'⟩ | ⟨hno, -⟩
              · have hsort := g2.sorted
                rw [hw2] at hsort
                have hlt := (List.pairwise_cons.mp hsort).1
                refine .inr ⟨q', halts_step hq', good_step g2 hq', ?_, ?_, ?_⟩
                · rw [h3']
                  intro k' s' hm
                  exact hlt _ hm
                · intro k' _; rw [h3']
                · intro k' s' hk' hf
                  rw [h3']
                  rw [hw2, OMap.find, if_neg (by omega)] at hf
                  exact ⟨s', hf, .refl _⟩
              · exact absurd (by rw [hl3]; exact ⟨rfl, rfl⟩) hno
            · -- something was lost
              have hr := hrank state hs
              exact ihr s2.rank (by omega) p' g2 g3 (fun s' hs' => by
                rw [hs2] at hs'; cases hs'; exact Nat.le_refl _)
    intro p hg
    rcases ih p hg with hh | ⟨p', g1, g2, g3, g4, g5⟩
    · exact .inl hh
    · refine clears_trans (J := K + 1) (Nat.le_refl _) g1 (fun k' hk' _ => g4 k' (by omega))
        (fun _ => g4 (K + 1) (by omega)) (fun k' s' hk' => g5 k' s' (by omega)) ?_
      cases hf : OMap.find p'.work K with
      | none => exact inner 0 p' g2 g3 (fun s hs => by rw [hf] at hs; cases hs)
      | some s => exact inner s.rank p' g2 g3 (fun s' hs' => by
          rw [hf] at hs'; cases hs'; exact Nat.le_refl _)

/-- The analysis loop ends. -/
theorem halts_all (m : Module) (p : Module.Pass) (hg : GoodPass p) : Halts m p := by
  rcases clears_all m (p.lines.length + 1) p hg with h | ⟨p', h1, h2, h3, h4, -⟩
  · exact h
  · refine h1 ?_
    rcases halts_or_step m p' with hh | ⟨q, hq⟩
    · exact hh
    · exfalso
      obtain ⟨k, state, rest, line, hw, hl, -⟩ := step_cases hq
      have hk := h3 k state (by rw [hw]; simp)
      rw [h4 k hk] at hl
      have := (List.getElem?_eq_some_iff.mp hl).1
      omega

theorem seeds_good (ls : List Line) : ∀ (i : Nat) (w : OMap ExecutionState), OMap.Sorted w →
    (∀ k s, (k, s) ∈ w → NormalState s) → (∀ l ∈ ls, StatementWritten l.statement) →
    OMap.Sorted (Module.seeds w i ls) ∧ ∀ k s, (k, s) ∈ Module.seeds w i ls → NormalState s := by
  induction ls with
  | nil => intro i w h1 h2 _; exact ⟨h1, h2⟩
  | cons l ls ih =>
    intro i w h1 h2 h3
    have ht : ∀ l ∈ ls, StatementWritten l.statement := fun q hq => h3 q (by simp [hq])
    rw [Module.seeds]
    cases hs : l.statement with
    | instr x => exact ih (i + 1) w h1 h2 ht
    | dir d =>
      simp only
      split
      · next he =>
        have hn : NormalState (.init d.flags) := by
          have := h3 l (by simp)
          rw [hs] at this
          refine ⟨normal_setIncoming (normal_written (this (by simp [he]))), ?_⟩
          intro v hv; simp at hv
        have hg := grows_add (grows_refl h1 h2) (i + 1) hn
        exact ih (i + 1) _ hg.sorted hg.normal ht
      · exact ih (i + 1) w h1 h2 ht

end Nsasm
