import Verif.Lemmas.Disassemble

/-! # What the disassembler's loop keeps true -/

namespace Nsasm
open Spec Props Disassembler

/-! ## The order given by merging -/

/-- Merging `s` into `t` changes nothing. -/
def Above (t s : ExecutionState) : Prop := t.merge s = t

theorem Above.refl {s : ExecutionState} (h : NormalState s) : Above s s := C15_state_idem h

theorem above_left {t s : ExecutionState} (ht : NormalState t) (hs : NormalState s) :
    Above (t.merge s) t := by
  unfold Above
  rw [C15_state_assoc ht hs ht, C15_state_comm s t, ← C15_state_assoc ht ht hs, C15_state_idem ht]

theorem above_right {t s : ExecutionState} (ht : NormalState t) (hs : NormalState s) :
    Above (t.merge s) s := by
  unfold Above
  rw [C15_state_assoc ht hs hs, C15_state_idem hs]

theorem Above.trans {a b c : ExecutionState} (ha : NormalState a) (hb : NormalState b)
    (hc : NormalState c) (h : Above a b) (h' : Above b c) : Above a c := by
  unfold Above at *
  rw [← h, C15_state_assoc ha hb hc, h']

theorem above_join {t a b : ExecutionState} (ht : NormalState t) (ha : NormalState a)
    (hb : NormalState b) (h : Above t a) (h' : Above t b) : Above t (a.merge b) := by
  unfold Above at *
  rw [← C15_state_assoc ht ha hb, h, h']

theorem Above.subsumes {t s : ExecutionState} (hs : NormalState s) (h : Above t s) : Subsumes t s := by
  have := covers_merge_right hs t
  rw [h] at this
  exact this

/-! ## Recorded and pending states -/

/-- The join of the state recorded for an address and the state pending for it. -/
def total : Option ExecutionState → Option ExecutionState → Option ExecutionState
  | some c, some p => some (c.merge p)
  | some c, none => some c
  | none, o => o

/-- What is recorded at `a`, joined with what is pending, is above `s`. -/
def Has (V : Nat → Option ExecutionState) (st : OMap ExecutionState) (a : Nat) (s : ExecutionState) : Prop :=
  ∃ t, total (V a) (st.find a) = some t ∧ Above t s

/-- All recorded and pending states are normal. -/
def AllNormal (V : Nat → Option ExecutionState) (st : OMap ExecutionState) : Prop :=
  (∀ a s, V a = some s → NormalState s) ∧ (∀ a s, st.find a = some s → NormalState s)

theorem total_normal {V : Nat → Option ExecutionState} {st : OMap ExecutionState} (h : AllNormal V st)
    {a : Nat} {t : ExecutionState} (ht : total (V a) (st.find a) = some t) : NormalState t := by
  cases hc : V a with
  | none => rw [hc] at ht; exact h.2 a t ht
  | some c =>
    cases hp : st.find a with
    | none => rw [hc, hp] at ht; cases ht; exact h.1 a _ hc
    | some p => rw [hc, hp] at ht; cases ht; exact normal_merge (h.1 a c hc)

theorem push_normal {V : Nat → Option ExecutionState} {st : OMap ExecutionState} (hs : OMap.Sorted st)
    (h : AllNormal V st) (b : Nat) {s : ExecutionState} (hn : NormalState s) :
    AllNormal V (st.upsert (fun old => old.merge s) b s) := by
  refine ⟨h.1, fun a t ht => ?_⟩
  rw [OMap.find_upsert hs] at ht
  by_cases hab : b = a
  · subst hab
    rw [if_pos rfl] at ht
    cases hp : st.find b with
    | none => rw [hp] at ht; cases ht; exact hn
    | some p => rw [hp] at ht; cases ht; exact normal_merge (h.2 b p hp)
  · rw [if_neg hab] at ht
    exact h.2 a t ht

theorem has_push_old {V : Nat → Option ExecutionState} {st : OMap ExecutionState} (hs : OMap.Sorted st)
    (h : AllNormal V st) (b : Nat) {s' : ExecutionState} (hn : NormalState s') {a : Nat} {s : ExecutionState}
    (hns : NormalState s) (hh : Has V st a s) : Has V (st.upsert (fun old => old.merge s') b s') a s := by
  obtain ⟨t, ht, hts⟩ := hh
  have htn := total_normal h ht
  by_cases hab : b = a
  · subst hab
    refine ⟨t.merge s', ?_, (above_left htn hn).trans (normal_merge htn) htn hns hts⟩
    rw [OMap.find_upsert hs, if_pos rfl]
    cases hc : V b with
    | none =>
      cases hp : st.find b with
      | none => rw [hc, hp] at ht; cases ht
      | some p => rw [hc, hp] at ht; cases ht; rfl
    | some c =>
      cases hp : st.find b with
      | none => rw [hc, hp] at ht; cases ht; rfl
      | some p =>
        rw [hc, hp] at ht
        cases ht
        simp only [total]
        rw [C15_state_assoc (h.1 b c hc) (h.2 b p hp) hn]
  · refine ⟨t, ?_, hts⟩
    rw [OMap.find_upsert hs, if_neg hab]
    exact ht

theorem has_push_new {V : Nat → Option ExecutionState} {st : OMap ExecutionState} (hs : OMap.Sorted st)
    (h : AllNormal V st) (b : Nat) {s : ExecutionState} (hn : NormalState s) :
    Has V (st.upsert (fun old => old.merge s) b s) b s := by
  unfold Has
  rw [OMap.find_upsert hs, if_pos rfl]
  cases hc : V b with
  | none =>
    cases hp : st.find b with
    | none => exact ⟨s, rfl, .refl hn⟩
    | some p => exact ⟨_, rfl, above_right (h.2 b p hp) hn⟩
  | some c =>
    have hcn := h.1 b c hc
    cases hp : st.find b with
    | none => exact ⟨_, rfl, above_right hcn hn⟩
    | some p =>
      have hpn := h.2 b p hp
      refine ⟨_, rfl, ?_⟩
      simp only
      rw [← C15_state_assoc hcn hpn hn]
      exact above_right (normal_merge hcn) hn

theorem pushAll_props {V : Nat → Option ExecutionState} : ∀ (outs : List (Nat × ExecutionState))
    {st : OMap ExecutionState}, OMap.Sorted st → AllNormal V st → (∀ o ∈ outs, NormalState o.2) →
    OMap.Sorted (pushAll st outs) ∧ AllNormal V (pushAll st outs) ∧
    (∀ a s, NormalState s → Has V st a s → Has V (pushAll st outs) a s) ∧
    (∀ o ∈ outs, Has V (pushAll st outs) o.1 o.2) := by
  intro outs
  induction outs with
  | nil => intro st h1 h2 _; exact ⟨h1, h2, fun _ _ _ h => h, by simp⟩
  | cons o os ih =>
    intro st h1 h2 hn
    have ho := hn o (by simp)
    obtain ⟨i1, i2, i3, i4⟩ := ih (OMap.sorted_upsert (f := fun old => ExecutionState.merge old o.2) h1 o.1 o.2)
      (push_normal h1 h2 o.1 ho) (fun o' ho' => hn o' (by simp [ho']))
    refine ⟨i1, i2, fun a s hs hh => i3 a s hs (has_push_old h1 h2 _ ho hs hh), ?_⟩
    intro o' ho'
    rw [List.mem_cons] at ho'
    rcases ho' with rfl | ho'
    · exact i3 _ _ ho (has_push_new h1 h2 _ ho)
    · exact i4 o' ho'

/-- Taking the first pending address and recording its state keeps what an address has. -/
theorem has_pop {V V' : Nat → Option ExecutionState} {st : OMap ExecutionState} {pc : Nat}
    {s : ExecutionState} (hs : OMap.Sorted ((pc, s) :: st)) 
    (hpc : V' pc = some (match V pc with | some c => s.merge c | none => s))
    (hother : ∀ a, a ≠ pc → V' a = V a) {a : Nat} {x : ExecutionState}
    (hh : Has V ((pc, s) :: st) a x) : Has V' st a x := by
  obtain ⟨t, ht, hx⟩ := hh
  refine ⟨t, ?_, hx⟩
  unfold OMap.Sorted at hs
  rw [List.pairwise_cons] at hs
  by_cases ha : a = pc
  · subst ha
    rw [OMap.find, if_pos rfl] at ht
    have : OMap.find st a = none := OMap.find_none_of_lt fun y hy => hs.1 y hy
    rw [this, hpc]
    cases hc : V a with
    | none => rw [hc] at ht; exact ht
    | some c =>
      rw [hc] at ht
      simp only [total] at ht ⊢
      rw [C15_state_comm]; exact ht
  · rw [OMap.find, if_neg (fun h => ha h.symm)] at ht
    rw [hother a ha]
    exact ht

theorem pop_normal {V V' : Nat → Option ExecutionState} {st : OMap ExecutionState} {pc : Nat}
    {s : ExecutionState} (hs : OMap.Sorted ((pc, s) :: st)) (hn : AllNormal V ((pc, s) :: st))
    (hpc : V' pc = some (match V pc with | some c => s.merge c | none => s))
    (hother : ∀ a, a ≠ pc → V' a = V a) : NormalState s ∧ AllNormal V' st := by
  have hsn : NormalState s := hn.2 pc s (by simp [OMap.find])
  refine ⟨hsn, fun a t ht => ?_, fun a t ht => ?_⟩
  · by_cases ha : a = pc
    · subst ha
      rw [hpc] at ht
      cases hc : V a with
      | none => rw [hc] at ht; cases ht; exact hsn
      | some c => rw [hc] at ht; cases ht; exact normal_merge hsn
    · rw [hother a ha] at ht; exact hn.1 a t ht
  · refine hn.2 a t ?_
    unfold OMap.Sorted at hs
    rw [List.pairwise_cons] at hs
    have := hs.1 _ (OMap.mem_of_find ht)
    simp only at this
    rw [OMap.find, if_neg (by omega)]
    exact ht

/-! ## Facts about single instructions -/

/-- The state after a taken branch. -/
def branchState (i : Instruction) (s : ExecutionState) : ExecutionState :=
  if i.mnemonic = .bcc then { s with flags := s.flags.setC .off }
  else if i.mnemonic = .bcs then { s with flags := s.flags.setC .on }
  else s

theorem branch_execute {i : Instruction} {s nx : ExecutionState} {ctx : Ctx} (hb : i.isLocalBranch = true)
    (h : i.execute s ctx = .ok nx) : nx = (if i.mnemonic = .bcc then { s with flags := s.flags.setC .on }
      else if i.mnemonic = .bcs then { s with flags := s.flags.setC .off } else s) := by
  have hm := branch_accepted hb h
  unfold Instruction.execute at h
  obtain ⟨-, -, h⟩ := Res.bind_eq_ok.1 h
  simp only [List.mem_cons, List.not_mem_nil, or_false] at hm
  rcases hm with hm | hm | hm | hm | hm | hm | hm | hm | hm | hm <;> rw [hm] at h ⊢ <;>
    simp at h <;> simp [h.symm]

theorem branch_taken {i : Instruction} {s nx : ExecutionState} (hb : i.isLocalBranch = true)
    (h : i.execute s nullCtx = .ok nx) : i.executeBranch s = .ok (branchState i s) := by
  have hx := branch_execute hb h
  unfold Instruction.executeBranch
  rw [h, Res.bind_ok, hx]
  unfold branchState
  by_cases h1 : i.mnemonic = .bcc
  · simp [h1, StatusFlags.setC]
  · by_cases h2 : i.mnemonic = .bcs
    · simp [h2, StatusFlags.setC]
    · simp [h1, h2]

theorem branchState_merge (i : Instruction) (s t : ExecutionState) :
    branchState i (s.merge t) = (branchState i s).merge (branchState i t) := by
  unfold branchState
  split
  · simp [ExecutionState.merge, StatusFlags.merge, StatusFlags.setC, StatusFlags.make, bit_merge_self]
  · split
    · simp [ExecutionState.merge, StatusFlags.merge, StatusFlags.setC, StatusFlags.make, bit_merge_self]
    · rfl

theorem branchState_normal {i : Instruction} {s : ExecutionState} (h : NormalState s) :
    NormalState (branchState i s) := by
  unfold branchState
  split
  · exact ⟨h.1, h.2⟩
  · split
    · exact ⟨h.1, h.2⟩
    · exact h

/-- A local branch does not look at its operand. -/
theorem execute_relabel {i : Instruction} {s nx : ExecutionState} {ctx : Ctx} (e : Expr)
    (hb : i.isLocalBranch = true) (h : i.execute s ctx = .ok nx) :
    ({ i with arg1 := e } : Instruction).execute s ctx = .ok nx := by
  have hm := branch_accepted hb h
  unfold Instruction.execute at h ⊢
  obtain ⟨⟨⟩, hc, h⟩ := Res.bind_eq_ok.1 h
  have hc' : ({ i with arg1 := e } : Instruction).checkConsistency s.flags = .ok () := hc
  rw [hc', Res.bind_ok]
  simp only [List.mem_cons, List.not_mem_nil, or_false] at hm
  rcases hm with hm | hm | hm | hm | hm | hm | hm | hm | hm | hm <;> simp only [hm] at h ⊢ <;>
    simp at h ⊢ <;> exact h

/-- Which instructions have a far target. -/
theorem far_mnemonic {i : Instruction} {pc t : Nat} (h : i.farBranchTarget pc = .ok (some t)) :
    i.mnemonic = .jmp ∨ i.mnemonic = .jsl ∨ i.mnemonic = .jsr := by
  unfold Instruction.farBranchTarget at h
  split at h
  · rename_i hh; rcases hh.2 with h' | h' <;> simp [h']
  · split at h
    · rename_i hh; rcases hh.2 with h' | h' <;> simp [h']
    · cases h

theorem execute_jump {i : Instruction} {s nx : ExecutionState} {ctx : Ctx}
    (hm : i.mnemonic = .jmp ∨ i.mnemonic = .jsl ∨ i.mnemonic = .jsr) (h : i.execute s ctx = .ok nx) :
    nx = { s with flags := ((i.ret.yieldFlags).getD s.flags).setC .unknown } := by
  unfold Instruction.execute at h
  obtain ⟨-, -, h⟩ := Res.bind_eq_ok.1 h
  rcases hm with hm | hm | hm <;> rw [hm] at h <;> simp at h <;> exact h.symm

theorem execute_jump_ret {i : Instruction} {s nx : ExecutionState} {ctx : Ctx}
    (hm : i.mnemonic = .jmp ∨ i.mnemonic = .jsl ∨ i.mnemonic = .jsr) (h : i.execute s ctx = .ok nx)
    (r : ReturnConvention) : ({ i with ret := r } : Instruction).execute s ctx =
      .ok { s with flags := ((r.yieldFlags).getD s.flags).setC .unknown } := by
  unfold Instruction.execute at h ⊢
  obtain ⟨⟨⟩, hc, -⟩ := Res.bind_eq_ok.1 h
  have hc' : ({ i with ret := r } : Instruction).checkConsistency s.flags = .ok () := hc
  rw [hc', Res.bind_ok]
  rcases hm with hm | hm | hm <;> simp only [hm] <;> simp

theorem written_carry {f : StatusFlags} (h : FlagsWritten f) : f.c = .unknown := by
  obtain ⟨s, h⟩ := h
  have := (C17_accepted_iff s f).1 h
  simp only [documented, List.mem_cons, Prod.mk.injEq, List.not_mem_nil, or_false] at this
  rcases this with ⟨-, rfl⟩ | ⟨-, rfl⟩ | ⟨-, rfl⟩ | ⟨-, rfl⟩ | ⟨-, rfl⟩ | ⟨-, rfl⟩ | ⟨-, rfl⟩ |
    ⟨-, rfl⟩ | ⟨-, rfl⟩ | ⟨-, rfl⟩ | ⟨-, rfl⟩ <;> rfl

/-- Applying a convention after the call is executing the call with the convention. -/
theorem convention_applied {i : Instruction} {s nx : ExecutionState} {ctx : Ctx}
    (hm : i.mnemonic = .jmp ∨ i.mnemonic = .jsl ∨ i.mnemonic = .jsr) (hd : i.ret = .default)
    (h : i.execute s ctx = .ok nx) {r : ReturnConvention} (hw : ∀ f, r = .yields f → FlagsWritten f) :
    ({ i with ret := r } : Instruction).execute s ctx = .ok (r.applyTo nx) := by
  rw [execute_jump_ret hm h r, execute_jump hm h, hd]
  cases r with
  | default => rfl
  | noreturn => rfl
  | yields f =>
    have := written_carry (hw f rfl)
    simp only [ReturnConvention.yieldFlags, Option.getD_some, ReturnConvention.applyTo, StatusFlags.setC,
      Res.ok.injEq, ExecutionState.mk.injEq, true_and, and_true]
    rw [← this]

theorem decode_ret {bytes : List UInt8} {f : StatusFlags} {i : Instruction} (h : decode bytes f = .ok i) :
    i.ret = .default ∧ i.suffix = .none := by
  rw [decode_ok_iff] at h
  obtain ⟨op, l, a, a1, a2, -, -, -, -, -, rfl⟩ := h
  exact ⟨rfl, rfl⟩

theorem merged_on (m m' e e' : BitState) (h : constrainedForEBit m' e' = m')
    (hm : constrainedForEBit (m.merge m') (e.merge e') = .on) : m' = .on := by
  revert h hm; cases m <;> cases m' <;> cases e <;> cases e' <;> decide

theorem merged_off (m m' e e' : BitState) (h : constrainedForEBit m' e' = m')
    (hm : constrainedForEBit (m.merge m') (e.merge e') = .off) : m' = .off := by
  revert h hm; cases m <;> cases m' <;> cases e <;> cases e' <;> decide

/-- If bytes decode under a merged state they decode the same under each of the states merged. -/
theorem decode_merged {bytes : List UInt8} {s c : StatusFlags} (hc : Normal c) {i : Instruction}
    (h : decode bytes (s.merge c) = .ok i) : decode bytes c = .ok i := by
  rw [decode_ok_iff] at h ⊢
  obtain ⟨op, l, a, a1, a2, h1, h2, h3, h4, h5, h6⟩ := h
  refine ⟨op, l, a, a1, a2, h1, h2, h3, ?_, h5, h6⟩
  rcases h4 with h4 | ⟨h4, ⟨h7, h8⟩ | ⟨h7, h8⟩⟩ | ⟨h4, ⟨h7, h8⟩ | ⟨h7, h8⟩⟩
  · exact .inl h4
  · exact .inr (.inl ⟨h4, .inl ⟨h7, merged_on _ _ _ _ hc.1 h8⟩⟩)
  · exact .inr (.inl ⟨h4, .inr ⟨h7, merged_off _ _ _ _ hc.1 h8⟩⟩)
  · exact .inr (.inr ⟨h4, .inl ⟨h7, merged_on _ _ _ _ hc.2 h8⟩⟩)
  · exact .inr (.inr ⟨h4, .inr ⟨h7, merged_off _ _ _ _ hc.2 h8⟩⟩)
