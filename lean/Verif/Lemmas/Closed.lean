import Verif.Lemmas.Cleanup

/-! # The listing between calls without Cleanup -/

namespace Nsasm
open Spec Props Disassembler

/-- The listing is what the source and the recorded states say, and nothing is missing. -/
structure Closed (src : Source) (d : Disassembler) : Prop where
  proper : Proper d
  table : TableWritten d
  items : ∀ a it, d.disassembly.find a = some it → ItemOk src a it
  next : ∀ a it, d.disassembly.find a = some it → it.instruction.isExitInstruction = false →
    ∃ jt, d.disassembly.find (nextAddr a it.instruction) = some jt ∧ Above jt.current it.next
  branch : ∀ a it v, d.disassembly.find a = some it → it.instruction.isLocalBranch = true →
    it.instruction.arg1.eval nullCtx = .ok v →
    ∃ jt, d.disassembly.find (Address.addWrapped (nextAddr a it.instruction) v) = some jt ∧
      Above jt.current (branchState it.instruction it.current)

theorem has_of_recorded {V : Nat → Option ExecutionState} {st : OMap ExecutionState} (h : AllNormal V st) {a : Nat}
    {c s : ExecutionState} (hs : NormalState s) (hv : V a = some c) (hc : Above c s) : Has V st a s := by
  have hcn := h.1 a c hv
  unfold Has
  rw [hv]
  cases hp : st.find a with
  | none => exact ⟨c, rfl, hc⟩
  | some p =>
    have hpn := h.2 a p hp
    exact ⟨c.merge p, rfl, (above_left hcn hpn).trans (normal_merge hcn) hcn hs hc⟩

theorem closed_normal {src : Source} {d : Disassembler} (h : Closed src d) {a : Nat} {it : DisItem}
    (hf : d.disassembly.find a = some it) : NormalState it.current ∧ NormalState it.next := by
  have hc := h.proper.states a it hf
  exact ⟨hc, normal_execute (fun f hr => h.proper.rets a it f hf hr) (h.items a it hf).next hc⟩

theorem begin_flow {src : Source} {d : Disassembler} (h : Closed src d) {start : Nat} (hs : start ≤ 0x1000000)
    {flags : StatusFlags} (hf : Normal flags) : Flow src d (begin d start flags) ∧
      Has (seen d (begin d start flags)) (begin d start flags).stack start (.init flags) := by
  have ht := begin_tidy h.proper hs hf
  obtain ⟨h1, h2, -⟩ := begin_shape d start flags
  have hlook : ∀ a, look d (begin d start flags).fresh a = d.disassembly.find a := by
    intro a; rw [h1]; rfl
  have hseen : ∀ a it, d.disassembly.find a = some it → seen d (begin d start flags) a = some it.current := by
    intro a it ha; unfold seen; rw [hlook, ha]; rfl
  refine ⟨⟨ht, h.table, ?_, ?_, ?_⟩, ?_⟩
  · intro a it ha; rw [hlook] at ha; exact h.items a it ha
  · intro a it ha hx
    rw [hlook] at ha
    obtain ⟨jt, hj, hab⟩ := h.next a it ha hx
    exact has_of_recorded ht.states (closed_normal h ha).2 (hseen _ jt hj) hab
  · intro a it v ha hb hv
    rw [hlook] at ha
    obtain ⟨jt, hj, hab⟩ := h.branch a it v ha hb hv
    exact has_of_recorded ht.states (branchState_normal (closed_normal h ha).1) (hseen _ jt hj) hab
  · have hst := ht.states
    unfold Has
    cases hv : seen d (begin d start flags) start with
    | none =>
      rw [h2]
      exact ⟨.init flags, by simp [total, OMap.find], .refl (normal_init hf)⟩
    | some c =>
      rw [h2]
      have hcn := hst.1 start c hv
      exact ⟨c.merge (.init flags), by simp [total, OMap.find], above_right hcn (normal_init hf)⟩

theorem flow_done {src : Source} {d : Disassembler} {w : Work} (hs : w.stack = []) {a : Nat}
    {s : ExecutionState} (h : Has (seen d w) w.stack a s) :
    ∃ it, look d w.fresh a = some it ∧ Above it.current s := by
  obtain ⟨t, ht, hab⟩ := h
  rw [hs] at ht
  unfold seen at ht
  cases hl : look d w.fresh a with
  | none => rw [hl] at ht; cases ht
  | some it => rw [hl] at ht; cases ht; exact ⟨it, rfl, hab⟩

theorem execute_suffix {i : Instruction} {s nx : ExecutionState} {ctx : Ctx} (x : Suffix)
    (hp : i.mnemonic ≠ .padd ∧ i.mnemonic ≠ .psub) (h : i.execute s ctx = .ok nx)
    (hc : ({ i with suffix := x } : Instruction).checkSuffix i.mnemonic s.flags = .ok ()) :
    ({ i with suffix := x } : Instruction).execute s ctx = .ok nx := by
  unfold Instruction.execute at h ⊢
  obtain ⟨⟨⟩, hk, h⟩ := Res.bind_eq_ok.1 h
  have hk' : ({ i with suffix := x } : Instruction).checkConsistency s.flags = .ok () := by
    unfold Instruction.checkConsistency at hk ⊢
    simp only [hp, or_self, if_false] at hk ⊢
    split at hk
    · cases hk
    · rename_i hl
      rw [if_neg hl]
      obtain ⟨⟨⟩, -, hk⟩ := Res.bind_eq_ok.1 hk
      rw [hc, Res.bind_ok]
      exact hk
  rw [hk', Res.bind_ok]
  exact h

theorem decode_real {bytes : List UInt8} {f : StatusFlags} {i : Instruction} (h : decode bytes f = .ok i) :
    i.mnemonic ≠ .padd ∧ i.mnemonic ≠ .psub := by
  rw [decode_ok_iff] at h
  obtain ⟨op, l, a, a1, a2, -, -, -, -, -, rfl⟩ := h
  exact (decode_flag_entries op).2.2.2

theorem addSuffix_ok {src : Source} {a : Nat} {it : DisItem} (h : ItemOk src a it) (l : Str) :
    ItemOk src a { addSuffix it with label := l } := by
  obtain ⟨h1, h2, h3, h4, s, h5⟩ := addSuffix_rest it
  obtain ⟨bytes, i0, hb, hd, hsh⟩ := h.bytes
  have hreal := decode_real hd
  refine ⟨⟨bytes, i0, hb, by simp only [h3]; exact hd, ?_⟩, ?_, ?_⟩
  · simp only [h5]
    exact ⟨hsh.mnemonic, hsh.mode, hsh.arg2, hsh.branch, hsh.plain⟩
  · intro f hf
    simp only [h5] at hf
    exact h.ret f hf
  · simp only [h3, h4]
    have hm : it.instruction.mnemonic ≠ .padd ∧ it.instruction.mnemonic ≠ .psub := by rw [hsh.mnemonic]; exact hreal
    unfold addSuffix
    simp only
    split
    · rename_i hbit
      refine execute_suffix .b hm h.next ?_
      unfold Instruction.checkSuffix
      simp only [reduceCtorEq, if_false]
      split at hbit
      · rename_i hfl; rw [hfl]; simp [hbit]
      · rename_i hfl; rw [hfl]; simp [hbit]
      · cases hbit
    · rename_i hbit
      refine execute_suffix .w hm h.next ?_
      unfold Instruction.checkSuffix
      simp only [reduceCtorEq, if_false]
      split at hbit
      · rename_i hfl; rw [hfl]; simp [hbit]
      · rename_i hfl; rw [hfl]; simp [hbit]
      · cases hbit
    · exact h.next

theorem finish_closed {src : Source} {d : Disassembler} (hp : Proper d) {w : Work} (hf : Flow src d w)
    (hn : Named d w) (hs : w.stack = []) (entries : OMap Unit) :
    Closed src { d with entryPoints := entries, disassembly := finish d w, sym := w.sym } ∧
    ∀ a s, Has (seen d w) w.stack a s → ∃ jt, (finish d w).find a = some jt ∧ Above jt.current s := by
  obtain ⟨f1, f2⟩ := finish_look hp.sorted hf.tidy hn hs
  have hcur : ∀ a jt, (finish d w).find a = some jt → ∃ it, look d w.fresh a = some it ∧
      jt.current = it.current ∧ jt.next = it.next ∧ (∃ s, jt.instruction = { it.instruction with suffix := s }) ∧
      ItemOk src a jt := by
    intro a jt ha
    obtain ⟨it, h1, ⟨s, l, h2, h3⟩, -⟩ := f1 a jt ha
    have hi := hf.items a it h1
    by_cases hfr : (w.fresh.find a).isSome
    · rw [if_pos hfr] at h2
      refine ⟨it, h1, ?_, ?_, ⟨s, h3⟩, ?_⟩
      · rw [h2]; exact (addSuffix_rest it).2.2.1
      · rw [h2]; exact (addSuffix_rest it).2.2.2.1
      · rw [h2]; exact addSuffix_ok hi l
    · rw [if_neg hfr] at h2
      refine ⟨it, h1, by rw [h2], by rw [h2], ⟨s, h3⟩, ?_⟩
      rw [h2]
      exact ⟨hi.bytes, hi.ret, hi.next⟩
  have hhas : ∀ a s, Has (seen d w) w.stack a s → ∃ jt, (finish d w).find a = some jt ∧ Above jt.current s := by
    intro a s h
    obtain ⟨it, h1, h2⟩ := flow_done (src := src) hs h
    obtain ⟨jt, hj⟩ := f2 a it h1
    obtain ⟨it', h1', h3, -⟩ := hcur a jt hj
    rw [h1] at h1'
    cases h1'
    exact ⟨jt, hj, by rw [h3]; exact h2⟩
  refine ⟨⟨finish_proper hp hf.tidy hn hs entries, hf.table, ?_, ?_, ?_⟩, hhas⟩
  · intro a jt ha
    obtain ⟨it, -, -, -, -, h⟩ := hcur a jt ha
    exact h
  · intro a jt ha hx
    obtain ⟨it, h1, h2, h3, ⟨s, h4⟩, -⟩ := hcur a jt ha
    rw [h3]
    have hx' : it.instruction.isExitInstruction = false := by rw [h4] at hx; exact hx
    rw [show nextAddr a jt.instruction = nextAddr a it.instruction by rw [h4]; rfl]
    exact hhas _ _ (hf.next a it h1 hx')
  · intro a jt v ha hb hv
    obtain ⟨it, h1, h2, h3, ⟨s, h4⟩, -⟩ := hcur a jt ha
    have hb' : it.instruction.isLocalBranch = true := by rw [h4] at hb; exact hb
    have hv' : it.instruction.arg1.eval nullCtx = .ok v := by rw [h4] at hv; exact hv
    rw [show nextAddr a jt.instruction = nextAddr a it.instruction by rw [h4]; rfl, h2,
      show branchState jt.instruction it.current = branchState it.instruction it.current by
        rw [h4]; rfl]
    exact hhas _ _ (hf.branch a it v h1 hb' hv')

/-- What the loop gives from the beginning of a call. -/
theorem loop_flow {src : Source} {d : Disassembler} (h : Closed src d) {fuel start : Nat} (hs : start ≤ 0x1000000)
    {flags : StatusFlags} (hf : Normal flags) {w : Work} {r : Res Unit}
    (hr : run src d fuel (begin d start flags) = (w, r)) :
    Flow src d w ∧ Named d w ∧ Has (seen d w) w.stack start (.init flags) ∧ (r = .ok () → w.stack = []) := by
  obtain ⟨h1, h2⟩ := begin_flow h hs hf
  have hn := begin_named h.proper start flags
  obtain ⟨⟨i1, i2, i3⟩, i4⟩ := run_invariant (src := src) (d := d)
    (I := fun w => Flow src d w ∧ Named d w ∧ Has (seen d w) w.stack start (.init flags))
    (fun w w' hw h => ⟨flow_step hw.1 h, named_step hw.1.tidy hw.2.1 h,
      (tidy_step hw.1.tidy h).2 _ _ (normal_init hf) hw.2.2⟩) fuel (begin d start flags) w r ⟨h1, hn, h2⟩ hr
  exact ⟨i1, i2, i3, i4⟩

theorem disassemble_closed {src : Source} {d d' : Disassembler} (h : Closed src d) {fuel start : Nat}
    (hs : start ≤ 0x1000000) {flags : StatusFlags} (hf : Normal flags) {r : Res (OMap StatusFlags)}
    (hr : d.disassemble fuel src start flags = (d', r)) : Closed src d' ∧
      (r.isOk → ∃ jt, d'.disassembly.find start = some jt ∧ Above jt.current (.init flags)) := by
  have hpr := disassemble_proper h.proper hs hf hr
  unfold disassemble at hr
  simp only at hr
  split at hr
  · rename_i w hrun
    cases hr
    obtain ⟨l1, l2, l3, l4⟩ := loop_flow h hs hf hrun
    obtain ⟨c1, c2⟩ := finish_closed h.proper l1 l2 (l4 rfl) (d.entryPoints.set start ())
    exact ⟨c1, fun _ => c2 _ _ l3⟩
  · rename_i w e hrun
    cases hr
    exact ⟨⟨hpr, h.table, h.items, h.next, h.branch⟩, fun h => by cases h⟩
  · rename_i w e hrun
    cases hr
    exact ⟨⟨hpr, h.table, h.items, h.next, h.branch⟩, fun h => by cases h⟩

theorem session_closed {src : Source} {d : Disassembler} (h : Session FlagsWritten src d) : Closed src d := by
  have hp := history_proper (fun f hf => normal_written hf) (session_history h)
  induction h with
  | new =>
    refine ⟨hp, ?_, ?_, ?_, ?_⟩ <;> simp [TableWritten, Disassembler.empty, OMap.find]
  | table before sorted ok ih =>
    have := ih (history_proper (fun f hf => normal_written hf) (session_history before))
    exact ⟨hp, fun a f hf => ok a f (OMap.mem_of_find hf), this.items, this.next, this.branch⟩
  | call before address ok result ended ih =>
    have := ih (history_proper (fun f hf => normal_written hf) (session_history before))
    exact (disassemble_closed this address (constructible_normal ok) result).1

/-- Entries stay, and what they record only becomes less specific. -/
theorem disassemble_keeps {src : Source} {d d' : Disassembler} (h : Closed src d) {fuel start : Nat}
    (hs : start ≤ 0x1000000) {flags : StatusFlags} (hf : Normal flags) {r : Res (OMap StatusFlags)}
    (hr : d.disassemble fuel src start flags = (d', r)) {a : Nat} {it : DisItem}
    (ha : d.disassembly.find a = some it) :
    ∃ jt, d'.disassembly.find a = some jt ∧ Above jt.current it.current := by
  have hc := (closed_normal h ha).1
  unfold disassemble at hr
  simp only at hr
  split at hr
  · rename_i w hrun
    cases hr
    obtain ⟨l1, l2, l3, l4⟩ := loop_flow h hs hf hrun
    obtain ⟨-, c2⟩ := finish_closed h.proper l1 l2 (l4 rfl) (d.entryPoints.set start ())
    refine c2 a it.current ?_
    have hb := begin_flow h hs hf
    obtain ⟨h1, h2, -⟩ := begin_shape d start flags
    have h0 : Has (seen d (begin d start flags)) (begin d start flags).stack a it.current := by
      refine has_of_recorded hb.1.tidy.states hc (c := it.current) ?_ (Above.refl hc)
      unfold look
      rw [h1]
      simp [OMap.find, ha]
    obtain ⟨⟨-, i3⟩, -⟩ := run_invariant (src := src) (d := d)
      (I := fun w => Flow src d w ∧ Has (seen d w) w.stack a it.current)
      (fun w w' hw h => ⟨flow_step hw.1 h, (tidy_step hw.1.tidy h).2 _ _ hc hw.2⟩) fuel
      (begin d start flags) w _ ⟨hb.1, h0⟩ hrun
    exact i3
  · cases hr; exact ⟨it, ha, Above.refl hc⟩
  · cases hr; exact ⟨it, ha, Above.refl hc⟩

end Nsasm
