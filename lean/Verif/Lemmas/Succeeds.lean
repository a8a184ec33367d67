import Verif.Lemmas.Confluent
import Verif.Lemmas.Chart

/-! # Calls that succeed in one order succeed in the other -/

namespace Nsasm.Confluent
open Nsasm Spec Props Disassembler

theorem execute_noErr {i : Instruction} {s : ExecutionState} {ctx : Ctx} (hc : i.checkConsistency s.flags = .ok ()) :
    ∀ e, i.execute s ctx ≠ .err e := by
  have ite : ∀ {c : Prop} [Decidable c] {a b : Res ExecutionState}, (∀ e, a ≠ .err e) → (∀ e, b ≠ .err e) →
      ∀ e, (if c then a else b) ≠ .err e := by
    intro c _ a b ha hb e
    split
    · exact ha e
    · exact hb e
  have ok : ∀ {a : ExecutionState} (e : Err), (Res.ok a) ≠ .err e := fun e h => by cases h
  unfold Instruction.execute
  rw [hc, Res.bind_ok]
  dsimp only
  refine ite ok (ite ok (ite (noErr_bind (maybeArg_noErr _ _) fun _ e h => by cases h) (ite ok (ite ok (ite ok
    (ite (incDec_keeping i s).2 (ite (load_keeping i s ctx).2 (ite (move_keeping i s ctx).2
    (ite (noErr_bind (maybeArg_noErr _ _) fun _ e h => by cases h) (ite ok (ite ok (ite ok (ite ok
    (ite (noErr_bind (pullReg_noErr _ _ _) fun _ e h => by cases h)
    (ite (noErr_bind (pullReg_noErr _ _ _) fun _ e h => by cases h)
    (ite (noErr_bind (pullReg_noErr _ _ _) fun _ e h => by cases h)
    (ite ok (ite ok (ite ok (ite ok ok))))))))))))))))))))

theorem execute_ok {Q : Prop} (hQ : Q) {bytes : List UInt8} {f : StatusFlags} {i0 i : Instruction} {s : ExecutionState}
    (hd : decode bytes f = .ok i0) (hl : Like i0 i) (hs : Fine Q s) (hc : i.checkConsistency s.flags = .ok ()) :
    ∃ nx, i.execute s nullCtx = .ok nx := by
  have hu : (i.execute s nullCtx).noUb := by
    rcases like_execute hd hl hs with h | ⟨h, -⟩
    · exact h
    · exact absurd hQ h
  cases h : i.execute s nullCtx with
  | ok nx => exact ⟨nx, rfl⟩
  | err e => exact absurd h (execute_noErr hc e)
  | ub u => rw [h] at hu; cases hu

/-- A suffix that agrees with the flags agrees with less. -/
theorem suffix_above {i : Instruction} {m : Mnemonic} {f g : StatusFlags} (h : FlagsAbove f g)
    (hg : i.checkSuffix m g = .ok ()) : i.checkSuffix m f = .ok () := by
  unfold Instruction.checkSuffix at hg ⊢
  by_cases hn : i.suffix = .none
  · rw [if_pos hn]
  · rw [if_neg hn] at hg ⊢
    have key : ∀ b c : BitState, BitAbove b c →
        (if c = .on ∧ i.suffix = .w then (.err .suffixContradiction : Res Unit)
          else if c = .off ∧ i.suffix = .b then .err .suffixContradiction else .ok ()) = .ok () →
        (if b = .on ∧ i.suffix = .w then (.err .suffixContradiction : Res Unit)
          else if b = .off ∧ i.suffix = .b then .err .suffixContradiction else .ok ()) = .ok () := by
      rintro b c (rfl | rfl) hx
      · exact hx
      · simp
    cases hk : flagControllingInstructionSize m with
    | notVariable => rw [hk] at hg; simp at hg
    | usesM => rw [hk] at hg; simp at hg ⊢; exact key _ _ h.m (by simpa using hg)
    | usesX => rw [hk] at hg; simp at hg ⊢; exact key _ _ h.x (by simpa using hg)

theorem item_consistent {src : Source} {a : Nat} {it : DisItem} (hi : ItemOk src a it) {f : StatusFlags}
    (h : FlagsAbove f it.current.flags) {bytes : List UInt8} (hb : src a 4 = .ok bytes) {j : Instruction}
    (hd : decode bytes f = .ok j) : it.instruction.checkConsistency f = .ok () := by
  obtain ⟨bytes', i0, hb', hd', hs⟩ := hi.bytes
  rw [hb] at hb'
  cases hb'
  have := decode_above h hd
  rw [hd'] at this
  cases this
  have h1 := checkConsistency_of_execute' hi.next
  have h2 := decoded_consistent hd
  unfold Instruction.checkConsistency at h1 h2 ⊢
  simp only [hs.mnemonic, hs.mode] at h1 ⊢
  simp only at h2
  generalize (if j.mnemonic = .padd ∨ j.mnemonic = .psub then Mnemonic.adc else j.mnemonic) = eff at h1 h2 ⊢
  by_cases hlegal : (!isLegalCombination eff j.mode) = true
  · rw [if_pos hlegal] at h1; cases h1
  · rw [if_neg hlegal] at h1 h2 ⊢
    obtain ⟨⟨⟩, c1, -⟩ := Res.bind_eq_ok.1 h1
    obtain ⟨⟨⟩, -, c2⟩ := Res.bind_eq_ok.1 h2
    rw [suffix_above h c1, Res.bind_ok]
    rw [← c2]
    unfold Instruction.checkImmediate
    rw [hs.mnemonic, hs.mode]

theorem merged_above : ∀ m m' e e' : BitState, constrainedForEBit m e = m → constrainedForEBit m' e' = m' →
    BitAbove (constrainedForEBit (m.merge m') (e.merge e')) m' := by
  intro m m' e e'
  cases m <;> cases m' <;> cases e <;> cases e' <;> decide

theorem flagsMerge_above {f g : StatusFlags} (hf : Normal f) (hg : Normal g) : FlagsAbove (f.merge g) g := by
  have hb : ∀ b c : BitState, BitAbove (b.merge c) c := by
    intro b c; cases b <;> cases c <;> decide
  exact ⟨hb _ _, merged_above _ _ _ _ hf.1 hg.1, merged_above _ _ _ _ hf.2 hg.2, hb _ _⟩

/-- A branch is accepted whatever the flags are. -/
theorem branch_consistent {i : Instruction} (hb : i.isLocalBranch = true) {s s' : ExecutionState} {ctx : Ctx}
    (hx : i.execute s ctx = .ok s') (f : StatusFlags) : i.checkConsistency f = .ok () := by
  have hm := branch_accepted hb hx
  have hc := checkConsistency_of_execute' hx
  have hnv : flagControllingInstructionSize i.mnemonic = .notVariable ∧ i.mnemonic ≠ .padd ∧ i.mnemonic ≠ .psub := by
    generalize i.mnemonic = m at hm
    revert m; decide
  have hmode : i.mode ≠ .imm_fm ∧ i.mode ≠ .imm_fx ∧ i.mode ≠ .imm_b ∧ i.mode ≠ .imm_w := by
    unfold Instruction.isLocalBranch at hb
    generalize i.mode = a at hb
    cases a <;> simp_all
  unfold Instruction.checkConsistency at hc ⊢
  have heff : (if i.mnemonic = .padd ∨ i.mnemonic = .psub then Mnemonic.adc else i.mnemonic) = i.mnemonic :=
    if_neg fun h => h.elim hnv.2.1 hnv.2.2
  simp only [heff] at hc ⊢
  by_cases hlegal : (!isLegalCombination i.mnemonic i.mode) = true
  · rw [if_pos hlegal] at hc; cases hc
  · rw [if_neg hlegal] at hc ⊢
    obtain ⟨⟨⟩, c1, -⟩ := Res.bind_eq_ok.1 hc
    have hsf : i.suffix = .none := by
      by_contra hn
      unfold Instruction.checkSuffix at c1
      rw [if_neg hn, hnv.1] at c1
      cases c1
    unfold Instruction.checkSuffix
    rw [if_pos hsf, Res.bind_ok]
    unfold Instruction.checkImmediate
    simp [hmode]

theorem visitOld_fine {src : Source} {w : Work} {pc : Nat} {s nx : ExecutionState} {di : DisItem} {bytes : List UInt8}
    {i0 : Instruction} (hb : src pc 4 = .ok bytes) (hd : decode bytes (s.merge di.current).flags = .ok i0)
    (hl : Like i0 di.instruction) (hx : di.instruction.execute (s.merge di.current) nullCtx = .ok nx)
    (hs : di.instruction.isLocalBranch = true → ∃ nx', di.instruction.execute s nullCtx = .ok nx') :
    ∃ w', visitOld src w pc s di = .ok w' := by
  unfold visitOld
  simp only
  split
  · exact ⟨_, rfl⟩
  · have h1 : redecode src pc (s.merge di.current).flags = .ok () := by
      unfold redecode
      rw [hb]
      simp only
      rw [hd, Res.bind_ok]
    rw [h1, Res.bind_ok, hx, Res.bind_ok]
    obtain ⟨t, ht⟩ := like_far hd hl pc
    have h2 : ∀ w, ∃ w', farRevisit w pc di.instruction nx = .ok w' := by
      intro w
      unfold farRevisit
      rw [ht, Res.bind_ok]
      cases t <;> exact ⟨_, rfl⟩
    generalize (if di.instruction.isExitInstruction = true then
      ({ w with fresh := w.fresh.set pc { di with current := s.merge di.current, next := nx } } : Work) else _) = w1
    obtain ⟨w2, h2⟩ := h2 w1
    rw [h2, Res.bind_ok]
    unfold branchRevisit
    split
    · rename_i hbr
      obtain ⟨nx', hs⟩ := hs hbr
      rw [branch_taken hbr hs, Res.bind_ok]
      obtain ⟨v, hv⟩ := like_offset hd hl hbr
      rw [hv, Res.bind_ok]
      exact ⟨_, rfl⟩
    · exact ⟨_, rfl⟩

theorem low_ok {Q : Prop} (hQ : Q) {src : Source} {T : OMap ReturnConvention} {R d : Disassembler} (hR : Bound src T R)
    {w : Work} (hf : Flow src d w) (ha : AllFine Q d w) (hl : Low R d w) : ∃ o, step src d w = .ok o := by
  unfold step
  split
  · exact ⟨_, rfl⟩
  · rename_i pc s rest hst
    have hfind : w.stack.find pc = some s := by rw [hst]; simp [OMap.find]
    have hs := ha.2 pc s hfind
    have hn := hf.tidy.states.2 pc s hfind
    obtain ⟨jt, hj, hab⟩ := hl.stack pc s hfind
    obtain ⟨bytes, i0, hb, hd, -⟩ := (hR.closed.items pc jt hj).bytes
    have hds := decode_above hab.flags hd
    simp only
    have hlk := getInstruction_look d { w with stack := rest } pc
    split
    · rename_i w1 hg
      obtain ⟨nx, hx⟩ := execute_ok hQ hds (like_self i0) hs (decoded_consistent hds)
      obtain ⟨w', hw⟩ := visitNew_ok (d := d) (w := w1) hb hds hx
      rw [hw]
      exact ⟨_, rfl⟩
    · rename_i di w1 hg
      rw [hg] at hlk
      have hlk : look d w.fresh pc = some di := hlk.symm
      have hit := hf.items pc di hlk
      have hnc := (item_normal hf.tidy hlk hit).1
      obtain ⟨kt, hk, habk⟩ := under_merge hR hn hnc ⟨jt, hj, hab⟩ (hl.seen pc di hlk)
      rw [hj] at hk
      cases hk
      have hdc := decode_above habk.flags hd
      obtain ⟨bytes', i1, hb', hd1, hsh⟩ := hit.bytes
      rw [hb] at hb'; cases hb'
      have := decode_merged hnc.1 hdc
      rw [hd1] at this; cases this
      have hup : FlagsAbove (s.merge di.current).flags di.current.flags := flagsMerge_above hn.1 hnc.1
      obtain ⟨nx1, hx1⟩ := execute_ok hQ hd1 (shows_like hsh) (fine_merge hs) (item_consistent hit hup hb hdc)
      obtain ⟨w', hw⟩ := visitOld_fine (w := w1) hb hdc (shows_like hsh) hx1 fun hbr =>
        execute_ok hQ hd1 (shows_like hsh) hs (branch_consistent hbr hit.next s.flags)
      rw [hw]
      exact ⟨_, rfl⟩

theorem run_low {Q : Prop} (hQ : Q) {src : Source} {R d : Disassembler} (hR : Bound src d.conventions R) :
    ∀ (n : Nat) (w w' : Work) (r : Res Unit), Flow src d w → AllFine Q d w → Low R d w → run src d n w = (w', r) →
      r = .ok () ∨ r = .err .steps := by
  intro n
  induction n with
  | zero => intro w w' r _ _ _ hr; cases hr; exact .inr rfl
  | succ n ih =>
    intro w w' r hf ha hl hr
    unfold run at hr
    obtain ⟨o, ho⟩ := low_ok hQ hR hf ha hl
    rw [ho] at hr
    cases o with
    | none => cases hr; exact .inl rfl
    | some w1 => exact ih w1 w' r (flow_step hf ho) (fine_step hf ha ho) (low_step hR hf hl ho) hr

theorem call_succeeds {Q : Prop} (hQ : Q) {src : Source} {T : OMap ReturnConvention} {R d : Disassembler}
    (hR : Bound src T R) (hd : Bound src T d) (hfi : FineListing Q d)
    (hl : ∀ a it, d.disassembly.find a = some it → Under R a it.current) {fuel start : Nat}
    (hs : start ≤ 0x1000000) {flags : StatusFlags} (hf : Normal flags)
    (hsz : Q → (flags.m = .on ∨ flags.m = .off) ∧ (flags.x = .on ∨ flags.x = .off)) (hu : Under R start (.init flags)) :
    (∃ X, (d.disassemble fuel src start flags).2 = .ok X) ∨ (d.disassemble fuel src start flags).2 = .err .steps := by
  have h := hd.closed
  obtain ⟨h1, h2, -⟩ := begin_shape d start flags
  have hb := begin_flow h hs hf
  have hlook : ∀ a, look d (begin d start flags).fresh a = d.disassembly.find a := by
    intro a; rw [h1]; rfl
  have h0 : Low R d (begin d start flags) := by
    refine ⟨fun a it ha => hl a it (by rw [← hlook]; exact ha), fun a s ha => ?_, fun a it ha => ?_⟩
    · rw [h2] at ha
      by_cases hsa : start = a
      · subst hsa
        simp [OMap.find] at ha
        subst ha
        exact hu
      · simp [OMap.find, hsa] at ha
    · rw [hlook] at ha
      rw [hd.table]
      exact hd.rets a it ha
  have key := fun w r => run_low hQ (hd.table.symm ▸ hR) fuel (begin d start flags) w r hb.1 (begin_fine hfi hsz) h0
  unfold disassemble
  simp only
  split
  · exact .inl ⟨_, rfl⟩
  · rename_i w e hrun
    rcases key _ _ hrun with h | h <;> cases h
    exact .inr rfl
  · rename_i w u hrun
    rcases key _ _ hrun with h | h <;> cases h

/-- Both sizes are given. -/
def Sized (f : StatusFlags) : Prop := (f.m = .on ∨ f.m = .off) ∧ (f.x = .on ∨ f.x = .off)

theorem disassembled_fine {src : Source} {conv : OMap ReturnConvention} (hs : OMap.Sorted conv)
    (ht : TableOk FlagsWritten conv) {asked : List (Addr × StatusFlags)} {d : Disassembler}
    (h : Disassembled src conv asked d) (hz : ∀ p ∈ asked, Sized p.2) : FineListing True d := by
  induction h with
  | new => intro a it ha; simp [Disassembler.empty, addTargetReturnConventions, OMap.find] at ha
  | call before address ok result ih =>
    exact disassemble_fine (disassembled_bound hs ht before).closed (ih fun p hp => hz p (by simp [hp])) address
      (constructible_normal ok) (fun _ => hz (_, _) (List.mem_cons_self ..)) result

theorem disassembled_asked {src : Source} {conv : OMap ReturnConvention} {asked : List (Addr × StatusFlags)} {d : Disassembler}
    (h : Disassembled src conv asked d) : ∀ p ∈ asked, p.1 ≤ 0x1000000 ∧ Constructible p.2 := by
  induction h with
  | new => simp
  | call before address ok result ih =>
    intro p hp
    rcases List.mem_cons.1 hp with rfl | hp
    · exact ⟨address, ok⟩
    · exact ih p hp

theorem disassembled_order {src : Source} (hsrc : ∀ a n, src a n ≠ .err .steps) {conv : OMap ReturnConvention}
    (hs : OMap.Sorted conv) (ht : TableOk FlagsWritten conv) {asked : List (Addr × StatusFlags)} {R : Disassembler}
    (h : Disassembled src conv asked R) (hz : ∀ p ∈ asked, Sized p.2) :
    ∀ order : List (Addr × StatusFlags), (∀ p ∈ order, p ∈ asked) → ∃ d, Disassembled src conv order d := by
  intro order
  induction order with
  | nil => intro _; exact ⟨_, .new⟩
  | cons p order ih =>
    intro hsub
    obtain ⟨d, hd⟩ := ih fun q hq => hsub q (by simp [hq])
    have hp := hsub p (by simp)
    obtain ⟨h1, h2⟩ := disassembled_asked h p hp
    have hB := disassembled_bound hs ht hd
    obtain ⟨N, ⟨w, r⟩, hr, hN⟩ := run_halts hsrc _ (begin_tidy hB.closed.proper h1 (constructible_normal h2))
    rcases call_succeeds (Q := True) trivial (disassembled_bound hs ht h) hB
      (disassembled_fine hs ht hd fun q hq => hz q (hsub q (by simp [hq])))
      (disassembled_low hs ht hd h fun q hq => hsub q (by simp [hq])) (fuel := N) h1 (constructible_normal h2)
      (fun _ => hz p hp) (disassembled_covers hs ht h p hp) with ⟨X, hX⟩ | hX
    · exact ⟨_, .call (fuel := N) (T := X) hd h1 h2 (Prod.ext rfl hX)⟩
    · exfalso
      unfold disassemble at hX
      rw [hN N (Nat.le_refl N)] at hX
      cases r with
      | ok u => cases hX
      | err e => simp only at hX; cases hX; exact hr rfl
      | ub u => cases hX

end Nsasm.Confluent
