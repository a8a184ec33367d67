import Verif.Lemmas.Cleaned
import Verif.Lemmas.FarTargets
import Verif.Lemmas.Reached
import Verif.Lemmas.Neat
import Verif.Lemmas.Entries
import Verif.Spec.Calls

/-! # The result of disassembling is the least one

Of all listings that are closed under control flow, a disassembler finds the one with the most specific flags; so its
result depends on nothing but where it starts. -/

namespace Nsasm.Confluent
open Nsasm Spec Props Disassembler

/-! ## Executing in two states -/

/-- What the second computes is below what the first computes, if both compute something. -/
def Both (x y : Res ExecutionState) : Prop := ∀ t s, x = .ok t → y = .ok s → StateAbove t s

theorem both_ok {t s : ExecutionState} (h : StateAbove t s) : Both (.ok t) (.ok s) := by
  intro t' s' ht hs; cases ht; cases hs; exact h

theorem both_ite {c : Prop} [Decidable c] {a b a' b' : Res ExecutionState} (h : c → Both a b) (h' : ¬ c → Both a' b') :
    Both (if c then a else a') (if c then b else b') := by
  split
  · rename_i hc; exact h hc
  · rename_i hc; exact h' hc

theorem both_bind {α β : Type} {x : Res α} {y : Res β} {f : α → Res ExecutionState} {g : β → Res ExecutionState}
    (h : ∀ v w, x = .ok v → y = .ok w → Both (f v) (g w)) : Both (x >>= f) (y >>= g) := by
  intro t s ht hs
  obtain ⟨v, hv, ht⟩ := Res.bind_eq_ok.1 ht
  obtain ⟨w, hw, hs⟩ := Res.bind_eq_ok.1 hs
  exact h v w hv hw t s ht hs

theorem both_arg {x : Res (Option Int)} {f g : Option Int → Res ExecutionState} (h : ∀ v, Both (f v) (g v)) :
    Both (x >>= f) (x >>= g) :=
  both_bind fun v w hv hw => by rw [hv] at hw; cases hw; exact h v

theorem pullReg_both {s t : Stack} (h : StackAbove s t) {r : RegName} {b c : BitState} (hb : BitAbove b c)
    {v w : RegisterValue} {s' t' : Stack} (hs : s.pullReg r b = .ok (v, s')) (ht : t.pullReg r c = .ok (w, t')) :
    StackAbove s' t' := by
  by_cases hk : BitKnownHere b
  · have := hb.known hk
    subst this
    obtain ⟨w', t'', h1, h2, -⟩ := pullReg_mono h hk hs
    rw [h1] at ht
    cases ht
    exact h2
  · have : s' = .abandoned := by
      unfold Stack.pullReg at hs
      cases s with
      | abandoned => simp only [Res.ok.injEq, Prod.mk.injEq] at hs; exact hs.2.symm
      | live l =>
        cases b with
        | on => exact absurd (.inl rfl) hk
        | off => exact absurd (.inr rfl) hk
        | unknown => simp only [Res.ok.injEq, Prod.mk.injEq] at hs; exact hs.2.symm
        | original =>
          simp only at hs
          obtain ⟨⟨x, y⟩, -, hs⟩ := Res.bind_eq_ok.1 hs
          simp only at hs
          split at hs
          · split at hs
            · cases hs
            · cases hs; rfl
          · cases hs; rfl
    subst this
    exact .abandoned

/-- Instructions that do the same. -/
structure Alike (i j : Instruction) : Prop where
  mnemonic : j.mnemonic = i.mnemonic
  ret : j.ret = i.ret
  mode : j.mode = i.mode
  args : (j.arg1 = i.arg1 ∧ j.arg2 = i.arg2) ∨ i.mnemonic ∉ readers

theorem execute_both {i j : Instruction} (hij : Alike i j) {t s t' s' : ExecutionState} (h : StateAbove t s)
    (hn : NormalState s) (hx : i.execute t nullCtx = .ok t') (hy : j.execute s nullCtx = .ok s') : StateAbove t' s' := by
  have hcs := checkConsistency_of_execute' hy
  have hct := checkConsistency_of_execute' hx
  obtain ⟨hm, hr, hmode, harg⟩ := hij
  refine (?_ : Both (i.execute t nullCtx) (j.execute s nullCtx)) t' s' hx hy
  have hid : j.executeIncDec s = i.executeIncDec s := by
    unfold Instruction.executeIncDec
    rw [hm, hmode]
  unfold Instruction.execute
  rw [hcs, hct, Res.bind_ok, Res.bind_ok]
  simp only [hm, hr, hid]
  have hrest : ∀ x y : Res ExecutionState, Both x y → Both
      (if i.mnemonic = .rep ∨ i.mnemonic = .sep then do
        let arg ← Instruction.maybeArg i.arg1 nullCtx
        .ok { t with flags := Instruction.executeRepSep t.flags (if i.mnemonic = .rep then .off else .on) arg }
      else x)
      (if i.mnemonic = .rep ∨ i.mnemonic = .sep then do
        let arg ← Instruction.maybeArg j.arg1 nullCtx
        .ok { s with flags := Instruction.executeRepSep s.flags (if i.mnemonic = .rep then .off else .on) arg }
      else y) := by
    intro x y hxy
    refine both_ite (fun g => ?_) fun _ => hxy
    rcases harg with ⟨h1, -⟩ | hno
    · rw [h1]
      exact both_arg fun arg => both_ok ⟨repSep_mono hn.1 h.flags (by split <;> simp) _, h.stack⟩
    · exact absurd (by rcases g with g | g <;> rw [g] <;> decide) hno
  refine both_ite (fun g => both_ok ⟨setC_mono h.flags .rfl', h.stack⟩) (fun _ => ?_)
  refine both_ite (fun g => both_ok ⟨setC_mono h.flags .rfl', h.stack⟩) (fun _ => ?_)
  refine hrest _ _ ?_
  refine both_ite (fun g => both_ok ⟨setC_mono h.flags .rfl', h.stack⟩) (fun _ => ?_)
  refine both_ite (fun g => both_ok ⟨setC_mono h.flags .rfl', h.stack⟩) (fun _ => ?_)
  refine both_ite (fun g => both_ok ⟨h.flags, h.stack⟩) (fun _ => ?_)
  refine both_ite (fun g => ?_) (fun _ => ?_)
  · unfold Instruction.executeIncDec
    refine both_ite (fun _ => both_ok h) (fun _ => ?_)
    extract_lets o
    refine both_ite (fun _ => ?_) (fun _ => both_ite (fun _ => ?_) (fun _ => ?_)) <;>
      exact both_bind fun _ _ _ _ => both_ok ⟨h.flags, h.stack⟩
  refine both_ite (fun g => ?_) (fun _ => ?_)
  · unfold Instruction.executeLoad
    rw [hmode]
    refine both_ite (fun _ => both_bind fun _ _ _ _ => ?_) (fun _ => both_ok h)
    extract_lets v w
    intro t' s' ht hs
    have e1 : t'.flags = t.flags ∧ t'.stack = t.stack := by
      split at ht
      · cases ht; exact ⟨rfl, rfl⟩
      · split at ht <;> cases ht <;> exact ⟨rfl, rfl⟩
    have e2 : s'.flags = s.flags ∧ s'.stack = s.stack := by
      split at hs
      · cases hs; exact ⟨rfl, rfl⟩
      · split at hs <;> cases hs <;> exact ⟨rfl, rfl⟩
    exact ⟨by rw [e1.1, e2.1]; exact h.flags, by rw [e1.2, e2.2]; exact h.stack⟩
  refine both_ite (fun g => ?_) (fun _ => ?_)
  · unfold Instruction.executeMove
    refine both_bind fun _ _ _ _ => ?_
    dsimp only
    refine both_bind fun _ _ _ _ => ?_
    refine both_bind fun _ _ _ _ => both_ok ⟨h.flags, h.stack⟩
  refine both_ite (fun g => ?_) (fun _ => ?_)
  · rcases harg with ⟨h1, -⟩ | hno
    · rw [h1]
      exact both_arg fun arg => both_ok ⟨h.flags, pushWord_mono h.stack _⟩
    · exact absurd (by rw [g]; decide) hno
  refine both_ite (fun g => both_ok ⟨h.flags, pushWord_mono h.stack none⟩) (fun _ => ?_)
  refine both_ite (fun g => both_ok ⟨h.flags, pushReg_mono h.stack _ _ h.flags.m _⟩) (fun _ => ?_)
  refine both_ite (fun g => both_ok ⟨h.flags, pushReg_mono h.stack _ _ h.flags.x _⟩) (fun _ => ?_)
  refine both_ite (fun g => both_ok ⟨h.flags, pushReg_mono h.stack _ _ h.flags.x _⟩) (fun _ => ?_)
  refine both_ite (fun g => both_bind fun _ _ h1 h2 => both_ok ⟨h.flags, pullReg_both h.stack h.flags.m h1 h2⟩) (fun _ => ?_)
  refine both_ite (fun g => both_bind fun _ _ h1 h2 => both_ok ⟨h.flags, pullReg_both h.stack h.flags.x h1 h2⟩) (fun _ => ?_)
  refine both_ite (fun g => both_bind fun _ _ h1 h2 => both_ok ⟨h.flags, pullReg_both h.stack h.flags.x h1 h2⟩) (fun _ => ?_)
  refine both_ite (fun g => both_ok ⟨h.flags, push_mono h.stack ⟨rfl, fun f hf => by cases hf; exact ⟨_, rfl, h.flags⟩⟩⟩)
    (fun _ => ?_)
  refine both_ite (fun g => both_ok (pullFlags_mono h)) (fun _ => ?_)
  refine both_ite (fun g => both_ok ⟨exchangeCE_mono h.flags, h.stack⟩) (fun _ => ?_)
  refine both_ite (fun g => both_ok ⟨?_, h.stack⟩) (fun _ => both_ok h)
  show FlagsAbove ((i.ret.yieldFlags.getD t.flags).setC .unknown) ((i.ret.yieldFlags.getD s.flags).setC .unknown)
  cases i.ret.yieldFlags with
  | none => exact setC_mono h.flags .rfl'
  | some f => exact setC_mono .rfl' .rfl'

/-! ## Decoding in two states -/

theorem decode_above {bytes : List UInt8} {f g : StatusFlags} (h : FlagsAbove f g) {i : Instruction}
    (hd : decode bytes f = .ok i) : decode bytes g = .ok i := by
  rw [decode_ok_iff] at hd ⊢
  obtain ⟨op, l, a, a1, a2, h1, h2, h3, h4, h5, h6⟩ := hd
  refine ⟨op, l, a, a1, a2, h1, h2, h3, ?_, h5, h6⟩
  have key : ∀ {b c k : BitState}, BitAbove b c → b = k → k ≠ .unknown → c = k := by
    rintro b c k (rfl | rfl) rfl hk
    · rfl
    · exact absurd rfl hk
  rcases h4 with h4 | ⟨h4, ⟨h7, h8⟩ | ⟨h7, h8⟩⟩ | ⟨h4, ⟨h7, h8⟩ | ⟨h7, h8⟩⟩
  · exact .inl h4
  · exact .inr (.inl ⟨h4, .inl ⟨h7, key h.m h8 (by decide)⟩⟩)
  · exact .inr (.inl ⟨h4, .inr ⟨h7, key h.m h8 (by decide)⟩⟩)
  · exact .inr (.inr ⟨h4, .inl ⟨h7, key h.x h8 (by decide)⟩⟩)
  · exact .inr (.inr ⟨h4, .inr ⟨h7, key h.x h8 (by decide)⟩⟩)

/-- The convention that the table prescribes for an instruction. -/
def conventionOf (T : OMap ReturnConvention) (a : Nat) (i : Instruction) : ReturnConvention :=
  if i.mnemonic = .jsr ∨ i.mnemonic = .jsl then
    match i.farBranchTarget a with
    | .ok (some t) => (T.find t).getD .default
    | _ => .default
  else .default

/-- The same but for names and suffixes. -/
structure SameCode (i j : Instruction) : Prop where
  mnemonic : j.mnemonic = i.mnemonic
  mode : j.mode = i.mode
  arg2 : j.arg2 = i.arg2
  branch : i.isLocalBranch = true → ∃ e n m, i.arg1 = .label n e ∧ j.arg1 = .label m e
  plain : i.isLocalBranch = false → j.arg1 = i.arg1

theorem SameCode.isBranch {i j : Instruction} (h : SameCode i j) : j.isLocalBranch = i.isLocalBranch := by
  unfold Instruction.isLocalBranch
  rw [h.mnemonic, h.mode]

theorem SameCode.far {i j : Instruction} (h : SameCode i j) (a : Nat) :
    j.farBranchTarget a = i.farBranchTarget a := by
  cases hb : i.isLocalBranch with
  | true =>
    rw [branch_no_far hb, branch_no_far (by rw [h.isBranch, hb])]
  | false =>
    unfold Instruction.farBranchTarget
    rw [h.mnemonic, h.mode, h.plain hb]

theorem SameCode.convention {i j : Instruction} (h : SameCode i j) (T : OMap ReturnConvention) (a : Nat) :
    conventionOf T a j = conventionOf T a i := by
  unfold conventionOf
  rw [h.mnemonic, h.far]

theorem shows_same {i0 i j : Instruction} (h : Shows i0 i) (h' : Shows i0 j) : SameCode i j := by
  have hb : i.isLocalBranch = i0.isLocalBranch := by
    unfold Instruction.isLocalBranch; rw [h.mnemonic, h.mode]
  refine ⟨by rw [h.mnemonic, h'.mnemonic], by rw [h.mode, h'.mode], by rw [h.arg2, h'.arg2], fun hi => ?_, fun hi => ?_⟩
  · rw [hb, mayBranch_iff] at hi
    obtain ⟨n, hn⟩ := h.branch hi
    obtain ⟨m, hm⟩ := h'.branch hi
    exact ⟨_, n, m, hn, hm⟩
  · have : ¬ MayBranch i0 := by rw [← mayBranch_iff, ← hb, hi]; simp
    rw [h.plain this, h'.plain this]

theorem SameCode.alike {i j : Instruction} (h : SameCode i j) (hr : j.ret = i.ret)
    (hb : i.isLocalBranch = true → i.mnemonic ∈ branchMnemonics) : Alike i j := by
  refine ⟨h.mnemonic, hr, h.mode, ?_⟩
  cases hi : i.isLocalBranch with
  | true =>
    right
    have := hb hi
    revert this
    generalize i.mnemonic = m
    revert m
    decide
  | false => exact .inl ⟨h.plain hi, h.arg2⟩

theorem SameCode.exit {i j : Instruction} (h : SameCode i j) (hr : j.ret = i.ret) :
    j.isExitInstruction = i.isExitInstruction := by
  unfold Instruction.isExitInstruction
  rw [h.mnemonic, hr]

theorem SameCode.value {i j : Instruction} (h : SameCode i j) (hb : i.isLocalBranch = true) {v : Int}
    (hv : i.arg1.eval nullCtx = .ok v) : j.arg1.eval nullCtx = .ok v := by
  obtain ⟨e, n, m, h1, h2⟩ := h.branch hb
  rw [h1] at hv
  rw [h2]
  exact hv

theorem branchState_mono {i j : Instruction} (h : j.mnemonic = i.mnemonic) {t s : ExecutionState}
    (hs : StateAbove t s) : StateAbove (branchState i t) (branchState j s) := by
  unfold branchState
  rw [h]
  split
  · exact ⟨setC_mono hs.flags .rfl', hs.stack⟩
  · split
    · exact ⟨setC_mono hs.flags .rfl', hs.stack⟩
    · exact hs

/-! ## Every entry has the convention that the table prescribes -/

theorem first_convention {d : Disassembler} {w w' : Work} {pc : Nat} {s : ExecutionState}
    {bytes : List UInt8} {i0 : Instruction} {nx0 : ExecutionState} {it : DisItem}
    (decoded : decode bytes s.flags = .ok i0) (h : FirstVisit d w pc s i0 nx0 w' it) :
    it.instruction.ret = conventionOf d.conventions pc it.instruction := by
  have hd := decode_ret decoded
  cases h with
  | branch isBranch value target named taken =>
    subst named
    simp only
    unfold conventionOf
    rw [hd.1, branch_no_far (by exact isBranch)]
    split <;> rfl
  | plain noBranch noTarget =>
    simp only
    unfold conventionOf
    rw [hd.1, noTarget]
    split <;> rfl
  | far noBranch target convention looked =>
    rename_i t i
    simp only
    have hm : i.mnemonic = i0.mnemonic := by rcases convention with rfl | ⟨-, r, -, rfl⟩ <;> rfl
    have ht : i.farBranchTarget pc = i0.farBranchTarget pc := by rcases convention with rfl | ⟨-, r, -, rfl⟩ <;> rfl
    unfold conventionOf
    rw [hm, ht, target]
    split
    · rename_i hj
      cases hf : d.conventions.find t with
      | some r => rw [looked hj r hf]; simp only [hf]; rfl
      | none =>
        rcases convention with rfl | ⟨-, r, hr, rfl⟩
        · rw [hd.1]; simp only [hf]; rfl
        · rw [hf] at hr; cases hr
    · rename_i hj
      rcases convention with rfl | ⟨hj', r, hr, rfl⟩
      · exact hd.1
      · exact absurd hj' hj

/-! ## The loop stays below a closed listing -/

/-- A listing that is closed and has the conventions of `T`. -/
structure Bound (src : Source) (T : OMap ReturnConvention) (d : Disassembler) : Prop where
  closed : Closed src d
  table : d.conventions = T
  rets : ∀ a it, d.disassembly.find a = some it → it.instruction.ret = conventionOf T a it.instruction

/-- The address has an entry that covers the state. -/
def Under (R : Disassembler) (a : Nat) (s : ExecutionState) : Prop :=
  ∃ jt, R.disassembly.find a = some jt ∧ StateAbove jt.current s

structure Low (R d : Disassembler) (w : Work) : Prop where
  seen : ∀ a it, look d w.fresh a = some it → Under R a it.current
  stack : ∀ a s, w.stack.find a = some s → Under R a s
  rets : ∀ a it, look d w.fresh a = some it → it.instruction.ret = conventionOf d.conventions a it.instruction

/-- Two entries of which one covers the other. -/
theorem item_same {src : Source} {T : OMap ReturnConvention} {R : Disassembler} (hR : Bound src T R) {a : Nat}
    {it jt : DisItem} (hj : R.disassembly.find a = some jt) (hi : ItemOk src a it)
    (hr : it.instruction.ret = conventionOf T a it.instruction) (hn : NormalState it.current)
    (h : StateAbove jt.current it.current) :
    SameCode it.instruction jt.instruction ∧ jt.instruction.ret = it.instruction.ret ∧ StateAbove jt.next it.next := by
  have hjo := hR.closed.items a jt hj
  obtain ⟨bytes, i0, hb, hd, hs⟩ := hi.bytes
  obtain ⟨bytes', j0, hb', hd', hs'⟩ := hjo.bytes
  rw [hb] at hb'
  cases hb'
  have := decode_above h.flags hd'
  rw [hd] at this
  cases this
  have hsame := shows_same hs hs'
  have hret : jt.instruction.ret = it.instruction.ret := by
    rw [hR.rets a jt hj, hr, hsame.convention]
  refine ⟨hsame, hret, ?_⟩
  have hsame' := shows_same hs' hs
  exact execute_both (hsame'.alike hret.symm (hR.closed.proper.kinds a jt hj)) h hn hjo.next hi.next

theorem under_next {src : Source} {T : OMap ReturnConvention} {R : Disassembler} (hR : Bound src T R) {a : Nat}
    {it : DisItem} (hi : ItemOk src a it) (hr : it.instruction.ret = conventionOf T a it.instruction)
    (hn : NormalState it.current) (hu : Under R a it.current)
    (hx : it.instruction.isExitInstruction = false) : Under R (nextAddr a it.instruction) it.next := by
  obtain ⟨jt, hj, hab⟩ := hu
  obtain ⟨h1, h2, h3⟩ := item_same hR hj hi hr hn hab
  obtain ⟨kt, hk, hka⟩ := hR.closed.next a jt hj (by rw [h1.exit h2]; exact hx)
  rw [show nextAddr a jt.instruction = nextAddr a it.instruction by unfold nextAddr; rw [h1.mode]] at hk
  exact ⟨kt, hk, (hka.state (closed_normal hR.closed hk).1 (closed_normal hR.closed hj).2).trans h3⟩

theorem under_branch {src : Source} {T : OMap ReturnConvention} {R : Disassembler} (hR : Bound src T R) {a : Nat}
    {it : DisItem} (hi : ItemOk src a it) (hr : it.instruction.ret = conventionOf T a it.instruction)
    (hn : NormalState it.current) (hu : Under R a it.current) {s : ExecutionState} (hs : Under R a s) {v : Int}
    (hb : it.instruction.isLocalBranch = true) (hv : it.instruction.arg1.eval nullCtx = .ok v) :
    Under R (Address.addWrapped (nextAddr a it.instruction) v) (branchState it.instruction s) := by
  obtain ⟨jt, hj, hab⟩ := hu
  obtain ⟨jt', hj', hs⟩ := hs
  rw [hj] at hj'
  cases hj'
  obtain ⟨h1, h2, -⟩ := item_same hR hj hi hr hn hab
  obtain ⟨kt, hk, hka⟩ := hR.closed.branch a jt v hj (by rw [h1.isBranch]; exact hb) (h1.value hb hv)
  rw [show nextAddr a jt.instruction = nextAddr a it.instruction by unfold nextAddr; rw [h1.mode]] at hk
  exact ⟨kt, hk, (hka.state (closed_normal hR.closed hk).1 (branchState_normal (closed_normal hR.closed hj).1)).trans
    (branchState_mono h1.mnemonic.symm hs)⟩

theorem under_merge {src : Source} {T : OMap ReturnConvention} {R : Disassembler} (hR : Bound src T R) {a : Nat}
    {s t : ExecutionState} (hs : NormalState s) (ht : NormalState t) (h : Under R a s) (h' : Under R a t) :
    Under R a (s.merge t) := by
  obtain ⟨jt, hj, h1⟩ := h
  obtain ⟨kt, hk, h2⟩ := h'
  rw [hj] at hk
  cases hk
  exact ⟨jt, hj, state_join (closed_normal hR.closed hj).1 hs ht h1 h2⟩

theorem pushAll_under {src : Source} {T : OMap ReturnConvention} {R : Disassembler} (hR : Bound src T R) :
    ∀ (outs : List (Nat × ExecutionState)) {st : OMap ExecutionState}, OMap.Sorted st →
    (∀ a s, st.find a = some s → NormalState s ∧ Under R a s) → (∀ o ∈ outs, NormalState o.2 ∧ Under R o.1 o.2) →
    ∀ a s, (pushAll st outs).find a = some s → NormalState s ∧ Under R a s := by
  intro outs
  induction outs with
  | nil => intro st _ h _; exact h
  | cons o os ih =>
    intro st hs h ho
    refine ih (OMap.sorted_upsert (f := fun old => ExecutionState.merge old o.2) hs o.1 o.2) ?_
      (fun o' h' => ho o' (by simp [h']))
    intro a s ha
    rw [OMap.find_upsert hs] at ha
    by_cases hoa : o.1 = a
    · rw [if_pos hoa] at ha
      subst hoa
      have h1 := ho o (by simp)
      cases hf : st.find o.1 with
      | none => rw [hf] at ha; cases ha; exact h1
      | some p =>
        rw [hf] at ha
        cases ha
        have h2 := h _ _ hf
        exact ⟨normal_merge h2.1, under_merge hR h2.1 h1.1 h2.2 h1.2⟩
    · rw [if_neg hoa] at ha; exact h a s ha

theorem low_step {src : Source} {R d : Disassembler} (hR : Bound src d.conventions R) {w w' : Work}
    (hf : Flow src d w) (hl : Low R d w) (h : step src d w = .ok (some w')) : Low R d w' := by
  have hf' := flow_step hf h
  have ht := hf.tidy
  have ht' := hf'.tidy
  obtain ⟨pc, s, rest, it, outs, hst, hr, he⟩ := step_round ht.fresh h
  have hpc : w.stack.find pc = some s := by rw [hst]; simp [OMap.find]
  have hsn : NormalState s := ht.states.2 pc s hpc
  have hsu : Under R pc s := hl.stack pc s hpc
  have hsorted := ht.stack
  rw [hst] at hsorted
  have hrest : OMap.Sorted rest := by
    unfold OMap.Sorted at hsorted; rw [List.pairwise_cons] at hsorted; exact hsorted.2
  have hrn : ∀ a s, OMap.find rest a = some s → NormalState s ∧ Under R a s := by
    intro a t hat
    have : w.stack.find a = some t := by
      rw [hst]
      unfold OMap.Sorted at hsorted
      rw [List.pairwise_cons] at hsorted
      have := hsorted.1 _ (OMap.mem_of_find hat)
      simp only at this
      rw [OMap.find, if_neg (by omega)]
      exact hat
    exact ⟨ht.states.2 a t this, hl.stack a t this⟩
  have hself : look d w'.fresh pc = some it := by rw [he.look, if_pos rfl]
  have hother : ∀ a, pc ≠ a → look d w'.fresh a = look d w.fresh a := fun a ha => by rw [he.look, if_neg ha]
  have hi := hf'.items pc it hself
  have hn := item_normal ht' hself hi
  suffices hpcs : Under R pc it.current ∧ it.instruction.ret = conventionOf d.conventions pc it.instruction ∧
      ∃ outs', w'.stack = pushAll rest outs' ∧ ∀ o ∈ outs', NormalState o.2 ∧ Under R o.1 o.2 by
    obtain ⟨p1, p2, outs', p3, p4⟩ := hpcs
    refine ⟨fun a jt hj => ?_, fun a t hat => ?_, fun a jt hj => ?_⟩
    · by_cases ha : pc = a
      · subst ha; rw [hself] at hj; cases hj; exact p1
      · rw [hother a ha] at hj; exact hl.seen a jt hj
    · rw [p3] at hat
      exact (pushAll_under hR outs' hrest hrn p4 a t hat).2
    · by_cases ha : pc = a
      · subst ha; rw [hself] at hj; cases hj; exact p2
      · rw [hother a ha] at hj; exact hl.rets a jt hj
  cases hr with
  | skip seen' same far labels sym =>
    exact ⟨hl.seen pc it seen', hl.rets pc it seen', _, he.stack, by simp⟩
  | first unseen read decoded executed visit =>
    rename_i bytes i0 nx0
    have hret := first_convention decoded visit
    obtain ⟨hi1, -, -, hi4, hi5, -⟩ := first_item visit
    have hcu : Under R pc it.current := by rw [hi1]; exact hsu
    obtain ⟨bo, he', hbo⟩ := first_effect ht.fresh visit
    refine ⟨hcu, hret, _, he'.stack, fun o ho => ?_⟩
    rw [List.mem_append] at ho
    rcases ho with ho | ho
    · rcases hbo with ⟨hb, v, b, hv, hnm, hb', rfl⟩ | ⟨-, rfl⟩
      · rw [List.mem_singleton] at ho
        subst ho
        have hb1 : it.instruction.isLocalBranch = true := by
          simp only [Instruction.isLocalBranch] at hb ⊢
          rw [hi4, hi5]; exact hb
        have hv1 : it.instruction.arg1.eval nullCtx = .ok v := by
          rw [hnm]
          simp only
          rw [decode_applyLabel decoded]
          rcases decode_args_shape decoded with ⟨x, t, h⟩ | h
          · rw [h] at hv ⊢; exact hv
          · rw [h] at hv; cases hv
        have hnb := normal_executeBranch (fun f hf => ht'.rets pc it f hself hf) hb' hsn
        refine ⟨hnb, ?_⟩
        have := under_branch hR hi hret hn.1 hcu hsu hb1 hv1
        rw [branch_taken hb1 (hi1 ▸ hi.next)] at hb'
        cases hb'
        rw [show nextAddr pc it.instruction = nextAddr pc i0 by unfold nextAddr; rw [hi5]] at this
        exact this
      · cases ho
    · obtain ⟨hx, rfl⟩ := nextOuts_mem ho
      exact ⟨hn.2, under_next hR hi hret hn.1 hcu hx⟩
  | again seen' change read decoded executed far branch labels sym =>
    rename_i di bytes i0 nx bo
    have hdn := item_normal ht seen' (hf.items pc di seen')
    have hret := hl.rets pc di seen'
    have hcu : Under R pc (s.merge di.current) := under_merge hR hsn hdn.1 hsu (hl.seen pc di seen')
    refine ⟨hcu, hret, _, he.stack, fun o ho => ?_⟩
    rw [List.mem_append] at ho
    rcases ho with ho | ho
    · obtain ⟨hx, rfl⟩ := nextOuts_mem ho
      exact ⟨hn.2, under_next hR hi hret hn.1 hcu hx⟩
    · rcases branch with ⟨-, rfl⟩ | ⟨hb, v, b, hv, hb', rfl⟩
      · cases ho
      · rw [List.mem_singleton] at ho
        subst ho
        have hnb := normal_executeBranch (fun f hf => ht'.rets pc _ f hself hf) hb' hsn
        refine ⟨hnb, ?_⟩
        have := under_branch hR hi hret hn.1 hcu hsu hb hv
        have hbs : b = branchState di.instruction s := by
          unfold Instruction.executeBranch at hb'
          obtain ⟨e, he1, -⟩ := Res.bind_eq_ok.1 hb'
          have := branch_taken hb he1
          have hb2 := hb'
          change di.instruction.executeBranch s = .ok b at hb2
          rw [this] at hb2
          cases hb2; rfl
        rw [hbs]
        exact this

/-! ## Calls -/

theorem disassembled_session {src : Source} {conv : OMap ReturnConvention} (hs : OMap.Sorted conv)
    (ht : TableOk FlagsWritten conv) {asked : List (Addr × StatusFlags)} {d : Disassembler}
    (h : Disassembled src conv asked d) : Session FlagsWritten src d ∧ d.conventions = conv := by
  induction h with
  | new => exact ⟨.table .new hs ht, rfl⟩
  | call before address ok result ih =>
    refine ⟨.call ih.1 address ok result trivial, ?_⟩
    rw [← ih.2]
    unfold disassemble at result
    simp only at result
    split at result <;> cases result
    rfl

/-- A call keeps the entries below any closed listing that covers its start. -/
theorem call_low {src : Source} {T : OMap ReturnConvention} {R d d' : Disassembler} (hR : Bound src T R)
    (hd : Bound src T d) (hl : ∀ a it, d.disassembly.find a = some it → Under R a it.current) {fuel start : Nat}
    (hs : start ≤ 0x1000000) {flags : StatusFlags} (hf : Normal flags) (hu : Under R start (.init flags))
    {X : OMap StatusFlags} (hr : d.disassemble fuel src start flags = (d', .ok X)) :
    ∀ a it, d'.disassembly.find a = some it → Under R a it.current ∧
      it.instruction.ret = conventionOf T a it.instruction := by
  have h := hd.closed
  unfold disassemble at hr
  simp only at hr
  split at hr
  case h_2 => cases hr
  case h_3 => cases hr
  rename_i w hrun
  cases hr
  obtain ⟨l1, l2, l3, l4⟩ := loop_flow h hs hf hrun
  obtain ⟨h1, h2, -⟩ := begin_shape d start flags
  have hb := begin_flow h hs hf
  have hlook : ∀ a, look d (begin d start flags).fresh a = d.disassembly.find a := by
    intro a; rw [h1]; rfl
  have h0 : Low R d (begin d start flags) := by
    refine ⟨fun a it ha => hl a it (by rw [← hlook]; exact ha), fun a s ha => ?_, fun a it ha => ?_⟩
    · rw [h2] at ha
      by_cases hsa : start = a
      · subst hsa
        simp [OMap.find] at ha
        subst ha
        exact hu
      · simp [OMap.find, hsa] at ha
    · rw [hlook] at ha
      rw [hd.table]
      exact hd.rets a it ha
  obtain ⟨⟨-, i3⟩, -⟩ := run_invariant (src := src) (d := d) (I := fun w => Flow src d w ∧ Low R d w)
    (fun w w' hw h => ⟨flow_step hw.1 h, low_step (hd.table.symm ▸ hR) hw.1 hw.2 h⟩) fuel (begin d start flags) w _
    ⟨hb.1, h0⟩ hrun
  obtain ⟨f1, -⟩ := finish_look h.proper.sorted l1.tidy l2 (l4 rfl)
  intro a jt ha
  obtain ⟨it, g1, ⟨s, l, g2, g3⟩, -⟩ := f1 a jt ha
  have hcur : jt.current = it.current := by
    rw [g2]
    by_cases hfr : (w.fresh.find a).isSome
    · rw [if_pos hfr]; exact (addSuffix_rest it).2.2.1
    · rw [if_neg hfr]
  have := i3.rets a it g1
  rw [hd.table] at this
  refine ⟨by rw [hcur]; exact i3.seen a it g1, ?_⟩
  rw [g3]
  exact this

theorem disassembled_bound {src : Source} {conv : OMap ReturnConvention} (hs : OMap.Sorted conv)
    (ht : TableOk FlagsWritten conv) {asked : List (Addr × StatusFlags)} {d : Disassembler}
    (h : Disassembled src conv asked d) : Bound src conv d := by
  have hses := disassembled_session hs ht h
  refine ⟨session_closed hses.1, hses.2, ?_⟩
  induction h with
  | new => simp [Disassembler.empty, addTargetReturnConventions, OMap.find]
  | call before address ok result ih =>
    rename_i asked d d' fuel start flags X
    have hb := disassembled_session hs ht before
    have hB : Bound src conv d := ⟨session_closed hb.1, hb.2, ih hb⟩
    -- the loop's entries have their conventions, whatever lies above
    have h := hB.closed
    have hf := constructible_normal ok
    have hr := result
    unfold disassemble at hr
    simp only at hr
    split at hr
    case h_2 => cases hr
    case h_3 => cases hr
    rename_i w hrun
    cases hr
    obtain ⟨l1, l2, l3, l4⟩ := loop_flow h address hf hrun
    obtain ⟨h1, h2, -⟩ := begin_shape d start flags
    have hbf := begin_flow h address hf
    obtain ⟨⟨-, i3⟩, -⟩ := run_invariant (src := src) (d := d) (I := fun w => Flow src d w ∧
        ∀ a it, look d w.fresh a = some it → it.instruction.ret = conventionOf d.conventions a it.instruction)
      (fun w w' hw h => ⟨flow_step hw.1 h, by
        obtain ⟨pc, s, rest, it, outs, hst, hr, he⟩ := step_round hw.1.tidy.fresh h
        intro a jt hl
        rw [he.look] at hl
        by_cases ha : pc = a
        · rw [if_pos ha] at hl
          cases hl
          subst ha
          cases hr with
          | skip seen => exact hw.2 pc _ seen
          | first unseen read decoded executed visit => exact first_convention decoded visit
          | @again di _ _ _ _ seen => exact hw.2 pc di seen
        · rw [if_neg ha] at hl
          exact hw.2 a jt hl⟩) fuel (begin d start flags) w _
      ⟨hbf.1, fun a it ha => by
        unfold look at ha
        rw [h1] at ha
        rw [hB.table]
        exact hB.rets a it (by simpa [OMap.find] using ha)⟩ hrun
    obtain ⟨f1, -⟩ := finish_look h.proper.sorted l1.tidy l2 (l4 rfl)
    intro a jt ha
    obtain ⟨it, g1, ⟨s, l, g2, g3⟩, -⟩ := f1 a jt ha
    rw [g3]
    have := i3 a it g1
    rw [hB.table] at this
    exact this

/-- Where a call began, the listing covers its flags. -/
theorem disassembled_covers {src : Source} {conv : OMap ReturnConvention} (hs : OMap.Sorted conv)
    (ht : TableOk FlagsWritten conv) {asked : List (Addr × StatusFlags)} {d : Disassembler}
    (h : Disassembled src conv asked d) : ∀ p ∈ asked, Under d p.1 (.init p.2) := by
  induction h with
  | new => simp
  | call before address ok result ih =>
    rename_i asked d d' fuel start flags X
    have hB := disassembled_bound hs ht before
    have hB' := disassembled_bound hs ht (.call before address ok result)
    have hf := constructible_normal ok
    intro p hp
    rw [List.mem_cons] at hp
    rcases hp with rfl | hp
    · obtain ⟨jt, h1, h2⟩ := (disassemble_closed hB.closed address hf result).2 rfl
      exact ⟨jt, h1, h2.state (closed_normal hB'.closed h1).1 (normal_init hf)⟩
    · obtain ⟨it, h1, h2⟩ := ih p hp
      obtain ⟨jt, h3, h4⟩ := disassemble_keeps hB.closed address hf result h1
      exact ⟨jt, h3, (h4.state (closed_normal hB'.closed h3).1 (closed_normal hB.closed h1).1).trans h2⟩

/-- More calls, in whatever order, list more and know less. -/
theorem disassembled_low {src : Source} {conv : OMap ReturnConvention} (hs : OMap.Sorted conv)
    (ht : TableOk FlagsWritten conv) {asked asked' : List (Addr × StatusFlags)} {d R : Disassembler}
    (h : Disassembled src conv asked d) (h' : Disassembled src conv asked' R) (hsub : ∀ p ∈ asked, p ∈ asked') :
    ∀ a it, d.disassembly.find a = some it → Under R a it.current := by
  have hR := disassembled_bound hs ht h'
  have hc := disassembled_covers hs ht h'
  induction h with
  | new => simp [Disassembler.empty, addTargetReturnConventions, OMap.find]
  | call before address ok result ih =>
    intro a it ha
    exact (call_low hR (disassembled_bound hs ht before) (ih fun p hp => hsub p (by simp [hp])) address
      (constructible_normal ok) (hc _ (hsub _ List.mem_cons_self)) result a it ha).1

theorem bit_antisymm {b c : BitState} (h : BitAbove b c) (h' : BitAbove c b) : b = c := by
  rcases h with h | rfl
  · exact h
  · rcases h' with h' | h'
    · exact h'.symm
    · exact h'.symm

theorem flags_antisymm {f g : StatusFlags} (h : FlagsAbove f g) (h' : FlagsAbove g f) : f = g := by
  have := bit_antisymm h.e h'.e
  have := bit_antisymm h.m h'.m
  have := bit_antisymm h.x h'.x
  have := bit_antisymm h.c h'.c
  cases f; cases g
  simp_all

/-! ## Which addresses have names -/

/-- Some instruction branches to the address. -/
def Aimed (L : Nat → Option DisItem) (a : Nat) : Prop :=
  ∃ b it v, L b = some it ∧ it.instruction.isLocalBranch = true ∧ it.instruction.arg1.eval nullCtx = .ok v ∧
    a = Address.addWrapped (nextAddr b it.instruction) v

theorem Aimed.mono {L L' : Nat → Option DisItem}
    (hL : ∀ a it, L a = some it → ∃ jt s, L' a = some jt ∧ jt.instruction = { it.instruction with suffix := s })
    {a : Nat} (h : Aimed L a) : Aimed L' a := by
  obtain ⟨b, it, v, h1, h2, h3, rfl⟩ := h
  obtain ⟨jt, s, g1, g2⟩ := hL b it h1
  exact ⟨b, jt, v, g1, by rw [g2]; exact h2, by rw [g2]; exact h3, by rw [g2]; rfl⟩

theorem aimed_step {src : Source} {d : Disassembler} {w w' : Work} {start : Nat} (ht : Tidy d w) (hn : Named d w)
    (h : step src d w = .ok (some w'))
    (hl : ∀ a l, w.labels.find a = some l → a = start ∨ Aimed (look d w.fresh) a) :
    ∀ a l, w'.labels.find a = some l → a = start ∨ Aimed (look d w'.fresh) a := by
  obtain ⟨pc, s, rest, it, outs, hst, hr, he⟩ := step_round ht.fresh h
  have hself : look d w'.fresh pc = some it := by rw [he.look, if_pos rfl]
  have hother : ∀ a, pc ≠ a → look d w'.fresh a = look d w.fresh a := fun a ha => by rw [he.look, if_neg ha]
  have hgrow : ∀ a jt, look d w.fresh a = some jt →
      ∃ kt s, look d w'.fresh a = some kt ∧ kt.instruction = { jt.instruction with suffix := s } := by
    intro a jt ha
    by_cases hpa : pc = a
    · subst hpa
      refine ⟨it, jt.instruction.suffix, hself, ?_⟩
      cases hr with
      | skip seen' same far labels sym => rw [ha] at seen'; cases seen'; rfl
      | first unseen read decoded executed visit => rw [ha] at unseen; cases unseen
      | again seen' change read decoded executed far branch labels sym => rw [ha] at seen'; cases seen'; rfl
    · exact ⟨jt, jt.instruction.suffix, by rw [hother a hpa]; exact ha, rfl⟩
  have hold : ∀ a l, w.labels.find a = some l → a = start ∨ Aimed (look d w'.fresh) a :=
    fun a l ha => (hl a l ha).imp id (Aimed.mono hgrow)
  cases hr with
  | skip seen' same far labels sym => rw [labels]; exact hold
  | again seen' change read decoded executed far branch labels sym => rw [labels]; exact hold
  | first unseen read decoded executed visit =>
    rename_i bytes i0 nx0
    cases visit with
    | plain noBranch noTarget => exact hold
    | far noBranch target convention looked => exact hold
    | branch isBranch value target named taken =>
      rename_i v t b i
      intro a l ha
      rcases (getLabel_given (w := { w with stack := rest }) hn.given t).2.2.2 a l ha with rfl | h
      · refine .inr ⟨pc, _, v, hself, ?_, ?_, ?_⟩
        · simp only [named]; exact isBranch
        · simp only [named]
          rw [decode_applyLabel decoded]
          rcases decode_args_shape decoded with ⟨x, t, h⟩ | h
          · rw [h] at value ⊢; exact value
          · rw [h] at value; cases value
        · simp only [named]
          rw [target]
          rfl
      · exact hold a l h

/-- Named are the starts and what is branched to. -/
structure Names (d : Disassembler) : Prop where
  entries : OMap.Sorted d.entryPoints
  start : ∀ a, (d.entryPoints.find a).isSome → ∃ it, d.disassembly.find a = some it ∧ it.label ≠ []
  only : ∀ a it, d.disassembly.find a = some it → it.label ≠ [] →
    (d.entryPoints.find a).isSome ∨ Aimed (fun a => d.disassembly.find a) a

theorem call_names {src : Source} {d d' : Disassembler} (h : Closed src d) (hn : Names d) {fuel start : Nat}
    (hs : start ≤ 0x1000000) {flags : StatusFlags} (hf : Normal flags) {X : OMap StatusFlags}
    (hr : d.disassemble fuel src start flags = (d', .ok X)) :
    Names d' ∧ d'.entryPoints = d.entryPoints.set start () := by
  have hsorted : OMap.Sorted (d.entryPoints.set start ()) := OMap.sorted_upsert hn.entries _ _
  unfold disassemble at hr
  simp only at hr
  split at hr
  case h_2 => cases hr
  case h_3 => cases hr
  rename_i w hrun
  cases hr
  refine ⟨?_, rfl⟩
  obtain ⟨b1, b2⟩ := begin_flow h hs hf
  have bn := begin_named h.proper start flags
  obtain ⟨e1, e2, -⟩ := begin_shape d start flags
  have hlook0 : ∀ a, look d (begin d start flags).fresh a = d.disassembly.find a := by
    intro a; rw [e1]; rfl
  have hg : Given d [] d.sym := ⟨List.Pairwise.nil, by simp [OMap.find], by simp [OMap.find], by simp [OMap.find],
    Nat.le_refl _⟩
  have hgl := getLabel_given (w := push ⟨[], [], [], [], d.sym⟩ start (.init flags)) hg start
  have hlab0 : ∀ a l, (begin d start flags).labels.find a = some l →
      a = start ∨ Aimed (look d (begin d start flags).fresh) a := by
    intro a l ha
    rcases hgl.2.2.2 a l ha with h | h
    · exact .inl h
    · simp [push, OMap.find] at h
  obtain ⟨⟨i1, i2, i3, i4⟩, i5⟩ := run_invariant (src := src) (d := d)
    (I := fun w => Flow src d w ∧ Named d w ∧
      (∀ a l, w.labels.find a = some l → a = start ∨ Aimed (look d w.fresh) a) ∧
      nameAt d w.labels start = some (getLabel d (push ⟨[], [], [], [], d.sym⟩ start (.init flags)) start).1)
    (fun w w' hw h => ⟨flow_step hw.1 h, named_step hw.1.tidy hw.2.1 h, aimed_step hw.1.tidy hw.2.1 h hw.2.2.1,
      nameAt_step hw.1.tidy hw.2.1 h hw.2.2.2⟩) fuel (begin d start flags) w _ ⟨b1, bn, hlab0, hgl.2.1⟩ hrun
  have hst := i5 rfl
  obtain ⟨f1, f2⟩ := finish_look h.proper.sorted i1.tidy i2 hst
  have hgrow : ∀ a it, look d w.fresh a = some it → ∃ jt s, (finish d w).find a = some jt ∧
      jt.instruction = { it.instruction with suffix := s } := by
    intro a it ha
    obtain ⟨jt, hj⟩ := f2 a it ha
    obtain ⟨it', h1, ⟨s, l, h2, h3⟩, -⟩ := f1 a jt hj
    rw [ha] at h1; cases h1
    exact ⟨jt, s, hj, h3⟩
  have hnamed : ∀ a l, nameAt d w.labels a = some l → l ≠ [] → (∃ it, look d w.fresh a = some it) →
      ∃ jt, (finish d w).find a = some jt ∧ jt.label ≠ [] := by
    rintro a l hl hne ⟨it, ha⟩
    obtain ⟨jt, hj⟩ := f2 a it ha
    obtain ⟨-, -, -, h4⟩ := f1 a jt hj
    exact ⟨jt, hj, by rw [h4, hl]; exact hne⟩
  have hkeep : ∀ a it, d.disassembly.find a = some it → it.label ≠ [] →
      ∃ jt, (finish d w).find a = some jt ∧ jt.label ≠ [] := by
    intro b it h1 h2
    have hlk : ∃ jt, look d w.fresh b = some jt := by
      unfold look
      split
      · exact ⟨_, rfl⟩
      · exact ⟨it, h1⟩
    cases hlb : w.labels.find b with
    | some l =>
      have := i2.given.unnamed b l it hlb h1
      exact absurd this h2
    | none =>
      refine hnamed b it.label ?_ h2 hlk
      unfold nameAt
      rw [hlb, h1]
      simp [h2]
  have hgrow0 : ∀ a it, d.disassembly.find a = some it → ∃ jt s, (finish d w).find a = some jt ∧
      jt.instruction = { it.instruction with suffix := s } := by
    obtain ⟨⟨-, i6⟩, -⟩ := run_invariant (src := src) (d := d)
      (I := fun w => Flow src d w ∧ ∀ a it, d.disassembly.find a = some it →
        ∃ jt, look d w.fresh a = some jt ∧ jt.instruction = it.instruction)
      (fun w w' hw h => ⟨flow_step hw.1 h, by
        obtain ⟨pc, s, rest, it, outs, hst, hr, he⟩ := step_round hw.1.tidy.fresh h
        intro a jt ha
        obtain ⟨kt, hk, hi⟩ := hw.2 a jt ha
        rw [he.look]
        by_cases hpa : pc = a
        · subst hpa
          rw [if_pos rfl]
          refine ⟨it, rfl, ?_⟩
          cases hr with
          | skip seen' same far labels sym => rw [hk] at seen'; cases seen'; exact hi
          | first unseen read decoded executed visit => rw [hk] at unseen; cases unseen
          | again seen' change read decoded executed far branch labels sym => rw [hk] at seen'; cases seen'; exact hi
        · rw [if_neg hpa]; exact ⟨kt, hk, hi⟩⟩) fuel (begin d start flags) w _
      ⟨b1, fun a it ha => ⟨it, by rw [hlook0]; exact ha, rfl⟩⟩ hrun
    intro a it ha
    obtain ⟨jt, h1, h2⟩ := i6 a it ha
    obtain ⟨kt, s, h3, h4⟩ := hgrow a jt h1
    exact ⟨kt, s, h3, by rw [h4, h2]⟩
  refine ⟨hsorted, fun a ha => ?_, fun a jt ha hl => ?_⟩
  · simp only at ha
    rw [find_entries hn.entries] at ha
    by_cases hsa : start = a
    · subst hsa
      obtain ⟨it0, l0⟩ : ∃ it, look d w.fresh start = some it := by
        obtain ⟨-, -, l3, -⟩ := loop_flow h hs hf hrun
        obtain ⟨it, h1, -⟩ := flow_done (src := src) hst l3
        exact ⟨it, h1⟩
      refine hnamed start _ i4 ?_ ⟨it0, l0⟩
      unfold getLabel
      split
      · rename_i hx; simp [push, OMap.find] at hx
      · split
        · split
          · assumption
          · exact genSym_ne _
        · exact genSym_ne _
    · simp [hsa] at ha
      obtain ⟨it, h1, h2⟩ := hn.start a ha
      exact hkeep a it h1 h2
  · obtain ⟨it, g1, -, g3⟩ := f1 a jt ha
    simp only
    rw [find_entries hn.entries]
    rw [g3] at hl
    unfold nameAt at hl
    cases hlb : w.labels.find a with
    | some l =>
      rcases i3 a l hlb with rfl | h
      · left; simp
      · exact .inr (h.mono hgrow)
    | none =>
      rw [hlb] at hl
      simp only at hl
      cases hd : d.disassembly.find a with
      | none => rw [hd] at hl; exact absurd rfl hl
      | some it0 =>
        rw [hd] at hl
        simp only at hl
        by_cases h0 : it0.label = []
        · simp [h0] at hl
        · rcases hn.only a it0 hd h0 with h | h
          · left; rw [h, Bool.or_true]
          · exact .inr (h.mono hgrow0)

theorem disassembled_names {src : Source} {conv : OMap ReturnConvention} (hs : OMap.Sorted conv)
    (ht : TableOk FlagsWritten conv) {asked : List (Addr × StatusFlags)} {d : Disassembler}
    (h : Disassembled src conv asked d) :
    Names d ∧ ∀ a, (d.entryPoints.find a).isSome ↔ ∃ f, (a, f) ∈ asked := by
  induction h with
  | new =>
    refine ⟨⟨List.Pairwise.nil, ?_, ?_⟩, ?_⟩ <;> simp [Disassembler.empty, addTargetReturnConventions, OMap.find]
  | call before address ok result ih =>
    rename_i asked d d' fuel start flags X
    obtain ⟨h1, h2⟩ := call_names (disassembled_bound hs ht before).closed ih.1 address (constructible_normal ok) result
    refine ⟨h1, fun a => ?_⟩
    rw [h2, find_entries ih.1.entries, Bool.or_eq_true, decide_eq_true_eq, ih.2]
    constructor
    · rintro (rfl | ⟨f, h⟩)
      · exact ⟨flags, by simp⟩
      · exact ⟨f, by simp [h]⟩
    · rintro ⟨f, h⟩
      rw [List.mem_cons] at h
      rcases h with h | h
      · cases h; exact .inl rfl
      · exact .inr ⟨f, h⟩

/-! ## The same calls in another order -/

theorem aimed_same {L L' : Nat → Option DisItem}
    (h : ∀ a it, L a = some it → ∃ jt, L' a = some jt ∧ SameCode it.instruction jt.instruction) {a : Nat}
    (ha : Aimed L a) : Aimed L' a := by
  obtain ⟨b, it, v, h1, h2, h3, rfl⟩ := ha
  obtain ⟨jt, g1, g2⟩ := h b it h1
  exact ⟨b, jt, v, g1, by rw [g2.isBranch]; exact h2, g2.value h2 h3, by unfold nextAddr; rw [g2.mode]⟩

theorem disassembled_same {src : Source} {conv : OMap ReturnConvention} (hs : OMap.Sorted conv)
    (ht : TableOk FlagsWritten conv) {asked asked' : List (Addr × StatusFlags)} {d d' : Disassembler}
    (h : Disassembled src conv asked d) (h' : Disassembled src conv asked' d') (hsame : ∀ p, p ∈ asked ↔ p ∈ asked') :
    (∀ a, (d.entryPoints.find a).isSome = (d'.entryPoints.find a).isSome) ∧
    ∀ a it, d.disassembly.find a = some it → ∃ jt, d'.disassembly.find a = some jt ∧
      SameCode it.instruction jt.instruction ∧ SameEntry it jt := by
  have hB := disassembled_bound hs ht h
  have hB' := disassembled_bound hs ht h'
  have hl := disassembled_low hs ht h h' fun p hp => (hsame p).1 hp
  have hl' := disassembled_low hs ht h' h fun p hp => (hsame p).2 hp
  obtain ⟨n1, n2⟩ := disassembled_names hs ht h
  obtain ⟨n1', n2'⟩ := disassembled_names hs ht h'
  have hent : ∀ a, (d.entryPoints.find a).isSome = (d'.entryPoints.find a).isSome := by
    intro a
    rw [Bool.eq_iff_iff, n2, n2']
    exact ⟨fun ⟨f, h⟩ => ⟨f, (hsame _).1 h⟩, fun ⟨f, h⟩ => ⟨f, (hsame _).2 h⟩⟩
  have hc : ∀ a it, d.disassembly.find a = some it → ∃ jt, d'.disassembly.find a = some jt ∧
      StateAbove jt.current it.current ∧ StateAbove it.current jt.current := by
    intro a it ha
    obtain ⟨jt, h1, h2⟩ := hl a it ha
    obtain ⟨kt, h3, h4⟩ := hl' a jt h1
    rw [ha] at h3
    cases h3
    exact ⟨jt, h1, h2, h4⟩
  have hcode : ∀ a it, d.disassembly.find a = some it → ∃ jt, d'.disassembly.find a = some jt ∧
      SameCode it.instruction jt.instruction := by
    intro a it ha
    obtain ⟨jt, h1, h2, h3⟩ := hc a it ha
    exact ⟨jt, h1, (item_same hB' h1 (hB.closed.items a it ha) (hB.rets a it ha) (closed_normal hB.closed ha).1 h2).1⟩
  have hcode' : ∀ a it, d'.disassembly.find a = some it → ∃ jt, d.disassembly.find a = some jt ∧
      SameCode it.instruction jt.instruction := by
    intro a it ha
    obtain ⟨jt, h1, h2⟩ := hl' a it ha
    exact ⟨jt, h1, (item_same hB h1 (hB'.closed.items a it ha) (hB'.rets a it ha) (closed_normal hB'.closed ha).1 h2).1⟩
  refine ⟨hent, fun a it ha => ?_⟩
  obtain ⟨jt, h1, h2, h3⟩ := hc a it ha
  obtain ⟨s1, s2, s3⟩ := item_same hB' h1 (hB.closed.items a it ha) (hB.rets a it ha) (closed_normal hB.closed ha).1 h2
  obtain ⟨t1, t2, t3⟩ := item_same hB ha (hB'.closed.items a jt h1) (hB'.rets a jt h1) (closed_normal hB'.closed h1).1 h3
  refine ⟨jt, h1, s1, s1.mnemonic.symm, s1.mode.symm, ?_, s1.arg2.symm, s2.symm, flags_antisymm h3.flags h2.flags,
    flags_antisymm t3.flags s3.flags, ?_⟩
  · cases hb : it.instruction.isLocalBranch with
    | true =>
      obtain ⟨e, n, m, g1, g2⟩ := s1.branch hb
      exact .inr ⟨e, n, m, g1, g2⟩
    | false => exact .inl (s1.plain hb).symm
  · -- the labels
    have key : ∀ {d d' : Disassembler} {it jt : DisItem}, Closed src d' → Names d → Names d' →
        (∀ a, (d.entryPoints.find a).isSome = (d'.entryPoints.find a).isSome) →
        (∀ a it, d.disassembly.find a = some it → ∃ jt, d'.disassembly.find a = some jt ∧
          SameCode it.instruction jt.instruction) →
        d.disassembly.find a = some it → d'.disassembly.find a = some jt → it.label ≠ [] → jt.label ≠ [] := by
      intro d d' it jt hc' n1 n1' hent hcode ha h1 hne
      rcases n1.only a it ha hne with h | h
      · obtain ⟨kt, k1, k2⟩ := n1'.start a (by rw [← hent]; exact h)
        rw [h1] at k1
        cases k1
        exact k2
      · obtain ⟨b, kt, v, k1, k2, k3, k4⟩ := aimed_same hcode h
        obtain ⟨name, e, v', x, p1, p2, p3, p4, p5, p6⟩ := hc'.proper.branches b kt k1 k2
        have : v' = v := by
          rw [p1] at k3
          have : e.eval nullCtx = .ok v := by
            simp only [Expr.eval] at k3
            split at k3
            · cases k3
            · exact k3
          rw [p3] at this
          cases this
          rfl
        subst this
        rw [← k4, h1] at p4
        cases p4
        rw [p5]
        exact p6
    constructor
    · intro hi
      by_contra hj
      exact key hB.closed n1' n1 (fun a => (hent a).symm) hcode' h1 ha hj hi
    · intro hj
      by_contra hi
      exact key hB'.closed n1 n1' hent hcode ha h1 hi hj

end Nsasm.Confluent
