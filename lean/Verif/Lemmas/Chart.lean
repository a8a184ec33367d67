import Verif.Lemmas.Monotone
import Verif.Lemmas.DisDefined
import Verif.Lemmas.Driver

/-! # A disassembler that stays on a chart of states -/

namespace Nsasm
open Spec Props Disassembler

/-! ## Decoded instructions are consistent -/

theorem decoded_table : ∀ op : UInt8, ∀ mn md, decodeOpcode op = (mn, md) →
    (mn ≠ .padd ∧ mn ≠ .psub) ∧ isLegalCombination mn md = true ∧
    (md = .imm_fm → isLegalCombination mn .imm_b = true ∧ isLegalCombination mn .imm_w = true ∧
      immediateArgumentUsesMBit mn = true) ∧
    (md = .imm_fx → isLegalCombination mn .imm_b = true ∧ isLegalCombination mn .imm_w = true ∧
      immediateArgumentUsesMBit mn = false ∧ immediateArgumentUsesXBit mn = true) ∧
    (md = .imm_b ∨ md = .imm_w → immediateArgumentUsesMBit mn = false ∧ immediateArgumentUsesXBit mn = false) := by
  have key : ∀ op : UInt8, 
    ((decodeOpcode op).1 ≠ .padd ∧ (decodeOpcode op).1 ≠ .psub) ∧ isLegalCombination (decodeOpcode op).1 (decodeOpcode op).2 = true ∧
    ((decodeOpcode op).2 = .imm_fm → isLegalCombination (decodeOpcode op).1 .imm_b = true ∧ isLegalCombination (decodeOpcode op).1 .imm_w = true ∧
      immediateArgumentUsesMBit (decodeOpcode op).1 = true) ∧
    ((decodeOpcode op).2 = .imm_fx → isLegalCombination (decodeOpcode op).1 .imm_b = true ∧ isLegalCombination (decodeOpcode op).1 .imm_w = true ∧
      immediateArgumentUsesMBit (decodeOpcode op).1 = false ∧ immediateArgumentUsesXBit (decodeOpcode op).1 = true) ∧
    ((decodeOpcode op).2 = .imm_b ∨ (decodeOpcode op).2 = .imm_w →
      immediateArgumentUsesMBit (decodeOpcode op).1 = false ∧ immediateArgumentUsesXBit (decodeOpcode op).1 = false) := by
    apply forall_byte
    decide +kernel
  intro op mn md h
  have := key op
  rw [h] at this
  exact this

theorem decoded_consistent {bytes : List UInt8} {f : StatusFlags} {i : Instruction} (h : decode bytes f = .ok i) :
    i.checkConsistency f = .ok () := by
  rw [decode_ok_iff] at h
  obtain ⟨op, l, a, a1, a2, -, n1, n2, hmode, -, rfl⟩ := h
  obtain ⟨⟨t1, t2⟩, t3, t4, t5, t6⟩ := decoded_table op _ _ (Prod.mk.eta).symm
  generalize (decodeOpcode op).1 = mn at *
  generalize (decodeOpcode op).2 = md at *
  have hl : isLegalCombination mn a = true := by
    rcases hmode with rfl | ⟨rfl, ⟨rfl, -⟩ | ⟨rfl, -⟩⟩ | ⟨rfl, ⟨rfl, -⟩ | ⟨rfl, -⟩⟩
    · exact t3
    · exact (t4 rfl).1
    · exact (t4 rfl).2.1
    · exact (t5 rfl).1
    · exact (t5 rfl).2.1
  unfold Instruction.checkConsistency
  simp only [t1, t2, or_self, if_false, hl, Bool.not_true, Bool.false_eq_true]
  have hsuf : Instruction.checkSuffix ⟨mn, .none, a, a1, a2, .default⟩ mn f = .ok () := by
    unfold Instruction.checkSuffix
    simp
  rw [hsuf, Res.bind_ok]
  unfold Instruction.checkImmediate
  simp only [n1, n2, if_false]
  rcases hmode with rfl | ⟨rfl, ⟨rfl, hf⟩ | ⟨rfl, hf⟩⟩ | ⟨rfl, ⟨rfl, hf⟩ | ⟨rfl, hf⟩⟩
  · split
    · rename_i hbw
      obtain ⟨u1, u2⟩ := t6 hbw
      simp [u1, u2]
    · rfl
  · simp [(t4 rfl).2.2, hf]
  · simp [(t4 rfl).2.2, hf]
  · simp [(t5 rfl).2.2.1, (t5 rfl).2.2.2, hf]
  · simp [(t5 rfl).2.2.1, (t5 rfl).2.2.2, hf]

/-- Decoding the same bytes under two sets of flags gives the same, if it gives the same mode. -/
theorem decode_same {bytes : List UInt8} {f g : StatusFlags} {i j : Instruction} (hi : decode bytes f = .ok i)
    (hj : decode bytes g = .ok j) (h : i.mode = j.mode) : i = j := by
  rw [decode_ok_iff] at hi hj
  obtain ⟨op, l, a, a1, a2, rfl, -, -, -, h1, rfl⟩ := hi
  obtain ⟨op', l', a', a1', a2', h0, -, -, -, h1', rfl⟩ := hj
  cases h0
  simp only at h
  subst h
  rw [h1] at h1'
  cases h1'
  rfl

/-! ## The same instruction in a state that says more -/

/-- What the second computes, if it is defined, is below what the first computes. -/
def Over (x y : Res ExecutionState) : Prop := ∀ t, x = .ok t → y.noUb → ∃ s, y = .ok s ∧ StateAbove t s

theorem over_ok {t s : ExecutionState} (h : StateAbove t s) : Over (.ok t) (.ok s) := by
  intro t' ht _; cases ht; exact ⟨s, rfl, h⟩

theorem over_ite {c : Prop} [Decidable c] {a b a' b' : Res ExecutionState} (h : c → Over a b) (h' : ¬ c → Over a' b') :
    Over (if c then a else a') (if c then b else b') := by
  split
  · rename_i hc; exact h hc
  · rename_i hc; exact h' hc

/-- A computation that does not touch the flags and the stack, and does not fail. -/
def Keeping (es : ExecutionState) (x : Res ExecutionState) : Prop :=
  (∀ s, x = .ok s → s.flags = es.flags ∧ s.stack = es.stack) ∧ ∀ e, x ≠ .err e

theorem keeping_ok {es s : ExecutionState} (h : s.flags = es.flags ∧ s.stack = es.stack) : Keeping es (.ok s) :=
  ⟨fun s' h' => by cases h'; exact h, fun e h => by cases h⟩

theorem keeping_ite {c : Prop} [Decidable c] {es : ExecutionState} {a b : Res ExecutionState} (h : Keeping es a)
    (h' : Keeping es b) : Keeping es (if c then a else b) := by
  split
  · exact h
  · exact h'

theorem keeping_bind {α : Type} {es : ExecutionState} {x : Res α} {f : α → Res ExecutionState} (hx : ∀ e, x ≠ .err e)
    (h : ∀ v, Keeping es (f v)) : Keeping es (x >>= f) := by
  cases x with
  | ok v => exact h v
  | err e => exact absurd rfl (hx e)
  | ub u =>
    have e : ((Res.ub u : Res α) >>= f) = .ub u := rfl
    rw [e]
    exact ⟨fun s h => (by cases h), fun e h => (by cases h)⟩

theorem maybeArg_noErr (e : Expr) (ctx : Ctx) : ∀ x, Instruction.maybeArg e ctx ≠ .err x := by
  intro x h
  unfold Instruction.maybeArg at h
  split at h <;> cases h

theorem i32_noErr (v : Int) : ∀ x, i32 v ≠ .err x := by
  intro x h
  unfold i32 at h
  split at h <;> cases h

theorem add_noErr (r : RegisterValue) (o : Int) (q : Nat) : ∀ x, r.add o q ≠ .err x := by
  intro x h
  cases r with
  | value v =>
    simp only [RegisterValue.add] at h
    cases hi : i32 ((v : Int) + o) with
    | ok w => rw [hi] at h; cases h
    | err e => exact i32_noErr _ _ hi
    | ub u => rw [hi] at h; cases h
  | _ => cases h

theorem incDec_keeping (i : Instruction) (es : ExecutionState) : Keeping es (i.executeIncDec es) := by
  unfold Instruction.executeIncDec
  refine keeping_ite (keeping_ok ⟨rfl, rfl⟩) ?_
  refine keeping_ite ?_ (keeping_ite ?_ ?_) <;>
    exact keeping_bind (add_noErr _ _ _) fun v => keeping_ok ⟨rfl, rfl⟩

theorem load_keeping (i : Instruction) (es : ExecutionState) (ctx : Ctx) : Keeping es (i.executeLoad es ctx) := by
  unfold Instruction.executeLoad
  refine keeping_ite ?_ (keeping_ok ⟨rfl, rfl⟩)
  refine keeping_bind (maybeArg_noErr _ _) fun v => ?_
  exact keeping_ite (keeping_ok ⟨rfl, rfl⟩) (keeping_ite (keeping_ok ⟨rfl, rfl⟩) (keeping_ok ⟨rfl, rfl⟩))

theorem noErr_bind {α β : Type} {x : Res α} {f : α → Res β} (hx : ∀ e, x ≠ .err e) (h : ∀ v e, f v ≠ .err e) :
    ∀ e, (x >>= f) ≠ .err e := by
  intro e he
  cases x with
  | ok v => exact h v e he
  | err e' => exact hx e' rfl
  | ub u => cases he

theorem move_keeping (i : Instruction) (es : ExecutionState) (ctx : Ctx) : Keeping es (i.executeMove es ctx) := by
  unfold Instruction.executeMove
  refine keeping_bind (maybeArg_noErr _ _) fun v => ?_
  dsimp only
  refine keeping_bind ?_ fun ⟨x, y⟩ => keeping_bind (maybeArg_noErr _ _) fun w => keeping_ok ⟨rfl, rfl⟩
  cases v with
  | none => intro e h; cases h
  | some v =>
    exact noErr_bind (i32_noErr _) fun o => noErr_bind (add_noErr _ _ _) fun x =>
      noErr_bind (add_noErr _ _ _) fun y e h => by cases h

theorem over_keeping {t s : ExecutionState} (h : StateAbove t s) {x y : Res ExecutionState} (hx : Keeping t x)
    (hy : Keeping s y) : Over x y := by
  intro t' ht hn
  obtain ⟨e1, e2⟩ := hx.1 t' ht
  cases y with
  | ok s' =>
    obtain ⟨e3, e4⟩ := hy.1 s' rfl
    exact ⟨s', rfl, by rw [e1, e3]; exact h.flags, by rw [e2, e4]; exact h.stack⟩
  | err e => exact absurd rfl (hy.2 e)
  | ub u => exact hn.elim

theorem pushWord_over {s t : Stack} (h : StackAbove s t) (o o' : Option Int) :
    StackAbove (s.pushWord o) (t.pushWord o') := by
  have key : ∀ v w : StackValue, varOf v = none → varOf w = none → (∀ f, v ≠ .flags f) → EntryAbove v w :=
    fun v w hv hw hf => .plain (hv.trans hw.symm) hf
  have e1 : ∀ (v : StackValue), v = .unknown ∨ (∃ b, v = .byte b) → varOf v = none ∧ ∀ f, v ≠ .flags f := by
    rintro v (rfl | ⟨b, rfl⟩) <;> exact ⟨rfl, fun f h => by cases h⟩
  have e2 : ∀ (s : Stack) (o : Option Int), ∃ v w, s.pushWord o = (s.push v).push w ∧
      (v = .unknown ∨ ∃ b, v = .byte b) ∧ (w = .unknown ∨ ∃ b, w = .byte b) := by
    intro s o
    cases o with
    | none => exact ⟨_, _, rfl, .inl rfl, .inl rfl⟩
    | some v => exact ⟨_, _, rfl, .inr ⟨_, rfl⟩, .inr ⟨_, rfl⟩⟩
  obtain ⟨v, w, h1, h2, h3⟩ := e2 s o
  obtain ⟨v', w', h1', h2', h3'⟩ := e2 t o'
  rw [h1, h1']
  exact push_mono (push_mono h (key _ _ (e1 _ h2).1 (e1 _ h2').1 (e1 _ h2).2)) (key _ _ (e1 _ h3).1 (e1 _ h3').1 (e1 _ h3).2)

theorem pullVarsize_noErr (s : Stack) : ∀ e, s.pullVarsize ≠ .err e := by
  intro e h
  unfold Stack.pullVarsize at h
  repeat' split at h
  all_goals cases h

theorem pullReg_noErr (s : Stack) (r : RegName) (b : BitState) : ∀ e, s.pullReg r b ≠ .err e := by
  intro e h
  cases s with
  | abandoned => cases h
  | live l =>
    cases b with
    | off => rw [pullReg_off] at h; cases h
    | on => rw [pullReg_on] at h; cases h
    | unknown => cases h
    | original =>
      simp only [Stack.pullReg] at h
      refine noErr_bind (pullVarsize_noErr _) ?_ e h
      intro v e h
      repeat' split at h
      all_goals cases h

/-- A pull of a size that is not known leaves nothing known. -/
theorem pullReg_loose {s s' : Stack} {r : RegName} {b : BitState} (hb : b = .unknown ∨ b = .original) {v : RegisterValue}
    (h : s.pullReg r b = .ok (v, s')) : s' = .abandoned := by
  cases s with
  | abandoned => cases h; rfl
  | live l =>
    rcases hb with rfl | rfl
    · cases h; rfl
    · simp only [Stack.pullReg] at h
      obtain ⟨x, -, h⟩ := Res.bind_eq_ok.1 h
      repeat' split at h
      all_goals cases h
      all_goals rfl

theorem pullReg_over {s t : Stack} (h : StackAbove s t) (r : RegName) {b c : BitState} (hb : BitAbove b c)
    {v : RegisterValue} {s' : Stack} (hp : s.pullReg r b = .ok (v, s')) (hn : (t.pullReg r c).noUb) :
    ∃ w t', t.pullReg r c = .ok (w, t') ∧ StackAbove s' t' := by
  obtain ⟨w, t', ht⟩ : ∃ w t', t.pullReg r c = .ok (w, t') := by
    cases ht : t.pullReg r c with
    | ok x => exact ⟨x.1, x.2, rfl⟩
    | err e => exact absurd ht (pullReg_noErr _ _ _ e)
    | ub u => rw [ht] at hn; exact hn.elim
  refine ⟨w, t', ht, ?_⟩
  by_cases hk : b = .on ∨ b = .off
  · have hc : c = b := hb.known hk
    subst hc
    obtain ⟨w', t'', h1, h2, -⟩ := pullReg_mono h hk hp
    rw [h1] at ht
    cases ht
    exact h2
  · have : s' = .abandoned := by
      refine pullReg_loose ?_ hp
      cases b <;> simp_all
    rw [this]
    exact .abandoned

/-- What REP and SEP do to one bit when only the first does not know whether. -/
theorem guarded_some {b c : BitState} (h : BitAbove b c) {f g u v : StatusFlags} {t : BitState} (ht : t ≠ .unknown)
    (hs : FlagsAbove f g) (hu : FlagsAbove u v) (hug : FlagsAbove u g) (hv : c = t → v = g) (p : Prop) [Decidable p] :
    FlagsAbove (if b ≠ t then u else f) (if p then v else g) := by
  by_cases hb : b = t
  · have hc : c = t := by
      rcases h with h | h
      · exact h ▸ hb
      · exact absurd (hb.symm.trans h) ht
    rw [if_neg (by simpa using hb), hv hc, ite_self]
    exact hs
  · rw [if_pos hb]
    split
    · exact hu
    · exact hug

theorem repSep_none {f g : StatusFlags} (hg : Normal g) (h : FlagsAbove f g) {t : BitState} (ht : t ≠ .unknown)
    (arg : Option Int) : FlagsAbove (Instruction.executeRepSep f t none) (Instruction.executeRepSep g t arg) := by
  cases arg with
  | none => exact repSep_mono hg h ht none
  | some v =>
    unfold Instruction.executeRepSep
    have h1 := guarded_some h.c ht h (setC_mono h (b := .unknown) (c := t) .unk) (u := f.setC .unknown)
      ⟨h.e, h.m, h.x, .unk⟩ (fun e => by unfold StatusFlags.setC; rw [← e]) (Instruction.bitSet v 0 = true)
    simp only
    generalize hf1 : (if f.c ≠ t then f.setC .unknown else f) = f1 at h1 ⊢
    generalize hg1 : (if Instruction.bitSet v 0 = true then g.setC t else g) = g1 at h1 ⊢
    have hn1 : Normal g1 := by rw [← hg1]; split <;> exact hg
    have h2 := guarded_some h1.x ht h1 (setX_mono h1 (b := .unknown) (c := t) .unk) (unk_x hn1 h1)
      (fun e => by unfold StatusFlags.setX; rw [← e, hn1.2]) (Instruction.bitSet v 4 = true)
    generalize hf2 : (if f1.x ≠ t then f1.setX .unknown else f1) = f2 at h2 ⊢
    generalize hg2 : (if Instruction.bitSet v 4 = true then g1.setX t else g1) = g2 at h2 ⊢
    have hn2 : Normal g2 := by rw [← hg2]; split; exact normal_setX hn1 _; exact hn1
    exact guarded_some h2.m ht h2 (setM_mono h2 (b := .unknown) (c := t) .unk) (unk_m hn2 h2)
      (fun e => by unfold StatusFlags.setM; rw [← e, hn2.1]) (Instruction.bitSet v 5 = true)

/-- The arguments of `i` and `j` say the same about the flags: the byte is the same, as far as it is known. -/
def SameByte (i j : Instruction) : Prop :=
  i.mnemonic = .rep ∨ i.mnemonic = .sep → ∀ v, i.arg1.eval nullCtx = .ok v → ∃ w, j.arg1.eval nullCtx = .ok w ∧ v % 256 = w % 256

theorem bitSet_byte {v w : Int} (h : v % 256 = w % 256) {n : Nat} (hn : n = 0 ∨ n = 4 ∨ n = 5) :
    Instruction.bitSet v n = Instruction.bitSet w n := by
  unfold Instruction.bitSet
  rcases hn with rfl | rfl | rfl <;> simp <;> omega

theorem repSep_over {f g : StatusFlags} (hg : Normal g) (h : FlagsAbove f g) {t : BitState} (ht : t ≠ .unknown)
    {a b : Option Int} (hab : ∀ v, a = some v → ∃ w, b = some w ∧ v % 256 = w % 256) :
    FlagsAbove (Instruction.executeRepSep f t a) (Instruction.executeRepSep g t b) := by
  cases a with
  | none => exact repSep_none hg h ht b
  | some v =>
    obtain ⟨w, rfl, e⟩ := hab v rfl
    have : Instruction.executeRepSep g t (some w) = Instruction.executeRepSep g t (some v) := by
      unfold Instruction.executeRepSep
      simp only
      rw [bitSet_byte e (.inl rfl), bitSet_byte e (.inr (.inl rfl)), bitSet_byte e (.inr (.inr rfl))]
    rw [this]
    exact repSep_mono hg h ht _

theorem over_arg {e e' : Expr} {f g : Option Int → Res ExecutionState}
    (h : ∀ a b, (∀ v, a = some v → e.eval nullCtx = .ok v) →
      (∀ v, e'.eval nullCtx = .ok v → b = some v) → Over (f a) (g b)) :
    Over (Instruction.maybeArg e nullCtx >>= f) (Instruction.maybeArg e' nullCtx >>= g) := by
  intro t ht hn
  obtain ⟨a, ha, ht⟩ := Res.bind_eq_ok.1 ht
  cases hb : Instruction.maybeArg e' nullCtx with
  | err x => exact absurd hb (maybeArg_noErr _ _ x)
  | ub u => rw [hb] at hn; exact hn.elim
  | ok b =>
    rw [hb] at hn
    rw [Res.bind_ok] at hn ⊢
    refine h a b ?_ ?_ t ht hn
    · rintro v rfl
      unfold Instruction.maybeArg at ha
      split at ha <;> simp_all
    · intro v hv
      unfold Instruction.maybeArg at hb
      rw [hv] at hb
      cases hb
      rfl

theorem over_pull {s t : ExecutionState} (h : StateAbove s t) (r : RegName) {b c : BitState} (hb : BitAbove b c)
    {f g : RegisterValue × Stack → Res ExecutionState}
    (hfg : ∀ v w st st', StackAbove st st' → Over (f (v, st)) (g (w, st'))) :
    Over (s.stack.pullReg r b >>= f) (t.stack.pullReg r c >>= g) := by
  intro u hu hn
  obtain ⟨⟨v, st⟩, hv, hu⟩ := Res.bind_eq_ok.1 hu
  have hn' : (t.stack.pullReg r c).noUb := by
    cases hp : t.stack.pullReg r c with
    | ub x => rw [hp] at hn; exact hn.elim
    | ok => trivial
    | err => trivial
  obtain ⟨w, st', h1, h2⟩ := pullReg_over h.stack r hb hv hn'
  rw [h1, Res.bind_ok] at hn ⊢
  exact hfg v w st st' h2 u hu hn

theorem execute_over {i j : Instruction} {t s t' : ExecutionState} (h : StateAbove t s) (hn : NormalState s)
    (hm : j.mnemonic = i.mnemonic) (hc : j.checkConsistency s.flags = .ok ()) (hi : i.ret = .default) (hj : j.ret = .default)
    (hb : SameByte i j) (hx : i.execute t nullCtx = .ok t') (hu : (j.execute s nullCtx).noUb) :
    ∃ s', j.execute s nullCtx = .ok s' ∧ StateAbove t' s' := by
  have hct := checkConsistency_of_execute' hx
  refine (?_ : Over (i.execute t nullCtx) (j.execute s nullCtx)) t' hx hu
  unfold Instruction.execute
  rw [hc, hct, Res.bind_ok, Res.bind_ok, hm]
  extract_lets m
  have hmm : m = i.mnemonic := rfl
  clear_value m
  refine over_ite (fun g => over_ok ⟨setC_mono h.flags .rfl', h.stack⟩) (fun _ => ?_)
  refine over_ite (fun g => over_ok ⟨setC_mono h.flags .rfl', h.stack⟩) (fun _ => ?_)
  refine over_ite (fun g => over_arg fun a b ha hb' => over_ok ⟨repSep_over hn.1 h.flags (by split <;> simp) ?_, h.stack⟩)
    (fun _ => ?_)
  · intro v hv
    obtain ⟨w, hw, e⟩ := hb (hmm ▸ g) v (ha v hv)
    exact ⟨w, hb' w hw, e⟩
  refine over_ite (fun g => over_ok ⟨setC_mono h.flags .rfl', h.stack⟩) (fun _ => ?_)
  refine over_ite (fun g => over_ok ⟨setC_mono h.flags .rfl', h.stack⟩) (fun _ => ?_)
  refine over_ite (fun g => over_ok ⟨h.flags, h.stack⟩) (fun _ => ?_)
  refine over_ite (fun g => over_keeping h (incDec_keeping _ _) (incDec_keeping _ _)) (fun _ => ?_)
  refine over_ite (fun g => over_keeping h (load_keeping _ _ _) (load_keeping _ _ _)) (fun _ => ?_)
  refine over_ite (fun g => over_keeping h (move_keeping _ _ _) (move_keeping _ _ _)) (fun _ => ?_)
  refine over_ite (fun g => over_arg fun a b _ _ => over_ok ⟨h.flags, pushWord_over h.stack _ _⟩) (fun _ => ?_)
  refine over_ite (fun g => over_ok ⟨h.flags, pushWord_mono h.stack none⟩) (fun _ => ?_)
  refine over_ite (fun g => over_ok ⟨h.flags, pushReg_mono h.stack _ _ h.flags.m _⟩) (fun _ => ?_)
  refine over_ite (fun g => over_ok ⟨h.flags, pushReg_mono h.stack _ _ h.flags.x _⟩) (fun _ => ?_)
  refine over_ite (fun g => over_ok ⟨h.flags, pushReg_mono h.stack _ _ h.flags.x _⟩) (fun _ => ?_)
  refine over_ite (fun g => over_pull h _ h.flags.m fun v w st st' hs => over_ok ⟨h.flags, hs⟩) (fun _ => ?_)
  refine over_ite (fun g => over_pull h _ h.flags.x fun v w st st' hs => over_ok ⟨h.flags, hs⟩) (fun _ => ?_)
  refine over_ite (fun g => over_pull h _ h.flags.x fun v w st st' hs => over_ok ⟨h.flags, hs⟩) (fun _ => ?_)
  refine over_ite (fun g => over_ok ⟨h.flags, push_mono h.stack ⟨rfl, fun f hf => by cases hf; exact ⟨_, rfl, h.flags⟩⟩⟩)
    (fun _ => ?_)
  refine over_ite (fun g => over_ok (pullFlags_mono h)) (fun _ => ?_)
  refine over_ite (fun g => over_ok ⟨exchangeCE_mono h.flags, h.stack⟩) (fun _ => ?_)
  refine over_ite (fun g => over_ok ⟨?_, h.stack⟩) (fun _ => over_ok h)
  show FlagsAbove ((i.ret.yieldFlags.getD t.flags).setC .unknown) ((j.ret.yieldFlags.getD s.flags).setC .unknown)
  rw [hi, hj]
  exact setC_mono h.flags .rfl'

/-! ## Charts -/

/-- The chart has a state for the address, and it says no more than `s`. -/
def Covered (T : Nat → ExecutionState → Prop) (a : Nat) (s : ExecutionState) : Prop := ∃ t, T a t ∧ StateAbove t s

/-- States at addresses such that the instructions there lead from what they cover to what they cover. -/
structure Chart (src : Source) (T : Nat → ExecutionState → Prop) : Prop where
  unique : ∀ a t t', T a t → T a t' → t = t'
  normal : ∀ a t, T a t → NormalState t
  code : ∀ a t, T a t → ∃ bytes i0, src a 4 = .ok bytes ∧ ∀ s, NormalState s → Fine True s → StateAbove t s →
    ∃ nx, decode bytes s.flags = .ok i0 ∧ i0.execute s nullCtx = .ok nx ∧
      (i0.isExitInstruction = false → Covered T (nextAddr a i0) nx) ∧
      (i0.isLocalBranch = true → ∀ v, i0.arg1.eval nullCtx = .ok v →
        Covered T (Address.addWrapped (nextAddr a i0) v) (branchState i0 s))

theorem Chart.merge {src : Source} {T : Nat → ExecutionState → Prop} (hT : Chart src T) {a : Nat} {s s' : ExecutionState}
    (hs : NormalState s) (hs' : NormalState s') (h : Covered T a s) (h' : Covered T a s') : Covered T a (s.merge s') := by
  obtain ⟨t, h1, h2⟩ := h
  obtain ⟨t', h1', h2'⟩ := h'
  cases hT.unique a t t' h1 h1'
  exact ⟨t, h1, state_join (hT.normal a t h1) hs hs' h2 h2'⟩

/-- What is recorded and what is to be visited is on the chart. -/
structure OnChart (src : Source) (T : Nat → ExecutionState → Prop) (d : Disassembler) (w : Work) : Prop where
  flow : Flow src d w
  fine : AllFine True d w
  items : ∀ a it, look d w.fresh a = some it → Covered T a it.current ∧ it.instruction.ret = .default ∧
    it.instruction.suffix = .none
  stack : ∀ a s, w.stack.find a = some s → Covered T a s

theorem shown_cases {i0 i : Instruction} (h : Shows i0 i) (hr : i.ret = i0.ret) (hs : i.suffix = i0.suffix) :
    i = i0 ∨ i0.isLocalBranch = true ∧ ∃ e, i = { i0 with arg1 := e } := by
  obtain ⟨h1, h2, h3, h4, h5⟩ := h
  obtain ⟨m, sf, md, a1, a2, r⟩ := i
  simp only at h1 h2 h3 h4 h5 hr hs
  subst h1 h2 h3 hr hs
  by_cases hb : MayBranch i0
  · exact .inr ⟨(mayBranch_iff i0).2 hb, a1, rfl⟩
  · left
    rw [h5 hb]

theorem shown_execute {i0 i : Instruction} (h : Shows i0 i) (hr : i.ret = i0.ret) (hs : i.suffix = i0.suffix)
    {s nx : ExecutionState} (hx : i0.execute s nullCtx = .ok nx) : i.execute s nullCtx = .ok nx := by
  rcases shown_cases h hr hs with rfl | ⟨hb, e, rfl⟩
  · exact hx
  · exact execute_relabel e hb hx

theorem visitNew_ok {src : Source} {d : Disassembler} {w : Work} {pc : Nat} {s nx : ExecutionState} {bytes : List UInt8}
    {i0 : Instruction} (hb : src pc 4 = .ok bytes) (hd : decode bytes s.flags = .ok i0)
    (hx : i0.execute s nullCtx = .ok nx) : ∃ w', visitNew src d w pc s = .ok w' := by
  unfold visitNew
  rw [hb, Res.bind_ok, hd, Res.bind_ok]
  simp only
  rw [hx, Res.bind_ok]
  obtain ⟨t, ht⟩ := like_far hd (like_self i0) pc
  have hf : ∃ i nx' w', farVisit d w pc i0 nx = .ok (i, nx', w') ∧ ∃ r, i = { i0 with ret := r } := by
    unfold farVisit
    rw [ht, Res.bind_ok]
    cases t with
    | none => exact ⟨i0, nx, w, rfl, i0.ret, rfl⟩
    | some t =>
      simp only
      refine ⟨_, _, _, rfl, ?_⟩
      split
      · split
        · exact ⟨_, rfl⟩
        · exact ⟨i0.ret, rfl⟩
      · exact ⟨i0.ret, rfl⟩
  obtain ⟨i, nx', w', hf, r, rfl⟩ := hf
  rw [hf, Res.bind_ok]
  simp only
  have hbv : ∃ y, branchVisit d w' (Address.addWrapped pc (instructionLength i0.mode)) { i0 with ret := r } s = .ok y := by
    unfold branchVisit
    split
    · rename_i hbr
      have hbr0 : i0.isLocalBranch = true := hbr
      obtain ⟨v, hv⟩ := like_offset hd (like_self i0) hbr0
      rw [show evalUnchecked ({ i0 with ret := r } : Instruction).arg1 = .ok v from hv, Res.bind_ok]
      simp only
      generalize (getLabel d w' (Address.addWrapped (Address.addWrapped pc (instructionLength i0.mode)) v)).1 = lab
      have hex : ∃ nx', ({ i0 with arg1 := i0.arg1.applyLabel lab, ret := r } : Instruction).execute s nullCtx = .ok nx' := by
        have h1 := execute_relabel (i0.arg1.applyLabel lab) hbr0 hx
        have hm := branch_accepted hbr0 hx
        unfold Instruction.execute at h1 ⊢
        obtain ⟨⟨⟩, hc, h1⟩ := Res.bind_eq_ok.1 h1
        have hc' : ({ i0 with arg1 := i0.arg1.applyLabel lab, ret := r } : Instruction).checkConsistency s.flags = .ok () := hc
        rw [hc', Res.bind_ok]
        simp only [List.mem_cons, List.not_mem_nil, or_false] at hm
        rcases hm with hm | hm | hm | hm | hm | hm | hm | hm | hm | hm <;> simp [hm]
      obtain ⟨nx', hex⟩ := hex
      have htk := branch_taken (i := { i0 with arg1 := i0.arg1.applyLabel lab, ret := r }) hbr hex
      rw [htk, Res.bind_ok]
      exact ⟨_, rfl⟩
    · exact ⟨_, rfl⟩
  obtain ⟨⟨i, w''⟩, hbv⟩ := hbv
  rw [hbv, Res.bind_ok]
  simp only
  split
  · exact ⟨_, rfl⟩
  · exact ⟨_, rfl⟩

theorem visitOld_ok {src : Source} {w : Work} {pc : Nat} {s nx : ExecutionState} {di : DisItem} {bytes : List UInt8}
    {i0 : Instruction} (hb : src pc 4 = .ok bytes) (hd : decode bytes (s.merge di.current).flags = .ok i0)
    (hl : Like i0 di.instruction) (hx : di.instruction.execute (s.merge di.current) nullCtx = .ok nx)
    {nx' : ExecutionState} (hs : di.instruction.execute s nullCtx = .ok nx') : ∃ w', visitOld src w pc s di = .ok w' := by
  unfold visitOld
  simp only
  split
  · exact ⟨_, rfl⟩
  · have h1 : redecode src pc (s.merge di.current).flags = .ok () := by
      unfold redecode
      rw [hb]
      simp only
      rw [hd, Res.bind_ok]
    rw [h1, Res.bind_ok, hx, Res.bind_ok]
    obtain ⟨t, ht⟩ := like_far hd hl pc
    have h2 : ∀ w, ∃ w', farRevisit w pc di.instruction nx = .ok w' := by
      intro w
      unfold farRevisit
      rw [ht, Res.bind_ok]
      cases t <;> exact ⟨_, rfl⟩
    generalize (if di.instruction.isExitInstruction = true then
      ({ w with fresh := w.fresh.set pc { di with current := s.merge di.current, next := nx } } : Work) else _) = w1
    obtain ⟨w2, h2⟩ := h2 w1
    rw [h2, Res.bind_ok]
    unfold branchRevisit
    split
    · rename_i hbr
      rw [branch_taken hbr hs, Res.bind_ok]
      obtain ⟨v, hv⟩ := like_offset hd hl hbr
      rw [hv, Res.bind_ok]
      exact ⟨_, rfl⟩
    · exact ⟨_, rfl⟩

theorem onChart_steps {src : Source} {T : Nat → ExecutionState → Prop} (hT : Chart src T) {d : Disassembler} {w : Work}
    (h : OnChart src T d w) : ∃ o, step src d w = .ok o := by
  unfold step
  split
  · exact ⟨_, rfl⟩
  · rename_i pc s rest hst
    have hfind : w.stack.find pc = some s := by rw [hst]; simp [OMap.find]
    have hs := h.fine.2 pc s hfind
    have hn := h.flow.tidy.states.2 pc s hfind
    obtain ⟨t, hTt, hab⟩ := h.stack pc s hfind
    obtain ⟨bytes, i0, hb, hcode⟩ := hT.code pc t hTt
    simp only
    have hl := getInstruction_look d { w with stack := rest } pc
    split
    · rename_i w1 hg
      obtain ⟨nx, h1, h2, -⟩ := hcode s hn hs hab
      obtain ⟨w', hw⟩ := visitNew_ok (d := d) (w := w1) hb h1 h2
      rw [hw]
      exact ⟨_, rfl⟩
    · rename_i di w1 hg
      rw [hg] at hl
      have hlk : look d w.fresh pc = some di := hl.symm
      obtain ⟨hcov, hret, hsuf⟩ := h.items pc di hlk
      have hit := h.flow.items pc di hlk
      have hnc := (item_normal h.flow.tidy hlk hit).1
      obtain ⟨t', hT', hab'⟩ := hT.merge hn hnc ⟨t, hTt, hab⟩ hcov
      cases hT.unique _ _ _ hTt hT'
      obtain ⟨nx1, c1, c2, -⟩ := hcode _ (normal_merge hn) (fine_merge hs) hab'
      obtain ⟨nx2, e1, e2, -⟩ := hcode s hn hs hab
      obtain ⟨bytes', i1, hb', hd, hsh⟩ := hit.bytes
      rw [hb] at hb'; cases hb'
      have m1 := decode_merged hnc.1 c1
      rw [hd] at m1; cases m1
      have hx1 := shown_execute hsh (hret.trans (decode_ret hd).1.symm) (hsuf.trans (decode_ret hd).2.symm) c2
      have hx2 := shown_execute hsh (hret.trans (decode_ret hd).1.symm) (hsuf.trans (decode_ret hd).2.symm) e2
      obtain ⟨w', hw⟩ := visitOld_ok (w := w1) hb c1 (shows_like hsh) hx1 hx2
      rw [hw]
      exact ⟨_, rfl⟩

theorem pushAll_covered {src : Source} {T : Nat → ExecutionState → Prop} (hT : Chart src T) :
    ∀ (outs : List (Nat × ExecutionState)) {st : OMap ExecutionState}, OMap.Sorted st →
    (∀ a s, st.find a = some s → NormalState s ∧ Covered T a s) → (∀ o ∈ outs, NormalState o.2 ∧ Covered T o.1 o.2) →
    ∀ a s, (pushAll st outs).find a = some s → Covered T a s := by
  intro outs
  induction outs with
  | nil => intro st _ h _ a s ha; exact (h a s ha).2
  | cons o os ih =>
    intro st hs h ho
    refine ih (OMap.sorted_upsert (f := fun old => ExecutionState.merge old o.2) hs o.1 o.2) ?_
      (fun o' h' => ho o' (by simp [h']))
    intro a s ha
    rw [OMap.find_upsert hs] at ha
    obtain ⟨ho1, ho2⟩ := ho o (by simp)
    by_cases hoa : o.1 = a
    · rw [if_pos hoa] at ha
      cases hf : st.find o.1 with
      | none => rw [hf] at ha; cases ha; exact ⟨ho1, hoa ▸ ho2⟩
      | some t =>
        rw [hf] at ha; cases ha
        obtain ⟨h1, h2⟩ := h _ _ hf
        exact ⟨normal_merge h1, hoa ▸ hT.merge h1 ho1 h2 ho2⟩
    · rw [if_neg hoa] at ha; exact h a s ha

theorem shown_exit {i0 i : Instruction} (h : Shows i0 i) (hr : i.ret = i0.ret) :
    i.isExitInstruction = i0.isExitInstruction := by
  unfold Instruction.isExitInstruction
  rw [h.mnemonic, hr]

theorem shown_branch {i0 i : Instruction} (h : Shows i0 i) : i.isLocalBranch = i0.isLocalBranch := by
  unfold Instruction.isLocalBranch
  rw [h.mnemonic, h.mode]

theorem shown_next {i0 i : Instruction} (h : Shows i0 i) (a : Nat) : nextAddr a i = nextAddr a i0 := by
  unfold nextAddr
  rw [h.mode]

theorem shown_branchState {i0 i : Instruction} (h : Shows i0 i) (s : ExecutionState) :
    branchState i s = branchState i0 s := by
  unfold branchState
  rw [h.mnemonic]

theorem shown_eval {bytes : List UInt8} {f : StatusFlags} {i0 i : Instruction} (hd : decode bytes f = .ok i0)
    (h : Shows i0 i) {v : Int} (hv : i.arg1.eval nullCtx = .ok v) : i0.arg1.eval nullCtx = .ok v :=
  (like_eval hd (shows_like h)).2.2 v hv

theorem onChart_step {src : Source} {T : Nat → ExecutionState → Prop} (hT : Chart src T) {d : Disassembler} {w w' : Work}
    (hconv : d.conventions = []) (h : OnChart src T d w) (hstep : step src d w = .ok (some w')) : OnChart src T d w' := by
  have hf' := flow_step h.flow hstep
  have hfi' := fine_step h.flow h.fine hstep
  have hnc := noConventions_step hconv h.flow.tidy (fun a it ha => (h.items a it ha).2.1) hstep
  obtain ⟨pc, s, rest, it, outs, hst, hr, he⟩ := step_round h.flow.tidy.fresh hstep
  have hfind : w.stack.find pc = some s := by rw [hst]; simp [OMap.find]
  have hs := h.fine.2 pc s hfind
  have hn := h.flow.tidy.states.2 pc s hfind
  have hcov := h.stack pc s hfind
  have hsorted := h.flow.tidy.stack
  rw [hst] at hsorted
  have hrest : OMap.Sorted rest := by
    unfold OMap.Sorted at hsorted; rw [List.pairwise_cons] at hsorted; exact hsorted.2
  have hrf : ∀ a s, OMap.find rest a = some s → NormalState s ∧ Covered T a s := by
    intro a t hat
    have : w.stack.find a = some t := by
      rw [hst]
      unfold OMap.Sorted at hsorted
      rw [List.pairwise_cons] at hsorted
      have := hsorted.1 _ (OMap.mem_of_find hat)
      simp only at this
      rw [OMap.find, if_neg (by omega)]
      exact hat
    exact ⟨h.flow.tidy.states.2 a t this, h.stack a t this⟩
  have hself : look d w'.fresh pc = some it := by rw [he.look, if_pos rfl]
  have hitem := hf'.items pc it hself
  have hnit := item_normal hf'.tidy hself hitem
  have hfit := hfi'.1 pc it hself
  have hretit := hnc pc it hself
  suffices hpc : Covered T pc it.current ∧ it.instruction.suffix = .none ∧
      ∀ a s, w'.stack.find a = some s → Covered T a s by
    refine ⟨hf', hfi', fun a jt ha => ?_, hpc.2.2⟩
    by_cases hx : pc = a
    · subst hx; rw [hself] at ha; cases ha; exact ⟨hpc.1, hretit, hpc.2.1⟩
    · have ha' := ha
      rw [he.look, if_neg hx] at ha
      exact h.items a jt ha
  -- what leaves the instruction
  have hleave : ∀ c, NormalState c → Fine True c → Covered T pc c → ∀ nx, it.instruction.suffix = .none →
      it.instruction.execute c nullCtx = .ok nx →
      (it.instruction.isExitInstruction = false → Covered T (nextAddr pc it.instruction) nx) ∧
      (it.instruction.isLocalBranch = true → ∀ v, it.instruction.arg1.eval nullCtx = .ok v →
        Covered T (Address.addWrapped (nextAddr pc it.instruction) v) (branchState it.instruction c)) := by
    intro c hcn hcf hcc nx hsuf hx
    obtain ⟨t, hTt, hab⟩ := hcc
    obtain ⟨bytes, i0, hb, hcode⟩ := hT.code pc t hTt
    obtain ⟨nx', c1, c2, c3, c4⟩ := hcode c hcn hcf hab
    obtain ⟨bytes', i1, hb', hd, hsh⟩ := hitem.bytes
    rw [hb] at hb'; cases hb'
    have e : i1 = i0 := by
      by_cases hcur : Covered T pc it.current
      · obtain ⟨t', hT', hab'⟩ := hcur
        cases hT.unique _ _ _ hTt hT'
        obtain ⟨-, e1, -⟩ := hcode _ hnit.1 hfit hab'
        rw [hd] at e1; cases e1; rfl
      · exfalso
        refine hcur ?_
        obtain ⟨-, -, -, -, hc⟩ := round_outs h.flow.tidy hst hr he
        rw [hc]
        split
        · rename_i di hdi
          exact hT.merge hn (item_normal h.flow.tidy hdi (h.flow.items pc di hdi)).1 hcov (h.items pc di hdi).1
        · exact hcov
    subst e
    have hrr := hretit.trans (decode_ret hd).1.symm
    have hss := hsuf.trans (decode_ret hd).2.symm
    have := shown_execute hsh hrr hss c2
    rw [hx] at this; cases this
    rw [shown_exit hsh hrr, shown_branch hsh, shown_next hsh, shown_branchState hsh]
    exact ⟨c3, fun hb v hv => c4 hb v (shown_eval hd hsh hv)⟩
  cases hr with
  | skip seen same far labels sym =>
    obtain ⟨k1, k2, k3⟩ := h.items pc it seen
    refine ⟨k1, k3, fun a t ha => ?_⟩
    rw [he.stack] at ha
    exact (hrf a t ha).2
  | first unseen read decoded executed visit =>
    obtain ⟨hi1, -, -, hi4, hi5, -, hi7, -⟩ := first_item visit
    have hsuf : it.instruction.suffix = .none := hi7.trans (decode_ret decoded).2
    have hcc : Covered T pc it.current := hi1 ▸ hcov
    refine ⟨hcc, hsuf, ?_⟩
    obtain ⟨l1, l2⟩ := hleave it.current hnit.1 hfit hcc it.next hsuf hitem.next
    obtain ⟨bo, he', hbo⟩ := first_effect h.flow.tidy.fresh visit
    rw [he'.stack]
    refine pushAll_covered hT _ hrest hrf ?_
    intro o ho
    rw [List.mem_append] at ho
    rcases ho with ho | ho
    · rcases hbo with ⟨hb0, v, b, hv, hnm, hb, rfl⟩ | ⟨-, rfl⟩
      · rw [List.mem_singleton] at ho
        subst ho
        have hlb : it.instruction.isLocalBranch = true := by rw [hnm]; exact hb0
        rw [branch_taken hlb (hi1 ▸ hitem.next)] at hb
        cases hb
        refine ⟨branchState_normal hn, ?_⟩
        have hv' : it.instruction.arg1.eval nullCtx = .ok v := by
          rw [hnm]
          simp only
          rw [decode_applyLabel decoded]
          obtain ⟨vv, tt, hlit⟩ := decode_offset decoded ((mayBranch_iff _).1 hb0)
          rw [hlit] at hv ⊢
          simpa [Expr.mkLit, Expr.eval] using hv
        have := l2 hlb v hv'
        rw [hi1] at this
        rw [show nextAddr pc it.instruction = _ from by unfold nextAddr; rw [hi5]] at this
        exact this
      · cases ho
    · obtain ⟨hx, rfl⟩ := nextOuts_mem ho
      exact ⟨hnit.2, l1 hx⟩
  | again seen change read decoded executed far branch labels sym =>
    rename_i di bytes i0 nx bo
    obtain ⟨k1, k2, k3⟩ := h.items pc di seen
    have hdn := (item_normal h.flow.tidy seen (h.flow.items pc di seen)).1
    have hcc : Covered T pc (s.merge di.current) := hT.merge hn hdn hcov k1
    refine ⟨hcc, k3, ?_⟩
    obtain ⟨l1, l2⟩ := hleave _ hnit.1 hfit hcc nx k3 hitem.next
    rw [he.stack]
    refine pushAll_covered hT _ hrest hrf ?_
    intro o ho
    rw [List.mem_append] at ho
    rcases ho with ho | ho
    · obtain ⟨hx, rfl⟩ := nextOuts_mem ho
      exact ⟨hnit.2, l1 hx⟩
    · rcases branch with ⟨-, rfl⟩ | ⟨hlb, v, b, hv, hb, rfl⟩
      · cases ho
      · rw [List.mem_singleton] at ho
        subst ho
        have hb' := hb
        unfold Instruction.executeBranch at hb'
        obtain ⟨e, hex, -⟩ := Res.bind_eq_ok.1 hb'
        rw [branch_taken hlb hex] at hb
        cases hb
        exact ⟨branchState_normal hn, (hleave s hn hs hcov e k3 hex).2 hlb v hv⟩

theorem run_charted {src : Source} {T : Nat → ExecutionState → Prop} (hT : Chart src T) {d : Disassembler}
    (hconv : d.conventions = []) : ∀ (n : Nat) (w w' : Work) (r : Res Unit), OnChart src T d w → run src d n w = (w', r) →
      OnChart src T d w' ∧ (r = .ok () ∨ r = .err .steps) := by
  intro n
  induction n with
  | zero => intro w w' r h hr; cases hr; exact ⟨h, .inr rfl⟩
  | succ n ih =>
    intro w w' r h hr
    unfold run at hr
    obtain ⟨o, ho⟩ := onChart_steps hT h
    split at hr
    · cases hr; exact ⟨h, .inl rfl⟩
    · rename_i w2 hs; exact ih _ _ _ (onChart_step hT hconv h hs) hr
    · rename_i hs; rw [ho] at hs; cases hs
    · rename_i hs; rw [ho] at hs; cases hs

/-- A first call that begins on a chart does not fail, and lists only what is on the chart. -/
theorem charted_call {src : Source} {T : Nat → ExecutionState → Prop} (hT : Chart src T) {fuel start : Nat}
    (hs : start ≤ 0x1000000) {f : StatusFlags} (hn : Normal f) (hsz : (f.m = .on ∨ f.m = .off) ∧ (f.x = .on ∨ f.x = .off))
    (hc : Covered T start (.init f)) {d : Disassembler} {r : Res (OMap StatusFlags)}
    (h : Disassembler.empty.disassemble fuel src start f = (d, r)) :
    (r = .err .steps ∨ ∃ far, r = .ok far) ∧
      ∀ a it, d.disassembly.find a = some it → Covered T a it.current ∧ it.instruction.ret = .default := by
  have hcl : Closed src .empty := session_closed .new
  have hb : OnChart src T .empty (begin .empty start f) := by
    obtain ⟨b1, b2, -⟩ := begin_shape .empty start f
    have hlook : ∀ a, look .empty (begin .empty start f).fresh a = none := by
      intro a; rw [b1]; rfl
    refine ⟨(begin_flow hcl hs hn).1, begin_fine (fun a it h => by cases h) (fun _ => hsz), ?_, ?_⟩
    · intro a it ha; rw [hlook] at ha; cases ha
    · intro a s ha
      rw [b2] at ha
      simp only [OMap.find] at ha
      split at ha
      · rename_i e; cases ha; subst e; exact hc
      · cases ha
  have hkey : ∀ w r', run src .empty fuel (begin .empty start f) = (w, r') →
      OnChart src T .empty w ∧ (r' = .ok () ∨ r' = .err .steps) := fun w r' hr => run_charted hT rfl fuel _ w r' hb hr
  unfold disassemble at h
  simp only at h
  split at h
  · rename_i w hrun
    cases h
    obtain ⟨hon, -⟩ := hkey _ _ hrun
    obtain ⟨l1, l2, l3, l4⟩ := loop_flow hcl hs hn hrun
    refine ⟨.inr ⟨_, rfl⟩, ?_⟩
    obtain ⟨f1, -⟩ := finish_look hcl.proper.sorted l1.tidy l2 (l4 rfl)
    intro a jt ha
    obtain ⟨it, h1, ⟨s, l, h2, h3⟩, -⟩ := f1 a jt ha
    obtain ⟨k1, k2, -⟩ := hon.items a it h1
    refine ⟨?_, by rw [h3]; exact k2⟩
    rw [h2]
    split
    · show Covered T a (addSuffix it).current
      rw [(addSuffix_rest it).2.2.1]; exact k1
    · exact k1
  · rename_i w e hrun
    cases h
    rcases (hkey _ _ hrun).2 with e | e <;> cases e
    exact ⟨.inl rfl, fun a it h => by cases h⟩
  · rename_i w u hrun
    cases h
    rcases (hkey _ _ hrun).2 with e | e <;> cases e

end Nsasm
