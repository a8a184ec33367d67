import Verif.Lemmas.Deduce

/-! # C09-C11: addressing-mode deduction -/

namespace Nsasm.Props

open Nsasm.Spec

/-- C09.  Whatever the mode deduction accepts can be encoded. -/
theorem C09_deduced_mode_is_encodable (m : Mnemonic) (s : SMode) (e1 e2 : Expr) (a : Mode)
    (h : deduceMode m s e1 e2 = .ok a) : ∃ op, encodeOpcode (encodedAs m) a = some op := by
  have := outcomes_legal m s a (mem_outcomes h)
  unfold isLegalCombination at this
  exact Option.isSome_iff_exists.1 this

example : deduceMode .padd .ind_y (.lit 0x12 .byte) .null = .ok .ind_by := by decide

/-- C10.  Every encodable (mnemonic, mode) pair of definite size can be written: some
syntactic form, operands and flags make the deduction, followed by resolution of the
immediate size, arrive at it. -/
theorem C10_every_instruction_expressible (m : Mnemonic) (a : Mode) (op : UInt8)
    (h : encodeOpcode m a = some op) (hm : a ≠ .imm_fm) (hx : a ≠ .imm_fx) :
    ∃ s e1 e2 f, assembledMode m s e1 e2 f = .ok a := by
  obtain ⟨e, he, hk⟩ := (encode_iff_keys m a op).1 h
  have := spelling_works e (List.mem_of_getElem? he) _ hk hm hx
  exact ⟨_, _, _, _, this⟩

/-- C10, pseudo-ops can be written in every form in which ADC and SBC can. -/
theorem C10_pseudo_ops (s : SMode) (e1 e2 : Expr) :
    deduceMode .padd s e1 e2 = deduceMode .adc s e1 e2 ∧
    deduceMode .psub s e1 e2 = deduceMode .sbc s e1 e2 := by
  constructor <;> unfold deduceMode <;> cases s <;> rfl

example : encodeOpcode .jmp .lng_w = some 0xdc ∧
    deduceMode .jmp .lng (.lit 0x1234 .word) .null = .ok .lng_w := by decide +kernel

/-- C11, the chosen mode depends only on the operands' types. -/
theorem C11_mode_depends_on_types_only (m : Mnemonic) (s : SMode) (e1 e2 e1' e2' : Expr) (a a' : Mode)
    (h : deduceMode m s e1 e2 = .ok a) (h' : deduceMode m s e1' e2' = .ok a')
    (h1 : e1.type = e1'.type) (h2 : e2.type = e2'.type) : a = a' := by
  cases hr : isRelativeMnemonic m with
  | true =>
    unfold deduceMode at h h'
    rw [if_pos hr] at h h'
    split at h
    · cases h
    split at h'
    · cases h'
    rw [h] at h'
    exact Res.ok.inj h'
  | false =>
    have h3 := ident_as_lit hr h
    have h4 := ident_as_lit hr h'
    rw [h1, h2, h4] at h3
    exact (Res.ok.inj h3).symm

/-- C11, sized operands: the whole outcome, acceptance included, depends only on the
operands' types and on which operands are bare identifiers. -/
theorem C11_sized_operands (m : Mnemonic) (s : SMode) (e1 e2 e1' e2' : Expr)
    (h1 : e1.type = e1'.type) (h2 : e2.type = e2'.type)
    (hi : e1.simpleIdentifier = none ↔ e1'.simpleIdentifier = none)
    (hs1 : e1.type ≠ .unknown) (hs2 : s = .mov → e2.type ≠ .unknown) :
    deduceMode m s e1 e2 = deduceMode m s e1' e2' := by
  have key : ∀ e e' : Expr, e.type = e'.type → e.type ≠ .unknown →
      (∀ b, coerceByte e b = coerceByte e' b) ∧ (∀ b, coerceWord e b = coerceWord e' b) := by
    intro e e' h hu
    have hu' : e'.type ≠ .unknown := h ▸ hu
    have h3 : e'.type.unsigned ≠ .unknown := fun h => hu' ((unsigned_eq_unknown _).1 h)
    constructor <;> intro b <;> simp [coerceByte, coerceWord, h, h3]
  have k1 := key e1 e1' h1 hs1
  unfold deduceMode
  cases s <;> simp only [switchByteWordLong, switchByteWord, switchWordLong, forceByte, forceWord,
    forceLong, h1, hi, k1]
  case mov =>
    have k2 := key e2 e2' h2 (hs2 rfl)
    simp only [coerceBytes, k1, k2]

/-- C11, width: the operand field of a deduced mode is at least as wide as the
operand's declared type; both bank operands of a block move are one byte. -/
theorem C11_field_not_narrower (m : Mnemonic) (s : SMode) (e1 e2 : Expr) (a : Mode)
    (h : deduceMode m s e1 e2 = .ok a) (hf : FieldIsOperand a) :
    (a ≠ .mov → typeBytes e1.type ≤ operandBytes a) ∧
    (a = .mov → typeBytes e1.type ≤ 1 ∧ typeBytes e2.type ≤ 1) := by
  have hcb : ∀ e : Expr, coerceByte e .mov = .ok .mov → typeBytes e.type ≤ 1 := by
    intro e h
    unfold coerceByte at h
    rw [← typeBytes_unsigned]
    split at h
    · rename_i h1; rw [h1]; decide
    · split at h
      · rename_i h1; rw [h1]; decide
      · cases h
  by_cases hs : s = .mov
  · subst hs
    have h0 := h
    have : a = .mov ∧ coerceBytes e1 e2 .mov = .ok .mov := by
      unfold deduceMode at h
      split at h
      · simp at h
      · simp only [List.mem_cons, or_true, not_true_eq_false, false_and, if_false] at h
        simp at h
        obtain ⟨h1, h2⟩ : (m = .mvn ∨ m = .mvp) ∧ coerceBytes e1 e2 .mov = .ok a := by
          split at h <;> simp_all
        obtain ⟨rfl, -⟩ := coerceBytes_ok h2
        exact ⟨rfl, h2⟩
    obtain ⟨rfl, h2⟩ := this
    obtain ⟨-, h3, h4⟩ := coerceBytes_ok h2
    exact ⟨fun h => absurd rfl h, fun _ => ⟨hcb _ h3, hcb _ h4⟩⟩
  · have hr := deduce_rep h
    rw [deduce_arg2 (e2' := .null) hs] at hr
    have := width_reps m s hs (rep e1) (rep_mem e1) a (by rw [hr]; simp) hf
    rw [rep_type, typeBytes_unsigned] at this
    refine ⟨fun _ => this, fun ha => ?_⟩
    subst ha
    exact absurd (mem_outcomes h) (mov_only m s hs)

/-- A number fits a field of `n` bytes as a signed or an unsigned number. -/
def Fits (n : Nat) (v : Int) : Prop := -(2 ^ (8 * n - 1) : Nat) ≤ v ∧ v < (2 ^ (8 * n) : Nat)

/-- C11, constants without a type: where an 8- or 16-bit operand is required, an
untyped operand is accepted exactly when it is a constant whose value fits. -/
theorem C11_unsized_constant (m : Mnemonic) (s : SMode) (e1 e2 : Expr) (a : Mode)
    (b1 : Expr) (hb : deduceMode m s b1 e2 = .ok a) (hs : s = .imm ∨ s = .stk ∨ s = .stk_y)
    (hf : FieldIsOperand a) (hu : e1.type = .unknown) :
    (deduceMode m s e1 e2 = .ok a ↔ ∃ v, e1.eval nullCtx = .ok v ∧ Fits (operandBytes a) v) := by
  have hrel : isRelativeMnemonic m = false := by
    cases h : isRelativeMnemonic m with
    | false => rfl
    | true =>
      unfold deduceMode at hb
      rw [if_pos h] at hb
      rcases hs with rfl | rfl | rfl <;> simp at hb
  have hcb : ∀ b, operandBytes b = 1 → (coerceByte e1 b = .ok b ↔
      ∃ v, e1.eval nullCtx = .ok v ∧ Fits (operandBytes b) v) := by
    intro b hb
    unfold coerceByte
    rw [hb]
    have : NumericType.unknown.unsigned = .unknown := rfl
    simp only [hu, this, reduceCtorEq, if_false, if_true, Fits]
    cases e1.eval nullCtx with
    | ok v =>
      simp only [Res.ok.injEq, exists_eq_left']
      split
      · rename_i h; simp only [true_iff]; exact ⟨by omega, by omega⟩
      · rename_i h; simp only [reduceCtorEq, false_iff]; intro h'; apply h; omega
    | err e => simp
    | ub u => simp
  have hcw : ∀ b, operandBytes b = 2 → (coerceWord e1 b = .ok b ↔
      ∃ v, e1.eval nullCtx = .ok v ∧ Fits (operandBytes b) v) := by
    intro b hb
    unfold coerceWord
    rw [hb]
    have : NumericType.unknown.unsigned = .unknown := rfl
    simp only [hu, this, reduceCtorEq, if_false, if_true, Fits]
    cases e1.eval nullCtx with
    | ok v =>
      simp only [Res.ok.injEq, exists_eq_left']
      split
      · rename_i h; simp only [true_iff]; exact ⟨by omega, by omega⟩
      · rename_i h; simp only [reduceCtorEq, false_iff]; intro h'; apply h; omega
    | err e => simp
    | ub u => simp
  unfold deduceMode at hb ⊢
  rcases hs with rfl | rfl | rfl <;>
    simp only [hrel, Bool.false_eq_true, if_false, List.mem_cons, true_or, or_true,
      not_true_eq_false, false_and] at hb ⊢
  · split at hb
    · cases hb; exact absurd hf (by decide)
    rw [if_neg ‹_›]
    split at hb
    · cases hb; exact absurd hf (by decide)
    rw [if_neg ‹_›]
    split at hb
    · rw [if_pos ‹_›]; obtain ⟨rfl, -⟩ := coerceByte_rep hb; exact hcb _ rfl
    rw [if_neg ‹_›]
    split at hb
    · rw [if_pos ‹_›]; obtain ⟨rfl, -⟩ := coerceWord_rep hb; exact hcw _ rfl
    cases hb
  · split at hb
    · rw [if_pos ‹_›]; obtain ⟨rfl, -⟩ := coerceByte_rep hb; exact hcb _ rfl
    cases hb
  · split at hb
    · rw [if_pos ‹_›]; obtain ⟨rfl, -⟩ := coerceByte_rep hb; exact hcb _ rfl
    cases hb

/-- C11, an untyped operand is rejected wherever the mode would depend on its size. -/
theorem C11_unsized_rejected (m : Mnemonic) (s : SMode) (e1 e2 : Expr)
    (hr : isRelativeMnemonic m = false) (hu : e1.type = .unknown)
    (hs : s ∉ [SMode.imp, .acc, .imm, .stk, .stk_y, .mov]) :
    ∃ e, deduceMode m s e1 e2 = .err e := by
  refine ⟨.mode, ?_⟩
  unfold deduceMode
  rw [if_neg (by simp [hr]), if_pos ⟨hs, hu⟩]

example : deduceMode .rep .imm (.lit 255 .unknown) .null = .ok .imm_b ∧
    deduceMode .rep .imm (.lit 256 .unknown) .null = .err .mode ∧
    deduceMode .lda .dir (.lit 0x12 .word) .null = .ok .dir_w := by decide

end Nsasm.Props
