import Verif.Lemmas.Instruction
import Verif.Spec.Numeric

/-! Helper lemmas about addressing-mode deduction: it factors through finitely many
representative operands, over which the kernel evaluates it. -/

namespace Nsasm.Props

open Nsasm.Spec

/-- A representative operand with the same type (up to sign) that is a bare
identifier exactly when the given one is. -/
def rep (e : Expr) : Expr :=
  if e.simpleIdentifier.isSome then .ident ⟨none, []⟩ e.type.unsigned
  else .lit 0 e.type.unsigned

theorem unsigned_unsigned (t : NumericType) : t.unsigned.unsigned = t.unsigned := by
  cases t <;> rfl

theorem rep_type (e : Expr) : (rep e).type = e.type.unsigned := by
  unfold rep; split <;> rfl

theorem unsigned_eq_unknown (t : NumericType) : t.unsigned = .unknown ↔ t = .unknown := by
  cases t <;> decide

theorem rep_ident (e : Expr) : (rep e).simpleIdentifier = none ↔ e.simpleIdentifier = none := by
  unfold rep
  cases h : e.simpleIdentifier
  · simp; rfl
  · simp only [Option.isSome_some, if_true, reduceCtorEq, iff_false]
    exact (by simp [Expr.simpleIdentifier] :
      ¬ (Expr.ident ⟨none, []⟩ e.type.unsigned).simpleIdentifier = none)

theorem eval_of_simpleIdentifier {e : Expr} {n : Str} (h : e.simpleIdentifier = some n) :
    e.eval nullCtx = .err .nullLookup := by
  cases e <;> simp_all [Expr.simpleIdentifier, Expr.eval, nullCtx]

theorem rep_of_not_ident {e : Expr} (h : e.simpleIdentifier = none) :
    rep e = .lit 0 e.type.unsigned := by simp [rep, h]

theorem coerceByte_rep {e : Expr} {b a : Mode} (h : coerceByte e b = .ok a) :
    a = b ∧ coerceByte (rep e) b = .ok b := by
  unfold coerceByte at h ⊢
  rw [rep_type, unsigned_unsigned]
  split at h
  · rename_i h1; simp_all
  · rename_i h1
    split at h
    · rename_i h2
      split at h
      · split at h
        · rename_i v hv hr
          refine ⟨by simp_all, ?_⟩
          have : e.simpleIdentifier = none := by
            cases hs : e.simpleIdentifier with
            | none => rfl
            | some n => rw [eval_of_simpleIdentifier hs] at hv; cases hv
          rw [rep_of_not_ident this]
          simp [h2, Expr.eval]
        · cases h
      · cases h
      · cases h
    · cases h

theorem coerceWord_rep {e : Expr} {b a : Mode} (h : coerceWord e b = .ok a) :
    a = b ∧ coerceWord (rep e) b = .ok b := by
  unfold coerceWord at h ⊢
  rw [rep_type, unsigned_unsigned]
  split at h
  · rename_i h1; simp_all
  · rename_i h1
    split at h
    · rename_i h2
      split at h
      · split at h
        · rename_i v hv hr
          refine ⟨by simp_all, ?_⟩
          have : e.simpleIdentifier = none := by
            cases hs : e.simpleIdentifier with
            | none => rfl
            | some n => rw [eval_of_simpleIdentifier hs] at hv; cases hv
          rw [rep_of_not_ident this]
          simp [h2, Expr.eval]
        · cases h
      · cases h
      · cases h
    · cases h

theorem coerceBytes_ok {e1 e2 : Expr} {b a : Mode} (h : coerceBytes e1 e2 b = .ok a) :
    a = b ∧ coerceByte e1 b = .ok b ∧ coerceByte e2 b = .ok b := by
  unfold coerceBytes at h
  split at h <;> simp_all
  rename_i h1 h2
  obtain ⟨rfl, -⟩ := coerceByte_rep h1
  obtain ⟨rfl, -⟩ := coerceByte_rep h2
  exact ⟨rfl, rfl⟩

/-- A deduced mode does not depend on anything but the representative operands. -/
theorem deduce_rep {m : Mnemonic} {s : SMode} {e1 e2 : Expr} {a : Mode}
    (h : deduceMode m s e1 e2 = .ok a) : deduceMode m s (rep e1) (rep e2) = .ok a := by
  unfold deduceMode at h ⊢
  simp only [rep_type, rep_ident, unsigned_eq_unknown]
  split at h
  · rename_i h1; rw [if_pos h1]; exact h
  rename_i h1
  rw [if_neg h1]
  split at h
  · cases h
  rename_i h2
  rw [if_neg h2]
  have hcb : ∀ b, coerceByte e1 b = .ok a → coerceByte (rep e1) b = .ok a := by
    intro b hb; obtain ⟨rfl, h⟩ := coerceByte_rep hb; exact h
  have hcw : ∀ b, coerceWord e1 b = .ok a → coerceWord (rep e1) b = .ok a := by
    intro b hb; obtain ⟨rfl, h⟩ := coerceWord_rep hb; exact h
  have hcbs : ∀ b, coerceBytes e1 e2 b = .ok a → coerceBytes (rep e1) (rep e2) b = .ok a := by
    intro b hb
    obtain ⟨rfl, h1, h2⟩ := coerceBytes_ok hb
    simp [coerceBytes, (coerceByte_rep h1).2, (coerceByte_rep h2).2]
  have e1' : ∀ b w l, switchByteWordLong (rep e1) b w l = switchByteWordLong e1 b w l := by
    intros; simp [switchByteWordLong, rep_type, unsigned_unsigned]
  have e2' : ∀ b w, switchByteWord (rep e1) b w = switchByteWord e1 b w := by
    intros; simp [switchByteWord, rep_type, unsigned_unsigned]
  have e3' : ∀ b w, switchWordLong (rep e1) b w = switchWordLong e1 b w := by
    intros; simp [switchWordLong, rep_type, unsigned_unsigned]
  have e4' : ∀ b, forceByte (rep e1) b = forceByte e1 b := by
    intros; simp [forceByte, rep_type, unsigned_unsigned]
  have e5' : ∀ b, forceWord (rep e1) b = forceWord e1 b := by
    intros; simp [forceWord, rep_type, unsigned_unsigned]
  have e6' : ∀ b, forceLong (rep e1) b = forceLong e1 b := by
    intros; simp [forceLong, rep_type, unsigned_unsigned]
  simp only [e1', e2', e3', e4', e5', e6']
  cases s <;> simp only at h ⊢ <;> try exact h
  case imm =>
    split at h
    · rw [if_pos ‹_›]; exact h
    rw [if_neg ‹_›]
    split at h
    · rw [if_pos ‹_›]; exact h
    rw [if_neg ‹_›]
    split at h
    · rw [if_pos ‹_›]; exact hcb _ h
    rw [if_neg ‹_›]
    split at h
    · rw [if_pos ‹_›]; exact hcw _ h
    cases h
  case stk =>
    split at h
    · rw [if_pos ‹_›]; exact hcb _ h
    cases h
  case stk_y =>
    split at h
    · rw [if_pos ‹_›]; exact hcb _ h
    cases h
  case mov =>
    split at h
    · rw [if_pos ‹_›]; exact hcbs _ h
    cases h

/-- The representative operands. -/
def reps : List Expr :=
  [.lit 0 .unknown, .lit 0 .byte, .lit 0 .word, .lit 0 .long,
   .ident ⟨none, []⟩ .unknown, .ident ⟨none, []⟩ .byte, .ident ⟨none, []⟩ .word, .ident ⟨none, []⟩ .long]

theorem rep_mem (e : Expr) : rep e ∈ reps := by
  unfold rep reps
  split <;> cases e.type <;> simp [NumericType.unsigned]

/-- The second operand only matters to block moves. -/
theorem deduce_arg2 {m : Mnemonic} {s : SMode} {e1 e2 e2' : Expr} (h : s ≠ .mov) :
    deduceMode m s e1 e2 = deduceMode m s e1 e2' := by
  unfold deduceMode
  cases s <;> first | rfl | exact absurd rfl h

/-- The modes that representative operands can lead to. -/
def outcomes (m : Mnemonic) (s : SMode) : List Mode :=
  ((if s = .mov then
      reps.flatMap (fun e1 => reps.filterMap (fun e2 =>
        match deduceMode m s e1 e2 with | .ok a => some a | _ => none))
    else reps.filterMap (fun e1 =>
        match deduceMode m s e1 .null with | .ok a => some a | _ => none))).eraseDups

theorem mem_outcomes {m : Mnemonic} {s : SMode} {e1 e2 : Expr} {a : Mode}
    (h : deduceMode m s e1 e2 = .ok a) : a ∈ outcomes m s := by
  have := deduce_rep h
  unfold outcomes
  rw [List.mem_eraseDups]
  split
  · rw [List.mem_flatMap]
    refine ⟨rep e1, rep_mem e1, ?_⟩
    rw [List.mem_filterMap]
    exact ⟨rep e2, rep_mem e2, by rw [this]⟩
  · rename_i hs
    rw [deduce_arg2 (e2' := .null) hs] at this
    rw [List.mem_filterMap]
    exact ⟨rep e1, rep_mem e1, by rw [this]⟩

/-- The instruction whose encodings a mnemonic uses: `add`/`sub` use those of
ADC/SBC. -/
def encodedAs : Mnemonic → Mnemonic
  | .padd => .adc
  | .psub => .sbc
  | m => m

set_option maxRecDepth 100000 in
theorem outcomes_legal : ∀ m : Mnemonic, ∀ s : SMode, ∀ a ∈ outcomes m s,
    isLegalCombination (encodedAs m) a = true := by
  decide +kernel

/-- A way to write an instruction with a given addressing mode: the syntactic form,
the operands, and flags in which it is assembled. -/
def spelling : Mode → SMode × Expr × Expr × StatusFlags
  | .imp => (.imp, .null, .null, .default)
  | .acc => (.acc, .null, .null, .default)
  | .imm_b => (.imm, .lit 1 .byte, .null, .make .off .on .on .unknown)
  | .imm_w => (.imm, .lit 1 .word, .null, .make .off .off .off .unknown)
  | .imm_fm => (.imm, .lit 1 .byte, .null, .default)
  | .imm_fx => (.imm, .lit 1 .byte, .null, .default)
  | .dir_b => (.dir, .lit 1 .byte, .null, .default)
  | .dir_w => (.dir, .lit 1 .word, .null, .default)
  | .dir_l => (.dir, .lit 1 .long, .null, .default)
  | .dir_bx => (.dir_x, .lit 1 .byte, .null, .default)
  | .dir_by => (.dir_y, .lit 1 .byte, .null, .default)
  | .dir_wx => (.dir_x, .lit 1 .word, .null, .default)
  | .dir_wy => (.dir_y, .lit 1 .word, .null, .default)
  | .dir_lx => (.dir_x, .lit 1 .long, .null, .default)
  | .ind_b => (.ind, .lit 1 .byte, .null, .default)
  | .ind_w => (.ind, .lit 1 .word, .null, .default)
  | .ind_bx => (.ind_x, .lit 1 .byte, .null, .default)
  | .ind_by => (.ind_y, .lit 1 .byte, .null, .default)
  | .ind_wx => (.ind_x, .lit 1 .word, .null, .default)
  | .lng_b => (.lng, .lit 1 .byte, .null, .default)
  | .lng_w => (.lng, .lit 1 .word, .null, .default)
  | .lng_by => (.lng_y, .lit 1 .byte, .null, .default)
  | .stk => (.stk, .lit 1 .byte, .null, .default)
  | .stk_y => (.stk_y, .lit 1 .byte, .null, .default)
  | .mov => (.mov, .lit 1 .byte, .lit 2 .byte, .default)
  | .rel8 => (.dir, .ident ⟨none, cs!"x"⟩ .word, .null, .default)
  | .rel16 => (.dir, .ident ⟨none, cs!"x"⟩ .word, .null, .default)

/-- The mode deduced for a spelling, after resolving a flag-sized immediate. -/
def assembledMode (m : Mnemonic) (s : SMode) (e1 e2 : Expr) (f : StatusFlags) : Res Mode := do
  let a ← deduceMode m s e1 e2
  let i ← Instruction.fixAddressingMode ⟨m, .none, a, e1, e2, .default⟩ f
  .ok i.mode

set_option maxRecDepth 100000 in
theorem spelling_works : ∀ e ∈ decodeMap, ∀ k ∈ e.keys, k.2 ≠ .imm_fm → k.2 ≠ .imm_fx →
    assembledMode k.1 (spelling k.2).1 (spelling k.2).2.1 (spelling k.2).2.2.1
      (spelling k.2).2.2.2 = .ok k.2 := by
  decide +kernel

/-- Modes whose operand field is not the written operand itself: flag-sized
immediates (sized by the processor state), branch targets (encoded as offsets), and
modes without an operand. -/
def FieldIsOperand (a : Mode) : Prop :=
  a ∉ [Mode.imm_fm, .imm_fx, .rel8, .rel16, .imp, .acc]

instance (a : Mode) : Decidable (FieldIsOperand a) := by unfold FieldIsOperand; infer_instance

/-- Width in bytes of a numeric type, 0 if unknown. -/
def typeBytes : NumericType → Nat
  | .unknown => 0
  | .byte | .sbyte => 1
  | .word | .sword => 2
  | .long | .slong => 3

theorem typeBytes_unsigned (t : NumericType) : typeBytes t.unsigned = typeBytes t := by
  cases t <;> rfl

set_option maxRecDepth 100000 in
theorem width_reps : ∀ m : Mnemonic, ∀ s : SMode, s ≠ .mov → ∀ e ∈ reps,
    ∀ a ∈ (match deduceMode m s e .null with | .ok a => [a] | _ => []),
      FieldIsOperand a → typeBytes e.type ≤ operandBytes a := by
  decide +kernel

/-- Apart from branches, a bare identifier leads to no mode that a constant of the
same type would not lead to. -/
theorem ident_as_lit {m : Mnemonic} {s : SMode} {e1 e2 : Expr} {a : Mode}
    (hr : isRelativeMnemonic m = false) (h : deduceMode m s e1 e2 = .ok a) :
    deduceMode m s (.lit 0 e1.type.unsigned) (.lit 0 e2.type.unsigned) = .ok a := by
  unfold deduceMode at h ⊢
  simp only [hr, Bool.false_eq_true, if_false] at h ⊢
  have ht : ∀ e : Expr, (Expr.lit 0 e.type.unsigned).type = e.type.unsigned := fun _ => rfl
  simp only [ht, unsigned_eq_unknown]
  split at h
  · cases h
  rename_i h2
  rw [if_neg h2]
  have hcb' : ∀ e b x, coerceByte e b = .ok x → coerceByte (.lit 0 e.type.unsigned) b = .ok x := by
    intro e b x hb
    obtain ⟨rfl, -⟩ := coerceByte_rep hb
    unfold coerceByte at hb ⊢
    simp only [ht, unsigned_unsigned] at hb ⊢
    split at hb
    · rw [if_pos ‹_›]
    rw [if_neg ‹_›]
    split at hb
    · rw [if_pos ‹_›]; rfl
    cases hb
  have hcw' : ∀ e b x, coerceWord e b = .ok x → coerceWord (.lit 0 e.type.unsigned) b = .ok x := by
    intro e b x hb
    obtain ⟨rfl, -⟩ := coerceWord_rep hb
    unfold coerceWord at hb ⊢
    simp only [ht, unsigned_unsigned] at hb ⊢
    split at hb
    · rw [if_pos ‹_›]
    rw [if_neg ‹_›]
    split at hb
    · rw [if_pos ‹_›]; rfl
    cases hb
  have hcbs : ∀ b, coerceBytes e1 e2 b = .ok a →
      coerceBytes (.lit 0 e1.type.unsigned) (.lit 0 e2.type.unsigned) b = .ok a := by
    intro b hb
    obtain ⟨rfl, h1, h2⟩ := coerceBytes_ok hb
    simp [coerceBytes, hcb' _ _ _ h1, hcb' _ _ _ h2]
  simp only [switchByteWordLong, switchByteWord, switchWordLong, forceByte, forceWord, forceLong, ht,
    unsigned_unsigned] at h ⊢
  cases s <;> simp only at h ⊢ <;> try exact h
  case imm =>
    split at h
    · rw [if_pos ‹_›]; exact h
    rw [if_neg ‹_›]
    split at h
    · rw [if_pos ‹_›]; exact h
    rw [if_neg ‹_›]
    split at h
    · rw [if_pos ‹_›]; exact hcb' _ _ _ h
    rw [if_neg ‹_›]
    split at h
    · rw [if_pos ‹_›]; exact hcw' _ _ _ h
    cases h
  case stk =>
    split at h
    · rw [if_pos ‹_›]; exact hcb' _ _ _ h
    cases h
  case stk_y =>
    split at h
    · rw [if_pos ‹_›]; exact hcb' _ _ _ h
    cases h
  case mov =>
    split at h
    · rw [if_pos ‹_›]; exact hcbs _ h
    cases h

set_option maxRecDepth 100000 in
theorem mov_only : ∀ m : Mnemonic, ∀ s : SMode, s ≠ .mov → .mov ∉ outcomes m s := by
  decide +kernel

end Nsasm.Props
