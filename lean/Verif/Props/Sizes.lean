import Verif.Lemmas.Instruction

/-! # C22, C54: immediate sizes and data directives -/

namespace Nsasm.Props

open Nsasm.Spec

/-- A flag is known to be on or off. -/
def Known (b : BitState) : Prop := b = .on ∨ b = .off

/-- C22.  Resolving a flag-sized immediate succeeds exactly when its flag is known,
picks one byte for "on" and two for "off", and changes nothing else; other
instructions are left alone. -/
theorem C22_resolve_immediate (i : Instruction) (f : StatusFlags) :
    (i.mode = .imm_fm →
      ((∃ j, i.fixAddressingMode f = .ok j) ↔ Known f.m) ∧
      (f.m = .on → i.fixAddressingMode f = .ok { i with mode := .imm_b }) ∧
      (f.m = .off → i.fixAddressingMode f = .ok { i with mode := .imm_w })) ∧
    (i.mode = .imm_fx →
      ((∃ j, i.fixAddressingMode f = .ok j) ↔ Known f.x) ∧
      (f.x = .on → i.fixAddressingMode f = .ok { i with mode := .imm_b }) ∧
      (f.x = .off → i.fixAddressingMode f = .ok { i with mode := .imm_w })) ∧
    (i.mode ≠ .imm_fm → i.mode ≠ .imm_fx → i.fixAddressingMode f = .ok i) := by
  refine ⟨?_, ?_, ?_⟩
  · intro h
    simp only [Instruction.fixAddressingMode, h, true_or, if_true, Known]
    cases f.m <;> simp
  · intro h
    simp only [Instruction.fixAddressingMode, h, or_true, if_true, reduceCtorEq, if_false, Known]
    cases f.x <;> simp
  · intro h1 h2
    simp [Instruction.fixAddressingMode, h1, h2]

/-- An accumulator-width operation: the mnemonics the assembler accepts `.b`/`.w` on
according to the M flag. -/
def AccumulatorSized (m : Mnemonic) : Prop :=
  m ∈ [Mnemonic.adc, .padd, .and, .asl, .bit, .cmp, .dec, .eor, .inc, .lda, .lsr, .ora, .pha,
      .pla, .rol, .ror, .sbc, .sta, .stz, .psub, .trb, .tsb, .txa, .tya]

/-- An index-width operation. -/
def IndexSized (m : Mnemonic) : Prop :=
  m ∈ [Mnemonic.cpx, .cpy, .dex, .dey, .inx, .iny, .ldx, .ldy, .phx, .phy, .plx, .ply,
      .stx, .sty, .tax, .tay, .tsx, .txy, .tyx]

instance (m : Mnemonic) : Decidable (AccumulatorSized m) := by unfold AccumulatorSized; infer_instance
instance (m : Mnemonic) : Decidable (IndexSized m) := by unfold IndexSized; infer_instance

theorem flagControlling_spec : ∀ m : Mnemonic,
    (AccumulatorSized m → flagControllingInstructionSize m = .usesM) ∧
    (IndexSized m → flagControllingInstructionSize m = .usesX) ∧
    (¬ AccumulatorSized m → ¬ IndexSized m → flagControllingInstructionSize m = .notVariable) := by
  decide

/-- C22, suffixes: `.w` where the tracked flag says 8 bits, `.b` where it says 16,
and any suffix on an operation without a variable size are rejected, so such an
instruction is never executed abstractly. -/
theorem C22_suffix_contradiction (i : Instruction) (es : ExecutionState) (ctx : Ctx)
    (h : (AccumulatorSized i.mnemonic ∧
            ((i.suffix = .w ∧ es.flags.m = .on) ∨ (i.suffix = .b ∧ es.flags.m = .off))) ∨
         (IndexSized i.mnemonic ∧
            ((i.suffix = .w ∧ es.flags.x = .on) ∨ (i.suffix = .b ∧ es.flags.x = .off))) ∨
         (¬ AccumulatorSized i.mnemonic ∧ ¬ IndexSized i.mnemonic ∧ i.suffix ≠ .none)) :
    ∃ e, i.execute es ctx = .err e := by
  have key : ∃ e, i.checkConsistency es.flags = .err e := by
    unfold Instruction.checkConsistency
    by_cases hl : isLegalCombination
      (if i.mnemonic = .padd ∨ i.mnemonic = .psub then Mnemonic.adc else i.mnemonic) i.mode = true
    · have heff : flagControllingInstructionSize
          (if i.mnemonic = .padd ∨ i.mnemonic = .psub then Mnemonic.adc else i.mnemonic) =
          flagControllingInstructionSize i.mnemonic := by
        split
        · rename_i hp; rcases hp with hp | hp <;> rw [hp] <;> rfl
        · rfl
      have hs := flagControlling_spec i.mnemonic
      simp only [hl, Bool.not_true, Bool.false_eq_true, if_false, Instruction.checkSuffix]
      rw [heff]
      rcases h with ⟨hA, h⟩ | ⟨hX, h⟩ | ⟨hA, hX, h⟩
      · rw [hs.1 hA]
        rcases h with ⟨h1, h2⟩ | ⟨h1, h2⟩ <;> simp [h1, h2]
      · rw [hs.2.1 hX]
        rcases h with ⟨h1, h2⟩ | ⟨h1, h2⟩ <;> simp [h1, h2]
      · rw [hs.2.2 hA hX]
        simp [h]
    · simp [hl]
  obtain ⟨e, he⟩ := key
  exact ⟨e, by unfold Instruction.execute; rw [he]; rfl⟩

theorem usesM_spec : ∀ m : Mnemonic, immediateArgumentUsesMBit m = decide (SizedByM m) := by
  decide +kernel
theorem usesX_spec : ∀ m : Mnemonic, immediateArgumentUsesXBit m = decide (SizedByX m) := by
  decide +kernel
theorem sized_disjoint : ∀ m : Mnemonic, SizedByM m → ¬ SizedByX m := by decide
theorem fm_sizedByM : ∀ m : Mnemonic, isLegalCombination m .imm_fm = true → SizedByM m ∧ ¬ SizedByX m := by
  decide +kernel
theorem fx_sizedByX : ∀ m : Mnemonic, isLegalCombination m .imm_fx = true → SizedByX m ∧ ¬ SizedByM m := by
  decide +kernel

/-- C22, end to end: an instruction that was accepted in a tracked state and whose
size was then resolved in that state has an immediate that agrees with the tracked
flags, however it was spelled. -/
theorem C22_accepted_size_agrees (i j : Instruction) (es es' : ExecutionState) (ctx : Ctx)
    (h : i.execute es ctx = .ok es') (hj : i.fixAddressingMode es.flags = .ok j) :
    SizeAgrees j.mnemonic j.mode es.flags ∧ j.mode ≠ .imm_fm ∧ j.mode ≠ .imm_fx := by
  have hc : i.checkConsistency es.flags = .ok () := by
    unfold Instruction.execute at h
    rw [Res.bind_eq_ok] at h
    obtain ⟨u, hu, -⟩ := h
    exact hu
  unfold Instruction.checkConsistency at hc
  obtain ⟨m, suf, a, e1, e2, r⟩ := i
  simp only at hc
  by_cases hl : isLegalCombination
      (if m = .padd ∨ m = .psub then Mnemonic.adc else m) a = true
  swap
  · simp [hl] at hc
  simp only [hl, Bool.not_true, Bool.false_eq_true, if_false, Res.bind_eq_ok] at hc
  obtain ⟨-, -, hc⟩ := hc
  unfold Instruction.checkImmediate at hc
  unfold Instruction.fixAddressingMode at hj
  simp only at hj
  by_cases h1 : a = .imm_fm
  · subst h1
    have hM := fm_sizedByM _ hl
    have hM' : SizedByM m ∧ ¬ SizedByX m := by
      split at hM
      · rename_i hp; rcases hp with rfl | rfl <;> decide
      · exact hM
    simp only [true_or, if_true] at hj
    cases hfm : es.flags.m <;> simp only [hfm, reduceCtorEq, Res.ok.injEq] at hj <;> subst hj <;>
      simp [SizeAgrees, hM', hfm]
  by_cases h2 : a = .imm_fx
  · subst h2
    have hX := fx_sizedByX _ hl
    have hX' : SizedByX m ∧ ¬ SizedByM m := by
      split at hX
      · rename_i hp; rcases hp with rfl | rfl <;> exact absurd hX (by decide)
      · exact hX
    simp only [or_true, if_true, reduceCtorEq, if_false] at hj
    cases hfm : es.flags.x <;> simp only [hfm, reduceCtorEq, Res.ok.injEq] at hj <;> subst hj <;>
      simp [SizeAgrees, hX', hfm]
  simp only [h1, h2, or_self, if_false, Res.ok.injEq] at hj
  subst hj
  refine ⟨?_, h1, h2⟩
  simp only [h1, h2, if_false, usesM_spec, usesX_spec, decide_eq_true_eq] at hc
  by_cases h3 : a = .imm_b ∨ a = .imm_w
  swap
  · rw [not_or] at h3
    exact ⟨fun _ => ⟨fun h => absurd h h3.1, fun h => absurd h h3.2⟩,
      fun _ => ⟨fun h => absurd h h3.1, fun h => absurd h h3.2⟩⟩
  rw [if_pos h3] at hc
  constructor
  · intro hM
    simp only [hM, true_or, if_true] at hc
    cases hfm : es.flags.m <;> simp [hfm] at hc ⊢ <;> rcases h3 with rfl | rfl <;> simp_all
  · intro hX
    have hM : ¬ SizedByM m := fun hM => sized_disjoint m hM hX
    simp only [hX, hM, or_true, if_true, if_false] at hc
    cases hfm : es.flags.x <;> simp [hfm] at hc ⊢ <;> rcases h3 with rfl | rfl <;> simp_all

/-- `lda.w #$12` with M off is accepted and becomes a 16-bit immediate. -/
example : (Instruction.mk .lda .w .imm_fm (.lit 0x12 .byte) .null .default).execute
      (.init (.make .off .off .unknown .unknown)) nullCtx ≠ .err .suffixContradiction ∧
    (Instruction.mk .lda .w .imm_fm (.lit 0x12 .byte) .null .default).fixAddressingMode
      (.make .off .off .unknown .unknown) =
        .ok (Instruction.mk .lda .w .imm_w (.lit 0x12 .byte) .null .default) := by decide +kernel

/-- The number of bytes per item of a data directive. -/
def itemWidth : DirectiveName → Nat
  | .db => 1
  | .dw => 2
  | .dl => 3
  | _ => 0

theorem encodeValue_spec (n : DirectiveName) (hn : n = .db ∨ n = .dw ∨ n = .dl) (v : Int) :
    (Directive.encodeValue n v).length = itemWidth n ∧ Holds (Directive.encodeValue n v) v := by
  have h1 := byteOf_toNat v
  have h2 := byteOf_toNat (v / 256)
  have h3 := byteOf_toNat (v / 65536)
  have h4 : v / 65536 = v / 256 / 256 := by omega
  rcases hn with rfl | rfl | rfl <;>
    simp only [Directive.encodeValue, itemWidth, Holds, h1, h2, h3] <;> simp [Holds, h1, h2, h3, h4.symm]

theorem encodeList_spec (n : DirectiveName) (hn : n = .db ∨ n = .dw ∨ n = .dl) (ctx : Ctx)
    (l : List Expr) (bs : List UInt8) (h : Directive.encodeList n ctx l = .ok bs) :
    ∃ groups : List (List UInt8), bs = groups.flatten ∧
      List.Forall₂ (fun e g => g.length = itemWidth n ∧ ∃ v, e.eval ctx = .ok v ∧ Holds g v)
        l groups := by
  induction l generalizing bs with
  | nil => cases h; exact ⟨[], rfl, .nil⟩
  | cons e es ih =>
    simp only [Directive.encodeList, Res.bind_eq_ok, Res.ok.injEq] at h
    obtain ⟨v, hv, rest, hrest, rfl⟩ := h
    obtain ⟨groups, rfl, hg⟩ := ih rest hrest
    obtain ⟨h1, h2⟩ := encodeValue_spec n hn v
    exact ⟨Directive.encodeValue n v :: groups, rfl, .cons ⟨h1, v, hv, h2⟩ hg⟩

theorem flatten_length {α β : Type} {P : α → List β → Prop} {w : Nat} {l : List α}
    {g : List (List β)} (h : List.Forall₂ P l g) (hw : ∀ a b, P a b → b.length = w) :
    g.flatten.length = w * l.length := by
  induction h with
  | nil => simp
  | cons h1 _ ih =>
    simp only [List.flatten_cons, List.length_append, ih, hw _ _ h1, List.length_cons]
    rw [Nat.mul_succ, Nat.add_comm]

/-- C54.  A data directive emits, in order, one little-endian group per argument,
holding the argument's value modulo the group's size; the total is the declared
size; it succeeds when all arguments have values; other directives emit nothing and
have size 0. -/
theorem C54_data_directive (d : Directive) (ctx : Ctx) :
    (d.name = .db ∨ d.name = .dw ∨ d.name = .dl →
      (∀ r, d.assembleBytes ctx = .ok r → ∃ bs groups, r = some bs ∧ bs = groups.flatten ∧
        List.Forall₂ (fun e g => g.length = itemWidth d.name ∧
          ∃ v, e.eval ctx = .ok v ∧ Holds g v) d.list groups ∧
        bs.length = d.serializedSize) ∧
      ((∀ e ∈ d.list, ∃ v, e.eval ctx = .ok v) → ∃ r, d.assembleBytes ctx = .ok r)) ∧
    (¬ (d.name = .db ∨ d.name = .dw ∨ d.name = .dl) →
      d.assembleBytes ctx = .ok none ∧ d.serializedSize = 0) := by
  constructor
  · intro hn
    have hcond : ¬ (d.name ≠ .db ∧ d.name ≠ .dw ∧ d.name ≠ .dl) := by tauto
    constructor
    · intro r h
      simp only [Directive.assembleBytes, hcond, if_false, Res.bind_eq_ok, Res.ok.injEq] at h
      obtain ⟨bs, hbs, rfl⟩ := h
      obtain ⟨groups, hg, hf⟩ := encodeList_spec d.name hn ctx d.list bs hbs
      refine ⟨bs, groups, rfl, hg, hf, ?_⟩
      rw [hg, flatten_length hf (fun _ _ h => h.1)]
      unfold Directive.serializedSize
      rcases hn with hn | hn | hn <;> rw [hn] <;> rfl
    · intro hall
      simp only [Directive.assembleBytes, hcond, if_false]
      have : ∃ bs, Directive.encodeList d.name ctx d.list = .ok bs := by
        revert hall
        generalize d.list = l
        intro hall
        induction l with
        | nil => exact ⟨[], rfl⟩
        | cons e es ih =>
          obtain ⟨v, hv⟩ := hall e (by simp)
          obtain ⟨rest, hrest⟩ := ih (fun e he => hall e (by simp [he]))
          exact ⟨Directive.encodeValue d.name v ++ rest, by simp [Directive.encodeList, hv, hrest]⟩
      obtain ⟨bs, hbs⟩ := this
      exact ⟨some bs, by simp [hbs]⟩
  · intro hn
    have hcond : d.name ≠ .db ∧ d.name ≠ .dw ∧ d.name ≠ .dl := by tauto
    refine ⟨by simp [Directive.assembleBytes, hcond], ?_⟩
    unfold Directive.serializedSize
    cases h : d.name <;> simp_all

example : (Directive.mk .dw .null .default .default [.lit 0x1234 .word, .lit (-1) .unknown]).assembleBytes
    nullCtx = .ok (some [0x34, 0x12, 0xff, 0xff]) := by decide

end Nsasm.Props
