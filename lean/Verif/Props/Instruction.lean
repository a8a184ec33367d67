import Verif.Lemmas.Instruction
import Verif.Props.Numeric

set_option linter.unusedSimpArgs false

/-! # C05-C08, C22, C54: encoding and decoding of instructions and data -/

namespace Nsasm.Props

open Nsasm.Spec

/-- C05.  Assembling either performs exactly one write, at the given address, of
exactly as many bytes as the declared size (and then its outcome is the outcome of
that write), or it fails without touching the sink; which of the two, and the
bytes, do not depend on the sink. -/
theorem C05_assemble_writes_declared_size (i : Instruction) (addr : Addr) (ctx : Ctx) :
    (∃ bs : List UInt8, bs.length = i.serializedSize ∧
      ∀ (σ : Type) (sink : Sink σ) (s : σ), i.assemble addr ctx sink s = sink s addr bs) ∨
    (∃ r : Res Unit, r ≠ .ok () ∧
      ∀ (σ : Type) (sink : Sink σ) (s : σ), i.assemble addr ctx sink s = (s, r)) := by
  cases h : i.assembleBytes addr ctx with
  | err e => exact Or.inr ⟨.err e, by simp, fun σ sink s => by simp [Instruction.assemble, h]⟩
  | ub u => exact Or.inr ⟨.ub u, by simp, fun σ sink s => by simp [Instruction.assemble, h]⟩
  | ok bs =>
    refine Or.inl ⟨bs, ?_, fun σ sink s => by simp [Instruction.assemble, h]⟩
    simp only [Instruction.assembleBytes] at h
    split at h
    · cases h
    · have hpre : (if i.mnemonic = .padd then [0x18] else if i.mnemonic = .psub then [0x38]
          else ([] : List UInt8)).length = if i.mnemonic = .padd ∨ i.mnemonic = .psub then 1 else 0 := by
        split <;> [skip; split] <;> simp_all
      revert h
      simp only [Instruction.serializedSize]
      cases i.mode <;> simp only [reduceCtorEq, false_imp_iff, Res.ok.injEq, Res.bind_eq_ok,
          forall_exists_index, and_imp]
      case rel8 =>
        intro v _ t _ o _ h
        split at h
        · cases h
        · simp only [Res.ok.injEq] at h; subst h
          simp [hpre, instructionLength]; omega
      all_goals intros; subst bs; simp [hpre, instructionLength]; omega

example : (Instruction.mk .padd .none .dir_w (.lit 0x1234 .word) .null .default).assemble
    0x8000 nullCtx logSink [] = ([(0x8000, [0x18, 0x6d, 0x34, 0x12])], .ok ()) := by decide +kernel
/-- The sixteen-bit offset cannot be reached by a short branch: nothing is written. -/
example : (Instruction.mk .bra .none .rel8 (.lit 0x9000 .word) .null .default).assemble
    0x8000 nullCtx logSink [] = ([], .err .branchTooFar) := by decide +kernel

/-- How the operands `j` decoded from the encoding of `i` at `addr` relate to the
operands of `i`. -/
def OperandsMatch (addr : Addr) (ctx : Ctx) (i j : Instruction) : Prop :=
  if Relative i.mode then
    ∃ target offset, i.arg1.eval ctx = .ok target ∧ (∀ c, j.arg1.eval c = .ok offset) ∧
      ((addr / 0x10000 * 0x10000 + (addr + i.serializedSize + offset) % 0x10000 : Int) = target)
  else if i.mode = .mov then
    ∃ v1 v2, i.arg1.eval ctx = .ok v1 ∧ i.arg2.eval ctx = .ok v2 ∧
      ∀ c, j.arg1.eval c = .ok (fieldValue 1 v1) ∧ j.arg2.eval c = .ok (fieldValue 1 v2)
  else operandBytes i.mode = 0 ∨
    ∃ v, i.arg1.eval ctx = .ok v ∧
      ∀ c, j.arg1.eval c = .ok (fieldValue (operandBytes i.mode) v)

theorem signed_of_mod8 {o : Int} (h1 : o ≤ 127) (h2 : -128 ≤ o) :
    (if ((byteOf o).toNat : Int) ≥ 128 then ((byteOf o).toNat : Int) - 256
      else ((byteOf o).toNat : Int)) = o := by
  rw [byteOf_toNat]; split <;> omega

/-- C06.  Decoding the bytes emitted for an instruction, under flags that agree with
the immediate size, finds the same mnemonic, addressing mode and operands, whatever
follows the bytes in memory. -/
theorem C06_decode_assembled (i : Instruction) (addr : Addr) (haddr : addr < 0x1000000) (ctx : Ctx)
    (bs rest : List UInt8) (f : StatusFlags)
    (hreal : i.mnemonic ≠ .padd ∧ i.mnemonic ≠ .psub)
    (hsize : SizeAgrees i.mnemonic i.mode f)
    (h : i.assemble addr ctx logSink [] = ([(addr, bs)], .ok ())) :
    ∃ j, decode (bs ++ rest) f = .ok j ∧ j.mnemonic = i.mnemonic ∧ j.mode = i.mode ∧
      OperandsMatch addr ctx i j := by
  have h : i.assembleBytes addr ctx = .ok bs := by
    revert h; unfold Instruction.assemble logSink; split <;> simp_all
  simp only [Instruction.assembleBytes, hreal, if_false, List.nil_append] at h
  split at h
  · cases h
  rename_i op hop
  have hdec := fun (hm : i.mode ≠ .imm_fm) (hx : i.mode ≠ .imm_fx) (l : List UInt8) =>
    decode_of_encode l hop hm hx hsize
  obtain ⟨m, suf, a, e1, e2, r⟩ := i
  simp only at *
  have hszs : Instruction.serializedSize ⟨m, suf, a, e1, e2, r⟩ = instructionLength a := by
    simp [Instruction.serializedSize, hreal]
  cases a
  case imm_fm => cases h
  case imm_fx => cases h
  case imp =>
    cases h
    simp [hdec, decodeArgs, OperandsMatch, Relative, operandBytes]
  case acc =>
    cases h
    simp [hdec, decodeArgs, OperandsMatch, Relative, operandBytes]
  case mov =>
    simp only [Res.bind_eq_ok, Res.ok.injEq] at h
    obtain ⟨v1, hv1, v2, hv2, rfl⟩ := h
    simp only [List.cons_append, List.nil_append, hdec, decodeArgs, Expr.mkLit, Res.bind_ok,
      NumericType.castTo, byteOf_toNat, OperandsMatch, Relative, Expr.eval, fieldValue, reduceCtorEq,
      ne_eq, not_false_eq_true, forall_const, or_self, if_true, if_false]
    exact ⟨_, rfl, rfl, rfl, v1, v2, hv1, hv2, fun c => ⟨by simp [Expr.eval], by simp [Expr.eval]⟩⟩
  case rel8 =>
    simp only [Res.bind_eq_ok] at h
    obtain ⟨v, hv, t, ht, o, ho, h⟩ := h
    split at h
    · cases h
    rename_i hrange
    simp only [Res.ok.injEq] at h
    subst h
    simp only [List.cons_append, List.nil_append, hdec, decodeArgs, Expr.mkLit, Res.bind_ok,
      signed_of_mod8 (show o ≤ 127 by omega) (show -128 ≤ o by omega),
      OperandsMatch, Relative, Expr.eval, reduceCtorEq,
      ne_eq, not_false_eq_true, forall_const, or_false, if_true, hszs]
    refine ⟨_, rfl, rfl, rfl, v, o, hv, ?_, ?_⟩
    · intro c
      simp only [Expr.eval, NumericType.castTo, Res.ok.injEq]
      split <;> omega
    · have := (branch_offset haddr ht ho).2
      rw [show instructionLength .rel8 = 2 from rfl]
      push_cast
      omega
  case rel16 =>
    simp only [Res.bind_eq_ok, Res.ok.injEq] at h
    obtain ⟨v, hv, t, ht, o, ho, rfl⟩ := h
    simp only [List.cons_append, List.nil_append, hdec, decodeArgs, Expr.mkLit, Res.bind_ok,
      OperandsMatch, Relative, Expr.eval, reduceCtorEq,
      ne_eq, not_false_eq_true, forall_const, false_or, if_true, hszs]
    refine ⟨_, rfl, rfl, rfl, v, o, hv, ?_, ?_⟩
    · intro c
      have h1 := byteOf_toNat (o % 65536)
      have h2 := byteOf_toNat (o % 65536 / 256)
      have hr := (branch_offset haddr ht ho).1
      simp only [Expr.eval, NumericType.castTo, Res.ok.injEq]
      simp only [Int.natCast_add, Int.natCast_mul, h1, h2]
      split <;> split <;> omega
    · have := (branch_offset haddr ht ho).2
      rw [show instructionLength .rel16 = 3 from rfl]
      push_cast
      omega
  all_goals
    simp only [Res.bind_eq_ok, Res.ok.injEq] at h
    obtain ⟨v, hv, rfl⟩ := h
    simp only [List.cons_append, List.nil_append, hdec, decodeArgs, Expr.mkLit, Res.bind_ok,
      NumericType.castTo, OperandsMatch, Relative, Expr.eval, fieldValue, reduceCtorEq,
      ne_eq, not_false_eq_true, forall_const, or_self, if_true, if_false, operandBytes]
    refine ⟨_, rfl, rfl, rfl, Or.inr ⟨v, hv, ?_⟩⟩
    have h1 := byteOf_toNat v
    have h2 := byteOf_toNat (v / 256)
    have h3 := byteOf_toNat (v / 65536)
    intro c
    simp only [Expr.eval, Res.ok.injEq]
    simp only [Int.natCast_add, Int.natCast_mul, h1, h2, h3, Nat.reducePow]
    omega

/-- The instruction that a pseudo-op ends in, and its first instruction. -/
def realMnemonic : Mnemonic → Mnemonic
  | .padd => .adc
  | .psub => .sbc
  | m => m

def leadIn : Mnemonic → Mnemonic
  | .padd => .clc
  | _ => .sec

theorem assemble_log {i : Instruction} {addr : Addr} {ctx : Ctx} {bs : List UInt8} :
    i.assemble addr ctx logSink [] = ([(addr, bs)], .ok ()) ↔ i.assembleBytes addr ctx = .ok bs := by
  unfold Instruction.assemble logSink; split <;> simp_all

/-- C06, pseudo-ops: the bytes of `add`/`sub` are a CLC/SEC followed by the bytes of
the same operation spelled ADC/SBC. -/
theorem C06_pseudo_op (i : Instruction) (addr : Addr) (ctx : Ctx) (bs rest : List UInt8)
    (f : StatusFlags) (hp : i.mnemonic = .padd ∨ i.mnemonic = .psub)
    (h : i.assemble addr ctx logSink [] = ([(addr, bs)], .ok ())) :
    ∃ b bs', bs = b :: bs' ∧
      decode (b :: bs' ++ rest) f = .ok ⟨leadIn i.mnemonic, .none, .imp, .null, .null, .default⟩ ∧
      { i with mnemonic := realMnemonic i.mnemonic }.assemble addr ctx logSink []
        = ([(addr, bs')], .ok ()) := by
  simp only [assemble_log] at h ⊢
  obtain ⟨m, suf, a, e1, e2, r⟩ := i
  simp only at hp
  have hd1 : decodeOpcode 0x18 = (.clc, .imp) := by decide +kernel
  have hd2 : decodeOpcode 0x38 = (.sec, .imp) := by decide +kernel
  rcases hp with rfl | rfl
  all_goals
    simp only [Instruction.assembleBytes, realMnemonic, reduceCtorEq, if_true, if_false] at h ⊢
    split at h
    · cases h
    rename_i op hop
    revert h
    cases a <;> simp only [reduceCtorEq, false_imp_iff, Res.ok.injEq, Res.bind_eq_ok,
        forall_exists_index, and_imp]
    case rel8 =>
      intro v hv t ht o ho h
      split at h
      · cases h
      · simp only [Res.ok.injEq] at h
        subst h
        refine ⟨_, _, rfl, ?_, v, hv, t, ht, o, ho, ?_⟩
        · simp [decode, hd1, hd2, decodeArgs, leadIn]
        · rw [if_neg ‹_›]; rfl
    case imp => intro h; subst h; exact ⟨_, _, rfl, by simp [decode, hd1, hd2, decodeArgs, leadIn], rfl⟩
    case acc => intro h; subst h; exact ⟨_, _, rfl, by simp [decode, hd1, hd2, decodeArgs, leadIn], rfl⟩
    case mov =>
      intro v hv w hw h; subst h
      exact ⟨_, _, rfl, by simp [decode, hd1, hd2, decodeArgs, leadIn], v, hv, w, hw, rfl⟩
    case rel16 =>
      intro v hv t ht o ho h; subst h
      exact ⟨_, _, rfl, by simp [decode, hd1, hd2, decodeArgs, leadIn], v, hv, t, ht, o, ho, rfl⟩
    all_goals
      intro v hv h; subst h
      exact ⟨_, _, rfl, by simp [decode, hd1, hd2, decodeArgs, leadIn], v, hv, rfl⟩

/-- Nontrivial instances: a 16-bit immediate and a backward branch. -/
example : (Instruction.mk .lda .none .imm_w (.lit 0x1234 .word) .null .default).assemble
      0x8000 nullCtx logSink [] = ([(0x8000, [0xa9, 0x34, 0x12])], .ok ()) ∧
    SizeAgrees .lda .imm_w (.make .off .off .unknown .unknown) := by
  constructor
  · decide +kernel
  · simp [SizeAgrees, SizedByM, SizedByX, StatusFlags.make, constrainedForEBit]
example : (Instruction.mk .bne .none .rel8 (.lit 0x8000 .word) .null .default).assemble
      0x8010 nullCtx logSink [] = ([(0x8010, [0xd0, 0xee])], .ok ()) := by decide +kernel

/-- The absolute address that offset `o` denotes in an instruction of `n` bytes at
`addr`. -/
def offsetTarget (addr : Addr) (n : Nat) (o : Int) : Int :=
  addr / 0x10000 * 0x10000 + (addr + n + o) % 0x10000

/-- C07.  Assembling what was decoded from a byte sequence emits the bytes that were
decoded; for a relative operand, after replacing the offset by the address it
denotes. -/
theorem C07_assemble_decoded (bytes : List UInt8) (f : StatusFlags) (i : Instruction)
    (addr : Addr) (haddr : addr < 0x1000000) (ctx : Ctx) (h : decode bytes f = .ok i) :
    i.serializedSize ≤ bytes.length ∧
    (¬ Relative i.mode → i.assemble addr ctx logSink [] =
      ([(addr, bytes.take i.serializedSize)], .ok ())) ∧
    (Relative i.mode → ∃ o, i.arg1.eval nullCtx = .ok o ∧
      ∀ t, { i with arg1 := .lit (offsetTarget addr i.serializedSize o) t }.assemble addr ctx
        logSink [] = ([(addr, bytes.take i.serializedSize)], .ok ())) := by
  simp only [assemble_log]
  obtain ⟨op, l, a, a1, a2, rfl, hm, hx, ha, hargs, rfl⟩ := (decode_ok_iff _ _ _).1 h
  have hp := (decode_flag_entries op).2.2.2
  have henc := encode_of_decode (op := op) (a := a) (by tauto)
  have hsize : Instruction.serializedSize ⟨(decodeOpcode op).1, .none, a, a1, a2, .default⟩
      = instructionLength a := by simp [Instruction.serializedSize, hp]
  simp only [hsize, Instruction.assembleBytes, hp, if_false, henc, Relative]
  cases a
  case imm_fm => cases hm rfl
  case imm_fx => cases hx rfl
  case imp => simp [instructionLength]
  case acc => simp [instructionLength]
  case mov =>
    simp only [decodeArgs] at hargs
    split at hargs
    · simp only [Res.ok.injEq, Prod.mk.injEq] at hargs
      obtain ⟨rfl, rfl⟩ := hargs
      rename_i b0 b1 rest
      refine ⟨by simp [instructionLength], fun hnr => ?_, by simp⟩
      have h0 := b0.toNat_lt
      have h1 := b1.toNat_lt
      simp only [Expr.mkLit, Expr.eval, NumericType.castTo, Res.bind_ok, Res.ok.injEq]
      rw [byteOf_congr (v := (b0.toNat : Int) % 256) (b := b0) (by omega),
        byteOf_congr (v := (b1.toNat : Int) % 256) (b := b1) (by omega)]
      simp [instructionLength]
    · cases hargs
  case rel8 =>
    simp only [decodeArgs] at hargs
    split at hargs
    · simp only [Res.ok.injEq, Prod.mk.injEq] at hargs
      obtain ⟨rfl, rfl⟩ := hargs
      rename_i b0 rest
      refine ⟨by simp [instructionLength], by simp, fun _ => ⟨_, rfl, fun t => ?_⟩⟩
      have h0 := b0.toNat_lt
      generalize ho : NumericType.castTo .sbyte
        (if (b0.toNat : Int) ≥ 128 then (b0.toNat : Int) - 256 else b0.toNat) = o
      have ho' : -128 ≤ o ∧ o ≤ 127 ∧ o % 256 = b0.toNat := by
        simp only [NumericType.castTo] at ho
        split at ho <;> split at ho <;> omega
      have hlen : instructionLength .rel8 = 2 := rfl
      simp only [Expr.eval, Res.bind_ok, hlen]
      obtain ⟨ht, hsub⟩ := offset_subtract (n := 2) haddr (show -32768 ≤ o by omega) (by omega)
      rw [show offsetTarget addr 2 o = (addr / 0x10000 * 0x10000 + (addr + 2 + o) % 0x10000 : Int)
        from rfl, ht, Res.bind_ok, hsub, Res.bind_ok, if_neg (by omega),
        byteOf_congr ho'.2.2]
      simp
    · cases hargs
  case rel16 =>
    simp only [decodeArgs] at hargs
    split at hargs
    · simp only [Res.ok.injEq, Prod.mk.injEq] at hargs
      obtain ⟨rfl, rfl⟩ := hargs
      rename_i b0 b1 rest
      refine ⟨by simp [instructionLength], by simp, fun _ => ⟨_, rfl, fun t => ?_⟩⟩
      have h0 := b0.toNat_lt
      have h1 := b1.toNat_lt
      generalize ho : NumericType.castTo .sword
        (if ((b0.toNat + b1.toNat * 256 : Nat) : Int) ≥ 32768
          then ((b0.toNat + b1.toNat * 256 : Nat) : Int) - 65536
          else ((b0.toNat + b1.toNat * 256 : Nat) : Int)) = o
      have ho' : -32768 ≤ o ∧ o ≤ 32767 ∧ o % 65536 = (b0.toNat + b1.toNat * 256 : Nat) := by
        simp only [NumericType.castTo] at ho
        split at ho <;> split at ho <;> omega
      have hlen : instructionLength .rel16 = 3 := rfl
      simp only [Expr.eval, Res.bind_ok, hlen]
      obtain ⟨ht, hsub⟩ := offset_subtract (n := 3) haddr ho'.1 ho'.2.1
      rw [show offsetTarget addr 3 o = (addr / 0x10000 * 0x10000 + (addr + 3 + o) % 0x10000 : Int)
        from rfl, ht, Res.bind_ok, hsub, Res.bind_ok,
        byteOf_congr (v := o % 65536) (b := b0) (by omega),
        byteOf_congr (v := o % 65536 / 256) (b := b1) (by omega)]
      simp
    · cases hargs
  all_goals
    simp only [decodeArgs] at hargs
    split at hargs
    · simp only [Res.ok.injEq, Prod.mk.injEq] at hargs
      obtain ⟨rfl, rfl⟩ := hargs
      refine ⟨by simp [instructionLength], fun hnr => ?_, by simp⟩
      simp only [Expr.mkLit, Expr.eval, NumericType.castTo, Res.bind_ok, Res.ok.injEq]
      first
      | rename_i b0 b1 b2 rest
        have h0 := b0.toNat_lt
        have h1 := b1.toNat_lt
        have h2 := b2.toNat_lt
        rw [byteOf_congr (b := b0) (by omega), byteOf_congr (b := b1) (by omega),
          byteOf_congr (b := b2) (by omega)]
        simp [instructionLength]
      | rename_i b0 b1 rest
        have h0 := b0.toNat_lt
        have h1 := b1.toNat_lt
        rw [byteOf_congr (b := b0) (by omega), byteOf_congr (b := b1) (by omega)]
        simp [instructionLength]
      | rename_i b0 rest
        have h0 := b0.toNat_lt
        rw [byteOf_congr (b := b0) (by omega)]
        simp [instructionLength]
    · cases hargs

example : ∃ i, decode [0xd0, 0xee, 0x60] .default = .ok i ∧ Relative i.mode ∧
    { i with arg1 := .lit (offsetTarget 0x8010 2 (-18)) .word }.assemble 0x8010 nullCtx
      logSink [] = ([(0x8010, [0xd0, 0xee])], .ok ()) :=
  ⟨⟨.bne, .none, .rel8, .lit (-18) .sbyte, .null, .default⟩, by decide +kernel⟩

/-- The flag that governs the size of the instruction with opcode `op`, if any, is
known. -/
def FlagKnown (op : UInt8) (f : StatusFlags) : Prop :=
  ((decodeOpcode op).2 = .imm_fm → f.m = .on ∨ f.m = .off) ∧
  ((decodeOpcode op).2 = .imm_fx → f.x = .on ∨ f.x = .off)

/-- The number of bytes of the instruction with opcode `op` in a machine with flags
`f`. -/
def totalBytes (op : UInt8) (f : StatusFlags) : Nat :=
  match (decodeOpcode op).2 with
  | .imm_fm => if f.m = .on then 2 else 3
  | .imm_fx => if f.x = .on then 2 else 3
  | a => 1 + operandBytes a

theorem decodeArgs_isOk (a : Mode) (l : List UInt8) (hm : a ≠ .imm_fm) (hx : a ≠ .imm_fx) :
    (∃ r, decodeArgs a l = .ok r) ↔ operandBytes a ≤ l.length := by
  cases a <;> simp [decodeArgs, operandBytes] at * <;>
    rcases l with _ | ⟨b0, _ | ⟨b1, _ | ⟨b2, l⟩⟩⟩ <;> simp

/-- C08.  Decoding succeeds exactly when there is an opcode, the flag that governs
its size is known and enough bytes are present; it never has an undefined outcome. -/
theorem C08_decode_succeeds_iff (bytes : List UInt8) (f : StatusFlags) :
    ((∃ i, decode bytes f = .ok i) ↔
      ∃ op l, bytes = op :: l ∧ FlagKnown op f ∧ totalBytes op f ≤ bytes.length) ∧
    (∀ i, decode bytes f = .ok i → ∃ op l, bytes = op :: l ∧ i.serializedSize = totalBytes op f) ∧
    (decode bytes f).noUb := by
  refine ⟨⟨?_, ?_⟩, ?_, ?_⟩
  · rintro ⟨i, h⟩
    obtain ⟨op, l, a, a1, a2, rfl, hm, hx, ha, hargs, rfl⟩ := (decode_ok_iff _ _ _).1 h
    have hok := (decodeArgs_isOk a l hm hx).1 ⟨_, hargs⟩
    refine ⟨op, l, rfl, ?_, ?_⟩
    · unfold FlagKnown
      rcases ha with rfl | ⟨h1, h2⟩ | ⟨h1, h2⟩ <;> simp_all <;> tauto
    · unfold totalBytes
      rcases ha with rfl | ⟨h1, (⟨rfl, h2⟩ | ⟨rfl, h2⟩)⟩ | ⟨h1, (⟨rfl, h2⟩ | ⟨rfl, h2⟩)⟩
      · split
        · simp_all
        · simp_all
        · simp; omega
      all_goals simp [h1, h2, operandBytes] at hok ⊢; omega
  · rintro ⟨op, l, rfl, hk, hlen⟩
    simp only [decode_ok_iff]
    unfold FlagKnown at hk
    unfold totalBytes at hlen
    simp only [List.length_cons] at hlen
    by_cases h1 : (decodeOpcode op).2 = .imm_fm
    · simp only [h1] at hlen
      rcases hk.1 h1 with h2 | h2
      · obtain ⟨⟨x, y⟩, hr⟩ := (decodeArgs_isOk .imm_b l (by simp) (by simp)).2
          (by simp [h2, operandBytes] at hlen ⊢; omega)
        exact ⟨_, op, l, .imm_b, x, y, rfl, by simp, by simp, by simp [h1, h2], hr, rfl⟩
      · obtain ⟨⟨x, y⟩, hr⟩ := (decodeArgs_isOk .imm_w l (by simp) (by simp)).2
          (by simp [h2, operandBytes] at hlen ⊢; omega)
        exact ⟨_, op, l, .imm_w, x, y, rfl, by simp, by simp, by simp [h1, h2], hr, rfl⟩
    by_cases h3 : (decodeOpcode op).2 = .imm_fx
    · simp only [h3] at hlen
      rcases hk.2 h3 with h2 | h2
      · obtain ⟨⟨x, y⟩, hr⟩ := (decodeArgs_isOk .imm_b l (by simp) (by simp)).2
          (by simp [h2, operandBytes] at hlen ⊢; omega)
        exact ⟨_, op, l, .imm_b, x, y, rfl, by simp, by simp, by simp [h3, h2], hr, rfl⟩
      · obtain ⟨⟨x, y⟩, hr⟩ := (decodeArgs_isOk .imm_w l (by simp) (by simp)).2
          (by simp [h2, operandBytes] at hlen ⊢; omega)
        exact ⟨_, op, l, .imm_w, x, y, rfl, by simp, by simp, by simp [h3, h2], hr, rfl⟩
    · obtain ⟨⟨x, y⟩, hr⟩ := (decodeArgs_isOk (decodeOpcode op).2 l h1 h3).2 (by
        split at hlen
        · simp_all
        · simp_all
        · omega)
      exact ⟨_, op, l, _, x, y, rfl, h1, h3, Or.inl rfl, hr, rfl⟩
  · intro i h
    obtain ⟨op, l, a, a1, a2, rfl, hm, hx, ha, hargs, rfl⟩ := (decode_ok_iff _ _ _).1 h
    have hp := (decode_flag_entries op).2.2.2
    refine ⟨op, l, rfl, ?_⟩
    rw [show Instruction.serializedSize ⟨(decodeOpcode op).1, .none, a, a1, a2, .default⟩
      = instructionLength a by simp [Instruction.serializedSize, hp],
      C55_instruction_lengths a hm hx]
    unfold totalBytes
    rcases ha with rfl | ⟨h1, (⟨rfl, h2⟩ | ⟨rfl, h2⟩)⟩ | ⟨h1, (⟨rfl, h2⟩ | ⟨rfl, h2⟩)⟩
    · split <;> simp_all
    all_goals simp [h1, h2, operandBytes]
  · cases bytes with
    | nil => trivial
    | cons op l =>
      simp only [decode]
      apply Res.noUb_bind
      · split <;> [split; skip] <;> trivial
      · intro a _
        apply Res.noUb_bind
        · cases a <;> simp only [decodeArgs] <;> (try split) <;> trivial
        · intro _ _; trivial

/-- C08, locality: the result is determined by the instruction's own bytes and by the
flag that governs its size. -/
theorem C08_decode_local (bytes : List UInt8) (f f' : StatusFlags) (i : Instruction)
    (rest : List UInt8) (h : decode bytes f = .ok i)
    (hm : (∀ op l, bytes = op :: l → (decodeOpcode op).2 = .imm_fm → f'.m = f.m))
    (hx : (∀ op l, bytes = op :: l → (decodeOpcode op).2 = .imm_fx → f'.x = f.x)) :
    decode (bytes.take i.serializedSize ++ rest) f' = .ok i := by
  obtain ⟨op, l, a, a1, a2, rfl, h1, h2, ha, hargs, rfl⟩ := (decode_ok_iff _ _ _).1 h
  have hp := (decode_flag_entries op).2.2.2
  have hlen := (decodeArgs_isOk a l h1 h2).1 ⟨_, hargs⟩
  have hm := hm op l rfl
  have hx := hx op l rfl
  rw [show Instruction.serializedSize ⟨(decodeOpcode op).1, .none, a, a1, a2, .default⟩
      = instructionLength a by simp [Instruction.serializedSize, hp],
      C55_instruction_lengths a h1 h2, Nat.add_comm, List.take_succ_cons]
  refine (decode_ok_iff _ _ _).2 ⟨op, l.take (operandBytes a) ++ rest, a, a1, a2, rfl, h1, h2, ?_, ?_, rfl⟩
  · rcases ha with ha | ⟨ha, hb⟩ | ⟨ha, hb⟩
    · exact Or.inl ha
    · exact Or.inr (Or.inl ⟨ha, by rw [hm ha]; exact hb⟩)
    · exact Or.inr (Or.inr ⟨ha, by rw [hx ha]; exact hb⟩)
  · rw [← hargs]
    clear hargs ha h hm hx
    cases a <;> simp [operandBytes, decodeArgs] at * <;>
      rcases l with _ | ⟨b0, _ | ⟨b1, _ | ⟨b2, l⟩⟩⟩ <;> simp at hlen ⊢

/-- `LDA #` needs two bytes when M is on and three when it is off, and fails when M
is unknown. -/
example : (∃ i, decode [0xa9, 0x12] (.make .off .on .unknown .unknown) = .ok i) ∧
    decode [0xa9, 0x12] (.make .off .off .unknown .unknown) = .err .notEnoughBytes ∧
    decode [0xa9, 0x12] .default = .err .decodeFlagUnknown :=
  ⟨⟨⟨.lda, .none, .imm_b, .lit 0x12 .byte, .null, .default⟩, by decide +kernel⟩, by decide +kernel⟩

end Nsasm.Props
