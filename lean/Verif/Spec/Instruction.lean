import Verif.Model.Directive
import Verif.Spec.Opcodes

/-! # Specification of instruction encodings -/

namespace Nsasm.Spec

/-- The immediate operand of the mnemonic is as wide as the accumulator. -/
def SizedByM (m : Mnemonic) : Prop :=
  m ∈ [Mnemonic.adc, .and, .bit, .cmp, .eor, .lda, .ora, .sbc, .padd, .psub]

/-- The immediate operand of the mnemonic is as wide as the index registers. -/
def SizedByX (m : Mnemonic) : Prop := m ∈ [Mnemonic.cpx, .cpy, .ldx, .ldy]

instance (m : Mnemonic) : Decidable (SizedByM m) := by unfold SizedByM; infer_instance
instance (m : Mnemonic) : Decidable (SizedByX m) := by unfold SizedByX; infer_instance

/-- The processor flags agree with the immediate size chosen for an instruction:
"on" means 8 bits, "off" means 16. -/
def SizeAgrees (m : Mnemonic) (a : Mode) (f : StatusFlags) : Prop :=
  (SizedByM m → (a = .imm_b → f.m = .on) ∧ (a = .imm_w → f.m = .off)) ∧
  (SizedByX m → (a = .imm_b → f.x = .on) ∧ (a = .imm_w → f.x = .off))

/-- The mode's operand is an offset from the next instruction. -/
def Relative (a : Mode) : Prop := a = .rel8 ∨ a = .rel16

instance (a : Mode) : Decidable (Relative a) := by unfold Relative; infer_instance

/-- `v` modulo the size of a field of `n` bytes. -/
def fieldValue (n : Nat) (v : Int) : Int := v % (256 ^ n : Nat)

/-- The little-endian bytes of a field of `n` bytes hold `v` modulo the field size. -/
def Holds : List UInt8 → Int → Prop
  | [], _ => True
  | b :: bs, v => (b.toNat : Int) = v % 256 ∧ Holds bs (v / 256)

/-- A sink that records its writes. -/
def logSink : Sink (List (Addr × List UInt8)) := fun log a bs => (log ++ [(a, bs)], .ok ())

end Nsasm.Spec
