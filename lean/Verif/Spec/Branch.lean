import Verif.Model.Instruction
import Verif.Spec.Instruction
import Verif.Spec.Opcodes

/-! # Which instructions have an encoding at an address

Written from the manual of the processor.  A relative branch holds the distance from the next instruction to its
target, as a signed number of one or two bytes; the sum is taken within the bank. -/

namespace Nsasm.Spec
open Nsasm

/-- The numbers that the field of a relative branch can hold. -/
def Displacement : Mode → Int → Prop
  | .rel8, d => -128 ≤ d ∧ d ≤ 127
  | .rel16, d => -32768 ≤ d ∧ d ≤ 32767
  | _, _ => False

/-- A branch at `addr` can go to `target`. -/
def Reaches (mode : Mode) (addr : Addr) (target : Int) : Prop :=
  ∃ d, Displacement mode d ∧
    target = addr / 0x10000 * 0x10000 + ((addr : Int) + (1 + operandBytes mode) + d) % 0x10000

/-- The operands that the instruction writes have values: the second one is only there in a block move. -/
def Supplied (i : Instruction) (ctx : Ctx) : Prop :=
  (operandBytes i.mode ≠ 0 → ∃ v, i.arg1.eval ctx = .ok v) ∧ (i.mode = .mov → ∃ v, i.arg2.eval ctx = .ok v)

end Nsasm.Spec
