import Verif.Spec.Families
import Verif.Props.Opcode

/-!
# What is said of opcodes, mnemonics and addressing modes
-/

namespace Nsasm.Props
open Nsasm Nsasm.Spec

/-- **The family of an opcode** is the first processor that had the instruction: the 6502, the 65C02 or the 65816. -/
theorem C107_families (op : UInt8) :
    (familyForOpcode op = .f6502 ↔ decodeOpcode op ∈ instructions6502) ∧
    (familyForOpcode op = .f65C02 ↔ decodeOpcode op ∈ added65C02) ∧
    (familyForOpcode op = .f65816 ↔ decodeOpcode op ∉ instructions6502 ∧ decodeOpcode op ∉ added65C02) := by
  revert op
  apply forall_byte
  decide +kernel

/-- Every instruction of the older processors has an opcode of its family. -/
theorem C107_all_there : (∀ i ∈ instructions6502, ∃ op, decodeOpcode op = i ∧ familyForOpcode op = .f6502) ∧
    (∀ i ∈ added65C02, ∃ op, decodeOpcode op = i ∧ familyForOpcode op = .f65C02) ∧
    instructions6502.length = 151 ∧ added65C02.length = 27 ∧ (instructions6502 ++ added65C02).Nodup := by
  have key : ∀ (f : Family) (l : List (Mnemonic × Mode)),
      (l.all fun i => match encodeOpcode i.1 i.2 with
        | some op => decide (decodeOpcode op = i ∧ familyForOpcode op = f)
        | none => false) = true → ∀ i ∈ l, ∃ op, decodeOpcode op = i ∧ familyForOpcode op = f := by
    intro f l h i hi
    have := List.all_eq_true.1 h i hi
    split at this
    · next op _ => exact ⟨op, of_decide_eq_true this⟩
    · cases this
  exact ⟨key _ _ (by decide +kernel), key _ _ (by decide +kernel), by decide +kernel, by decide +kernel, by decide +kernel⟩

/-- **The mnemonics that take a distance** are the branches and `per`, and the long ones are `brl` and `per`. -/
theorem C107_relatives (m : Mnemonic) : (takesOffsetArgument m = true ↔ m ∈ relatives) ∧
    (takesLongOffsetArgument m = true ↔ m = .brl ∨ m = .per) := by
  have : ∀ m ∈ Mnemonic.all, (takesOffsetArgument m = true ↔ m ∈ relatives) ∧
    (takesLongOffsetArgument m = true ↔ m = .brl ∨ m = .per) := by decide +kernel
  exact this m m.mem_all

/-- **The type of an operand** has as many bytes as the instruction's operand; block moves have two of one byte each. -/
theorem C107_operand_type (a : Mode) :
    arg1Type a = if a = .mov then .byte else typeOfBytes (operandBytes a) := by
  revert a; decide

example : familyForOpcode 0x64 = .f65C02 ∧ decodeOpcode 0x64 = (.stz, .dir_b) ∧ familyForOpcode 0xa9 = .f6502 ∧
    familyForOpcode 0x22 = .f65816 ∧ takesOffsetArgument .per = true ∧ arg1Type .dir_lx = .long := by decide +kernel

end Nsasm.Props
