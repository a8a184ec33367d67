import Verif.Model.Text

/-! # util/print_opcode_map.cc: the program that prints the opcode table -/

namespace Nsasm

/-- A digit of `%02X`. -/
def upperHexDigit (n : Nat) : Char := if n < 10 then Char.ofNat (48 + n) else Char.ofNat (55 + n)

/-- What follows the number in a line of the table (util/print_opcode_map.cc:8-19).  The operands are
`Literal(0x654321)` and `Literal(0x43)`, whose type is `T_unknown`. -/
def opcodeText (op : UInt8) : Str :=
  let (mnemonic, mode) := decodeOpcode op
  let flagged := mode = .imm_fm ∨ mode = .imm_fx
  mnemonic.name ++ (if flagged then cs!".b" else []) ++
    argsToStr (if flagged then .imm_b else mode) (.lit 0x654321 .unknown) (.lit 0x43 .unknown)

/-- One line of the table (util/print_opcode_map.cc:16-19), without the newline; `i` is below 256. -/
def opcodeLine (i : Nat) : Str :=
  upperHexDigit (i / 16) :: upperHexDigit (i % 16) :: cs!"  " ++ opcodeText (UInt8.ofNat i)

/-- `main` (util/print_opcode_map.cc:6-22): the lines printed. -/
def opcodeTable : List Str := (List.range 256).map opcodeLine

end Nsasm
