import Verif.Model.Opcode

/-!
# The 65816 instruction set

The opcode matrix of the W65C816S data sheet, row by row (high nibble), written
from the processor documentation and independently of nsasm's own table.  The
comment above each row uses the data sheet's notation: `d` direct, `a` absolute,
`al` absolute long, `r` relative, `rl` relative long, `s` one-byte signature,
`#m`/`#x` immediate sized by the M/X flag, `#w` two-byte immediate.
-/

namespace Nsasm.Spec

/-- The data sheet's opcode matrix. -/
def opcodeMatrix : List (List (Mnemonic × Mode)) := [
  -- 0_: BRK s|ORA (d,x)|COP s|ORA d,s|TSB d|ORA d|ASL d|ORA [d]|PHP|ORA #m|ASL A|PHD|TSB a|ORA a|ASL a|ORA al
  [(.brk, .imm_b), (.ora, .ind_bx), (.cop, .imm_b), (.ora, .stk), (.tsb, .dir_b), (.ora, .dir_b), (.asl, .dir_b), (.ora, .lng_b),
   (.php, .imp), (.ora, .imm_fm), (.asl, .acc), (.phd, .imp), (.tsb, .dir_w), (.ora, .dir_w), (.asl, .dir_w), (.ora, .dir_l)],
  -- 1_: BPL r|ORA (d),y|ORA (d)|ORA (d,s),y|TRB d|ORA d,x|ASL d,x|ORA [d],y|CLC|ORA a,y|INC A|TCS|TRB a|ORA a,x|ASL a,x|ORA al,x
  [(.bpl, .rel8), (.ora, .ind_by), (.ora, .ind_b), (.ora, .stk_y), (.trb, .dir_b), (.ora, .dir_bx), (.asl, .dir_bx), (.ora, .lng_by),
   (.clc, .imp), (.ora, .dir_wy), (.inc, .acc), (.tcs, .imp), (.trb, .dir_w), (.ora, .dir_wx), (.asl, .dir_wx), (.ora, .dir_lx)],
  -- 2_: JSR a|AND (d,x)|JSL al|AND d,s|BIT d|AND d|ROL d|AND [d]|PLP|AND #m|ROL A|PLD|BIT a|AND a|ROL a|AND al
  [(.jsr, .dir_w), (.and, .ind_bx), (.jsl, .dir_l), (.and, .stk), (.bit, .dir_b), (.and, .dir_b), (.rol, .dir_b), (.and, .lng_b),
   (.plp, .imp), (.and, .imm_fm), (.rol, .acc), (.pld, .imp), (.bit, .dir_w), (.and, .dir_w), (.rol, .dir_w), (.and, .dir_l)],
  -- 3_: BMI r|AND (d),y|AND (d)|AND (d,s),y|BIT d,x|AND d,x|ROL d,x|AND [d],y|SEC|AND a,y|DEC A|TSC|BIT a,x|AND a,x|ROL a,x|AND al,x
  [(.bmi, .rel8), (.and, .ind_by), (.and, .ind_b), (.and, .stk_y), (.bit, .dir_bx), (.and, .dir_bx), (.rol, .dir_bx), (.and, .lng_by),
   (.sec, .imp), (.and, .dir_wy), (.dec, .acc), (.tsc, .imp), (.bit, .dir_wx), (.and, .dir_wx), (.rol, .dir_wx), (.and, .dir_lx)],
  -- 4_: RTI|EOR (d,x)|WDM s|EOR d,s|MVP xya|EOR d|LSR d|EOR [d]|PHA|EOR #m|LSR A|PHK|JMP a|EOR a|LSR a|EOR al
  [(.rti, .imp), (.eor, .ind_bx), (.wdm, .imm_b), (.eor, .stk), (.mvp, .mov), (.eor, .dir_b), (.lsr, .dir_b), (.eor, .lng_b),
   (.pha, .imp), (.eor, .imm_fm), (.lsr, .acc), (.phk, .imp), (.jmp, .dir_w), (.eor, .dir_w), (.lsr, .dir_w), (.eor, .dir_l)],
  -- 5_: BVC r|EOR (d),y|EOR (d)|EOR (d,s),y|MVN xya|EOR d,x|LSR d,x|EOR [d],y|CLI|EOR a,y|PHY|TCD|JMP al|EOR a,x|LSR a,x|EOR al,x
  [(.bvc, .rel8), (.eor, .ind_by), (.eor, .ind_b), (.eor, .stk_y), (.mvn, .mov), (.eor, .dir_bx), (.lsr, .dir_bx), (.eor, .lng_by),
   (.cli, .imp), (.eor, .dir_wy), (.phy, .imp), (.tcd, .imp), (.jmp, .dir_l), (.eor, .dir_wx), (.lsr, .dir_wx), (.eor, .dir_lx)],
  -- 6_: RTS|ADC (d,x)|PER rl|ADC d,s|STZ d|ADC d|ROR d|ADC [d]|PLA|ADC #m|ROR A|RTL|JMP (a)|ADC a|ROR a|ADC al
  [(.rts, .imp), (.adc, .ind_bx), (.per, .rel16), (.adc, .stk), (.stz, .dir_b), (.adc, .dir_b), (.ror, .dir_b), (.adc, .lng_b),
   (.pla, .imp), (.adc, .imm_fm), (.ror, .acc), (.rtl, .imp), (.jmp, .ind_w), (.adc, .dir_w), (.ror, .dir_w), (.adc, .dir_l)],
  -- 7_: BVS r|ADC (d),y|ADC (d)|ADC (d,s),y|STZ d,x|ADC d,x|ROR d,x|ADC [d],y|SEI|ADC a,y|PLY|TDC|JMP (a,x)|ADC a,x|ROR a,x|ADC al,x
  [(.bvs, .rel8), (.adc, .ind_by), (.adc, .ind_b), (.adc, .stk_y), (.stz, .dir_bx), (.adc, .dir_bx), (.ror, .dir_bx), (.adc, .lng_by),
   (.sei, .imp), (.adc, .dir_wy), (.ply, .imp), (.tdc, .imp), (.jmp, .ind_wx), (.adc, .dir_wx), (.ror, .dir_wx), (.adc, .dir_lx)],
  -- 8_: BRA r|STA (d,x)|BRL rl|STA d,s|STY d|STA d|STX d|STA [d]|DEY|BIT #m|TXA|PHB|STY a|STA a|STX a|STA al
  [(.bra, .rel8), (.sta, .ind_bx), (.brl, .rel16), (.sta, .stk), (.sty, .dir_b), (.sta, .dir_b), (.stx, .dir_b), (.sta, .lng_b),
   (.dey, .imp), (.bit, .imm_fm), (.txa, .imp), (.phb, .imp), (.sty, .dir_w), (.sta, .dir_w), (.stx, .dir_w), (.sta, .dir_l)],
  -- 9_: BCC r|STA (d),y|STA (d)|STA (d,s),y|STY d,x|STA d,x|STX d,y|STA [d],y|TYA|STA a,y|TXS|TXY|STZ a|STA a,x|STZ a,x|STA al,x
  [(.bcc, .rel8), (.sta, .ind_by), (.sta, .ind_b), (.sta, .stk_y), (.sty, .dir_bx), (.sta, .dir_bx), (.stx, .dir_by), (.sta, .lng_by),
   (.tya, .imp), (.sta, .dir_wy), (.txs, .imp), (.txy, .imp), (.stz, .dir_w), (.sta, .dir_wx), (.stz, .dir_wx), (.sta, .dir_lx)],
  -- A_: LDY #x|LDA (d,x)|LDX #x|LDA d,s|LDY d|LDA d|LDX d|LDA [d]|TAY|LDA #m|TAX|PLB|LDY a|LDA a|LDX a|LDA al
  [(.ldy, .imm_fx), (.lda, .ind_bx), (.ldx, .imm_fx), (.lda, .stk), (.ldy, .dir_b), (.lda, .dir_b), (.ldx, .dir_b), (.lda, .lng_b),
   (.tay, .imp), (.lda, .imm_fm), (.tax, .imp), (.plb, .imp), (.ldy, .dir_w), (.lda, .dir_w), (.ldx, .dir_w), (.lda, .dir_l)],
  -- B_: BCS r|LDA (d),y|LDA (d)|LDA (d,s),y|LDY d,x|LDA d,x|LDX d,y|LDA [d],y|CLV|LDA a,y|TSX|TYX|LDY a,x|LDA a,x|LDX a,y|LDA al,x
  [(.bcs, .rel8), (.lda, .ind_by), (.lda, .ind_b), (.lda, .stk_y), (.ldy, .dir_bx), (.lda, .dir_bx), (.ldx, .dir_by), (.lda, .lng_by),
   (.clv, .imp), (.lda, .dir_wy), (.tsx, .imp), (.tyx, .imp), (.ldy, .dir_wx), (.lda, .dir_wx), (.ldx, .dir_wy), (.lda, .dir_lx)],
  -- C_: CPY #x|CMP (d,x)|REP s|CMP d,s|CPY d|CMP d|DEC d|CMP [d]|INY|CMP #m|DEX|WAI|CPY a|CMP a|DEC a|CMP al
  [(.cpy, .imm_fx), (.cmp, .ind_bx), (.rep, .imm_b), (.cmp, .stk), (.cpy, .dir_b), (.cmp, .dir_b), (.dec, .dir_b), (.cmp, .lng_b),
   (.iny, .imp), (.cmp, .imm_fm), (.dex, .imp), (.wai, .imp), (.cpy, .dir_w), (.cmp, .dir_w), (.dec, .dir_w), (.cmp, .dir_l)],
  -- D_: BNE r|CMP (d),y|CMP (d)|CMP (d,s),y|PEI d|CMP d,x|DEC d,x|CMP [d],y|CLD|CMP a,y|PHX|STP|JMP [a]|CMP a,x|DEC a,x|CMP al,x
  [(.bne, .rel8), (.cmp, .ind_by), (.cmp, .ind_b), (.cmp, .stk_y), (.pei, .dir_b), (.cmp, .dir_bx), (.dec, .dir_bx), (.cmp, .lng_by),
   (.cld, .imp), (.cmp, .dir_wy), (.phx, .imp), (.stp, .imp), (.jmp, .lng_w), (.cmp, .dir_wx), (.dec, .dir_wx), (.cmp, .dir_lx)],
  -- E_: CPX #x|SBC (d,x)|SEP s|SBC d,s|CPX d|SBC d|INC d|SBC [d]|INX|SBC #m|NOP|XBA|CPX a|SBC a|INC a|SBC al
  [(.cpx, .imm_fx), (.sbc, .ind_bx), (.sep, .imm_b), (.sbc, .stk), (.cpx, .dir_b), (.sbc, .dir_b), (.inc, .dir_b), (.sbc, .lng_b),
   (.inx, .imp), (.sbc, .imm_fm), (.nop, .imp), (.xba, .imp), (.cpx, .dir_w), (.sbc, .dir_w), (.inc, .dir_w), (.sbc, .dir_l)],
  -- F_: BEQ r|SBC (d),y|SBC (d)|SBC (d,s),y|PEA #w|SBC d,x|INC d,x|SBC [d],y|SED|SBC a,y|PLX|XCE|JSR (a,x)|SBC a,x|INC a,x|SBC al,x
  [(.beq, .rel8), (.sbc, .ind_by), (.sbc, .ind_b), (.sbc, .stk_y), (.pea, .imm_w), (.sbc, .dir_bx), (.inc, .dir_bx), (.sbc, .lng_by),
   (.sed, .imp), (.sbc, .dir_wy), (.plx, .imp), (.xce, .imp), (.jsr, .ind_wx), (.sbc, .dir_wx), (.inc, .dir_wx), (.sbc, .dir_lx)]]

/-- The instruction the data sheet gives for an opcode byte. -/
def instructionAt (op : UInt8) : Option (Mnemonic × Mode) :=
  opcodeMatrix[op.toNat / 16]?.bind (fun row => row[op.toNat % 16]?)

/-- Number of operand bytes of an instruction (data sheet, "number of bytes" minus
one); immediates sized by a flag have none of their own. -/
def operandBytes : Mode → Nat
  | .imp | .acc | .imm_fm | .imm_fx => 0
  | .imm_b | .dir_b | .dir_bx | .dir_by | .ind_b | .ind_bx | .ind_by | .lng_b | .lng_by
  | .stk | .stk_y | .rel8 => 1
  | .imm_w | .dir_w | .dir_wx | .dir_wy | .ind_w | .ind_wx | .lng_w | .mov | .rel16 => 2
  | .dir_l | .dir_lx => 3

end Nsasm.Spec
