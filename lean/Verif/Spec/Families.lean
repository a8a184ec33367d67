import Verif.Spec.Opcodes

/-!
# The processors that an instruction was in

The instruction sets of the 6502 and of the 65C02, by kind of instruction (data sheets of both).  The 65C02 is the first one; `wai`,
`stp` and instructions on single bits, which some makers put in later, are not counted.
-/

namespace Nsasm.Spec

/-- The instructions of the 6502. -/
def instructions6502 : List (Mnemonic × Mode) :=
  -- the eight operations on the accumulator
  [Mnemonic.ora, .and, .eor, .adc, .sta, .lda, .cmp, .sbc].flatMap (fun m =>
    [(m, Mode.dir_b), (m, .dir_bx), (m, .dir_w), (m, .dir_wx), (m, .dir_wy), (m, .ind_bx), (m, .ind_by)]) ++
  [Mnemonic.ora, .and, .eor, .adc, .lda, .cmp, .sbc].map (fun m => (m, Mode.imm_fm)) ++
  -- shifts, and counting in memory
  [Mnemonic.asl, .rol, .lsr, .ror].map (fun m => (m, Mode.acc)) ++
  [Mnemonic.asl, .rol, .lsr, .ror, .inc, .dec].flatMap (fun m => [(m, Mode.dir_b), (m, .dir_bx), (m, .dir_w), (m, .dir_wx)]) ++
  -- the index registers
  [(.stx, .dir_b), (.stx, .dir_by), (.stx, .dir_w), (.sty, .dir_b), (.sty, .dir_bx), (.sty, .dir_w),
   (.ldx, .imm_fx), (.ldx, .dir_b), (.ldx, .dir_by), (.ldx, .dir_w), (.ldx, .dir_wy),
   (.ldy, .imm_fx), (.ldy, .dir_b), (.ldy, .dir_bx), (.ldy, .dir_w), (.ldy, .dir_wx),
   (.cpx, .imm_fx), (.cpx, .dir_b), (.cpx, .dir_w), (.cpy, .imm_fx), (.cpy, .dir_b), (.cpy, .dir_w)] ++
  [(.bit, .dir_b), (.bit, .dir_w), (.jmp, .dir_w), (.jmp, .ind_w), (.jsr, .dir_w), (.brk, .imm_b)] ++
  [Mnemonic.bpl, .bmi, .bvc, .bvs, .bcc, .bcs, .bne, .beq].map (fun m => (m, Mode.rel8)) ++
  [Mnemonic.clc, .sec, .cli, .sei, .clv, .cld, .sed, .php, .plp, .pha, .pla, .tax, .txa, .tay, .tya, .tsx, .txs,
   .inx, .dex, .iny, .dey, .rti, .rts, .nop].map (fun m => (m, Mode.imp))

/-- The instructions that the 65C02 added. -/
def added65C02 : List (Mnemonic × Mode) :=
  [Mnemonic.ora, .and, .eor, .adc, .sta, .lda, .cmp, .sbc].map (fun m => (m, Mode.ind_b)) ++
  [(.inc, .acc), (.dec, .acc), (.bit, .imm_fm), (.bit, .dir_bx), (.bit, .dir_wx), (.jmp, .ind_wx), (.bra, .rel8),
   (.phx, .imp), (.plx, .imp), (.phy, .imp), (.ply, .imp), (.stz, .dir_b), (.stz, .dir_bx), (.stz, .dir_w), (.stz, .dir_wx),
   (.trb, .dir_b), (.trb, .dir_w), (.tsb, .dir_b), (.tsb, .dir_w)]

/-- The mnemonics whose operand is a distance: the branches and `per`. -/
def relatives : List Mnemonic :=
  [.bpl, .bmi, .bvc, .bvs, .bcc, .bcs, .bne, .beq, .bra, .brl, .per]

/-- The type of numbers of a number of bytes. -/
def typeOfBytes : Nat → NumericType
  | 0 => .unknown
  | 1 => .byte
  | 2 => .word
  | _ => .long

end Nsasm.Spec
