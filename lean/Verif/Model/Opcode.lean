import Verif.Model.Numeric

/-!
# Mnemonics, addressing modes and the opcode table

nsasm/mnemonic.h, nsasm/addressing_mode.h (enumerations and sizes) and
nsasm/opcode_map.cc.  The enumerations and the 256-entry table are transcribed
by script from the C++ text, keeping the order.
-/

namespace Nsasm

/-- `enum Mnemonic` (nsasm/mnemonic.h:11-117).  `padd`/`psub` are the
pseudo-mnemonics `PM_add`/`PM_sub`. -/
inductive Mnemonic where
  | adc | and | asl | bit | cld | cli | clv | cmp | cpx | cpy | dec
  | dex | dey | eor | inc | inx | iny | lda | ldx | ldy | lsr | mvn
  | mvp | nop | ora | pea | pei | per | pha | phb | phd | phk | phx
  | phy | pla | plb | pld | plx | ply | rol | ror | sbc | sed | sei
  | sta | stp | stx | sty | stz | tax | tay | tcd | tcs | tdc | trb
  | tsb | tsc | tsx | txa | txs | txy | tya | tyx | wai | wdm | xba
  | bcc | bcs | beq | bmi | bne | bpl | bra | brk | brl | bvc | bvs
  | cop | jmp | jsl | jsr | rti | rtl | rts | clc | php | plp | rep
  | sec | sep | xce | padd | psub
deriving DecidableEq, Repr

/-- `AllMnemonics` (nsasm/mnemonic.cc:114-133). -/
def Mnemonic.all : List Mnemonic := [
  .adc, .and, .asl, .bit, .cld, .cli, .clv, .cmp, .cpx, .cpy, .dec,
  .dex, .dey, .eor, .inc, .inx, .iny, .lda, .ldx, .ldy, .lsr, .mvn,
  .mvp, .nop, .ora, .pea, .pei, .per, .pha, .phb, .phd, .phk, .phx,
  .phy, .pla, .plb, .pld, .plx, .ply, .rol, .ror, .sbc, .sed, .sei,
  .sta, .stp, .stx, .sty, .stz, .tax, .tay, .tcd, .tcs, .tdc, .trb,
  .tsb, .tsc, .tsx, .txa, .txs, .txy, .tya, .tyx, .wai, .wdm, .xba,
  .bcc, .bcs, .beq, .bmi, .bne, .bpl, .bra, .brk, .brl, .bvc, .bvs,
  .cop, .jmp, .jsl, .jsr, .rti, .rtl, .rts, .clc, .php, .plp, .rep,
  .sec, .sep, .xce, .padd, .psub]

/-- `enum AddressingMode` (nsasm/addressing_mode.h:13-43). -/
inductive Mode where
  | imp | acc | imm_b | imm_w | dir_b | dir_w | dir_l | dir_bx | dir_by
  | dir_wx | dir_wy | dir_lx | ind_b | ind_w | ind_bx | ind_by | ind_wx | lng_b
  | lng_w | lng_by | stk | stk_y | mov | rel8 | rel16 | imm_fm | imm_fx
deriving DecidableEq, Repr

/-- `AllAddressingModes` (nsasm/addressing_mode.cc:446-458). -/
def Mode.all : List Mode := [
  .imp, .acc, .imm_b, .imm_w, .dir_b, .dir_w, .dir_l, .dir_bx, .dir_by,
  .dir_wx, .dir_wy, .dir_lx, .ind_b, .ind_w, .ind_bx, .ind_by, .ind_wx, .lng_b,
  .lng_w, .lng_by, .stk, .stk_y, .mov, .rel8, .rel16, .imm_fm, .imm_fx]

/-- `enum SyntacticAddressingMode` (nsasm/addressing_mode.h:47-62). -/
inductive SMode where
  | imp | acc | imm | dir | dir_x | dir_y | ind | ind_x | ind_y
  | lng | lng_y | stk | stk_y | mov
deriving DecidableEq, Repr

/-- Every syntactic mode. -/
def SMode.all : List SMode := [
  .imp, .acc, .imm, .dir, .dir_x, .dir_y, .ind, .ind_x, .ind_y,
  .lng, .lng_y, .stk, .stk_y, .mov]

/-- `enum Suffix` (nsasm/mnemonic.h:127-131). -/
inductive Suffix where
  | none | b | w
deriving DecidableEq, Repr

/-- `enum Family` (nsasm/opcode_map.h:14-18). -/
inductive Family where
  | f6502 | f65C02 | f65816
deriving DecidableEq, Repr

theorem Mnemonic.mem_all (m : Mnemonic) : m ∈ Mnemonic.all := by cases m <;> decide
theorem Mode.mem_all (a : Mode) : a ∈ Mode.all := by cases a <;> decide
theorem SMode.mem_all (a : SMode) : a ∈ SMode.all := by cases a <;> decide

instance {p : Mnemonic → Prop} [DecidablePred p] : Decidable (∀ m, p m) :=
  decidable_of_iff (∀ m ∈ Mnemonic.all, p m)
    ⟨fun h m => h m m.mem_all, fun h m _ => h m⟩
instance {p : Mode → Prop} [DecidablePred p] : Decidable (∀ m, p m) :=
  decidable_of_iff (∀ m ∈ Mode.all, p m)
    ⟨fun h m => h m m.mem_all, fun h m _ => h m⟩
instance {p : SMode → Prop} [DecidablePred p] : Decidable (∀ m, p m) :=
  decidable_of_iff (∀ m ∈ SMode.all, p m)
    ⟨fun h m => h m m.mem_all, fun h m _ => h m⟩

/-- `InstructionLength` (nsasm/addressing_mode.cc:425-443). -/
def instructionLength (a : Mode) : Nat :=
  if a = .imp ∨ a = .acc then 1
  else if a ∈ [.imm_b, .dir_b, .dir_bx, .dir_by, .ind_b, .ind_bx, .ind_by, .lng_b,
      .lng_by, .stk, .stk_y, .rel8] then 2
  else if a ∈ [.imm_w, .dir_w, .dir_wx, .dir_wy, .ind_w, .ind_wx, .lng_w, .mov,
      .rel16] then 3
  else if a = .dir_l ∨ a = .dir_lx then 4
  else 0

/-- `Arg1Type` (nsasm/addressing_mode.cc:509-524). -/
def arg1Type (a : Mode) : NumericType :=
  if a ∈ [.imm_b, .dir_b, .dir_bx, .dir_by, .ind_b, .ind_bx, .ind_by, .lng_b,
      .lng_by, .stk, .stk_y, .mov, .rel8] then .byte
  else if a ∈ [.imm_w, .dir_w, .dir_wx, .dir_wy, .ind_w, .ind_wx, .lng_w,
      .rel16] then .word
  else if a = .dir_l ∨ a = .dir_lx then .long
  else .unknown

/-- `struct DecodeMapEntry` (nsasm/opcode_map.cc:12-16). -/
structure DecodeMapEntry where
  mnemonic : Mnemonic
  mode : Mode
  family : Family
deriving DecidableEq, Repr

/-- `decode_map` (nsasm/opcode_map.cc:20-277). -/
def decodeMap : List DecodeMapEntry := [
  ⟨.brk, .imm_b, .f6502⟩,
  ⟨.ora, .ind_bx, .f6502⟩,
  ⟨.cop, .imm_b, .f65816⟩,
  ⟨.ora, .stk, .f65816⟩,
  ⟨.tsb, .dir_b, .f65C02⟩,
  ⟨.ora, .dir_b, .f6502⟩,
  ⟨.asl, .dir_b, .f6502⟩,
  ⟨.ora, .lng_b, .f65816⟩,
  ⟨.php, .imp, .f6502⟩,
  ⟨.ora, .imm_fm, .f6502⟩,
  ⟨.asl, .acc, .f6502⟩,
  ⟨.phd, .imp, .f65816⟩,
  ⟨.tsb, .dir_w, .f65C02⟩,
  ⟨.ora, .dir_w, .f6502⟩,
  ⟨.asl, .dir_w, .f6502⟩,
  ⟨.ora, .dir_l, .f65816⟩,
  ⟨.bpl, .rel8, .f6502⟩,
  ⟨.ora, .ind_by, .f6502⟩,
  ⟨.ora, .ind_b, .f65C02⟩,
  ⟨.ora, .stk_y, .f65816⟩,
  ⟨.trb, .dir_b, .f65C02⟩,
  ⟨.ora, .dir_bx, .f6502⟩,
  ⟨.asl, .dir_bx, .f6502⟩,
  ⟨.ora, .lng_by, .f65816⟩,
  ⟨.clc, .imp, .f6502⟩,
  ⟨.ora, .dir_wy, .f6502⟩,
  ⟨.inc, .acc, .f65C02⟩,
  ⟨.tcs, .imp, .f65816⟩,
  ⟨.trb, .dir_w, .f65C02⟩,
  ⟨.ora, .dir_wx, .f6502⟩,
  ⟨.asl, .dir_wx, .f6502⟩,
  ⟨.ora, .dir_lx, .f65816⟩,
  ⟨.jsr, .dir_w, .f6502⟩,
  ⟨.and, .ind_bx, .f6502⟩,
  ⟨.jsl, .dir_l, .f65816⟩,
  ⟨.and, .stk, .f65816⟩,
  ⟨.bit, .dir_b, .f6502⟩,
  ⟨.and, .dir_b, .f6502⟩,
  ⟨.rol, .dir_b, .f6502⟩,
  ⟨.and, .lng_b, .f65816⟩,
  ⟨.plp, .imp, .f6502⟩,
  ⟨.and, .imm_fm, .f6502⟩,
  ⟨.rol, .acc, .f6502⟩,
  ⟨.pld, .imp, .f65816⟩,
  ⟨.bit, .dir_w, .f6502⟩,
  ⟨.and, .dir_w, .f6502⟩,
  ⟨.rol, .dir_w, .f6502⟩,
  ⟨.and, .dir_l, .f65816⟩,
  ⟨.bmi, .rel8, .f6502⟩,
  ⟨.and, .ind_by, .f6502⟩,
  ⟨.and, .ind_b, .f65C02⟩,
  ⟨.and, .stk_y, .f65816⟩,
  ⟨.bit, .dir_bx, .f65C02⟩,
  ⟨.and, .dir_bx, .f6502⟩,
  ⟨.rol, .dir_bx, .f6502⟩,
  ⟨.and, .lng_by, .f65816⟩,
  ⟨.sec, .imp, .f6502⟩,
  ⟨.and, .dir_wy, .f6502⟩,
  ⟨.dec, .acc, .f65C02⟩,
  ⟨.tsc, .imp, .f65816⟩,
  ⟨.bit, .dir_wx, .f65C02⟩,
  ⟨.and, .dir_wx, .f6502⟩,
  ⟨.rol, .dir_wx, .f6502⟩,
  ⟨.and, .dir_lx, .f65816⟩,
  ⟨.rti, .imp, .f6502⟩,
  ⟨.eor, .ind_bx, .f6502⟩,
  ⟨.wdm, .imm_b, .f65816⟩,
  ⟨.eor, .stk, .f65816⟩,
  ⟨.mvp, .mov, .f65816⟩,
  ⟨.eor, .dir_b, .f6502⟩,
  ⟨.lsr, .dir_b, .f6502⟩,
  ⟨.eor, .lng_b, .f65816⟩,
  ⟨.pha, .imp, .f6502⟩,
  ⟨.eor, .imm_fm, .f6502⟩,
  ⟨.lsr, .acc, .f6502⟩,
  ⟨.phk, .imp, .f65816⟩,
  ⟨.jmp, .dir_w, .f6502⟩,
  ⟨.eor, .dir_w, .f6502⟩,
  ⟨.lsr, .dir_w, .f6502⟩,
  ⟨.eor, .dir_l, .f65816⟩,
  ⟨.bvc, .rel8, .f6502⟩,
  ⟨.eor, .ind_by, .f6502⟩,
  ⟨.eor, .ind_b, .f65C02⟩,
  ⟨.eor, .stk_y, .f65816⟩,
  ⟨.mvn, .mov, .f65816⟩,
  ⟨.eor, .dir_bx, .f6502⟩,
  ⟨.lsr, .dir_bx, .f6502⟩,
  ⟨.eor, .lng_by, .f65816⟩,
  ⟨.cli, .imp, .f6502⟩,
  ⟨.eor, .dir_wy, .f6502⟩,
  ⟨.phy, .imp, .f65C02⟩,
  ⟨.tcd, .imp, .f65816⟩,
  ⟨.jmp, .dir_l, .f65816⟩,
  ⟨.eor, .dir_wx, .f6502⟩,
  ⟨.lsr, .dir_wx, .f6502⟩,
  ⟨.eor, .dir_lx, .f65816⟩,
  ⟨.rts, .imp, .f6502⟩,
  ⟨.adc, .ind_bx, .f6502⟩,
  ⟨.per, .rel16, .f65816⟩,
  ⟨.adc, .stk, .f65816⟩,
  ⟨.stz, .dir_b, .f65C02⟩,
  ⟨.adc, .dir_b, .f6502⟩,
  ⟨.ror, .dir_b, .f6502⟩,
  ⟨.adc, .lng_b, .f65816⟩,
  ⟨.pla, .imp, .f6502⟩,
  ⟨.adc, .imm_fm, .f6502⟩,
  ⟨.ror, .acc, .f6502⟩,
  ⟨.rtl, .imp, .f65816⟩,
  ⟨.jmp, .ind_w, .f6502⟩,
  ⟨.adc, .dir_w, .f6502⟩,
  ⟨.ror, .dir_w, .f6502⟩,
  ⟨.adc, .dir_l, .f65816⟩,
  ⟨.bvs, .rel8, .f6502⟩,
  ⟨.adc, .ind_by, .f6502⟩,
  ⟨.adc, .ind_b, .f65C02⟩,
  ⟨.adc, .stk_y, .f65816⟩,
  ⟨.stz, .dir_bx, .f65C02⟩,
  ⟨.adc, .dir_bx, .f6502⟩,
  ⟨.ror, .dir_bx, .f6502⟩,
  ⟨.adc, .lng_by, .f65816⟩,
  ⟨.sei, .imp, .f6502⟩,
  ⟨.adc, .dir_wy, .f6502⟩,
  ⟨.ply, .imp, .f65C02⟩,
  ⟨.tdc, .imp, .f65816⟩,
  ⟨.jmp, .ind_wx, .f65C02⟩,
  ⟨.adc, .dir_wx, .f6502⟩,
  ⟨.ror, .dir_wx, .f6502⟩,
  ⟨.adc, .dir_lx, .f65816⟩,
  ⟨.bra, .rel8, .f65C02⟩,
  ⟨.sta, .ind_bx, .f6502⟩,
  ⟨.brl, .rel16, .f65816⟩,
  ⟨.sta, .stk, .f65816⟩,
  ⟨.sty, .dir_b, .f6502⟩,
  ⟨.sta, .dir_b, .f6502⟩,
  ⟨.stx, .dir_b, .f6502⟩,
  ⟨.sta, .lng_b, .f65816⟩,
  ⟨.dey, .imp, .f6502⟩,
  ⟨.bit, .imm_fm, .f65C02⟩,
  ⟨.txa, .imp, .f6502⟩,
  ⟨.phb, .imp, .f65816⟩,
  ⟨.sty, .dir_w, .f6502⟩,
  ⟨.sta, .dir_w, .f6502⟩,
  ⟨.stx, .dir_w, .f6502⟩,
  ⟨.sta, .dir_l, .f65816⟩,
  ⟨.bcc, .rel8, .f6502⟩,
  ⟨.sta, .ind_by, .f6502⟩,
  ⟨.sta, .ind_b, .f65C02⟩,
  ⟨.sta, .stk_y, .f65816⟩,
  ⟨.sty, .dir_bx, .f6502⟩,
  ⟨.sta, .dir_bx, .f6502⟩,
  ⟨.stx, .dir_by, .f6502⟩,
  ⟨.sta, .lng_by, .f65816⟩,
  ⟨.tya, .imp, .f6502⟩,
  ⟨.sta, .dir_wy, .f6502⟩,
  ⟨.txs, .imp, .f6502⟩,
  ⟨.txy, .imp, .f65816⟩,
  ⟨.stz, .dir_w, .f65C02⟩,
  ⟨.sta, .dir_wx, .f6502⟩,
  ⟨.stz, .dir_wx, .f65C02⟩,
  ⟨.sta, .dir_lx, .f65816⟩,
  ⟨.ldy, .imm_fx, .f6502⟩,
  ⟨.lda, .ind_bx, .f6502⟩,
  ⟨.ldx, .imm_fx, .f6502⟩,
  ⟨.lda, .stk, .f65816⟩,
  ⟨.ldy, .dir_b, .f6502⟩,
  ⟨.lda, .dir_b, .f6502⟩,
  ⟨.ldx, .dir_b, .f6502⟩,
  ⟨.lda, .lng_b, .f65816⟩,
  ⟨.tay, .imp, .f6502⟩,
  ⟨.lda, .imm_fm, .f6502⟩,
  ⟨.tax, .imp, .f6502⟩,
  ⟨.plb, .imp, .f65816⟩,
  ⟨.ldy, .dir_w, .f6502⟩,
  ⟨.lda, .dir_w, .f6502⟩,
  ⟨.ldx, .dir_w, .f6502⟩,
  ⟨.lda, .dir_l, .f65816⟩,
  ⟨.bcs, .rel8, .f6502⟩,
  ⟨.lda, .ind_by, .f6502⟩,
  ⟨.lda, .ind_b, .f65C02⟩,
  ⟨.lda, .stk_y, .f65816⟩,
  ⟨.ldy, .dir_bx, .f6502⟩,
  ⟨.lda, .dir_bx, .f6502⟩,
  ⟨.ldx, .dir_by, .f6502⟩,
  ⟨.lda, .lng_by, .f65816⟩,
  ⟨.clv, .imp, .f6502⟩,
  ⟨.lda, .dir_wy, .f6502⟩,
  ⟨.tsx, .imp, .f6502⟩,
  ⟨.tyx, .imp, .f65816⟩,
  ⟨.ldy, .dir_wx, .f6502⟩,
  ⟨.lda, .dir_wx, .f6502⟩,
  ⟨.ldx, .dir_wy, .f6502⟩,
  ⟨.lda, .dir_lx, .f65816⟩,
  ⟨.cpy, .imm_fx, .f6502⟩,
  ⟨.cmp, .ind_bx, .f6502⟩,
  ⟨.rep, .imm_b, .f65816⟩,
  ⟨.cmp, .stk, .f65816⟩,
  ⟨.cpy, .dir_b, .f6502⟩,
  ⟨.cmp, .dir_b, .f6502⟩,
  ⟨.dec, .dir_b, .f6502⟩,
  ⟨.cmp, .lng_b, .f65816⟩,
  ⟨.iny, .imp, .f6502⟩,
  ⟨.cmp, .imm_fm, .f6502⟩,
  ⟨.dex, .imp, .f6502⟩,
  ⟨.wai, .imp, .f65816⟩,
  ⟨.cpy, .dir_w, .f6502⟩,
  ⟨.cmp, .dir_w, .f6502⟩,
  ⟨.dec, .dir_w, .f6502⟩,
  ⟨.cmp, .dir_l, .f65816⟩,
  ⟨.bne, .rel8, .f6502⟩,
  ⟨.cmp, .ind_by, .f6502⟩,
  ⟨.cmp, .ind_b, .f65C02⟩,
  ⟨.cmp, .stk_y, .f65816⟩,
  ⟨.pei, .dir_b, .f65816⟩,
  ⟨.cmp, .dir_bx, .f6502⟩,
  ⟨.dec, .dir_bx, .f6502⟩,
  ⟨.cmp, .lng_by, .f65816⟩,
  ⟨.cld, .imp, .f6502⟩,
  ⟨.cmp, .dir_wy, .f6502⟩,
  ⟨.phx, .imp, .f65C02⟩,
  ⟨.stp, .imp, .f65816⟩,
  ⟨.jmp, .lng_w, .f65816⟩,
  ⟨.cmp, .dir_wx, .f6502⟩,
  ⟨.dec, .dir_wx, .f6502⟩,
  ⟨.cmp, .dir_lx, .f65816⟩,
  ⟨.cpx, .imm_fx, .f6502⟩,
  ⟨.sbc, .ind_bx, .f6502⟩,
  ⟨.sep, .imm_b, .f65816⟩,
  ⟨.sbc, .stk, .f65816⟩,
  ⟨.cpx, .dir_b, .f6502⟩,
  ⟨.sbc, .dir_b, .f6502⟩,
  ⟨.inc, .dir_b, .f6502⟩,
  ⟨.sbc, .lng_b, .f65816⟩,
  ⟨.inx, .imp, .f6502⟩,
  ⟨.sbc, .imm_fm, .f6502⟩,
  ⟨.nop, .imp, .f6502⟩,
  ⟨.xba, .imp, .f65816⟩,
  ⟨.cpx, .dir_w, .f6502⟩,
  ⟨.sbc, .dir_w, .f6502⟩,
  ⟨.inc, .dir_w, .f6502⟩,
  ⟨.sbc, .dir_l, .f65816⟩,
  ⟨.beq, .rel8, .f6502⟩,
  ⟨.sbc, .ind_by, .f6502⟩,
  ⟨.sbc, .ind_b, .f65C02⟩,
  ⟨.sbc, .stk_y, .f65816⟩,
  ⟨.pea, .imm_w, .f65816⟩,
  ⟨.sbc, .dir_bx, .f6502⟩,
  ⟨.inc, .dir_bx, .f6502⟩,
  ⟨.sbc, .lng_by, .f65816⟩,
  ⟨.sed, .imp, .f6502⟩,
  ⟨.sbc, .dir_wy, .f6502⟩,
  ⟨.plx, .imp, .f65C02⟩,
  ⟨.xce, .imp, .f65816⟩,
  ⟨.jsr, .ind_wx, .f65816⟩,
  ⟨.sbc, .dir_wx, .f6502⟩,
  ⟨.inc, .dir_wx, .f6502⟩,
  ⟨.sbc, .dir_lx, .f65816⟩]

/-- The keys under which `MakeReverseOpcodeMap` files table entry `e`
(nsasm/opcode_map.cc:282-290). -/
def DecodeMapEntry.keys (e : DecodeMapEntry) : List (Mnemonic × Mode) :=
  if e.mode = .imm_fm ∨ e.mode = .imm_fx then
    [(e.mnemonic, e.mode), (e.mnemonic, .imm_b), (e.mnemonic, .imm_w)]
  else [(e.mnemonic, e.mode)]

/-- The assignments `reverse[entry] = i` of `MakeReverseOpcodeMap`, in program
order (nsasm/opcode_map.cc:279-293). -/
def reverseAssignments : List DecodeMapEntry → Nat → List ((Mnemonic × Mode) × Nat)
  | [], _ => []
  | e :: es, i => e.keys.map (fun k => (k, i)) ++ reverseAssignments es (i + 1)

/-- Value of a map after a list of assignments: the last one wins. -/
def lastAssigned (k : Mnemonic × Mode) (l : List ((Mnemonic × Mode) × Nat)) : Option Nat :=
  (l.reverse.find? (fun p => p.1 == k)).map (·.2)

/-- `ReverseOpcodeMap` (nsasm/opcode_map.cc:279-299), as a list of assignments. -/
def reverseOpcodeMap : List ((Mnemonic × Mode) × Nat) := reverseAssignments decodeMap 0

/-- `DecodeOpcode` (nsasm/opcode_map.cc:316-318). -/
def decodeOpcode (opcode : UInt8) : Mnemonic × Mode :=
  match decodeMap[opcode.toNat]? with
  | some e => (e.mnemonic, e.mode)
  | none => (.brk, .imm_b) -- unreachable: the table has 256 entries (`decodeMap_length`)

/-- `FamilyForOpcode` (nsasm/opcode_map.cc:320). -/
def familyForOpcode (opcode : UInt8) : Family :=
  match decodeMap[opcode.toNat]? with
  | some e => e.family
  | none => .f6502 -- unreachable

/-- `EncodeOpcode` (nsasm/opcode_map.cc:322-329). -/
def encodeOpcode (m : Mnemonic) (a : Mode) : Option UInt8 :=
  (lastAssigned (m, a) reverseOpcodeMap).map UInt8.ofNat

/-- `IsLegalCombination` (nsasm/opcode_map.cc:352-355). -/
def isLegalCombination (m : Mnemonic) (a : Mode) : Bool := (encodeOpcode m a).isSome

/-- `ImmediateArgumentUsesMBit` (nsasm/opcode_map.cc:331-334). -/
def immediateArgumentUsesMBit (m : Mnemonic) : Bool :=
  isLegalCombination m .imm_fm || m = .padd || m = .psub

/-- `ImmediateArgumentUsesXBit` (nsasm/opcode_map.cc:336-339). -/
def immediateArgumentUsesXBit (m : Mnemonic) : Bool := isLegalCombination m .imm_fx

/-- `TakesOffsetArgument` (nsasm/opcode_map.cc:341-345). -/
def takesOffsetArgument (m : Mnemonic) : Bool :=
  isLegalCombination m .rel8 || isLegalCombination m .rel16

/-- `TakesLongOffsetArgument` (nsasm/opcode_map.cc:347-350). -/
def takesLongOffsetArgument (m : Mnemonic) : Bool := isLegalCombination m .rel16

/-- `enum StatusFlagUsed` (nsasm/opcode_map.h:34-38). -/
inductive StatusFlagUsed where
  | usesM | usesX | notVariable
deriving DecidableEq, Repr

/-- `FlagControllingInstructionSize` (nsasm/opcode_map.cc:357-374). -/
def flagControllingInstructionSize (m : Mnemonic) : StatusFlagUsed :=
  if m ∈ [.adc, .padd, .and, .asl, .bit, .cmp, .dec, .eor, .inc, .lda, .lsr, .ora, .pha,
      .pla, .rol, .ror, .sbc, .sta, .stz, .psub, .trb, .tsb, .txa, .tya] then .usesM
  else if m ∈ [.cpx, .cpy, .dex, .dey, .inx, .iny, .ldx, .ldy, .phx, .phy, .plx, .ply,
      .stx, .sty, .tax, .tay, .tsx, .txy, .tyx] then .usesX
  else .notVariable

end Nsasm
