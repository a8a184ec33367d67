import Verif.Model.Opcode
import Verif.Model.Expr

/-! # Addressing-mode deduction (nsasm/addressing_mode.cc:89-423) -/

namespace Nsasm

/-- `SwitchByteWordLong` (nsasm/addressing_mode.cc:91-103). -/
def switchByteWordLong (arg : Expr) (b w l : Mode) : Res Mode :=
  match arg.type.unsigned with
  | .byte => .ok b
  | .word => .ok w
  | .long => .ok l
  | _ => .err .mode

/-- `SwitchByteWord` (nsasm/addressing_mode.cc:105-114). -/
def switchByteWord (arg : Expr) (b w : Mode) : Res Mode :=
  match arg.type.unsigned with
  | .byte => .ok b
  | .word => .ok w
  | _ => .err .mode

/-- `SwitchWordLong` (nsasm/addressing_mode.cc:116-125). -/
def switchWordLong (arg : Expr) (w l : Mode) : Res Mode :=
  match arg.type.unsigned with
  | .word => .ok w
  | .long => .ok l
  | _ => .err .mode

/-- `ForceByte` (nsasm/addressing_mode.cc:127-134). -/
def forceByte (arg : Expr) (b : Mode) : Res Mode :=
  if arg.type.unsigned = .byte then .ok b else .err .mode

/-- `ForceWord` (nsasm/addressing_mode.cc:165-172). -/
def forceWord (arg : Expr) (w : Mode) : Res Mode :=
  if arg.type.unsigned = .word then .ok w else .err .mode

/-- `ForceLong` (nsasm/addressing_mode.cc:190-197). -/
def forceLong (arg : Expr) (l : Mode) : Res Mode :=
  if arg.type.unsigned = .long then .ok l else .err .mode

/-- `CoerceByte` (nsasm/addressing_mode.cc:136-150). -/
def coerceByte (arg : Expr) (b : Mode) : Res Mode :=
  if arg.type.unsigned = .byte then .ok b
  else if arg.type.unsigned = .unknown then
    match arg.eval nullCtx with
    | .ok v => if v < 0x100 ∧ v ≥ -0x80 then .ok b else .err .mode
    | .err _ => .err .mode
    | .ub u => .ub u
  else .err .mode

/-- `CoerceBytes` (nsasm/addressing_mode.cc:152-163): both operands are checked
before either result is looked at. -/
def coerceBytes (arg1 arg2 : Expr) (b : Mode) : Res Mode :=
  match coerceByte arg1 b, coerceByte arg2 b with
  | .ub u, _ => .ub u
  | _, .ub u => .ub u
  | .ok _, .ok _ => .ok b
  | _, _ => .err .mode

/-- `CoerceWord` (nsasm/addressing_mode.cc:174-188). -/
def coerceWord (arg : Expr) (w : Mode) : Res Mode :=
  if arg.type.unsigned = .word then .ok w
  else if arg.type.unsigned = .unknown then
    match arg.eval nullCtx with
    | .ok v => if v < 0x10000 ∧ v ≥ -0x8000 then .ok w else .err .mode
    | .err _ => .err .mode
    | .ub u => .ub u
  else .err .mode

/-- The condition of nsasm/addressing_mode.cc:205-207. -/
def isRelativeMnemonic (m : Mnemonic) : Bool :=
  m ∈ [Mnemonic.bcc, .bcs, .beq, .bmi, .bne, .bpl, .bra, .brl, .bvc, .bvs, .per]

/-- The list `m == M_adc || m == PM_add || ...` repeated at
nsasm/addressing_mode.cc:281, 308, 331, 340, 352, 365, 375, 387, 397, 406. -/
def isAluMnemonic (m : Mnemonic) : Bool :=
  m ∈ [Mnemonic.adc, .padd, .and, .cmp, .eor, .lda, .ora, .sbc, .sta, .psub]

/-- The list of nsasm/addressing_mode.cc:230-231 and 250-251. -/
def isAccMnemonic (m : Mnemonic) : Bool :=
  m ∈ [Mnemonic.dec, .inc, .asl, .lsr, .rol, .ror]

/-- `DeduceMode` (nsasm/addressing_mode.cc:201-423). -/
def deduceMode (m : Mnemonic) (smode : SMode) (arg1 arg2 : Expr) : Res Mode :=
  if isRelativeMnemonic m then
    if smode ≠ .dir ∨ arg1.simpleIdentifier = none then .err .mode
    else if m = .brl ∨ m = .per then .ok .rel16 else .ok .rel8
  else if smode ∉ [SMode.imp, .acc, .imm, .stk, .stk_y, .mov] ∧ arg1.type = .unknown then
    .err .mode
  else match smode with
    | .imp =>
        if isAccMnemonic m then .ok .acc
        else if m ∈ [.clc, .cld, .cli, .clv, .dex, .dey, .inx, .iny, .nop, .pha, .phb, .phd,
            .phk, .php, .phx, .phy, .pla, .plb, .pld, .plp, .plx, .ply, .rti, .rtl, .rts,
            .sec, .sed, .sei, .stp, .tax, .tay, .tcd, .tcs, .tdc, .tsc, .tsx, .txa, .txs,
            .txy, .tya, .tyx, .wai, .xba, .xce] then .ok .imp
        else .err .mode
    | .acc => if isAccMnemonic m then .ok .acc else .err .mode
    | .imm =>
        if m ∈ [.adc, .padd, .and, .bit, .cmp, .eor, .lda, .ora, .sbc, .psub] then .ok .imm_fm
        else if m ∈ [.cpx, .cpy, .ldx, .ldy] then .ok .imm_fx
        else if m ∈ [.cop, .rep, .sep, .brk, .wdm] then coerceByte arg1 .imm_b
        else if m = .pea then coerceWord arg1 .imm_w
        else .err .mode
    | .dir =>
        if isAluMnemonic m then switchByteWordLong arg1 .dir_b .dir_w .dir_l
        else if m ∈ [.asl, .bit, .cpx, .cpy, .dec, .inc, .ldx, .ldy, .lsr, .rol, .ror, .stx,
            .sty, .stz, .trb, .tsb] then switchByteWord arg1 .dir_b .dir_w
        else if m = .jmp then switchWordLong arg1 .dir_w .dir_l
        else if m = .pei then forceByte arg1 .dir_b
        else if m = .jsr then forceWord arg1 .dir_w
        else if m = .jsl then forceLong arg1 .dir_l
        else .err .mode
    | .dir_x =>
        if isAluMnemonic m then switchByteWordLong arg1 .dir_bx .dir_wx .dir_lx
        else if m ∈ [.asl, .bit, .dec, .inc, .ldy, .lsr, .rol, .ror, .stz] then
          switchByteWord arg1 .dir_bx .dir_wx
        else if m = .sty then forceByte arg1 .dir_bx
        else .err .mode
    | .dir_y =>
        if m = .ldx then switchByteWord arg1 .dir_by .dir_wy
        else if m = .stx then forceByte arg1 .dir_by
        else if isAluMnemonic m then forceWord arg1 .dir_wy
        else .err .mode
    | .ind =>
        if isAluMnemonic m then forceByte arg1 .ind_b
        else if m = .jmp then forceWord arg1 .ind_w
        else .err .mode
    | .ind_x =>
        if isAluMnemonic m then forceByte arg1 .ind_bx
        else if m = .jmp ∨ m = .jsr then forceWord arg1 .ind_wx
        else .err .mode
    | .ind_y => if isAluMnemonic m then forceByte arg1 .ind_by else .err .mode
    | .lng =>
        if isAluMnemonic m then forceByte arg1 .lng_b
        else if m = .jmp then forceWord arg1 .lng_w
        else .err .mode
    | .lng_y => if isAluMnemonic m then forceByte arg1 .lng_by else .err .mode
    | .stk => if isAluMnemonic m then coerceByte arg1 .stk else .err .mode
    | .stk_y => if isAluMnemonic m then coerceByte arg1 .stk_y else .err .mode
    | .mov => if m = .mvn ∨ m = .mvp then coerceBytes arg1 arg2 .mov else .err .mode

end Nsasm
