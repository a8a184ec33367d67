import Verif.Model.Deduce
import Verif.Model.ExecState

/-! # Instructions (nsasm/instruction.h, nsasm/instruction.cc) and decoding
(nsasm/decode.cc) -/

namespace Nsasm

/-- `class OutputSink` (nsasm/memory.h): `Write` may change the sink and may fail.
A sink with state `σ` is the function computing the new state and the result. -/
abbrev Sink (σ : Type) := σ → Addr → List UInt8 → σ × Res Unit

/-- `struct Instruction` (nsasm/instruction.h:13-20), without the location. -/
structure Instruction where
  mnemonic : Mnemonic
  suffix : Suffix
  mode : Mode
  arg1 : Expr
  arg2 : Expr
  ret : ReturnConvention
deriving DecidableEq, Repr

namespace Instruction

/-- `IsExitInstruction` (nsasm/instruction.h:77-81). -/
def isExitInstruction (i : Instruction) : Bool :=
  i.mnemonic ∈ [Mnemonic.jmp, .rtl, .rts, .rti, .stp, .bra, .brl] || i.ret.isExitCall

/-- `IsLocalBranch` (nsasm/instruction.h:83-86). -/
def isLocalBranch (i : Instruction) : Bool :=
  (i.mode = .rel8 || i.mode = .rel16) && i.mnemonic ≠ .per

/-- The suffix check of `CheckConsistency` (nsasm/instruction.cc:29-54). -/
def checkSuffix (i : Instruction) (eff : Mnemonic) (f : StatusFlags) : Res Unit :=
  if i.suffix = .none then .ok ()
  else match flagControllingInstructionSize eff with
    | .notVariable => .err .suffixNotVariable
    | used =>
      let state := if used = .usesM then f.m else f.x
      if state = .on ∧ i.suffix = .w then .err .suffixContradiction
      else if state = .off ∧ i.suffix = .b then .err .suffixContradiction
      else .ok ()

/-- The immediate-size check of `CheckConsistency` (nsasm/instruction.cc:56-108). -/
def checkImmediate (i : Instruction) (f : StatusFlags) : Res Unit :=
  if i.mode = .imm_fm then
    if f.m ≠ .on ∧ f.m ≠ .off then .err .flagUnknown else .ok ()
  else if i.mode = .imm_fx then
    if f.x ≠ .on ∧ f.x ≠ .off then .err .flagUnknown else .ok ()
  else if i.mode = .imm_b ∨ i.mode = .imm_w then
    let needed := if i.mode = .imm_b then BitState.on else .off
    if immediateArgumentUsesMBit i.mnemonic ∨ immediateArgumentUsesXBit i.mnemonic then
      let actual := if immediateArgumentUsesMBit i.mnemonic then f.m else f.x
      if actual = .unknown ∨ actual = .original then .err .flagUnknown
      else if actual = .on ∧ needed = .off then .err .immediateContradiction
      else if actual = .off ∧ needed = .on then .err .immediateContradiction
      else .ok ()
    else .ok ()
  else .ok ()

/-- `CheckConsistency` (nsasm/instruction.cc:15-110). -/
def checkConsistency (i : Instruction) (f : StatusFlags) : Res Unit :=
  let eff := if i.mnemonic = .padd ∨ i.mnemonic = .psub then Mnemonic.adc else i.mnemonic
  if !isLegalCombination eff i.mode then .err .illegalCombination
  else do
    i.checkSuffix eff f
    i.checkImmediate f

/-- `FixAddressingMode` (nsasm/instruction.cc:112-137). -/
def fixAddressingMode (i : Instruction) (f : StatusFlags) : Res Instruction :=
  if i.mode = .imm_fm ∨ i.mode = .imm_fx then
    match (if i.mode = .imm_fm then f.m else f.x) with
    | .on => .ok { i with mode := .imm_b }
    | .off => .ok { i with mode := .imm_w }
    | _ => .err .flagUnknown
  else .ok i

/-- `maybe_arg1`, `maybe_arg2` (nsasm/instruction.cc:144-164); `needs_reeval` is
never consulted by any caller and is not modelled. -/
def maybeArg (arg : Expr) (ctx : Ctx) : Res (Option Int) :=
  match arg.eval ctx with
  | .ok v => .ok (some v)
  | .err _ => .ok none
  | .ub u => .ub u

/-- Bit `n` of an `int` (two's complement), for `*arg & 0x01` etc. -/
def bitSet (v : Int) (n : Nat) : Bool := v / (2 ^ n : Nat) % 2 = 1

/-- The `M_rep`/`M_sep` block (nsasm/instruction.cc:183-216). -/
def executeRepSep (f : StatusFlags) (target : BitState) : Option Int → StatusFlags
  | none =>
      let f := if f.c ≠ target then f.setC .unknown else f
      let f := if f.x ≠ target then f.setX .unknown else f
      let f := if f.m ≠ target then f.setM .unknown else f
      f
  | some v =>
      let f := if bitSet v 0 then f.setC target else f
      let f := if bitSet v 4 then f.setX target else f
      let f := if bitSet v 5 then f.setM target else f
      f

/-- The `M_mvn`/`M_mvp` block (nsasm/instruction.cc:289-315). -/
def executeMove (i : Instruction) (es : ExecutionState) (ctx : Ctx) : Res ExecutionState := do
  let initialA ← maybeArg i.arg1 ctx
  let a : RegisterValue := match es.flags.m with
    | .on => .value 0xff
    | .off => .value 0xffff
    | _ => .unknown
  let (x, y) ← (match initialA with
    | none => .ok (RegisterValue.unknown, RegisterValue.unknown)
    | some v => do
        let mask := if es.flags.x = .on then 0xff else 0xffff
        let offset ← i32 (if i.mnemonic = .mvn then 1 + v else -1 - v)
        let x ← es.x.add offset mask
        let y ← es.y.add offset mask
        .ok (x, y) : Res (RegisterValue × RegisterValue))
  let dbr ← maybeArg i.arg2 ctx
  let dbr : RegisterValue := match dbr with
    | some v => .ofInt v
    | none => .unknown
  .ok { es with a := a, x := x, y := y, dbr := dbr }

/-- The increment/decrement block (nsasm/instruction.cc:244-266). -/
def executeIncDec (i : Instruction) (es : ExecutionState) : Res ExecutionState :=
  if i.mode ≠ .acc ∧ i.mode ≠ .imp then .ok es
  else do
    let offset : Int := if i.mnemonic ∈ [Mnemonic.dec, .dex, .dey] then -1 else 1
    if i.mnemonic = .inc ∨ i.mnemonic = .dec then
      let a ← es.a.add offset (if es.flags.m = .on then 0xff else 0xffff)
      .ok { es with a := a }
    else if i.mnemonic = .inx ∨ i.mnemonic = .dex then
      let x ← es.x.add offset (if es.flags.x = .on then 0xff else 0xffff)
      .ok { es with x := x }
    else
      let y ← es.y.add offset (if es.flags.x = .on then 0xff else 0xffff)
      .ok { es with y := y }

/-- The load block (nsasm/instruction.cc:268-287). -/
def executeLoad (i : Instruction) (es : ExecutionState) (ctx : Ctx) : Res ExecutionState :=
  if i.mode ∈ [Mode.imm_b, .imm_fx, .imm_fm, .imm_w] then do
    let arg ← maybeArg i.arg1 ctx
    let v : RegisterValue := match arg with
      | none => .unknown
      | some v => .ofInt v
    if i.mnemonic = .lda then .ok { es with a := v }
    else if i.mnemonic = .ldx then .ok { es with x := v }
    else .ok { es with y := v }
  else .ok es

/-- `Execute` (nsasm/instruction.cc:139-390). -/
def execute (i : Instruction) (es : ExecutionState) (ctx : Ctx) : Res ExecutionState := do
  i.checkConsistency es.flags
  let m := i.mnemonic
  if m = .sec ∨ m = .bcc then .ok { es with flags := es.flags.setC .on }
  else if m = .clc ∨ m = .bcs then .ok { es with flags := es.flags.setC .off }
  else if m = .rep ∨ m = .sep then do
    let arg ← maybeArg i.arg1 ctx
    .ok { es with flags := executeRepSep es.flags (if m = .rep then .off else .on) arg }
  else if m ∈ [.adc, .sbc, .padd, .psub, .asl, .lsr, .rol, .ror] then
    .ok { es with a := .unknown, flags := es.flags.setC .unknown }
  else if m ∈ [.cmp, .cpx, .cpy] then .ok { es with flags := es.flags.setC .unknown }
  else if m ∈ [.and, .eor, .ora] then .ok { es with a := .unknown }
  else if m ∈ [.inc, .dec, .inx, .dex, .iny, .dey] then i.executeIncDec es
  else if m ∈ [.lda, .ldx, .ldy] then i.executeLoad es ctx
  else if m = .mvn ∨ m = .mvp then i.executeMove es ctx
  else if m = .pea then do
    let arg ← maybeArg i.arg1 ctx
    .ok { es with stack := es.stack.pushWord arg }
  else if m = .pei ∨ m = .per then .ok { es with stack := es.stack.pushUnknownWord }
  else if m = .pha then .ok { es with stack := es.stack.pushReg .a es.a es.flags.m }
  else if m = .phx then .ok { es with stack := es.stack.pushReg .x es.x es.flags.x }
  else if m = .phy then .ok { es with stack := es.stack.pushReg .y es.y es.flags.x }
  else if m = .pla then do
    let (v, s) ← es.stack.pullReg .a es.flags.m
    .ok { es with a := v, stack := s }
  else if m = .plx then do
    let (v, s) ← es.stack.pullReg .x es.flags.x
    .ok { es with x := v, stack := s }
  else if m = .ply then do
    let (v, s) ← es.stack.pullReg .y es.flags.x
    .ok { es with y := v, stack := s }
  else if m = .php then .ok es.pushFlags
  else if m = .plp then .ok es.pullFlags
  else if m = .xce then .ok { es with flags := es.flags.exchangeCE }
  else if m ∈ [.jmp, .jsl, .jsr, .brk, .cop] then
    let f := (i.ret.yieldFlags).getD es.flags
    .ok { es with flags := f.setC .unknown }
  else .ok es

/-- `ExecuteBranch` (nsasm/instruction.cc:392-400); `Execute` is called with the
default `NullLookupContext`. -/
def executeBranch (i : Instruction) (es : ExecutionState) : Res ExecutionState := do
  let es ← i.execute es nullCtx
  if i.mnemonic = .bcc then .ok { es with flags := es.flags.setC .off }
  else if i.mnemonic = .bcs then .ok { es with flags := es.flags.setC .on }
  else .ok es

/-- `SerializedSize` (nsasm/instruction.cc:402-408). -/
def serializedSize (i : Instruction) : Nat :=
  instructionLength i.mode + (if i.mnemonic = .padd ∨ i.mnemonic = .psub then 1 else 0)

/-- The bytes `Assemble` hands to the sink (nsasm/instruction.cc:410-508).  Every
successful path of the C++ ends in exactly one `return sink->Write(address, ..)`. -/
def assembleBytes (i : Instruction) (address : Addr) (ctx : Ctx) : Res (List UInt8) := do
  let pre : List UInt8 :=
    if i.mnemonic = .padd then [0x18] else if i.mnemonic = .psub then [0x38] else []
  let trueMnemonic : Mnemonic :=
    if i.mnemonic = .padd then .adc else if i.mnemonic = .psub then .sbc else i.mnemonic
  match encodeOpcode trueMnemonic i.mode with
  | none => .err .illegalCombination
  | some opcode =>
    let pre := pre ++ [opcode]
    match i.mode with
    | .imm_fm | .imm_fx => .err .sizeNotKnown
    | .imp | .acc => .ok pre
    | .imm_b | .dir_b | .dir_bx | .dir_by | .ind_b | .ind_bx | .ind_by | .lng_b | .lng_by
    | .stk | .stk_y => do
        let v ← i.arg1.eval ctx
        .ok (pre ++ [byteOf v])
    | .imm_w | .dir_w | .dir_wx | .dir_wy | .ind_w | .ind_wx | .lng_w => do
        let v ← i.arg1.eval ctx
        .ok (pre ++ [byteOf v, byteOf (v / 0x100)])
    | .dir_l | .dir_lx => do
        let v ← i.arg1.eval ctx
        .ok (pre ++ [byteOf v, byteOf (v / 0x100), byteOf (v / 0x10000)])
    | .mov => do
        let v1 ← i.arg1.eval ctx
        let v2 ← i.arg2.eval ctx
        .ok (pre ++ [byteOf v2, byteOf v1])
    | .rel8 => do
        let v1 ← i.arg1.eval ctx
        let target ← Address.ofInt v1
        let offset ← Address.subtractWrapped target (Address.addWrapped address 2)
        if offset > 127 ∨ offset < -128 then .err .branchTooFar
        else .ok (pre ++ [byteOf offset])
    | .rel16 => do
        let v1 ← i.arg1.eval ctx
        let target ← Address.ofInt v1
        let offset ← Address.subtractWrapped target (Address.addWrapped address 3)
        let w := offset % 0x10000
        .ok (pre ++ [byteOf w, byteOf (w / 0x100)])

/-- `Assemble` (nsasm/instruction.cc:410-508). -/
def assemble {σ : Type} (i : Instruction) (address : Addr) (ctx : Ctx) (sink : Sink σ)
    (s : σ) : σ × Res Unit :=
  match i.assembleBytes address ctx with
  | .ok bs => sink s address bs
  | .err e => (s, .err e)
  | .ub u => (s, .ub u)

/-- `FarBranchTarget` (nsasm/instruction.cc:510-529). -/
def farBranchTarget (i : Instruction) (source : Addr) : Res (Option Addr) :=
  if i.mode = .dir_l ∧ (i.mnemonic = .jmp ∨ i.mnemonic = .jsl) then
    match i.arg1.eval nullCtx with
    | .ok t => do .ok (some (← Address.ofInt t))
    | .err _ => .ok none
    | .ub u => .ub u
  else if i.mode = .dir_w ∧ (i.mnemonic = .jmp ∨ i.mnemonic = .jsr) then
    match i.arg1.eval nullCtx with
    | .ok t => .ok (some (Address.ofBank (Address.bank source) t))
    | .err _ => .ok none
    | .ub u => .ub u
  else .ok none

end Instruction

/-- The operand part of `Decode` (nsasm/decode.cc:38-107): the two arguments for
the resolved mode. -/
def decodeArgs (mode : Mode) (bytes : List UInt8) : Res (Expr × Expr) :=
  match mode with
  | .dir_l | .dir_lx =>
      match bytes with
      | b0 :: b1 :: b2 :: _ =>
          .ok (.mkLit (b0.toNat + b1.toNat * 256 + b2.toNat * 256 * 256 : Nat) .long, .null)
      | _ => .err .notEnoughBytes
  | .imm_w | .dir_w | .dir_wx | .dir_wy | .ind_w | .ind_wx | .lng_w =>
      match bytes with
      | b0 :: b1 :: _ => .ok (.mkLit (b0.toNat + b1.toNat * 256 : Nat) .word, .null)
      | _ => .err .notEnoughBytes
  | .imm_b | .dir_b | .dir_bx | .dir_by | .ind_b | .ind_bx | .ind_by | .lng_b | .lng_by
  | .stk | .stk_y =>
      match bytes with
      | b0 :: _ => .ok (.mkLit (b0.toNat : Nat) .byte, .null)
      | _ => .err .notEnoughBytes
  | .mov =>
      match bytes with
      | b0 :: b1 :: _ => .ok (.mkLit (b1.toNat : Nat) .byte, .mkLit (b0.toNat : Nat) .byte)
      | _ => .err .notEnoughBytes
  | .rel8 =>
      match bytes with
      | b0 :: _ =>
          let value : Int := b0.toNat
          let value := if value ≥ 128 then value - 256 else value
          .ok (.mkLit value .sbyte, .null)
      | _ => .err .notEnoughBytes
  | .rel16 =>
      match bytes with
      | b0 :: b1 :: _ =>
          let value : Int := (b0.toNat + b1.toNat * 256 : Nat)
          let value := if value ≥ 32768 then value - 65536 else value
          .ok (.mkLit value .sword, .null)
      | _ => .err .notEnoughBytes
  | .imp | .acc | .imm_fm | .imm_fx => .ok (.null, .null)

/-- `Decode` (nsasm/decode.cc:9-109). -/
def decode (bytes : List UInt8) (flags : StatusFlags) : Res Instruction :=
  match bytes with
  | [] => .err .notEnoughBytes
  | opcode :: bytes => do
      let (mnemonic, mode) := decodeOpcode opcode
      let mode ← (if mode = .imm_fm ∨ mode = .imm_fx then
          match (if mode = .imm_fm then flags.m else flags.x) with
          | .on => .ok Mode.imm_b
          | .off => .ok Mode.imm_w
          | _ => .err .decodeFlagUnknown
        else .ok mode : Res Mode)
      let (a1, a2) ← decodeArgs mode bytes
      .ok ⟨mnemonic, .none, mode, a1, a2, .default⟩

end Nsasm
