import Verif.Model.Assembler
import Verif.Model.File

/-!
# The project's own tests, run on the model

Every case of the unit tests of /repo that concerns modelled code, evaluated on the model by `#guard`, which
runs Lean's interpreter and adds nothing to the environment.  These are tests, not theorems: they are there to show that the
model does what the code does, and nothing else depends on them.  `TEST(OpcodeMap, decode)` and
`TEST(OpcodeMap, encode)` are not here because `C55` compares the whole table with another source.  `expected == none` of the
tests is `Option.none` here.
-/

namespace Nsasm.Conformance
open Nsasm

/-! ## nsasm/addressing_mode_test.cc -/

/-- `TEST(AddressingMode, rendering)`: the expected text of `ArgsToString`. -/
def rendering : List (Mode × Int × Int × Str) := [
  (.imp, 0, 0, cs!""),
  (.acc, 0, 0, cs!""),
  (.imm_b, 0, 0, cs!" #$00"),
  (.imm_b, 0x12, 0, cs!" #$12"),
  (.imm_w, 0, 0, cs!" #$0000"),
  (.imm_w, 0x12, 0, cs!" #$0012"),
  (.imm_w, 0x1234, 0, cs!" #$1234"),
  (.dir_b, 0, 0, cs!" $00"),
  (.dir_b, 0x12, 0, cs!" $12"),
  (.dir_w, 0, 0, cs!" $0000"),
  (.dir_w, 0x12, 0, cs!" $0012"),
  (.dir_w, 0x1234, 0, cs!" $1234"),
  (.dir_l, 0, 0, cs!" $000000"),
  (.dir_l, 0x12, 0, cs!" $000012"),
  (.dir_l, 0x123456, 0, cs!" $123456"),
  (.dir_bx, 0, 0, cs!" $00, X"),
  (.dir_bx, 0x12, 0, cs!" $12, X"),
  (.dir_by, 0, 0, cs!" $00, Y"),
  (.dir_by, 0x12, 0, cs!" $12, Y"),
  (.dir_wx, 0, 0, cs!" $0000, X"),
  (.dir_wx, 0x12, 0, cs!" $0012, X"),
  (.dir_wx, 0x1234, 0, cs!" $1234, X"),
  (.dir_wy, 0, 0, cs!" $0000, Y"),
  (.dir_wy, 0x12, 0, cs!" $0012, Y"),
  (.dir_wy, 0x1234, 0, cs!" $1234, Y"),
  (.ind_b, 0, 0, cs!" ($00)"),
  (.ind_b, 0x12, 0, cs!" ($12)"),
  (.ind_w, 0, 0, cs!" ($0000)"),
  (.ind_w, 0x12, 0, cs!" ($0012)"),
  (.ind_w, 0x1234, 0, cs!" ($1234)"),
  (.ind_bx, 0, 0, cs!" ($00, X)"),
  (.ind_bx, 0x12, 0, cs!" ($12, X)"),
  (.ind_by, 0, 0, cs!" ($00), Y"),
  (.ind_by, 0x12, 0, cs!" ($12), Y"),
  (.ind_wx, 0, 0, cs!" ($0000, X)"),
  (.ind_wx, 0x12, 0, cs!" ($0012, X)"),
  (.ind_wx, 0x1234, 0, cs!" ($1234, X)"),
  (.lng_b, 0, 0, cs!" [$00]"),
  (.lng_b, 0x12, 0, cs!" [$12]"),
  (.lng_w, 0, 0, cs!" [$0000]"),
  (.lng_w, 0x12, 0, cs!" [$0012]"),
  (.lng_w, 0x1234, 0, cs!" [$1234]"),
  (.lng_by, 0, 0, cs!" [$00], Y"),
  (.lng_by, 0x12, 0, cs!" [$12], Y"),
  (.stk, 0, 0, cs!" $00, S"),
  (.stk, 0x12, 0, cs!" $12, S"),
  (.stk_y, 0, 0, cs!" ($00, S), Y"),
  (.stk_y, 0x12, 0, cs!" ($12, S), Y"),
  (.mov, 0, 0, cs!" #$00, #$00"),
  (.mov, 0x12, 0x34, cs!" #$12, #$34")]

#guard decide (rendering.length = 50 ∧ ∀ c ∈ rendering, argsToStr c.1 (.mkLit c.2.1 (arg1Type c.1)) (.mkLit c.2.2.1 .byte) = c.2.2.2)

/- `TEST(AddressingMode, instruction_size)`. -/
#guard [(Mode.imp, 1), (Mode.acc, 1), (Mode.imm_b, 2), (Mode.imm_w, 3), (Mode.dir_b, 2), (Mode.dir_w, 3), (Mode.dir_l, 4), (Mode.dir_bx, 2), (Mode.dir_by, 2), (Mode.dir_wx, 3), (Mode.dir_wy, 3), (Mode.dir_lx, 4), (Mode.ind_b, 2), (Mode.ind_w, 3), (Mode.ind_bx, 2), (Mode.ind_by, 2), (Mode.ind_wx, 3), (Mode.lng_b, 2), (Mode.lng_w, 3), (Mode.lng_by, 2), (Mode.stk, 2), (Mode.stk_y, 2), (Mode.mov, 3), (Mode.rel8, 2), (Mode.rel16, 3), (Mode.imm_fm, 0), (Mode.imm_fx, 0)].all fun c => decide (instructionLength c.1 = c.2)

/- `TEST(AddressingMode, arg_1_type)`. -/
#guard decide (∀ c ∈ [(Mode.imp, NumericType.unknown), (Mode.acc, NumericType.unknown), (Mode.imm_b, NumericType.byte), (Mode.imm_w, NumericType.word), (Mode.dir_b, NumericType.byte), (Mode.dir_w, NumericType.word), (Mode.dir_l, NumericType.long), (Mode.dir_bx, NumericType.byte), (Mode.dir_by, NumericType.byte), (Mode.dir_wx, NumericType.word), (Mode.dir_wy, NumericType.word), (Mode.dir_lx, NumericType.long), (Mode.ind_b, NumericType.byte), (Mode.ind_w, NumericType.word), (Mode.ind_bx, NumericType.byte), (Mode.ind_by, NumericType.byte), (Mode.ind_wx, NumericType.word), (Mode.lng_b, NumericType.byte), (Mode.lng_w, NumericType.word), (Mode.lng_by, NumericType.byte), (Mode.stk, NumericType.byte), (Mode.stk_y, NumericType.byte), (Mode.mov, NumericType.byte), (Mode.rel8, NumericType.byte), (Mode.rel16, NumericType.word), (Mode.imm_fm, NumericType.unknown), (Mode.imm_fx, NumericType.unknown)], arg1Type c.1 = c.2)

/-- The cases of `TEST(AddressingMode, simple_deduce_mode)`. -/
def deductions : List (SMode × List (NumericType × Option Mode)) := [
  (.imm, [(.byte, some .imm_b), (.word, some .imm_w), (.long, none)]),
  (.dir, [(.byte, some .dir_b), (.word, some .dir_w), (.long, some .dir_l)]),
  (.dir_x, [(.byte, some .dir_bx), (.word, some .dir_wx), (.long, some .dir_lx)]),
  (.dir_y, [(.byte, some .dir_by), (.word, some .dir_wy), (.long, none)]),
  (.ind, [(.byte, some .ind_b), (.word, some .ind_w), (.long, none)]),
  (.ind_x, [(.byte, some .ind_bx), (.word, some .ind_wx), (.long, none)]),
  (.ind_y, [(.byte, some .ind_by), (.word, none), (.long, none)]),
  (.lng, [(.byte, some .lng_b), (.word, some .lng_w), (.long, none)]),
  (.lng_y, [(.byte, some .lng_by), (.word, none), (.long, none)]),
  (.stk, [(.byte, some .stk), (.word, none), (.long, none)]),
  (.stk_y, [(.byte, some .stk_y), (.word, none), (.long, none)])]

/-- `TEST(AddressingMode, simple_deduce_mode)`, for one mnemonic. -/
def deduceSimple (m : Mnemonic) : Bool :=
  deductions.all fun (sam, cases) =>
    (sam == .imm && (immediateArgumentUsesMBit m || immediateArgumentUsesXBit m)) ||
    cases.all fun (t, mode) =>
      let arg1 := Expr.mkLit 0 t
      let consistent := fun a => ((⟨m, .none, a, arg1, .null, .default⟩ : Instruction).checkConsistency .default).isOk
      match deduceMode m sam arg1 .null, mode with
      | .ok a, some a' => a == a' && consistent a'
      | .ok _, none => false
      | _, some a' => !consistent a'
      | _, none => true

#guard decide (∀ m ∈ Mnemonic.all, deduceSimple m = true)

/-- `TEST(AddressingMode, deduce_no_arg_mode)`, for one mnemonic. -/
def deduceNoArg (m : Mnemonic) : Bool :=
  let consistent := fun a => ((⟨m, .none, a, .null, .null, .default⟩ : Instruction).checkConsistency .default).isOk
  let acc := deduceMode m .acc .null .null
  let imp := deduceMode m .imp .null .null
  if consistent .acc then acc == .ok .acc && imp == .ok .acc
  else if consistent .imp then !acc.isOk && imp == .ok .imp
  else !acc.isOk && !imp.isOk

#guard decide (∀ m ∈ Mnemonic.all, deduceNoArg m = true)

/-- `TEST(AddressingMode, deduce_immediate_mode)`, for one mnemonic. -/
def deduceImmediate (m : Mnemonic) : Bool :=
  let arg1 := Expr.mkLit 0 .word
  let consistent := fun a f => ((⟨m, .none, a, arg1, .null, .default⟩ : Instruction).checkConsistency f).isOk
  (!immediateArgumentUsesMBit m ||
    (consistent .imm_fm (.make .off .off .original .unknown) && deduceMode m .imm arg1 .null == .ok .imm_fm)) &&
  (!immediateArgumentUsesXBit m ||
    (consistent .imm_fx (.make .off .original .off .unknown) && deduceMode m .imm arg1 .null == .ok .imm_fx))

#guard decide (∀ m ∈ Mnemonic.all, deduceImmediate m = true)

/-! ## nsasm/decode_test.cc -/

/-- All opcodes. -/
def opcodes : List UInt8 := (List.range 256).map UInt8.ofNat

/-- A decoded instruction with the mnemonic and the mode, of the size, whose first operand has the value. -/
def decodesTo (r : Res Instruction) (m : Mnemonic) (a : Mode) (size : Nat) (v : Option Int) : Bool :=
  match r with
  | .ok i => i.mnemonic == m && i.mode == a && i.serializedSize == size &&
      (match v with | some v => i.arg1.eval nullCtx == .ok v | none => i.arg1 == .null)
  | _ => false

/-- `TEST(Decode, mode_dependent_instructions)`, for one opcode. -/
def decodeDependent (opcode : UInt8) : Bool :=
  let (m, mode) := decodeOpcode opcode
  if mode != .imm_fm && mode != .imm_fx then true
  else
    let base := StatusFlags.make .off .unknown .unknown .unknown
    let eight := if mode = .imm_fm then base.setM .on else base.setX .on
    let sixteen := if mode = .imm_fm then base.setM .off else base.setX .off
    let data := [opcode, 0x21, 0x43, 0x65]
    !(decode [opcode] .default).isOk && !(decode [opcode] eight).isOk && !(decode [opcode] sixteen).isOk &&
    !(decode data .default).isOk && decodesTo (decode data eight) m .imm_b 2 (some 0x21) &&
    decodesTo (decode data sixteen) m .imm_w 3 (some 0x4321)

#guard decide (∀ b ∈ opcodes, decodeDependent b = true)

/-- `TEST(Decode, mode_independent_instructions)`, for one opcode. -/
def decodeIndependent (opcode : UInt8) : Bool :=
  let (m, mode) := decodeOpcode opcode
  if mode = .imm_fm ∨ mode = .imm_fx then true
  else
    let n := instructionLength mode
    let data := [opcode, 0x21, 0x43, 0x65, 0x87]
    let v : Option Int :=
      if mode = .mov then some 0x43
      else if n = 1 then none else if n = 2 then some 0x21 else if n = 3 then some 0x4321 else some 0x654321
    !(decode (data.take (n - 1)) .default).isOk && (decode (data.take n) .default).isOk &&
    decodesTo (decode data .default) m mode n v &&
    (match decode data .default with
      | .ok i => if mode = .mov then i.arg2.eval nullCtx == .ok 0x21 else i.arg2 == .null
      | _ => false)

#guard decide (∀ b ∈ opcodes, decodeIndependent b = true)

/-! ## nsasm/directive_test.cc -/

/- `TEST(Directive, directive_types)`. -/
#guard decide (∀ c ∈ [(DirectiveName.begin_, DirectiveType.no_arg), (DirectiveName.end_, DirectiveType.no_arg), (DirectiveName.halt, DirectiveType.no_arg), (DirectiveName.equ, DirectiveType.single_arg), (DirectiveName.org, DirectiveType.constant_arg), (DirectiveName.mode, DirectiveType.flag_arg), (DirectiveName.entry, DirectiveType.calling_convention_arg), (DirectiveName.db, DirectiveType.list_arg), (DirectiveName.dl, DirectiveType.list_arg), (DirectiveName.dw, DirectiveType.list_arg), (DirectiveName.module_, DirectiveType.name_arg), (DirectiveName.remote, DirectiveType.remote_arg)], c.1.type = c.2)

/-! ## nsasm/expression_test.cc -/

/-- `Ex(sv).ToString()`. -/
def exText (s : Str) : Option Str := match Parse.parseExpression s with | .ok e => some e.toStr | _ => none
/-- `Eval(sv)`. -/
def exValue (s : Str) : Option Int :=
  match Parse.parseExpression s with | .ok e => (match e.eval nullCtx with | .ok v => some v | _ => none) | _ => none
/-- `Ex(sv).Type()`. -/
def exType (s : Str) : Option NumericType := match Parse.parseExpression s with | .ok e => some e.type | _ => none

/- The expected texts. -/
#guard decide (∀ c ∈ [
    (cs!"1+2*3", cs!"op+(1, op*(2, 3))"),
    (cs!"1+(2*3)", cs!"op+(1, op*(2, 3))"),
    (cs!"(1+2)*3", cs!"op*(op+(1, 2), 3)"),
    (cs!"1*2+3", cs!"op+(op*(1, 2), 3)"),
    (cs!"5-2-1", cs!"op-(op-(5, 2), 1)"),
    (cs!"-1-2", cs!"op-(op-(1), 2)"),
    (cs!"-(1-2)", cs!"op-(op-(1, 2))"),
    (cs!"1 - -2", cs!"op-(1, op-(2))"),
    (cs!"foo+bar", cs!"op+(foo, bar)"),
    (cs!"<$123456", cs!"op<($123456)"),
    (cs!">$123456", cs!"op>($123456)"),
    (cs!"^$123456", cs!"op^($123456)"),
    (cs!"foo", cs!"foo"),
    (cs!"::foo", cs!"::foo"),
    (cs!"foo::bar", cs!"foo::bar"),
    (cs!"@foo", cs!"@foo"),
    (cs!"@::foo", cs!"@::foo"),
    (cs!"@foo::bar", cs!"@foo::bar")],
    exText c.1 = some c.2)

/- The expected values. -/
#guard [
    (cs!"1+2*3", (7 : Int)),
    (cs!"1+(2*3)", (7 : Int)),
    (cs!"(1+2)*3", (9 : Int)),
    (cs!"1*2+3", (5 : Int)),
    (cs!"5-2-1", (2 : Int)),
    (cs!"-1-2", (-3 : Int)),
    (cs!"-(1-2)", (1 : Int)),
    (cs!"1 - -2", (3 : Int)),
    (cs!"<$123456", (0x56 : Int)),
    (cs!">$123456", (0x34 : Int)),
    (cs!"^$123456", (0x12 : Int))].all fun c => decide (exValue c.1 = some c.2)

/- The expected types. -/
#guard decide (∀ c ∈ [
    (cs!"0", NumericType.unknown),
    (cs!"00000000", NumericType.unknown),
    (cs!"$00", NumericType.byte),
    (cs!"$0000", NumericType.word),
    (cs!"$000000", NumericType.long),
    (cs!"foo", NumericType.word),
    (cs!"::foo", NumericType.word),
    (cs!"foo::bar", NumericType.word),
    (cs!"@foo", NumericType.long),
    (cs!"@::foo", NumericType.long),
    (cs!"@foo::bar", NumericType.long),
    (cs!"foo + 1", NumericType.word),
    (cs!"::foo + 1", NumericType.word),
    (cs!"foo::bar + 1", NumericType.word),
    (cs!"@foo + 1", NumericType.long),
    (cs!"@::foo + 1", NumericType.long),
    (cs!"@foo::bar + 1", NumericType.long)],
    exType c.1 = some c.2)

/-- `TestIsLocalContext`. -/
def testIsLocal (id : FullId) : Bool :=
  id == ⟨some cs!"foo", cs!"local"⟩ || id == ⟨none, cs!"local"⟩ || id == ⟨none, cs!"scoped_local"⟩

/-- The external names of an expression. -/
def exNames (s : Str) : Option (List FullId) :=
  match Parse.parseExpression s with | .ok e => some (e.externalNames testIsLocal) | _ => none

/- `TEST(Expression, namespaces)`. -/
#guard decide (exNames cs!"foo::bar + foo::local + bar::local + foo::scoped_local" =
      some [⟨some cs!"foo", cs!"bar"⟩, ⟨some cs!"bar", cs!"local"⟩, ⟨some cs!"foo", cs!"scoped_local"⟩] ∧
    exNames cs!"bar + local + scoped_local" = some [⟨some [], cs!"bar"⟩])

/-! ## nsasm/mnemonic_test.cc -/

/-- The mnemonics that `TEST(Mnemonic, string_conversions)` lists. -/
def mnemonics : List (Mnemonic × Str) := [
  (.adc, cs!"adc"), (.and, cs!"and"), (.asl, cs!"asl"), (.bcc, cs!"bcc"), (.bcs, cs!"bcs"), (.beq, cs!"beq"),
  (.bit, cs!"bit"), (.bmi, cs!"bmi"), (.bne, cs!"bne"), (.bpl, cs!"bpl"), (.bra, cs!"bra"), (.brk, cs!"brk"),
  (.brl, cs!"brl"), (.bvc, cs!"bvc"), (.bvs, cs!"bvs"), (.clc, cs!"clc"), (.cld, cs!"cld"), (.cli, cs!"cli"),
  (.clv, cs!"clv"), (.cmp, cs!"cmp"), (.cop, cs!"cop"), (.cpx, cs!"cpx"), (.cpy, cs!"cpy"), (.dec, cs!"dec"),
  (.dex, cs!"dex"), (.dey, cs!"dey"), (.eor, cs!"eor"), (.inc, cs!"inc"), (.inx, cs!"inx"), (.iny, cs!"iny"),
  (.jmp, cs!"jmp"), (.jsl, cs!"jsl"), (.jsr, cs!"jsr"), (.lda, cs!"lda"), (.ldx, cs!"ldx"), (.ldy, cs!"ldy"),
  (.lsr, cs!"lsr"), (.mvn, cs!"mvn"), (.mvp, cs!"mvp"), (.nop, cs!"nop"), (.ora, cs!"ora"), (.pea, cs!"pea"),
  (.pei, cs!"pei"), (.per, cs!"per"), (.pha, cs!"pha"), (.phb, cs!"phb"), (.phd, cs!"phd"), (.phk, cs!"phk"),
  (.php, cs!"php"), (.phx, cs!"phx"), (.phy, cs!"phy"), (.pla, cs!"pla"), (.plb, cs!"plb"), (.pld, cs!"pld"),
  (.plp, cs!"plp"), (.plx, cs!"plx"), (.ply, cs!"ply"), (.rep, cs!"rep"), (.rol, cs!"rol"), (.ror, cs!"ror"),
  (.rti, cs!"rti"), (.rtl, cs!"rtl"), (.rts, cs!"rts"), (.sbc, cs!"sbc"), (.sec, cs!"sec"), (.sed, cs!"sed"),
  (.sei, cs!"sei"), (.sep, cs!"sep"), (.sta, cs!"sta"), (.stp, cs!"stp"), (.stx, cs!"stx"), (.sty, cs!"sty"),
  (.stz, cs!"stz"), (.tax, cs!"tax"), (.tay, cs!"tay"), (.tcd, cs!"tcd"), (.tcs, cs!"tcs"), (.tdc, cs!"tdc"),
  (.trb, cs!"trb"), (.tsb, cs!"tsb"), (.tsc, cs!"tsc"), (.tsx, cs!"tsx"), (.txa, cs!"txa"), (.txs, cs!"txs"),
  (.txy, cs!"txy"), (.tya, cs!"tya"), (.tyx, cs!"tyx"), (.wai, cs!"wai"), (.wdm, cs!"wdm"), (.xba, cs!"xba"),
  (.xce, cs!"xce"), (.padd, cs!"add"), (.psub, cs!"sub")]

#guard decide (mnemonics.length = 93 ∧ ∀ c ∈ mnemonics, c.1.name = c.2 ∧ toMnemonic c.2 = some c.1 ∧ toMnemonic (upper c.2) = some c.1)

#guard decide (∀ c ∈ [(Suffix.b, cs!".b"), (.w, cs!".w")], c.1.name = c.2 ∧ toSuffix c.2 = some c.1 ∧ toSuffix (upper c.2) = some c.1)

#guard decide (∀ c ∈ [(DirectiveName.begin_, cs!".begin"), (DirectiveName.db, cs!".db"), (DirectiveName.dw, cs!".dw"), (DirectiveName.dl, cs!".dl"), (DirectiveName.end_, cs!".end"), (DirectiveName.entry, cs!".entry"), (DirectiveName.equ, cs!".equ"), (DirectiveName.mode, cs!".mode"), (DirectiveName.module_, cs!".module"), (DirectiveName.org, cs!".org")],
    c.1.name = upper c.2 ∧ toDirectiveName c.2 = some c.1 ∧ toDirectiveName (upper c.2) = some c.1)

#guard decide (toMnemonic [] = none ∧ toMnemonic cs!"hcf" = none ∧ toDirectiveName [] = none ∧ toDirectiveName cs!".HCF" = none ∧
    Suffix.none.name = [])

/-! ## nsasm/parse_test.cc -/

/-- `TEST(Parse, round_trip)`, for one opcode. -/
def roundTrips (opcode : UInt8) : Bool :=
  let (m, mode) := decodeOpcode opcode
  let arg1 : Expr :=
    if mode = .rel8 ∨ mode = .rel16 then .ident ⟨none, cs!"label"⟩ .word
    else if mode ≠ .imp ∧ mode ≠ .acc then .mkLit 0 (arg1Type mode) else .null
  let arg2 : Expr := if mode = .mov then .mkLit 0 .byte else .null
  match tokenize (m.name ++ argsToStr mode arg1 arg2) with
  | .ok ts =>
    match Parse.parse ts with
    | .ok [.stmt (.instr i)] =>
        i.mnemonic == m && i.mode == mode && i.arg1.eval nullCtx == arg1.eval nullCtx && i.arg2.eval nullCtx == arg2.eval nullCtx
    | _ => false
  | _ => false

#guard decide (∀ b ∈ opcodes, roundTrips b = true)

/-! ## nsasm/ranges_test.cc -/

/-- Claims made one after the other: the answers and the chunks. -/
def claims (r : DataRange) : List (Nat × Int) → Option (List Bool × DataRange)
  | [] => some ([], r)
  | (a, n) :: rest =>
    match r.claimBytes a n with
    | .ok (r', b) => (claims r' rest).map fun (bs, r'') => (b :: bs, r'')
    | _ => none

/-- The claims are answered so, and leave these chunks. -/
def claimed (r : List (Nat × Int)) (answers : List Bool) (chunks : List Chunk) : Bool :=
  match claims .empty r with
  | some (bs, r') => bs == answers && r'.ranges == chunks
  | none => false

/- `TEST(DataRange, Contains)`. -/
#guard decide (∀ i ∈ List.range 80, (claims .empty [(20, 10), (40, 10), (60, 10)]).map (fun r => (r.1, r.2.contains i)) =
    some ([true, true, true], decide (i / 10 = 2 ∨ i / 10 = 4 ∨ i / 10 = 6)) ∧ DataRange.empty.contains i = false)

/- `TEST(DataRange, MergeNeighbors)`. -/
#guard [[20, 30, 40], [20, 40, 30], [30, 20, 40], [30, 40, 20], [40, 20, 30], [40, 30, 20]].all fun p => decide (claimed (p.map fun a => (a, 10)) [true, true, true] [(20, 50)] = true ∧
    claimed (p.map fun a => (if a = 20 then 20 else if a = 30 then 40 else 60, 10)) [true, true, true]
      [(20, 30), (40, 50), (60, 70)] = true ∧
    claimed (p.map fun a => (a, 12)) [true, p.getLast? = some 30, false] [(20, 52)] = true)

/-- `TEST(DataRange, ComplexMerge)`: one more claim on the seed state. -/
def complexMerge : List ((Nat × Int) × Bool × List Chunk) := [
  ((20, 10), true, [(10, 40), (50, 60)]),
  ((15, 15), false, [(10, 40), (50, 60)]),
  ((20, 15), false, [(10, 40), (50, 60)]),
  ((15, 20), false, [(10, 40), (50, 60)]),
  ((30, 5), false, [(10, 20), (30, 40), (50, 60)]),
  ((32, 5), false, [(10, 20), (30, 40), (50, 60)]),
  ((35, 5), false, [(10, 20), (30, 40), (50, 60)]),
  ((25, 15), false, [(10, 20), (25, 40), (50, 60)]),
  ((30, 15), false, [(10, 20), (30, 45), (50, 60)]),
  ((25, 20), false, [(10, 20), (25, 45), (50, 60)]),
  ((20, 30), false, [(10, 60)]),
  ((15, 40), false, [(10, 60)]),
  ((10, 50), false, [(10, 60)]),
  ((10, 60), false, [(10, 70)]),
  ((0, 60), false, [(0, 60)])]

#guard decide (complexMerge.length = 15 ∧ ∀ c ∈ complexMerge,
    claimed [(10, 10), (30, 10), (50, 10), c.1] [true, true, true, c.2.1] c.2.2 = true)

/- `TEST(DataRange, BankWrapping)`. -/
#guard decide (claimed [(0x5fff0, 0x20)] [true] [(0x50000, 0x50010), (0x5fff0, 0x60000)] = true ∧
    claimed [(0x5fff0, 0x10)] [true] [(0x5fff0, 0x60000)] = true ∧ claimed [(0x50000, 0x10)] [true] [(0x50000, 0x50010)] = true ∧
    claimed [(0x5ffd0, 0x20), (0x5fff0, 0x20), (0x50010, 0x20)] [true, true, true] [(0x50000, 0x50030), (0x5ffd0, 0x60000)] = true)

/- `TEST(RangeMap, SanityTest)`. -/
#guard decide ((match claims .empty [(10, 10), (50, 10)], claims .empty [(30, 10), (70, 10)] with
    | some (_, r1), some (_, r2) =>
      let (m1, b1) := (RangeMap.empty : RangeMap Nat).insert r1 1
      let (m2, b2) := m1.insert r2 2
      b1 && b2 && (List.range 100).all fun i =>
        let expected := if (10 ≤ i ∧ i < 20) ∨ (50 ≤ i ∧ i < 60) then some 1
          else if (30 ≤ i ∧ i < 40) ∨ (70 ≤ i ∧ i < 80) then some 2 else none
        m2.lookup i == expected && m2.contains i == expected.isSome
    | _, _ => false) = true)

/-! ## nsasm/token_test.cc -/

/-- `operator==` of tokens ignores the type of a literal. -/
def untyped : Token → Token
  | .lit v _ => .lit v .unknown
  | t => t

/-- The tokens of a line are these, and the end of the line. -/
def tokens (s : Str) (ts : List Token) : Bool :=
  match tokenize s with
  | .ok l => l.map untyped == ts ++ [.eol]
  | _ => false

/- `TEST(Token, names)`. -/
#guard decide (tokens cs!"a b c x y z" [.punct (.ch 'A'), .ident cs!"b", .ident cs!"c", .punct (.ch 'X'), .punct (.ch 'Y'), .ident cs!"z"] = true ∧
    tokens cs!"add mul sbc div" [.mnem .padd, .ident cs!"mul", .mnem .sbc, .ident cs!"div"] = true ∧
    tokens cs!"import/export yiELds IMPORT/EXPORT" [.ident cs!"import", .punct (.ch '/'), .punct .export_, .punct .yields,
      .ident cs!"IMPORT", .punct (.ch '/'), .punct .export_] = true ∧
    tokens (cs!"$12 $0012 $000012 " ++ cs!"0x12 0x0012 0x000012 " ++
      cs!"%01100101 %0000000001100101 %000000000000000001100101 " ++ cs!"12 000012 ")
      ([0x12, 0x12, 0x12, 0x12, 0x12, 0x12, 0b01100101, 0b01100101, 0b01100101, 12, 12].map (Token.lit · .unknown)) = true ∧
    tokens cs!"label1 ADC.w ($1234,X)" [.ident cs!"label1", .mnem .adc, .suffix .w, .punct (.ch '('), .lit 0x1234 .unknown,
      .punct (.ch ','), .punct (.ch 'X'), .punct (.ch ')')] = true ∧
    tokens cs!"label1 JSL @module::func" [.ident cs!"label1", .mnem .jsl, .punct (.ch '@'), .ident cs!"module", .punct .scope,
      .ident cs!"func"] = true ∧
    tokens cs!"label1 .DB $12, $34, foo" [.ident cs!"label1", .dir .db, .lit 0x12 .unknown, .punct (.ch ','), .lit 0x34 .unknown,
      .punct (.ch ','), .ident cs!"foo"] = true ∧
    tokens cs!"++: BRA -- : --- BRA +++" [.punct .plusplus, .punct (.ch ':'), .mnem .bra, .punct .minusminus, .punct (.ch ':'),
      .punct .minusminusminus, .mnem .bra, .punct .plusplusplus] = true)

/- The types of the literals, which the test intends to check. -/
#guard decide ((match tokenize cs!"$12 $0012 $000012 0x12 0x0012 0x000012" with
    | .ok l => l.map (fun t => match t with | .lit _ t => some t | _ => none)
    | _ => []) = [some .byte, some .word, some .long, some .byte, some .word, some .long, none])

/-! ## nsasm/opcode_map_test.cc -/

/- `TEST(OpcodeMap, controlling_flag)`. -/
#guard decide (∀ b ∈ opcodes, ((decodeOpcode b).2 = .imm_fx → flagControllingInstructionSize (decodeOpcode b).1 = .usesX) ∧
    ((decodeOpcode b).2 = .imm_fm → flagControllingInstructionSize (decodeOpcode b).1 = .usesM))

/-! ## test/simple_tests.cc, test/cross_module_dependencies_test.cc -/

/-- `TestSink` (test/test_sink.cc:5-17): the bytes received; a second write to an address fails. -/
def testWrite (got : List (Addr × UInt8)) (address : Addr) : Nat → List UInt8 → List (Addr × UInt8) × Res Unit
  | _, [] => (got, .ok ())
  | i, b :: bs =>
    let target := Address.addWrapped address i
    if (got.lookup target).isSome then (got, .err .sink) else testWrite ((target, b) :: got) address (i + 1) bs

def testSink : Sink (List (Addr × UInt8)) := fun got address data => testWrite got address 0 data

/-- `ExpectAssembly` with one run of expected bytes (test/test_assembly.cc:11-30). -/
def expectAssembly (files : List Str) (location : Addr) (bytes : List UInt8) : Bool :=
  match Assembler.assembleFiles 100 (files.map makeFakeFile) testSink [] with
  | (got, .ok _) => got.length == bytes.length &&
      (List.range bytes.length).all fun i => got.lookup (Address.addWrapped location i) == bytes[i]?
  | _ => false

/-- `ExpectAssemblyError` (test/test_assembly.cc:32-52). -/
def expectError (files : List Str) (e : Err) : Bool :=
  match Assembler.assembleFiles 100 (files.map makeFakeFile) testSink [] with
  | (_, .err e') => e' == e
  | _ => false

/- `TEST(SimpleTest, Example)`. -/
#guard decide (expectAssembly [cs!"\n      .org $008000\n      .entry m8x8\n      RTS\n      "] 0x8000 [0x60] = true ∧
    expectError [cs!"\n      .entry m8x8\n      RTS\n      "] .noOrigin = true)

/-- All orders of a list. -/
def orders {α : Type} : List α → List (List α)
  | [] => [[]]
  | x :: xs => (orders xs).flatMap fun l => (List.range (l.length + 1)).map fun i => l.take i ++ x :: l.drop i

/- `TEST(CrossModuleDependencies, ValidModues)`. -/
#guard decide (∀ files ∈ orders [cs!".module M1\nv1 .equ 1\n", cs!".module M2\nv2 .equ M1::v1 + 1\n",
      cs!".module M3\nv3 .equ M2::v2 + 1\nv4 .equ M1::v1 + 3\n", cs!".org $8000\n.db <M1::v1, <M2::v2, <M3::v3, <M3::v4\n"],
    expectAssembly files 0x8000 [1, 2, 3, 4] = true)

/- `TEST(CrossModuleDependencies, AnonymousModules)`. -/
#guard decide (∀ files ∈ orders [cs!"v1 .equ 1\n", cs!"v2 .equ v1 + 1\n", cs!"v3 .equ v2 + 1\nv4 .equ v1 + 3\n",
      cs!".org $8000\n.db <v1, <v2, <v3, <v4\n"],
    expectAssembly files 0x8000 [1, 2, 3, 4] = true)

/- `TEST(CrossModuleDependencies, CyclicDependencies)`. -/
#guard decide (expectError [cs!"v1 .equ v2\n", cs!"v2 .equ v1\n"] .cyclic = true)

end Nsasm.Conformance
