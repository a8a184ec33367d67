import Verif.Model.Directive

/-! # Names and printing (nsasm/mnemonic.cc, nsasm/addressing_mode.cc,
nsasm/expression.cc, nsasm/instruction.cc, nsasm/directive.cc)

The tables are transcribed by script from the C++ text, keeping the order. -/

namespace Nsasm

/-- `mnemonic_names` (nsasm/mnemonic.cc:11-21). -/
def mnemonicNames : List Str := [
  cs!"adc", cs!"and", cs!"asl", cs!"bit", cs!"cld", cs!"cli",
  cs!"clv", cs!"cmp", cs!"cpx", cs!"cpy", cs!"dec", cs!"dex",
  cs!"dey", cs!"eor", cs!"inc", cs!"inx", cs!"iny", cs!"lda",
  cs!"ldx", cs!"ldy", cs!"lsr", cs!"mvn", cs!"mvp", cs!"nop",
  cs!"ora", cs!"pea", cs!"pei", cs!"per", cs!"pha", cs!"phb",
  cs!"phd", cs!"phk", cs!"phx", cs!"phy", cs!"pla", cs!"plb",
  cs!"pld", cs!"plx", cs!"ply", cs!"rol", cs!"ror", cs!"sbc",
  cs!"sed", cs!"sei", cs!"sta", cs!"stp", cs!"stx", cs!"sty",
  cs!"stz", cs!"tax", cs!"tay", cs!"tcd", cs!"tcs", cs!"tdc",
  cs!"trb", cs!"tsb", cs!"tsc", cs!"tsx", cs!"txa", cs!"txs",
  cs!"txy", cs!"tya", cs!"tyx", cs!"wai", cs!"wdm", cs!"xba",
  cs!"bcc", cs!"bcs", cs!"beq", cs!"bmi", cs!"bne", cs!"bpl",
  cs!"bra", cs!"brk", cs!"brl", cs!"bvc", cs!"bvs", cs!"cop",
  cs!"jmp", cs!"jsl", cs!"jsr", cs!"rti", cs!"rtl", cs!"rts",
  cs!"clc", cs!"php", cs!"plp", cs!"rep", cs!"sec", cs!"sep",
  cs!"xce", cs!"add", cs!"sub"]

/-- `ToString(Mnemonic)` (nsasm/mnemonic.cc:32-37): indexes the table by the
enumeration's value. -/
def Mnemonic.name (m : Mnemonic) : Str := mnemonicNames.getD m.ctorIdx []

/-- `ToString(Suffix)` (nsasm/mnemonic.cc:39-44). -/
def Suffix.name : Suffix → Str
  | .none => []
  | .b => cs!".b"
  | .w => cs!".w"

/-- `ToString(DirectiveName)` (nsasm/mnemonic.cc:46-51).  The range check stops at
`D_org`, so `D_remote` prints as the empty string. -/
def DirectiveName.name : DirectiveName → Str
  | .begin_ => cs!".BEGIN" | .db => cs!".DB" | .dl => cs!".DL" | .dw => cs!".DW"
  | .end_ => cs!".END" | .entry => cs!".ENTRY" | .equ => cs!".EQU" | .halt => cs!".HALT"
  | .mode => cs!".MODE" | .module_ => cs!".MODULE" | .org => cs!".ORG" | .remote => []

/-- The `lookup` table of `ToMnemonic` (nsasm/mnemonic.cc:54-79). -/
def mnemonicLookup : List (Str × Mnemonic) := [
  (cs!"adc", .adc), (cs!"and", .and), (cs!"asl", .asl), (cs!"bit", .bit),
  (cs!"cld", .cld), (cs!"cli", .cli), (cs!"clv", .clv), (cs!"cmp", .cmp),
  (cs!"cpx", .cpx), (cs!"cpy", .cpy), (cs!"dec", .dec), (cs!"dex", .dex),
  (cs!"dey", .dey), (cs!"eor", .eor), (cs!"inc", .inc), (cs!"inx", .inx),
  (cs!"iny", .iny), (cs!"lda", .lda), (cs!"ldx", .ldx), (cs!"ldy", .ldy),
  (cs!"lsr", .lsr), (cs!"mvn", .mvn), (cs!"mvp", .mvp), (cs!"nop", .nop),
  (cs!"ora", .ora), (cs!"pea", .pea), (cs!"pei", .pei), (cs!"per", .per),
  (cs!"pha", .pha), (cs!"phb", .phb), (cs!"phd", .phd), (cs!"phx", .phx),
  (cs!"phy", .phy), (cs!"phk", .phk), (cs!"pla", .pla), (cs!"plb", .plb),
  (cs!"pld", .pld), (cs!"plx", .plx), (cs!"ply", .ply), (cs!"rol", .rol),
  (cs!"ror", .ror), (cs!"sbc", .sbc), (cs!"sed", .sed), (cs!"sei", .sei),
  (cs!"sta", .sta), (cs!"stp", .stp), (cs!"stx", .stx), (cs!"sty", .sty),
  (cs!"stz", .stz), (cs!"tax", .tax), (cs!"tay", .tay), (cs!"tcd", .tcd),
  (cs!"tcs", .tcs), (cs!"tdc", .tdc), (cs!"trb", .trb), (cs!"tsb", .tsb),
  (cs!"tsc", .tsc), (cs!"tsx", .tsx), (cs!"txa", .txa), (cs!"txs", .txs),
  (cs!"txy", .txy), (cs!"tya", .tya), (cs!"tyx", .tyx), (cs!"wai", .wai),
  (cs!"wdm", .wdm), (cs!"xba", .xba), (cs!"bcc", .bcc), (cs!"bcs", .bcs),
  (cs!"beq", .beq), (cs!"bmi", .bmi), (cs!"bne", .bne), (cs!"bpl", .bpl),
  (cs!"bra", .bra), (cs!"brk", .brk), (cs!"brl", .brl), (cs!"bvc", .bvc),
  (cs!"bvs", .bvs), (cs!"cop", .cop), (cs!"jmp", .jmp), (cs!"jsl", .jsl),
  (cs!"jsr", .jsr), (cs!"rti", .rti), (cs!"rtl", .rtl), (cs!"rts", .rts),
  (cs!"clc", .clc), (cs!"php", .php), (cs!"plp", .plp), (cs!"rep", .rep),
  (cs!"sec", .sec), (cs!"sep", .sep), (cs!"xce", .xce), (cs!"add", .padd),
  (cs!"sub", .psub)]

/-- `ToMnemonic` (nsasm/mnemonic.cc:53-86). -/
def toMnemonic (s : Str) : Option Mnemonic := mnemonicLookup.lookup (lower s)

/-- `ToSuffix` (nsasm/mnemonic.cc:88-97). -/
def toSuffix (s : Str) : Option Suffix :=
  [(cs!".b", Suffix.b), (cs!".w", .w)].lookup (lower s)

/-- `ToDirectiveName` (nsasm/mnemonic.cc:99-112). -/
def toDirectiveName (s : Str) : Option DirectiveName :=
  [(cs!".BEGIN", DirectiveName.begin_), (cs!".DB", .db), (cs!".DL", .dl),
   (cs!".DW", .dw), (cs!".END", .end_), (cs!".ENTRY", .entry),
   (cs!".EQU", .equ), (cs!".HALT", .halt), (cs!".MODE", .mode),
   (cs!".MODULE", .module_), (cs!".ORG", .org), (cs!".REMOTE", .remote)].lookup (upper s)

/-- One digit as printed by `%x` and `%d`. -/
def digitChar (d : Nat) : Char := Char.ofNat (if d < 10 then 48 + d else 87 + d)

/-- The digits of `n` in base `b` from the least significant up; `k` bounds their
number. -/
def digitsRev (b : Nat) : Nat → Nat → Str
  | 0, _ => []
  | k + 1, n => digitChar (n % b) :: if n < b then [] else digitsRev b k (n / b)

/-- `%x` (`b = 16`) or `%u` (`b = 10`) of a non-negative value. -/
def digits (b n : Nat) : Str := (digitsRev b (n + 1) n).reverse

/-- `%0<w>x`: at least `w` digits, padded with zeros. -/
def hexPadded (w n : Nat) : Str := List.replicate (w - (digits 16 n).length) '0' ++ digits 16 n

/-- `%d`. -/
def decimal (v : Int) : Str := if v < 0 then '-' :: digits 10 v.natAbs else digits 10 v.natAbs

/-- `FullIdentifier::ToString` (nsasm/identifiers.h:27-33). -/
def FullId.toStr (id : FullId) : Str :=
  match id.module with
  | some m => m ++ cs!"::" ++ id.name
  | none => id.name

/-- The `symbol` member of the operators (nsasm/expression.h:26-46). -/
def BinOp.symbol : BinOp → Char
  | .plus => '+' | .minus => '-' | .mul => '*' | .div => '/'

/-- The `symbol` member of the operators (nsasm/expression.h:61-80). -/
def UnOp.symbol : UnOp → Char
  | .neg => '-' | .lowbyte => '<' | .highbyte => '>' | .bankbyte => '^'

/-- `Expression::ToString` (nsasm/expression.cc:8-24, nsasm/expression.h:197-199,
308-311, 337-339, 364). -/
def Expr.toStr : Expr → Str
  | .null => cs!"<NULL>"
  | .lit v t =>
      let out := t.castTo v
      match t with
      | .byte => '$' :: hexPadded 2 out.toNat
      | .word => '$' :: hexPadded 4 out.toNat
      | .long => '$' :: hexPadded 6 out.toNat
      | _ => decimal out
  | .ident id t => (if t = .long then ['@'] else []) ++ id.toStr
  | .bin op l r => cs!"op" ++ op.symbol :: '(' :: l.toStr ++ cs!", " ++ r.toStr ++ cs!")"
  | .un op a => cs!"op" ++ op.symbol :: '(' :: a.toStr ++ cs!")"
  | .label n _ => n

/-- `ArgsToString` (nsasm/addressing_mode.cc:7-87). -/
def argsToStr (mode : Mode) (arg1 arg2 : Expr) : Str :=
  match mode with
  | .imp | .acc => []
  | .imm_b | .imm_w | .imm_fm | .imm_fx => cs!" #" ++ arg1.toStr
  | .dir_b | .dir_w | .dir_l | .rel8 | .rel16 => cs!" " ++ arg1.toStr
  | .dir_bx | .dir_wx | .dir_lx => cs!" " ++ arg1.toStr ++ cs!", X"
  | .dir_by | .dir_wy => cs!" " ++ arg1.toStr ++ cs!", Y"
  | .ind_b | .ind_w => cs!" (" ++ arg1.toStr ++ cs!")"
  | .ind_bx | .ind_wx => cs!" (" ++ arg1.toStr ++ cs!", X)"
  | .ind_by => cs!" (" ++ arg1.toStr ++ cs!"), Y"
  | .lng_b | .lng_w => cs!" [" ++ arg1.toStr ++ cs!"]"
  | .lng_by => cs!" [" ++ arg1.toStr ++ cs!"], Y"
  | .stk => cs!" " ++ arg1.toStr ++ cs!", S"
  | .stk_y => cs!" (" ++ arg1.toStr ++ cs!", S), Y"
  | .mov => cs!" #" ++ arg1.toStr ++ cs!", #" ++ arg2.toStr

/-- `Instruction::ToString` (nsasm/instruction.cc:8-13). -/
def Instruction.toStr (i : Instruction) : Str :=
  i.mnemonic.name ++ i.suffix.name ++ argsToStr i.mode i.arg1 i.arg2 ++ i.ret.toSuffixString

/-- `absl::StrJoin(list, ", ", ...)` of nsasm/directive.cc:44-48. -/
def joinExprs : List Expr → Str
  | [] => []
  | [e] => e.toStr
  | e :: es => e.toStr ++ cs!", " ++ joinExprs es

/-- `Directive::ToString` (nsasm/directive.cc:28-54). -/
def Directive.toStr (d : Directive) : Str :=
  match d.name.type with
  | .no_arg => d.name.name
  | .single_arg | .constant_arg | .name_arg => d.name.name ++ cs!" " ++ d.argument.toStr
  | .flag_arg | .calling_convention_arg =>
      d.name.name ++ cs!" " ++ d.flags.toName ++ d.ret.toSuffixString
  | .list_arg => d.name.name ++ cs!" " ++ joinExprs d.list
  | .remote_arg => d.name.name ++ cs!" " ++ d.argument.toStr ++ cs!" " ++ d.flags.toName

end Nsasm
