import Verif.Spec.Text

/-! # Specification of the lexical structure of a source line

A line is blanks and lexemes, and perhaps a comment.  A lexeme is always taken as long as possible. -/

namespace Nsasm.Spec

/-- The digits and their values. -/
def digitTable : List (Char × Nat) := [
  ('0', 0), ('1', 1), ('2', 2), ('3', 3), ('4', 4), ('5', 5), ('6', 6), ('7', 7), ('8', 8), ('9', 9),
  ('a', 10), ('b', 11), ('c', 12), ('d', 13), ('e', 14), ('f', 15),
  ('A', 10), ('B', 11), ('C', 12), ('D', 13), ('E', 14), ('F', 15)]

/-- `Digits b ds n`: the text `ds` is one or more digits in base `b` and denotes the number `n`. -/
inductive Digits (b : Nat) : Str → Nat → Prop
  | one {c : Char} {v : Nat} (digit : (c, v) ∈ digitTable) (small : v < b) : Digits b [c] v
  | more {ds : Str} {n : Nat} {c : Char} {v : Nat} (before : Digits b ds n) (digit : (c, v) ∈ digitTable)
      (small : v < b) : Digits b (ds ++ [c]) (n * b + v)

/-- The type of a literal of `n` digits, `k` of which make a byte. -/
def sizedBy (k n : Nat) : NumericType := if n ≤ k then .byte else if n ≤ 2 * k then .word else .long

/-- The symbols. -/
def symbols : List (Str × Punct) := [
  (cs!"+++", .plusplusplus), (cs!"---", .minusminusminus), (cs!"++", .plusplus), (cs!"--", .minusminus),
  (cs!"::", .scope), (cs!"(", .ch '('), (cs!")", .ch ')'), (cs!"[", .ch '['), (cs!"]", .ch ']'),
  (cs!",", .ch ','), (cs!":", .ch ':'), (cs!"#", .ch '#'), (cs!"+", .ch '+'), (cs!"-", .ch '-'),
  (cs!"*", .ch '*'), (cs!"/", .ch '/'), (cs!"@", .ch '@'), (cs!"{", .ch '{'), (cs!"}", .ch '}'),
  (cs!">", .ch '>'), (cs!"<", .ch '<'), (cs!"^", .ch '^')]

/-- The mnemonics, in lower case. -/
def mnemonicWords : List (Str × Mnemonic) := [
  (cs!"adc", .adc), (cs!"add", .padd), (cs!"and", .and), (cs!"asl", .asl),
  (cs!"bcc", .bcc), (cs!"bcs", .bcs), (cs!"beq", .beq), (cs!"bit", .bit),
  (cs!"bmi", .bmi), (cs!"bne", .bne), (cs!"bpl", .bpl), (cs!"bra", .bra),
  (cs!"brk", .brk), (cs!"brl", .brl), (cs!"bvc", .bvc), (cs!"bvs", .bvs),
  (cs!"clc", .clc), (cs!"cld", .cld), (cs!"cli", .cli), (cs!"clv", .clv),
  (cs!"cmp", .cmp), (cs!"cop", .cop), (cs!"cpx", .cpx), (cs!"cpy", .cpy),
  (cs!"dec", .dec), (cs!"dex", .dex), (cs!"dey", .dey), (cs!"eor", .eor),
  (cs!"inc", .inc), (cs!"inx", .inx), (cs!"iny", .iny), (cs!"jmp", .jmp),
  (cs!"jsl", .jsl), (cs!"jsr", .jsr), (cs!"lda", .lda), (cs!"ldx", .ldx),
  (cs!"ldy", .ldy), (cs!"lsr", .lsr), (cs!"mvn", .mvn), (cs!"mvp", .mvp),
  (cs!"nop", .nop), (cs!"ora", .ora), (cs!"pea", .pea), (cs!"pei", .pei),
  (cs!"per", .per), (cs!"pha", .pha), (cs!"phb", .phb), (cs!"phd", .phd),
  (cs!"phk", .phk), (cs!"php", .php), (cs!"phx", .phx), (cs!"phy", .phy),
  (cs!"pla", .pla), (cs!"plb", .plb), (cs!"pld", .pld), (cs!"plp", .plp),
  (cs!"plx", .plx), (cs!"ply", .ply), (cs!"rep", .rep), (cs!"rol", .rol),
  (cs!"ror", .ror), (cs!"rti", .rti), (cs!"rtl", .rtl), (cs!"rts", .rts),
  (cs!"sbc", .sbc), (cs!"sec", .sec), (cs!"sed", .sed), (cs!"sei", .sei),
  (cs!"sep", .sep), (cs!"sta", .sta), (cs!"stp", .stp), (cs!"stx", .stx),
  (cs!"sty", .sty), (cs!"stz", .stz), (cs!"sub", .psub), (cs!"tax", .tax),
  (cs!"tay", .tay), (cs!"tcd", .tcd), (cs!"tcs", .tcs), (cs!"tdc", .tdc),
  (cs!"trb", .trb), (cs!"tsb", .tsb), (cs!"tsc", .tsc), (cs!"tsx", .tsx),
  (cs!"txa", .txa), (cs!"txs", .txs), (cs!"txy", .txy), (cs!"tya", .tya),
  (cs!"tyx", .tyx), (cs!"wai", .wai), (cs!"wdm", .wdm), (cs!"xba", .xba),
  (cs!"xce", .xce)]

/-- The reserved words, in lower case. -/
def reservedWords : List (Str × Token) :=
  mnemonicWords.map (fun w => (w.1, .mnem w.2)) ++
  [(cs!"a", .punct (.ch 'A')), (cs!"s", .punct (.ch 'S')), (cs!"x", .punct (.ch 'X')), (cs!"y", .punct (.ch 'Y')),
   (cs!"export", .punct .export_), (cs!"noreturn", .punct .noreturn), (cs!"yields", .punct .yields)]

/-- The words that begin with a dot, in lower case. -/
def dottedWords : List (Str × Token) := [
  (cs!".begin", .dir .begin_), (cs!".db", .dir .db), (cs!".dl", .dir .dl), (cs!".dw", .dir .dw),
  (cs!".end", .dir .end_), (cs!".entry", .dir .entry), (cs!".equ", .dir .equ), (cs!".halt", .dir .halt),
  (cs!".mode", .dir .mode), (cs!".module", .dir .module_), (cs!".org", .dir .org), (cs!".remote", .dir .remote),
  (cs!".b", .suffix .b), (cs!".w", .suffix .w)]

/-- A letter or an underscore. -/
def Letter (c : Char) : Prop := (∃ l ∈ cs!"abcdefghijklmnopqrstuvwxyz_", c.toLower = l)

/-- A letter, an underscore or a decimal digit. -/
def WordChar (c : Char) : Prop := Letter c ∨ c ∈ cs!"0123456789"

/-- The text `w` is a lexeme, and stands for the token `t`; or, if there is none, it is a word that
begins with a dot and is neither a directive nor a suffix. -/
inductive Lexeme : Str → Option Token → Prop
  | symbol {w : Str} {p : Punct} (known : (w, p) ∈ symbols) : Lexeme w (some (.punct p))
  | dollar {ds : Str} {n : Nat} (digits : Digits 16 ds n) :
      Lexeme ('$' :: ds) (some (.lit n (sizedBy 2 ds.length)))
  | hex {x : Char} {ds : Str} {n : Nat} (mark : x = 'x' ∨ x = 'X') (digits : Digits 16 ds n) :
      Lexeme ('0' :: x :: ds) (some (.lit n (sizedBy 2 ds.length)))
  | binary {ds : Str} {n : Nat} (digits : Digits 2 ds n) :
      Lexeme ('%' :: ds) (some (.lit n (sizedBy 8 ds.length)))
  | decimal {ds : Str} {n : Nat} (digits : Digits 10 ds n) : Lexeme ds (some (.lit n .unknown))
  | reserved {c : Char} {w : Str} {t : Token} (first : Letter c) (rest : ∀ d ∈ w, WordChar d)
      (known : ((c :: w).map Char.toLower, t) ∈ reservedWords) : Lexeme (c :: w) (some t)
  | name {c : Char} {w : Str} (first : Letter c) (rest : ∀ d ∈ w, WordChar d)
      (free : ∀ t, ((c :: w).map Char.toLower, t) ∉ reservedWords) : Lexeme (c :: w) (some (.ident (c :: w)))
  | dotted {w : Str} {t : Token} (rest : ∀ d ∈ w, WordChar d)
      (known : (('.' :: w).map Char.toLower, t) ∈ dottedWords) : Lexeme ('.' :: w) (some t)
  | undefined {w : Str} (rest : ∀ d ∈ w, WordChar d)
      (unknown : ∀ t, (('.' :: w).map Char.toLower, t) ∉ dottedWords) : Lexeme ('.' :: w) none

/-- No lexeme that the text `w ++ rest` begins with is longer than `w`. -/
def Longest (w rest : Str) : Prop := ∀ v u t, v ++ u = w ++ rest → Lexeme v t → v.length ≤ w.length

/-- The text of a line has these tokens. -/
inductive Reads : Str → List Token → Prop
  | stop {b : Str} (blank : ∀ c ∈ b, Blank c) : Reads b [.eol]
  | comment {b rest : Str} (blank : ∀ c ∈ b, Blank c) : Reads (b ++ ';' :: rest) [.eol]
  | token {b w rest : Str} {t : Token} {ts : List Token} (blank : ∀ c ∈ b, Blank c)
      (lexeme : Lexeme w (some t)) (longest : Longest w rest) (after : Reads rest ts) :
      Reads (b ++ (w ++ rest)) (t :: ts)

/-- The number that is kept of a number `n`: the largest 64-bit one if `n` is larger, and then the 32 low
bits of it, as a signed number. -/
def kept (n : Int) : Int := (if n < 2 ^ 63 then n else 2 ^ 63 - 1).bmod (2 ^ 32)

/-- The token with the number that is kept. -/
def keptToken : Token → Token
  | .lit n t => .lit (kept n) t
  | t => t

/-- All numbers fit into a 32-bit `int`. -/
def Moderate (ts : List Token) : Prop := ∀ v t, Token.lit v t ∈ ts → v < 2 ^ 31

end Nsasm.Spec
