import Verif.Model.Text

/-! # The tokenizer (nsasm/token.h, nsasm/token.cc) -/

namespace Nsasm

/-- `enum Punctuation` (nsasm/token.h:19-29).  `ch` is the cast of a character. -/
inductive Punct where
  | ch (c : Char)
  | scope | export_ | noreturn | yields
  | plusplus | plusplusplus | minusminus | minusminusminus
deriving DecidableEq, Repr

/-- `class Token` (nsasm/token.h:34-90), without the location.  C++ equality
ignores the type of a literal; no code modelled here compares literals. -/
inductive Token where
  | ident (s : Str)
  | lit (v : Int) (t : NumericType)
  | mnem (m : Mnemonic)
  | suffix (s : Suffix)
  | dir (d : DirectiveName)
  | punct (p : Punct)
  | eol
deriving DecidableEq, Repr

/-- `IsHexDigit` (nsasm/token.cc:12-15). -/
def isHexDigit (c : Char) : Bool :=
  ('0' ≤ c && c ≤ '9') || ('a' ≤ c && c ≤ 'f') || ('A' ≤ c && c ≤ 'F')

/-- `IsDecimalDigit` (nsasm/token.cc:17). -/
def isDecimalDigit (c : Char) : Bool := '0' ≤ c && c ≤ '9'

/-- `IsBinaryDigit` (nsasm/token.cc:19). -/
def isBinaryDigit (c : Char) : Bool := c = '0' || c = '1'

/-- `IsIdentifierFirstChar` (nsasm/token.cc:21-23). -/
def isIdentifierFirstChar (c : Char) : Bool :=
  ('a' ≤ c && c ≤ 'z') || ('A' ≤ c && c ≤ 'Z') || c = '_'

/-- `IsIdentifierChar` (nsasm/token.cc:25-27). -/
def isIdentifierChar (c : Char) : Bool := isDecimalDigit c || isIdentifierFirstChar c

/-- `absl::ascii_isspace`. -/
def isSpace (c : Char) : Bool := c.toNat = 32 || (9 ≤ c.toNat && c.toNat ≤ 13)

/-- `absl::StripLeadingAsciiWhitespace`. -/
def stripLeading (s : Str) : Str := s.dropWhile isSpace

/-- The value of one digit, as read by `strtol`. -/
def digitValue (c : Char) : Nat :=
  if 'a' ≤ c then c.toNat - 87 else if 'A' ≤ c then c.toNat - 55 else c.toNat - 48

/-- The number a digit string denotes. -/
def numberValue (b : Nat) (s : Str) : Nat := s.foldl (fun n c => n * b + digitValue c) 0

/-- `int value = strtol(...)` (nsasm/token.cc:138, 159, 177): `strtol` saturates
at `LONG_MAX` and the conversion to `int` wraps. -/
def strtolInt (b : Nat) (s : Str) : Int :=
  let v := min (numberValue b s) 9223372036854775807 % 4294967296
  if v < 2147483648 then v else (v : Int) - 4294967296

/-- The type given to a literal with `n` digits, `k` of them to the byte
(nsasm/token.cc:141-146, 160-165). -/
def literalType (k n : Nat) : NumericType :=
  if n ≤ k then .byte else if n ≤ 2 * k then .word else .long

/-- The characters listed in nsasm/token.cc:109-113. -/
def isPunctChar (c : Char) : Bool :=
  c ∈ ['(', ')', '[', ']', ',', ':', '#', '+', '-', '*', '/', '@', '{', '}', '>', '<', '^']

/-- The punctuation part of the loop body (nsasm/token.cc:77-117). -/
def scanPunct (s : Str) : Option (Punct × Str) :=
  if s.take 3 = cs!"+++" then some (.plusplusplus, s.drop 3)
  else if s.take 3 = cs!"---" then some (.minusminusminus, s.drop 3)
  else if s.take 2 = cs!"::" then some (.scope, s.drop 2)
  else if s.take 2 = cs!"++" then some (.plusplus, s.drop 2)
  else if s.take 2 = cs!"--" then some (.minusminus, s.drop 2)
  else match s with
    | c :: rest => if isPunctChar c then some (.ch c, rest) else none
    | [] => none

/-- The prefix of a hexadecimal literal (nsasm/token.cc:120-128): the text after
it. -/
def hexPrefix : Str → Option Str
  | '$' :: c :: rest => if isHexDigit c then some (c :: rest) else none
  | '0' :: x :: c :: rest =>
      if (x = 'x' || x = 'X') && isHexDigit c then some (c :: rest) else none
  | _ => none

/-- The prefix of a binary literal (nsasm/token.cc:152-153). -/
def binaryPrefix : Str → Option Str
  | '%' :: c :: rest => if isBinaryDigit c then some (c :: rest) else none
  | _ => none

/-- An identifier, mnemonic, register name or keyword (nsasm/token.cc:215-242). -/
def wordToken (w : Str) : Token :=
  match toMnemonic w with
  | some m => .mnem m
  | none =>
    match w with
    | [c] =>
        if toUpperC c ∈ ['A', 'S', 'X', 'Y'] then .punct (.ch (toUpperC c))
        else .ident w
    | _ =>
      if lower w = cs!"export" then .punct .export_
      else if lower w = cs!"noreturn" then .punct .noreturn
      else if lower w = cs!"yields" then .punct .yields
      else .ident w

/-- A directive or suffix (nsasm/token.cc:183-204); `w` includes the dot. -/
def dottedToken (w : Str) : Res Token :=
  match toDirectiveName w with
  | some d => .ok (.dir d)
  | none =>
    match toSuffix w with
    | some x => .ok (.suffix x)
    | none => .err .tokenize

/-- One round of the loop of `Tokenize` (nsasm/token.cc:69-246) on text that is
neither empty nor at a blank or a comment: the token and the remaining text. -/
def scanToken (s : Str) : Res (Token × Str) :=
  match scanPunct s with
  | some (p, rest) => .ok (.punct p, rest)
  | none =>
    match hexPrefix s with
    | some r =>
        let ds := r.takeWhile isHexDigit
        .ok (.lit (strtolInt 16 ds) (literalType 2 ds.length), r.dropWhile isHexDigit)
    | none =>
      match binaryPrefix s with
      | some r =>
          let ds := r.takeWhile isBinaryDigit
          .ok (.lit (strtolInt 2 ds) (literalType 8 ds.length), r.dropWhile isBinaryDigit)
      | none =>
        match s with
        | [] => .ub .emptyAccess
        | c :: rest =>
          if isDecimalDigit c then
            .ok (.lit (strtolInt 10 (s.takeWhile isDecimalDigit)) .unknown,
              s.dropWhile isDecimalDigit)
          else if c = '.' then do
            let t ← dottedToken ('.' :: rest.takeWhile isIdentifierChar)
            .ok (t, rest.dropWhile isIdentifierChar)
          else if isIdentifierFirstChar c then
            .ok (wordToken (c :: rest.takeWhile isIdentifierChar), rest.dropWhile isIdentifierChar)
          else .err .tokenize

/-- The loop of `Tokenize` (nsasm/token.cc:67-248), at most `k` rounds. -/
def tokenizeLoop : Nat → Str → Res (List Token)
  | 0, _ => .err .steps
  | k + 1, s =>
    let s := stripLeading s
    if s = [] ∨ s.head? = some ';' then .ok [.eol]
    else do
      let (t, rest) ← scanToken s
      let ts ← tokenizeLoop k rest
      .ok (t :: ts)

/-- `Tokenize` (nsasm/token.cc:67-248).  Every round consumes a character, so the
step bound is never reached (`tokenize_steps`). -/
def tokenize (s : Str) : Res (List Token) := tokenizeLoop (s.length + 1) s

end Nsasm
