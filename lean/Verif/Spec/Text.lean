import Verif.Model.Parse

/-! # Specification of source text: blanks, lines of tokens, written expressions -/

namespace Nsasm.Spec

/-- The six ASCII blank characters. -/
def Blank (c : Char) : Prop :=
  c = ' ' ∨ c = '\t' ∨ c = '\n' ∨ c = Char.ofNat 11 ∨ c = Char.ofNat 12 ∨ c = '\r'

/-- A token list in which end-of-line occurs exactly once, at the end. -/
def IsLine (ts : List Token) : Prop := ∃ body, ts = body ++ [.eol] ∧ Token.eol ∉ body

end Nsasm.Spec

namespace Nsasm.Spec

/-- A single-character token. -/
abbrev tok (c : Char) : Token := .punct (.ch c)

/-- The tokens of a possibly qualified name. -/
def nameTokens (id : FullId) : List Token :=
  match id.module with
  | none => [.ident id.name]
  | some [] => [.punct .scope, .ident id.name]
  | some m => [.ident m, .punct .scope, .ident id.name]

/-- Levels of the expression grammar (the comment at nsasm/parse.cc:11-14). -/
inductive Level where
  | expr | term | factor | comp
deriving DecidableEq

/-- The expression grammar:
```
expr   -> expr + term | expr - term | term
term   -> term * factor | term / factor | factor
factor -> -factor | <factor | >factor | ^factor | comp
comp   -> literal | name | @name | ( expr )
```
`Derives l ts e` says that the tokens `ts` form an `l` whose tree is `e`. -/
inductive Derives : Level → List Token → Expr → Prop
  | lit (v t) : Derives .comp [.lit v t] (.mkLit v t)
  | name (id) : Derives .comp (nameTokens id) (.ident id .word)
  | longName (id) : Derives .comp (tok '@' :: nameTokens id) (.ident id .long)
  | paren {ts e} : Derives .expr ts e → Derives .comp (tok '(' :: ts ++ [tok ')']) e
  | comp {ts e} : Derives .comp ts e → Derives .factor ts e
  | neg {ts e} : Derives .factor ts e → Derives .factor (tok '-' :: ts) (.un .neg e)
  | lowbyte {ts e} : Derives .factor ts e → Derives .factor (tok '<' :: ts) (.un .lowbyte e)
  | highbyte {ts e} : Derives .factor ts e → Derives .factor (tok '>' :: ts) (.un .highbyte e)
  | bankbyte {ts e} : Derives .factor ts e → Derives .factor (tok '^' :: ts) (.un .bankbyte e)
  | factor {ts e} : Derives .factor ts e → Derives .term ts e
  | mul {ts us e f} : Derives .term ts e → Derives .factor us f →
      Derives .term (ts ++ tok '*' :: us) (.bin .mul e f)
  | div {ts us e f} : Derives .term ts e → Derives .factor us f →
      Derives .term (ts ++ tok '/' :: us) (.bin .div e f)
  | term {ts e} : Derives .term ts e → Derives .expr ts e
  | plus {ts us e f} : Derives .expr ts e → Derives .term us f →
      Derives .expr (ts ++ tok '+' :: us) (.bin .plus e f)
  | minus {ts us e f} : Derives .expr ts e → Derives .term us f →
      Derives .expr (ts ++ tok '-' :: us) (.bin .minus e f)

/-- An expression that can be written in source code: literals hold values of
their type and names are 16-bit, or 24-bit when written with `@`. -/
def Writable : Expr → Prop
  | .null => False
  | .lit v t => t.castTo v = v
  | .ident _ t => t = .word ∨ t = .long
  | .bin _ l r => Writable l ∧ Writable r
  | .un _ a => Writable a
  | .label _ _ => False

/-- The operator's token. -/
def binTok : BinOp → Token
  | .plus => tok '+' | .minus => tok '-' | .mul => tok '*' | .div => tok '/'

def unTok : UnOp → Token
  | .neg => tok '-' | .lowbyte => tok '<' | .highbyte => tok '>' | .bankbyte => tok '^'

/-- Writes an expression with parentheses only where needed; `p` is 0 where any
expression may stand, 1 in an operand of `*` or `/` on the left and of `+` or `-`
on the right, 2 where only a factor may stand. -/
def render : Nat → Expr → List Token
  | _, .null => []
  | _, .lit v t => [.lit v t]
  | _, .ident id t => (if t = .long then [tok '@'] else []) ++ nameTokens id
  | _, .un op a => unTok op :: render 2 a
  | p, .bin op l r =>
      let q := if op = .plus ∨ op = .minus then 0 else 1
      let body := render q l ++ binTok op :: render (q + 1) r
      if p ≤ q then body else tok '(' :: body ++ [tok ')']
  | _, .label _ _ => []

end Nsasm.Spec
