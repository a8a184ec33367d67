import Verif.Spec.Syntax

/-! # Specification of layout: when two files differ only in how they are laid out -/

namespace Nsasm.Spec

/-- The line `s` is written according to the grammar; `ts` are its tokens, without the end
of the line, and `is` what they mean. -/
def LineMeans (s : Str) (ts : List Token) (is : List Item) : Prop :=
  tokenize s = .ok (ts ++ [.eol]) ∧ LineForm (ts ++ [.eol]) is

/-- Another statement can follow the tokens without a `:`. -/
def Closed (ts : List Token) : Prop :=
  ts = [] ∨ ts.getLast? = some (tok ':') ∨ ts.getLast? = some (tok '{') ∨ ts.getLast? = some (tok '}')

/-- The items end with a label. -/
def EndsWithLabel (is : List Item) : Prop := ∃ l, is.getLast? = some (.label l)

/-- The tokens begin with a statement, not with a label. -/
def BeginsWithStatement (ts : List Token) : Prop := ∃ t, ts.head? = some t ∧ StartsStatement t = true

/-- Two files that differ only in blanks around lines, comments, blank lines, and in
whether statements or labels stand on one line or on two. -/
inductive SameLayout : List Str → List Str → Prop
  | refl (f) : SameLayout f f
  | symm {f g} : SameLayout f g → SameLayout g f
  | trans {f g h} : SameLayout f g → SameLayout g h → SameLayout f h
  | cons (s) {f g} : SameLayout f g → SameLayout (s :: f) (s :: g)
  | blanks {b b'} (s f) : (∀ c ∈ b, Blank c) → (∀ c ∈ b', Blank c) → SameLayout (s :: f) ((b ++ s ++ b') :: f)
  | comment (s text f) : SameLayout (s :: f) ((s ++ ';' :: text) :: f)
  | blankLine {b} (f) : (∀ c ∈ b, Blank c) → SameLayout f (b :: f)
  /-- `s : t` for the lines `s` and `t`. -/
  | colon {s t a b is js} (f) : ';' ∉ s → LineMeans s a is → LineMeans t b js → ¬ Closed a →
      SameLayout ((s ++ cs!" : " ++ t) :: f) (s :: t :: f)
  /-- `s t` for the lines `s` and `t`, where `s` ends with a `:` or a brace. -/
  | closed {s t a b is js} (f) : ';' ∉ s → LineMeans s a is → LineMeans t b js → Closed a →
      SameLayout ((s ++ ' ' :: t) :: f) (s :: t :: f)
  /-- `s t` for the lines `s` and `t`, where `s` ends with a label and `t` begins with the
  statement it labels. -/
  | label {s t a b is js} (f) : ';' ∉ s → LineMeans s a is → LineMeans t b js → EndsWithLabel is →
      BeginsWithStatement b → SameLayout ((s ++ ' ' :: t) :: f) (s :: t :: f)

/-- The text of a file with the given lines. -/
def fileText (lines : List Str) : Str := lines.flatMap (· ++ ['\n'])

/-- The same text with DOS line ends. -/
def dosText (text : Str) : Str := text.flatMap fun c => if c = '\n' then ['\r', '\n'] else [c]

end Nsasm.Spec
