import Verif.Spec.Module
import Verif.Spec.Bindings
import Verif.Spec.Syntax

/-! # Specification of what a size suffix does -/

namespace Nsasm.Spec

/-- An instruction written without its size suffix. -/
def unsized (i : Instruction) : Instruction := { i with suffix := .none }

/-- An item of a file, or the same instruction written without its size suffix. -/
inductive Unsized : Item → Item → Prop
  | same (it : Item) : Unsized it it
  | removed (i : Instruction) : Unsized (.stmt (.instr i)) (.stmt (.instr (unsized i)))

/-- The second file says what the first does, but some of its instructions are written without their size suffixes. -/
def SuffixesRemoved (file file' : List Str) : Prop :=
  ∃ items items', FileItems file items ∧ FileItems file' items' ∧ List.Forall₂ Unsized items items'

/-- The errors that complain about a size suffix. -/
def IsSuffixError (e : Err) : Prop := e = .suffixNotVariable ∨ e = .suffixContradiction

/-- Some of the suffixes among the tokens are left out. -/
inductive LeftOut : List Token → List Token → Prop
  | nil : LeftOut [] []
  | keep (t : Token) {ts ts' : List Token} : LeftOut ts ts' → LeftOut (t :: ts) (t :: ts')
  | leave (s : Suffix) {ts ts' : List Token} : LeftOut ts ts' → LeftOut (.suffix s :: ts) ts'

/-- A line, or the same line with some of its suffixes left out. -/
def SuffixesLeftOut (line line' : Str) : Prop :=
  line' = line ∨ ∃ ts ts' items, tokenize line = .ok ts ∧ tokenize line' = .ok ts' ∧ LineForm ts items ∧ LeftOut ts ts'

end Nsasm.Spec
