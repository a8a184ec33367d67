import Verif.Model.Token
import Mathlib.Data.List.Forall2

/-! # Specification of upper and lower case -/

namespace Nsasm.Spec

/-- Two texts differ only in the case of letters. -/
def SameLetters (s s' : Str) : Prop := s.map Char.toLower = s'.map Char.toLower

/-- Two tokens are the same, or names that differ only in the case of letters. -/
def SameButCase (t t' : Token) : Prop := t = t' ∨ ∃ w w', t = .ident w ∧ t' = .ident w' ∧ SameLetters w w'

/-- The names that a line uses, from left to right. -/
def namesOf (line : Str) : List Str :=
  match tokenize line with
  | .ok ts => ts.filterMap fun | .ident w => some w | _ => none
  | _ => []

/-- Two lines differ only in the case of letters that are not in names. -/
def SameNames (l l' : Str) : Prop := SameLetters l l' ∧ namesOf l = namesOf l'

end Nsasm.Spec
