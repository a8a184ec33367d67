import Verif.Model.Parse

/-! # Specification of statements that the interactive parser shows as they can be written -/

namespace Nsasm.Spec

/-- Without operators, and not a negative number. -/
def Atomic : Expr → Prop
  | .null => True
  | .lit v _ => 0 ≤ v
  | .ident _ _ => True
  | _ => False

/-- A label, or a statement with no operators and no negative numbers that is not a `.remote`. -/
def AtomicItem : Item → Prop
  | .label _ => True
  | .stmt (.instr i) => Atomic i.arg1 ∧ Atomic i.arg2
  | .stmt (.dir d) => d.name ≠ .remote ∧ Atomic d.argument ∧ ∀ e ∈ d.list, Atomic e

/-- The text of a line is read as these items. -/
def ParsesAs (text : Str) (items : List Item) : Prop := ∃ ts, tokenize text = .ok ts ∧ Parse.parse ts = .ok items

end Nsasm.Spec
