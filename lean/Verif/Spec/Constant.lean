import Verif.Spec.Unused
import Verif.Spec.Flow
import Verif.Spec.Module

/-! # Specification of a constant that is added -/

namespace Nsasm.Spec

/-- The line holds nothing but an `.equ` with a value that is known without looking up names. -/
def EquLine (v : Int) (line : Str) : Prop :=
  ∃ ts d, tokenize line = .ok ts ∧ Parse.parse ts = .ok [.stmt (.dir d)] ∧ d.name = .equ ∧ d.argument.eval nullCtx = .ok v

/-- No instruction comes before the next data, `.org` or end of the file. -/
def CodeFree : List Item → Prop
  | [] => True
  | .label _ :: items => CodeFree items
  | .stmt (.instr _) :: _ => False
  | .stmt (.dir d) :: items => d.name ≠ .halt ∧ (d.name ∈ [DirectiveName.db, .dw, .dl, .org] ∨ CodeFree items)

/-- Execution cannot come to a place from above: before it is a statement that execution cannot get past, or after it is no code. -/
def OffPath (above below : List Str) : Prop :=
  ∃ A st B, FileItems above (A ++ [.stmt st]) ∧ FileItems below B ∧ (∀ d, st = .dir d → d.name ≠ .entry) ∧
    (Stops st ∨ (∃ d, st = .dir d ∧ d.name ∈ [DirectiveName.db, .dw, .dl, .org]) ∨ CodeFree B)

/-- `files'` are `files` with a named constant added to one of them, where execution cannot come: a label, and an `.equ`, on two
lines or on one. -/
def ConstantAdded (label : ParsedLabel) (v : Int) (files files' : List (List Str)) : Prop :=
  ∃ pre above below post labelLine equLine file', files = pre ++ (above ++ below) :: post ∧ files' = pre ++ file' :: post ∧
    LabelLine label labelLine ∧ EquLine v equLine ∧ Absent label.name [equLine] ∧ OffPath above below ∧
    ∃ items, FileItems (above ++ labelLine :: equLine :: below) items ∧ FileItems file' items

end Nsasm.Spec
