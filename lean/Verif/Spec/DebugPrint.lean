import Verif.Spec.Interactive
import Verif.Spec.Module
import Verif.Model.Interactive

/-!
# The debug listing of a file
-/

namespace Nsasm.Spec

/-- The first six characters of the row of a statement: its value in hexadecimal, or blanks. -/
def column : Option Int → Str
  | some v => hexPadded 6 (v % 0x1000000).toNat
  | none => cs!"      "

/-- The rows of a statement with its labels: one for each label, then one with the value and the text of the statement. -/
def rowsOf (pl : ProgLine) (v : Option Int) : List Str :=
  pl.labels.map (fun l => cs!"       " ++ l.name ++ cs!":") ++ [column v ++ cs!"     " ++ pl.statement.toStr]

/-- The rows of a file whose statements have the given values. -/
def rows (P : Program) (vs : List (Option Int)) : List Str := (List.zipWith rowsOf P vs).flatten

/-- A listing without its first six columns. -/
def withoutColumn (listing : List Str) : List Str := listing.map (·.drop 6)

/-- The labels, all without `export`, and statements of a program, in order. -/
def plainItems (P : Program) : List Item :=
  P.flatMap fun pl => pl.labels.map (fun l => Item.label { l with exported := false }) ++ [.stmt pl.statement]

/-- `export` is only written at labels that are in no scope. -/
def ExportsOutside (P : Program) : Prop :=
  ∀ (k : Nat) (pl : ProgLine), P[k]? = some pl → level P k ≠ 0 → ∀ l ∈ pl.labels, l.exported = false

end Nsasm.Spec
