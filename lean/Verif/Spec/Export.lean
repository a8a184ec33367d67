import Verif.Spec.Module

/-!
# Where `export` is written
-/

namespace Nsasm.Spec

/-- The same labels, except for `export`. -/
def SameButExport (p q : ProgLine) : Prop := p.statement = q.statement ∧ p.labels.map (·.name) = q.labels.map (·.name)

/-- The same program, except for `export` at labels that are in no scope. -/
def SameInScopes (P Q : Program) : Prop :=
  List.Forall₂ SameButExport P Q ∧ ∀ (k : Nat) (p q : ProgLine), P[k]? = some p → Q[k]? = some q → level P k ≠ 0 → p = q

end Nsasm.Spec
