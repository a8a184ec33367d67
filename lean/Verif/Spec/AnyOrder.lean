import Verif.Model.AnyOrder

/-! # Specification of results that are the same whatever the order of iteration -/

namespace Nsasm.Spec

/-- Every name is gone through once. -/
def IsOrder (it : Iteration) : Prop := ∀ i l, (it.exports i l).Perm l ∧ (it.names i l).Perm l

/-- What can be asked of two assemblers is answered alike: values of names, memory, targets and return conventions of jumps.
A name for an address is in both a name of the same module that has that value; it need not be the same name. -/
structure SameAnswers (a b : Assembler) : Prop where
  memory : b.memory = a.memory
  lookup : Assembler.lookup b.modules b.names = Assembler.lookup a.modules a.names
  jumpTargets : b.jumpTargets = a.jumpTargets
  conventions : b.jumpTargetReturnConventions = a.jumpTargetReturnConventions
  unnamed : ∀ x, b.nameForAddress x = none ↔ a.nameForAddress x = none
  named : ∀ x n n', a.nameForAddress x = some n → b.nameForAddress x = some n' → n'.module = n.module ∧
    Assembler.lookup a.modules a.names n = .ok x ∧ Assembler.lookup a.modules a.names n' = .ok x

/-- Two outcomes that are the same but for the order of iteration. -/
inductive Alike : Res Assembler → Res Assembler → Prop
  | ok {a b : Assembler} (same : SameAnswers a b) : Alike (.ok a) (.ok b)
  | err (e : Err) : Alike (.err e) (.err e)
  | ub (u : Ub) : Alike (.ub u) (.ub u)

end Nsasm.Spec
