import Verif.Spec.Link

/-!
# Specification of what an assembler says about return conventions
-/

namespace Nsasm.Spec

/-- The line says how the code at `x` returns: it is an `.entry` that stands at `x`, or a `.remote` for `x`, and gives
a convention.  `ctx` gives the values of names. -/
def Declares (ctx : Ctx) (l : Line) (x : Nat) (r : ReturnConvention) : Prop :=
  r ≠ .default ∧ ∃ d, l.statement = .dir d ∧ d.ret = r ∧
    ((d.name = .entry ∧ l.value = some (x : Int)) ∨ (d.name = .remote ∧ d.argument.eval ctx = .ok (x : Int)))

end Nsasm.Spec
