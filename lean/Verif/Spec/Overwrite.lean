import Verif.Model.Rom

/-!
# How a write to a ROM image stops (C31)
-/

namespace Nsasm.Spec

open Nsasm

/-- How a write to an image of `size` bytes ends when it stops at address `x`: with the mapping's error if `x` is not mapped, with an
error if it is beyond the end; just past the end the behaviour is undefined. -/
def StopsAt (mode : Mapping) (size x : Nat) (r : Res Unit) : Prop :=
  (∃ e, snesToRom x mode = .err e ∧ r = .err e) ∨
  (∃ off, snesToRom x mode = .ok off ∧ size < off ∧ r = .err .pastEndOfRom) ∨
  (snesToRom x mode = .ok size ∧ r = .ub .outOfBounds)

end Nsasm.Spec
