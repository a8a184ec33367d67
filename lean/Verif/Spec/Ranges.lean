import Verif.Model.Ranges

/-! # Specification of address ranges: sets of addresses -/

namespace Nsasm.Spec

/-- The address lies in the half-open chunk. -/
def InChunk (a : Nat) (c : Chunk) : Prop := c.1 ≤ a ∧ a < c.2

/-- The address lies in one of the chunks. -/
def Covers (l : List Chunk) (a : Nat) : Prop := ∃ c ∈ l, InChunk a c

/-- Non-empty chunks in increasing order, with a gap between neighbours. -/
def Canonical (l : List Chunk) : Prop :=
  (∀ c ∈ l, c.1 < c.2) ∧ l.Pairwise (fun c d => c.2 < d.1)

/-- The `i`-th byte from `a`, wrapping inside the bank. -/
def wrapped (a : Nat) (i : Nat) : Nat := a / 0x10000 * 0x10000 + (a + i) % 0x10000

end Nsasm.Spec
