import Verif.Model.Module

/-!
# Specification of control flow and layout in a module
-/

namespace Nsasm.Spec

/-- Statements after which execution does not continue with the next line. -/
def Stops : Statement → Prop
  | .instr i => i.mnemonic ∈ [Mnemonic.jmp, .rtl, .rts, .rti, .stp, .bra, .brl] ∨ i.ret = .noreturn
  | .dir d => d.name = .halt

instance (st : Statement) : Decidable (Stops st) := by
  unfold Stops; cases st <;> infer_instance

/-- The instruction may branch to a place given relative to itself. -/
def MayBranch (i : Instruction) : Prop := (i.mode = .rel8 ∨ i.mode = .rel16) ∧ i.mnemonic ≠ .per

instance (i : Instruction) : Decidable (MayBranch i) := by unfold MayBranch; infer_instance

/-- Execution may go from line `k` to line `t` by a branch. -/
def BranchesTo (m : Module) (k t : Nat) : Prop :=
  ∃ l i name, m.lines[k]? = some l ∧ l.statement = .instr i ∧ MayBranch i ∧
    i.arg1.simpleIdentifier = some name ∧ m.localIndex name l.scopes = some t

/-- Execution may continue from line `k` with the next line. -/
def FallsThrough (m : Module) (k : Nat) : Prop := ∃ l, m.lines[k]? = some l ∧ ¬ Stops l.statement

/-- Line `i` declares an entry point: the next line may be entered with these flags. -/
def DeclaresEntry (m : Module) (i : Nat) (f : StatusFlags) : Prop :=
  ∃ l d, m.lines[i]? = some l ∧ l.statement = .dir d ∧ d.name = .entry ∧ d.flags = f

/-- Lines that execution may reach from a declared entry point. -/
inductive Reachable (m : Module) : Nat → Prop
  | entry {i f} (h : DeclaresEntry m i f) : Reachable m (i + 1)
  | next {k} (hk : Reachable m k) (h : FallsThrough m k) : Reachable m (k + 1)
  | branch {k t} (hk : Reachable m k) (h : BranchesTo m k t) : Reachable m t

/-! ## Layout -/

/-- Line `l` sets the origin to `v`. -/
def SetsOrigin (l : Line) (v : Int) : Prop :=
  ∃ d, l.statement = .dir d ∧ d.name = .org ∧ d.argument.eval nullCtx = .ok v

/-- Line `l` is an `.org` directive. -/
def IsOrg (l : Line) : Prop := ∃ d, l.statement = .dir d ∧ d.name = .org

/-- Line `l` is an `.equ` directive. -/
def IsEqu (l : Line) : Prop := ∃ d, l.statement = .dir d ∧ d.name = .equ

/-- The last origin set at or before line `i` is set by line `o`, to `v`. -/
def LastOrigin (lines : List Line) (i o : Nat) (v : Int) : Prop :=
  o ≤ i ∧ (∃ l, lines[o]? = some l ∧ SetsOrigin l v) ∧
  ∀ k l, o < k → k ≤ i → lines[k]? = some l → ¬ IsOrg l

/-- The number of bytes of the statements from `o` to before `i`. -/
def bytesBetween (lines : List Line) (o i : Nat) : Nat :=
  (((lines.take i).drop o).map fun l => l.statement.serializedSize).sum

/-- The address `n` bytes after `v`, in the same bank. -/
def place (v : Int) (n : Nat) : Int := v / 0x10000 * 0x10000 + (v + n) % 0x10000

end Nsasm.Spec
