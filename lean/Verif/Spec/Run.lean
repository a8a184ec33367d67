import Verif.Spec.Flow
import Verif.Spec.Cpu
import Verif.Spec.Instruction

/-!
# Specification of running a module on the processor

A place in the program is a line.  The processor moves from line to line; the values that
names have on line `k` are given by `ctx k`.
-/

namespace Nsasm.Spec

/-- One move of the processor: from line `k` in state `p` to line `k'` in state `q`. -/
inductive Moves (m : Module) (ctx : Nat → Ctx) : Nat → Cpu → Nat → Cpu → Prop
  /-- An instruction is executed and the next line follows.  `operand` is the byte assembled
  for the operand (it matters only for REP and SEP). -/
  | next {k : Nat} {l : Line} {i : Instruction} {p q : Cpu} {operand : UInt8}
      (line : m.lines[k]? = some l) (instr : l.statement = .instr i) (goesOn : ¬ Stops l.statement)
      (assembled : ∀ v, i.arg1.eval (ctx k) = .ok v → operand = byteOf v)
      (executes : Follows i.mnemonic operand i.ret p q) : Moves m ctx k p (k + 1) q
  /-- A branch is taken to the line its label stands on. -/
  | branch {k t : Nat} {l : Line} {i : Instruction} {name : Str} {p q : Cpu}
      (line : m.lines[k]? = some l) (instr : l.statement = .instr i) (may : MayBranch i)
      (label : i.arg1.simpleIdentifier = some name) (target : m.localIndex name l.scopes = some t)
      (executes : Branches i.mnemonic p q) : Moves m ctx k p t q
  /-- A directive does nothing to the processor.  With `.mode` the programmer asserts that the
  flags are as stated. -/
  | pass {k : Nat} {l : Line} {d : Directive} {p : Cpu}
      (line : m.lines[k]? = some l) (dir : l.statement = .dir d) (goesOn : ¬ Stops l.statement)
      (asserted : d.name = .mode → KnownFlagsRight d.flags p) : Moves m ctx k p (k + 1) p

/-- The processor can get to line `k` in state `p`: it starts after an `.entry` directive in a
state that agrees with the flags given there, and moves any number of times. -/
inductive Runs (m : Module) (ctx : Nat → Ctx) : Nat → Cpu → Prop
  | start {i : Nat} {f : StatusFlags} {p : Cpu} (entry : DeclaresEntry m i f) (ok : p.Ok)
      (agrees : KnownFlagsRight f p) : Runs m ctx (i + 1) p
  | move {k k' : Nat} {p q : Cpu} (before : Runs m ctx k p) (moves : Moves m ctx k p k' q) :
      Runs m ctx k' q

/-- The processor's M and X flags agree with the size of the immediate operand that was
assembled. -/
def SizeRight (mn : Mnemonic) (mode : Mode) (p : Cpu) : Prop :=
  (SizedByM mn → (mode = .imm_b → p.m = true) ∧ (mode = .imm_w → p.m = false)) ∧
  (SizedByX mn → (mode = .imm_b → p.x = true) ∧ (mode = .imm_w → p.x = false))

/-- The statement is data or moves the origin; the processor must not run into it. -/
def IsData : Statement → Prop
  | .instr _ => False
  | .dir d => d.name ∈ [DirectiveName.db, .dw, .dl, .org]

instance (st : Statement) : Decidable (IsData st) := by
  unfold IsData; cases st <;> infer_instance

end Nsasm.Spec
