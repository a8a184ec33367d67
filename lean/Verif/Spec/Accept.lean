import Verif.Spec.Disassemble

/-!
# Specification of the listings that can be assembled

What has to hold of a disassembly so that the assembler, which sees only the printed text, can follow it.
-/

namespace Nsasm.Spec

/-- The instructions lie apart from one another.  None goes beyond the end of its bank, and where
execution goes on after one, the next is in the same bank. -/
structure LaidOut (m : OMap DisItem) : Prop where
  low : ∀ a it, Lists m a it → a < 0x1000000
  apart : ∀ a b it jt, Lists m a it → Lists m b jt → a < b → a + instructionLength it.instruction.mode ≤ b
  bank : ∀ a it, Lists m a it → a % 0x10000 + instructionLength it.instruction.mode ≤ 0x10000
  goesOn : ∀ a it, Lists m a it → it.instruction.isExitInstruction = false →
    a % 0x10000 + instructionLength it.instruction.mode < 0x10000

/-- The value of a flag is known. -/
def Decided (b : BitState) : Prop := b = .on ∨ b = .off

instance (b : BitState) : Decidable (Decided b) := inferInstanceAs (Decidable (_ ∨ _))

/-- Where an entry shows a size, or pulls a register, the flag that decides the size is known. -/
def SizeSettled (it : DisItem) : Prop :=
  it.instruction.suffix ≠ .none ∨ it.instruction.mnemonic ∈ [Mnemonic.pla, .plx, .ply] →
    (flagControllingInstructionSize it.instruction.mnemonic = .usesM → Decided it.current.flags.m) ∧
    (flagControllingInstructionSize it.instruction.mnemonic = .usesX → Decided it.current.flags.x)

instance (it : DisItem) : Decidable (SizeSettled it) := by unfold SizeSettled; infer_instance

/-- What is recorded at an entry point is no more than an `.entry` line can say: nothing about the carry,
nothing about the sizes unless the mode is known, and nothing on the stack. -/
def Declarable (s : ExecutionState) : Prop :=
  ¬ Decided s.flags.c ∧ (Decided s.flags.e ∨ ¬ Decided s.flags.m ∧ ¬ Decided s.flags.x) ∧
  (s.stack = .empty ∨ s.stack = .abandoned)

instance (s : ExecutionState) : Decidable (Declarable s) := by unfold Declarable; infer_instance

/-- The disassembler `d` as it is after calls that all succeeded, without `Cleanup`; the flags given say nothing about
the carry, and the `yields` conventions installed are ones that have names. -/
inductive Explored (src : Source) : Disassembler → Prop
  | new : Explored src .empty
  | table {d : Disassembler} {c : OMap ReturnConvention} (before : Explored src d)
      (sorted : c.Pairwise fun a b => a.1 < b.1) (ok : TableOk HasName c) : Explored src (d.addTargetReturnConventions c)
  | call {d d' : Disassembler} {fuel start : Nat} {flags : StatusFlags} {far : OMap StatusFlags}
      (before : Explored src d) (address : start ≤ 0x1000000) (ok : Constructible flags) (carry : flags.c = .unknown)
      (result : d.disassemble fuel src start flags = (d', .ok far)) : Explored src d'

/-- A sink that takes every write. -/
def TakesAll {σ : Type} (sink : Sink σ) : Prop := ∀ s a bs, (sink s a bs).2 = .ok ()

end Nsasm.Spec
