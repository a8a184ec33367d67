import Verif.Spec.Disassemble
import Verif.Spec.Rom
import Verif.Model.Tools

/-!
# Specification: what a listing shows of a program

Two sources of bytes may differ where a listing shows nothing.
-/

namespace Nsasm.Spec

/-- Both sources can be read at `a`, and the first `n` bytes there are the same. -/
def SameBytes (src src' : Source) (a : Addr) (n : Nat) : Prop :=
  ∃ bytes bytes', src a 4 = .ok bytes ∧ src' a 4 = .ok bytes' ∧ bytes.take n = bytes'.take n

/-- The two sources have the same bytes wherever the listing has an instruction, as many as the instruction has. -/
def SameShown (m : OMap DisItem) (src src' : Source) : Prop :=
  ∀ a it, Lists m a it → SameBytes src src' a (instructionLength it.instruction.mode)

/-- Two ROMs of the same kind and size that have the same bytes in the places of the instructions of the listing. -/
structure SameCode (m : OMap DisItem) (rom rom' : Rom) : Prop where
  mapping : rom'.mapping = rom.mapping
  size : rom'.data.length = rom.data.length
  bytes : ∀ a it, Lists m a it → ∀ k < instructionLength it.instruction.mode, ∀ b, ByteAt rom a k b → ByteAt rom' a k b

/-- The two ROMs have the same pointers where the arguments of the tool say that there are pointers. -/
def SamePointers (args : List Tools.SeedArg) (rom rom' : Rom) : Prop :=
  ∀ arg ∈ args, arg.indirect = true → rom'.readWord arg.number = rom.readWord arg.number

/-- None of the lines printed is a message that disassembling failed somewhere. -/
def NoFailures (lines : List Str) : Prop := ∀ line ∈ lines, ¬ cs!"; ERROR" <+: line

end Nsasm.Spec
