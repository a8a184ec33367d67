import Verif.Model.Tools
import Verif.Spec.Dump
import Verif.Spec.Disassemble

/-!
# Specification of the command line tools
-/

namespace Nsasm.Spec

/-- Assembling the files succeeds, making these writes. -/
def Assembles (fuel : Nat) (files : List (List Str)) (ws : Writes) (a : Assembler) : Prop :=
  Assembler.assembleFiles fuel files recorder [] = (ws, .ok a)

/-- Every byte written is the one that the ROM has at the address. -/
def InRom (rom : Rom) (ws : Writes) : Prop :=
  ∀ x b, (x, b) ∈ stored ws → ∃ off, snesToRom x rom.mapping = .ok off ∧ rom.data[off]? = some b

/-- The listing has the address, and what is recorded there is right for every processor that gets there in a state
that the flags `f` allow; or the tool has printed that disassembling there, with flags as general, failed. -/
inductive Handled (msg : Err → Str) (m : OMap DisItem) (printed : List Str) (a : Addr) (f : StatusFlags) : Prop
  | listed (it : DisItem) (here : Lists m a it)
      (covers : ∀ p : Cpu, p.Ok → KnownFlagsRight f p → Describes (.asIn p) it.current p)
  | failed (g : StatusFlags) (e : Err) (lines : Tools.errorLines msg a g e <:+: printed)
      (general : ∀ p : Cpu, p.Ok → KnownFlagsRight f p → KnownFlagsRight g p)

/-- The argument asks for a disassembly from `a` with flags `f`. -/
def AsksFor (rom : Rom) (arg : Tools.SeedArg) (a : Addr) (f : StatusFlags) : Prop :=
  StatusFlags.fromName arg.mode = some f ∧
    if arg.indirect then rom.readWord arg.number = .ok (a : Int) else a = arg.number

/-- Where the processor can get to from the starts `given`, executing the bytes of `src`.  Jumps and calls to a known
address are followed; a call is besides taken as one step that comes back with the flags as they were. -/
inductive ProgramRuns (src : Source) (given : Addr → StatusFlags → Prop) : Addr → Cpu → Prop
  | start {a : Addr} {f : StatusFlags} {p : Cpu} (here : given a f) (ok : p.Ok) (agrees : KnownFlagsRight f p) :
      ProgramRuns src given a p
  | next {a : Addr} {p q : Cpu} {j : Instruction} {operand : UInt8}
      (before : ProgramRuns src given a p) (fetches : Fetches src a p j) (goesOn : ¬ Stops (.instr j))
      (assembled : ∀ v, j.arg1.eval nullCtx = .ok v → operand = byteOf v)
      (executes : Follows j.mnemonic operand .default p q) : ProgramRuns src given (following a j) q
  | branch {a : Addr} {p q : Cpu} {j : Instruction} {v : Int}
      (before : ProgramRuns src given a p) (fetches : Fetches src a p j) (may : MayBranch j)
      (offset : j.arg1.eval nullCtx = .ok v) (executes : Branches j.mnemonic p q) :
      ProgramRuns src given (Address.addWrapped (following a j) v) q
  | jump {a t : Addr} {p : Cpu} {j : Instruction} {pushed : List UInt8}
      (before : ProgramRuns src given a p) (fetches : Fetches src a p j) (jumps : JumpsTo j a t) :
      ProgramRuns src given t { p with stack := pushed ++ p.stack }

end Nsasm.Spec
