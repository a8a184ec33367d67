import Verif.Spec.Tools

/-!
# Specification of running an assembled program

`Runs` (in `Spec/Run`) is the program as it is written; `CodeRuns` (in `Spec/Disassemble`) is the
processor that fetches bytes.  Here is what relates the two.
-/

namespace Nsasm.Spec

/-- Line `k` stands at address `x`: the last origin plus the sizes of the statements since then,
wrapping in the bank. -/
def StandsAt (lines : List Line) (k x : Nat) : Prop :=
  ∃ o v, LastOrigin lines k o v ∧ v < 0x1000000 ∧ (x : Int) = place v (bytesBetween lines o k)

/-- As `Runs`, from the entry that line `i` declares. -/
inductive RunsFrom (m : Module) (ctx : Nat → Ctx) (i : Nat) : Nat → Cpu → Prop
  | start {f : StatusFlags} {p : Cpu} (entry : DeclaresEntry m i f) (ok : p.Ok)
      (agrees : KnownFlagsRight f p) : RunsFrom m ctx i (i + 1) p
  | move {k k' : Nat} {p q : Cpu} (before : RunsFrom m ctx i k p) (moves : Moves m ctx k p k' q) :
      RunsFrom m ctx i k' q

/-- Calls come back as the source says: the convention at the address of a line is the one written
there.  A pseudo-op is two instructions, neither of which is a call. -/
structure KeepsReturns (lines : List Line) (ret : Addr → ReturnConvention) : Prop where
  written : ∀ (k : Nat) (l : Line) (j : Instruction) (x : Nat), lines[k]? = some l → l.statement = .instr j →
    StandsAt lines k x → ret x = j.ret
  pseudo : ∀ (k : Nat) (l : Line) (j : Instruction) (x : Nat), lines[k]? = some l → l.statement = .instr j →
    StandsAt lines k x → (j.mnemonic = .padd ∨ j.mnemonic = .psub) →
    ret x = .default ∧ ret (wrapped x 1) = .default

/-- From every byte of the program on, four bytes can be read. -/
def FourReadable (src : Source) (ws : Writes) : Prop :=
  ∀ x b, (x, b) ∈ stored ws → ∃ bytes, src x 4 = .ok bytes

/-- A branch to a name goes to a place in the program, not to a number given by `.equ`. -/
def BranchesToCode (m : Module) : Prop :=
  ∀ (k t : Nat) (l : Line), BranchesTo m k t → m.lines[t]? = some l → ¬ IsEqu l

/-- Every origin is an address. -/
def ProperOrigins (lines : List Line) : Prop := ∀ l ∈ lines, ∀ v, SetsOrigin l v → v < 0x1000000

/-- What the file promises about its execution holds: the flags that a `.mode` states, and that a `.halt` is not
reached. -/
structure KeepsPromises (m : Module) (ctx : Nat → Ctx) (i : Nat) : Prop where
  mode : ∀ (k : Nat) (p : Cpu) (l : Line) (d : Directive), RunsFrom m ctx i k p → m.lines[k]? = some l →
    l.statement = .dir d → d.name = .mode → KnownFlagsRight d.flags p
  halt : ∀ (k : Nat) (p : Cpu) (l : Line) (d : Directive), RunsFrom m ctx i k p → m.lines[k]? = some l →
    l.statement = .dir d → d.name ≠ .halt

/-- A processor in state `p` at address `x` is executing the program: it is about to execute an instruction that the
program, as written, gets to in that state; or it is between the two instructions of a pseudo-op. -/
inductive Executing (m : Module) (lines : List Line) (ctx : Nat → Ctx) (i : Nat) (x : Addr) (p : Cpu) : Prop
  | line (k : Nat) (l : Line) (ins : Instruction) (here : m.lines[k]? = some l) (instr : l.statement = .instr ins)
      (runs : RunsFrom m ctx i k p) (stands : StandsAt lines k x)
  | between (k : Nat) (l : Line) (ins : Instruction) (y : Addr) (q : Cpu) (here : m.lines[k]? = some l)
      (instr : l.statement = .instr ins) (pseudo : ins.mnemonic = .padd ∨ ins.mnemonic = .psub)
      (runs : RunsFrom m ctx i k q) (stands : StandsAt lines k y) (next : x = wrapped y 1)
      (carry : p = { q with c := p.c })

end Nsasm.Spec
