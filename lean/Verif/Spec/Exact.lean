import Verif.Spec.Simulate

/-!
# Specification of disassembling an assembled program

Which instructions a disassembly from an entry point has to show.
-/

namespace Nsasm.Spec

/-- Lines that execution may reach from the entry point that line `i` declares.  As `Reachable`, which is from any. -/
inductive ReachableFrom (m : Module) (i : Nat) : Nat → Prop
  | entry {f : StatusFlags} (h : DeclaresEntry m i f) : ReachableFrom m i (i + 1)
  | next {k : Nat} (hk : ReachableFrom m i k) (h : FallsThrough m k) : ReachableFrom m i (k + 1)
  | branch {k t : Nat} (hk : ReachableFrom m i k) (h : BranchesTo m k t) : ReachableFrom m i t

/-- An instruction that can be reached from the entry point on line `i` begins at address `a`.  A pseudo-op is two
instructions; the second begins after the first, which is one byte long. -/
inductive BeginsAt (m : Module) (lines : List Line) (i : Nat) (a : Addr) : Prop
  | line (k : Nat) (l : Line) (ins : Instruction) (reached : ReachableFrom m i k) (here : m.lines[k]? = some l)
      (instr : l.statement = .instr ins) (stands : StandsAt lines k a)
  | second (k : Nat) (l : Line) (ins : Instruction) (y : Addr) (reached : ReachableFrom m i k)
      (here : m.lines[k]? = some l) (instr : l.statement = .instr ins) (pseudo : ins.mnemonic = .padd ∨ ins.mnemonic = .psub)
      (stands : StandsAt lines k y) (next : a = wrapped y 1)

/-- The analysis that led from `m` to `m'` has come to rest: merging what flows into a line, from an entry point, from
the line before or from a branch, with the state recorded at the line changes nothing. -/
structure AtRest (m m' : Module) : Prop where
  entry : ∀ i f l, DeclaresEntry m i f → m'.lines[i + 1]? = some l → l.incoming.merge (.init f) = l.incoming
  next : ∀ (k : Nat) (l₀ l l' : Line) s, m.lines[k]? = some l₀ → m'.lines[k]? = some l → m'.lines[k + 1]? = some l' →
    ¬ Stops l₀.statement → l.reached = true → l₀.statement.execute l.incoming = .ok s → l'.incoming.merge s = l'.incoming
  branch : ∀ (k t : Nat) (l₀ l l' : Line) i name s, m.lines[k]? = some l₀ → m'.lines[k]? = some l →
    m'.lines[t]? = some l' → l₀.statement = .instr i → MayBranch i → i.arg1.simpleIdentifier = some name →
    m.localIndex name l₀.scopes = some t → l.reached = true → i.executeBranch l.incoming = .ok s →
    l'.incoming.merge s = l'.incoming

/-- The file says nothing about its execution that the bytes do not show: no `.mode`, no `.halt`, and no flags that a
call yields or that it does not return. -/
structure Unassisted (m : Module) : Prop where
  dirs : ∀ l ∈ m.lines, ∀ d, l.statement = .dir d → d.name ≠ .mode ∧ d.name ≠ .halt
  returns : ∀ l ∈ m.lines, ∀ i, l.statement = .instr i → i.ret = .default

end Nsasm.Spec
