import Verif.Model.Tools
import Verif.Spec.Disassemble

/-!
# Specification of what the plain disassembler prints

It goes in a straight line, instruction after instruction.  After one that does not go on, it goes on only if a branch shown
before leads to the very next address.
-/

namespace Nsasm.Spec

/-- An instruction that is shown: where it is, and the state of the processor after it. -/
structure Shown where
  address : Addr
  instruction : Instruction
  after : ExecutionState

/-- It may branch to `t`. -/
def Shown.BranchesTo (s : Shown) (t : Addr) : Prop :=
  MayBranch s.instruction ∧ ∃ v, s.instruction.arg1.eval nullCtx = .ok v ∧
    t = Address.addWrapped (following s.address s.instruction) v

/-- The last one shown that may branch to `t` leaves the state `st`. -/
def LastBranch (shown : List Shown) (t : Addr) (st : ExecutionState) : Prop :=
  ∃ above s below, shown = above ++ s :: below ∧ s.BranchesTo t ∧ s.after = st ∧ ∀ r ∈ below, ¬ r.BranchesTo t

/-- The ROM has the instruction `i` at `a`, and `st'` is the state after it when `st` was the one before. -/
def HasCode (rom : Rom) (a : Addr) (st : ExecutionState) (i : Instruction) (st' : ExecutionState) : Prop :=
  ∃ bytes, rom.read a 4 = .ok bytes ∧ decode bytes st.flags = .ok i ∧ i.execute st nullCtx = .ok st'

/-- There is no instruction at `a` that could be executed in state `st`, because of `e`. -/
def NoCode (rom : Rom) (a : Addr) (st : ExecutionState) (e : Err) : Prop :=
  rom.read a 4 = .err e ∨ ∃ bytes, rom.read a 4 = .ok bytes ∧
    (decode bytes st.flags = .err e ∨ ∃ i, decode bytes st.flags = .ok i ∧ i.execute st nullCtx = .err e)

/-- The instructions in a straight line from `start`, where flags are `f`; the address and the state where it goes on. -/
inductive StraightLine (rom : Rom) (start : Addr) (f : StatusFlags) : List Shown → Addr → ExecutionState → Prop
  | start : StraightLine rom start f [] start (.init f)
  | next {shown : List Shown} {a : Addr} {st st' : ExecutionState} {i : Instruction}
      (before : StraightLine rom start f shown a st) (code : HasCode rom a st i st') (goesOn : ¬ Stops (.instr i)) :
      StraightLine rom start f (shown ++ [⟨a, i, st'⟩]) (following a i) st'
  | target {shown : List Shown} {a : Addr} {st st' st'' : ExecutionState} {i : Instruction}
      (before : StraightLine rom start f shown a st) (code : HasCode rom a st i st') (stops : Stops (.instr i))
      (branch : LastBranch (shown ++ [⟨a, i, st'⟩]) (following a i) st'') :
      StraightLine rom start f (shown ++ [⟨a, i, st'⟩]) (following a i) st''

/-- What is said about the target of a branch. -/
inductive BranchRemark (above : List Shown) (s : Shown) : Str → Prop
  | none (no : ¬ MayBranch s.instruction) : BranchRemark above s []
  | new {t : Addr} (to : s.BranchesTo t) (first : ∀ st, ¬ LastBranch above t st) :
      BranchRemark above s (cs!" to " ++ addressText t ++ cs!" (new)")
  | again {t : Addr} {st : ExecutionState} (to : s.BranchesTo t) (last : LastBranch above t st) :
      BranchRemark above s (cs!" to " ++ addressText t ++ cs!" (was " ++ st.flags.toStr ++ cs!")")

/-- The lines printed for the instructions shown. -/
inductive PlainLines : List Shown → List Str → Prop
  | nil : PlainLines [] []
  | more {shown : List Shown} {ls : List Str} {s : Shown} {remark : Str} (above : PlainLines shown ls)
      (remarks : BranchRemark shown s remark) : PlainLines (shown ++ [s])
        (ls ++ [addressText s.address ++ cs!" - " ++ Tools.padLeft 30 s.instruction.toStr ++ cs!" ; " ++
          s.after.flags.toStr ++ remark])

/-- `t` is the lowest address from `a` on that is branched to. -/
def Nearest (shown : List Shown) (a t : Addr) (st : ExecutionState) : Prop :=
  a ≤ t ∧ LastBranch shown t st ∧ ∀ t' st', LastBranch shown t' st' → a ≤ t' → t ≤ t'

/-- Why the listing ends before `a`. -/
inductive EndRemark (shown : List Shown) (a : Addr) : Str → Prop
  | all (no : ∀ t st, a ≤ t → ¬ LastBranch shown t st) : EndRemark shown a cs!"End of subroutine."
  | gap {t : Addr} {st : ExecutionState} (h : Nearest shown a t st) (far : a < t) : EndRemark shown a
      (cs!"Gap found here.  Nearest local jump target is " ++ addressText t ++ cs!" (" ++ st.flags.toStr ++ cs!").")

/-- The last line. -/
inductive LastRemark (shown : List Shown) : List Str → Prop
  | none (no : ∀ t st, ¬ LastBranch shown t st) : LastRemark shown []
  | first {t : Addr} {st : ExecutionState} (h : Nearest shown 0 t st) : LastRemark shown
      [cs!"Earliest branch target " ++ addressText t ++ cs!" (" ++ st.flags.toStr ++ cs!")."]

/-- The lines printed and the exit status: all instructions in a straight line up to one that does not go on, or up to where
there is none. -/
inductive PlainListing (msg : Err → Str) (rom : Rom) (start : Addr) (f : StatusFlags) : List Str → Nat → Prop
  | complete {shown : List Shown} {a : Addr} {st st' : ExecutionState} {i : Instruction} {ls last : List Str} {why : Str}
      (before : StraightLine rom start f shown a st) (code : HasCode rom a st i st') (stops : Stops (.instr i))
      (lines : PlainLines (shown ++ [⟨a, i, st'⟩]) ls) (ends : EndRemark (shown ++ [⟨a, i, st'⟩]) (following a i) why)
      (lasts : LastRemark (shown ++ [⟨a, i, st'⟩]) last) : PlainListing msg rom start f (ls ++ why :: last) 0
  | failed {shown : List Shown} {a : Addr} {st : ExecutionState} {e : Err} {ls : List Str}
      (before : StraightLine rom start f shown a st) (no : NoCode rom a st e) (lines : PlainLines shown ls) :
      PlainListing msg rom start f (ls ++ [addressText a ++ cs!" - ERROR: " ++ msg e]) 1

end Nsasm.Spec
