import Verif.Spec.Run
import Verif.Model.Disassemble

/-!
# Specification of disassembly

A user creates a disassembler for a byte source, may install a table of return conventions, and
calls `Disassemble` any number of times; some calls may fail.  `Session` is that history, `History`
the same with calls of `Cleanup`.  The processor that runs the bytes is `Fetches` and `CodeRuns`.
-/

namespace Nsasm.Spec

/-- A flag state that the class `StatusFlags` can hold: its constructor made it. -/
def Constructible (f : StatusFlags) : Prop := ∃ e m x c, f = .make e m x c

/-- Every `yields` convention of a table satisfies `P`. -/
def TableOk (P : StatusFlags → Prop) (c : OMap ReturnConvention) : Prop :=
  ∀ a f, (a, ReturnConvention.yields f) ∈ c → P f

/-- A call has come to an end that the program can see: a value or an error, neither undefined
behaviour nor the exhaustion of the model's step bound. -/
def Ended {α : Type} : Res α → Prop
  | .ok _ => True
  | .err e => e ≠ .steps
  | .ub _ => False

/-- The disassembler `d` as it is after some history of calls without `Cleanup`; the `yields`
conventions installed satisfy `P`. -/
inductive Session (P : StatusFlags → Prop) (src : Source) : Disassembler → Prop
  | new : Session P src .empty
  | table {d : Disassembler} {c : OMap ReturnConvention} (before : Session P src d) (sorted : c.Pairwise fun a b => a.1 < b.1)
      (ok : TableOk P c) : Session P src (d.addTargetReturnConventions c)
  | call {d d' : Disassembler} {fuel start : Nat} {flags : StatusFlags} {r : Res (OMap StatusFlags)}
      (before : Session P src d) (address : start ≤ 0x1000000) (ok : Constructible flags)
      (result : d.disassemble fuel src start flags = (d', r)) (ended : Ended r) : Session P src d'

/-- The flags say how wide A is, and how wide X and Y are. -/
def GivesSizes (f : StatusFlags) : Prop := (f.m = .on ∨ f.m = .off) ∧ (f.x = .on ∨ f.x = .off)

/-- A history as `History`, in which every call gave the sizes of the registers. -/
inductive SizedHistory (P : StatusFlags → Prop) (src : Source) : Disassembler → Prop
  | new : SizedHistory P src .empty
  | table {d : Disassembler} {c : OMap ReturnConvention} (before : SizedHistory P src d)
      (sorted : c.Pairwise fun a b => a.1 < b.1) (ok : TableOk P c) : SizedHistory P src (d.addTargetReturnConventions c)
  | call {d d' : Disassembler} {fuel start : Nat} {flags : StatusFlags} {r : Res (OMap StatusFlags)}
      (before : SizedHistory P src d) (address : start ≤ 0x1000000) (ok : Constructible flags) (sizes : GivesSizes flags)
      (result : d.disassemble fuel src start flags = (d', r)) (ended : Ended r) : SizedHistory P src d'
  | cleanup {d d' : Disassembler} (before : SizedHistory P src d) (result : d.cleanup = .ok d') : SizedHistory P src d'

/-- The bytes at the address begin with the opcode of PLA, PLY or PLX. -/
def HasPull (src : Source) (a : Addr) : Prop :=
  ∃ op rest, src a 4 = .ok (op :: rest) ∧ (op = 0x68 ∨ op = 0x7a ∨ op = 0xfa)

/-- Further calls lead from `d` to `d'`. -/
inductive Later (P : StatusFlags → Prop) (src : Source) (d : Disassembler) : Disassembler → Prop
  | now : Later P src d d
  | table {d' : Disassembler} {c : OMap ReturnConvention} (before : Later P src d d')
      (sorted : c.Pairwise fun a b => a.1 < b.1) (ok : TableOk P c) :
      Later P src d (d'.addTargetReturnConventions c)
  | call {d' d'' : Disassembler} {fuel start : Nat} {flags : StatusFlags} {r : Res (OMap StatusFlags)}
      (before : Later P src d d') (address : start ≤ 0x1000000) (ok : Constructible flags)
      (result : d'.disassemble fuel src start flags = (d'', r)) (ended : Ended r) : Later P src d d''

/-- The disassembler `d` as it is after some history of calls, among them `Cleanup`. -/
inductive History (P : StatusFlags → Prop) (src : Source) : Disassembler → Prop
  | new : History P src .empty
  | table {d : Disassembler} {c : OMap ReturnConvention} (before : History P src d)
      (sorted : c.Pairwise fun a b => a.1 < b.1) (ok : TableOk P c) :
      History P src (d.addTargetReturnConventions c)
  | call {d d' : Disassembler} {fuel start : Nat} {flags : StatusFlags} {r : Res (OMap StatusFlags)}
      (before : History P src d) (address : start ≤ 0x1000000) (ok : Constructible flags)
      (result : d.disassemble fuel src start flags = (d', r)) (ended : Ended r) : History P src d'
  | cleanup {d d' : Disassembler} (before : History P src d) (result : d.cleanup = .ok d') :
      History P src d'

/-- `i` is the instruction `j` as a listing shows it: a local branch has a label in front of its
offset, and there may be a size suffix and, on a call, a return convention. -/
structure Shows (j i : Instruction) : Prop where
  mnemonic : i.mnemonic = j.mnemonic
  mode : i.mode = j.mode
  arg2 : i.arg2 = j.arg2
  branch : MayBranch j → ∃ name, i.arg1 = .label name j.arg1
  plain : ¬ MayBranch j → i.arg1 = j.arg1

/-- `w` describes every processor that `s` describes. -/
def StateCovers (w s : ExecutionState) : Prop := ∀ o p, Describes o s p → Describes o w p

/-- The address after the instruction `i` at `a`. -/
def following (a : Addr) (i : Instruction) : Addr := Address.addWrapped a (instructionLength i.mode)

/-- The listing holds the instruction `it` at address `a`. -/
def Lists (m : OMap DisItem) (a : Addr) (it : DisItem) : Prop := m.find a = some it

/-! ## The processor runs the bytes -/

/-- The flags that the processor actually has. -/
def actualFlags (p : Cpu) : StatusFlags :=
  ⟨if p.e then .on else .off, if p.m then .on else .off, if p.x then .on else .off,
    if p.c then .on else .off⟩

/-- The processor in state `p` at address `a` finds the instruction `j` in the bytes there; its own
M and X flags say how long an immediate operand is. -/
def Fetches (src : Source) (a : Addr) (p : Cpu) (j : Instruction) : Prop :=
  ∃ bytes, src a 4 = .ok bytes ∧ decode bytes (actualFlags p) = .ok j

/-- Where the processor can get to from address `start` with flags that agree with `f`, executing
the bytes of `src` and taking calls as one step: a call at `a` comes back as `ret a` says. -/
inductive CodeRuns (src : Source) (ret : Addr → ReturnConvention) (start : Addr) (f : StatusFlags) :
    Addr → Cpu → Prop
  | start {p : Cpu} (ok : p.Ok) (agrees : KnownFlagsRight f p) : CodeRuns src ret start f start p
  | next {a : Addr} {p q : Cpu} {j : Instruction} {operand : UInt8}
      (before : CodeRuns src ret start f a p) (fetches : Fetches src a p j)
      (goesOn : ¬ Stops (.instr { j with ret := ret a }))
      (assembled : ∀ v, j.arg1.eval nullCtx = .ok v → operand = byteOf v)
      (executes : Follows j.mnemonic operand (ret a) p q) :
      CodeRuns src ret start f (following a j) q
  | branch {a : Addr} {p q : Cpu} {j : Instruction} {v : Int}
      (before : CodeRuns src ret start f a p) (fetches : Fetches src a p j) (may : MayBranch j)
      (offset : j.arg1.eval nullCtx = .ok v) (executes : Branches j.mnemonic p q) :
      CodeRuns src ret start f (Address.addWrapped (following a j) v) q

/-- The convention that a listing gives for the call at `a`. -/
def listedReturn (m : OMap DisItem) (a : Addr) : ReturnConvention :=
  match m.find a with
  | some it => it.instruction.ret
  | none => .default

/-- The flag state has a name in the source language, like those that assembled files declare. -/
def HasName (f : StatusFlags) : Prop := ∃ name, StatusFlags.fromName name = some f

/-! ## Calls and jumps out of a routine -/

/-- The instruction `i` at address `a` is a jump or call whose operand is the address `t`: a 24-bit
one, or a 16-bit one in the bank of `a`. -/
inductive JumpsTo (i : Instruction) (a t : Addr) : Prop
  | long (mode : i.mode = .dir_l) (jump : i.mnemonic = .jmp ∨ i.mnemonic = .jsl)
      (value : i.arg1.eval nullCtx = .ok (t : Int)) (bound : t ≤ 0x1000000) : JumpsTo i a t
  | near {v : Nat} (mode : i.mode = .dir_w) (jump : i.mnemonic = .jmp ∨ i.mnemonic = .jsr)
      (value : i.arg1.eval nullCtx = .ok (v : Int)) (bound : v < 0x10000)
      (target : t = a / 0x10000 % 0x100 * 0x10000 + v) : JumpsTo i a t

/-- A history of calls, as `Session`, with the tables of targets that the successful calls returned. -/
inductive Reported (P : StatusFlags → Prop) (src : Source) : Disassembler → List (OMap StatusFlags) → Prop
  | new : Reported P src .empty []
  | table {d : Disassembler} {log : List (OMap StatusFlags)} {c : OMap ReturnConvention}
      (before : Reported P src d log) (sorted : c.Pairwise fun a b => a.1 < b.1) (ok : TableOk P c) :
      Reported P src (d.addTargetReturnConventions c) log
  | call {d d' : Disassembler} {log : List (OMap StatusFlags)} {fuel start : Nat} {flags : StatusFlags}
      {T : OMap StatusFlags} (before : Reported P src d log) (address : start ≤ 0x1000000)
      (ok : Constructible flags) (result : d.disassemble fuel src start flags = (d', .ok T)) :
      Reported P src d' (T :: log)
  | failed {d d' : Disassembler} {log : List (OMap StatusFlags)} {fuel start : Nat} {flags : StatusFlags}
      {e : Err} (before : Reported P src d log) (address : start ≤ 0x1000000)
      (ok : Constructible flags) (result : d.disassemble fuel src start flags = (d', .err e)) (ended : e ≠ .steps) :
      Reported P src d' log

/-! ## Assembling a listing -/

/-- An operand as the printed listing has it: of a label, only the name is printed. -/
def writtenOperand : Expr → Expr
  | .label name _ => .ident ⟨none, name⟩ .word
  | e => e

/-- An instruction as it is read back from the printed listing. -/
def asWritten (i : Instruction) : Instruction := { i with arg1 := writtenOperand i.arg1 }

/-- The names that label the listing's entries stand for the addresses of the entries. -/
def LabelsAt (ctx : Ctx) (m : OMap DisItem) : Prop :=
  ∀ a it, Lists m a it → it.label ≠ [] → ctx ⟨none, it.label⟩ = .ok (a : Int)

/-- Assembling the entry `it` at its address `a` emits the bytes `bs`. -/
def Emits (ctx : Ctx) (a : Addr) (it : DisItem) (bs : List UInt8) : Prop :=
  (asWritten it.instruction).assemble a ctx logSink [] = ([(a, bs)], .ok ())

/-- Assembling the listing, each entry at its address, puts the byte `b` at address `x`. -/
def Puts (ctx : Ctx) (m : OMap DisItem) (x : Addr) (b : UInt8) : Prop :=
  ∃ a it bs k, Lists m a it ∧ Emits ctx a it bs ∧ bs[k]? = some b ∧ x = Address.addWrapped a (k : Nat)

end Nsasm.Spec
