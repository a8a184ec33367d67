import Verif.Model.Module
import Verif.Model.Rom

/-! # The disassembler (nsasm/disassemble.h, nsasm/disassemble.cc) -/

namespace Nsasm

/-- `InputSource::Read` (nsasm/memory.h:20-25): the bytes at an address, or an error. -/
abbrev Source := Addr → Int → Res (List UInt8)

/-- `struct DisassembledInstruction` (nsasm/disassemble.h:16-22). -/
structure DisItem where
  label : Str
  instruction : Instruction
  isEntry : Bool
  current : ExecutionState
  next : ExecutionState
deriving DecidableEq, Repr

/-- A default-constructed `DisassembledInstruction`, which `disassembly_[address]` creates for
a missing key.  The mnemonic and addressing mode of a default-constructed `Instruction` are
uninitialised in C++; the model picks some.  No theorem depends on the choice: every address
that is given a label has an entry. -/
def DisItem.blank : DisItem :=
  ⟨[], ⟨.nop, .none, .imp, .null, .null, .default⟩, false, .default, .default⟩

/-- `class Disassembler` (nsasm/disassemble.h:26-68), without `src_`, which is never replaced
and which the functions below take as an argument.  `sym` is `current_sym_`, an `int` in C++. -/
structure Disassembler where
  entryPoints : OMap Unit
  disassembly : OMap DisItem
  conventions : OMap ReturnConvention
  sym : Nat
deriving DecidableEq, Repr

namespace Disassembler

/-- The constructor (nsasm/disassemble.h:28-29). -/
def empty : Disassembler := ⟨[], [], [], 0⟩

/-- `AddTargetReturnConventions` (nsasm/disassemble.h:51-54): the table is replaced. -/
def addTargetReturnConventions (d : Disassembler) (c : OMap ReturnConvention) : Disassembler :=
  { d with conventions := c }

/-- The local variables of `Disassemble` and the counter `current_sym_`. -/
structure Work where
  /-- `new_disassembly` -/
  fresh : OMap DisItem
  /-- `label_names` -/
  labels : OMap Str
  /-- `decode_stack` -/
  stack : OMap ExecutionState
  /-- `far_branch_targets` -/
  far : OMap StatusFlags
  /-- `current_sym_` -/
  sym : Nat
deriving DecidableEq, Repr

/-- `get_instruction` (nsasm/disassemble.cc:19-36): an entry of the permanent map is copied to
the new map. -/
def getInstruction (d : Disassembler) (w : Work) (a : Addr) : Option DisItem × Work :=
  match w.fresh.find a with
  | some it => (some it, w)
  | none =>
    match d.disassembly.find a with
    | some it => (some it, { w with fresh := w.fresh.set a it })
    | none => (none, w)

/-- `GenSym` (nsasm/disassemble.h:59) for the counter value after the increment. -/
def genSym (n : Nat) : Str := cs!"gensym" ++ decimal n

/-- `get_label` (nsasm/disassemble.cc:40-53). -/
def getLabel (d : Disassembler) (w : Work) (a : Addr) : Str × Work :=
  match w.labels.find a with
  | some l => (l, w)
  | none =>
    match d.disassembly.find a with
    | some it =>
      if it.label ≠ [] then (it.label, w)
      else (genSym (w.sym + 1), { w with labels := w.labels.set a (genSym (w.sym + 1)), sym := w.sym + 1 })
    | none =>
      (genSym (w.sym + 1), { w with labels := w.labels.set a (genSym (w.sym + 1)), sym := w.sym + 1 })

/-- `add_to_decode_stack` (nsasm/disassemble.cc:58-66). -/
def push (w : Work) (a : Addr) (s : ExecutionState) : Work :=
  { w with stack := w.stack.upsert (fun old => old.merge s) a s }

/-- `add_far_branch` (nsasm/disassemble.cc:70-78). -/
def addFar (w : Work) (a : Addr) (s : ExecutionState) : Work :=
  { w with far := w.far.upsert (fun old => old.merge s.flags) a s.flags }

/-- `*arg1.Evaluate(NullLookupContext())` (nsasm/disassemble.cc:129, 194): the `ErrorOr` is
dereferenced without a check. -/
def evalUnchecked (e : Expr) : Res Int :=
  match e.eval nullCtx with
  | .ok v => .ok v
  | .err _ => .ub .nullDeref
  | .ub u => .ub u

/-- The far branch part of a first visit (nsasm/disassemble.cc:112-124): the target is noted,
and the return convention of a call is looked up and applied. -/
def farVisit (d : Disassembler) (w : Work) (pc : Addr) (i : Instruction) (next : ExecutionState) :
    Res (Instruction × ExecutionState × Work) := do
  match ← i.farBranchTarget pc with
  | none => .ok (i, next, w)
  | some target =>
    let w := addFar w target next
    let i := if i.mnemonic = .jsr ∨ i.mnemonic = .jsl then
        match d.conventions.find target with
        | some r => { i with ret := r }
        | none => i
      else i
    .ok (i, i.ret.applyTo next, w)

/-- The local branch part of a first visit (nsasm/disassemble.cc:128-137). -/
def branchVisit (d : Disassembler) (w : Work) (nextPc : Addr) (i : Instruction)
    (current : ExecutionState) : Res (Instruction × Work) :=
  if i.isLocalBranch then do
    let value ← evalUnchecked i.arg1
    let target := Address.addWrapped nextPc value
    let (label, w) := getLabel d w target
    let i := { i with arg1 := i.arg1.applyLabel label }
    let branch ← i.executeBranch current
    .ok (i, push w target branch)
  else .ok (i, w)

/-- A first visit to an address (nsasm/disassemble.cc:96-150).  `di.instruction` is read at
line 148 after `di` was moved from; the move copies the mnemonic and the return convention,
so they still have their values. -/
def visitNew (src : Source) (d : Disassembler) (w : Work) (pc : Addr) (current : ExecutionState) :
    Res Work := do
  let bytes ← src pc 4
  let i ← decode bytes current.flags
  let nextPc := Address.addWrapped pc (instructionLength i.mode)
  let next ← i.execute current nullCtx
  let (i, next, w) ← farVisit d w pc i next
  let (i, w) ← branchVisit d w nextPc i current
  let w := { w with fresh := w.fresh.set pc ⟨[], i, false, current, next⟩ }
  if i.isExitInstruction then .ok w else .ok (push w nextPc next)

/-- The far branch part of a revisit (nsasm/disassemble.cc:184-187). -/
def farRevisit (w : Work) (pc : Addr) (i : Instruction) (next : ExecutionState) : Res Work := do
  match ← i.farBranchTarget pc with
  | none => .ok w
  | some target => .ok (addFar w target next)

/-- The local branch part of a revisit (nsasm/disassemble.cc:189-197). -/
def branchRevisit (w : Work) (nextPc : Addr) (i : Instruction) (current : ExecutionState) :
    Res Work :=
  if i.isLocalBranch then do
    let branch ← i.executeBranch current
    let value ← evalUnchecked i.arg1
    .ok (push w (Address.addWrapped nextPc value) branch)
  else .ok w

/-- `Decode(*instruction_data, flags)` on a revisit (nsasm/disassemble.cc:163-166): the result
of `Read` is dereferenced without a check. -/
def redecode (src : Source) (pc : Addr) (f : StatusFlags) : Res Unit :=
  match src pc 4 with
  | .ok bytes => do
      let _ ← decode bytes f
      .ok ()
  | .err _ => .ub .nullDeref
  | .ub u => .ub u

/-- A later visit to an address (nsasm/disassemble.cc:151-199). -/
def visitOld (src : Source) (w : Work) (pc : Addr) (current : ExecutionState) (di : DisItem) :
    Res Work :=
  let combined := current.merge di.current
  if combined = di.current then .ok w
  else do
    redecode src pc combined.flags
    let next ← di.instruction.execute combined nullCtx
    let w := { w with fresh := w.fresh.set pc { di with current := combined, next := next } }
    let nextPc := Address.addWrapped pc (instructionLength di.instruction.mode)
    let w := if di.instruction.isExitInstruction then w else push w nextPc next
    let w ← farRevisit w pc di.instruction next
    branchRevisit w nextPc di.instruction current

/-- One round of the loop (nsasm/disassemble.cc:87-200); `none` when the stack is empty. -/
def step (src : Source) (d : Disassembler) (w : Work) : Res (Option Work) :=
  match w.stack with
  | [] => .ok none
  | (pc, current) :: rest => do
    let w := { w with stack := rest }
    match getInstruction d w pc with
    | (none, w) => .ok (some (← visitNew src d w pc current))
    | (some di, w) => .ok (some (← visitOld src w pc current di))

/-- The loop (nsasm/disassemble.cc:87-200), at most `n` rounds: the last state of the local
variables, and whether the loop ended well.  When a round fails, the state at the beginning of
the round is given; all that is used of it is the symbol counter, and a round that generates a
symbol does not fail afterwards: the only call that could, `ExecuteBranch`
(nsasm/disassemble.cc:133), begins with the `Execute` that has succeeded at line 110. -/
def run (src : Source) (d : Disassembler) : Nat → Work → Work × Res Unit
  | 0, w => (w, .err .steps)
  | n + 1, w =>
    match step src d w with
    | .ok none => (w, .ok ())
    | .ok (some w') => run src d n w'
    | .err e => (w, .err e)
    | .ub u => (w, .ub u)

/-- The suffix given to an instruction (nsasm/disassemble.cc:205-223). -/
def addSuffix (it : DisItem) : DisItem :=
  let bit : BitState := match flagControllingInstructionSize it.instruction.mnemonic with
    | .usesM => it.current.flags.m
    | .usesX => it.current.flags.x
    | .notVariable => .unknown
  match bit with
  | .on => { it with instruction := { it.instruction with suffix := .b } }
  | .off => { it with instruction := { it.instruction with suffix := .w } }
  | _ => it

/-- `disassembly_[node.first] = node.second` for each new entry (nsasm/disassemble.cc:226-228). -/
def copyAll (m : OMap DisItem) : List (Nat × DisItem) → OMap DisItem
  | [] => m
  | (a, it) :: rest => copyAll (m.set a it) rest

/-- `disassembly_[label_name.first].label = label_name.second` (nsasm/disassemble.cc:231-233). -/
def labelAll (m : OMap DisItem) : List (Nat × Str) → OMap DisItem
  | [] => m
  | (a, l) :: rest =>
      labelAll (m.upsert (fun it => { it with label := l }) a { DisItem.blank with label := l }) rest

/-- The local variables when the loop begins (nsasm/disassemble.cc:80-85). -/
def begin (d : Disassembler) (start : Addr) (flags : StatusFlags) : Work :=
  (getLabel d (push ⟨[], [], [], [], d.sym⟩ start (.init flags)) start).2

/-- What a successful call stores (nsasm/disassemble.cc:202-233). -/
def finish (d : Disassembler) (w : Work) : OMap DisItem :=
  labelAll (copyAll d.disassembly (w.fresh.map fun n => (n.1, addSuffix n.2))) w.labels

/-- `Disassemble` (nsasm/disassemble.cc:13-236): the disassembler afterwards, and the far branch
targets or an error. -/
def disassemble (fuel : Nat) (src : Source) (d : Disassembler) (start : Addr) (flags : StatusFlags) :
    Disassembler × Res (OMap StatusFlags) :=
  let entries := d.entryPoints.set start ()
  match run src d fuel (begin d start flags) with
  | (w, .ok ()) =>
      ({ d with entryPoints := entries, disassembly := finish d w, sym := w.sym }, .ok w.far)
  | (w, .err e) => ({ d with entryPoints := entries, sym := w.sym }, .err e)
  | (w, .ub u) => ({ d with entryPoints := entries, sym := w.sym }, .ub u)

/-! ## Cleanup -/

/-- `label_rewrite[name]`: the value last assigned, or the empty string that `operator[]`
creates.  `r` lists the assignments, the last one first. -/
def rewriteOf (r : List (Str × Str)) (name : Str) : Str := (HMap.find r name).getD []

/-- The loop that renames labels (nsasm/disassemble.cc:241-254). -/
def renameLabels (entries : OMap Unit) :
    Nat → Nat → List (Str × Str) → OMap DisItem → OMap DisItem × List (Str × Str)
  | _, _, r, [] => ([], r)
  | nl, ne, r, (a, it) :: rest =>
    if it.label = [] then
      let (rest', r') := renameLabels entries nl ne r rest
      ((a, it) :: rest', r')
    else if (entries.find a).isSome then
      let name := cs!"entry" ++ decimal (ne + 1)
      let (rest', r') := renameLabels entries nl (ne + 1) ((it.label, name) :: r) rest
      ((a, { it with label := name, isEntry := true }) :: rest', r')
    else
      let name := cs!"label" ++ decimal (nl + 1)
      let (rest', r') := renameLabels entries (nl + 1) ne ((it.label, name) :: r) rest
      ((a, { it with label := name, isEntry := false }) :: rest', r')

/-- The renaming of a label operand (nsasm/disassemble.cc:256-261); `ToString` of a label is
its name. -/
def rewriteOperand (r : List (Str × Str)) : Expr → Expr
  | .label n h => .label (rewriteOf r n) h
  | e => e

/-- `NameForAddress` (nsasm/disassemble.cc:315-325). -/
def nameForAddress (d : Disassembler) (a : Addr) : Option Str :=
  if (d.entryPoints.find a).isSome then
    match d.disassembly.find a with
    | some it => if it.label ≠ [] then some it.label else none
    | none => none
  else none

/-- The naming of one far jump target (nsasm/disassemble.cc:264-279). -/
def nameFar (d : Disassembler) (a : Addr) (it : DisItem) : Res DisItem := do
  match ← it.instruction.farBranchTarget a with
  | none => .ok it
  | some t =>
    match nameForAddress d t with
    | none => .ok it
    | some n =>
      if it.instruction.mode = .dir_l then
        .ok { it with instruction := { it.instruction with arg1 := .ident ⟨none, n⟩ .long } }
      else if it.instruction.mode = .dir_w then
        .ok { it with instruction := { it.instruction with arg1 := .ident ⟨none, n⟩ .word } }
      else .ok it

/-- The loop over far jumps (nsasm/disassemble.cc:264-279).  The loop changes operands only, so
`NameForAddress` may be asked of the disassembler `d` as it was before the loop. -/
def nameFars (d : Disassembler) : OMap DisItem → Res (OMap DisItem)
  | [] => .ok []
  | (a, it) :: rest => do
      let it ← nameFar d a it
      let rest ← nameFars d rest
      .ok ((a, it) :: rest)

/-- The pseudo-op that a pair of instructions is folded to (nsasm/disassemble.cc:289-308). -/
def foldPair (first second : DisItem) : Option Mnemonic :=
  if first.instruction.mnemonic = .clc ∧ second.instruction.mnemonic = .adc ∧ second.label = [] then
    some .padd
  else if first.instruction.mnemonic = .sec ∧ second.instruction.mnemonic = .sbc ∧ second.label = [] then
    some .psub
  else none

/-- The folding loop (nsasm/disassemble.cc:283-310).  After a pair was folded the C++ looks at
the same entry again; its mnemonic is then neither CLC nor SEC. -/
def fold : OMap DisItem → OMap DisItem
  | [] => []
  | [x] => [x]
  | (a, first) :: (b, second) :: rest =>
    match foldPair first second with
    | some m =>
        fold ((a, { first with
          instruction := { second.instruction with mnemonic := m }, next := second.next }) :: rest)
    | none => (a, first) :: fold ((b, second) :: rest)
termination_by m => m.length

/-- `Cleanup` (nsasm/disassemble.cc:238-313). -/
def cleanup (d : Disassembler) : Res Disassembler := do
  let (named, r) := renameLabels d.entryPoints 0 0 [] d.disassembly
  let operands := named.map fun n =>
    (n.1, { n.2 with instruction := { n.2.instruction with arg1 := rewriteOperand r n.2.instruction.arg1 } })
  let fars ← nameFars { d with disassembly := operands } operands
  .ok { d with disassembly := fold fars }

end Disassembler

end Nsasm
