import Verif.Model.Parse
import Verif.Model.Maps
import Verif.Model.Ranges

/-! # Modules (nsasm/module.h, nsasm/module.cc, nsasm/statement.cc) -/

namespace Nsasm

namespace Statement

/-- `Instruction()` (nsasm/statement.h:23-28). -/
def instruction? : Statement → Option Instruction
  | .instr i => some i
  | .dir _ => none

/-- `Directive()` (nsasm/statement.h:29-34). -/
def directive? : Statement → Option Directive
  | .instr _ => none
  | .dir d => some d

/-- `operator==(DirectiveName)` (nsasm/statement.h:40-43). -/
def isDir (n : DirectiveName) : Statement → Bool
  | .instr _ => false
  | .dir d => d.name = n

/-- `Execute` (nsasm/statement.cc:15-23), with the default `NullLookupContext`. -/
def execute (es : ExecutionState) : Statement → Res ExecutionState
  | .instr i => i.execute es nullCtx
  | .dir d => d.execute es

/-- `SerializedSize` (nsasm/statement.cc:35-43). -/
def serializedSize : Statement → Nat
  | .instr i => i.serializedSize
  | .dir d => d.serializedSize

/-- The bytes `Assemble` writes, if it writes (nsasm/statement.cc:45-57). -/
def assembleBytes (address : Addr) (ctx : Ctx) : Statement → Res (Option (List UInt8))
  | .instr i => do .ok (some (← i.assembleBytes address ctx))
  | .dir d => d.assembleBytes ctx

/-- `Assemble` (nsasm/statement.cc:45-57). -/
def assemble {σ : Type} (st : Statement) (address : Addr) (ctx : Ctx) (sink : Sink σ) (s : σ) :
    σ × Res Unit :=
  match st.assembleBytes address ctx with
  | .ok (some bs) => sink s address bs
  | .ok none => (s, .ok ())
  | .err e => (s, .err e)
  | .ub u => (s, .ub u)

/-- `IsExitInstruction` (nsasm/statement.cc:59-67). -/
def isExitInstruction : Statement → Bool
  | .instr i => i.isExitInstruction
  | .dir d => d.isExitInstruction

/-- `IsLocalBranch` (nsasm/statement.h:56-59). -/
def isLocalBranch : Statement → Bool
  | .instr i => i.isLocalBranch
  | .dir _ => false

end Statement

/-- `struct Module::Line` (nsasm/module.h:99-111), without `plus_minus_labels`,
which nothing fills (`ParsedLabel`).  `scopes` is `active_scopes` with `back()`
first. -/
structure Line where
  statement : Statement
  labels : List Str
  reached : Bool
  incoming : ExecutionState
  value : Option Int
  scopes : List Nat
  locals : HMap Str Nat
deriving DecidableEq, Repr

/-- `class Module` (nsasm/module.h:20-123), without `path_`, which is only used in
messages. -/
structure Module where
  name : Str
  lines : List Line
  deps : List FullId
  globals : HMap Str Nat
  owned : DataRange
  addrNames : HMap Nat Str
  targets : OMap StatusFlags
  conventions : OMap ReturnConvention
deriving DecidableEq, Repr

namespace Module

/-- `Module()` (nsasm/module.h:83). -/
def empty : Module := ⟨[], [], [], [], .empty, [], [], []⟩

/-! ## Names -/

/-- `lines_[i].scoped_locals`.  The C++ does not check the index; the scopes of a line of a
loaded module are earlier lines (`LoadInv.line`, `mem_openAt`), so the default here is
never used. -/
def localsAt (m : Module) (i : Nat) : HMap Str Nat :=
  match m.lines[i]? with
  | some l => l.locals
  | none => []

/-- `LocalIndex` (nsasm/module.cc:278-293). -/
def localIndex (m : Module) (name : Str) : List Nat → Option Nat
  | [] => m.globals.find name
  | s :: rest =>
      match (m.localsAt s).find name with
      | some i => some i
      | none => localIndex m name rest

/-- `LocalLookup` (nsasm/module.cc:295-302). -/
def localLookup (m : Module) (index : Nat) : Except Err Int :=
  match m.lines[index]? with
  | some l =>
    match l.value with
    | some v => .ok v
    | none => .error .noValue
  | none => .error .noValue

/-- `ModuleLookupContext::Lookup` (nsasm/module.cc:17-42). -/
def lookup (m : Module) (scopes : List Nat) (externs : Ctx) : Ctx := fun id =>
  match id.module with
  | some mod =>
    if mod = m.name then
      match m.localIndex id.name [] with
      | some i => m.localLookup i
      | none => externs id
    else externs id
  | none =>
    match m.localIndex id.name scopes with
    | some i => m.localLookup i
    | none => externs ⟨some [], id.name⟩

/-- `ModuleIsLocalContext::IsLocal` (nsasm/module.cc:55-70). -/
def isLocal (m : Module) (scopes : List Nat) (id : FullId) : Bool :=
  match id.module with
  | some mod => if mod ≠ m.name then false else (m.localIndex id.name []).isSome
  | none => (m.localIndex id.name scopes).isSome

/-! ## Loading -/

/-- The local state of `LoadAsmFile` (nsasm/module.cc:78-84); `scopes` is
`active_scopes` with `back()` first. -/
structure Loading where
  m : Module
  pending : List ParsedLabel
  scopes : List Nat
deriving DecidableEq, Repr

/-- `lines_[i].scoped_locals[name] = target`. -/
def addLocal (lines : List Line) (i : Nat) (name : Str) (target : Nat) : List Line :=
  lines.modify i (fun l => { l with locals := l.locals.insertNew name target })

/-- `add_label` (nsasm/module.cc:86-103). -/
def addLabel (m : Module) (scopes : List Nat) (label : ParsedLabel) (target : Nat) : Res Module :=
  match (if label.exported then [] else scopes) with
  | [] =>
      if m.globals.has label.name then .err .duplicateLabel
      else .ok { m with globals := m.globals.insertNew label.name target }
  | s :: _ =>
      if (m.localsAt s).has label.name then .err .duplicateLabel
      else .ok { m with lines := addLocal m.lines s label.name target }

/-- The loop over `pending_labels` (nsasm/module.cc:119-129). -/
def addLabels (m : Module) (scopes : List Nat) (target : Nat) : List ParsedLabel → Res Module
  | [] => .ok m
  | l :: ls => do
      let m ← m.addLabel scopes l target
      m.addLabels scopes target ls

/-- A line as constructed and completed in `LoadAsmFile` (nsasm/module.cc:118-130). -/
def newLine (st : Statement) (labels : List ParsedLabel) (scopes : List Nat) : Line :=
  ⟨st, labels.map (·.name), false, .default, none, scopes, []⟩

/-- The effect of a directive on the loader (nsasm/module.cc:132-155); `index` is
`m.lines_.size() - 1`. -/
def loadDirective (ld : Loading) (index : Nat) (d : Directive) : Res Loading :=
  if d.name = .module_ then
    if !ld.m.name.isEmpty then .err .moduleName
    else match d.argument.simpleIdentifier with
      | none => .err .moduleName
      | some id => .ok { ld with m := { ld.m with name := id } }
  else if d.name = .begin_ then .ok { ld with scopes := index :: ld.scopes }
  else if d.name = .end_ then
    match ld.scopes with
    | [] => .err .unclosedScope
    | _ :: rest => .ok { ld with scopes := rest }
  else .ok ld

/-- One statement of the file (nsasm/module.cc:117-155). -/
def loadStatement (ld : Loading) (st : Statement) : Res Loading := do
  let index := ld.m.lines.length
  let m := { ld.m with lines := ld.m.lines ++ [newLine st ld.pending ld.scopes] }
  let m ← m.addLabels ld.scopes index ld.pending
  match st with
  | .instr _ => .ok ⟨m, [], ld.scopes⟩
  | .dir d => loadDirective ⟨m, [], ld.scopes⟩ index d

/-- The loop over the entities of a line (nsasm/module.cc:114-159). -/
def loadItems (ld : Loading) : List Item → Res Loading
  | [] => .ok ld
  | .label l :: rest => loadItems { ld with pending := ld.pending ++ [l] } rest
  | .stmt st :: rest => do
      let ld ← loadStatement ld st
      loadItems ld rest

/-- The loop over the lines of the file (nsasm/module.cc:106-160). -/
def loadLines (ld : Loading) : List Str → Res Loading
  | [] => .ok ld
  | line :: rest => do
      let tokens ← tokenize line
      let items ← Parse.parse tokens
      let ld ← loadItems ld items
      loadLines ld rest

/-- The names the `.equ` lines of a module need from elsewhere
(nsasm/module.cc:165-172). -/
def dependencies (m : Module) : List FullId :=
  m.lines.flatMap fun l =>
    match l.statement with
    | .dir d => if d.name = .equ then d.argument.externalNames (m.isLocal l.scopes) else []
    | .instr _ => []

/-- The end of `LoadAsmFile` (nsasm/module.cc:161-173). -/
def finishLoad (ld : Loading) : Res Module :=
  match ld.scopes with
  | _ :: _ => .err .unclosedScope
  | [] => .ok { ld.m with deps := ld.m.dependencies }

/-- `LoadAsmFile` (nsasm/module.cc:77-174); a `File` is its lines. -/
def loadAsmFile (file : List Str) : Res Module := do
  let ld ← loadLines ⟨empty, [], []⟩ file
  finishLoad ld

/-! ## First pass -/

/-- `add_to_decode_stack` (nsasm/module.cc:179-187). -/
def addWork (work : OMap ExecutionState) (line : Nat) (state : ExecutionState) :
    OMap ExecutionState :=
  work.upsert (fun old => old.merge state) line state

/-- The seeds of the analysis (nsasm/module.cc:188-195); `i` is the index of the
first line of the list. -/
def seeds (work : OMap ExecutionState) (i : Nat) : List Line → OMap ExecutionState
  | [] => work
  | l :: ls =>
      match l.statement with
      | .dir d =>
          if d.name = .entry then seeds (addWork work (i + 1) (.init d.flags)) (i + 1) ls
          else seeds work (i + 1) ls
      | .instr _ => seeds work (i + 1) ls

/-- The state of the analysis loop: `lines_` and `decode_stack`. -/
structure Pass where
  lines : List Line
  work : OMap ExecutionState
deriving DecidableEq, Repr

/-- The local-branch part of one round (nsasm/module.cc:220-236). -/
def branchWork (m : Module) (line : Line) (state : ExecutionState) (work : OMap ExecutionState) :
    Res (OMap ExecutionState) :=
  match line.statement with
  | .dir _ => .ok work
  | .instr i =>
    if !i.isLocalBranch then .ok work
    else match i.arg1.simpleIdentifier with
      | none => .err .other
      | some target =>
        match m.localIndex target line.scopes with
        | none => .err .undefinedName
        | some t => do
            let next ← i.executeBranch state
            .ok (addWork work t next)

/-- `line.reached = true; line.incoming_state = current_state`
(nsasm/module.cc:211-212). -/
def reach (l : Line) (state : ExecutionState) : Line := { l with reached := true, incoming := state }

/-- What one round does to a line it analyses (nsasm/module.cc:211-236).  The entry
of the line itself stays on the stack (it is only removed when it is found
unchanged), so a branch to the line itself merges into it. -/
def visit (m : Module) (p : Pass) (k : Nat) (line : Line) (state : ExecutionState) : Res Pass := do
  let next ← line.statement.execute state
  let work := if line.statement.isExitInstruction then p.work else addWork p.work (k + 1) next
  let work ← m.branchWork line state work
  .ok ⟨p.lines.set k (reach line state), work⟩

/-- One round of the analysis loop (nsasm/module.cc:198-236); `none` when the
stack is empty.  `m` supplies the names, which the loop does not change. -/
def step (m : Module) (p : Pass) : Res (Option Pass) :=
  match p.work with
  | [] => .ok none
  | (k, state) :: rest =>
    if k = p.lines.length then .err .pastEndOfFile
    else match p.lines[k]? with
      | none => .ub .outOfBounds
      | some line =>
        if line.reached ∧ line.incoming = state then .ok (some { p with work := rest })
        else do
          let p ← m.visit p k line state
          .ok (some p)

/-- The analysis loop (nsasm/module.cc:197-237), at most `n` rounds. -/
def explore (m : Module) : Nat → Pass → Res Pass
  | 0, _ => .err .steps
  | n + 1, p => do
      match ← m.step p with
      | none => .ok p
      | some p => explore m n p

/-- The loop choosing addressing modes (nsasm/module.cc:241-251). -/
def fixLines : List Line → Res (List Line)
  | [] => .ok []
  | l :: ls =>
      match l.statement with
      | .dir _ => do
          let ls ← fixLines ls
          .ok (l :: ls)
      | .instr i =>
          if !l.reached then .err .unreached
          else do
            let i ← i.fixAddressingMode l.incoming.flags
            let ls ← fixLines ls
            .ok ({ l with statement := .instr i } :: ls)

/-- The program counter at a line, after an `.org` took effect
(nsasm/module.cc:257-261). -/
def originAt (pc : Option Addr) : Statement → Res (Option Addr)
  | .instr _ => .ok pc
  | .dir d =>
      if d.name = .org then do
        let v ← d.argument.eval nullCtx
        let a ← Address.ofInt v
        .ok (some a)
      else .ok pc

/-- The loop assigning addresses (nsasm/module.cc:254-273). -/
def layout (pc : Option Addr) : List Line → Res (List Line)
  | [] => .ok []
  | l :: ls => do
      match ← originAt pc l.statement with
      | none =>
          if l.statement.serializedSize > 0 then .err .noOrigin
          else do
            let ls ← layout none ls
            .ok (l :: ls)
      | some pc => do
          let ls ← layout (some (Address.addWrapped pc l.statement.serializedSize)) ls
          .ok ((if l.statement.isDir .equ then l else { l with value := some (labelOfAddress pc) })
            :: ls)

/-- `RunFirstPass` (nsasm/module.cc:176-276), with at most `fuel` rounds of
analysis. -/
def runFirstPass (fuel : Nat) (m : Module) : Res Module := do
  let p ← m.explore fuel ⟨m.lines, seeds [] 0 m.lines⟩
  let lines ← fixLines p.lines
  let lines ← layout none lines
  .ok { m with lines := lines }

/-! ## Second pass -/

/-- `line.value = v`. -/
def setValue (m : Module) (i : Nat) (v : Int) : Module :=
  { m with lines := m.lines.modify i (fun l => { l with value := some v }) }

/-- The body of the loop of `RunSecondPass` (nsasm/module.cc:307-313). -/
def evalEqu (externs : Ctx) (m : Module) (i : Nat) (l : Line) : Res Module :=
  match l.statement with
  | .instr _ => .ok m
  | .dir d =>
      if d.name = .equ ∧ l.value.isNone then do
        let v ← d.argument.eval (m.lookup l.scopes externs)
        .ok (m.setValue i v)
      else .ok m

/-- The loop of `RunSecondPass` (nsasm/module.cc:306-314), from line `i` on, for `n`
lines. -/
def secondLoop (externs : Ctx) : Nat → Nat → Module → Res Module
  | 0, _, m => .ok m
  | n + 1, i, m =>
      match m.lines[i]? with
      | none => .ub .outOfBounds
      | some l => do
          let m ← evalEqu externs m i l
          secondLoop externs n (i + 1) m

/-- `RunSecondPass` (nsasm/module.cc:304-316). -/
def runSecondPass (externs : Ctx) (m : Module) : Res Module :=
  secondLoop externs m.lines.length 0 m

/-- `ExportedNames` (nsasm/module.cc:318-326), without locations; the names of a
module are distinct, so the `std::map` holds exactly these. -/
def exportedNames (m : Module) : List FullId := m.globals.map fun n => ⟨some m.name, n.1⟩

/-! ## Assembly -/

/-- What `Assemble` accumulates in the module. -/
structure Out where
  owned : DataRange
  targets : OMap StatusFlags
  conventions : OMap ReturnConvention
deriving DecidableEq, Repr

/-- `unnamed_targets_` gains a flag state (nsasm/module.cc:362-367, 379-384). -/
def addTarget (t : OMap StatusFlags) (a : Addr) (f : StatusFlags) : OMap StatusFlags :=
  t.upsert (fun old => old.merge f) a f

/-- `return_conventions_[address] = ..` unless default (nsasm/module.cc:355-357,
368-370). -/
def addConvention (c : OMap ReturnConvention) (a : Addr) (r : ReturnConvention) :
    OMap ReturnConvention :=
  match r with
  | .default => c
  | r => c.set a r

/-- `line.value->ToAddress()`; `none` stands for dereferencing an empty optional. -/
def toAddress : Option Int → Res Addr
  | none => .ub .nullDeref
  | some v => Address.ofInt v

/-- The claim after a write (nsasm/module.cc:344-348). -/
def claim (o : Out) (address : Addr) (size : Nat) : Res Out := do
  let (owned, ok) ← o.owned.claimBytes address size
  if ok then .ok { o with owned := owned } else .err .overlap

/-- The part of `Assemble` for statements without code (nsasm/module.cc:349-371). -/
def assembleNote (d : Directive) (value : Option Int) (ctx : Ctx) (o : Out) : Res Out :=
  if d.name = .entry then
    match value with
    | none => .err .noValue
    | some v => do
        let address ← Address.ofInt v
        .ok { o with conventions := addConvention o.conventions address d.ret }
  else if d.name = .remote then do
    let v ← d.argument.eval ctx
    let address ← Address.ofInt v
    .ok { o with
      targets := addTarget o.targets address d.flags
      conventions := addConvention o.conventions address d.ret }
  else .ok o

/-- The far-branch part of `Assemble` (nsasm/module.cc:372-386). -/
def noteTarget (l : Line) (o : Out) : Res Out :=
  match l.statement with
  | .dir _ => .ok o
  | .instr i => do
      let source ← toAddress l.value
      match ← i.farBranchTarget source with
      | none => .ok o
      | some t => .ok { o with targets := addTarget o.targets t l.incoming.flags }

/-- The write-and-claim part of `Assemble` (nsasm/module.cc:335-348). -/
def writeLine {σ : Type} (l : Line) (ctx : Ctx) (sink : Sink σ) (s : σ) (o : Out) : σ × Res Out :=
  match l.value with
  | none => (s, .err .noValue)
  | some v =>
    match Address.ofInt v with
    | .err e => (s, .err e)
    | .ub u => (s, .ub u)
    | .ok address =>
      match l.statement.assemble address ctx sink s with
      | (s, .ok ()) => (s, claim o address l.statement.serializedSize)
      | (s, .err e) => (s, .err e)
      | (s, .ub u) => (s, .ub u)

/-- One line of `Assemble` (nsasm/module.cc:331-386). -/
def assembleLine {σ : Type} (m : Module) (externs : Ctx) (sink : Sink σ) (l : Line) (s : σ)
    (o : Out) : σ × Res Out :=
  let ctx := m.lookup l.scopes externs
  let (s, r) :=
    if l.statement.serializedSize > 0 then writeLine l ctx sink s o
    else match l.statement with
      | .dir d => (s, assembleNote d l.value ctx o)
      | .instr _ => (s, .ok o)
  (s, r >>= noteTarget l)

/-- The loop of `Assemble` over the lines (nsasm/module.cc:330-387). -/
def assembleLines {σ : Type} (m : Module) (externs : Ctx) (sink : Sink σ) :
    List Line → σ → Out → σ × Res Out
  | [], s, o => (s, .ok o)
  | l :: ls, s, o =>
      match m.assembleLine externs sink l s o with
      | (s, .ok o) => assembleLines m externs sink ls s o
      | (s, .err e) => (s, .err e)
      | (s, .ub u) => (s, .ub u)

/-- The loop over the global names (nsasm/module.cc:388-398). -/
def nameAddresses (m : Module) (names : HMap Nat Str) : List (Str × Nat) → Res (HMap Nat Str)
  | [] => .ok names
  | (name, i) :: rest =>
      match m.lines[i]? with
      | none => .ub .outOfBounds
      | some l =>
        match l.value with
        | none => .err .noValue
        | some v => do
            let address ← Address.ofInt v
            nameAddresses m (if names.has address then names else names.insertNew address name) rest

/-- `Assemble` (nsasm/module.cc:328-400).  The state of the sink is returned even
when assembly fails; the module itself is then discarded by every caller. -/
def assemble {σ : Type} (m : Module) (externs : Ctx) (sink : Sink σ) (s : σ) : σ × Res Module :=
  let (s, r) := m.assembleLines externs sink m.lines s ⟨m.owned, m.targets, m.conventions⟩
  (s, do
    let o ← r
    let names ← m.nameAddresses m.addrNames m.globals
    .ok { m with owned := o.owned, targets := o.targets, conventions := o.conventions,
                 addrNames := names })

/-- `ValueForName` (nsasm/module.cc:419-434). -/
def valueForName (m : Module) (id : FullId) : Except Err Int :=
  if id.module ≠ some m.name then .error .undefinedName
  else match m.globals.find id.name with
    | none => .error .undefinedName
    | some i => m.localLookup i

/-- `NameForAddress` (nsasm/module.cc:436-446). -/
def nameForAddress (m : Module) (a : Addr) : Option FullId :=
  if m.name.isEmpty then none
  else (m.addrNames.find a).map fun n => ⟨some m.name, n⟩

end Module

end Nsasm
