import Verif.Model.Assembler

/-!
# Where errors are reported (nsasm/error.h, nsasm/location.h)

The model of the assembler leaves out where an error is reported.  This file repeats the functions
of nsasm/module.cc and nsasm/assembler.cc with the `SetLocation` calls; `Lemmas/Located.lean` proves
that without the locations they are the functions of `Model/Module.lean` and
`Model/Assembler.lean`.
-/

namespace Nsasm

/-- `class Location` (nsasm/location.h:12-62): a path and, perhaps, a line number.  Addresses are only used by
the disassembler and left out. -/
structure Location where
  path : Str
  line : Option Nat
deriving DecidableEq, Repr

namespace Location

/-- `Location()` (nsasm/location.h:14). -/
def none : Location := ⟨[], Option.none⟩

/-- `Update` (nsasm/location.h:29-37). -/
def update (l rhs : Location) : Location :=
  ⟨if rhs.path ≠ [] then rhs.path else l.path, if rhs.line.isSome then rhs.line else l.line⟩

end Location

/-- `ErrorOr<T>` (nsasm/error.h:42-67) with the location of the error. -/
inductive LRes (α : Type) where
  | ok (a : α)
  | err (e : Err) (l : Location)
  | ub (u : Ub)
deriving DecidableEq, Repr

namespace LRes

/-- `NSASM_RETURN_IF_ERROR` (nsasm/error.h:88-94). -/
@[inline] def bind {α β : Type} (x : LRes α) (f : α → LRes β) : LRes β :=
  match x with
  | ok a => f a
  | err e l => err e l
  | ub u => ub u

instance : Monad LRes where
  pure := ok
  bind := bind

/-- The outcome without the location. -/
def erase {α : Type} : LRes α → Res α
  | ok a => .ok a
  | err e _ => .err e
  | ub u => .ub u

end LRes

/-- An error that has just been made has no location (nsasm/error.h:15-17). -/
def Res.here {α : Type} : Res α → LRes α
  | .ok a => .ok a
  | .err e => .err e .none
  | .ub u => .ub u

/-- `SetLocation` (nsasm/error.h:19-22), `NSASM_RETURN_IF_ERROR_WITH_LOCATION` (nsasm/error.h:96-102) on an
error without a location. -/
def Res.at {α : Type} (l : Location) : Res α → LRes α
  | .ok a => .ok a
  | .err e => .err e (Location.none.update l)
  | .ub u => .ub u

/-- `Parse` (nsasm/parse.cc:529-592) on tokens that all have the location `l`.  Every error is given the location of a
token, except for `Err.other`: a return convention on an instruction that is no call (nsasm/parse.cc:424-429) and the
three `logic error`s. -/
def Parse.parseAt (l : Location) (ts : List Token) : LRes (List Item) :=
  match Parse.parse ts with
  | .ok is => .ok is
  | .err .other => .err .other .none
  | .err e => .err e (Location.none.update l)
  | .ub u => .ub u

namespace Module

/-- The loop over the lines of the file (nsasm/module.cc:106-160).  `n` is `line_number` before the line; `nums` has the line
number of every statement so far (`statement.Location()`). -/
def loadLinesAt (path : Str) (n : Nat) (ld : Loading) (nums : List Nat) : List Str → LRes (Loading × List Nat)
  | [] => .ok (ld, nums)
  | line :: rest => do
      let loc : Location := ⟨path, some (n + 1)⟩
      let tokens ← (tokenize line).at loc
      let items ← Parse.parseAt loc tokens
      let ld' ← (loadItems ld items).at loc
      loadLinesAt path (n + 1) ld' (nums ++ List.replicate (ld'.m.lines.length - ld.m.lines.length) (n + 1)) rest

/-- `lines_[k].statement.Location()` (nsasm/statement.h:45-50). -/
def place (path : Str) (nums : List Nat) (k : Nat) : Location := ⟨path, nums[k]?⟩

/-- The end of `LoadAsmFile` (nsasm/module.cc:161-173). -/
def finishLoadAt (path : Str) (nums : List Nat) (ld : Loading) : LRes Module :=
  match ld.scopes with
  | s :: _ => (Res.err .unclosedScope).at (place path nums s)
  | [] => .ok { ld.m with deps := ld.m.dependencies }

/-- `LoadAsmFile` (nsasm/module.cc:77-174): the module and the line numbers of its statements. -/
def loadAsmFileAt (path : Str) (file : List Str) : LRes (Module × List Nat) := do
  let (ld, nums) ← loadLinesAt path 0 ⟨empty, [], []⟩ [] file
  let m ← finishLoadAt path nums ld
  .ok (m, nums)

/-- The local-branch part of one round (nsasm/module.cc:220-236). -/
def branchWorkAt (loc : Location) (m : Module) (line : Line) (state : ExecutionState) (work : OMap ExecutionState) :
    LRes (OMap ExecutionState) :=
  match line.statement with
  | .dir _ => .ok work
  | .instr i =>
    if !i.isLocalBranch then .ok work
    else match i.arg1.simpleIdentifier with
      | none => (Res.err .other).here
      | some target =>
        match m.localIndex target line.scopes with
        | none => (Res.err .undefinedName).at loc
        | some t => do
            let next ← (i.executeBranch state).at loc
            .ok (addWork work t next)

/-- What one round does to a line it analyses (nsasm/module.cc:211-236). -/
def visitAt (loc : Location) (m : Module) (p : Pass) (k : Nat) (line : Line) (state : ExecutionState) : LRes Pass := do
  let next ← (line.statement.execute state).at loc
  let work := if line.statement.isExitInstruction then p.work else addWork p.work (k + 1) next
  let work ← m.branchWorkAt loc line state work
  .ok ⟨p.lines.set k (reach line state), work⟩

/-- One round of the analysis loop (nsasm/module.cc:198-236). -/
def stepAt (path : Str) (nums : List Nat) (m : Module) (p : Pass) : LRes (Option Pass) :=
  match p.work with
  | [] => .ok none
  | (k, state) :: rest =>
    if k = p.lines.length then (Res.err .pastEndOfFile).here
    else match p.lines[k]? with
      | none => .ub .outOfBounds
      | some line =>
        if line.reached ∧ line.incoming = state then .ok (some { p with work := rest })
        else do
          let p ← m.visitAt (place path nums k) p k line state
          .ok (some p)

/-- The analysis loop (nsasm/module.cc:197-237), at most `n` rounds. -/
def exploreAt (path : Str) (nums : List Nat) (m : Module) : Nat → Pass → LRes Pass
  | 0, _ => (Res.err .steps).here
  | n + 1, p => do
      match ← m.stepAt path nums p with
      | none => .ok p
      | some p => exploreAt path nums m n p

/-- The loop choosing addressing modes (nsasm/module.cc:241-251), from line `k`. -/
def fixLinesAt (path : Str) (nums : List Nat) (k : Nat) : List Line → LRes (List Line)
  | [] => .ok []
  | l :: ls =>
      match l.statement with
      | .dir _ => do
          let ls ← fixLinesAt path nums (k + 1) ls
          .ok (l :: ls)
      | .instr i =>
          if !l.reached then (Res.err .unreached).at (place path nums k)
          else do
            let i ← (i.fixAddressingMode l.incoming.flags).at (place path nums k)
            let ls ← fixLinesAt path nums (k + 1) ls
            .ok ({ l with statement := .instr i } :: ls)

/-- The loop assigning addresses (nsasm/module.cc:254-273), from line `k`. -/
def layoutAt (path : Str) (nums : List Nat) (k : Nat) (pc : Option Addr) : List Line → LRes (List Line)
  | [] => .ok []
  | l :: ls => do
      match ← (originAt pc l.statement).at (place path nums k) with
      | none =>
          if l.statement.serializedSize > 0 then (Res.err .noOrigin).at (place path nums k)
          else do
            let ls ← layoutAt path nums (k + 1) none ls
            .ok (l :: ls)
      | some pc => do
          let ls ← layoutAt path nums (k + 1) (some (Address.addWrapped pc l.statement.serializedSize)) ls
          .ok ((if l.statement.isDir .equ then l else { l with value := some (labelOfAddress pc) }) :: ls)

/-- `RunFirstPass` (nsasm/module.cc:176-276). -/
def runFirstPassAt (path : Str) (nums : List Nat) (fuel : Nat) (m : Module) : LRes Module := do
  let p ← m.exploreAt path nums fuel ⟨m.lines, seeds [] 0 m.lines⟩
  let lines ← fixLinesAt path nums 0 p.lines
  let lines ← layoutAt path nums 0 none lines
  .ok { m with lines := lines }

/-- The loop of `RunSecondPass` (nsasm/module.cc:306-314), from line `i` on, for `n` lines. -/
def secondLoopAt (path : Str) (nums : List Nat) (externs : Ctx) : Nat → Nat → Module → LRes Module
  | 0, _, m => .ok m
  | n + 1, i, m =>
      match m.lines[i]? with
      | none => .ub .outOfBounds
      | some l => do
          let m ← (evalEqu externs m i l).at (place path nums i)
          secondLoopAt path nums externs n (i + 1) m

/-- `RunSecondPass` (nsasm/module.cc:304-316). -/
def runSecondPassAt (path : Str) (nums : List Nat) (externs : Ctx) (m : Module) : LRes Module :=
  secondLoopAt path nums externs m.lines.length 0 m

/-- `ExportedNames` (nsasm/module.cc:318-326).  The location has the index of the statement for a line number.  Simplified: the
`std::map` has the names in alphabetical order, which decides which of several duplicate names is reported. -/
def exportedNamesAt (path : Str) (m : Module) : List (FullId × Location) :=
  m.globals.map fun n => (⟨some m.name, n.1⟩, ⟨path, some n.2⟩)

/-- The loop of `Assemble` over the lines (nsasm/module.cc:330-387), from line `k`. -/
def assembleLinesAt {σ : Type} (path : Str) (nums : List Nat) (m : Module) (externs : Ctx) (sink : Sink σ) (k : Nat) :
    List Line → σ → Out → σ × LRes Out
  | [], s, o => (s, .ok o)
  | l :: ls, s, o =>
      match m.assembleLine externs sink l s o with
      | (s, .ok o) => assembleLinesAt path nums m externs sink (k + 1) ls s o
      | (s, .err e) => (s, (Res.err e).at (place path nums k))
      | (s, .ub u) => (s, .ub u)

/-- The loop over the global names (nsasm/module.cc:388-398). -/
def nameAddressesAt (path : Str) (nums : List Nat) (m : Module) (names : HMap Nat Str) :
    List (Str × Nat) → LRes (HMap Nat Str)
  | [] => .ok names
  | (name, i) :: rest =>
      match m.lines[i]? with
      | none => .ub .outOfBounds
      | some l =>
        match l.value with
        | none => (Res.err .noValue).at (place path nums i)
        | some v => do
            let address ← (Address.ofInt v).here
            nameAddressesAt path nums m (if names.has address then names else names.insertNew address name) rest

/-- `Assemble` (nsasm/module.cc:328-400). -/
def assembleAt {σ : Type} (path : Str) (nums : List Nat) (m : Module) (externs : Ctx) (sink : Sink σ) (s : σ) :
    σ × LRes Module :=
  let (s, r) := m.assembleLinesAt path nums externs sink 0 m.lines s ⟨m.owned, m.targets, m.conventions⟩
  (s, do
    let o ← r
    let names ← m.nameAddressesAt path nums m.addrNames m.globals
    .ok { m with owned := o.owned, targets := o.targets, conventions := o.conventions,
                 addrNames := names })

end Module

/-- A module with its path and the line numbers of its statements. -/
structure Placed where
  path : Str
  nums : List Nat
deriving DecidableEq, Repr

namespace Assembler

/-- The state of `FindAssemblyOrder` (nsasm/assembler.cc:20-23), with the locations in `exported_names`. -/
structure OrderingAt where
  o : Ordering
  places : HMap FullId Location
deriving DecidableEq, Repr

/-- The loop over the exports of a module (nsasm/assembler.cc:42-52). -/
def addExportsAt (i : Nat) (exported : HMap FullId Nat) (places : HMap FullId Location) :
    List (FullId × Location) → LRes (HMap FullId Nat × HMap FullId Location)
  | [] => .ok (exported, places)
  | n :: ns =>
      if exported.has n.1 then (Res.err .duplicateExport).at ((places.find n.1).getD .none)
      else addExportsAt i (exported.insertNew n.1 i) (places.insertNew n.1 n.2) ns

/-- One module of a round (nsasm/assembler.cc:28-53). -/
def considerAt (o : OrderingAt) (i : Nat) (path : Str) (m : Module) : LRes OrderingAt :=
  if i ∈ o.o.order then .ok o
  else if m.deps.all (fun d => o.o.exported.has d) then do
    let (exported, places) ← addExportsAt i o.o.exported o.places (m.exportedNamesAt path)
    .ok ⟨⟨o.o.order ++ [i], exported⟩, places⟩
  else .ok o

/-- One round over the modules (nsasm/assembler.cc:27-54). -/
def roundAt (o : OrderingAt) (i : Nat) : List (Str × Module) → LRes OrderingAt
  | [] => .ok o
  | m :: ms => do
      let o ← considerAt o i m.1 m.2
      roundAt o (i + 1) ms

/-- The loop of `FindAssemblyOrder` (nsasm/assembler.cc:25-59). -/
def orderLoopAt (ms : List (Str × Module)) : Nat → OrderingAt → LRes OrderingAt
  | 0, _ => (Res.err .steps).here
  | n + 1, o =>
      if o.o.order.length < ms.length then do
        let o' ← roundAt o 0 ms
        if o'.o.order.length = o.o.order.length then (Res.err .cyclic).here else orderLoopAt ms n o'
      else .ok o

/-- `FindAssemblyOrder` (nsasm/assembler.cc:19-61). -/
def findAssemblyOrderAt (ms : List (Str × Module)) : LRes OrderingAt :=
  orderLoopAt ms (ms.length + 1) ⟨⟨[], []⟩, []⟩

/-- The path and line numbers of a module. -/
def placeOf (ps : List Placed) (i : Nat) : Placed := (ps[i]?).getD ⟨[], []⟩

/-- The first-pass loop of `Assemble` (nsasm/assembler.cc:89-92). -/
def firstPassesAt (ps : List Placed) (fuel : Nat) (ms : List Module) : List Nat → LRes (List Module)
  | [] => .ok ms
  | i :: is =>
      match ms[i]? with
      | none => .ub .outOfBounds
      | some m => do
          let m ← m.runFirstPassAt (placeOf ps i).path (placeOf ps i).nums fuel
          firstPassesAt ps fuel (ms.set i m) is

/-- The second-pass loop of `Assemble` (nsasm/assembler.cc:94-99). -/
def secondPassesAt (ps : List Placed) (names : HMap FullId Nat) (ms : List Module) : List Nat → LRes (List Module)
  | [] => .ok ms
  | i :: is =>
      match ms[i]? with
      | none => .ub .outOfBounds
      | some m => do
          let m ← m.runSecondPassAt (placeOf ps i).path (placeOf ps i).nums (lookup ms names)
          secondPassesAt ps names (ms.set i m) is

/-- The final loop of `Assemble` (nsasm/assembler.cc:101-109). -/
def finalPassesAt {σ : Type} (ps : List Placed) (sink : Sink σ) (a : Assembler) : List Nat → σ → σ × LRes Assembler
  | [], s => (s, .ok a)
  | i :: is, s =>
      match a.modules[i]? with
      | none => (s, .ub .outOfBounds)
      | some m =>
        match m.assembleAt (placeOf ps i).path (placeOf ps i).nums (lookup a.modules a.names) sink s with
        | (s, .err e l) => (s, .err e l)
        | (s, .ub u) => (s, .ub u)
        | (s, .ok m) =>
          match a.memory.insert m.owned i with
          | (_, false) => (s, (Res.err .overlap).here)
          | (memory, true) =>
              finalPassesAt ps sink { a with modules := a.modules.set i m, memory := memory } is s

/-- The two analysis passes of `Assemble` (nsasm/assembler.cc:86-99). -/
def prepareAt (ps : List Placed) (fuel : Nat) (ms : List Module) : LRes (Assembler × List Nat) := do
  let o ← findAssemblyOrderAt ((ps.map (·.path)).zip ms)
  let ms ← firstPassesAt ps fuel ms o.o.order
  let ms ← secondPassesAt ps o.o.exported ms o.o.order
  .ok (⟨ms, o.o.exported, .empty⟩, o.o.order)

/-- `Assembler::Assemble` (nsasm/assembler.cc:85-112). -/
def assembleAt {σ : Type} (ps : List Placed) (fuel : Nat) (ms : List Module) (sink : Sink σ) (s : σ) :
    σ × LRes Assembler :=
  match prepareAt ps fuel ms with
  | .err e l => (s, .err e l)
  | .ub u => (s, .ub u)
  | .ok (a, order) => finalPassesAt ps sink a order s

/-- The `AddAsmFile` loop (nsasm/assembler.cc:12-17, 164-167), on files with their paths. -/
def loadAllAt : List (Str × List Str) → LRes (List Placed × List Module)
  | [] => .ok ([], [])
  | f :: fs => do
      let (m, nums) ← Module.loadAsmFileAt f.1 f.2
      let (ps, ms) ← loadAllAt fs
      .ok (⟨f.1, nums⟩ :: ps, m :: ms)

/-- `Assemble(files, sink)` (nsasm/assembler.cc:163-170). -/
def assembleFilesAt {σ : Type} (fuel : Nat) (files : List (Str × List Str)) (sink : Sink σ) (s : σ) :
    σ × LRes Assembler :=
  match loadAllAt files with
  | .ok (ps, ms) => assembleAt ps fuel ms sink s
  | .err e l => (s, .err e l)
  | .ub u => (s, .ub u)

end Assembler

end Nsasm
