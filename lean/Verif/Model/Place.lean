import Verif.Model.Disassemble
import Verif.Model.Located
import Verif.Model.Rom
import Verif.Model.Text

/-!
# Where errors of ROMs and of the disassembler are reported (nsasm/location.h, nsasm/error.h)

`Model/Located.lean` has the locations of the assembler's errors, which are lines of files.  This file has
the whole class `Location`, with addresses, and how a location and an error are printed.  It repeats
`Rom::Read` and `Disassembler::Disassemble` with the `SetLocation` calls; `Lemmas/Place.lean` proves that
without the locations they are the functions of `Model/Rom.lean` and `Model/Disassemble.lean`.
-/

namespace Nsasm

/-- `offset_` and `offset_type_` (nsasm/location.h:52-61).  A line number is an `int`; only natural numbers
less than 2^31 are ever given. -/
inductive Offset where
  | none
  | line (n : Nat)
  | address (a : Addr)
deriving DecidableEq, Repr

/-- `class Location` (nsasm/location.h:12-62). -/
structure Place where
  path : Str
  offset : Offset
deriving DecidableEq, Repr

namespace Place

/-- `Location()` (nsasm/location.h:14). -/
def none : Place := ⟨[], .none⟩

/-- `Location(path)` (nsasm/location.h:15). -/
def ofPath (path : Str) : Place := ⟨path, .none⟩

/-- `Location(line_number)` (nsasm/location.h:16). -/
def ofLine (n : Nat) : Place := ⟨[], .line n⟩

/-- `FromAddress` (nsasm/location.h:21-26), to which an `Address` converts (nsasm/address.h:30). -/
def ofAddress (a : Addr) : Place := ⟨[], .address a⟩

/-- `Update` (nsasm/location.h:28-36). -/
def update (p rhs : Place) : Place :=
  ⟨if rhs.path ≠ [] then rhs.path else p.path, if rhs.offset ≠ .none then rhs.offset else p.offset⟩

/-- `ToString` (nsasm/location.h:38-51). -/
def text (p : Place) : Str :=
  if p.path = [] then []
  else match p.offset with
    | .none => p.path
    | .line n => p.path ++ cs!":" ++ decimal n
    | .address a => p.path ++ cs!":0x" ++ hexPadded 6 a

/-- A location of the assembler's errors. -/
def ofLocation (l : Location) : Place :=
  ⟨l.path, match l.line with
    | some n => .line n
    | Option.none => .none⟩

end Place

/-- `Error::ToString` (nsasm/error.cc:7-13), for an error with the message `message`. -/
def errorText (p : Place) (message : Str) : Str :=
  if p.text = [] then message else p.text ++ cs!": " ++ message

/-- `ErrorOr<T>` (nsasm/error.h:42-67) with the location of the error. -/
inductive PRes (α : Type) where
  | ok (a : α)
  | err (e : Err) (p : Place)
  | ub (u : Ub)
deriving DecidableEq, Repr

namespace PRes

/-- `NSASM_RETURN_IF_ERROR` (nsasm/error.h:88-94). -/
@[inline] def bind {α β : Type} (x : PRes α) (f : α → PRes β) : PRes β :=
  match x with
  | ok a => f a
  | err e p => err e p
  | ub u => ub u

instance : Monad PRes where
  pure := ok
  bind := bind

/-- The outcome without the location. -/
def erase {α : Type} : PRes α → Res α
  | ok a => .ok a
  | err e _ => .err e
  | ub u => .ub u

/-- An error that has just been made has no location (nsasm/error.h:15-17). -/
def new {α : Type} : Res α → PRes α
  | .ok a => ok a
  | .err e => err e .none
  | .ub u => ub u

/-- `SetLocation(location)` (nsasm/error.h:19-22). -/
def set {α : Type} (l : Place) : PRes α → PRes α
  | ok a => ok a
  | err e p => err e (p.update l)
  | ub u => ub u

/-- `SetLocation(loc1, loc2)` (nsasm/error.h:26-30). -/
def set2 {α : Type} (l1 l2 : Place) : PRes α → PRes α
  | ok a => ok a
  | err e p => err e ((p.update l1).update l2)
  | ub u => ub u

end PRes

/-- `SnesToROMAddress` (nsasm/rom.cc:9-35): each error is at the address. -/
def snesToRomAt (address : Addr) (mapping : Mapping) : PRes Nat :=
  (PRes.new (snesToRom address mapping)).set (.ofAddress address)

namespace Rom

/-- The by-hand loop of `Rom::Read` (nsasm/rom.cc:61-71), from index `i`, `n` bytes. -/
def readLoopAt (path : Str) (rom : Rom) (address : Addr) : Nat → Nat → PRes (List UInt8)
  | _, 0 => .ok []
  | i, n + 1 => do
      let a ← (snesToRomAt (Address.addWrapped address i) rom.mapping).set (.ofPath path)
      match rom.data[a]? with
      | none => (PRes.err .pastEndOfRom .none).set2 (.ofPath path) (.ofAddress (Address.addWrapped address i))
      | some b => do
          let rest ← readLoopAt path rom address (i + 1) n
          .ok (b :: rest)

/-- `Rom::Read` (nsasm/rom.cc:37-73).  `SetLocation(path_, *first_address)` (nsasm/rom.cc:55) gives a
`size_t`, which converts to the location of a line. -/
def readAt (path : Str) (rom : Rom) (address : Addr) (length : Int) : PRes (List UInt8) :=
  if length = 0 then .ok []
  else if length < 0 then .err .other .none
  else do
    let first ← (snesToRomAt address rom.mapping).set (.ofPath path)
    let last ← (snesToRomAt (Address.addWrapped address (length - 1)) rom.mapping).set (.ofPath path)
    if last > first then
      if last ≥ rom.data.length then (PRes.err .pastEndOfRom .none).set2 (.ofPath path) (.ofLine first)
      else .ok ((rom.data.drop first).take (last + 1 - first))
    else rom.readLoopAt path address 0 length.toNat

end Rom

/-- `class InputSource` (nsasm/memory.h:11-33): `Path` and `Read`. -/
structure PlacedSource where
  path : Str
  read : Addr → Int → PRes (List UInt8)

/-- What is read, without the locations of the errors. -/
def PlacedSource.bytes (src : PlacedSource) : Source := fun a n => (src.read a n).erase

/-- A ROM as an input source (nsasm/rom.h:32-56). -/
def Rom.source (path : Str) (rom : Rom) : PlacedSource := ⟨path, rom.readAt path⟩

namespace Disassembler

/-- The location `src_->Path(), pc` that each error of the loop is given (nsasm/disassemble.cc:100, 103,
109-110, 133-135, 164-166, 172-173, 191-193). -/
def atPc {α : Type} (src : PlacedSource) (pc : Addr) (x : PRes α) : PRes α :=
  x.set2 (.ofPath src.path) (.ofAddress pc)

/-- The local branch part of a first visit (nsasm/disassemble.cc:128-137). -/
def branchVisitAt (src : PlacedSource) (d : Disassembler) (w : Work) (pc nextPc : Addr) (i : Instruction)
    (current : ExecutionState) : PRes (Instruction × Work) :=
  if i.isLocalBranch then do
    let value ← .new (evalUnchecked i.arg1)
    let target := Address.addWrapped nextPc value
    let (label, w) := getLabel d w target
    let i := { i with arg1 := i.arg1.applyLabel label }
    let branch ← atPc src pc (.new (i.executeBranch current))
    .ok (i, push w target branch)
  else .ok (i, w)

/-- A first visit to an address (nsasm/disassemble.cc:96-150), as `visitNew`. -/
def visitNewAt (src : PlacedSource) (d : Disassembler) (w : Work) (pc : Addr) (current : ExecutionState) :
    PRes Work := do
  let bytes ← atPc src pc (src.read pc 4)
  let i ← atPc src pc (.new (decode bytes current.flags))
  let nextPc := Address.addWrapped pc (instructionLength i.mode)
  let next ← atPc src pc (.new (i.execute current nullCtx))
  let (i, next, w) ← .new (farVisit d w pc i next)
  let (i, w) ← branchVisitAt src d w pc nextPc i current
  let w := { w with fresh := w.fresh.set pc ⟨[], i, false, current, next⟩ }
  if i.isExitInstruction then .ok w else .ok (push w nextPc next)

/-- `Decode(*instruction_data, flags)` on a revisit (nsasm/disassemble.cc:163-166), as `redecode`. -/
def redecodeAt (src : PlacedSource) (pc : Addr) (f : StatusFlags) : PRes Unit :=
  match src.read pc 4 with
  | .ok bytes => do
      let _ ← atPc src pc (.new (decode bytes f))
      .ok ()
  | .err _ _ => .ub .nullDeref
  | .ub u => .ub u

/-- The local branch part of a revisit (nsasm/disassemble.cc:189-197). -/
def branchRevisitAt (src : PlacedSource) (w : Work) (pc nextPc : Addr) (i : Instruction) (current : ExecutionState) :
    PRes Work :=
  if i.isLocalBranch then do
    let branch ← atPc src pc (.new (i.executeBranch current))
    let value ← .new (evalUnchecked i.arg1)
    .ok (push w (Address.addWrapped nextPc value) branch)
  else .ok w

/-- A later visit to an address (nsasm/disassemble.cc:151-199), as `visitOld`. -/
def visitOldAt (src : PlacedSource) (w : Work) (pc : Addr) (current : ExecutionState) (di : DisItem) :
    PRes Work :=
  let combined := current.merge di.current
  if combined = di.current then .ok w
  else do
    redecodeAt src pc combined.flags
    let next ← atPc src pc (.new (di.instruction.execute combined nullCtx))
    let w := { w with fresh := w.fresh.set pc { di with current := combined, next := next } }
    let nextPc := Address.addWrapped pc (instructionLength di.instruction.mode)
    let w := if di.instruction.isExitInstruction then w else push w nextPc next
    let w ← .new (farRevisit w pc di.instruction next)
    branchRevisitAt src w pc nextPc di.instruction current

/-- One round of the loop (nsasm/disassemble.cc:87-200), as `step`. -/
def stepAt (src : PlacedSource) (d : Disassembler) (w : Work) : PRes (Option Work) :=
  match w.stack with
  | [] => .ok none
  | (pc, current) :: rest => do
    let w := { w with stack := rest }
    match getInstruction d w pc with
    | (none, w) => .ok (some (← visitNewAt src d w pc current))
    | (some di, w) => .ok (some (← visitOldAt src w pc current di))

/-- The loop (nsasm/disassemble.cc:87-200), as `run`. -/
def runAt (src : PlacedSource) (d : Disassembler) : Nat → Work → Work × PRes Unit
  | 0, w => (w, .err .steps .none)
  | n + 1, w =>
    match stepAt src d w with
    | .ok none => (w, .ok ())
    | .ok (some w') => runAt src d n w'
    | .err e p => (w, .err e p)
    | .ub u => (w, .ub u)

/-- `Disassemble` (nsasm/disassemble.cc:13-236), as `disassemble`. -/
def disassembleAt (fuel : Nat) (src : PlacedSource) (d : Disassembler) (start : Addr) (flags : StatusFlags) :
    Disassembler × PRes (OMap StatusFlags) :=
  let entries := d.entryPoints.set start ()
  match runAt src d fuel (begin d start flags) with
  | (w, .ok ()) =>
      ({ d with entryPoints := entries, disassembly := finish d w, sym := w.sym }, .ok w.far)
  | (w, .err e p) => ({ d with entryPoints := entries, sym := w.sym }, .err e p)
  | (w, .ub u) => ({ d with entryPoints := entries, sym := w.sym }, .ub u)

end Disassembler

end Nsasm
