import Verif.Model.Assembler
import Verif.Model.Print
import Verif.Model.RomFile

/-! # The command line tools (util/quick_assemble.cc, util/quick_disassemble.cc, util/disassemble_more.cc,
util/dumb_disassemble.cc)

A file is its contents: the bytes of a ROM file, the lines of a source file.  `msg` gives the text of each
error.  `sscanf`, the message about the usage, and errors of the disk are in `CommandLine`. -/

namespace Nsasm

namespace Tools

/-- What a run leaves behind: the lines printed, the exit status and the file written, if any. -/
structure Outcome where
  lines : List Str
  status : Nat
  file : Option (List UInt8) := none
deriving DecidableEq, Repr

/-! ## quick_assemble -/

/-- `absl::EndsWith(path, ".asm")` (util/quick_assemble.cc:31). -/
def isAsmPath (path : Str) : Bool := decide (cs!".asm" <:+ path)

/-- A jump target (util/quick_assemble.cc:63). -/
def targetLine (a : Addr) (f : StatusFlags) : Str := cs!"  " ++ addressText a ++ cs!" " ++ f.toStr

/-- The targets that an identity test prints (util/quick_assemble.cc:59-64). -/
def targetLines (t : OMap StatusFlags) : List Str :=
  (decimal t.length ++ cs!" jump targets found") :: t.map fun n => targetLine n.1 n.2

/-- The end of the program (util/quick_assemble.cc:53-57), for the outcome of `Assemble`: an error is
printed, and otherwise the program goes on with `k`.  Running out of the model's step bound is not an
error of the program. -/
def reportAssembling {α : Type} (msg : Err → Str) (k : α → Outcome) : Res α → Res Outcome
  | .ok a => .ok (k a)
  | .ub u => .ub u
  | .err e => if e = .steps then .err .steps else .ok { lines := [cs!"Error assembling: " ++ msg e], status := 1 }

/-- `main` of quick_assemble after the ROM was loaded (util/quick_assemble.cc:29-72): the output path and the
source files. -/
def assembleRom (msg : Err → Str) (fuel : Nat) (r : RomFile) (path : Str) (files : List (List Str)) : Res Outcome :=
  if isAsmPath path then .ok { lines := [cs!"Error: " ++ path ++ cs!" given as output path"], status := 1 }
  else if path = cs!"-" then
    reportAssembling msg (fun a => { lines := targetLines a.jumpTargets, status := 0 })
      (Assembler.assembleFiles fuel files (fun s a bs => (s, r.rom.identityWrite a bs)) ()).2
  else do
    let buffer ← r.rom.overwriterInit
    let (buffer, result) := Assembler.assembleFiles fuel files (Rom.overwriterWrite r.rom.mapping) buffer
    reportAssembling msg (fun _ => { lines := [], status := 0, file := some (r.contents buffer) }) result

/-- `main` of quick_assemble (util/quick_assemble.cc:18-72). -/
def quickAssemble (msg : Err → Str) (fuel : Nat) (romFile : List UInt8) (path : Str) (files : List (List Str)) :
    Res Outcome :=
  match RomFile.load romFile with
  | .ub u => .ub u
  | .err e => .ok { lines := [cs!"Error loading ROM: " ++ msg e], status := 1 }
  | .ok r => assembleRom msg fuel r path files

/-! ## quick_disassemble -/

/-- `CombineStates` (util/quick_disassemble.cc:22-33, util/disassemble_more.cc:16-27). -/
def combineStates (targets : OMap StatusFlags) : List (Nat × StatusFlags) → OMap StatusFlags
  | [] => targets
  | (a, f) :: rest => combineStates (targets.upsert (fun old => old.merge f) a f) rest

/-- What is printed when a call of `Disassemble` fails (util/quick_disassemble.cc:79-82). -/
def errorLines (msg : Err → Str) (a : Addr) (f : StatusFlags) (e : Err) : List Str :=
  [cs!"; ERROR branching to " ++ addressText a ++ cs!" with mode " ++ f.toStr, cs!";   " ++ msg e]

/-- One pass over the seeds (util/quick_disassemble.cc:76-86, util/disassemble_more.cc:65-79): the
disassembler afterwards, the new seeds, and what was printed.  `known` says which addresses are skipped
(util/disassemble_more.cc:66-69). -/
def pass (msg : Err → Str) (fuel : Nat) (src : Source) (known : Addr → Bool) :
    List (Nat × StatusFlags) → Disassembler → OMap StatusFlags → Res (Disassembler × OMap StatusFlags × List Str)
  | [], d, new => .ok (d, new, [])
  | (a, f) :: rest, d, new =>
    if known a then pass msg fuel src known rest d new
    else match d.disassemble fuel src a f with
      | (_, .ub u) => .ub u
      | (d, .ok far) => pass msg fuel src known rest d (combineStates new far)
      | (d, .err e) =>
        if e = .steps then .err .steps
        else do
          let (d, new, ls) ← pass msg fuel src known rest d new
          .ok (d, new, errorLines msg a f e ++ ls)

/-- The loop over passes (util/quick_disassemble.cc:75-88, util/disassemble_more.cc:64-81), `n` of them; the
seeds that are left are given as well. -/
def passes (msg : Err → Str) (fuel : Nat) (src : Source) (known : Addr → Bool) :
    Nat → Disassembler → OMap StatusFlags → Res (Disassembler × OMap StatusFlags × List Str)
  | 0, d, seeds => .ok (d, seeds, [])
  | n + 1, d, seeds => do
      let (d, new, ls) ← pass msg fuel src known seeds d []
      let (d, new, ls') ← passes msg fuel src known n d new
      .ok (d, new, ls ++ ls')

/-- The last part (util/quick_disassemble.cc:89-126, util/disassemble_more.cc:82-118), after `ls` was
printed. -/
def finishListing (msg : Err → Str) (d : Disassembler) (ls : List Str) : Res Outcome :=
  match d.cleanup with
  | .ub u => .ub u
  | .err e => .ok { lines := ls ++ [msg e], status := 1 }
  | .ok d => .ok { lines := ls ++ Print.listing d.disassembly, status := 0 }

/-- An address and a mode on the command line; the address has a `@` in front if it is `indirect`. -/
structure SeedArg where
  indirect : Bool
  number : Nat
  mode : Str
deriving DecidableEq, Repr

/-- Reading one pair of arguments (util/quick_disassemble.cc:49-69): the address and the flags, or what is
printed before the program ends.  `number` is an `unsigned`. -/
def readSeed (msg : Err → Str) (rom : Rom) (arg : SeedArg) : Res (Except Str (Addr × StatusFlags)) :=
  match StatusFlags.fromName arg.mode with
  | none => .ok (.error (arg.mode ++ cs!" does not name a processor mode"))
  | some f => do
    let a ← Address.ofInt arg.number
    if arg.indirect then
      match rom.readWord a with
      | .ub u => .ub u
      | .err e => .ok (.error (msg e))
      | .ok v => do
        let a ← Address.ofInt v
        .ok (.ok (a, f))
    else .ok (.ok (a, f))

/-- The loop over the arguments (util/quick_disassemble.cc:47-71); `emplace` keeps an existing seed. -/
def readSeeds (msg : Err → Str) (rom : Rom) : OMap StatusFlags → List SeedArg → Res (Except Str (OMap StatusFlags))
  | seeds, [] => .ok (.ok seeds)
  | seeds, arg :: rest => do
    match ← readSeed msg rom arg with
    | .error line => .ok (.error line)
    | .ok (a, f) => readSeeds msg rom (seeds.insertKeep a f) rest

/-- `main` of quick_disassemble after the ROM was loaded (util/quick_disassemble.cc:45-126). -/
def disassembleRom (msg : Err → Str) (fuel : Nat) (rom : Rom) (args : List SeedArg) : Res Outcome := do
  match ← readSeeds msg rom [] args with
  | .error line => .ok { lines := [line], status := 1 }
  | .ok seeds =>
    let (d, _, ls) ← passes msg fuel rom.read (fun _ => false) 100 .empty seeds
    finishListing msg d ls

/-- `main` of quick_disassemble (util/quick_disassemble.cc:35-126). -/
def quickDisassemble (msg : Err → Str) (fuel : Nat) (romFile : List UInt8) (args : List SeedArg) : Res Outcome :=
  match RomFile.load romFile with
  | .ub u => .ub u
  | .err e => .ok { lines := [msg e], status := 1 }
  | .ok r => disassembleRom msg fuel r.rom args

/-! ## disassemble_more -/

/-- The source of a disassembler that was given a null pointer: `src_->Read` is undefined. -/
def nullSource : Source := fun _ _ => .ub .nullDeref

/-- `main` of disassemble_more after the ROM was loaded (util/disassemble_more.cc:38-119).  The pointer to the ROM
is moved to the identity test (line 39) and moved again, now null, to the disassembler (line 61). -/
def disassembleMoreRom (msg : Err → Str) (fuel : Nat) (rom : Rom) (files : List (List Str)) : Res Outcome :=
  match (Assembler.assembleFiles fuel files (fun s a bs => (s, rom.identityWrite a bs)) ()).2 with
  | .ub u => .ub u
  | .err e => if e = .steps then .err .steps else .ok { lines := [cs!"Error assembling: " ++ msg e], status := 1 }
  | .ok a => do
    let d := Disassembler.empty.addTargetReturnConventions a.jumpTargetReturnConventions
    let (d, _, ls) ← passes msg fuel nullSource a.contains 100 d a.jumpTargets
    finishListing msg d ls

/-- `main` of disassemble_more (util/disassemble_more.cc:29-119). -/
def disassembleMore (msg : Err → Str) (fuel : Nat) (romFile : List UInt8) (files : List (List Str)) : Res Outcome :=
  match RomFile.load romFile with
  | .ub u => .ub u
  | .err e => .ok { lines := [cs!"Error loading ROM: " ++ msg e], status := 1 }
  | .ok r => disassembleMoreRom msg fuel r.rom files

/-! ## dumb_disassemble -/

/-- `%30s`: blanks in front. -/
def padLeft (n : Nat) (s : Str) : Str := List.replicate (n - s.length) ' ' ++ s

/-- `local_jumps.lower_bound(a)`. -/
def lowerBound {ν : Type} (m : OMap ν) (a : Addr) : Option (Nat × ν) := m.find? fun n => decide (a ≤ n.1)

/-- A branch (util/dumb_disassemble.cc:68-81): what is printed about it and the noted targets. -/
def noteBranch (jumps : OMap ExecutionState) (nextPc : Addr) (i : Instruction) (s : ExecutionState) :
    Res (Str × OMap ExecutionState) :=
  if i.isLocalBranch then do
    let v ← Disassembler.evalUnchecked i.arg1
    let target := Address.addWrapped nextPc v
    let text := cs!" to " ++ addressText target ++
      (match jumps.find target with
      | none => cs!" (new)"
      | some old => cs!" (was " ++ old.flags.toStr ++ cs!")")
    .ok (text, jumps.set target s)
  else .ok ([], jumps)

/-- The last line (util/dumb_disassemble.cc:101-105). -/
def earliest (jumps : OMap ExecutionState) : List Str :=
  match jumps with
  | [] => []
  | (a, s) :: _ => [cs!"Earliest branch target " ++ addressText a ++ cs!" (" ++ s.flags.toStr ++ cs!")."]

/-- The loop of `main` (util/dumb_disassemble.cc:45-106), at most `n` rounds. -/
def dumbLoop (msg : Err → Str) (rom : Rom) : Nat → Addr → ExecutionState → OMap ExecutionState → Res Outcome
  | 0, _, _, _ => .err .steps
  | n + 1, address, state, jumps =>
    let failed : Err → Res Outcome := fun e =>
      .ok { lines := [addressText address ++ cs!" - ERROR: " ++ msg e], status := 1 }
    match rom.read address 4 with
    | .ub u => .ub u
    | .err e => failed e
    | .ok bytes =>
      match decode bytes state.flags with
      | .ub u => .ub u
      | .err e => failed e
      | .ok i =>
        let nextPc := Address.addWrapped address (instructionLength i.mode)
        match i.execute state nullCtx with
        | .ub u => .ub u
        | .err e => failed e
        | .ok state => do
          let (text, jumps) ← noteBranch jumps nextPc i state
          let line := addressText address ++ cs!" - " ++ padLeft 30 i.toStr ++ cs!" ; " ++ state.flags.toStr ++ text
          if i.isExitInstruction then
            match lowerBound jumps nextPc with
            | none => .ok { lines := [line, cs!"End of subroutine."] ++ earliest jumps, status := 0 }
            | some (a, s) =>
              if a > nextPc then
                .ok { lines := [line, cs!"Gap found here.  Nearest local jump target is " ++ addressText a ++
                  cs!" (" ++ s.flags.toStr ++ cs!")."] ++ earliest jumps, status := 0 }
              else do
                let r ← dumbLoop msg rom n nextPc s jumps
                .ok { r with lines := line :: r.lines }
          else do
            let r ← dumbLoop msg rom n nextPc state jumps
            .ok { r with lines := line :: r.lines }

/-- `main` of dumb_disassemble after the ROM was loaded (util/dumb_disassemble.cc:30-107); `start` is an
`unsigned`. -/
def dumbRom (msg : Err → Str) (fuel : Nat) (rom : Rom) (start : Nat) (mode : Str) : Res Outcome :=
  match StatusFlags.fromName mode with
  | none => .ok { lines := [mode ++ cs!" does not name a processor mode"], status := 1 }
  | some f => do
    let a ← Address.ofInt start
    dumbLoop msg rom fuel a (.init f) []

/-- `main` of dumb_disassemble (util/dumb_disassemble.cc:18-107). -/
def dumbDisassemble (msg : Err → Str) (fuel : Nat) (romFile : List UInt8) (start : Nat) (mode : Str) : Res Outcome :=
  match RomFile.load romFile with
  | .ub u => .ub u
  | .err e => .ok { lines := [msg e], status := 1 }
  | .ok r => dumbRom msg fuel r.rom start mode

end Tools

end Nsasm
