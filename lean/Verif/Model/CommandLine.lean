import Verif.Model.Disk
import Verif.Model.Tools
import Verif.Model.Dump

/-! # The command line tools from the words of the command line on (util/*.cc)

`argv` is the name of the program and the words after it.  The lines printed are modelled, but not whether the last one ends with
a newline (it does not at util/quick_assemble.cc:15 and util/disassemble_more.cc:44). -/

namespace Nsasm

namespace CommandLine

open Disk Tools

/-! ## `sscanf` -/

/-- What `sscanf(s, "%x", &v)` or `sscanf(s, "%d", &v)` does (ISO C, 7.21.6.2): it sets `v` and returns 1; there is no number and
it returns 0; there are only blanks and it returns -1; or the number does not fit, which is undefined. -/
inductive Scan (α : Type) where
  | number (v : α)
  | mismatch
  | exhausted
  | misfit
deriving DecidableEq, Repr

/-- An optional sign: whether it is a minus, and the rest. -/
def scanSign : Str → Bool × Str
  | '-' :: s => (true, s)
  | '+' :: s => (false, s)
  | s => (false, s)

/-- An optional `0x` or `0X`. -/
def dropPrefix : Str → Str
  | '0' :: 'x' :: s => s
  | '0' :: 'X' :: s => s
  | s => s

/-- `sscanf(s, "%x", &v)` with an `unsigned`.  `0x` without a digit after it is no number (some libraries take it for 0). -/
def scanHex (s : Str) : Scan Nat :=
  match stripLeading s with
  | [] => .exhausted
  | c :: s =>
    let (minus, s) := scanSign (c :: s)
    let digits := (dropPrefix s).takeWhile isHexDigit
    let v := numberValue 16 digits
    if digits = [] then .mismatch
    else if v > 0xffffffff ∨ (minus = true ∧ v ≠ 0) then .misfit
    else .number v

/-- `sscanf(s, "%d", &v)` with an `int`. -/
def scanInt (s : Str) : Scan Int :=
  match stripLeading s with
  | [] => .exhausted
  | c :: s =>
    let (minus, s) := scanSign (c :: s)
    let digits := s.takeWhile isDecimalDigit
    let v : Int := if minus then -(numberValue 10 digits : Int) else numberValue 10 digits
    if digits = [] then .mismatch
    else if v > 0x7fffffff ∨ v < -0x80000000 then .misfit
    else .number v

/-- The variable after the test `!sscanf(..)` did not lead to the usage message: when nothing was converted, it is as it was, and
that is undefined if it was never set (`init` is `none`). -/
def afterScan {α : Type} (init : Option α) : Scan α → Res (Option α)
  | .number v => .ok (some v)
  | .mismatch => .ok none
  | .exhausted => (match init with | some v => .ok (some v) | none => .ub .nullDeref)
  | .misfit => .ub .overflow

/-! ## Usage messages -/

/-- util/quick_assemble.cc:8-16. -/
def usageAssemble (prog : Str) : List Str :=
  [cs!"Usage: " ++ prog ++ cs!" <path-to-rom-file> <path-to-output> {<path-to-asm-file> ...}", [],
   cs!"Assembles one or more ASM files, or returns an error message.",
   cs!"If path-to-output is `-`, instead check that the asm files make no ", cs!"changes to the ROM being overwritten."]

/-- util/quick_disassemble.cc:13-20. -/
def usageDisassemble (prog : Str) : List Str :=
  [cs!"Usage: " ++ prog ++ cs!" <path-to-rom> ([@]<snes-hex-address> <mode name>)+", [],
   cs!"Disassembles some code starting at the named offset.",
   cs!"If the offset begins with @, dereference the 16-bit address at this location."]

/-- util/disassemble_more.cc:6-14. -/
def usageMore (prog : Str) : List Str :=
  [cs!"Usage: " ++ prog ++ cs!" <path-to-rom-file> {<path-to-asm-file> ...}", [],
   cs!"Assemble the provided .asm files, and validate that their output", cs!"matches the contents of hte provided ROM.", [],
   cs!"On success, start disassembling at all remote jump targets found", cs!"in the provided .asm file."]

/-- util/dumb_disassemble.cc:8-16. -/
def usageDumb (prog : Str) : List Str :=
  [cs!"Usage: " ++ prog ++ cs!" <path-to-rom> <address> <mode name>", [],
   cs!"Dumbly disassemble instructions starting at the given address, but does",
   cs!"not follow branches or create labels.  Halts when either an error", cs!"occurs, or an exit instruction is reached."]

/-- util/quick_dump.cc:5-13. -/
def usageDump (prog : Str) : List Str :=
  [cs!"Usage: " ++ prog ++ cs!" <path-to-rom> <snes-hex-address> <count> [stride] [per-line]", [],
   cs!"Emits a literal dump of the memory at the given ROM location.",
   cs!"Makes the given number of entries.  Stride may be 1, 2, or 3, to ", cs!"select .db, .dw, or .dl."]

/-- `argv[0]`; it is there whenever a program is started by a shell. -/
def program (argv : List Str) : Str := argv.headD []

/-- The tool prints a line and ends with status 1. -/
def fails (line : Str) : Res Outcome := .ok { lines := [line], status := 1 }

/-! ## Assembling -/

/-- The loop that opens the source files (util/quick_assemble.cc:44-51, util/disassemble_more.cc:41-48): the files, or the error
of the first one that cannot be read. -/
def openSources : List Str → World → World × Res (List (List Str))
  | [], w => (w, .ok [])
  | path :: paths, w =>
    match openSource path w with
    | (w, .ub u) => (w, .ub u)
    | (w, .err e) => (w, .err e)
    | (w, .ok file) =>
      match openSources paths w with
      | (w, .ok files) => (w, .ok (file :: files))
      | (w, .err e) => (w, .err e)
      | (w, .ub u) => (w, .ub u)

/-- The end of `main` of quick_assemble when it writes a file (util/quick_assemble.cc:53-57, 66-70).  When the file cannot be
written, this is printed, but the status is 0. -/
def assembleToFile (msg : Err → Str) (fuel : Nat) (r : RomFile) (path : Str) (files : List (List Str)) (buffer : List UInt8)
    (w : World) : World × Res Outcome :=
  match Assembler.assembleFiles fuel files (Rom.overwriterWrite r.rom.mapping) buffer with
  | (_, .ub u) => (w, .ub u)
  | (_, .err e) => (w, if e = .steps then .err .steps else fails (cs!"Error assembling: " ++ msg e))
  | (buffer, .ok _) =>
    match createFile path r.header buffer w with
    | (w, .ub u) => (w, .ub u)
    | (w, .ok ()) => (w, .ok { lines := [], status := 0 })
    | (w, .err e) => (w, .ok { lines := [cs!"Error writing file: " ++ msg e], status := 0 })

/-- `main` of quick_assemble after the ROM was loaded (util/quick_assemble.cc:29-72). -/
def assembleLoaded (msg : Err → Str) (fuel : Nat) (r : RomFile) (path : Str) (sources : List Str) (w : World) :
    World × Res Outcome :=
  if isAsmPath path then (w, fails (cs!"Error: " ++ path ++ cs!" given as output path"))
  else if path = cs!"-" then
    match openSources sources w with
    | (w, .ub u) => (w, .ub u)
    | (w, .err e) => (w, fails (cs!"Error loading file: " ++ msg e))
    | (w, .ok files) => (w, reportAssembling msg (fun a => { lines := targetLines a.jumpTargets, status := 0 })
        (Assembler.assembleFiles fuel files (fun s a bs => (s, r.rom.identityWrite a bs)) ()).2)
  else match r.rom.overwriterInit with
    | .ub u => (w, .ub u)
    | .err e => (w, .err e)
    | .ok buffer =>
      match openSources sources w with
      | (w, .ub u) => (w, .ub u)
      | (w, .err e) => (w, fails (cs!"Error loading file: " ++ msg e))
      | (w, .ok files) => assembleToFile msg fuel r path files buffer w

/-- `main` of quick_assemble (util/quick_assemble.cc:18-72). -/
def quickAssemble (msg : Err → Str) (fuel : Nat) (argv : List Str) (w : World) : World × Res Outcome :=
  match argv with
  | _ :: rom :: path :: source :: sources =>
    (match loadRomFile rom w with
    | (w, .ub u) => (w, .ub u)
    | (w, .err e) => (w, fails (cs!"Error loading ROM: " ++ msg e))
    | (w, .ok r) => assembleLoaded msg fuel r path (source :: sources) w)
  | argv => (w, .ok { lines := usageAssemble (program argv), status := 0 })

/-- `main` of disassemble_more (util/disassemble_more.cc:29-119). -/
def disassembleMore (msg : Err → Str) (fuel : Nat) (argv : List Str) (w : World) : World × Res Outcome :=
  match argv with
  | _ :: rom :: source :: sources =>
    (match loadRomFile rom w with
    | (w, .ub u) => (w, .ub u)
    | (w, .err e) => (w, fails (cs!"Error loading ROM: " ++ msg e))
    | (w, .ok r) =>
      match openSources (source :: sources) w with
      | (w, .ub u) => (w, .ub u)
      | (w, .err e) => (w, fails (cs!"Error loading file: " ++ msg e))
      | (w, .ok files) => (w, disassembleMoreRom msg fuel r.rom files))
  | argv => (w, .ok { lines := usageMore (program argv), status := 0 })

/-! ## Disassembling -/

/-- Reading one pair of words (util/quick_disassemble.cc:48-69): the address and the flags, or what is printed before the program
ends. -/
def readPair (msg : Err → Str) (prog : Str) (rom : Rom) (address mode : Str) : Res (Except (List Str) (Addr × StatusFlags)) :=
  match StatusFlags.fromName mode with
  | none => .ok (.error [mode ++ cs!" does not name a processor mode"])
  | some _ => do
    let indirect := address.head? = some '@'
    match ← afterScan none (scanHex (if indirect then address.tail else address)) with
    | none => .ok (.error (usageDisassemble prog))
    | some v =>
      match ← readSeed msg rom ⟨indirect, v, mode⟩ with
      | .error line => .ok (.error [line])
      | .ok seed => .ok (.ok seed)

/-- The loop over the words (util/quick_disassemble.cc:46-71).  A last word without a partner is not looked at. -/
def readPairs (msg : Err → Str) (prog : Str) (rom : Rom) :
    OMap StatusFlags → List Str → Res (Except (List Str) (OMap StatusFlags))
  | seeds, address :: mode :: rest => do
    match ← readPair msg prog rom address mode with
    | .error lines => .ok (.error lines)
    | .ok (a, f) => readPairs msg prog rom (seeds.insertKeep a f) rest
  | seeds, _ => .ok (.ok seeds)

/-- `main` of quick_disassemble (util/quick_disassemble.cc:35-126). -/
def quickDisassemble (msg : Err → Str) (fuel : Nat) (argv : List Str) (w : World) : World × Res Outcome :=
  match argv with
  | prog :: path :: address :: mode :: rest =>
    (match loadRomFile path w with
    | (w, .ub u) => (w, .ub u)
    | (w, .err e) => (w, fails (msg e))
    | (w, .ok r) => (w, do
        match ← readPairs msg prog r.rom [] (address :: mode :: rest) with
        | .error lines => .ok { lines := lines, status := 1 }
        | .ok seeds =>
          let (d, _, ls) ← passes msg fuel r.rom.read (fun _ => false) 100 .empty seeds
          finishListing msg d ls))
  | argv => (w, .ok { lines := usageDisassemble (program argv), status := 0 })

/-- `main` of dumb_disassemble (util/dumb_disassemble.cc:18-107).  The usage message is given the address where the name of the
program should be (line 32).  Words after the mode are not looked at. -/
def dumbDisassemble (msg : Err → Str) (fuel : Nat) (argv : List Str) (w : World) : World × Res Outcome :=
  match argv with
  | _ :: path :: address :: mode :: _ =>
    (match loadRomFile path w with
    | (w, .ub u) => (w, .ub u)
    | (w, .err e) => (w, fails (msg e))
    | (w, .ok r) =>
      match scanHex address with
      | .mismatch => (w, .ok { lines := usageDumb address, status := 1 })
      | .misfit => (w, .ub .overflow)
      | .number v => (w, dumbRom msg fuel r.rom v mode)
      | .exhausted => (w, if StatusFlags.fromName mode = none then dumbRom msg fuel r.rom 0 mode else .ub .nullDeref))
  | argv => (w, .ok { lines := usageDumb (program argv), status := 0 })

/-- An optional word of quick_dump (util/quick_dump.cc:40-47); `default` is the value when it is not there. -/
def optionalInt (default : Int) : Option Str → Res (Option Int)
  | none => .ok (some default)
  | some s => afterScan (some default) (scanInt s)

/-- `main` of quick_dump after the ROM was loaded (util/quick_dump.cc:28-110); `rest` are the words after the count. -/
def dumpLoaded (prog : Str) (rom : Rom) (address count : Str) (rest : List Str) : Res Outcome :=
  let usage : Res Outcome := .ok { lines := usageDump prog, status := 1 }
  match scanHex address with
  | .mismatch => usage
  | .misfit => .ub .overflow
  | start =>
    match scanInt count with
    | .mismatch => usage
    | .misfit => .ub .overflow
    | n => do
      match ← optionalInt 1 rest[0]? with
      | none => usage
      | some stride =>
        match ← optionalInt 8 rest[1]? with
        | none => usage
        | some perLine =>
          match start, n with
          | .number start, .number n => do
              let lines ← Dump.output rom start n stride perLine
              .ok { lines := lines, status := 0 }
          | _, _ => .ub .nullDeref

/-- `main` of quick_dump (util/quick_dump.cc:15-110). -/
def quickDump (msg : Err → Str) (argv : List Str) (w : World) : World × Res Outcome :=
  match argv with
  | prog :: path :: address :: count :: rest =>
    (match loadRomFile path w with
    | (w, .ub u) => (w, .ub u)
    | (w, .err e) => (w, fails (msg e))
    | (w, .ok r) => (w, dumpLoaded prog r.rom address count rest))
  | argv => (w, .ok { lines := usageDump (program argv), status := 0 })

end CommandLine

end Nsasm
