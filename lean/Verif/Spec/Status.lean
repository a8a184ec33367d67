import Verif.Spec.Tools
import Verif.Spec.RomFile
import Verif.Spec.Plain

/-!
# Specification of how the command line tools end
-/

namespace Nsasm.Spec

open Tools

/-- The file is a ROM that can be told. -/
def IsRomFile (file : List UInt8) (r : RomFile) : Prop :=
  Splits file r.header r.rom.data ∧ 65536 ≤ r.rom.data.length ∧ KindOf r.rom.data r.rom.mapping

/-- The run ends with status 1 after it printed just this line, and leaves no file. -/
def FailsWith (out : Outcome) (line : Str) : Prop := out = { lines := [line], status := 1, file := none }

/-- The source files assemble to what the ROM has. -/
def Agree (fuel : Nat) (rom : Rom) (files : List (List Str)) (a : Assembler) : Prop :=
  ∃ ws, Assembles fuel files ws a ∧ InRom rom ws

/-- How quick_assemble ends. -/
inductive AssembleEnds (msg : Err → Str) (fuel : Nat) (file : List UInt8) (path : Str) (files : List (List Str)) :
    Outcome → Prop
  | agree {r : RomFile} {a : Assembler} (loads : IsRomFile file r) (check : path = cs!"-") (agree : Agree fuel r.rom files a)
      {out : Outcome} (status : out.status = 0) (nothing : out.file = none)
      (targets : out.lines = targetLines a.jumpTargets) : AssembleEnds msg fuel file path files out
  | noRom {e : Err} {out : Outcome} (no : ∀ r, ¬ IsRomFile file r) (fails : FailsWith out (cs!"Error loading ROM: " ++ msg e)) :
      AssembleEnds msg fuel file path files out
  | source {r : RomFile} {out : Outcome} (loads : IsRomFile file r) (asm : cs!".asm" <:+ path)
      (fails : FailsWith out (cs!"Error: " ++ path ++ cs!" given as output path")) : AssembleEnds msg fuel file path files out
  | differ {r : RomFile} {e : Err} {out : Outcome} (loads : IsRomFile file r) (check : path = cs!"-")
      (no : ∀ a, ¬ Agree fuel r.rom files a) (fails : FailsWith out (cs!"Error assembling: " ++ msg e)) :
      AssembleEnds msg fuel file path files out

/-- How disassemble_more ends, if it does. -/
inductive MoreEnds (msg : Err → Str) (fuel : Nat) (file : List UInt8) (files : List (List Str)) : Outcome → Prop
  | agree {r : RomFile} {a : Assembler} (loads : IsRomFile file r) (agree : Agree fuel r.rom files a) {out : Outcome}
      (no : a.jumpTargets = []) (status : out.status = 0) (nothing : out.file = none)
      (lines : out.lines = [cs!"; Disassembled no instructions."]) : MoreEnds msg fuel file files out
  | noRom {e : Err} {out : Outcome} (no : ∀ r, ¬ IsRomFile file r) (fails : FailsWith out (cs!"Error loading ROM: " ++ msg e)) :
      MoreEnds msg fuel file files out
  | differ {r : RomFile} {e : Err} {out : Outcome} (loads : IsRomFile file r) (no : ∀ a, ¬ Agree fuel r.rom files a)
      (fails : FailsWith out (cs!"Error assembling: " ++ msg e)) : MoreEnds msg fuel file files out

/-- How quick_disassemble ends: the first argument that asks for nothing makes it fail. -/
inductive DisassembleEnds (msg : Err → Str) (file : List UInt8) (args : List SeedArg) : Outcome → Prop
  | all {r : RomFile} {out : Outcome} (loads : IsRomFile file r) (each : ∀ arg ∈ args, ∃ a f, AsksFor r.rom arg a f)
      (status : out.status = 0) (nothing : out.file = none) : DisassembleEnds msg file args out
  | noRom {e : Err} {out : Outcome} (no : ∀ r, ¬ IsRomFile file r) (fails : FailsWith out (msg e)) :
      DisassembleEnds msg file args out
  | noMode {r : RomFile} {before after : List SeedArg} {arg : SeedArg} {out : Outcome} (loads : IsRomFile file r)
      (split : args = before ++ arg :: after) (each : ∀ arg ∈ before, ∃ a f, AsksFor r.rom arg a f)
      (unknown : StatusFlags.fromName arg.mode = none)
      (fails : FailsWith out (arg.mode ++ cs!" does not name a processor mode")) : DisassembleEnds msg file args out
  | noPointer {r : RomFile} {before after : List SeedArg} {arg : SeedArg} {e : Err} {out : Outcome} (loads : IsRomFile file r)
      (split : args = before ++ arg :: after) (each : ∀ arg ∈ before, ∃ a f, AsksFor r.rom arg a f)
      (indirect : arg.indirect = true) (unreadable : r.rom.readWord arg.number = .err e)
      (fails : FailsWith out (msg e)) : DisassembleEnds msg file args out

/-- How dumb_disassemble ends. -/
inductive PlainEnds (msg : Err → Str) (file : List UInt8) (start : Nat) (mode : Str) : Outcome → Prop
  | listing {r : RomFile} {f : StatusFlags} {out : Outcome} (loads : IsRomFile file r)
      (flags : StatusFlags.fromName mode = some f) (prints : PlainListing msg r.rom start f out.lines out.status)
      (nothing : out.file = none) : PlainEnds msg file start mode out
  | noRom {e : Err} {out : Outcome} (no : ∀ r, ¬ IsRomFile file r) (fails : FailsWith out (msg e)) :
      PlainEnds msg file start mode out
  | noMode {r : RomFile} {out : Outcome} (loads : IsRomFile file r) (unknown : StatusFlags.fromName mode = none)
      (fails : FailsWith out (mode ++ cs!" does not name a processor mode")) : PlainEnds msg file start mode out

end Nsasm.Spec
