import Verif.Model.CommandLine
import Verif.Spec.Status
import Verif.Spec.Lex
import Mathlib.Data.List.Forall2

/-! # Specification of reading and writing files, and of the words of a command line -/

namespace Nsasm.Spec

open Disk Tools

/-- No call to come fails. -/
def Sound (w : World) : Prop := ∀ a ∈ w.answers, a = .fine

/-- The same files on a disk that does not fail. -/
def mended (w : World) : World := { w with answers := [] }

/-- The lines of a source file with these bytes. -/
def sourceLines (bytes : List UInt8) : List Str := openFile (bytes.map fun b => Char.ofNat b.toNat)

/-- The source files at these paths have these lines. -/
def Sources (w : World) : List Str → List (List Str) → Prop :=
  List.Forall₂ fun path lines => ∃ bytes, w.files path = some bytes ∧ lines = sourceLines bytes

/-- A word that is a hexadecimal number, with or without `0x`. -/
inductive HexWord : Str → Nat → Prop
  | plain {ds : Str} {v : Nat} : Digits 16 ds v → HexWord ds v
  | small {ds : Str} {v : Nat} : Digits 16 ds v → HexWord ('0' :: 'x' :: ds) v
  | capital {ds : Str} {v : Nat} : Digits 16 ds v → HexWord ('0' :: 'X' :: ds) v

/-- A word that is a decimal number, with or without a sign. -/
inductive IntWord : Str → Int → Prop
  | plain {ds : Str} {v : Nat} : Digits 10 ds v → IntWord ds v
  | plus {ds : Str} {v : Nat} : Digits 10 ds v → IntWord ('+' :: ds) v
  | minus {ds : Str} {v : Nat} : Digits 10 ds v → IntWord ('-' :: ds) (-v)

/-- The words after the ROM on the command line of quick_disassemble, and what they ask for. -/
inductive SeedWords : List Str → List SeedArg → Prop
  | nil : SeedWords [] []
  | direct {s mode : Str} {v : Nat} {words : List Str} {args : List SeedArg} : HexWord s v → v < 0x100000000 →
      SeedWords words args → SeedWords (s :: mode :: words) (⟨false, v, mode⟩ :: args)
  | indirect {s mode : Str} {v : Nat} {words : List Str} {args : List SeedArg} : HexWord s v → v < 0x100000000 →
      SeedWords words args → SeedWords (('@' :: s) :: mode :: words) (⟨true, v, mode⟩ :: args)

/-- A word of quick_dump that may be left out. -/
inductive OptionalWord (default : Int) : Option Str → Int → Prop
  | absent : OptionalWord default none default
  | present {s : Str} {v : Int} : IntWord s v → -0x80000000 ≤ v → v ≤ 0x7fffffff → OptionalWord default (some s) v

/-- What a tool does with a command line, on a disk. -/
abbrev Tool : Type := List Str → World → World × Res Outcome

/-- The five tools. -/
inductive IsTool (msg : Err → Str) (fuel : Nat) : Tool → Prop
  | quickAssemble : IsTool msg fuel (CommandLine.quickAssemble msg fuel)
  | disassembleMore : IsTool msg fuel (CommandLine.disassembleMore msg fuel)
  | quickDisassemble : IsTool msg fuel (CommandLine.quickDisassemble msg fuel)
  | dumbDisassemble : IsTool msg fuel (CommandLine.dumbDisassemble msg fuel)
  | quickDump : IsTool msg fuel (CommandLine.quickDump msg)

end Nsasm.Spec
