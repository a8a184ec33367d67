import Verif.Spec.Tools
import Verif.Spec.RomFile

/-!
# Specification of images into which a program was assembled
-/

namespace Nsasm.Spec

/-- The overwriting sink for a cartridge of this kind; its state is the image. -/
def patcher (mode : Mapping) : Sink (List UInt8) := Rom.overwriterWrite mode

/-- Every byte has a place in an image of this size. -/
def FitsInto (mode : Mapping) (size : Nat) (bytes : List (Nat × UInt8)) : Prop :=
  ∀ x b, (x, b) ∈ bytes → ∃ off < size, snesToRom x mode = .ok off

/-- The second image is the first with these bytes put into it, one after the other: where none of them goes it has the
bytes of the first, and elsewhere the last byte that goes there. -/
structure Patched (mode : Mapping) (bytes : List (Nat × UInt8)) (before after : List UInt8) : Prop where
  size : after.length = before.length
  kept : ∀ off, (∀ x b, (x, b) ∈ bytes → snesToRom x mode ≠ .ok off) → after[off]? = before[off]?
  last : ∀ former x b later off, bytes = former ++ (x, b) :: later → snesToRom x mode = .ok off →
    (∀ y c, (y, c) ∈ later → snesToRom y mode ≠ .ok off) → after[off]? = some b

/-- Bytes that have the same place in the image are the same. -/
def SharedAgree (mode : Mapping) (bytes : List (Nat × UInt8)) : Prop :=
  ∀ x b y c off, (x, b) ∈ bytes → (y, c) ∈ bytes → snesToRom x mode = .ok off → snesToRom y mode = .ok off → b = c

/-- None of the bytes goes to one of the two places where a checksum is looked for. -/
def ClearOfChecksums (mode : Mapping) (bytes : List (Nat × UInt8)) : Prop :=
  ∀ x b off, (x, b) ∈ bytes → snesToRom x mode = .ok off →
    ¬ (0x7fdc ≤ off ∧ off < 0x7fe0) ∧ ¬ (0xffdc ≤ off ∧ off < 0xffe0)

end Nsasm.Spec
