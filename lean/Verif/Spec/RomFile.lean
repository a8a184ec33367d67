import Verif.Model.RomFile
import Verif.Spec.Rom

/-! # Specification of ROM files -/

namespace Nsasm.Spec

/-- A file is an image, or an image after a 512-byte header; an image is whole 4 KiB pages. -/
inductive Splits : List UInt8 → List UInt8 → List UInt8 → Prop
  | bare {image : List UInt8} (pages : image.length % 4096 = 0) : Splits image [] image
  | headed {header image : List UInt8} (size : header.length = 512) (pages : image.length % 4096 = 0) :
      Splits (header ++ image) header image

/-- The image has a checksum at `at_ + 2`, and its complement at `at_`. -/
def Checksum (image : List UInt8) (at_ : Nat) : Prop :=
  ∃ c0 c1 s0 s1 : UInt8, image[at_]? = some c0 ∧ image[at_ + 1]? = some c1 ∧ image[at_ + 2]? = some s0 ∧
    image[at_ + 3]? = some s1 ∧ c0.toNat + s0.toNat = 255 ∧ c1.toNat + s1.toNat = 255

/-- The image is of this kind: it has a checksum at $7fdc or at $ffdc, but not both, and of the latter
kind those of 4 MiB and more are extended. -/
def KindOf (image : List UInt8) (mode : Mapping) : Prop :=
  match mode with
  | .loRom => Checksum image 0x7fdc ∧ ¬ Checksum image 0xffdc
  | .hiRom => Checksum image 0xffdc ∧ ¬ Checksum image 0x7fdc ∧ image.length < 4194304
  | .exHiRom => Checksum image 0xffdc ∧ ¬ Checksum image 0x7fdc ∧ 4194304 ≤ image.length

/-- Some address selects this offset of the image, in this mode, and one byte can be read there. -/
def Readable (rom : Rom) (off : Nat) : Prop :=
  ∃ a b, a < 0x1000000 ∧ snesToRom a rom.mapping = .ok off ∧ rom.data[off]? = some b ∧
    rom.read a 1 = .ok [b]

end Nsasm.Spec
