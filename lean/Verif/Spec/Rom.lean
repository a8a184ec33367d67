import Verif.Model.Rom

/-! # Specification of the SNES cartridge mappings -/

namespace Nsasm.Spec

/-- The address belongs to the console, not to the cartridge: work RAM in banks
$7e-$7f, and the low halves of banks $00-$3f and $80-$bf. -/
def SystemArea (a : Nat) : Prop :=
  (0x7e0000 ≤ a ∧ a ≤ 0x7fffff) ∨
  (a % 0x10000 < 0x8000 ∧ (a < 0x400000 ∨ (0x800000 ≤ a ∧ a < 0xc00000)))

/-- The addresses that select ROM. -/
def Mapped (mode : Mapping) (a : Nat) : Prop :=
  ¬ SystemArea a ∧ (mode = .loRom → 0x8000 ≤ a % 0x10000)

/-- The offset in the image selected by a mapped address.
LoROM: 32 KiB per bank, bank bit 7 ignored.  HiROM: the low 22 bits.
ExHiROM: the low 22 bits, with inverted bit 23 as bit 22. -/
def romOffset (mode : Mapping) (a : Nat) : Nat :=
  match mode with
  | .loRom => a / 0x10000 % 0x80 * 0x8000 + a % 0x8000
  | .hiRom => a % 0x400000
  | .exHiRom => a % 0x400000 + (if a / 0x800000 % 2 = 0 then 0x400000 else 0)

/-- The number of offsets a mode can select. -/
def capacity : Mapping → Nat
  | .loRom => 0x400000
  | .hiRom => 0x400000
  | .exHiRom => 0x800000

/-- Two addresses that the cartridge cannot tell apart. -/
def Mirror (mode : Mapping) (a b : Nat) : Prop :=
  match mode with
  | .loRom => a % 0x10000 = b % 0x10000 ∧ a / 0x10000 % 0x80 = b / 0x10000 % 0x80
  | .hiRom => a % 0x400000 = b % 0x400000
  | .exHiRom => a % 0x400000 = b % 0x400000 ∧ a / 0x800000 = b / 0x800000

/-- The `i`-th byte from `a`, wrapping inside the bank, is `b` in this ROM. -/
def ByteAt (rom : Rom) (a i : Nat) (b : UInt8) : Prop :=
  ∃ off, snesToRom (a / 0x10000 * 0x10000 + (a + i) % 0x10000) rom.mapping = .ok off ∧
    rom.data[off]? = some b

end Nsasm.Spec
