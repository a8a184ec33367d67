import Verif.Model.Instruction

/-! # ROM images (nsasm/rom.h, nsasm/rom.cc) -/

namespace Nsasm

/-- `enum Mapping` (nsasm/rom.h:13-17). -/
inductive Mapping where
  | loRom | hiRom | exHiRom
deriving DecidableEq, Repr

/-- `SnesToROMAddress` (nsasm/rom.cc:9-35).  The operands of every `|` have no
bit in common, except that `result |= 0x400000` may find the bit already set,
which is impossible because `result < 0x400000`; so `|` is `+` here.
`result & 0x800000` is bit 23 of `result`. -/
def snesToRom (address : Addr) (mapping : Mapping) : Res Nat :=
  let bankAddress := Address.bankAddress address
  let bank := Address.bank address
  if bank = 0x7e ∨ bank = 0x7f then .err .unmappedAddress
  else if bankAddress < 0x8000 ∧ (bank < 0x40 ∨ (bank ≥ 0x80 ∧ bank < 0xc0)) then
    .err .unmappedAddress
  else match mapping with
    | .loRom =>
        if bankAddress < 0x8000 then .err .unmappedAddress
        else .ok (bankAddress % 0x8000 + bank % 0x80 * 0x8000)
    | .hiRom => .ok (bankAddress + bank % 0x40 * 0x10000)
    | .exHiRom =>
        let result := bankAddress + bank % 0x40 * 0x10000
        .ok (if result / 0x800000 % 2 = 0 then result + 0x400000 else result)

/-- `class Rom` (nsasm/rom.h:32-56): the mapping mode and the data. -/
structure Rom where
  mapping : Mapping
  data : List UInt8
deriving Repr

namespace Rom

/-- The by-hand loop of `Rom::Read` (nsasm/rom.cc:61-71), from index `i`, `n`
bytes. -/
def readLoop (rom : Rom) (address : Addr) : Nat → Nat → Res (List UInt8)
  | _, 0 => .ok []
  | i, n + 1 => do
      let a ← snesToRom (Address.addWrapped address i) rom.mapping
      match rom.data[a]? with
      | none => .err .pastEndOfRom
      | some b => do
          let rest ← readLoop rom address (i + 1) n
          .ok (b :: rest)

/-- `Rom::Read` (nsasm/rom.cc:37-73). -/
def read (rom : Rom) (address : Addr) (length : Int) : Res (List UInt8) :=
  if length = 0 then .ok []
  else if length < 0 then .err .other
  else do
    let first ← snesToRom address rom.mapping
    let last ← snesToRom (Address.addWrapped address (length - 1)) rom.mapping
    if last > first then
      if last ≥ rom.data.length then .err .pastEndOfRom
      else .ok ((rom.data.drop first).take (last + 1 - first))
    else rom.readLoop address 0 length.toNat

/-- `InputSource::ReadByte` (nsasm/memory.cc:7-11): indexing a short vector is
undefined. -/
def readByte (rom : Rom) (address : Addr) : Res Int := do
  match ← rom.read address 1 with
  | b0 :: _ => .ok b0.toNat
  | _ => .ub .outOfBounds

/-- `InputSource::ReadWord` (nsasm/memory.cc:13-17). -/
def readWord (rom : Rom) (address : Addr) : Res Int := do
  match ← rom.read address 2 with
  | b0 :: b1 :: _ => .ok (b0.toNat + b1.toNat * 256 : Nat)
  | _ => .ub .outOfBounds

/-- `InputSource::ReadLong` (nsasm/memory.cc:19-23). -/
def readLong (rom : Rom) (address : Addr) : Res Int := do
  match ← rom.read address 3 with
  | b0 :: b1 :: b2 :: _ => .ok (b0.toNat + b1.toNat * 256 + b2.toNat * 256 * 256 : Nat)
  | _ => .ub .outOfBounds

/-- The comparison loop of `RomIdentityTest::Write` (nsasm/rom.cc:160-167):
`(*actual)[i]` past the end is undefined; falling out of the loop is the
"comparisons inconsistent" error. -/
def compareLoop : List UInt8 → List UInt8 → Res Unit
  | [], _ => .err .other
  | _ :: _, [] => .ub .outOfBounds
  | d :: ds, a :: as => if d ≠ a then .err .romMismatch else compareLoop ds as

/-- `RomIdentityTest::Write` (nsasm/rom.cc:151-168). -/
def identityWrite (rom : Rom) (address : Addr) (data : List UInt8) : Res Unit := do
  let actual ← rom.read address data.length
  if actual = data then .ok () else compareLoop data actual

/-- `RomOverwriter`'s constructor (nsasm/rom.h:77-78): `data_` is initialised
from `rom->data_`, where `rom` is the parameter that `rom_(std::move(rom))` has
just emptied, so a null pointer is dereferenced. -/
def overwriterInit (_rom : Rom) : Res (List UInt8) := .ub .nullDeref

/-- `RomOverwriter::Write` (nsasm/rom.cc:170-185), from index `i`: the new
buffer and the outcome.  `data_[n]` with `n == data_.size()` is undefined. -/
def overwriteLoop (mapping : Mapping) (address : Addr) :
    Nat → List UInt8 → List UInt8 → List UInt8 × Res Unit
  | _, buf, [] => (buf, .ok ())
  | i, buf, d :: ds =>
      match snesToRom (Address.addWrapped address i) mapping with
      | .err e => (buf, .err e)
      | .ub u => (buf, .ub u)
      | .ok idx =>
          if idx > buf.length then (buf, .err .pastEndOfRom)
          else if idx = buf.length then (buf, .ub .outOfBounds)
          else overwriteLoop mapping address (i + 1) (buf.set idx d) ds

/-- `RomOverwriter::Write` (nsasm/rom.cc:170-185). -/
def overwriterWrite (mapping : Mapping) (buf : List UInt8) (address : Addr)
    (data : List UInt8) : List UInt8 × Res Unit :=
  overwriteLoop mapping address 0 buf data

end Rom

end Nsasm
