import Verif.Model.Rom

/-! # ROM files (nsasm/rom.cc: LoadRomFile, RomOverwriter::CreateFile) -/

namespace Nsasm

/-- What `LoadRomFile` returns (nsasm/rom.h:32-56): the copier header, empty if there is none, and
the image with its mapping mode. -/
structure RomFile where
  header : List UInt8
  rom : Rom
deriving Repr

namespace RomFile

/-- `CheckSnesHeader` (nsasm/rom.cc:80-84) on the 48 bytes from `start` on: the checksum and its
complement.  The vector indexes are in range for every vector it is called with. -/
def checkSnesHeader (data : List UInt8) (start : Nat) : Bool :=
  let header := (data.drop start).take 0x30
  (header.getD 0x2c 0) ^^^ (header.getD 0x2e 0) == 0xff &&
    (header.getD 0x2d 0) ^^^ (header.getD 0x2f 0) == 0xff

/-- `LoadRomFile` (nsasm/rom.cc:88-148) on the contents of a file.  Simplified (not in `Disk`): the file can be opened
and read, and is shorter than 2^31 bytes, which is when `int file_size` holds its length.  `&data[0]` of an
empty vector (line 127) is undefined. -/
def load (file : List UInt8) : Res RomFile :=
  let size := file.length
  if size = 0 then .err .other
  else if size % 0x1000 ≠ 0 ∧ size % 0x1000 ≠ 0x200 then .err .other
  else
    let header := if size % 0x1000 = 0x200 then file.take 0x200 else []
    let data := if size % 0x1000 = 0x200 then file.drop 0x200 else file
    if data = [] then .ub .emptyAccess
    else if data.length < 0x10000 then .err .other
    else
      let lorom := checkSnesHeader data 0x7fb0
      let hirom := checkSnesHeader data 0xffb0
      if lorom = hirom then .err .other
      else if lorom then .ok ⟨header, ⟨.loRom, data⟩⟩
      else if data.length < 0x400000 then .ok ⟨header, ⟨.hiRom, data⟩⟩
      else .ok ⟨header, ⟨.exHiRom, data⟩⟩

/-- `RomOverwriter::CreateFile` (nsasm/rom.cc:187-207): what is written to the file, for the buffer
`data_` of the overwriter.  Simplified (not in `Disk`): no write to the disk fails. -/
def contents (f : RomFile) (data : List UInt8) : List UInt8 :=
  (if f.header ≠ [] then f.header.take 0x200 else []) ++ data

end RomFile

end Nsasm
