import Verif.Model.File
import Verif.Model.RomFile

/-! # Files on a disk that may fail (nsasm/rom.cc: LoadRomFile, RomOverwriter::CreateFile; nsasm/file.cc: OpenFile)

A call of the C library is answered by the system, well or not.  The answers to all calls to come are part of the state. -/

namespace Nsasm

namespace Disk

/-- How the system answers a call.  A call that transfers bytes and fails has transferred at most `n` of them. -/
inductive Answer where
  | fine
  | fails (n : Nat)
deriving DecidableEq, Repr

/-- The state of the system: what the files contain, the answers to the calls to come (all go well once these are used up), and
how many streams are open. -/
structure World where
  files : Str → Option (List UInt8)
  answers : List Answer
  open_ : Nat

namespace World

/-- The answer to the next call. -/
def ask (w : World) : Answer × World :=
  match w.answers with
  | [] => (.fine, w)
  | a :: as => (a, { w with answers := as })

/-- The file at `path` now contains the bytes. -/
def put (w : World) (path : Str) (bytes : List UInt8) : World :=
  { w with files := fun p => if p = path then some bytes else w.files p }

/-- `fclose` on a stream that was read from; its result is not looked at (nsasm/rom.cc:95, 100, 107, 113, 127). -/
def close (w : World) : World := let w := w.ask.2; { w with open_ := w.open_ - 1 }

/-- `fread` of `n` of the bytes that are left. -/
def read (w : World) (n : Nat) (left : List UInt8) : World × List UInt8 :=
  match w.ask with
  | (.fine, w) => (w, left.take n)
  | (.fails k, w) => (w, (left.take n).take k)

/-- `fwrite` of the bytes to the end of the file: how many were written.  Simplified: they are in the file at once, where they
might still be in a buffer until `fclose`. -/
def write (w : World) (path : Str) (bytes : List UInt8) : World × Nat :=
  let old := (w.files path).getD []
  match w.ask with
  | (.fine, w) => (w.put path (old ++ bytes), bytes.length)
  | (.fails k, w) => (w.put path (old ++ bytes.take k), (bytes.take k).length)

end World

/-- `int file_size = ftell(f)` (nsasm/rom.cc:98): the length is reduced to 32 bits. -/
def toInt (n : Nat) : Int := ((n : Int) + 0x80000000) % 0x100000000 - 0x80000000

/-- `LoadRomFile` after the file was read and closed (nsasm/rom.cc:128-147). -/
def recognise (header data : List UInt8) (size : Int) : Res RomFile :=
  if (data.length : Int) ≠ size ∨ size < 0x10000 then .err .other
  else
    let lorom := RomFile.checkSnesHeader data 0x7fb0
    let hirom := RomFile.checkSnesHeader data 0xffb0
    if lorom = hirom then .err .other
    else if lorom then .ok ⟨header, ⟨.loRom, data⟩⟩
    else if size < 0x400000 then .ok ⟨header, ⟨.hiRom, data⟩⟩
    else .ok ⟨header, ⟨.exHiRom, data⟩⟩

/-- `LoadRomFile` from line 124 on (nsasm/rom.cc:124-147), reading the image.  `&data[0]` of an empty vector is undefined. -/
def loadImage (header left : List UInt8) (size : Int) (w : World) : World × Res RomFile :=
  if size = 0 then (w, .ub .emptyAccess)
  else
    let (w, data) := w.read size.toNat left
    (w.close, recognise header data size)

/-- `LoadRomFile` after the size is known (nsasm/rom.cc:104-147).  When the header cannot be read, the stream is not closed
(line 120). -/
def loadSized (bytes : List UInt8) (size : Int) (w : World) : World × Res RomFile :=
  if size % 0x1000 ≠ 0 ∧ size % 0x1000 ≠ 0x200 then (w.close, .err .other)
  else match w.ask with
    | (.fails _, w) => (w.close, .err .other)
    | (.fine, w) =>
      if size % 0x1000 = 0x200 then
        let (w, header) := w.read 0x200 bytes
        if header.length ≠ 0x200 then (w, .err .other)
        else loadImage header (bytes.drop 0x200) (size - 0x200) w
      else loadImage [] bytes size w

/-- `LoadRomFile` (nsasm/rom.cc:88-148).  `ftell` answers -1 when it fails. -/
def loadRomFile (path : Str) (w : World) : World × Res RomFile :=
  match w.ask with
  | (.fails _, w) => (w, .err .other)
  | (.fine, w) =>
    match w.files path with
    | none => (w, .err .other)
    | some bytes =>
      let w := { w with open_ := w.open_ + 1 }
      match w.ask with
      | (.fails _, w) => (w.close, .err .other)
      | (.fine, w) =>
        match w.ask with
        | (.fails _, w) => (w.close, .err .other)
        | (.fine, w) =>
          let size := toInt bytes.length
          if size ≤ 0 then (w.close, .err .other) else loadSized bytes size w

/-- `RomOverwriter::CreateFile` after the file was opened (nsasm/rom.cc:193-206).  After a failed `fwrite` the stream is not
closed.  A failing `fclose` may leave just the beginning of what was written. -/
def writeFile (path : Str) (header data : List UInt8) (w : World) : World × Res Unit :=
  let (w, written) := if header ≠ [] then w.write path (header.take 0x200) else (w, 0x200)
  if written ≠ 0x200 then (w, .err .other)
  else if data = [] then (w, .ub .emptyAccess)
  else
    let (w, written) := w.write path data
    if written ≠ data.length then (w, .err .other)
    else
      match w.ask with
      | (.fine, w) => ({ w with open_ := w.open_ - 1 }, .ok ())
      | (.fails k, w) =>
        let w := w.put path (((w.files path).getD []).take k)
        ({ w with open_ := w.open_ - 1 }, .err .other)

/-- `RomOverwriter::CreateFile` (nsasm/rom.cc:187-207) for an overwriter with this ROM and buffer.  `fopen(.., "wb")` empties the
file. -/
def createFile (path : Str) (header data : List UInt8) (w : World) : World × Res Unit :=
  match w.ask with
  | (.fails _, w) => (w, .err .other)
  | (.fine, w) =>
    let w := w.put path []
    writeFile path header data { w with open_ := w.open_ + 1 }

/-- Characters stand for bytes. -/
def textOf (bytes : List UInt8) : Str := bytes.map fun b => Char.ofNat b.toNat

/-- `OpenFile` (nsasm/file.cc:8-22).  Reading the whole stream is one call, which sets `badbit` when it fails.  The stream is
closed when the function returns. -/
def openSource (path : Str) (w : World) : World × Res (List Str) :=
  match w.ask with
  | (.fails _, w) => (w, .err .other)
  | (.fine, w) =>
    match w.files path with
    | none => (w, .err .other)
    | some bytes =>
      match w.ask with
      | (.fails _, w) => (w, .err .other)
      | (.fine, w) => (w, .ok (openFile (textOf bytes)))

end Disk

end Nsasm
