import Verif.Spec.Link
import Verif.Spec.Rom
import Verif.Model.Dump

/-! # Specification of the ROM dumper -/

namespace Nsasm.Spec

/-- The bytes the writes put into memory, in order, each with its address. -/
def stored (ws : Writes) : List (Nat × UInt8) :=
  ws.flatMap fun w => (w.2.zipIdx).map fun b => (wrapped w.1 b.2, b.1)

/-- A sink that checks every write against a ROM. -/
def checker (rom : Rom) : Sink Unit := fun s a bs => (s, rom.identityWrite a bs)

/-- The number of bytes per value that the third argument selects. -/
def bytesPerValue (stride : Int) : Nat := if stride = 2 then 2 else if stride = 3 then 3 else 1

end Nsasm.Spec
