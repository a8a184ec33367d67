import Verif.Model.Rom
import Verif.Model.Text

/-! # The ROM dumper (util/quick_dump.cc) -/

namespace Nsasm

namespace Dump

/-- The value printed for an address (util/quick_dump.cc:61-73). -/
def value (rom : Rom) (stride : Nat) (address : Addr) : Res Int :=
  if stride = 2 then rom.readWord address
  else if stride = 3 then rom.readLong address
  else rom.readByte address

/-- The reading loop (util/quick_dump.cc:58-89), for `n` values.  After a failed read the program calls
`error()` of the ROM, which is not an error: `absl::get` of the wrong alternative throws an exception
that nothing catches, here `assertFail`. -/
def values (rom : Rom) (stride : Nat) : Nat → Addr → Res (List Int)
  | 0, _ => .ok []
  | n + 1, address =>
      match value rom stride address with
      | .err _ => .ub .assertFail
      | .ub u => .ub u
      | .ok v => do
          let vs ← values rom stride n (Address.addWrapped address stride)
          .ok (v :: vs)

/-- `$%02x`, `$%04x` or `$%06x` (util/quick_dump.cc:78-88). -/
def valueText (stride : Nat) (v : Int) : Str := '$' :: hexPadded (2 * stride) v.toNat

/-- `absl::StrJoin(.., ", ")` (util/quick_dump.cc:102, 106). -/
def join : List Str → Str
  | [] => []
  | [s] => s
  | s :: ss => s ++ cs!", " ++ join ss

/-- The directive, with the space it ends in (util/quick_dump.cc:91-96). -/
def directive (stride : Nat) : Str :=
  if stride = 2 then cs!".dw " else if stride = 3 then cs!".dl " else cs!".db "

/-- A line of values (util/quick_dump.cc:100-102, 106). -/
def line (stride : Nat) (vs : List Int) : Str :=
  directive stride ++ cs!" " ++ join (vs.map (valueText stride))

/-- The printing loop (util/quick_dump.cc:99-107), at most `n` rounds. -/
def lines (stride perLine : Nat) : Nat → List Int → Res (List Str)
  | 0, _ => .err .steps
  | n + 1, vs =>
      if vs.length > perLine then do
        let rest ← lines stride perLine n (vs.drop perLine)
        .ok (line stride (vs.take perLine) :: rest)
      else if vs ≠ [] then .ok [line stride vs]
      else .ok []

/-- `main` (util/quick_dump.cc:15-110) once the file is loaded and the arguments are read as numbers:
the lines printed.  `start` is an `unsigned`, the others are of type `int`.  `sscanf` is in
`CommandLine`. -/
def output (rom : Rom) (start : Nat) (count stride perLine : Int) : Res (List Str) := do
  let stride := if stride > 3 ∨ stride < 2 then 1 else stride.toNat
  let count := if count < 1 then 1 else count.toNat
  let perLine := if perLine < 1 then 1 else perLine.toNat
  let address ← if start ≤ 0x1000000 then .ok start else .ub .assertFail
  let vs ← values rom stride count address
  let ls ← lines stride perLine (vs.length + 1) vs
  .ok ((cs!".org $" ++ hexPadded 6 start) :: ls)

end Dump

end Nsasm
