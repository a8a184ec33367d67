import Verif.Model.Disassemble
import Verif.Model.Text

/-! # The printed listing (util/quick_disassemble.cc, util/disassemble_more.cc) -/

namespace Nsasm

/-- `Address::ToString` (nsasm/address.h:32). -/
def addressText (a : Addr) : Str := '$' :: hexPadded 6 a

namespace Print

/-- `%-<n>s`: the text with blanks up to `n` characters, and longer text as it is. -/
def padTo (n : Nat) (s : Str) : Str := s ++ List.replicate (n - s.length) ' '

/-- `"         .org %s\n"` (util/quick_disassemble.cc:101, 104). -/
def orgLine (a : Addr) : Str := cs!"         .org " ++ addressText a

/-- A label with its colon (util/quick_disassemble.cc:107-112). -/
def labelText (l : Str) : Str := if l = [] then [] else l ++ cs!":"

/-- `"%-8s .entry %s\n"` (util/quick_disassemble.cc:114-115). -/
def entryLine (it : DisItem) : Str :=
  padTo 8 (labelText it.label) ++ cs!" .entry " ++ it.current.flags.toStr

/-- The label in front of the instruction, which an entry point has already had
(util/quick_disassemble.cc:113-117). -/
def lineLabel (it : DisItem) : Str := if it.isEntry then [] else labelText it.label

/-- `"%-35s ; %s %s\n"` of `"%-8s %s"` (util/quick_disassemble.cc:118-121). -/
def codeLine (pc : Addr) (it : DisItem) : Str :=
  padTo 35 (padTo 8 (lineLabel it) ++ cs!" " ++ it.instruction.toStr) ++ cs!" ; " ++ addressText pc ++ cs!" " ++
    it.next.flags.toStr

/-- The lines of one entry (util/quick_disassemble.cc:103-121); `pc` is where the last one ended. -/
def itemLines (pc a : Addr) (it : DisItem) : List Str :=
  (if a ≠ pc then [orgLine a] else []) ++ (if it.isEntry then [entryLine it] else []) ++ [codeLine a it]

/-- The loop (util/quick_disassemble.cc:102-124). -/
def body : Addr → OMap DisItem → List Str
  | _, [] => []
  | pc, (a, it) :: rest => itemLines pc a it ++ body (Address.addWrapped a it.instruction.serializedSize) rest

/-- The listing (util/quick_disassemble.cc:95-126; util/disassemble_more.cc:88-118 is the same text). -/
def listing (m : OMap DisItem) : List Str :=
  match m with
  | [] => [cs!"; Disassembled no instructions."]
  | (a, _) :: _ =>
      (cs!"; Disassembled " ++ decimal m.length ++ cs!" instructions.") :: orgLine a :: body a m

end Print

end Nsasm
