import Verif.Spec.Disassemble
import Verif.Spec.Instruction
import Verif.Spec.Syntax
import Verif.Model.Print

/-!
# Specification of the printed listing

The command line tools print what the disassembler lists as an assembly file.  Here is what that file
should say to the assembler, as the items that its parser gives: labels and statements.
-/

namespace Nsasm.Spec

/-- `i0` is how the assembler reads the listed instruction `i`: the same mnemonic, suffix, operands and
return convention, and an addressing mode that becomes the listed one under all flags that agree with
the listed size of the operand. -/
def ReadBack (i i0 : Instruction) : Prop :=
  i0 = { asWritten i with mode := i0.mode } ∧
  ∀ f, SizeAgrees i.mnemonic i.mode f → i0.fixAddressingMode f = .ok (asWritten i)

/-- The directive `.org a`. -/
def orgStatement (a : Addr) : Statement := .dir ⟨.org, .lit a .long, .default, .default, []⟩

/-- The directive `.entry` with the flags `f`. -/
def entryStatement (f : StatusFlags) : Statement := .dir ⟨.entry, .null, f, .default, []⟩

/-- Where an entry does not follow the one before, there is its origin. -/
def originItems (pc a : Addr) : List Item := if a = pc then [] else [.stmt (orgStatement a)]

/-- The label of an entry. -/
def labelItems (l : Str) : List Item := if l = [] then [] else [.label ⟨l, false⟩]

/-- An entry point is declared with the flags that have the name of the recorded ones. -/
def EntryItems (it : DisItem) (es : List Item) : Prop :=
  (it.isEntry = false ∧ es = []) ∨
  (it.isEntry = true ∧ ∃ f, StatusFlags.fromName it.current.flags.toName = some f ∧ es = [.stmt (entryStatement f)])

/-- The file says what the entries of the listing say, each at its address; `pc` is where the statement
before ended. -/
inductive ListingItems : Addr → OMap DisItem → List Item → Prop
  | nil {pc : Addr} : ListingItems pc [] []
  | cons {pc a : Addr} {it : DisItem} {rest : OMap DisItem} {i0 : Instruction} {es items : List Item}
      (entry : EntryItems it es) (read : ReadBack it.instruction i0)
      (after : ListingItems (Address.addWrapped a it.instruction.serializedSize) rest items) :
      ListingItems pc ((a, it) :: rest)
        (originItems pc a ++ (labelItems it.label ++ (es ++ .stmt (.instr i0) :: items)))

/-- What the whole file says: it begins with the origin of the first entry. -/
def ListingFile (m : OMap DisItem) (items : List Item) : Prop :=
  match m with
  | [] => items = []
  | (a, it) :: rest => ∃ is, ListingItems a ((a, it) :: rest) is ∧ items = .stmt (orgStatement a) :: is

end Nsasm.Spec
