import Verif.Spec.Module
import Verif.Spec.Link

/-! # Specification of data split over two directives -/

namespace Nsasm.Spec

/-- The second file is the first with one `.db`, `.dw` or `.dl` directive made into two: the first has the first values and the
labels, the second has the other values. -/
def SplitFile (file file' : List Str) : Prop :=
  ∃ (A B : List Item) (d : Directive) (es es' : List Expr), d.name ∈ [DirectiveName.db, .dw, .dl] ∧ d.list = es ++ es' ∧
    es ≠ [] ∧ es' ≠ [] ∧ FileItems file (A ++ .stmt (.dir d) :: B) ∧
    FileItems file' (A ++ .stmt (.dir { d with list := es }) :: .stmt (.dir { d with list := es' }) :: B)

/-- Some of the writes are made in two parts: the first bytes at the same address, the others right after them, in the same
bank. -/
inductive Parted : Writes → Writes → Prop
  | nil : Parted [] []
  | same (w : Addr × List UInt8) {ws ws' : Writes} : Parted ws ws' → Parted (w :: ws) (w :: ws')
  | parted (a : Addr) (bs bs' : List UInt8) {ws ws' : Writes} : Parted ws ws' →
      Parted ((a, bs ++ bs') :: ws) ((a, bs) :: (wrapped a bs.length, bs') :: ws')

/-- Two assemblers that answer every question the same. -/
structure EqualAnswers (a a' : Assembler) : Prop where
  memory : a'.memory = a.memory
  lookup : Assembler.lookup a'.modules a'.names = Assembler.lookup a.modules a.names
  jumpTargets : a'.jumpTargets = a.jumpTargets
  conventions : a'.jumpTargetReturnConventions = a.jumpTargetReturnConventions
  names : ∀ x, a'.nameForAddress x = a.nameForAddress x

end Nsasm.Spec
