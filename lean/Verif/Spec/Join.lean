import Verif.Spec.Separate

/-!
# Putting one file after another

Conditions on source files, in terms of the labels and statements written in them.
-/

namespace Nsasm.Spec

/-- The file does not name its module. -/
def Unnamed (file : List Str) : Prop :=
  ∀ items, FileItems file items → ∀ d : Directive, Item.stmt (.dir d) ∈ items → d.name ≠ .module_

/-- The file does not end with a label that stands before no statement. -/
def EndsInStatement (file : List Str) : Prop :=
  ∀ items, FileItems file items → ∀ l, items.getLast? ≠ some (.label l)

/-- A constant of the file is defined with a name of another file. -/
def ConstantsNeed (file : List Str) (id : FullId) : Prop :=
  ∃ m items, Module.loadAsmFile file = .ok m ∧ FileItems file items ∧ Needs (program [] items) m.name id

/-- The names of other files that the constants of a file are defined with are names of files before it. -/
def ConstantsInOrder (files : List (List Str)) : Prop :=
  ∀ pre f post, files = pre ++ f :: post → ∀ id, ConstantsNeed f id → ∃ g ∈ pre, FileExports g id

end Nsasm.Spec
