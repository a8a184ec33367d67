import Verif.Model.Assembler

/-! # Specification of labels that nothing refers to -/

namespace Nsasm.Spec

/-- The name does not occur in the file. -/
def Absent (name : Str) (file : List Str) : Prop := ∀ line ∈ file, ∀ ts, tokenize line = .ok ts → Token.ident name ∉ ts

/-- The line holds nothing but a label. -/
def LabelLine (label : ParsedLabel) (line : Str) : Prop := ∃ ts, tokenize line = .ok ts ∧ Parse.parse ts = .ok [.label label]

/-- `files'` are `files` with a line added to one of them. -/
def LineAdded (line : Str) (files files' : List (List Str)) : Prop :=
  ∃ pre above below post, files = pre ++ (above ++ below) :: post ∧ files' = pre ++ (above ++ line :: below) :: post

/-- What two assemblers know is the same, but for a name that only the second knows. -/
structure SameBut (name : Str) (a b : Assembler) : Prop where
  memory : b.memory = a.memory
  lookup : ∀ id, id.name ≠ name → Assembler.lookup b.modules b.names id = Assembler.lookup a.modules a.names id
  unknown : ∀ id, id.name = name → ∀ v, Assembler.lookup a.modules a.names id ≠ .ok v
  jumpTargets : b.jumpTargets = a.jumpTargets
  conventions : b.jumpTargetReturnConventions = a.jumpTargetReturnConventions

end Nsasm.Spec
