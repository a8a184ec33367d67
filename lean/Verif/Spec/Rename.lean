import Verif.Model.Assembler
import Mathlib.Data.List.Forall2

/-! # Specification of renaming -/

namespace Nsasm.Spec

/-- A change of words: different words stay different, and the words that `.entry`, `.mode`, `.remote` and `yields` give a
meaning to keep their meaning.  The empty word is none; the model uses it for the module without a name. -/
structure Renaming (r : Str → Str) : Prop where
  injective : ∀ v w, r v = r w → v = w
  empty : r [] = []
  modes : ∀ w, StatusFlags.fromName (r w) = StatusFlags.fromName w

/-- A name in a text is replaced by another; nothing else is. -/
def renameToken (r : Str → Str) : Token → Token
  | .ident w => .ident (r w)
  | t => t

/-- Two lines are the same but for the names in them: the tokens of the one are those of the other renamed, or they have the
same error. -/
def LineRenamed (r : Str → Str) (l l' : Str) : Prop := tokenize l' = (List.map (renameToken r)) <$> tokenize l

/-- Two files are the same but for the names in them. -/
def FileRenamed (r : Str → Str) : List Str → List Str → Prop := List.Forall₂ (LineRenamed r)

/-- A qualified name renamed. -/
def renameId (r : Str → Str) (id : FullId) : FullId := ⟨id.module.map r, r id.name⟩

/-- The answers of two assemblers are the same but for the names. -/
structure AnswersRenamed (r : Str → Str) (a b : Assembler) : Prop where
  memory : b.memory = a.memory
  lookup : ∀ id, Assembler.lookup b.modules b.names (renameId r id) = Assembler.lookup a.modules a.names id
  jumpTargets : b.jumpTargets = a.jumpTargets
  conventions : b.jumpTargetReturnConventions = a.jumpTargetReturnConventions
  names : ∀ x, b.nameForAddress x = (a.nameForAddress x).map (renameId r)

/-- Two outcomes are the same but for the names. -/
inductive OutcomeRenamed (r : Str → Str) : Res Assembler → Res Assembler → Prop
  | ok {a b : Assembler} (same : AnswersRenamed r a b) : OutcomeRenamed r (.ok a) (.ok b)
  | err (e : Err) : OutcomeRenamed r (.err e) (.err e)
  | ub (u : Ub) : OutcomeRenamed r (.ub u) (.ub u)

end Nsasm.Spec
