import Verif.Spec.Module
import Verif.Spec.Split

/-! # Specification of programs in which the names stand for the same -/

namespace Nsasm.Spec

/-- Two names stand for the same, the first in statement `k` of `P` and the second in statement `k` of `P'`: for the same
statement, or neither for a statement of its program and they are one name, or they are one name with the name of a module. -/
inductive SameThing (P P' : Program) (k : Nat) : FullId → FullId → Prop
  | own {n n' : Str} {t : Nat} : Resolves P k n t → Resolves P' k n' t → SameThing P P' k ⟨none, n⟩ ⟨none, n'⟩
  | foreign {n : Str} : (∀ t, ¬ Resolves P k n t) → (∀ t, ¬ Resolves P' k n t) → SameThing P P' k ⟨none, n⟩ ⟨none, n⟩
  | qualified (m n : Str) : SameThing P P' k ⟨some m, n⟩ ⟨some m, n⟩

/-- Two expressions that are the same but for their names, and those are related. -/
inductive AlikeExpr (R : FullId → FullId → Prop) : Expr → Expr → Prop
  | nothing : AlikeExpr R .null .null
  | number (v : Int) (t : NumericType) : AlikeExpr R (.lit v t) (.lit v t)
  | name {id id' : FullId} (t : NumericType) : R id id' → AlikeExpr R (.ident id t) (.ident id' t)
  | binary (op : BinOp) {a b a' b' : Expr} : AlikeExpr R a a' → AlikeExpr R b b' → AlikeExpr R (.bin op a b) (.bin op a' b')
  | unary (op : UnOp) {a a' : Expr} : AlikeExpr R a a' → AlikeExpr R (.un op a) (.un op a')
  | label (n : Str) {a a' : Expr} : AlikeExpr R a a' → AlikeExpr R (.label n a) (.label n a')

/-- Two statements that are the same but for their names, and those are related.  The name that `.module` gives to the module is
the same. -/
inductive AlikeStatement (R : FullId → FullId → Prop) : Statement → Statement → Prop
  | instr {i : Instruction} {e f : Expr} : AlikeExpr R i.arg1 e → AlikeExpr R i.arg2 f →
      AlikeStatement R (.instr i) (.instr { i with arg1 := e, arg2 := f })
  | dir {d : Directive} {e : Expr} {es : List Expr} : d.name ≠ .module_ → AlikeExpr R d.argument e →
      List.Forall₂ (AlikeExpr R) d.list es → AlikeStatement R (.dir d) (.dir { d with argument := e, list := es })
  | module_ {d : Directive} : d.name = .module_ → AlikeStatement R (.dir d) (.dir d)

open Classical in
/-- The labels of statement `k` that can be seen in the whole module. -/
noncomputable def wideLabels (P : Program) (k : Nat) (line : ProgLine) : List ParsedLabel :=
  line.labels.filter fun l => InScope P l k none

/-- Two programs that are the same but for names that are not seen in the whole module, and in which all names stand for the
same. -/
structure SameBindings (P P' : Program) : Prop where
  length : P'.length = P.length
  statement : ∀ k line line', P[k]? = some line → P'[k]? = some line' →
    AlikeStatement (SameThing P P' k) line.statement line'.statement
  wide : ∀ k line line', P[k]? = some line → P'[k]? = some line' →
    (wideLabels P' k line').map (·.name) = (wideLabels P k line).map (·.name)

/-- Two files that are the same, or both are well-formed and differ only in names that stand for the same. -/
def SameFile (file file' : List Str) : Prop :=
  file' = file ∨ ∃ items items', FileItems file items ∧ FileItems file' items' ∧
    (∃ m, Module.loadAsmFile file = .ok m) ∧ (∃ m, Module.loadAsmFile file' = .ok m) ∧
    SameBindings (program [] items) (program [] items')

/-- Two outcomes that are the same to a user. -/
inductive SameOutcome : Res Assembler → Res Assembler → Prop
  | ok {a b : Assembler} (same : EqualAnswers a b) : SameOutcome (.ok a) (.ok b)
  | err (e : Err) : SameOutcome (.err e) (.err e)
  | ub (u : Ub) : SameOutcome (.ub u) (.ub u)

/-! ## Names of a block -/

/-- A name of its own is given another. -/
def renameOwn (v w : Str) (id : FullId) : FullId := if id = ⟨none, v⟩ then ⟨none, w⟩ else id

def renameExpr (v w : Str) : Expr → Expr
  | .null => .null
  | .lit n t => .lit n t
  | .ident id t => .ident (renameOwn v w id) t
  | .bin op a b => .bin op (renameExpr v w a) (renameExpr v w b)
  | .un op a => .un op (renameExpr v w a)
  | .label n a => .label n (renameExpr v w a)

/-- The name is replaced wherever it is used in a statement. -/
def renameStatement (v w : Str) : Statement → Statement
  | .instr i => .instr { i with arg1 := renameExpr v w i.arg1, arg2 := renameExpr v w i.arg2 }
  | .dir d => if d.name = .module_ then .dir d
      else .dir { d with argument := renameExpr v w d.argument, list := d.list.map (renameExpr v w) }

/-- The name is replaced in a label, unless the label is exported. -/
def renameLabel (v w : Str) (l : ParsedLabel) : ParsedLabel :=
  if l.exported = false ∧ l.name = v then { l with name := w } else l

/-- The name is replaced in a statement and in its labels. -/
def renameLine (v w : Str) (l : ProgLine) : ProgLine := ⟨l.labels.map (renameLabel v w), renameStatement v w l.statement⟩

/-- The names in an expression. -/
def namesIn : Expr → List FullId
  | .null => []
  | .lit _ _ => []
  | .ident id _ => [id]
  | .bin _ a b => namesIn a ++ namesIn b
  | .un _ a => namesIn a
  | .label _ a => namesIn a

/-- The names a statement uses; that of the module is not one of them. -/
def usedNames : Statement → List FullId
  | .instr i => namesIn i.arg1 ++ namesIn i.arg2
  | .dir d => if d.name = .module_ then [] else namesIn d.argument ++ d.list.flatMap namesIn

/-- The word is the name of a label of the statement, or the statement uses it as a name without a module. -/
def Mentioned (w : Str) (l : ProgLine) : Prop := (∃ x ∈ l.labels, x.name = w) ∨ (⟨none, w⟩ : FullId) ∈ usedNames l.statement

/-- `P'` is `P` with the name `v`, which a label in the block that begins with statement `s` gives, replaced by `w` in the whole
block.  `w` does not occur in the block. -/
structure RenamedInBlock (P : Program) (s : Nat) (v w : Str) (P' : Program) : Prop where
  declared : ∃ t, Defines P (some s) v t
  unused : ∀ k line, Encloses P s k → P[k]? = some line → ¬ Mentioned w line
  length : P'.length = P.length
  inside : ∀ k line, Encloses P s k → P[k]? = some line → P'[k]? = some (renameLine v w line)
  outside : ∀ k line, ¬ Encloses P s k → P[k]? = some line → P'[k]? = some line

/-- The second file is the first with a name of a block replaced in it. -/
def BlockRenamed (file file' : List Str) : Prop :=
  ∃ items items' s v w, FileItems file items ∧ FileItems file' items' ∧ RenamedInBlock (program [] items) s v w (program [] items')

end Nsasm.Spec
