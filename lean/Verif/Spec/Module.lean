import Verif.Model.Parse
import Mathlib.Data.List.Forall2

/-!
# Specification of programs, scopes and names

A program is a list of statements, each with the labels written before it.  Scopes are
described by counting `.begin` and `.end`, without a stack.
-/

namespace Nsasm.Spec

/-- A statement with the labels that stand before it. -/
structure ProgLine where
  labels : List ParsedLabel
  statement : Statement
deriving DecidableEq

abbrev Program := List ProgLine

/-- The program written by a sequence of labels and statements: a label belongs to the
next statement, wherever that is; labels after the last statement belong to none.  `ls`
are the labels waiting for a statement. -/
def program (ls : List ParsedLabel) : List Item → Program
  | [] => []
  | .label l :: rest => program (ls ++ [l]) rest
  | .stmt s :: rest => ⟨ls, s⟩ :: program [] rest

/-- The items of a file: those of its lines, one line after the other. -/
def FileItems (file : List Str) (items : List Item) : Prop :=
  ∃ perLine : List (List Item),
    List.Forall₂ (fun line its => ∃ ts, tokenize line = .ok ts ∧ Parse.parse ts = .ok its)
      file perLine ∧
    items = perLine.flatten

/-- The statement is the directive `n`. -/
def IsDirective (n : DirectiveName) (l : ProgLine) : Bool :=
  match l.statement with
  | .dir d => d.name = n
  | .instr _ => false

/-- How many scopes have been opened and not closed before statement `i` (negative if
more were closed). -/
def level (P : Program) (i : Nat) : Int :=
  ((P.take i).countP (IsDirective .begin_) : Int) - ((P.take i).countP (IsDirective .end_) : Int)

/-- Every `.end` closes a scope and every scope is closed. -/
def Balanced (P : Program) : Prop :=
  (∀ i, i ≤ P.length → 0 ≤ level P i) ∧ level P P.length = 0

/-- The scope opened by statement `j` is still open at statement `i`. -/
def Encloses (P : Program) (j i : Nat) : Prop :=
  j < i ∧ i ≤ P.length ∧ (∃ l, P[j]? = some l ∧ IsDirective .begin_ l = true) ∧
  ∀ k, j < k → k ≤ i → level P (j + 1) ≤ level P k

/-- The scope a label at statement `i` belongs to: the one opened by statement `j`, or
the whole module. -/
def InScope (P : Program) (l : ParsedLabel) (i : Nat) : Option Nat → Prop
  | some j => l.exported = false ∧ Encloses P j i ∧ ∀ j', Encloses P j' i → j' ≤ j
  | none => l.exported = true ∨ ∀ j, ¬ Encloses P j i

/-- The `n`-th label of statement `i` defines `name` in the given scope. -/
def DefinesAt (P : Program) (scope : Option Nat) (name : Str) (i n : Nat) : Prop :=
  ∃ line l, P[i]? = some line ∧ line.labels[n]? = some l ∧ l.name = name ∧ InScope P l i scope

/-- Statement `i` defines `name` in the given scope. -/
def Defines (P : Program) (scope : Option Nat) (name : Str) (i : Nat) : Prop :=
  ∃ n, DefinesAt P scope name i n

/-- No scope defines a name twice. -/
def NoDuplicates (P : Program) : Prop :=
  ∀ scope name i n i' n', DefinesAt P scope name i n → DefinesAt P scope name i' n' →
    i = i' ∧ n = n'

/-- Seen from statement `i`, `name` means statement `t`: the definition in the innermost
enclosing scope that has one, or else the module's. -/
def Resolves (P : Program) (i : Nat) (name : Str) (t : Nat) : Prop :=
  (∃ j, Encloses P j i ∧ Defines P (some j) name t ∧
    ∀ j', Encloses P j' i → j < j' → ∀ t', ¬ Defines P (some j') name t') ∨
  ((∀ j, Encloses P j i → ∀ t', ¬ Defines P (some j) name t') ∧ Defines P none name t)

/-- At most one `.module` directive, naming the module. -/
def OneModuleName (P : Program) : Prop :=
  (P.filter (IsDirective .module_)).length ≤ 1 ∧
  ∀ l ∈ P, ∀ d, l.statement = .dir d → d.name = .module_ → d.argument.simpleIdentifier.isSome

/-- The value `id` has at statement `i` of a program called `name`, when the labels of
statement `t` have value `value t` and `externs` gives the names of other modules.  An
unqualified name that is not defined in the program is looked for in the unnamed module. -/
def Means (P : Program) (name : Str) (value : Nat → Option Int) (externs : Ctx) (i : Nat)
    (id : FullId) (v : Int) : Prop :=
  match id.module with
  | none =>
      (∃ t, Resolves P i id.name t ∧ value t = some v) ∨
      ((∀ t, ¬ Resolves P i id.name t) ∧ externs ⟨some [], id.name⟩ = .ok v)
  | some other =>
      (other = name ∧ ∃ t, Defines P none id.name t ∧ value t = some v) ∨
      ((other ≠ name ∨ ∀ t, ¬ Defines P none id.name t) ∧ externs id = .ok v)

/-- The name is one of the operands the expression is built from. -/
inductive Uses (id : FullId) : Expr → Prop
  | name (t : NumericType) : Uses id (.ident id t)
  | left {op : BinOp} {l r : Expr} : Uses id l → Uses id (.bin op l r)
  | right {op : BinOp} {l r : Expr} : Uses id r → Uses id (.bin op l r)
  | arg {op : UnOp} {a : Expr} : Uses id a → Uses id (.un op a)

/-- Seen from statement `i` of a program called `name`, `id` is not a name of that program. -/
def Foreign (P : Program) (name : Str) (i : Nat) (id : FullId) : Prop :=
  match id.module with
  | none => ∀ t, ¬ Resolves P i id.name t
  | some other => other ≠ name ∨ ∀ t, ¬ Defines P none id.name t

/-- The name with the module it is looked for in, if it is not a name of the program itself: an
unqualified one is looked for in the unnamed module. -/
def qualified (id : FullId) : FullId := ⟨some (id.module.getD []), id.name⟩

/-- A program called `name` needs `id` from elsewhere to give its constants their values: one of
them is defined with a foreign name that stands for `id`. -/
def Needs (P : Program) (name : Str) (id : FullId) : Prop :=
  ∃ (i : Nat) (line : ProgLine) (d : Directive), P[i]? = some line ∧ line.statement = .dir d ∧
    d.name = .equ ∧ ∃ x, Uses x d.argument ∧ Foreign P name i x ∧ id = qualified x

end Nsasm.Spec
