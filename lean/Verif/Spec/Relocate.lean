import Verif.Spec.Constants

/-! # Specification of programs that differ in origins only -/

namespace Nsasm.Spec

/-- Two statements that are the same but for the address in an `.org`. -/
inductive Moved : Statement → Statement → Prop
  | same (st : Statement) : Moved st st
  | origin (d : Directive) (e : Expr) : d.name = .org → Moved (.dir d) (.dir { d with argument := e })

/-- Two items of a line that are the same but for the address in an `.org`. -/
inductive MovedItem : Item → Item → Prop
  | label (l : ParsedLabel) : MovedItem (.label l) (.label l)
  | stmt {st st' : Statement} : Moved st st' → MovedItem (.stmt st) (.stmt st')

/-- Two lines that are the same but for the address in an `.org`. -/
def MovedLine (l l' : Str) : Prop :=
  ∃ ts its ts' its', tokenize l = .ok ts ∧ Parse.parse ts = .ok its ∧ tokenize l' = .ok ts' ∧ Parse.parse ts' = .ok its' ∧
    List.Forall₂ MovedItem its its'

/-- Two files that are the same but for the addresses in `.org`s. -/
def MovedFile : List Str → List Str → Prop := List.Forall₂ MovedLine

/-- The addresses in the `.org`s of the files have 24 bits. -/
def OriginsFit (files : List (List Str)) : Prop :=
  ∀ file ∈ files, ∀ line ∈ file, ∀ (ts : List Token) (its : List Item) (d : Directive) (v : Int), tokenize line = .ok ts →
    Parse.parse ts = .ok its → Item.stmt (.dir d) ∈ its → d.name = .org → d.argument.eval nullCtx = .ok v → v < 0x1000000

/-- Line `k` of file `i` is not a constant, and the last `.org` before it, or it itself, is line `o`. -/
def PlacedFrom (Ps : Programs) (i k o : Nat) : Prop :=
  ∃ name P line, Ps[i]? = some (name, P) ∧ P[k]? = some line ∧ IsDirective .equ line = false ∧ o ≤ k ∧
    (∃ line, P[o]? = some line ∧ IsDirective .org line = true) ∧
    ∀ (n : Nat) (line : ProgLine), o < n → n ≤ k → P[n]? = some line → IsDirective .org line = false

/-- What becomes of the value of an expression: it stays the same, its lower 16 bits stay the same, or they move along with the
block of statements that begins with the `.org` in line `o` of file `j`. -/
inductive Shift
  | exact
  | low
  | along (j o : Nat)
deriving DecidableEq

/-- How the value of an expression in line `k` of file `i` changes when the origins do. -/
inductive Behaves (Ps Ps' : Programs) : Shift → Nat → Nat → Expr → Prop
  | number {i k : Nat} (v : Int) (t : NumericType) : Behaves Ps Ps' .exact i k (.lit v t)
  /-- The name of a place in a block that stays where it is. -/
  | fixed {i k : Nat} (id : FullId) (t : NumericType) :
      (∀ j s, PointsTo Ps i k id j s → ∃ o st, PlacedFrom Ps j s o ∧ HasStatement Ps j o st ∧ HasStatement Ps' j o st) →
      Behaves Ps Ps' .exact i k (.ident id t)
  /-- The name of a place in a block. -/
  | moved {i k : Nat} (id : FullId) (t : NumericType) (j o : Nat) :
      (∀ j' s, PointsTo Ps i k id j' s → j' = j ∧ PlacedFrom Ps j s o) → Behaves Ps Ps' (.along j o) i k (.ident id t)
  /-- The name of a constant. -/
  | constant {i k : Nat} {s : Shift} (id : FullId) (t : NumericType) :
      (∀ j s, PointsTo Ps i k id j s → ∃ d, HasStatement Ps j s (.dir d) ∧ d.name = .equ) →
      (∀ j n d, PointsTo Ps i k id j n → HasStatement Ps j n (.dir d) → Behaves Ps Ps' s j n d.argument) →
      Behaves Ps Ps' s i k (.ident id t)
  | weaken {i k : Nat} {e : Expr} : Behaves Ps Ps' .exact i k e → Behaves Ps Ps' .low i k e
  | binary {i k : Nat} {l r : Expr} (op : BinOp) : Behaves Ps Ps' .exact i k l → Behaves Ps Ps' .exact i k r →
      Behaves Ps Ps' .exact i k (.bin op l r)
  | unary {i k : Nat} {e : Expr} (op : UnOp) : Behaves Ps Ps' .exact i k e → Behaves Ps Ps' .exact i k (.un op e)
  /-- `<` and `>` of the lower 16 bits. -/
  | byte {i k : Nat} {e : Expr} (op : UnOp) : op = .lowbyte ∨ op = .highbyte → Behaves Ps Ps' .low i k e →
      Behaves Ps Ps' .exact i k (.un op e)
  | arith {i k : Nat} {l r : Expr} (op : BinOp) : op ≠ .div → Behaves Ps Ps' .low i k l → Behaves Ps Ps' .low i k r →
      Behaves Ps Ps' .low i k (.bin op l r)
  | neg {i k : Nat} {e : Expr} : Behaves Ps Ps' .low i k e → Behaves Ps Ps' .low i k (.un .neg e)
  /-- A distance from a place. -/
  | forward {i k j o : Nat} {l r : Expr} : Behaves Ps Ps' (.along j o) i k l → Behaves Ps Ps' .low i k r →
      Behaves Ps Ps' (.along j o) i k (.bin .plus l r)
  | forward' {i k j o : Nat} {l r : Expr} : Behaves Ps Ps' .low i k l → Behaves Ps Ps' (.along j o) i k r →
      Behaves Ps Ps' (.along j o) i k (.bin .plus l r)
  | backward {i k j o : Nat} {l r : Expr} : Behaves Ps Ps' (.along j o) i k l → Behaves Ps Ps' .low i k r →
      Behaves Ps Ps' (.along j o) i k (.bin .minus l r)
  /-- The distance of two places in the same block. -/
  | distance {i k j o : Nat} {l r : Expr} : Behaves Ps Ps' (.along j o) i k l → Behaves Ps Ps' (.along j o) i k r →
      Behaves Ps Ps' .low i k (.bin .minus l r)

/-- The statement in line `k` of file `i` does not show where anything is: what it writes in three bytes stays the same, what it
writes in one or two bytes has the same lower 16 bits, and a relative operand refers to the block that the statement is in. -/
inductive Indifferent (Ps Ps' : Programs) (i k : Nat) : Prop
  | data (d : Directive) : HasStatement Ps i k (.dir d) →
      (∀ e ∈ d.list, Behaves Ps Ps' (if d.name = .dl then .exact else .low) i k e) → Indifferent Ps Ps' i k
  | operand (x : Instruction) : HasStatement Ps i k (.instr x) → x.mode ≠ .rel8 → x.mode ≠ .rel16 →
      (x.arg1 ≠ .null → Behaves Ps Ps' (if x.mode = .dir_l ∨ x.mode = .dir_lx then .exact else .low) i k x.arg1) →
      (x.arg2 ≠ .null → Behaves Ps Ps' .low i k x.arg2) → Indifferent Ps Ps' i k
  | relative (x : Instruction) (o : Nat) : HasStatement Ps i k (.instr x) → PlacedFrom Ps i k o →
      Behaves Ps Ps' (.along i o) i k x.arg1 → x.mode = .rel8 ∨ x.mode = .rel16 → Indifferent Ps Ps' i k

end Nsasm.Spec
