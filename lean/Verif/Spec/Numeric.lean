import Verif.Model.Expr

/-! # Specification of the numeric types: width in bits, signedness, range -/

namespace Nsasm.Spec

/-- Width in bits of a sized type; an unsized constant has none. -/
def bits : NumericType → Nat
  | .unknown => 0
  | .byte => 8 | .sbyte => 8
  | .word => 16 | .sword => 16
  | .long => 24 | .slong => 24

/-- Whether a type is one of the three signed ones. -/
def Signed (t : NumericType) : Prop := t = .sbyte ∨ t = .sword ∨ t = .slong

/-- The integers a sized type can hold. -/
def InRange (t : NumericType) (v : Int) : Prop :=
  if t = .sbyte ∨ t = .sword ∨ t = .slong then -(2 ^ (bits t - 1) : Int) ≤ v ∧ v < 2 ^ (bits t - 1)
  else 0 ≤ v ∧ v < 2 ^ bits t

/-- A tree of `+ - * /` over operands of which only the type matters. -/
inductive TypeTree where
  | leaf (e : Expr)
  | node (op : BinOp) (l r : TypeTree)

/-- The operands of a tree, left to right. -/
def TypeTree.leaves : TypeTree → List Expr
  | .leaf e => [e]
  | .node _ l r => l.leaves ++ r.leaves

/-- The expression a tree denotes. -/
def TypeTree.expr : TypeTree → Expr
  | .leaf e => e
  | .node op l r => .bin op l.expr r.expr

/-- The width of an expression: the widest operand's, except that the byte selectors give a byte. -/
def exprBits : Expr → Nat
  | .null => 0
  | .lit _ t => bits t
  | .ident _ t => bits t
  | .bin _ l r => max (exprBits l) (exprBits r)
  | .un .neg a => exprBits a
  | .un _ _ => 8
  | .label _ held => exprBits held

/-- Whether an expression is signed: some operand is, or an operand that has a width is negated. -/
def ExprSigned : Expr → Prop
  | .null => False
  | .lit _ t => Signed t
  | .ident _ t => Signed t
  | .bin _ l r => ExprSigned l ∨ ExprSigned r
  | .un .neg a => exprBits a ≠ 0
  | .un _ _ => False
  | .label _ held => ExprSigned held

end Nsasm.Spec
