import Verif.Model.Numeric

/-! # Expressions (nsasm/expression.h, nsasm/identifiers.h) -/

namespace Nsasm

/-- `class FullIdentifier` (nsasm/identifiers.h:12-45). -/
structure FullId where
  module : Option Str
  name : Str
deriving DecidableEq, Repr

/-- `class LookupContext` (nsasm/expression.h:82-86). -/
abbrev Ctx := FullId → Except Err Int

/-- `class NullLookupContext` (nsasm/expression.h:88-93). -/
def nullCtx : Ctx := fun _ => .error .nullLookup

/-- `struct BinaryOp` and its four instances (nsasm/expression.h:16-46). -/
inductive BinOp where
  | plus | minus | mul | div
deriving DecidableEq, Repr

/-- `struct UnaryOp` and its four instances (nsasm/expression.h:48-80). -/
inductive UnOp where
  | neg | lowbyte | highbyte | bankbyte
deriving DecidableEq, Repr

/-- The `function` member (nsasm/expression.h:26-46).  `int` overflow is
undefined, including `INT_MIN / -1`. -/
def BinOp.apply : BinOp → Int → Int → Res Int
  | .plus, a, b => i32 (a + b)
  | .minus, a, b => i32 (a - b)
  | .mul, a, b => i32 (a * b)
  | .div, a, b => if b = 0 then .err .divisionByZero else i32 (a.tdiv b)

/-- The `function` member (nsasm/expression.h:61-80).  `>>` is arithmetic. -/
def UnOp.apply : UnOp → Int → Res Int
  | .neg, a => i32 (-a)
  | .lowbyte, a => .ok (a % 0x100)
  | .highbyte, a => .ok (a / 0x100 % 0x100)
  | .bankbyte, a => .ok (a / 0x10000 % 0x100)

/-- The `result_type` member (nsasm/expression.h:61-80). -/
def UnOp.resultType : UnOp → NumericType → NumericType
  | .neg, t => t.signed
  | _, _ => .byte

/-- The `Expression` class tree (nsasm/expression.h:107-375).
`ExpressionOrNull` is the identity wrapper around a non-null expression and
`null` otherwise.  `lit v t` is `Literal(v, t)`; the constructor's `CastTo` is
applied by `Expr.mkLit`. -/
inductive Expr where
  | null
  | lit (value : Int) (type : NumericType)
  | ident (id : FullId) (type : NumericType)
  | bin (op : BinOp) (lhs rhs : Expr)
  | un (op : UnOp) (arg : Expr)
  | label (name : Str) (held : Expr)
deriving DecidableEq, Repr

namespace Expr

/-- `Literal(int, NumericType)` (nsasm/expression.h:222-223). -/
def mkLit (value : Int) (type : NumericType) : Expr := .lit (type.castTo value) type

/-- `Evaluate` (nsasm/expression.h:169-174, 225-227, 251-253, 288-294, 326-330,
355-357).  A binary expression evaluates both operands before it looks at
either result.  A `Label` dereferences `held_value_` without a check. -/
def eval (ctx : Ctx) : Expr → Res Int
  | .null => .err .nullExpression
  | .lit v _ => .ok v
  | .ident id _ => .ofExcept (ctx id)
  | .bin op l r =>
      match l.eval ctx, r.eval ctx with
      | .ub u, _ => .ub u
      | _, .ub u => .ub u
      | .err e, _ => .err e
      | _, .err e => .err e
      | .ok a, .ok b => op.apply a b
  | .un op a => do op.apply (← a.eval ctx)
  | .label _ h => if h = .null then .ub .nullDeref else h.eval ctx

/-- `Type` (nsasm/expression.h:176-178, 228, 254, 295-297, 331, 358). -/
def type : Expr → NumericType
  | .null => .unknown
  | .lit _ t => t
  | .ident _ t => t
  | .bin _ l r => l.type.arith r.type
  | .un op a => op.resultType a.type
  | .label _ h => h.type

/-- `SimpleIdentifier` (nsasm/expression.h:119-121, 180-185, 267-272). -/
def simpleIdentifier : Expr → Option Str
  | .ident id _ => if id.module.isSome then none else some id.name
  | _ => none

/-- `RequiresLookup` (nsasm/expression.h:187-189, 229, 255, 298-300, 332, 359). -/
def requiresLookup : Expr → Bool
  | .null => false
  | .lit _ _ => false
  | .ident _ _ => true
  | .bin _ l r => l.requiresLookup || r.requiresLookup
  | .un _ a => a.requiresLookup
  | .label _ _ => true

/-- `ExternalNamesReferenced` (nsasm/expression.h:191-195, 230-233, 256-265,
301-307, 333-336, 360-363), the `std::set` as a list. -/
def externalNames (isLocal : FullId → Bool) : Expr → List FullId
  | .null => []
  | .lit _ _ => []
  | .ident id _ =>
      if isLocal id then []
      else if id.module.isSome then [id]
      else [⟨some [], id.name⟩]
  | .bin _ l r => l.externalNames isLocal ++ r.externalNames isLocal
  | .un _ a => a.externalNames isLocal
  | .label _ _ => []

/-- `ExpressionOrNull::IsLabel` (nsasm/expression.h:377-379). -/
def isLabel : Expr → Bool
  | .label _ _ => true
  | _ => false

/-- `ExpressionOrNull::ApplyLabel` (nsasm/expression.h:381-391). -/
def applyLabel (l : Str) : Expr → Expr
  | .label _ h => .label l h
  | e => .label l e

end Expr

end Nsasm
