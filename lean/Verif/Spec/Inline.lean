import Verif.Spec.Constants

/-! # Specification of expressions that stand for the same value -/

namespace Nsasm.Spec

/-- In line `k` of file `i`, the expression comes to the number by arithmetic and by the definitions of constants alone. -/
inductive Computes (Ps : Programs) : Nat → Nat → Expr → Int → Prop
  | number {i k : Nat} (n : Int) (ty : NumericType) : Computes Ps i k (.lit n ty) n
  | constant {i k j t : Nat} {id : FullId} {d : Directive} {v : Int} (ty : NumericType) : PointsTo Ps i k id j t →
      HasStatement Ps j t (.dir d) → d.name = .equ → Computes Ps j t d.argument v → Computes Ps i k (.ident id ty) v
  | plus {i k : Nat} {e f : Expr} {x y : Int} : Computes Ps i k e x → Computes Ps i k f y →
      Computes Ps i k (.bin .plus e f) (x + y)
  | minus {i k : Nat} {e f : Expr} {x y : Int} : Computes Ps i k e x → Computes Ps i k f y →
      Computes Ps i k (.bin .minus e f) (x - y)
  | times {i k : Nat} {e f : Expr} {x y : Int} : Computes Ps i k e x → Computes Ps i k f y →
      Computes Ps i k (.bin .mul e f) (x * y)
  | over {i k : Nat} {e f : Expr} {x y : Int} : y ≠ 0 → Computes Ps i k e x → Computes Ps i k f y →
      Computes Ps i k (.bin .div e f) (x.tdiv y)
  | negative {i k : Nat} {e : Expr} {x : Int} : Computes Ps i k e x → Computes Ps i k (.un .neg e) (-x)
  | low {i k : Nat} {e : Expr} {x : Int} : Computes Ps i k e x → Computes Ps i k (.un .lowbyte e) (x % 256)
  | high {i k : Nat} {e : Expr} {x : Int} : Computes Ps i k e x → Computes Ps i k (.un .highbyte e) (x / 256 % 256)
  | bank {i k : Nat} {e : Expr} {x : Int} : Computes Ps i k e x → Computes Ps i k (.un .bankbyte e) (x / 65536 % 256)

/-- `Agrees Ps Ps' i k e i' k' e'`: the expression `e` in line `k` of file `i` of the one set of programs stands for the same
value as `e'` in line `k'` of file `i'` of the other.  They come to the same number, or are names of the same place, or one is
the name of a constant whose definition stands for the same value as the other, or they are made from such expressions in the
same way. -/
inductive Agrees (Ps Ps' : Programs) : Nat → Nat → Expr → Nat → Nat → Expr → Prop
  | nothing {i k i' k' : Nat} : Agrees Ps Ps' i k .null i' k' .null
  | number {i k i' k' : Nat} {e e' : Expr} {v : Int} : Computes Ps i k e v → Computes Ps' i' k' e' v →
      Agrees Ps Ps' i k e i' k' e'
  | place {i k i' k' j t : Nat} {id id' : FullId} {st : Statement} (ty ty' : NumericType) : PointsTo Ps i k id j t →
      PointsTo Ps' i' k' id' j t → HasStatement Ps j t st → (∀ d, st = .dir d → d.name ≠ .equ) →
      Agrees Ps Ps' i k (.ident id ty) i' k' (.ident id' ty')
  | inline {i k i' k' j t : Nat} {id : FullId} {d : Directive} {e' : Expr} (ty : NumericType) : PointsTo Ps i k id j t →
      HasStatement Ps j t (.dir d) → d.name = .equ → Agrees Ps Ps' j t d.argument i' k' e' →
      Agrees Ps Ps' i k (.ident id ty) i' k' e'
  | outline {i k i' k' j t : Nat} {id : FullId} {d : Directive} {e : Expr} (ty : NumericType) : PointsTo Ps' i' k' id j t →
      HasStatement Ps' j t (.dir d) → d.name = .equ → Agrees Ps Ps' i k e j t d.argument →
      Agrees Ps Ps' i k e i' k' (.ident id ty)
  | binary {i k i' k' : Nat} {e f e' f' : Expr} (op : BinOp) : Agrees Ps Ps' i k e i' k' e' → Agrees Ps Ps' i k f i' k' f' →
      Agrees Ps Ps' i k (.bin op e f) i' k' (.bin op e' f')
  | unary {i k i' k' : Nat} {e e' : Expr} (op : UnOp) : Agrees Ps Ps' i k e i' k' e' →
      Agrees Ps Ps' i k (.un op e) i' k' (.un op e')

/-- The expressions that the bytes of a statement are made from. -/
def parts : Statement → List Expr
  | .instr i => [i.arg1, i.arg2]
  | .dir d => d.list

/-- The expressions in line `k` of file `i` stand for the same values. -/
def AgreesAt (Ps Ps' : Programs) (i k : Nat) : Prop :=
  ∃ st st', HasStatement Ps i k st ∧ HasStatement Ps' i k st' ∧
    List.Forall₂ (fun e e' => Agrees Ps Ps' i k e i k e') (parts st) (parts st')

end Nsasm.Spec
