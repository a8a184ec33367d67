import Verif.Model.Expr

/-! # Specification of expressions: exact integer arithmetic -/

namespace Nsasm.Spec

/-- The mathematical value of an expression over the unbounded integers, with
names given by `ctx`; `none` if a name is undefined, an operand is missing or a
divisor is zero.  `/` truncates towards zero; the byte selectors take the
corresponding base-256 digit. -/
def denote (ctx : FullId → Option Int) : Expr → Option Int
  | .null => none
  | .lit v _ => some v
  | .ident id _ => ctx id
  | .label _ h => denote ctx h
  | .un op a => (denote ctx a).map fun v => match op with
      | .neg => -v
      | .lowbyte => v % 256
      | .highbyte => v / 256 % 256
      | .bankbyte => v / 65536 % 256
  | .bin op l r => (denote ctx l).bind fun a => (denote ctx r).bind fun b =>
      match op with
      | .plus => some (a + b)
      | .minus => some (a - b)
      | .mul => some (a * b)
      | .div => if b = 0 then none else some (a.tdiv b)

/-- `s` occurs in the expression (possibly as the whole of it). -/
inductive Occurs : Expr → Expr → Prop
  | refl (e) : Occurs e e
  | left {s l r op} : Occurs s l → Occurs s (.bin op l r)
  | right {s l r op} : Occurs s r → Occurs s (.bin op l r)
  | arg {s a op} : Occurs s a → Occurs s (.un op a)
  | held {s n h} : Occurs s h → Occurs s (.label n h)

/-- An expression that can occur in a program: literals are machine ints, and the
disassembler's `Label` placeholders wrap a literal. -/
def Proper : Expr → Prop
  | .null => True
  | .lit v _ => InInt v
  | .ident _ _ => True
  | .bin _ l r => Proper l ∧ Proper r
  | .un _ a => Proper a
  | .label _ h => ∃ v t, h = .lit v t ∧ InInt v

/-- An expression without `Label` placeholders, i.e. one written in source code. -/
def Source : Expr → Prop
  | .bin _ l r => Source l ∧ Source r
  | .un _ a => Source a
  | .label _ _ => False
  | _ => True

/-- The names an expression mentions. -/
def Mentions (id : FullId) (e : Expr) : Prop := ∃ t, Occurs (.ident id t) e

end Nsasm.Spec
