import Verif.Spec.Numeric
import Mathlib.Tactic.FinCases
import Mathlib.Data.List.Perm.Basic

/-! # C01-C03: numeric types and address arithmetic -/

namespace Nsasm.Props

open Nsasm.Spec

/-- C01.  For a sized type, `CastTo` yields the unique value of the type's range
congruent to the argument; an unsized value is unchanged; casting is idempotent;
and the result of casting an `int` is an `int`. -/
theorem C01_castTo_canonical (t : NumericType) (v : Int) :
    (t ≠ .unknown → InRange t (t.castTo v) ∧ (t.castTo v - v) % (2 ^ bits t) = 0 ∧
      ∀ r, InRange t r → (r - v) % (2 ^ bits t) = 0 → r = t.castTo v) ∧
    (t = .unknown → t.castTo v = v) ∧
    t.castTo (t.castTo v) = t.castTo v ∧
    (InInt v → InInt (t.castTo v)) := by
  have h7 : (2 : Int) ^ (8 - 1) = 128 := by decide
  have h8 : (2 : Int) ^ 8 = 256 := by decide
  have h15 : (2 : Int) ^ (16 - 1) = 32768 := by decide
  have h16 : (2 : Int) ^ 16 = 65536 := by decide
  have h23 : (2 : Int) ^ (24 - 1) = 8388608 := by decide
  have h24 : (2 : Int) ^ 24 = 16777216 := by decide
  cases t <;> simp only [InRange, bits, NumericType.castTo, InInt, ne_eq, reduceCtorEq,
    not_false_eq_true, not_true_eq_false, forall_const, false_implies, or_self, or_false,
    or_true, if_true, if_false, true_and, h7, h8, h15, h16, h23, h24] <;>
    grind

example : NumericType.castTo .sbyte 0x1ff = -1 := by decide
example : NumericType.castTo .word (-1) = 0xffff := by decide

/-- C02, algebra: the conversion is a commutative, associative, idempotent
operation with the unsized type as identity; the result is as wide as the wider
operand, and signed exactly when an operand is signed (which an unsized operand
is not). -/
theorem C02_arith_semilattice (a b c : NumericType) :
    a.arith b = b.arith a ∧ (a.arith b).arith c = a.arith (b.arith c) ∧ a.arith a = a ∧
    NumericType.arith .unknown a = a ∧ a.arith .unknown = a ∧
    bits (a.arith b) = max (bits a) (bits b) ∧
    (Signed (a.arith b) ↔ Signed a ∨ Signed b) := by
  cases a <;> cases b <;> (refine ⟨by decide, ?_, by decide, by decide, by decide, by decide, ?_⟩) <;>
    first
    | (cases c <;> decide)
    | (simp [Signed, NumericType.arith, NumericType.isSigned, NumericType.maxT, NumericType.rank,
        NumericType.unsigned, NumericType.signed])

/-- The type of a tree is the conversion of its operands' types, in any order. -/
theorem typeTree_fold (t : TypeTree) :
    t.expr.type = (t.leaves.map Expr.type).foldr NumericType.arith .unknown := by
  induction t with
  | leaf e => simp [TypeTree.expr, TypeTree.leaves, (C02_arith_semilattice e.type .byte .byte).2.2.2.2.1]
  | node op l r ihl ihr =>
    have happ : ∀ xs ys : List NumericType,
        (xs ++ ys).foldr NumericType.arith .unknown =
          (xs.foldr NumericType.arith .unknown).arith (ys.foldr NumericType.arith .unknown) := by
      intro xs ys
      induction xs with
      | nil => simp [(C02_arith_semilattice _ .byte .byte).2.2.2.1]
      | cons x xs ih => simp [ih, (C02_arith_semilattice x _ _).2.1]
    simp only [TypeTree.expr, TypeTree.leaves, Expr.type, List.map_append, happ, ihl, ihr]

/-- C02, trees: two compound expressions with the same operands, in any order and
grouping and with any operators, have the same type. -/
theorem C02_type_independent_of_shape (t u : TypeTree) (h : t.leaves.Perm u.leaves) :
    t.expr.type = u.expr.type := by
  rw [typeTree_fold, typeTree_fold]
  apply List.Perm.foldr_eq' (h.map _)
  intro x _ y _ z
  have h1 := (C02_arith_semilattice y x z).2.1
  have h2 := (C02_arith_semilattice x y z).2.1
  have h3 := (C02_arith_semilattice x y z).1
  rw [← h1, ← h2, h3]

example : (TypeTree.node .plus (.leaf (.lit 1 .byte)) (.node .mul (.leaf (.lit 2 .sword))
    (.leaf (.lit 3 .unknown)))).expr.type = .sword := by decide

/-- C02, expressions: the width and the signedness of the type of any expression. -/
theorem C02_type_of_expression (e : Expr) :
    bits e.type = exprBits e ∧ (Signed e.type ↔ ExprSigned e) := by
  have hneg : ∀ t : NumericType, bits t.signed = bits t ∧ (Signed t.signed ↔ bits t ≠ 0) := by
    intro t; cases t <;> simp [bits, NumericType.signed, Signed]
  induction e with
  | null => simp [Expr.type, bits, exprBits, ExprSigned, Signed]
  | lit v t => exact ⟨rfl, Iff.rfl⟩
  | ident id t => exact ⟨rfl, Iff.rfl⟩
  | bin op l r ihl ihr =>
    obtain ⟨-, -, -, -, -, h1, h2⟩ := C02_arith_semilattice l.type r.type .byte
    simp only [Expr.type, exprBits, ExprSigned]
    rw [h1, h2, ihl.1, ihr.1, ihl.2, ihr.2]
    exact ⟨rfl, Iff.rfl⟩
  | un op a ih =>
    cases op with
    | neg =>
      simp only [Expr.type, exprBits, ExprSigned, UnOp.resultType]
      rw [(hneg _).1, (hneg _).2, ih.1]
      exact ⟨rfl, Iff.rfl⟩
    | _ => simp [Expr.type, exprBits, ExprSigned, UnOp.resultType, bits, Signed]
  | label n h ih => exact ih

example : (Expr.bin .plus (.un .neg (.lit 1 .byte)) (.ident ⟨none, cs!"a"⟩ .word)).type = .sword := by decide

/-- C03, addition: for a 24-bit address and any offset, wrapped addition stays in
the bank, moves the bank offset modulo 2^16, and composes additively. -/
theorem C03_addWrapped (a : Addr) (ha : a < 0x1000000) (n m : Int) :
    Address.bank (Address.addWrapped a n) = Address.bank a ∧
    Address.addWrapped a n < 0x1000000 ∧
    ((Address.bankAddress (Address.addWrapped a n) : Int) - (Address.bankAddress a + n)) % 0x10000 = 0 ∧
    Address.addWrapped (Address.addWrapped a n) m = Address.addWrapped a (n + m) ∧
    Address.addWrapped a 0 = a := by
  simp only [Address.bank, Address.bankAddress, Address.addWrapped]
  omega

/-- C03, subtraction: fails (with an error, never undefined) exactly when the
banks differ; otherwise the difference is the unique signed 16-bit offset leading
from the second address to the first. -/
theorem C03_subtractWrapped (a b : Addr) (ha : a < 0x1000000) (hb : b < 0x1000000) :
    (Address.bank a ≠ Address.bank b → Address.subtractWrapped a b = .err .bankMismatch) ∧
    (Address.bank a = Address.bank b → ∃ d, Address.subtractWrapped a b = .ok d ∧
      (-32768 ≤ d ∧ d ≤ 32767) ∧ Address.addWrapped b d = a ∧
      ∀ d', -32768 ≤ d' → d' ≤ 32767 → Address.addWrapped b d' = a → d' = d) := by
  constructor
  · intro h; simp [Address.subtractWrapped, h]
  · intro h
    have hd : ∃ d : Int, Address.subtractWrapped a b = .ok d ∧ -32768 ≤ d ∧ d ≤ 32767 ∧
        (d - ((a % 65536 : Nat) - (b % 65536 : Nat))) % 65536 = 0 := by
      have hx : Address.bankAddress a = a % 65536 := rfl
      have hy : Address.bankAddress b = b % 65536 := rfl
      rw [← hx, ← hy]
      have hx' : Address.bankAddress a < 65536 := by omega
      have hy' : Address.bankAddress b < 65536 := by omega
      simp only [Address.subtractWrapped, h, ne_eq, not_true_eq_false, if_false]
      split <;> exact ⟨_, rfl, by omega⟩
    obtain ⟨d, hd, h1, h2, h3⟩ := hd
    simp only [Address.bank, Address.addWrapped] at *
    exact ⟨d, hd, ⟨h1, h2⟩, by omega, fun d' h4 h5 h6 => by omega⟩

/-- Wrapping is real: one byte past the end of a bank is its first byte. -/
example : Address.addWrapped 0x05ffff 1 = 0x050000 := by decide
example : Address.subtractWrapped 0x050000 0x05ffff = .ok 1 := by decide

end Nsasm.Props
