import Verif.Spec.Expr
import Mathlib.Tactic.Common

/-! # C12-C14: expression evaluation -/

namespace Nsasm.Props

open Nsasm.Spec

/-- A lookup context as a partial function. -/
def values (ctx : Ctx) : FullId → Option Int := fun id => (ctx id).toOption

/-- What evaluation may do, in terms of the mathematical value. -/
def EvalSpec (ctx : Ctx) (e : Expr) : Res Int → Prop
  | .ok v => denote (values ctx) e = some v ∧ InInt v
  | .err r => denote (values ctx) e = none ∧
      ((r = .divisionByZero ∧ ∃ l d, Occurs (.bin .div l d) e ∧ denote (values ctx) d = some 0) ∨
       (r = .nullExpression ∧ Occurs .null e) ∨
       ∃ id, Mentions id e ∧ ctx id = .error r)
  | .ub u => u = .overflow ∧ ∃ s v, Occurs s e ∧ denote (values ctx) s = some v ∧ ¬ InInt v

theorem occurs_mono {ctx : Ctx} {e e' : Expr} {r : Err} (hsub : ∀ s, Occurs s e → Occurs s e')
    (h : (r = .divisionByZero ∧ ∃ l d, Occurs (.bin .div l d) e ∧ denote (values ctx) d = some 0) ∨
       (r = .nullExpression ∧ Occurs .null e) ∨
       ∃ id, Mentions id e ∧ ctx id = .error r) :
    (r = .divisionByZero ∧ ∃ l d, Occurs (.bin .div l d) e' ∧ denote (values ctx) d = some 0) ∨
       (r = .nullExpression ∧ Occurs .null e') ∨
       ∃ id, Mentions id e' ∧ ctx id = .error r := by
  rcases h with ⟨h1, l, d, h2, h3⟩ | ⟨h1, h2⟩ | ⟨id, ⟨t, h1⟩, h2⟩
  · exact Or.inl ⟨h1, l, d, hsub _ h2, h3⟩
  · exact Or.inr (Or.inl ⟨h1, hsub _ h2⟩)
  · exact Or.inr (Or.inr ⟨id, ⟨t, hsub _ h1⟩, h2⟩)

theorem evalSpec_i32 (ctx : Ctx) (e : Expr) (v : Int) (h : denote (values ctx) e = some v) :
    EvalSpec ctx e (i32 v) := by
  unfold i32
  split
  · exact ⟨h, ‹_›⟩
  · exact ⟨rfl, e, v, .refl e, h, ‹_›⟩

theorem inInt_digit (v : Int) : InInt (v % 256) := by unfold InInt; omega

/-- C12.  Evaluation yields the mathematical value of the expression; it fails only
because of a division by zero, a missing operand or a failed lookup; and its only
undefined outcome is an intermediate value that does not fit a machine int. -/
theorem C12_eval_is_integer_arithmetic (ctx : Ctx) (hctx : ∀ id v, ctx id = .ok v → InInt v)
    (e : Expr) (he : Proper e) : EvalSpec ctx e (e.eval ctx) := by
  induction e with
  | null => exact ⟨rfl, Or.inr (Or.inl ⟨rfl, .refl _⟩)⟩
  | lit v t => exact ⟨rfl, he⟩
  | ident id t =>
    simp only [Expr.eval]
    cases h : ctx id with
    | ok v => exact ⟨by simp [denote, values, h, Except.toOption], hctx id v h⟩
    | error r => exact ⟨by simp [denote, values, h, Except.toOption],
        Or.inr (Or.inr ⟨id, ⟨t, .refl _⟩, h⟩)⟩
  | label n h ih =>
    obtain ⟨v, t, rfl, hv⟩ := he
    exact ⟨rfl, hv⟩
  | un op a ih =>
    have ih := ih he
    simp only [Expr.eval]
    cases ha : a.eval ctx with
    | ok v =>
      rw [ha] at ih
      simp only [EvalSpec] at ih
      simp only [Res.bind_ok]
      cases op with
      | neg => exact evalSpec_i32 _ _ _ (by simp [denote, ih.1])
      | lowbyte => exact ⟨by simp [denote, ih.1], inInt_digit _⟩
      | highbyte => exact ⟨by simp [denote, ih.1], inInt_digit _⟩
      | bankbyte => exact ⟨by simp [denote, ih.1], inInt_digit _⟩
    | err r =>
      rw [ha] at ih
      exact ⟨by simp [denote, ih.1], occurs_mono (fun _ h => .arg h) ih.2⟩
    | ub u =>
      rw [ha] at ih
      obtain ⟨hu, s, v, h1, h2, h3⟩ := ih
      exact ⟨hu, s, v, .arg h1, h2, h3⟩
  | bin op l r ihl ihr =>
    have ihl := ihl he.1
    have ihr := ihr he.2
    simp only [Expr.eval]
    cases hl : l.eval ctx with
    | ub u =>
      rw [hl] at ihl
      obtain ⟨hu, s, v, h1, h2, h3⟩ := ihl
      exact ⟨hu, s, v, .left h1, h2, h3⟩
    | err el =>
      rw [hl] at ihl
      cases hr : r.eval ctx with
      | ub u =>
        rw [hr] at ihr
        obtain ⟨hu, s, v, h1, h2, h3⟩ := ihr
        exact ⟨hu, s, v, .right h1, h2, h3⟩
      | ok b => exact ⟨by simp [denote, ihl.1], occurs_mono (fun _ h => .left h) ihl.2⟩
      | err er => exact ⟨by simp [denote, ihl.1], occurs_mono (fun _ h => .left h) ihl.2⟩
    | ok a =>
      rw [hl] at ihl
      cases hr : r.eval ctx with
      | ub u =>
        rw [hr] at ihr
        obtain ⟨hu, s, v, h1, h2, h3⟩ := ihr
        exact ⟨hu, s, v, .right h1, h2, h3⟩
      | err er =>
        rw [hr] at ihr
        exact ⟨by simp [denote, ihl.1, ihr.1], occurs_mono (fun _ h => .right h) ihr.2⟩
      | ok b =>
        rw [hr] at ihr
        simp only [EvalSpec] at ihl ihr
        cases op with
        | plus => exact evalSpec_i32 _ _ _ (by simp [denote, ihl.1, ihr.1])
        | minus => exact evalSpec_i32 _ _ _ (by simp [denote, ihl.1, ihr.1])
        | mul => exact evalSpec_i32 _ _ _ (by simp [denote, ihl.1, ihr.1])
        | div =>
          simp only [BinOp.apply]
          split
          · subst b
            exact ⟨by simp [denote, ihl.1, ihr.1], Or.inl ⟨rfl, l, r, .refl _, ihr.1⟩⟩
          · exact evalSpec_i32 _ _ _ (by simp [denote, ihl.1, ihr.1, *])

/-- C12, completeness: if the mathematical value exists and no intermediate value
leaves the range of a machine int, evaluation returns that value. -/
theorem C12_eval_complete (ctx : Ctx) (hctx : ∀ id v, ctx id = .ok v → InInt v)
    (e : Expr) (he : Proper e) (v : Int) (hv : denote (values ctx) e = some v)
    (hfit : ∀ s w, Occurs s e → denote (values ctx) s = some w → InInt w) :
    e.eval ctx = .ok v := by
  have h := C12_eval_is_integer_arithmetic ctx hctx e he
  cases hr : e.eval ctx with
  | ok w => rw [hr] at h; have := h.1; rw [hv] at this; rw [Option.some.inj this]
  | err r => rw [hr] at h; have := h.1; rw [hv] at this; cases this
  | ub u =>
    rw [hr] at h
    obtain ⟨-, s, w, h1, h2, h3⟩ := h
    exact absurd (hfit s w h1 h2) h3

/-- `-7 / 2` is `-3`, and `^$123456 + 1` is `$13`. -/
example : (Expr.bin .div (.lit (-7) .unknown) (.lit 2 .unknown)).eval nullCtx = .ok (-3) := by decide
example : (Expr.bin .plus (.un .bankbyte (.lit 0x123456 .long)) (.lit 1 .unknown)).eval nullCtx
    = .ok 0x13 := by decide
/-- Overflow is reachable, so its treatment is not vacuous. -/
example : (Expr.bin .mul (.lit 65536 .long) (.lit 65536 .long)).eval nullCtx = .ub .overflow := by
  decide

/-- C13.  An expression that says it needs no lookup evaluates the same in every
context; a source expression that says it needs one has no value without it. -/
theorem C13_no_lookup_constant (e : Expr) :
    (e.requiresLookup = false → ∀ ctx ctx' : Ctx, e.eval ctx = e.eval ctx') ∧
    (Source e → e.requiresLookup = true → ∀ v, e.eval nullCtx ≠ .ok v) := by
  induction e with
  | null => simp [Expr.requiresLookup, Expr.eval]
  | lit v t => simp [Expr.requiresLookup, Expr.eval]
  | ident id t => simp [Expr.requiresLookup, Expr.eval, nullCtx]
  | label n h ih => simp [Expr.requiresLookup, Source]
  | un op a ih =>
    constructor
    · intro h ctx ctx'
      simp only [Expr.eval, ih.1 h ctx ctx']
    · intro hs h v hv
      simp only [Expr.eval, Res.bind_eq_ok] at hv
      obtain ⟨w, hw, -⟩ := hv
      exact ih.2 hs h w hw
  | bin op l r ihl ihr =>
    constructor
    · intro h ctx ctx'
      simp only [Expr.requiresLookup, Bool.or_eq_false_iff] at h
      simp only [Expr.eval, ihl.1 h.1 ctx ctx', ihr.1 h.2 ctx ctx']
    · intro hs h v hv
      simp only [Expr.requiresLookup, Bool.or_eq_true] at h
      simp only [Expr.eval] at hv
      rcases h with h | h
      · have := ihl.2 hs.1 h
        cases hl : l.eval nullCtx <;> cases hr : r.eval nullCtx <;> simp_all
      · have := ihr.2 hs.2 h
        cases hl : l.eval nullCtx <;> cases hr : r.eval nullCtx <;> simp_all

example : (Expr.bin .plus (.lit 1 .byte) (.lit 2 .byte)).requiresLookup = false := by decide
example : Source (.ident ⟨none, cs!"x"⟩ .word) ∧
    (Expr.ident ⟨none, cs!"x"⟩ .word).requiresLookup = true := ⟨trivial, rfl⟩

/-- A context resolves a name that is not local as an external one: unqualified
names stand for names of the anonymous module. -/
def ResolvesExternals (isLocal : FullId → Bool) (ctx : Ctx) : Prop :=
  ∀ n, isLocal ⟨none, n⟩ = false → ctx ⟨none, n⟩ = ctx ⟨some [], n⟩

/-- C14.  Two contexts that agree on the local names and on the names an expression
reports as external references give it the same result. -/
theorem C14_dependencies_complete (isLocal : FullId → Bool) (ctx ctx' : Ctx)
    (h : ResolvesExternals isLocal ctx) (h' : ResolvesExternals isLocal ctx')
    (e : Expr) (he : Proper e)
    (hlocal : ∀ id, isLocal id = true → ctx id = ctx' id)
    (hext : ∀ id ∈ e.externalNames isLocal, ctx id = ctx' id) :
    e.eval ctx = e.eval ctx' := by
  induction e with
  | null => rfl
  | lit v t => rfl
  | ident id t =>
    simp only [Expr.eval]
    by_cases hl : isLocal id = true
    · rw [hlocal id hl]
    · obtain ⟨m, n⟩ := id
      simp only [Bool.not_eq_true] at hl
      cases m with
      | none =>
        rw [h n hl, h' n hl, hext _ (by simp [Expr.externalNames, hl])]
      | some m => rw [hext _ (by simp [Expr.externalNames, hl])]
  | label n held ih =>
    obtain ⟨v, t, rfl, -⟩ := he
    rfl
  | un op a ih => simp only [Expr.eval, ih he hext]
  | bin op l r ihl ihr =>
    simp only [Expr.externalNames, List.mem_append] at hext
    simp only [Expr.eval, ihl he.1 (fun id h => hext id (Or.inl h)),
      ihr he.2 (fun id h => hext id (Or.inr h))]

/-- C14, the reported names are all mentioned and none of them is local. -/
theorem C14_dependencies_sound (isLocal : FullId → Bool) (e : Expr) (x : FullId)
    (hx : x ∈ e.externalNames isLocal) :
    ∃ id, Mentions id e ∧ isLocal id = false ∧
      (x = id ∨ (id.module = none ∧ x = ⟨some [], id.name⟩)) := by
  induction e with
  | null => simp [Expr.externalNames] at hx
  | lit v t => simp [Expr.externalNames] at hx
  | label n h ih => simp [Expr.externalNames] at hx
  | ident id t =>
    simp only [Expr.externalNames] at hx
    split at hx
    · simp at hx
    · rename_i hl
      refine ⟨id, ⟨t, .refl _⟩, by simpa using hl, ?_⟩
      split at hx <;> simp_all
  | un op a ih =>
    obtain ⟨id, ⟨t, h1⟩, h2⟩ := ih hx
    exact ⟨id, ⟨t, .arg h1⟩, h2⟩
  | bin op l r ihl ihr =>
    simp only [Expr.externalNames, List.mem_append] at hx
    rcases hx with hx | hx
    · obtain ⟨id, ⟨t, h1⟩, h2⟩ := ihl hx
      exact ⟨id, ⟨t, .left h1⟩, h2⟩
    · obtain ⟨id, ⟨t, h1⟩, h2⟩ := ihr hx
      exact ⟨id, ⟨t, .right h1⟩, h2⟩

example : (Expr.bin .plus (.ident ⟨none, cs!"a"⟩ .word) (.ident ⟨some (cs!"m"), cs!"b"⟩ .word)).externalNames
    (fun _ => false) = [⟨some [], cs!"a"⟩, ⟨some (cs!"m"), cs!"b"⟩] := by decide

end Nsasm.Props
