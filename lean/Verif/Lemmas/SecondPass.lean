import Verif.Lemmas.FirstPass

/-! # Facts about the second pass -/

namespace Nsasm
open Spec

/-- Evaluation that succeeds is not changed by defining more names. -/
theorem eval_mono {ctx ctx' : Ctx} (h : ∀ id v, ctx id = .ok v → ctx' id = .ok v) (e : Expr) :
    ∀ v, e.eval ctx = .ok v → e.eval ctx' = .ok v := by
  induction e with
  | null => intro v hv; exact hv
  | lit n t => intro v hv; exact hv
  | ident id t =>
    intro v hv
    simp only [Expr.eval] at hv ⊢
    cases hc : ctx id with
    | error e => rw [hc] at hv; cases hv
    | ok w => rw [h id w hc]; rw [hc] at hv; exact hv
  | bin op l r ihl ihr =>
    intro v hv
    simp only [Expr.eval] at hv ⊢
    cases hl : l.eval ctx with
    | ok a =>
      cases hr : r.eval ctx with
      | ok b => rw [hl, hr] at hv; rw [ihl a hl, ihr b hr]; exact hv
      | err e => rw [hl, hr] at hv; cases hv
      | ub u => rw [hl, hr] at hv; cases hv
    | err e => cases hr : r.eval ctx <;> rw [hl, hr] at hv <;> cases hv
    | ub u => rw [hl] at hv; cases hv
  | un op a ih =>
    intro v hv
    simp only [Expr.eval] at hv ⊢
    replace hv := Res.bind_eq_ok.mp hv
    obtain ⟨w, hw, hv⟩ := hv
    rw [ih w hw]
    exact hv
  | label n a ih =>
    intro v hv
    simp only [Expr.eval] at hv ⊢
    split at hv
    · cases hv
    · next hn => rw [if_neg hn]; exact ih v hv

/-- A line without its value. -/
def valueless (l : Line) : Line := { l with value := none }

/-- `m'` is `m` with some more values. -/
structure MoreValues (m m' : Module) : Prop where
  name : m'.name = m.name
  globals : m'.globals = m.globals
  lines : m'.lines.map valueless = m.lines.map valueless
  values : ∀ (k : Nat) (l l' : Line) (v : Int), m.lines[k]? = some l → m'.lines[k]? = some l' →
    l.value = some v → l'.value = some v

theorem getElem?_valueless {ls ls' : List Line} (h : ls'.map valueless = ls.map valueless) {k : Nat}
    {l : Line} (hl : ls[k]? = some l) : ∃ l', ls'[k]? = some l' ∧ valueless l' = valueless l := by
  have h1 : (ls.map valueless)[k]? = some (valueless l) := by rw [List.getElem?_map, hl]; rfl
  rw [← h, List.getElem?_map] at h1
  cases h2 : ls'[k]? with
  | none => rw [h2] at h1; cases h1
  | some l' => rw [h2] at h1; simp at h1; exact ⟨l', rfl, h1⟩

theorem valueless_fields {l l' : Line} (h : valueless l = valueless l') :
    l.statement = l'.statement ∧ l.labels = l'.labels ∧ l.scopes = l'.scopes ∧
      l.locals = l'.locals ∧ l.reached = l'.reached ∧ l.incoming = l'.incoming := by
  simp [valueless] at h
  exact ⟨h.1, h.2.1, h.2.2.2.2.1, h.2.2.2.2.2, h.2.2.1, h.2.2.2.1⟩

theorem localsAt_valueless {m m' : Module} (h : m'.lines.map valueless = m.lines.map valueless)
    (j : Nat) : m'.localsAt j = m.localsAt j := by
  unfold Module.localsAt
  cases hl : m.lines[j]? with
  | some l =>
    obtain ⟨l', h1, h2⟩ := getElem?_valueless h hl
    rw [h1]
    exact (valueless_fields h2).2.2.2.1
  | none =>
    have : m'.lines[j]? = none := by
      rw [List.getElem?_eq_none_iff] at hl ⊢
      have := congrArg List.length h
      simp at this
      omega
    rw [this]

theorem MoreValues.refl (m : Module) : MoreValues m m :=
  ⟨rfl, rfl, rfl, fun k l l' v h1 h2 h3 => by rw [h1] at h2; cases h2; exact h3⟩

theorem MoreValues.trans {a b c : Module} (h : MoreValues a b) (h' : MoreValues b c) :
    MoreValues a c := by
  refine ⟨h'.name.trans h.name, h'.globals.trans h.globals, h'.lines.trans h.lines, ?_⟩
  intro k l l' v h1 h2 h3
  obtain ⟨l1, h4, -⟩ := getElem?_valueless h.lines h1
  exact h'.values k l1 l' v h4 h2 (h.values k l l1 v h1 h4 h3)

theorem MoreValues.localIndex {m m' : Module} (h : MoreValues m m') (name : Str) (scopes : List Nat) :
    m'.localIndex name scopes = m.localIndex name scopes :=
  localIndex_congr h.globals (localsAt_valueless h.lines) name scopes

theorem MoreValues.localLookup {m m' : Module} (h : MoreValues m m') {i : Nat} {v : Int}
    (hv : m.localLookup i = .ok v) : m'.localLookup i = .ok v := by
  unfold Module.localLookup at hv ⊢
  cases hl : m.lines[i]? with
  | none => rw [hl] at hv; cases hv
  | some l =>
    rw [hl] at hv
    simp only at hv
    cases hw : l.value with
    | none => rw [hw] at hv; cases hv
    | some w =>
      rw [hw] at hv
      cases hv
      obtain ⟨l', h1, -⟩ := getElem?_valueless h.lines hl
      rw [h1]
      simp only [h.values i l l' _ hl h1 hw]

theorem MoreValues.lookup {m m' : Module} (h : MoreValues m m') (scopes : List Nat) (externs : Ctx)
    (id : FullId) (v : Int) (hv : m.lookup scopes externs id = .ok v) :
    m'.lookup scopes externs id = .ok v := by
  unfold Module.lookup at hv ⊢
  cases hm : id.module with
  | none =>
    rw [hm] at hv
    simp only at hv ⊢
    rw [h.localIndex]
    cases hi : m.localIndex id.name scopes with
    | none => rw [hi] at hv; exact hv
    | some i => rw [hi] at hv; exact h.localLookup hv
  | some mod =>
    rw [hm] at hv
    simp only at hv ⊢
    rw [h.name, h.localIndex]
    by_cases he : mod = m.name
    · rw [if_pos he] at hv ⊢
      cases hi : m.localIndex id.name [] with
      | none => rw [hi] at hv; exact hv
      | some i => rw [hi] at hv; exact h.localLookup hv
    · rw [if_neg he] at hv ⊢
      exact hv

theorem setValue_more {m : Module} {i : Nat} {l : Line} (hl : m.lines[i]? = some l)
    (hv : l.value = none) (v : Int) : MoreValues m (m.setValue i v) := by
  refine ⟨rfl, rfl, ?_, ?_⟩
  · apply List.ext_getElem?
    intro j
    simp only [Module.setValue, List.getElem?_map, List.getElem?_modify]
    split
    · cases m.lines[j]? <;> rfl
    · cases m.lines[j]? <;> rfl
  · intro k q q' w h1 h2 h3
    simp only [Module.setValue, List.getElem?_modify] at h2
    split at h2
    · next he =>
      subst he
      rw [hl] at h1
      cases h1
      rw [hv] at h3
      cases h3
    · rw [h1] at h2
      simp at h2
      rw [← h2]; exact h3

/-- Line `l` has the value of its expression in `m`. -/
def EquRight (externs : Ctx) (m : Module) (l : Line) : Prop :=
  ∀ d, l.statement = .dir d → d.name = .equ →
    ∃ v, l.value = some v ∧ d.argument.eval (m.lookup l.scopes externs) = .ok v

theorem EquRight.mono {externs : Ctx} {m m' : Module} (h : MoreValues m m') {k : Nat} {l l' : Line}
    (hl : m.lines[k]? = some l) (hl' : m'.lines[k]? = some l') (hr : EquRight externs m l) :
    EquRight externs m' l' := by
  obtain ⟨q, h1, h2⟩ := getElem?_valueless h.lines hl
  rw [hl'] at h1
  cases h1
  obtain ⟨hst, -, hsc, -⟩ := valueless_fields h2
  intro d hd hn
  obtain ⟨v, hv, he⟩ := hr d (by rw [← hst]; exact hd) hn
  refine ⟨v, h.values k l l' v hl hl' hv, ?_⟩
  rw [hsc]
  exact eval_mono (fun id w => h.lookup l.scopes externs id w) _ v he

theorem evalEqu_spec {externs : Ctx} {m m' : Module} {i : Nat} {l : Line}
    (hl : m.lines[i]? = some l) (hnone : ∀ d, l.statement = .dir d → d.name = .equ → l.value = none)
    (h : Module.evalEqu externs m i l = .ok m') :
    MoreValues m m' ∧ (∀ l', m'.lines[i]? = some l' → EquRight externs m' l') ∧
      (∀ j, j ≠ i → m'.lines[j]? = m.lines[j]?) := by
  unfold Module.evalEqu at h
  cases hs : l.statement with
  | instr x =>
    rw [hs] at h
    simp at h
    subst h
    refine ⟨.refl _, ?_, fun _ _ => rfl⟩
    intro l' hl' d hd
    rw [hl] at hl'
    cases hl'
    rw [hs] at hd
    cases hd
  | dir d =>
    rw [hs] at h
    simp only at h
    by_cases hq : d.name = .equ
    · have hv := hnone d hs hq
      rw [if_pos ⟨hq, by rw [hv]; rfl⟩] at h
      replace h := Res.bind_eq_ok.mp h
      obtain ⟨v, hev, h⟩ := h
      simp at h
      subst h
      have hmore := setValue_more hl hv v
      refine ⟨hmore, ?_, ?_⟩
      · intro l' hl'
        simp only [Module.setValue, List.getElem?_modify, hl] at hl'
        simp at hl'
        subst hl'
        intro d' hd' _
        simp only [hs] at hd'
        cases hd'
        exact ⟨v, rfl, eval_mono (fun id w => hmore.lookup l.scopes externs id w) _ v hev⟩
      · intro j hj
        have hij : ¬ i = j := fun e => hj e.symm
        simp only [Module.setValue, List.getElem?_modify, hij, if_false]
        cases m.lines[j]? <;> rfl
    · rw [if_neg (fun e => hq e.1)] at h
      simp at h
      subst h
      refine ⟨.refl _, ?_, fun _ _ => rfl⟩
      intro l' hl' d' hd' hn
      rw [hl] at hl'
      cases hl'
      rw [hs] at hd'
      cases hd'
      exact absurd hn hq

theorem secondLoop_spec {externs : Ctx} : ∀ (n i : Nat) (m m' : Module),
    Module.secondLoop externs n i m = .ok m' →
    (∀ (j : Nat) (l : Line) (d : Directive), i ≤ j → m.lines[j]? = some l → l.statement = .dir d →
      d.name = .equ → l.value = none) →
    MoreValues m m' ∧ (∀ (j : Nat) (l : Line), i ≤ j → j < i + n → m'.lines[j]? = some l →
      EquRight externs m' l) ∧
    (∀ (j : Nat) (l l' : Line), m.lines[j]? = some l → m'.lines[j]? = some l' →
      l.statement.isDir .equ = false → l' = l) := by
  intro n
  induction n with
  | zero =>
    intro i m m' h _
    simp [Module.secondLoop] at h
    subst h
    exact ⟨.refl _, fun j l h1 h2 => by omega, fun j l l' h1 h2 _ => by rw [h1] at h2; cases h2; rfl⟩
  | succ n ih =>
    intro i m m' h hnone
    rw [Module.secondLoop] at h
    cases hl : m.lines[i]? with
    | none => rw [hl] at h; cases h
    | some l =>
      rw [hl] at h
      simp only at h
      replace h := Res.bind_eq_ok.mp h
      obtain ⟨m1, he, h⟩ := h
      obtain ⟨h1, h2, h3⟩ := evalEqu_spec hl (fun d hd hq => hnone i l d (Nat.le_refl _) hl hd hq) he
      obtain ⟨h4, h5, h6⟩ := ih (i + 1) m1 m' h (by
        intro j q d hj hq hd hn
        rw [h3 j (by omega)] at hq
        exact hnone j q d (by omega) hq hd hn)
      refine ⟨h1.trans h4, ?_, ?_⟩
      · intro j q hj hlt hq
        by_cases hji : j = i
        · subst hji
          obtain ⟨l1, hl1, -⟩ := getElem?_valueless h1.lines hl
          exact EquRight.mono h4 hl1 hq (h2 l1 hl1)
        · exact h5 j q (by omega) (by omega) hq
      · intro j q q' hq hq' hne
        obtain ⟨q1, hq1, hvl⟩ := getElem?_valueless h1.lines hq
        have hst := (valueless_fields hvl).1
        have e2 := h6 j q1 q' hq1 hq' (by rw [hst]; exact hne)
        subst e2
        by_cases hji : j = i
        · subst hji
          rw [hl] at hq
          cases hq
          unfold Module.evalEqu at he
          cases hs : l.statement with
          | instr x =>
            rw [hs] at he
            simp at he
            subst he
            rw [hl] at hq1
            exact (Option.some.inj hq1).symm
          | dir d =>
            rw [hs] at he hne
            simp only at he
            rw [if_neg (fun e => by simp [Statement.isDir, e.1] at hne)] at he
            simp at he
            subst he
            rw [hl] at hq1
            exact (Option.some.inj hq1).symm
        · rw [h3 j hji, hq] at hq1
          exact (Option.some.inj hq1).symm

/-- What the first pass keeps of a line. -/
theorem firstPass_line {fuel : Nat} {m m' : Module} (h : m.runFirstPass fuel = .ok m')
    {k : Nat} {l : Line} (hl : m'.lines[k]? = some l) :
    ∃ l₀, m.lines[k]? = some l₀ ∧ l.labels = l₀.labels ∧ l.scopes = l₀.scopes ∧
      l.locals = l₀.locals ∧ (∀ d, l.statement = .dir d ↔ l₀.statement = .dir d) ∧
      (l.statement.isDir .equ = true → l.value = l₀.value) := by
  obtain ⟨p, l1, l2, he, hfix, hlay, rfl⟩ := firstPass_parts h
  have hS : SameLines m p := explored_same he
  obtain ⟨b, hb, hlr⟩ := forall2_getElem? (layout_rel hlay) hl
  obtain ⟨c, hc, hfr⟩ := forall2_getElem? (fixLines_rel hfix) hb
  obtain ⟨l₀, h0, hbare⟩ := getElem?_bare hS hc
  obtain ⟨e1, e2, e3, e4, e5⟩ := bare_fields hbare
  have hlb : l.statement.isDir .equ = true → l = b := layout_equ hlay hb hl
  refine ⟨l₀, h0, ?_⟩
  unfold FixRel at hfr
  split at hfr
  · next d hd =>
    subst hfr
    refine ⟨by rw [hlr, ← e2], by rw [hlr, ← e4], by rw [hlr, ← e5], ?_, ?_⟩
    · intro d'; rw [hlr, ← e1]
    · intro hq; rw [hlb hq, e3]
  · next i hi =>
    obtain ⟨-, j, -, hj⟩ := hfr
    have hbs : b.statement = .instr j := by rw [hj]
    have hls : l.statement = .instr j := by rw [hlr, ← hbs]
    refine ⟨by rw [hlr, hj, ← e2], by rw [hlr, hj, ← e4], by rw [hlr, hj, ← e5], ?_, ?_⟩
    · intro d'; rw [hls, ← e1, hi]; simp
    · intro hq; rw [hls] at hq; cases hq

theorem firstPass_length {fuel : Nat} {m m' : Module} (h : m.runFirstPass fuel = .ok m') :
    m'.lines.length = m.lines.length := by
  obtain ⟨p, l1, l2, he, hfix, hlay, rfl⟩ := firstPass_parts h
  have hS : SameLines m p := explored_same he
  have h1 := congrArg List.length hS
  simp at h1
  rw [← h1, (fixLines_rel hfix).length_eq, (layout_rel hlay).length_eq]

theorem firstPass_localIndex {fuel : Nat} {m m' : Module} (h : m.runFirstPass fuel = .ok m')
    (name : Str) (scopes : List Nat) : m'.localIndex name scopes = m.localIndex name scopes := by
  refine localIndex_congr ?_ ?_ name scopes
  · obtain ⟨_, _, _, _, _, _, rfl⟩ := firstPass_parts h; rfl
  · intro j
    unfold Module.localsAt
    cases hl : m'.lines[j]? with
    | some l =>
      obtain ⟨l₀, h0, -, -, h4, -⟩ := firstPass_line h hl
      rw [h0]; exact h4
    | none =>
      have : m.lines[j]? = none := by
        rw [List.getElem?_eq_none_iff] at hl ⊢
        rw [← firstPass_length h]; exact hl
      rw [this]

theorem firstPass_name {fuel : Nat} {m m' : Module} (h : m.runFirstPass fuel = .ok m') :
    m'.name = m.name ∧ m'.globals = m.globals ∧ m'.deps = m.deps ∧ m'.owned = m.owned ∧
      m'.addrNames = m.addrNames ∧ m'.targets = m.targets ∧ m'.conventions = m.conventions := by
  obtain ⟨_, _, _, _, _, _, rfl⟩ := firstPass_parts h; exact ⟨rfl, rfl, rfl, rfl, rfl, rfl, rfl⟩

end Nsasm
