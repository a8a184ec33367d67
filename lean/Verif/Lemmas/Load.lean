import Verif.Model.Module
import Verif.Spec.Module
import Mathlib.Tactic.Common
import Mathlib.Data.List.Nodup
import Mathlib.Data.List.Induction

/-! # Facts about loading a module -/

namespace Nsasm
open Spec

/-- The stack of open scopes before statement `i`, innermost first. -/
def openAt (P : Program) : Nat → List Nat
  | 0 => []
  | i + 1 =>
    match P[i]? with
    | none => openAt P i
    | some l =>
      if IsDirective .begin_ l then i :: openAt P i
      else if IsDirective .end_ l then (openAt P i).tail
      else openAt P i

theorem begin_not_end {l : ProgLine} (h : IsDirective .begin_ l = true) :
    IsDirective .end_ l = false := by
  unfold IsDirective at *
  cases hs : l.statement with
  | instr i => rfl
  | dir d =>
    rw [hs] at h
    simp only [decide_eq_true_eq] at h
    simp [h]

theorem isDirective_congr {l l' : ProgLine} (h : l.statement = l'.statement) {n : DirectiveName} :
    IsDirective n l = IsDirective n l' := by
  unfold IsDirective
  rw [h]

theorem level_succ (P : Program) (i : Nat) (l : ProgLine) (h : P[i]? = some l) :
    level P (i + 1) = level P i + (if IsDirective .begin_ l then 1 else 0)
      - (if IsDirective .end_ l then 1 else 0) := by
  unfold level
  rw [List.take_add_one, h]
  simp only [Option.toList, List.countP_append, List.countP_cons, List.countP_nil]
  split <;> split <;> simp <;> omega

theorem openAt_index (P : Program) : ∀ i, i ≤ P.length → ∀ (p j : Nat), (openAt P i)[p]? = some j →
    j < i ∧ level P i = level P (j + 1) + p ∧ Encloses P j i := by
  intro i
  induction i with
  | zero => intro _ p j h; simp [openAt] at h
  | succ i ih =>
    intro hi p j h
    obtain ⟨l, hl⟩ : ∃ l, P[i]? = some l := ⟨P[i]'(by omega), by simp⟩
    have hlev := level_succ P i l hl
    rw [openAt, hl] at h
    simp only at h
    by_cases hb : IsDirective .begin_ l = true
    · rw [if_pos hb] at h
      have he := begin_not_end hb
      rw [hb, he] at hlev
      cases p with
      | zero =>
        simp at h
        subst h
        refine ⟨by omega, by simp, by omega, hi, ⟨l, hl, hb⟩, ?_⟩
        intro k h1 h2
        have : k = i + 1 := by omega
        subst this; exact Int.le_refl _
      | succ p =>
        simp at h
        obtain ⟨h1, h2, h3⟩ := ih (by omega) p j h
        refine ⟨by omega, by simp at hlev ⊢; omega, by omega, hi, h3.2.2.1, ?_⟩
        intro k hk1 hk2
        by_cases hk : k ≤ i
        · exact h3.2.2.2 k hk1 hk
        · have : k = i + 1 := by omega
          subst this
          have := h3.2.2.2 i h1 (by omega)
          simp at hlev; omega
    · rw [if_neg hb] at h
      by_cases he : IsDirective .end_ l = true
      · rw [if_pos he, List.getElem?_tail] at h
        obtain ⟨h1, h2, h3⟩ := ih (by omega) (p + 1) j h
        rw [he] at hlev
        simp [hb] at hlev
        refine ⟨by omega, by push_cast at h2; omega, by omega, hi, h3.2.2.1, ?_⟩
        intro k hk1 hk2
        by_cases hk : k ≤ i
        · exact h3.2.2.2 k hk1 hk
        · have : k = i + 1 := by omega
          subst this
          push_cast at h2; omega
      · rw [if_neg he] at h
        obtain ⟨h1, h2, h3⟩ := ih (by omega) p j h
        simp [hb, he] at hlev
        refine ⟨by omega, by omega, by omega, hi, h3.2.2.1, ?_⟩
        intro k hk1 hk2
        by_cases hk : k ≤ i
        · exact h3.2.2.2 k hk1 hk
        · have : k = i + 1 := by omega
          subst this
          have := h3.2.2.2 i h1 (by omega)
          omega

theorem encloses_openAt (P : Program) : ∀ i j, Encloses P j i → j ∈ openAt P i := by
  intro i
  induction i with
  | zero => intro j h; exact absurd h.1 (by omega)
  | succ i ih =>
    intro j h
    obtain ⟨h1, h2, ⟨lj, hlj, hbj⟩, h4⟩ := h
    obtain ⟨l, hl⟩ : ∃ l, P[i]? = some l := ⟨P[i]'(by omega), by simp⟩
    have hlev := level_succ P i l hl
    rw [openAt, hl]
    simp only
    by_cases hj : j = i
    · subst hj
      rw [hl] at hlj
      cases hlj
      rw [if_pos hbj]
      simp
    · have hji : j ∈ openAt P i :=
        ih j ⟨by omega, by omega, ⟨lj, hlj, hbj⟩, fun k k1 k2 => h4 k k1 (by omega)⟩
      by_cases hb : IsDirective .begin_ l = true
      · rw [if_pos hb]; exact List.mem_cons_of_mem _ hji
      · rw [if_neg hb]
        by_cases he : IsDirective .end_ l = true
        · rw [if_pos he]
          obtain ⟨p, hp⟩ := List.getElem?_of_mem hji
          obtain ⟨-, q2, -⟩ := openAt_index P i (by omega) p j hp
          have h5 := h4 (i + 1) (by omega) (by omega)
          simp [hb, he] at hlev
          cases p with
          | zero => simp at q2; omega
          | succ p =>
            rw [← List.getElem?_tail] at hp
            exact List.mem_of_getElem? hp
        · rw [if_neg he]; exact hji

theorem mem_openAt {P : Program} {i j : Nat} (hi : i ≤ P.length) :
    j ∈ openAt P i ↔ Encloses P j i := by
  constructor
  · intro h
    obtain ⟨p, hp⟩ := List.getElem?_of_mem h
    exact (openAt_index P i hi p j hp).2.2
  · exact encloses_openAt P i j

/-- The stack lists the open scopes from the innermost out. -/
theorem openAt_sorted (P : Program) : ∀ i, i ≤ P.length → (openAt P i).Pairwise (· > ·) := by
  intro i
  induction i with
  | zero => intro _; simp [openAt]
  | succ i ih =>
    intro hi
    obtain ⟨l, hl⟩ : ∃ l, P[i]? = some l := ⟨P[i]'(by omega), by simp⟩
    rw [openAt, hl]
    simp only
    split
    · rw [List.pairwise_cons]
      refine ⟨?_, ih (by omega)⟩
      intro j hj
      exact ((mem_openAt (by omega)).mp hj).1
    · split
      · exact (ih (by omega)).tail
      · exact ih (by omega)

theorem openAt_append (P Q : Program) : ∀ i, i ≤ P.length → openAt (P ++ Q) i = openAt P i := by
  intro i
  induction i with
  | zero => intro _; rfl
  | succ i ih =>
    intro hi
    rw [openAt, openAt, List.getElem?_append_left (by omega), ih (by omega)]

/-- Only the statements matter for the scopes. -/
theorem openAt_statements {P Q : Program} (h : P.map (·.statement) = Q.map (·.statement)) :
    ∀ i, openAt P i = openAt Q i := by
  intro i
  induction i with
  | zero => rfl
  | succ i ih =>
    have hi : P[i]?.map (·.statement) = Q[i]?.map (·.statement) := by
      rw [← List.getElem?_map, ← List.getElem?_map, h]
    rw [openAt, openAt, ih]
    cases h1 : P[i]? <;> cases h2 : Q[i]? <;> rw [h1, h2] at hi <;> simp at hi
    simp only [isDirective_congr hi]

/-- The scope of a label at statement `i`. -/
def scopeOf (P : Program) (l : ParsedLabel) (i : Nat) : Option Nat :=
  if l.exported then none else (openAt P i).head?

theorem inScope_iff {P : Program} {l : ParsedLabel} {i : Nat} (hi : i ≤ P.length) (s : Option Nat) :
    InScope P l i s ↔ scopeOf P l i = s := by
  unfold scopeOf InScope
  have hs := openAt_sorted P i hi
  have hm := fun j => mem_openAt (P := P) (i := i) (j := j) hi
  cases he : l.exported
  · simp only [Bool.false_eq_true, if_false, false_or, true_and]
    cases ho : openAt P i with
    | nil =>
      rw [ho] at hm
      cases s with
      | none => simp [← hm]
      | some j => simp [← hm]
    | cons a rest =>
      rw [ho] at hm hs
      rw [List.pairwise_cons] at hs
      cases s with
      | none => 
        simp only [List.head?_cons, reduceCtorEq, iff_false]
        intro h
        exact h a ((hm a).mp (by simp))
      | some j =>
        simp only [List.head?_cons, Option.some.injEq]
        constructor
        · rintro ⟨h1, h2⟩
          have h3 := h2 a ((hm a).mp (by simp))
          rw [← hm, List.mem_cons] at h1
          rcases h1 with h1 | h1
          · exact h1.symm
          · have := hs.1 j h1; omega
        · rintro rfl
          refine ⟨(hm _).mp (by simp), ?_⟩
          intro j' hj'
          rw [← hm, List.mem_cons] at hj'
          rcases hj' with h1 | h1
          · omega
          · have := hs.1 j' h1; omega
  · cases s <;> simp

/-- The definitions made by a line. -/
def lineDefs (P : Program) (i : Nat) (line : ProgLine) : List (Option Nat × Str × Nat) :=
  line.labels.map fun l => (scopeOf P l i, l.name, i)

/-- All definitions: scope, name and statement. -/
def defs (P : Program) : List (Option Nat × Str × Nat) :=
  (List.range P.length).flatMap fun i =>
    match P[i]? with
    | some line => lineDefs P i line
    | none => []

theorem lineDefs_append (P Q : Program) {i : Nat} (h : i ≤ P.length) (line : ProgLine) :
    lineDefs (P ++ Q) i line = lineDefs P i line := by
  unfold lineDefs scopeOf
  rw [openAt_append P Q i h]

theorem defs_append (P : Program) (line : ProgLine) :
    defs (P ++ [line]) = defs P ++ lineDefs P P.length line := by
  unfold defs
  rw [List.length_append, List.length_singleton, List.range_succ, List.flatMap_append]
  congr 1
  · apply List.flatMap_congr
    intro i hi
    rw [List.mem_range] at hi
    rw [List.getElem?_append_left hi]
    cases hp : P[i]? with
    | none => rfl
    | some l => exact lineDefs_append P [line] (by omega) l
  · simp [lineDefs_append P [line] (Nat.le_refl _)]

theorem mem_defs {P : Program} {s : Option Nat} {name : Str} {i : Nat} :
    (s, name, i) ∈ defs P ↔ Defines P s name i := by
  unfold defs Defines DefinesAt
  rw [List.mem_flatMap]
  constructor
  · rintro ⟨k, hk, hm⟩
    rw [List.mem_range] at hk
    rw [List.getElem?_eq_getElem hk] at hm
    simp only [lineDefs, List.mem_map, Prod.mk.injEq] at hm
    obtain ⟨l, hl, h1, h2, rfl⟩ := hm
    obtain ⟨n, hn⟩ := List.getElem?_of_mem hl
    exact ⟨n, P[k], l, List.getElem?_eq_getElem hk, hn, h2, (inScope_iff (by omega) s).mpr h1⟩
  · rintro ⟨n, line, l, h1, h2, h3, h4⟩
    have hi : i < P.length := by
      by_contra hc
      rw [List.getElem?_eq_none (by omega)] at h1
      cases h1
    refine ⟨i, List.mem_range.mpr hi, ?_⟩
    rw [h1]
    simp only [lineDefs, List.mem_map, Prod.mk.injEq, and_true]
    exact ⟨l, List.mem_of_getElem? h2, (inScope_iff (by omega) s).mp h4, h3⟩

/-- The scope and name of a definition. -/
def defKey (d : Option Nat × Str × Nat) : Option Nat × Str := (d.1, d.2.1)

theorem definesAt_iff {P : Program} {s : Option Nat} {name : Str} {i n : Nat} :
    DefinesAt P s name i n ↔
      ∃ line l, P[i]? = some line ∧ line.labels[n]? = some l ∧ l.name = name ∧ scopeOf P l i = s := by
  unfold DefinesAt
  constructor
  · rintro ⟨line, l, h1, h2, h3, h4⟩
    have hi : i < P.length := by
      by_contra hc
      rw [List.getElem?_eq_none (by omega)] at h1
      cases h1
    exact ⟨line, l, h1, h2, h3, (inScope_iff (by omega) s).mp h4⟩
  · rintro ⟨line, l, h1, h2, h3, h4⟩
    have hi : i < P.length := by
      by_contra hc
      rw [List.getElem?_eq_none (by omega)] at h1
      cases h1
    exact ⟨line, l, h1, h2, h3, (inScope_iff (by omega) s).mpr h4⟩

theorem definesAt_append {P : Program} {line : ProgLine} {s : Option Nat} {name : Str} {i n : Nat} :
    DefinesAt (P ++ [line]) s name i n ↔
      DefinesAt P s name i n ∨
      (i = P.length ∧ ∃ l, line.labels[n]? = some l ∧ l.name = name ∧ scopeOf P l i = s) := by
  rw [definesAt_iff, definesAt_iff]
  by_cases hi : i < P.length
  · rw [List.getElem?_append_left hi]
    have : ∀ l, scopeOf (P ++ [line]) l i = scopeOf P l i := by
      intro l; unfold scopeOf; rw [openAt_append P [line] i (by omega)]
    simp only [this]
    constructor
    · exact Or.inl
    · rintro (h | ⟨h, -⟩)
      · exact h
      · omega
  · by_cases he : i = P.length
    · subst he
      have : ∀ l, scopeOf (P ++ [line]) l P.length = scopeOf P l P.length := by
        intro l; unfold scopeOf; rw [openAt_append P [line] _ (by omega)]
      simp [this]
    · rw [List.getElem?_eq_none (by simp; omega), List.getElem?_eq_none (by omega)]
      simp [he]

/-- The keys of all definitions. -/
def keys (P : Program) : List (Option Nat × Str) := (defs P).map defKey

theorem keys_append (P : Program) (line : ProgLine) :
    keys (P ++ [line]) = keys P ++ line.labels.map (fun l => (scopeOf P l P.length, l.name)) := by
  unfold keys
  rw [defs_append, List.map_append]
  congr 1
  simp [lineDefs, defKey]

theorem mem_keys {P : Program} {s : Option Nat} {name : Str} :
    (s, name) ∈ keys P ↔ ∃ i, Defines P s name i := by
  unfold keys
  rw [List.mem_map]
  constructor
  · rintro ⟨⟨s', name', i⟩, h1, h2⟩
    simp [defKey] at h2
    obtain ⟨rfl, rfl⟩ := h2
    exact ⟨i, mem_defs.mp h1⟩
  · rintro ⟨i, h⟩
    exact ⟨(s, name, i), mem_defs.mpr h, rfl⟩

theorem noDuplicates_iff (P : Program) : NoDuplicates P ↔ (keys P).Nodup := by
  induction P using List.reverseRecOn with
  | nil => 
    constructor
    · intro _; simp [keys, defs]
    · rintro - s name i n i' n' ⟨line, l, h, -⟩ -
      simp at h
  | append_singleton P line ih =>
    rw [keys_append, List.nodup_append, ← ih]
    constructor
    · intro h
      refine ⟨?_, ?_, ?_⟩
      · intro s name i n i' n' h1 h2
        exact h s name i n i' n' (definesAt_append.mpr (.inl h1)) (definesAt_append.mpr (.inl h2))
      · rw [List.nodup_iff_getElem?_ne_getElem?]
        intro n n' hn hn' heq
        rw [List.length_map] at hn'
        rw [List.getElem?_map, List.getElem?_map, List.getElem?_eq_getElem hn',
          List.getElem?_eq_getElem (by omega)] at heq
        simp only [Option.map_some, Option.some.injEq, Prod.mk.injEq] at heq
        have := h _ _ P.length n P.length n'
          (definesAt_append.mpr (.inr ⟨rfl, _, List.getElem?_eq_getElem (by omega), rfl, rfl⟩))
          (definesAt_append.mpr (.inr ⟨rfl, _, List.getElem?_eq_getElem hn', heq.2.symm, heq.1.symm⟩))
        omega
      · intro a ha b hb hab
        subst hab
        obtain ⟨s, name⟩ := a
        obtain ⟨i, n, h1⟩ := mem_keys.mp ha
        rw [List.mem_map] at hb
        obtain ⟨l, hl, he⟩ := hb
        simp only [Prod.mk.injEq] at he
        obtain ⟨n', hn'⟩ := List.getElem?_of_mem hl
        have h2 := h s name i n P.length n' (definesAt_append.mpr (.inl h1))
          (definesAt_append.mpr (.inr ⟨rfl, l, hn', he.2, he.1⟩))
        obtain ⟨line', l', h3, -⟩ := h1
        rw [h2.1, List.getElem?_eq_none (by omega)] at h3
        cases h3
    · rintro ⟨h1, h2, h3⟩ s name i n i' n' d1 d2
      rw [definesAt_append] at d1 d2
      rcases d1 with d1 | ⟨rfl, l, a1, a2, a3⟩ <;> rcases d2 with d2 | ⟨rfl, l', b1, b2, b3⟩
      · exact h1 _ _ _ _ _ _ d1 d2
      · exact absurd rfl (h3 (s, name) (mem_keys.mpr ⟨_, _, d1⟩) (s, name)
          (List.mem_map.mpr ⟨l', List.mem_of_getElem? b1, by rw [b2, b3]⟩))
      · exact absurd rfl (h3 (s, name) (mem_keys.mpr ⟨_, _, d2⟩) (s, name)
          (List.mem_map.mpr ⟨l, List.mem_of_getElem? a1, by rw [a2, a3]⟩))
      · refine ⟨rfl, ?_⟩
        rw [List.nodup_iff_getElem?_ne_getElem?] at h2
        have hlen : ∀ {k : Nat} {q : ParsedLabel}, line.labels[k]? = some q → k < line.labels.length := by
          intro k q hk
          by_contra hc
          rw [List.getElem?_eq_none (by omega)] at hk
          cases hk
        have l1 := hlen a1
        have l2 := hlen b1
        have heq : (line.labels.map (fun l => (scopeOf P l P.length, l.name)))[n]? =
            (line.labels.map (fun l => (scopeOf P l P.length, l.name)))[n']? := by
          rw [List.getElem?_map, List.getElem?_map, a1, b1]
          simp [a2, b2, a3, b3]
        rcases Nat.lt_trichotomy n n' with hc | hc | hc
        · exact absurd heq (h2 n n' hc (by simpa using l2))
        · exact hc
        · exact absurd heq.symm (h2 n' n hc (by simpa using l1))

/-! ## Lookup tables -/

/-- The definitions of one scope. -/
def tableOf (s : Option Nat) (D : List (Option Nat × Str × Nat)) : HMap Str Nat :=
  D.filterMap fun d => if d.1 = s then some d.2 else none

theorem tableOf_append (s : Option Nat) (D E : List (Option Nat × Str × Nat)) :
    tableOf s (D ++ E) = tableOf s D ++ tableOf s E := by
  simp [tableOf, List.filterMap_append]

theorem find_append {κ ν : Type} [DecidableEq κ] (m n : HMap κ ν) (k : κ) :
    HMap.find (m ++ n) k = (HMap.find m k).or (HMap.find n k) := by
  induction m with
  | nil => simp [HMap.find]
  | cons a m ih =>
    obtain ⟨k', v⟩ := a
    rw [List.cons_append, HMap.find, HMap.find, ih]
    split <;> simp

theorem find_mem {κ ν : Type} [DecidableEq κ] {m : HMap κ ν} {k : κ} {v : ν}
    (h : HMap.find m k = some v) : (k, v) ∈ m := by
  induction m with
  | nil => simp [HMap.find] at h
  | cons a m ih =>
    obtain ⟨k', w⟩ := a
    rw [HMap.find] at h
    split at h
    · next he => cases h; subst he; simp
    · exact List.mem_cons_of_mem _ (ih h)

theorem find_none {κ ν : Type} [DecidableEq κ] {m : HMap κ ν} {k : κ} :
    HMap.find m k = none ↔ ∀ v, (k, v) ∉ m := by
  induction m with
  | nil => simp [HMap.find]
  | cons a m ih =>
    obtain ⟨k', w⟩ := a
    rw [HMap.find]
    split
    · next he =>
      subst he
      simp only [reduceCtorEq, false_iff, not_forall]
      exact ⟨w, fun h => h (by simp)⟩
    · next he => 
      rw [ih]
      constructor
      · intro h v hv
        rw [List.mem_cons] at hv
        rcases hv with hv | hv
        · cases hv; exact he rfl
        · exact h v hv
      · intro h v hv
        exact h v (List.mem_cons_of_mem _ hv)

theorem mem_tableOf {s : Option Nat} {D : List (Option Nat × Str × Nat)} {name : Str} {t : Nat} :
    (name, t) ∈ tableOf s D ↔ (s, name, t) ∈ D := by
  unfold tableOf
  rw [List.mem_filterMap]
  constructor
  · rintro ⟨⟨s', d⟩, h1, h2⟩
    split at h2
    · next he => simp at he h2; subst he; subst h2; exact h1
    · cases h2
  · intro h
    exact ⟨(s, name, t), h, by simp⟩

theorem has_tableOf {s : Option Nat} {P : Program} {name : Str} :
    HMap.has (tableOf s (defs P)) name = true ↔ (s, name) ∈ keys P := by
  unfold HMap.has
  rw [Option.isSome_iff_ne_none, ne_eq, find_none, mem_keys]
  simp only [mem_tableOf, mem_defs, not_forall, not_not]

theorem find_tableOf {s : Option Nat} {P : Program} {name : Str} {t : Nat} (h : (keys P).Nodup) :
    HMap.find (tableOf s (defs P)) name = some t ↔ Defines P s name t := by
  constructor
  · intro hf
    exact mem_defs.mp (mem_tableOf.mp (find_mem hf))
  · intro hd
    cases hf : HMap.find (tableOf s (defs P)) name with
    | none =>
      rw [find_none] at hf
      exact absurd (mem_tableOf.mpr (mem_defs.mpr hd)) (hf t)
    | some t' =>
      obtain ⟨n', hd'⟩ := mem_defs.mp (mem_tableOf.mp (find_mem hf))
      obtain ⟨n, hd⟩ := hd
      rw [(((noDuplicates_iff P).mpr h) s name _ _ _ _ hd' hd).1]

end Nsasm
