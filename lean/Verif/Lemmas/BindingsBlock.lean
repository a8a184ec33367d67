import Verif.Lemmas.BindingsLoad

/-! # Only what the names stand for matters: a name of a block -/

namespace Nsasm.Bindings
open Spec

/-! ## Blocks -/

theorem isDirective_rename (v w : Str) (n : DirectiveName) (l : ProgLine) : IsDirective n (renameLine v w l) = IsDirective n l := by
  obtain ⟨ls, st⟩ := l
  cases st with
  | instr i => rfl
  | dir d =>
    simp only [IsDirective, renameLine, renameStatement]
    by_cases h : d.name = .module_
    · rw [if_pos h]
    · rw [if_neg h]

/-- The name as it is written in the block. -/
def called (v w n : Str) : Str := if n = v then w else n

section
variable {P P' : Program} {s : Nat} {v w : Str}

theorem line_cases (h : RenamedInBlock P s v w P') (k : Nat) : (P[k]? = none ∧ P'[k]? = none) ∨
    (∃ l, P[k]? = some l ∧ Encloses P s k ∧ P'[k]? = some (renameLine v w l)) ∨ (∃ l, P[k]? = some l ∧ ¬ Encloses P s k ∧ P'[k]? = some l) := by
  cases hk : P[k]? with
  | none => exact .inl ⟨rfl, by rw [List.getElem?_eq_none_iff] at hk ⊢; rw [h.length]; exact hk⟩
  | some l =>
    by_cases he : Encloses P s k
    · exact .inr (.inl ⟨l, rfl, he, h.inside k l he hk⟩)
    · exact .inr (.inr ⟨l, rfl, he, h.outside k l he hk⟩)

theorem directives_same (h : RenamedInBlock P s v w P') (n : DirectiveName) : P'.map (IsDirective n) = P.map (IsDirective n) := by
  apply List.ext_getElem?
  intro k
  rw [List.getElem?_map, List.getElem?_map]
  rcases line_cases h k with ⟨h1, h2⟩ | ⟨l, h1, -, h2⟩ | ⟨l, h1, -, h2⟩
  · rw [h1, h2]
  · rw [h1, h2]; simp [isDirective_rename]
  · rw [h1, h2]

theorem level_same (h : RenamedInBlock P s v w P') (i : Nat) : level P' i = level P i := by
  have hc : ∀ n, (P'.take i).countP (IsDirective n) = (P.take i).countP (IsDirective n) := by
    intro n
    have e := congrArg (List.take i) (directives_same h n)
    rw [← List.map_take, ← List.map_take] at e
    have := congrArg (List.countP id) e
    rwa [List.countP_map, List.countP_map] at this
  simp only [level, hc]

theorem begin_same (h : RenamedInBlock P s v w P') (n : DirectiveName) (j : Nat) :
    (∃ l, P'[j]? = some l ∧ IsDirective n l = true) ↔ ∃ l, P[j]? = some l ∧ IsDirective n l = true := by
  rcases line_cases h j with ⟨h1, h2⟩ | ⟨l, h1, -, h2⟩ | ⟨l, h1, -, h2⟩
  · rw [h1, h2]
  · rw [h1, h2]; simp [isDirective_rename]
  · rw [h1, h2]

theorem encloses_same (h : RenamedInBlock P s v w P') (j i : Nat) : Encloses P' j i ↔ Encloses P j i := by
  simp only [Encloses, level_same h, begin_same h, h.length]

theorem inScope_same (h : RenamedInBlock P s v w P') (l : ParsedLabel) (i : Nat) (o : Option Nat) : InScope P' l i o ↔ InScope P l i o := by
  cases o with
  | none => simp only [InScope, encloses_same h]
  | some j => simp only [InScope, encloses_same h]

/-- Two blocks around a statement: one is in the other. -/
theorem encloses_nest {i j k : Nat} (hi : Encloses P i k) (hj : Encloses P j k) (hij : i < j) : Encloses P i j :=
  ⟨hij, by have := hj.1; have := hj.2.1; omega, hi.2.2.1, fun x h1 h2 => hi.2.2.2 x h1 (by have := hj.1; omega)⟩

theorem encloses_trans {i j k : Nat} (hij : Encloses P i j) (hjk : Encloses P j k) : Encloses P i k := by
  refine ⟨by have := hij.1; have := hjk.1; omega, hjk.2.1, hij.2.2.1, fun x h1 h2 => ?_⟩
  by_cases hx : x ≤ j
  · exact hij.2.2.2 x h1 hx
  · obtain ⟨l, hl, hb⟩ := hjk.2.2.1
    have e := level_succ P j l hl
    rw [hb, begin_not_end hb] at e
    have h3 := hij.2.2.2 j hij.1 (by omega)
    have h4 := hjk.2.2.2 x (by omega) h2
    simp at e
    omega

/-- The block itself and those in it. -/
def Zone (P : Program) (s j : Nat) : Prop := j = s ∨ Encloses P s j

theorem zone_of_inside {j k : Nat} (hs : Encloses P s k) (hj : Encloses P j k) (hle : s ≤ j) : Zone P s j := by
  rcases Nat.lt_or_ge s j with h | h
  · exact .inr (encloses_nest hs hj h)
  · exact .inl (by omega)

theorem not_zone_of_outside {j k : Nat} (hs : ¬ Encloses P s k) (hj : Encloses P j k) : ¬ Zone P s j := by
  rintro (rfl | h)
  · exact hs hj
  · exact hs (encloses_trans h hj)

/-! ## Definitions -/

theorem renameLabel_exported (v w : Str) (l : ParsedLabel) : (renameLabel v w l).exported = l.exported := by
  unfold renameLabel; split <;> rfl

theorem renameLabel_name (v w : Str) {l : ParsedLabel} (h : l.exported = false) : (renameLabel v w l).name = called v w l.name := by
  unfold renameLabel called
  by_cases hn : l.name = v <;> simp [h, hn]

theorem renameLabel_wide (v w : Str) {l : ParsedLabel} (h : l.exported = true) : renameLabel v w l = l := by
  unfold renameLabel; simp [h]

theorem inScope_exported {l l' : ParsedLabel} (h : l'.exported = l.exported) (P : Program) (i : Nat) (o : Option Nat) :
    InScope P l' i o ↔ InScope P l i o := by
  cases o with
  | none => simp only [InScope, h]
  | some j => simp only [InScope, h]

theorem definesAt_inside (h : RenamedInBlock P s v w P') {j : Nat} (hj : Zone P s j) {n' : Str} {i a : Nat} :
    DefinesAt P' (some j) n' i a ↔ ∃ n, DefinesAt P (some j) n i a ∧ n ≠ w ∧ n' = called v w n := by
  constructor
  · rintro ⟨line', l', h1, h2, h3, h4⟩
    rw [inScope_same h] at h4
    have hs : Encloses P s i := by
      rcases hj with rfl | hj
      · exact h4.2.1
      · exact encloses_trans hj h4.2.1
    rcases line_cases h i with ⟨-, e⟩ | ⟨line, e1, -, e2⟩ | ⟨line, -, e, -⟩
    · rw [e] at h1; cases h1
    · rw [e2] at h1
      cases h1
      simp only [renameLine, List.getElem?_map, Option.map_eq_some_iff] at h2
      obtain ⟨l, h5, rfl⟩ := h2
      have he : l.exported = false := by rw [← renameLabel_exported v w]; exact h4.1
      refine ⟨l.name, ⟨line, l, e1, h5, rfl, (inScope_exported (renameLabel_exported v w l) _ _ _).mp h4⟩, ?_, ?_⟩
      · exact fun hw => h.unused i line hs e1 (.inl ⟨l, List.mem_of_getElem? h5, hw⟩)
      · rw [← h3, renameLabel_name v w he]
    · exact absurd hs e
  · rintro ⟨n, ⟨line, l, h1, h2, h3, h4⟩, -, h5⟩
    have hs : Encloses P s i := by
      rcases hj with rfl | hj
      · exact h4.2.1
      · exact encloses_trans hj h4.2.1
    refine ⟨renameLine v w line, renameLabel v w l, h.inside i line hs h1, by simp [renameLine, h2], ?_, ?_⟩
    · rw [renameLabel_name v w h4.1, h3, h5]
    · rw [inScope_same h]
      exact (inScope_exported (renameLabel_exported v w l) _ _ _).mpr h4

theorem definesAt_outside (h : RenamedInBlock P s v w P') {j : Nat} (hj : ¬ Zone P s j) {n : Str} {i a : Nat} :
    DefinesAt P' (some j) n i a ↔ DefinesAt P (some j) n i a := by
  have hs : ∀ {l : ParsedLabel}, InScope P l i (some j) → ¬ Encloses P s i := by
    intro l hl hs
    exact hj (zone_of_inside hs hl.2.1 (hl.2.2 s hs))
  constructor
  · rintro ⟨line', l', h1, h2, h3, h4⟩
    rw [inScope_same h] at h4
    rcases line_cases h i with ⟨-, e⟩ | ⟨line, e1, e, -⟩ | ⟨line, e1, -, e2⟩
    · rw [e] at h1; cases h1
    · exact absurd e (hs h4)
    · rw [e2] at h1
      cases h1
      exact ⟨line', l', e1, h2, h3, h4⟩
  · rintro ⟨line, l, h1, h2, h3, h4⟩
    exact ⟨line, l, h.outside i line (hs h4) h1, h2, h3, (inScope_same h _ _ _).mpr h4⟩

theorem definesAt_wide (h : RenamedInBlock P s v w P') {n : Str} {i a : Nat} :
    DefinesAt P' none n i a ↔ DefinesAt P none n i a := by
  have hx : ∀ {l : ParsedLabel}, Encloses P s i → InScope P l i none → l.exported = true := by
    intro l hs hl
    rcases hl with hl | hl
    · exact hl
    · exact absurd hs (hl s)
  constructor
  · rintro ⟨line', l', h1, h2, h3, h4⟩
    rw [inScope_same h] at h4
    rcases line_cases h i with ⟨-, e⟩ | ⟨line, e1, e, e2⟩ | ⟨line, e1, -, e2⟩
    · rw [e] at h1; cases h1
    · rw [e2] at h1
      cases h1
      simp only [renameLine, List.getElem?_map, Option.map_eq_some_iff] at h2
      obtain ⟨l, h5, rfl⟩ := h2
      have he := hx e h4
      rw [renameLabel_exported] at he
      rw [renameLabel_wide v w he] at h3 h4
      exact ⟨line, l, e1, h5, h3, h4⟩
    · rw [e2] at h1
      cases h1
      exact ⟨line', l', e1, h2, h3, h4⟩
  · rintro ⟨line, l, h1, h2, h3, h4⟩
    by_cases hs : Encloses P s i
    · refine ⟨renameLine v w line, l, h.inside i line hs h1, ?_, h3, (inScope_same h _ _ _).mpr h4⟩
      simp [renameLine, h2, renameLabel_wide v w (hx hs h4)]
    · exact ⟨line, l, h.outside i line hs h1, h2, h3, (inScope_same h _ _ _).mpr h4⟩

theorem called_injective {n n' : Str} (h1 : n ≠ w) (h2 : n' ≠ w) (h : called v w n = called v w n') : n = n' := by
  unfold called at h
  by_cases a : n = v <;> by_cases b : n' = v
  · rw [a, b]
  · rw [if_pos a, if_neg b] at h; exact absurd h.symm h2
  · rw [if_neg a, if_pos b] at h; exact absurd h h1
  · rwa [if_neg a, if_neg b] at h

theorem defines_inside (h : RenamedInBlock P s v w P') {j : Nat} (hj : Zone P s j) {n : Str} {t : Nat} :
    Defines P' (some j) n t ↔ ∃ n₀, Defines P (some j) n₀ t ∧ n₀ ≠ w ∧ n = called v w n₀ := by
  simp only [Defines, definesAt_inside h hj]
  constructor
  · rintro ⟨a, n₀, h1, h2⟩; exact ⟨n₀, ⟨a, h1⟩, h2⟩
  · rintro ⟨n₀, ⟨a, h1⟩, h2⟩; exact ⟨a, n₀, h1, h2⟩

theorem defines_outside (h : RenamedInBlock P s v w P') {j : Nat} (hj : ¬ Zone P s j) {n : Str} {t : Nat} :
    Defines P' (some j) n t ↔ Defines P (some j) n t := by simp only [Defines, definesAt_outside h hj]

theorem defines_wide (h : RenamedInBlock P s v w P') {n : Str} {t : Nat} : Defines P' none n t ↔ Defines P none n t := by
  simp only [Defines, definesAt_wide h]

theorem zone_unmentioned (h : RenamedInBlock P s v w P') {j : Nat} (hj : Zone P s j) {n : Str} {t : Nat} (hd : Defines P (some j) n t) :
    n ≠ w := by
  obtain ⟨a, line, l, h1, h2, h3, h4⟩ := hd
  have hs : Encloses P s t := by
    rcases hj with rfl | hj
    · exact h4.2.1
    · exact encloses_trans hj h4.2.1
  exact fun hw => h.unused t line hs h1 (.inl ⟨l, List.mem_of_getElem? h2, h3.trans hw⟩)

/-- Another name than the two means the same as before. -/
theorem defines_other (h : RenamedInBlock P s v w P') (j : Nat) {n : Str} (hv : n ≠ v) (hw : n ≠ w) (t : Nat) :
    Defines P' (some j) n t ↔ Defines P (some j) n t := by
  by_cases hj : Zone P s j
  · rw [defines_inside h hj]
    constructor
    · rintro ⟨n₀, h1, h2, h3⟩
      unfold called at h3
      by_cases e : n₀ = v
      · rw [if_pos e] at h3; exact absurd h3 hw
      · rw [if_neg e] at h3; rw [h3]; exact h1
    · exact fun hd => ⟨n, hd, hw, by rw [called, if_neg hv]⟩
  · exact defines_outside h hj

/-! ## Meaning -/

theorem resolves_of_defines (he : ∀ j i, Encloses P' j i ↔ Encloses P j i) {k : Nat} {n : Str}
    (hd : ∀ j, Encloses P j k → ∀ t, Defines P' (some j) n t ↔ Defines P (some j) n t)
    (hw : ∀ t, Defines P' none n t ↔ Defines P none n t) (t : Nat) : Resolves P' k n t ↔ Resolves P k n t := by
  unfold Resolves
  constructor
  · rintro (⟨j, h1, h2, h3⟩ | ⟨h1, h2⟩)
    · have h1' := (he _ _).mp h1
      exact .inl ⟨j, h1', (hd j h1' t).mp h2, fun j' h4 h5 t' h6 => h3 j' ((he _ _).mpr h4) h5 t' ((hd j' h4 t').mpr h6)⟩
    · exact .inr ⟨fun j h4 t' h6 => h1 j ((he _ _).mpr h4) t' ((hd j h4 t').mpr h6), (hw t).mp h2⟩
  · rintro (⟨j, h1, h2, h3⟩ | ⟨h1, h2⟩)
    · exact .inl ⟨j, (he _ _).mpr h1, (hd j h1 t).mpr h2, fun j' h4 h5 t' h6 =>
        h3 j' ((he _ _).mp h4) h5 t' ((hd j' ((he _ _).mp h4) t').mp h6)⟩
    · exact .inr ⟨fun j h4 t' h6 => h1 j ((he _ _).mp h4) t' ((hd j ((he _ _).mp h4) t').mp h6), (hw t).mpr h2⟩

theorem sameThing_of_resolves {k : Nat} {n : Str} (h : ∀ t, Resolves P' k n t ↔ Resolves P k n t) :
    SameThing P P' k ⟨none, n⟩ ⟨none, n⟩ := by
  by_cases hx : ∃ t, Resolves P k n t
  · obtain ⟨t, ht⟩ := hx
    exact .own ht ((h t).mpr ht)
  · exact .foreign (fun t ht => hx ⟨t, ht⟩) fun t ht => hx ⟨t, (h t).mp ht⟩

theorem innermost (k : Nat) (Q : Nat → Prop) (hb : ∀ j, Q j → j < k) (hx : ∃ j, Q j) : ∃ j, Q j ∧ ∀ j', Q j' → j' ≤ j := by
  induction k with
  | zero => obtain ⟨j, hj⟩ := hx; exact absurd (hb j hj) (by omega)
  | succ k ih =>
    by_cases hk : Q k
    · exact ⟨k, hk, fun j' h => by have := hb j' h; omega⟩
    · exact ih fun j hj => by
        have := hb j hj
        rcases Nat.lt_or_ge j k with h | h
        · exact h
        · have : j = k := by omega
          rw [this] at hj; exact absurd hj hk

theorem resolves_declared (h : RenamedInBlock P s v w P') {k : Nat} (hk : Encloses P s k) :
    ∃ t, Resolves P k v t ∧ Resolves P' k w t := by
  obtain ⟨t₀, ht₀⟩ := h.declared
  obtain ⟨j, ⟨hj, t, ht⟩, hmax⟩ := innermost k (fun j => Encloses P j k ∧ ∃ t, Defines P (some j) v t)
    (fun j hj => hj.1.1) ⟨s, hk, t₀, ht₀⟩
  have hle : s ≤ j := hmax s ⟨hk, t₀, ht₀⟩
  have hz : ∀ i, Encloses P i k → j ≤ i → Zone P s i := fun i hi hji => zone_of_inside hk hi (Nat.le_trans hle hji)
  refine ⟨t, .inl ⟨j, hj, ht, fun j' h1 h2 t' h3 => ?_⟩, .inl ⟨j, (encloses_same h _ _).mpr hj, ?_, fun j' h1 h2 t' h3 => ?_⟩⟩
  · have := hmax j' ⟨h1, t', h3⟩; omega
  · exact (defines_inside h (hz j hj (Nat.le_refl j))).mpr ⟨v, ht, zone_unmentioned h (hz j hj (Nat.le_refl j)) ht, by simp [called]⟩
  · have h1' := (encloses_same h _ _).mp h1
    obtain ⟨n, h4, h5, h6⟩ := (defines_inside h (hz j' h1' (Nat.le_of_lt h2))).mp h3
    unfold called at h6
    by_cases e : n = v
    · rw [e] at h4
      have := hmax j' ⟨h1', t', h4⟩; omega
    · rw [if_neg e] at h6; exact h5 h6.symm

theorem sameThing_inside (h : RenamedInBlock P s v w P') {k : Nat} (hk : Encloses P s k) {id : FullId} (hid : id ≠ ⟨none, w⟩) :
    SameThing P P' k id (renameOwn v w id) := by
  obtain ⟨q, n⟩ := id
  unfold renameOwn
  cases q with
  | some q => rw [if_neg (by simp)]; exact .qualified q n
  | none =>
    by_cases e : n = v
    · rw [e, if_pos rfl]
      obtain ⟨t, h1, h2⟩ := resolves_declared h hk
      exact .own h1 h2
    · rw [if_neg (by simpa using e)]
      have hw : n ≠ w := fun hw => hid (by rw [hw])
      exact sameThing_of_resolves (resolves_of_defines (encloses_same h) (fun j _ t => defines_other h j e hw t) fun t => defines_wide h)

theorem sameThing_outside (h : RenamedInBlock P s v w P') {k : Nat} (hk : ¬ Encloses P s k) (id : FullId) : SameThing P P' k id id := by
  obtain ⟨q, n⟩ := id
  cases q with
  | some q => exact .qualified q n
  | none =>
    exact sameThing_of_resolves (resolves_of_defines (encloses_same h)
      (fun j hj t => defines_outside h (not_zone_of_outside hk hj)) fun t => defines_wide h)

/-! ## Statements -/

theorem alikeExpr_rename {R : FullId → FullId → Prop} : ∀ {e : Expr}, (∀ id ∈ namesIn e, R id (renameOwn v w id)) →
    AlikeExpr R e (renameExpr v w e) := by
  intro e
  induction e with
  | null => exact fun _ => .nothing
  | lit n t => exact fun _ => .number n t
  | ident id t => exact fun h => .name t (h id (by simp [namesIn]))
  | bin op a b iha ihb =>
    exact fun h => .binary op (iha fun id hi => h id (by simp [namesIn, hi])) (ihb fun id hi => h id (by simp [namesIn, hi]))
  | un op a ih => exact fun h => .unary op (ih h)
  | label n a ih => exact fun h => .label n (ih h)

theorem alike_rename {R : FullId → FullId → Prop} {st : Statement} (h : ∀ id ∈ usedNames st, R id (renameOwn v w id)) :
    AlikeStatement R st (renameStatement v w st) := by
  cases st with
  | instr i =>
    exact .instr (alikeExpr_rename fun id hi => h id (by simp [usedNames, hi])) (alikeExpr_rename fun id hi => h id (by simp [usedNames, hi]))
  | dir d =>
    simp only [renameStatement]
    by_cases hm : d.name = .module_
    · rw [if_pos hm]; exact .module_ hm
    · rw [if_neg hm]
      simp only [usedNames, if_neg hm, List.mem_append, List.mem_flatMap] at h
      refine .dir hm (alikeExpr_rename fun id hi => h id (.inl hi)) ?_
      rw [List.forall₂_map_right_iff]
      exact List.forall₂_same.mpr fun e he => alikeExpr_rename fun id hi => h id (.inr ⟨e, he, hi⟩)

theorem sameBindings_of_renamed (h : RenamedInBlock P s v w P') : SameBindings P P' where
  length := h.length
  statement := by
    intro k line line' h1 h2
    rcases line_cases h k with ⟨e, -⟩ | ⟨l, e1, e2, e3⟩ | ⟨l, e1, e2, e3⟩
    · rw [e] at h1; cases h1
    · rw [e1] at h1; rw [e3] at h2; cases h1; cases h2
      refine alike_rename fun id hi => sameThing_inside h e2 fun hw => ?_
      rw [hw] at hi
      exact h.unused k line e2 e1 (.inr hi)
    · rw [e1] at h1; rw [e3] at h2; cases h1; cases h2
      exact alike_refl (fun id => sameThing_outside h e2 id) _
  wide := by
    intro k line line' h1 h2
    have hf : wideLabels P' k = wideLabels P k := by
      funext l
      unfold wideLabels
      congr 1
      funext l
      exact decide_eq_decide.mpr (inScope_same h l k none)
    rw [hf]
    rcases line_cases h k with ⟨e, -⟩ | ⟨l, e1, e2, e3⟩ | ⟨l, e1, e2, e3⟩
    · rw [e] at h1; cases h1
    · rw [e1] at h1; rw [e3] at h2; cases h1; cases h2
      simp only [wideLabels, renameLine]
      induction line.labels with
      | nil => rfl
      | cons l ls ih =>
        rw [List.map_cons, List.filter_cons, List.filter_cons]
        have hx := inScope_exported (renameLabel_exported v w l) P k none
        by_cases hl : InScope P l k none
        · have he : l.exported = true := by
            rcases hl with hl | hl
            · exact hl
            · exact absurd e2 (hl s)
          rw [if_pos (by simpa using hx.mpr hl), if_pos (by simpa using hl), List.map_cons, List.map_cons, ih, renameLabel_wide v w he]
        · rw [if_neg (by simpa using fun q => hl (hx.mp q)), if_neg (by simpa using hl), ih]
    · rw [e1] at h1; rw [e3] at h2; cases h1; cases h2
      rfl

/-! ## The file is accepted -/

theorem noDuplicates_renamed (h : RenamedInBlock P s v w P') (hn : NoDuplicates P) : NoDuplicates P' := by
  intro sc n i a i' a' h1 h2
  cases sc with
  | none => exact hn none n i a i' a' ((definesAt_wide h).mp h1) ((definesAt_wide h).mp h2)
  | some j =>
    by_cases hj : Zone P s j
    · obtain ⟨n₁, d1, w1, e1⟩ := (definesAt_inside h hj).mp h1
      obtain ⟨n₂, d2, w2, e2⟩ := (definesAt_inside h hj).mp h2
      cases called_injective w1 w2 (e1.symm.trans e2)
      exact hn _ _ i a i' a' d1 d2
    · exact hn _ n i a i' a' ((definesAt_outside h hj).mp h1) ((definesAt_outside h hj).mp h2)

theorem balanced_renamed (h : RenamedInBlock P s v w P') (hb : Balanced P) : Balanced P' := by
  simpa only [Balanced, level_same h, h.length] using hb

theorem oneModuleName_renamed (h : RenamedInBlock P s v w P') (hm : OneModuleName P) : OneModuleName P' := by
  refine ⟨?_, ?_⟩
  · have e := congrArg (List.countP id) (directives_same h .module_)
    rw [List.countP_map, List.countP_map] at e
    have hm1 := hm.1
    rw [← List.countP_eq_length_filter] at hm1 ⊢
    exact e.trans_le hm1
  · intro l' hl' d hd hn
    obtain ⟨k, hk⟩ := List.getElem?_of_mem hl'
    rcases line_cases h k with ⟨-, e⟩ | ⟨l, e1, -, e3⟩ | ⟨l, e1, -, e3⟩
    · rw [e] at hk; cases hk
    · rw [e3] at hk
      cases hk
      have : l.statement = .dir d := by
        obtain ⟨ls, st⟩ := l
        cases st with
        | instr i => cases hd
        | dir d₀ =>
          simp only [renameLine, renameStatement] at hd
          by_cases hm : d₀.name = .module_
          · rw [if_pos hm] at hd; exact hd
          · rw [if_neg hm] at hd; cases hd; exact absurd hn hm
      exact hm.2 l (List.mem_of_getElem? e1) d this hn
    · rw [e3] at hk
      cases hk
      exact hm.2 l' (List.mem_of_getElem? e1) d hd hn

end

end Nsasm.Bindings
