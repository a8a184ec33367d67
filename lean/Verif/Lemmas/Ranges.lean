import Verif.Spec.Ranges
import Mathlib.Tactic.Common
import Mathlib.Data.List.Pairwise
import Mathlib.Data.List.Basic

/-! Helper lemmas about address ranges. -/

namespace Nsasm

open Nsasm.Spec DataRange

theorem mem_takeWhile {α : Type} {p : α → Bool} {l : List α} {x : α} (h : x ∈ l.takeWhile p) :
    p x = true := by
  induction l with
  | nil => simp at h
  | cons y ys ih =>
    rw [List.takeWhile_cons] at h
    split at h
    · rcases List.mem_cons.1 h with rfl | h
      · assumption
      · exact ih h
    · simp at h

theorem head_dropWhile {α : Type} {p : α → Bool} {l : List α} {x : α} {xs : List α}
    (h : l.dropWhile p = x :: xs) : p x = false := by
  induction l with
  | nil => simp at h
  | cons y ys ih =>
    rw [List.dropWhile_cons] at h
    split at h
    · exact ih h
    · simp only [List.cons.injEq] at h
      obtain ⟨rfl, -⟩ := h
      simpa using ‹¬ p y = true›

/-- A canonical list splits at a location: the chunks starting at or before it, and
the ones starting after it. -/
theorem canonical_split {l : List Chunk} (hl : Canonical l) (n : Nat) :
    l = before n l ++ after n l ∧ Canonical (before n l) ∧ Canonical (after n l) ∧
    (∀ c ∈ before n l, ∀ d ∈ after n l, c.2 < d.1) ∧
    (∀ c ∈ before n l, c.1 ≤ n) ∧ (∀ d ∈ after n l, n < d.1) := by
  have heq : l = before n l ++ after n l := (List.takeWhile_append_dropWhile).symm
  obtain ⟨hne, hpw⟩ := hl
  rw [heq] at hpw hne
  obtain ⟨h1, h2, h3⟩ := List.pairwise_append.1 hpw
  have hne1 : ∀ c ∈ before n l, c.1 < c.2 := fun c hc => hne c (List.mem_append_left _ hc)
  have hne2 : ∀ c ∈ after n l, c.1 < c.2 := fun c hc => hne c (List.mem_append_right _ hc)
  refine ⟨heq, ⟨hne1, h1⟩, ⟨hne2, h2⟩, h3, ?_, ?_⟩
  · intro c hc
    have := mem_takeWhile hc
    simpa using this
  · intro d hd
    cases ha : after n l with
    | nil => rw [ha] at hd; simp at hd
    | cons x xs =>
      have hx := head_dropWhile (show l.dropWhile (fun c => c.1 ≤ n) = x :: xs from ha)
      simp only [decide_eq_false_iff_not, Nat.not_le] at hx
      rw [ha] at hd h2 hne2
      rcases List.mem_cons.1 hd with rfl | hd
      · exact hx
      · have := (List.pairwise_cons.1 h2).1 d hd
        have := hne2 x (by simp)
        omega

theorem covers_append {l l' : List Chunk} {a : Nat} :
    Covers (l ++ l') a ↔ Covers l a ∨ Covers l' a := by
  simp only [Covers, List.mem_append]
  constructor
  · rintro ⟨c, h | h, hc⟩
    · exact Or.inl ⟨c, h, hc⟩
    · exact Or.inr ⟨c, h, hc⟩
  · rintro (⟨c, h, hc⟩ | ⟨c, h, hc⟩)
    · exact ⟨c, Or.inl h, hc⟩
    · exact ⟨c, Or.inr h, hc⟩

theorem covers_cons {c : Chunk} {l : List Chunk} {a : Nat} :
    Covers (c :: l) a ↔ InChunk a c ∨ Covers l a := by
  simp [Covers]

@[simp] theorem covers_nil {a : Nat} : Covers [] a ↔ False := by simp [Covers]

theorem canonical_append {l l' : List Chunk} :
    Canonical (l ++ l') ↔ Canonical l ∧ Canonical l' ∧ ∀ c ∈ l, ∀ d ∈ l', c.2 < d.1 := by
  simp only [Canonical, List.pairwise_append, List.mem_append]
  constructor
  · rintro ⟨h, h1, h2, h3⟩
    exact ⟨⟨fun c hc => h c (Or.inl hc), h1⟩, ⟨fun c hc => h c (Or.inr hc), h2⟩, h3⟩
  · rintro ⟨⟨h1, h2⟩, ⟨h3, h4⟩, h5⟩
    exact ⟨fun c hc => hc.elim (h1 c) (h3 c), h2, h4, h5⟩

theorem canonical_cons {c : Chunk} {l : List Chunk} :
    Canonical (c :: l) ↔ c.1 < c.2 ∧ Canonical l ∧ ∀ d ∈ l, c.2 < d.1 := by
  simp only [Canonical, List.pairwise_cons, List.mem_cons, forall_eq_or_imp]
  tauto

theorem canonical_le_getLast {l : List Chunk} (hl : Canonical l) {z : Chunk}
    (hz : l.getLast? = some z) : ∀ c ∈ l, c = z ∨ c.2 < z.1 := by
  intro c hc
  have hne : l ≠ [] := by rintro rfl; simp at hz
  have hdl : l.dropLast ++ [z] = l := List.dropLast_append_getLast? z hz
  rw [← hdl] at hc hl
  rcases List.mem_append.1 hc with h | h
  · exact Or.inr ((canonical_append.1 hl).2.2 c h z (by simp))
  · simp at h; exact Or.inl h

theorem contains_iff {r : DataRange} (h : Canonical r.ranges) (a : Nat) :
    r.contains a = true ↔ Covers r.ranges a := by
  obtain ⟨heq, h1, h2, h3, h4, h5⟩ := canonical_split h a
  unfold DataRange.contains
  rw [heq, covers_append]
  have hpost : ¬ Covers (after a r.ranges) a := by
    rintro ⟨d, hd, hin⟩
    have := h5 d hd
    unfold InChunk at hin
    omega
  rw [← heq]
  cases hb : (before a r.ranges).getLast? with
  | none =>
    have : before a r.ranges = [] := List.getLast?_eq_none_iff.1 hb
    simp [this, hpost]
  | some z =>
    simp only [decide_eq_true_eq, hpost, or_false]
    have hz : z ∈ before a r.ranges := List.mem_of_getLast? hb
    constructor
    · rintro ⟨h6, h7⟩; exact ⟨z, hz, h6, h7⟩
    · rintro ⟨c, hc, hin⟩
      rcases canonical_le_getLast h1 hb c hc with rfl | hlt
      · exact hin
      · have := h4 z hz
        unfold InChunk at hin
        omega

/-- What the rightward merge does. -/
theorem mergeRight_spec {ins : Chunk} {ov : Bool} {rest : List Chunk}
    (hins : ins.1 < ins.2) (hrest : Canonical rest) (hlt : ∀ c ∈ rest, ins.1 < c.1) :
    Canonical (mergeRight ins ov rest).1 ∧
    (∀ a, Covers (mergeRight ins ov rest).1 a ↔ InChunk a ins ∨ Covers rest a) ∧
    (∀ d ∈ (mergeRight ins ov rest).1, ins.1 ≤ d.1) ∧
    ((mergeRight ins ov rest).2 = true ↔ ov = true ∨ ∃ c ∈ rest, c.1 < ins.2) := by
  obtain ⟨heq, h1, h2, h3, h4, h5⟩ := canonical_split hrest ins.2
  have hm : rest.takeWhile (fun c => c.1 ≤ ins.2) = before ins.2 rest := rfl
  have hr : rest.dropWhile (fun c => c.1 ≤ ins.2) = after ins.2 rest := rfl
  unfold mergeRight
  simp only [hm, hr]
  cases hh : (before ins.2 rest).head? with
  | none =>
    have hnil : before ins.2 rest = [] := List.head?_eq_none_iff.1 hh
    have heq' : rest = after ins.2 rest := by rw [hnil] at heq; exact heq
    simp only
    refine ⟨canonical_cons.2 ⟨hins, h2, h5⟩, ?_, ?_, ?_⟩
    · intro a; rw [covers_cons, ← heq']
    · intro d hd
      rcases List.mem_cons.1 hd with rfl | hd
      · exact Nat.le_refl _
      · have := h5 d hd; omega
    · constructor
      · exact Or.inl
      · rintro (h | ⟨c, hc, h⟩)
        · exact h
        · rw [heq'] at hc; have := h5 c hc; omega
  | some f =>
    obtain ⟨fs, hfs⟩ : ∃ fs, before ins.2 rest = f :: fs := by
      cases hb : before ins.2 rest with
      | nil => rw [hb] at hh; simp at hh
      | cons x xs => rw [hb] at hh; simp at hh; subst hh; exact ⟨xs, rfl⟩
    have hne : before ins.2 rest ≠ [] := by rw [hfs]; simp
    cases hg : (before ins.2 rest).getLast? with
    | none => exact absurd (List.getLast?_eq_none_iff.1 hg) hne
    | some z =>
      simp only
      have hz : z ∈ before ins.2 rest := List.mem_of_getLast? hg
      have hzn := h1.1 z hz
      have hf : f ∈ before ins.2 rest := by rw [hfs]; simp
      have hzr : z ∈ rest := by rw [heq]; exact List.mem_append_left _ hz
      have hfr : f ∈ rest := by rw [heq]; exact List.mem_append_left _ hf
      refine ⟨canonical_cons.2 ⟨by simp only; omega, h2, ?_⟩, ?_, ?_, ?_⟩
      · intro d hd
        have := h5 d hd
        have := h3 z hz d hd
        simp only; omega
      · intro a
        rw [covers_cons]
        conv_rhs => rw [heq, covers_append]
        rw [← or_assoc]
        apply or_congr_left
        constructor
        · rintro ⟨h6, h7⟩
          simp only at h6 h7
          by_cases h8 : a < ins.2
          · exact Or.inl ⟨h6, h8⟩
          · refine Or.inr ⟨z, hz, ?_, by omega⟩
            have := h4 z hz; omega
        · rintro (⟨h6, h7⟩ | ⟨c, hc, h6, h7⟩)
          · exact ⟨h6, by simp only; omega⟩
          · have hcr : c ∈ rest := by rw [heq]; exact List.mem_append_left _ hc
            have := hlt c hcr
            refine ⟨by simp only; omega, ?_⟩
            simp only
            rcases canonical_le_getLast h1 hg c hc with rfl | h8
            · omega
            · omega
      · intro d hd
        rcases List.mem_cons.1 hd with rfl | hd
        · exact Nat.le_refl _
        · have := h5 d hd; omega
      · simp only [Bool.or_eq_true, decide_eq_true_eq]
        apply or_congr_right
        constructor
        · intro h; exact ⟨f, hfr, h⟩
        · rintro ⟨c, hc, h⟩
          rw [heq, hfs] at hc
          have hall := hrest
          rw [heq, hfs, List.cons_append] at hall
          rcases List.mem_cons.1 hc with rfl | hc
          · exact h
          · have := (canonical_cons.1 hall).2.2 c hc
            have := (canonical_cons.1 hall).1
            omega

theorem or_shuffle1 {A N Q P : Prop} : (A ∨ (N ∨ Q) ∨ P) ↔ (A ∨ Q ∨ P) ∨ N := by tauto
theorem or_shuffle2 {A N P : Prop} : (A ∨ N ∨ P) ↔ (A ∨ P) ∨ N := by tauto
theorem or_shuffle3 {A N Q P : Prop} : (A ∨ (Q ∨ N) ∨ P) ↔ (A ∨ Q ∨ P) ∨ N := by tauto

/-- What claiming a chunk does. -/
theorem claimChunk_spec {r : DataRange} (hr : Canonical r.ranges) {new : Chunk} (hn : new.1 < new.2) :
    Canonical (r.claimChunk new).1.ranges ∧
    (∀ a, Covers (r.claimChunk new).1.ranges a ↔ Covers r.ranges a ∨ InChunk a new) ∧
    ((r.claimChunk new).2 = true ↔ ∀ a, InChunk a new → ¬ Covers r.ranges a) := by
  obtain ⟨heq, h1, h2, h3, h4, h5⟩ := canonical_split hr new.1
  -- the chunks of `after` overlap `new` exactly when they start before its end
  have hov : ∀ l : List Chunk, Canonical l → (∀ d ∈ l, new.1 < d.1) →
      ((∃ a, InChunk a new ∧ Covers l a) ↔ ∃ c ∈ l, c.1 < new.2) := by
    intro l hl hgt
    constructor
    · rintro ⟨a, ⟨h6, h7⟩, c, hc, h8, h9⟩; exact ⟨c, hc, by omega⟩
    · rintro ⟨c, hc, h6⟩
      have := hgt c hc
      exact ⟨c.1, ⟨by omega, h6⟩, c, hc, Nat.le_refl _, hl.1 c hc⟩
  have hneg : ∀ {p q : Prop} {b : Bool}, (b = true ↔ q) → (q ↔ p) → ((!b) = true ↔ ¬ p) := by
    intro p q b h h'
    rw [Bool.not_eq_true', ← Bool.not_eq_true, h, h']
  have hform : (∀ a, InChunk a new → ¬ Covers r.ranges a) ↔
      ¬ ∃ a, InChunk a new ∧ Covers r.ranges a := by
    push Not; rfl
  rw [hform]
  -- the common second half: nothing on the left touches `new`
  have hright : (∀ c ∈ before new.1 r.ranges, c.2 < new.1) →
      Canonical (claimRight (before new.1 r.ranges) (after new.1 r.ranges) new).1.ranges ∧
      (∀ a, Covers (claimRight (before new.1 r.ranges) (after new.1 r.ranges) new).1.ranges a ↔
        Covers r.ranges a ∨ InChunk a new) ∧
      ((claimRight (before new.1 r.ranges) (after new.1 r.ranges) new).2 = true ↔
        ¬ ∃ a, InChunk a new ∧ Covers r.ranges a) := by
    intro hleft
    have hnoleft : ∀ a, InChunk a new → ¬ Covers (before new.1 r.ranges) a := by
      rintro a ⟨h6, h7⟩ ⟨c, hc, h8, h9⟩
      have := hleft c hc
      omega
    have hovr : (∃ a, InChunk a new ∧ Covers r.ranges a) ↔
        ∃ c ∈ after new.1 r.ranges, c.1 < new.2 := by
      rw [← hov _ h2 h5]
      constructor
      · rintro ⟨a, h6, h7⟩
        rw [heq, covers_append] at h7
        exact ⟨a, h6, h7.resolve_left (hnoleft a h6)⟩
      · rintro ⟨a, h6, h7⟩
        exact ⟨a, h6, by rw [heq, covers_append]; exact Or.inr h7⟩
    rw [hovr]
    have hcov : ∀ a, Covers r.ranges a ↔
        Covers (before new.1 r.ranges) a ∨ Covers (after new.1 r.ranges) a := by
      intro a; conv_lhs => rw [heq, covers_append]
    simp only [hcov]
    unfold claimRight
    cases hpost : after new.1 r.ranges with
    | nil =>
      refine ⟨canonical_append.2 ⟨h1, canonical_cons.2 ⟨hn, ⟨by simp, .nil⟩, by simp⟩, ?_⟩, ?_, by simp⟩
      · intro c hc d hd; simp at hd; subst hd; exact hleft c hc
      · intro a; simp [covers_append, covers_cons]
    | cons q post' =>
      rw [hpost] at h2 h3 h5
      have hq := canonical_cons.1 h2
      have hqn := h5 q (by simp)
      simp only
      split
      · rename_i hqle
        have hms := mergeRight_spec (ins := (new.1, max q.2 new.2)) (ov := decide (q.1 < new.2))
          (rest := post') (by simp only; omega) hq.2.1
          (fun c hc => h5 c (List.mem_cons_of_mem _ hc))
        obtain ⟨hm1, hm2, hm3, hm4⟩ := hms
        generalize mergeRight (new.1, max q.2 new.2) (decide (q.1 < new.2)) post' = res at *
        obtain ⟨tail, ov⟩ := res
        simp only at hm1 hm2 hm3 hm4 ⊢
        refine ⟨canonical_append.2 ⟨h1, hm1, ?_⟩, ?_, ?_⟩
        · intro c hc d hd
          have := hleft c hc
          have := hm3 d hd
          omega
        · intro a
          rw [covers_append, hm2, covers_cons]
          have : InChunk a (new.1, max q.2 new.2) ↔ InChunk a new ∨ InChunk a q := by
            have := hq.1
            unfold InChunk
            simp only
            omega
          rw [this]; exact or_shuffle1
        · apply hneg hm4
          simp only [decide_eq_true_eq, List.exists_mem_cons_iff]
          apply or_congr_right
          constructor
          · rintro ⟨c, hc, h6⟩
            have := hq.2.2 c hc
            exact ⟨c, hc, by omega⟩
          · rintro ⟨c, hc, h6⟩; exact ⟨c, hc, by omega⟩
      · rename_i hqle
        refine ⟨canonical_append.2 ⟨h1, canonical_cons.2 ⟨hn, h2, ?_⟩, ?_⟩, ?_, ?_⟩
        · intro d hd
          rcases List.mem_cons.1 hd with rfl | hd
          · omega
          · have := hq.2.2 d hd
            have := hq.1
            omega
        · intro c hc d hd
          have := hleft c hc
          rcases List.mem_cons.1 hd with rfl | hd
          · exact this
          · have := h5 d hd; omega
        · intro a
          simp only [covers_append, covers_cons]
          exact or_shuffle2
        · simp only [true_iff]
          rintro ⟨c, hc, h6⟩
          rcases List.mem_cons.1 hc with rfl | hc
          · omega
          · have := hq.2.2 c hc
            have := hq.1
            omega
  unfold DataRange.claimChunk
  split
  · rename_i hrr
    rw [List.isEmpty_iff] at hrr
    rw [hrr]
    simp only
    refine ⟨canonical_cons.2 ⟨hn, ⟨by simp, .nil⟩, by simp⟩, ?_, by simp⟩
    intro a; simp [covers_cons]
  · unfold claimSplit
    cases hp : (before new.1 r.ranges).getLast? with
    | none =>
      have hnil : before new.1 r.ranges = [] := List.getLast?_eq_none_iff.1 hp
      exact hright (by rw [hnil]; simp)
    | some p =>
      simp only
      have hpm : p ∈ before new.1 r.ranges := List.mem_of_getLast? hp
      have hpn := h1.1 p hpm
      have hple := h4 p hpm
      split
      · rename_i hnp
        have hne : before new.1 r.ranges ≠ [] := by intro h; rw [h] at hp; simp at hp
        have hdl : (before new.1 r.ranges).dropLast ++ [p] = before new.1 r.ranges :=
          List.dropLast_append_getLast? p hp
        have hcan := h1
        rw [← hdl] at hcan
        obtain ⟨hc1, hc2, hc3⟩ := canonical_append.1 hcan
        have hms := mergeRight_spec (ins := (p.1, max p.2 new.2)) (ov := decide (new.1 < p.2))
          (rest := after new.1 r.ranges) (by simp only; omega) h2
          (fun c hc => by have := h5 c hc; simp only; omega)
        obtain ⟨hm1, hm2, hm3, hm4⟩ := hms
        generalize mergeRight (p.1, max p.2 new.2) (decide (new.1 < p.2)) (after new.1 r.ranges) = res at *
        obtain ⟨tail, ov⟩ := res
        simp only at hm1 hm2 hm3 hm4 ⊢
        have hcov : ∀ a, Covers r.ranges a ↔ Covers (before new.1 r.ranges).dropLast a ∨ InChunk a p ∨
            Covers (after new.1 r.ranges) a := by
          intro a
          conv_lhs => rw [heq, covers_append, ← hdl, covers_append, covers_cons]
          rw [or_assoc]; simp only [covers_nil, or_false]
        refine ⟨canonical_append.2 ⟨hc1, hm1, ?_⟩, ?_, ?_⟩
        · intro c hc d hd
          have := hc3 c hc p (by simp)
          have := hm3 d hd
          omega
        · intro a
          rw [covers_append, hm2, hcov]
          have : InChunk a (p.1, max p.2 new.2) ↔ InChunk a p ∨ InChunk a new := by
            unfold InChunk
            simp only
            omega
          rw [this]; exact or_shuffle3
        · apply hneg hm4
          simp only [decide_eq_true_eq]
          constructor
          · rintro (h6 | ⟨c, hc, h6⟩)
            · refine ⟨new.1, ⟨Nat.le_refl _, hn⟩, ?_⟩
              rw [hcov]; exact Or.inr (Or.inl ⟨hple, h6⟩)
            · have := h3 p hpm c hc
              have h7 := h5 c hc
              refine ⟨c.1, ⟨by omega, by omega⟩, ?_⟩
              rw [hcov]; exact Or.inr (Or.inr ⟨c, hc, Nat.le_refl _, h2.1 c hc⟩)
          · rintro ⟨a, ⟨h6, h7⟩, h8⟩
            rw [hcov] at h8
            rcases h8 with ⟨c, hc, h9, h10⟩ | ⟨h9, h10⟩ | ⟨c, hc, h9, h10⟩
            · have := hc3 c hc p (by simp)
              omega
            · exact Or.inl (by omega)
            · exact Or.inr ⟨c, hc, by omega⟩
      · rename_i hnp
        refine hright ?_
        intro c hc
        rcases canonical_le_getLast h1 hp c hc with rfl | h6
        · omega
        · omega

/-- A canonical list is determined by the addresses it covers. -/
theorem canonical_unique {l l' : List Chunk} (h : Canonical l) (h' : Canonical l')
    (hc : ∀ a, Covers l a ↔ Covers l' a) : l = l' := by
  induction l generalizing l' with
  | nil =>
    cases l' with
    | nil => rfl
    | cons c' l' =>
      have := (hc c'.1).2 ⟨c', by simp, Nat.le_refl _, h'.1 c' (by simp)⟩
      simp at this
  | cons c l ih =>
    cases l' with
    | nil =>
      have := (hc c.1).1 ⟨c, by simp, Nat.le_refl _, h.1 c (by simp)⟩
      simp at this
    | cons c' l' =>
      obtain ⟨h1, h2, h3⟩ := canonical_cons.1 h
      obtain ⟨h1', h2', h3'⟩ := canonical_cons.1 h'
      simp only [covers_cons] at hc
      have hstart : c.1 = c'.1 := by
        have a1 := (hc c.1).1 (Or.inl ⟨Nat.le_refl _, h1⟩)
        have a2 := (hc c'.1).2 (Or.inl ⟨Nat.le_refl _, h1'⟩)
        have b1 : c'.1 ≤ c.1 := by
          rcases a1 with ⟨h, -⟩ | ⟨d, hd, h, -⟩
          · exact h
          · have := h3' d hd; omega
        have b2 : c.1 ≤ c'.1 := by
          rcases a2 with ⟨h, -⟩ | ⟨d, hd, h, -⟩
          · exact h
          · have := h3 d hd; omega
        omega
      have hend : c.2 = c'.2 := by
        rcases Nat.lt_trichotomy c.2 c'.2 with h4 | h4 | h4
        · have := (hc c.2).2 (Or.inl ⟨by omega, h4⟩)
          rcases this with ⟨-, h⟩ | ⟨d, hd, h, -⟩
          · omega
          · have := h3 d hd; omega
        · exact h4
        · have := (hc c'.2).1 (Or.inl ⟨by omega, h4⟩)
          rcases this with ⟨-, h⟩ | ⟨d, hd, h, -⟩
          · omega
          · have := h3' d hd; omega
      have hcc : c = c' := Prod.ext hstart hend
      subst hcc
      congr 1
      apply ih h2 h2'
      intro a
      have := hc a
      by_cases hin : InChunk a c
      · have n1 : ¬ Covers l a := by
          rintro ⟨d, hd, h4, -⟩; have := h3 d hd; unfold InChunk at hin; omega
        have n2 : ¬ Covers l' a := by
          rintro ⟨d, hd, h4, -⟩; have := h3' d hd; unfold InChunk at hin; omega
        tauto
      · tauto

end Nsasm
