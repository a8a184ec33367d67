import Verif.Lemmas.Ranges

/-! Helper lemmas about `RangeMap`. -/

namespace Nsasm

open Nsasm.Spec

namespace RangeMap

variable {τ : Type}

/-- Representation invariant. -/
structure Inv (m : RangeMap τ) : Prop where
  used : Canonical m.used.ranges
  nonempty : ∀ e ∈ m.mapping, e.1.1 < e.1.2
  sorted : m.mapping.Pairwise (fun e f => e.1.2 ≤ f.1.1)
  covered : ∀ a, Covers m.used.ranges a ↔ ∃ e ∈ m.mapping, InChunk a e.1

theorem lookup_iff {m : RangeMap τ} (h : m.Inv) (a : Nat) (v : τ) :
    m.lookup a = some v ↔ ∃ e ∈ m.mapping, InChunk a e.1 ∧ e.2 = v := by
  have hne := h.nonempty
  have hs := h.sorted
  have heq : m.mapping = m.mapping.takeWhile (fun e => !Chunk.lt (a, a) e.1) ++
      m.mapping.dropWhile (fun e => !Chunk.lt (a, a) e.1) := List.takeWhile_append_dropWhile.symm
  have hnot : ∀ e : Chunk × τ, e.1.1 < e.1.2 → ((!Chunk.lt (a, a) e.1) = true ↔ e.1.1 < a) := by
    intro e he
    simp only [Chunk.lt, Bool.not_eq_true', decide_eq_false_iff_not]
    omega
  obtain ⟨pre, hpre⟩ : ∃ p, m.mapping.takeWhile (fun e => !Chunk.lt (a, a) e.1) = p := ⟨_, rfl⟩
  obtain ⟨post, hpost⟩ : ∃ p, m.mapping.dropWhile (fun e => !Chunk.lt (a, a) e.1) = p := ⟨_, rfl⟩
  have hpre' : ∀ e ∈ pre, e.1.1 < a := by
    intro e he
    rw [← hpre] at he
    have h1 := mem_takeWhile he
    refine (hnot e (hne e ?_)).1 h1
    rw [heq]; exact List.mem_append_left _ he
  rw [hpre, hpost] at heq
  rw [heq] at hs hne
  obtain ⟨hs1, hs2, hs3⟩ := List.pairwise_append.1 hs
  have hpost' : ∀ e ∈ post, a ≤ e.1.1 := by
    intro e he
    cases post with
    | nil => simp at he
    | cons x xs =>
      have hx := head_dropWhile hpost
      have hx' : a ≤ x.1.1 := by
        have := hnot x (hne x (by simp))
        rw [hx] at this
        simp at this
        exact this
      rcases List.mem_cons.1 he with rfl | he
      · exact hx'
      · have := (List.pairwise_cons.1 hs2).1 e he
        have := hne x (by simp)
        omega
  unfold lookup
  simp only [hpre, hpost]
  -- what the entry before says
  have hback : lookupBack a pre = some v ↔ ∃ e ∈ pre, InChunk a e.1 ∧ e.2 = v := by
    unfold lookupBack
    cases hg : pre.getLast? with
    | none =>
      have : pre = [] := List.getLast?_eq_none_iff.1 hg
      simp [this]
    | some z =>
      have hz : z ∈ pre := List.mem_of_getLast? hg
      have hdl : pre.dropLast ++ [z] = pre := List.dropLast_append_getLast? z hg
      simp only
      constructor
      · intro hx
        split at hx
        · exact ⟨z, hz, by assumption, Option.some.inj hx⟩
        · simp at hx
      · rintro ⟨e, he, hin, rfl⟩
        rw [← hdl] at he hs1
        rcases List.mem_append.1 he with he | he
        · have := (List.pairwise_append.1 hs1).2.2 e he z (by simp)
          have := hpre' z hz
          unfold InChunk at hin
          omega
        · simp at he; subst he
          rw [if_pos (show a ≥ e.1.1 ∧ a < e.1.2 from hin)]
  have hsplit : (∃ e ∈ m.mapping, InChunk a e.1 ∧ e.2 = v) ↔
      (∃ e ∈ pre, InChunk a e.1 ∧ e.2 = v) ∨ ∃ e ∈ post, InChunk a e.1 ∧ e.2 = v := by
    rw [heq]
    simp only [List.mem_append]
    constructor
    · rintro ⟨e, he | he, h⟩
      · exact Or.inl ⟨e, he, h⟩
      · exact Or.inr ⟨e, he, h⟩
    · rintro (⟨e, he, h⟩ | ⟨e, he, h⟩)
      · exact ⟨e, Or.inl he, h⟩
      · exact ⟨e, Or.inr he, h⟩
  rw [hsplit]
  cases hh : post.head? with
  | none =>
    have : post = [] := List.head?_eq_none_iff.1 hh
    simp only [this, List.not_mem_nil, false_and, exists_false, or_false]
    exact hback
  | some x =>
    obtain ⟨xs, hxs⟩ : ∃ xs, post = x :: xs := by
      cases post with
      | nil => simp at hh
      | cons y ys => simp at hh; subst hh; exact ⟨ys, rfl⟩
    have hxm : x ∈ post := by rw [hxs]; simp
    have hxn := hne x (List.mem_append_right _ hxm)
    simp only
    split
    · rename_i hxa
      constructor
      · intro hv
        refine Or.inr ⟨x, hxm, ⟨by omega, by omega⟩, Option.some.inj hv⟩
      · rintro (⟨e, he, ⟨-, hin⟩, rfl⟩ | ⟨e, he, ⟨hin, hin'⟩, rfl⟩)
        · have := hs3 e he x hxm
          omega
        · rw [hxs] at he
          rcases List.mem_cons.1 he with rfl | he
          · rfl
          · rw [hxs] at hs2
            have := (List.pairwise_cons.1 hs2).1 e he
            omega
    · rename_i hxa
      rw [hback]
      constructor
      · exact Or.inl
      · rintro (h | ⟨e, he, ⟨hin, hin'⟩, rfl⟩)
        · exact h
        · exfalso
          have h1 := hpost' x hxm
          rw [hxs] at he
          rcases List.mem_cons.1 he with rfl | he
          · omega
          · rw [hxs] at hs2
            have := (List.pairwise_cons.1 hs2).1 e he
            omega

theorem emplace_spec {l : List (Chunk × τ)} {c : Chunk} (v : τ) (hc : c.1 < c.2)
    (hne : ∀ e ∈ l, e.1.1 < e.1.2) (hs : l.Pairwise (fun e f => e.1.2 ≤ f.1.1))
    (hd : ∀ e ∈ l, e.1.2 ≤ c.1 ∨ c.2 ≤ e.1.1) :
    (∀ e, e ∈ emplace c v l ↔ e = (c, v) ∨ e ∈ l) ∧
    (emplace c v l).Pairwise (fun e f => e.1.2 ≤ f.1.1) := by
  induction l with
  | nil => simp [emplace]
  | cons k l ih =>
    obtain ⟨kc, w⟩ := k
    have hk := hd (kc, w) (by simp)
    have hkn := hne (kc, w) (by simp)
    simp only at hk hkn
    have hih := ih (fun e he => hne e (List.mem_cons_of_mem _ he)) (List.pairwise_cons.1 hs).2
      (fun e he => hd e (List.mem_cons_of_mem _ he))
    have hs1 := (List.pairwise_cons.1 hs).1
    unfold emplace
    split
    · rename_i hlt
      simp only [Chunk.lt, decide_eq_true_eq] at hlt
      refine ⟨?_, List.pairwise_cons.2 ⟨?_, hih.2⟩⟩
      · intro e; rw [List.mem_cons, hih.1, List.mem_cons]; tauto
      · intro e he
        rcases (hih.1 e).1 he with rfl | he
        · simp only; omega
        · exact hs1 e he
    · rename_i hlt
      simp only [Chunk.lt, decide_eq_true_eq] at hlt
      split
      · rename_i heq; subst heq; omega
      · refine ⟨by intro e; simp, List.pairwise_cons.2 ⟨?_, hs⟩⟩
        intro e he
        rcases List.mem_cons.1 he with rfl | he
        · simp only; omega
        · have := hs1 e he
          simp only at this ⊢
          omega

theorem claimAll_spec {cs : List Chunk} {r : DataRange} (hr : Canonical r.ranges)
    (hcs : Canonical cs) :
    match claimAll r cs with
    | none => ∃ a, Covers cs a ∧ Covers r.ranges a
    | some r' => (∀ a, Covers cs a → ¬ Covers r.ranges a) ∧ Canonical r'.ranges ∧
        ∀ a, Covers r'.ranges a ↔ Covers r.ranges a ∨ Covers cs a := by
  induction cs generalizing r with
  | nil => simp only [claimAll]; exact ⟨by simp, hr, by simp⟩
  | cons c cs ih =>
    obtain ⟨h1, h2, h3⟩ := canonical_cons.1 hcs
    obtain ⟨k1, k2, k3⟩ := claimChunk_spec hr h1
    have hstep : claimAll r (c :: cs) =
        if (r.claimChunk c).2 = true then claimAll (r.claimChunk c).1 cs else none := rfl
    rw [hstep]
    split_ifs with hok
    · have hi := ih k1 h2
      cases hx : claimAll (r.claimChunk c).1 cs with
      | none =>
        rw [hx] at hi
        obtain ⟨a, ha, ha'⟩ := hi
        simp only
        rcases (k2 a).1 ha' with h | h
        · exact ⟨a, covers_cons.2 (Or.inr ha), h⟩
        · obtain ⟨d, hd, hin⟩ := ha
          have := h3 d hd
          unfold InChunk at hin h
          omega
      | some r' =>
        rw [hx] at hi
        obtain ⟨i1, i2, i3⟩ := hi
        refine ⟨?_, i2, ?_⟩
        · intro a ha
          rcases covers_cons.1 ha with ha | ha
          · exact k3.1 hok a ha
          · exact fun h => i1 a ha ((k2 a).2 (Or.inl h))
        · intro a
          rw [i3, k2, covers_cons]
          tauto
    · rw [k3] at hok
      simp only
      push Not at hok
      obtain ⟨a, ha, ha'⟩ := hok
      exact ⟨a, covers_cons.2 (Or.inl ha), ha'⟩

theorem foldl_emplace_spec (v : τ) (cs : List Chunk) (hcs : Canonical cs) (l : List (Chunk × τ))
    (hne : ∀ e ∈ l, e.1.1 < e.1.2) (hs : l.Pairwise (fun e f => e.1.2 ≤ f.1.1))
    (hd : ∀ e ∈ l, ∀ c ∈ cs, e.1.2 ≤ c.1 ∨ c.2 ≤ e.1.1) :
    (∀ e, e ∈ cs.foldl (fun mp c => emplace c v mp) l ↔ e ∈ l ∨ ∃ c ∈ cs, e = (c, v)) ∧
    (∀ e ∈ cs.foldl (fun mp c => emplace c v mp) l, e.1.1 < e.1.2) ∧
    (cs.foldl (fun mp c => emplace c v mp) l).Pairwise (fun e f => e.1.2 ≤ f.1.1) := by
  induction cs generalizing l with
  | nil => exact ⟨by simp, hne, hs⟩
  | cons c cs ih =>
    obtain ⟨h1, h2, h3⟩ := canonical_cons.1 hcs
    obtain ⟨e1, e2⟩ := emplace_spec v h1 hne hs (fun e he => hd e he c (by simp))
    have hne' : ∀ e ∈ emplace c v l, e.1.1 < e.1.2 := by
      intro e he
      rcases (e1 e).1 he with rfl | he
      · exact h1
      · exact hne e he
    obtain ⟨i1, i2, i3⟩ := ih h2 (emplace c v l) hne' e2 (by
      intro e he d hdm
      rcases (e1 e).1 he with rfl | he
      · have := h3 d hdm; simp only; omega
      · exact hd e he d (List.mem_cons_of_mem _ hdm))
    refine ⟨?_, i2, i3⟩
    intro e
    rw [List.foldl_cons, i1, e1]
    constructor
    · rintro ((rfl | h) | ⟨d, hdm, rfl⟩)
      · exact Or.inr ⟨c, by simp, rfl⟩
      · exact Or.inl h
      · exact Or.inr ⟨d, List.mem_cons_of_mem _ hdm, rfl⟩
    · rintro (h | ⟨d, hdm, rfl⟩)
      · exact Or.inl (Or.inr h)
      · rcases List.mem_cons.1 hdm with rfl | hdm
        · exact Or.inl (Or.inl rfl)
        · exact Or.inr ⟨d, hdm, rfl⟩

end RangeMap

end Nsasm
