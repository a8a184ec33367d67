import Verif.Lemmas.Listing

/-! # What cleaning up does to the entries -/

namespace Nsasm
open Spec Props Disassembler

/-! ## Renaming the labels -/

/-- Different addresses have different labels. -/
def DistinctLabels (m : OMap DisItem) : Prop :=
  ∀ a b it jt, OMap.find m a = some it → OMap.find m b = some jt → it.label ≠ [] → it.label = jt.label → a = b

theorem OMap.find_cons_of_tail {α : Type} {x : Nat × α} {m : OMap α} (h : OMap.Sorted (x :: m)) {a : Nat} {v : α}
    (hf : OMap.find m a = some v) : OMap.find (x :: m) a = some v ∧ x.1 ≠ a := by
  obtain ⟨k, y⟩ := x
  have hne : k ≠ a := by
    rintro rfl
    have := (OMap.sorted_cons h).2
    simp only at this
    rw [hf] at this; cases this
  rw [OMap.find, if_neg hne]
  exact ⟨hf, hne⟩

/-- A name made by the renaming, with a number above those used so far. -/
def NewName (nl ne : Nat) (l : Str) : Prop :=
  (∃ n, ne < n ∧ l = cs!"entry" ++ decimal (n : Nat)) ∨ (∃ n, nl < n ∧ l = cs!"label" ++ decimal (n : Nat))

theorem NewName.ne {nl ne : Nat} {l : Str} (h : NewName nl ne l) : l ≠ [] := by
  rcases h with ⟨n, -, rfl⟩ | ⟨n, -, rfl⟩ <;> simp

theorem NewName.mono {nl ne nl' ne' : Nat} (h1 : nl ≤ nl') (h2 : ne ≤ ne') {l : Str} (h : NewName nl' ne' l) :
    NewName nl ne l := by
  rcases h with ⟨n, h, rfl⟩ | ⟨n, h, rfl⟩
  · exact .inl ⟨n, by omega, rfl⟩
  · exact .inr ⟨n, by omega, rfl⟩

theorem not_new_entry {nl ne : Nat} (k : Nat) (hk : k ≤ ne) : ¬ NewName nl ne (cs!"entry" ++ decimal k) := by
  rintro (⟨n, h, h'⟩ | ⟨n, h, h'⟩)
  · have := decimal_inj (List.append_cancel_left h'); omega
  · have := congrArg List.head? h'
    rw [entry_head, label_head] at this; cases this

theorem not_new_label {nl ne : Nat} (k : Nat) (hk : k ≤ nl) : ¬ NewName nl ne (cs!"label" ++ decimal k) := by
  rintro (⟨n, h, h'⟩ | ⟨n, h, h'⟩)
  · have := congrArg List.head? h'
    rw [entry_head, label_head] at this; cases this
  · have := decimal_inj (List.append_cancel_left h'); omega

/-- How an entry is renamed: `r` is the table of names afterwards. -/
structure Renamed (r : List (Str × Str)) (it jt : DisItem) : Prop where
  instruction : jt.instruction = it.instruction
  current : jt.current = it.current
  next : jt.next = it.next
  blank : it.label = [] → jt.label = []
  named : it.label ≠ [] → HMap.find r it.label = some jt.label

theorem renameLabels_spec (entries : OMap Unit) : ∀ (m : OMap DisItem) (nl ne : Nat) (r : List (Str × Str)),
    OMap.Sorted m → DistinctLabels m → ∀ m' r', renameLabels entries nl ne r m = (m', r') →
    m'.map Prod.fst = m.map Prod.fst ∧
    (∀ a jt, OMap.find m' a = some jt → ∃ it, OMap.find m a = some it ∧ Renamed r' it jt ∧
      (it.label ≠ [] → NewName nl ne jt.label)) ∧
    (∀ L, (∀ a it, OMap.find m a = some it → it.label ≠ L) → HMap.find r' L = HMap.find r L) ∧
    (∀ a b it jt, OMap.find m' a = some it → OMap.find m' b = some jt → it.label ≠ [] → it.label = jt.label → a = b) := by
  intro m
  induction m with
  | nil =>
    intro nl ne r _ _ m' r' h
    cases h
    exact ⟨rfl, by simp [OMap.find], fun _ _ => rfl, by simp [OMap.find]⟩
  | cons x m ih =>
    intro nl ne r hs hd m' r' h
    obtain ⟨k, it⟩ := x
    obtain ⟨hs', hk⟩ := OMap.sorted_cons hs
    simp only at hk
    have hd' : DistinctLabels m := fun a b x y ha hb =>
      hd a b x y (OMap.find_cons_of_tail hs ha).1 (OMap.find_cons_of_tail hs hb).1
    have hkeys : ∀ {m1 : OMap DisItem} {a : Nat} {jt : DisItem} {y : DisItem},
        (∀ a jt, OMap.find m1 a = some jt → ∃ it, OMap.find m a = some it) →
        OMap.find ((k, y) :: m1) a = some jt → (k = a ∧ jt = y) ∨ (k ≠ a ∧ OMap.find m1 a = some jt) := by
      intro m1 a jt y _ ha
      rw [OMap.find] at ha
      by_cases hka : k = a
      · rw [if_pos hka] at ha; cases ha; exact .inl ⟨hka, rfl⟩
      · rw [if_neg hka] at ha; exact .inr ⟨hka, ha⟩
    have hself : OMap.find ((k, it) :: m) k = some it := by simp [OMap.find]
    unfold renameLabels at h
    by_cases hl : it.label = []
    · rw [if_pos hl] at h
      generalize hrr : renameLabels entries nl ne r m = p at h
      obtain ⟨m1, r1⟩ := p
      cases h
      obtain ⟨i1, i2, i3, i4⟩ := ih nl ne r hs' hd' m1 r' hrr
      refine ⟨by simp [i1], ?_, ?_, ?_⟩
      · intro a jt ha
        rcases hkeys (fun a jt h => (i2 a jt h).imp fun _ h => h.1) ha with ⟨rfl, rfl⟩ | ⟨hka, ha⟩
        · exact ⟨jt, hself, ⟨rfl, rfl, rfl, fun h => h, fun h => absurd hl h⟩, fun h => absurd hl h⟩
        · obtain ⟨it', h1, h2, h3⟩ := i2 a jt ha
          exact ⟨it', (OMap.find_cons_of_tail hs h1).1, h2, h3⟩
      · intro L hL
        exact i3 L fun a x hx => hL a x (OMap.find_cons_of_tail hs hx).1
      · intro a b x y ha hb hne heq
        rcases hkeys (fun a jt h => (i2 a jt h).imp fun _ h => h.1) ha with ⟨rfl, rfl⟩ | ⟨hka, ha⟩
        · exact absurd hl hne
        · rcases hkeys (fun a jt h => (i2 a jt h).imp fun _ h => h.1) hb with ⟨rfl, rfl⟩ | ⟨hkb, hb⟩
          · rw [hl] at heq; exact absurd heq hne
          · exact i4 a b x y ha hb hne heq
    · rw [if_neg hl] at h
      -- both kinds of names at once
      obtain ⟨nl', ne', name, e, m1, r1, hle1, hle2, hnew, hold, hrr, hm', hr'⟩ :
          ∃ (nl' ne' : Nat) (name : Str) (e : Bool) (m1 : OMap DisItem) (r1 : List (Str × Str)),
          nl ≤ nl' ∧ ne ≤ ne' ∧ NewName nl ne name ∧ ¬ NewName nl' ne' name ∧
          renameLabels entries nl' ne' ((it.label, name) :: r) m = (m1, r1) ∧
          m' = (k, { it with label := name, isEntry := e }) :: m1 ∧ r' = r1 := by
        by_cases he : (entries.find k).isSome
        · rw [if_pos he] at h
          simp only at h
          generalize hrr : renameLabels entries nl (ne + 1) ((it.label, cs!"entry" ++ decimal (ne + 1)) :: r) m = p at h
          obtain ⟨m1, r1⟩ := p
          cases h
          exact ⟨nl, ne + 1, _, true, m1, r1, Nat.le_refl _, by omega, .inl ⟨ne + 1, by omega, rfl⟩,
            not_new_entry (ne + 1) (Nat.le_refl _), hrr, rfl, rfl⟩
        · rw [if_neg he] at h
          simp only at h
          generalize hrr : renameLabels entries (nl + 1) ne ((it.label, cs!"label" ++ decimal (nl + 1)) :: r) m = p at h
          obtain ⟨m1, r1⟩ := p
          cases h
          exact ⟨nl + 1, ne, _, false, m1, r1, by omega, Nat.le_refl _, .inr ⟨nl + 1, by omega, rfl⟩,
            not_new_label (nl + 1) (Nat.le_refl _), hrr, rfl, rfl⟩
      subst hm' hr'
      obtain ⟨i1, i2, i3, i4⟩ := ih nl' ne' ((it.label, name) :: r) hs' hd' m1 r' hrr
      have hother : ∀ a x, OMap.find m a = some x → x.label ≠ it.label := by
        intro a x hx heq
        obtain ⟨hx', hka⟩ := OMap.find_cons_of_tail hs hx
        exact hka (hd k a it x hself hx' hl heq.symm)
      refine ⟨by simp [i1], ?_, ?_, ?_⟩
      · intro a jt ha
        rcases hkeys (fun a jt h => (i2 a jt h).imp fun _ h => h.1) ha with ⟨rfl, rfl⟩ | ⟨hka, ha⟩
        · refine ⟨it, hself, ⟨rfl, rfl, rfl, fun h => absurd h hl, fun _ => ?_⟩, fun _ => hnew⟩
          rw [i3 it.label hother]
          simp [HMap.find]
        · obtain ⟨it', h1, h2, h3⟩ := i2 a jt ha
          exact ⟨it', (OMap.find_cons_of_tail hs h1).1, h2, fun h => (h3 h).mono hle1 hle2⟩
      · intro L hL
        rw [i3 L fun a x hx => hL a x (OMap.find_cons_of_tail hs hx).1]
        have : it.label ≠ L := hL k it hself
        simp [HMap.find, this]
      · intro a b x y ha hb hne heq
        rcases hkeys (fun a jt h => (i2 a jt h).imp fun _ h => h.1) ha with ⟨rfl, rfl⟩ | ⟨hka, ha⟩
        · rcases hkeys (fun a jt h => (i2 a jt h).imp fun _ h => h.1) hb with ⟨rfl, rfl⟩ | ⟨hkb, hb⟩
          · rfl
          · exfalso
            obtain ⟨y', h1, h2, h3⟩ := i2 b y hb
            simp only at heq
            by_cases hy : y'.label = []
            · rw [h2.blank hy] at heq; exact hnew.ne heq
            · exact hold (heq ▸ h3 hy)
        · rcases hkeys (fun a jt h => (i2 a jt h).imp fun _ h => h.1) hb with ⟨rfl, rfl⟩ | ⟨hkb, hb⟩
          · exfalso
            obtain ⟨x', h1, h2, h3⟩ := i2 a x ha
            simp only at heq
            by_cases hx : x'.label = []
            · rw [h2.blank hx] at hne; exact hne rfl
            · exact hold (heq ▸ h3 hx)
          · exact i4 a b x y ha hb hne heq

/-! ## Naming far targets -/

/-- What naming the far targets does to one entry. -/
structure FarNamed (d : Disassembler) (a : Nat) (it jt : DisItem) : Prop where
  label : jt.label = it.label
  isEntry : jt.isEntry = it.isEntry
  current : jt.current = it.current
  next : jt.next = it.next
  instruction : jt.instruction = it.instruction ∨
    ∃ t n ty, it.instruction.farBranchTarget a = .ok (some t) ∧ nameForAddress d t = some n ∧
      jt.instruction = { it.instruction with arg1 := .ident ⟨none, n⟩ ty }
  typed : ∀ n ty, jt.instruction.arg1 = .ident n ty → it.instruction.arg1 = .ident n ty ∨
    (it.instruction.mode = .dir_l ∧ ty = .long) ∨ (it.instruction.mode = .dir_w ∧ ty = .word)

theorem nameFar_spec {d : Disassembler} {a : Nat} {it jt : DisItem} (h : nameFar d a it = .ok jt) :
    FarNamed d a it jt := by
  unfold nameFar at h
  obtain ⟨t, ht, h⟩ := Res.bind_eq_ok.1 h
  cases t with
  | none => cases h; exact ⟨rfl, rfl, rfl, rfl, .inl rfl, fun _ _ h => .inl h⟩
  | some t =>
    simp only at h
    cases hn : nameForAddress d t with
    | none => rw [hn] at h; cases h; exact ⟨rfl, rfl, rfl, rfl, .inl rfl, fun _ _ h => .inl h⟩
    | some n =>
      rw [hn] at h
      simp only at h
      by_cases h1 : it.instruction.mode = .dir_l
      · rw [if_pos h1] at h
        cases h
        exact ⟨rfl, rfl, rfl, rfl, .inr ⟨t, n, _, ht, hn, rfl⟩, fun _ _ h => .inr (.inl ⟨h1, by cases h; rfl⟩)⟩
      · rw [if_neg h1] at h
        by_cases h2 : it.instruction.mode = .dir_w
        · rw [if_pos h2] at h
          cases h
          exact ⟨rfl, rfl, rfl, rfl, .inr ⟨t, n, _, ht, hn, rfl⟩, fun _ _ h => .inr (.inr ⟨h2, by cases h; rfl⟩)⟩
        · rw [if_neg h2] at h
          cases h
          exact ⟨rfl, rfl, rfl, rfl, .inl rfl, fun _ _ h => .inl h⟩

theorem nameFars_spec {d : Disassembler} : ∀ (m : OMap DisItem) (m' : OMap DisItem), nameFars d m = .ok m' →
    m'.map Prod.fst = m.map Prod.fst ∧
    ∀ a jt, OMap.find m' a = some jt → ∃ it, OMap.find m a = some it ∧ FarNamed d a it jt := by
  intro m
  induction m with
  | nil => intro m' h; cases h; exact ⟨rfl, by simp [OMap.find]⟩
  | cons x m ih =>
    intro m' h
    obtain ⟨k, it⟩ := x
    unfold nameFars at h
    obtain ⟨jt, h1, h⟩ := Res.bind_eq_ok.1 h
    obtain ⟨m1, h2, h⟩ := Res.bind_eq_ok.1 h
    cases h
    obtain ⟨i1, i2⟩ := ih m1 h2
    refine ⟨by simp [i1], fun a y ha => ?_⟩
    rw [OMap.find] at ha ⊢
    by_cases hka : k = a
    · rw [if_pos hka] at ha ⊢
      cases ha
      subst hka
      exact ⟨it, rfl, nameFar_spec h1⟩
    · rw [if_neg hka] at ha ⊢
      exact i2 a y ha

theorem OMap.sorted_keys {α β : Type} {m : OMap α} {m' : OMap β} (h : m'.map Prod.fst = m.map Prod.fst) :
    (OMap.Sorted m → OMap.Sorted m') ∧ (∀ a, (OMap.find m' a).isSome = (OMap.find m a).isSome) := by
  constructor
  · intro hs
    unfold OMap.Sorted at *
    have h1 : (m.map Prod.fst).Pairwise (· < ·) := by rw [List.pairwise_map]; exact hs
    rw [← h, List.pairwise_map] at h1
    exact h1
  · intro a
    induction m generalizing m' with
    | nil => simp at h; subst h; rfl
    | cons x m ih =>
      cases m' with
      | nil => simp at h
      | cons y m' =>
        simp only [List.map_cons, List.cons.injEq] at h
        simp only [OMap.find]
        rw [h.1]
        split
        · rfl
        · exact ih h.2

/-! ## Folding -/

/-- What folding does to an entry that stays. -/
def Folded (m : OMap DisItem) (a : Nat) (it jt : DisItem) : Prop :=
  jt = it ∨ ∃ b second mn, OMap.find m b = some second ∧ a < b ∧ (∀ c x, OMap.find m c = some x → ¬ (a < c ∧ c < b)) ∧
    foldPair it second = some mn ∧
    jt = { it with instruction := { second.instruction with mnemonic := mn }, next := second.next }

theorem foldPair_spec {it jt : DisItem} {mn : Mnemonic} (h : foldPair it jt = some mn) :
    jt.label = [] ∧ ((it.instruction.mnemonic = .clc ∧ jt.instruction.mnemonic = .adc ∧ mn = .padd) ∨
      (it.instruction.mnemonic = .sec ∧ jt.instruction.mnemonic = .sbc ∧ mn = .psub)) := by
  unfold foldPair at h
  split at h
  · rename_i hc; cases h; exact ⟨hc.2.2, .inl ⟨hc.1, hc.2.1, rfl⟩⟩
  · split at h
    · rename_i hc; cases h; exact ⟨hc.2.2, .inr ⟨hc.1, hc.2.1, rfl⟩⟩
    · cases h

/-- A folded entry is not folded again. -/
theorem fold_head (a : Nat) (it : DisItem) (hc : it.instruction.mnemonic ≠ .clc ∧ it.instruction.mnemonic ≠ .sec)
    (m : OMap DisItem) : fold ((a, it) :: m) = (a, it) :: fold m := by
  cases m with
  | nil => simp [fold]
  | cons y m =>
    obtain ⟨b, jt⟩ := y
    rw [fold]
    have : foldPair it jt = none := by
      unfold foldPair; simp [hc]
    rw [this]

theorem fold_keys : ∀ (m : OMap DisItem) {x : Nat × DisItem}, x ∈ fold m → ∃ y ∈ m, y.1 = x.1 := by
  intro m
  induction m using fold.induct with
  | case1 => intro x h; simp [fold] at h
  | case2 y => intro x h; simp [fold] at h; exact ⟨y, by simp, by rw [h]⟩
  | case3 a it b jt rest mn hp ih =>
    intro x h
    rw [fold, hp] at h
    obtain ⟨y, hy, hxy⟩ := ih h
    rw [List.mem_cons] at hy
    rcases hy with rfl | hy
    · exact ⟨(a, it), by simp, hxy⟩
    · exact ⟨y, by simp [hy], hxy⟩
  | case4 a it b jt rest hp ih =>
    intro x h
    rw [fold, hp, List.mem_cons] at h
    rcases h with rfl | h
    · exact ⟨(a, it), by simp, rfl⟩
    · obtain ⟨y, hy, hxy⟩ := ih h
      exact ⟨y, by simp at hy ⊢; tauto, hxy⟩

theorem fold_sorted : ∀ (m : OMap DisItem), OMap.Sorted m → OMap.Sorted (fold m) := by
  intro m
  induction m using fold.induct with
  | case1 => intro h; simpa [fold] using h
  | case2 y => intro h; simpa [fold] using h
  | case3 a it b jt rest mn hp ih =>
    intro h
    rw [fold, hp]
    refine ih ?_
    unfold OMap.Sorted at *
    rw [List.pairwise_cons] at h ⊢
    obtain ⟨h1, h2⟩ := h
    rw [List.pairwise_cons] at h2
    exact ⟨fun y hy => h1 y (by simp [hy]), h2.2⟩
  | case4 a it b jt rest hp ih =>
    intro h
    rw [fold, hp]
    unfold OMap.Sorted at *
    rw [List.pairwise_cons] at h ⊢
    refine ⟨fun x hx => ?_, ih h.2⟩
    obtain ⟨y, hy, hxy⟩ := fold_keys _ hx
    have := h.1 y hy
    simp only at this ⊢
    omega

theorem fold_spec : ∀ (m : OMap DisItem), OMap.Sorted m →
    (∀ a jt, OMap.find (fold m) a = some jt → ∃ it, OMap.find m a = some it ∧ Folded m a it jt) ∧
    (∀ a it, OMap.find m a = some it → (∃ jt, OMap.find (fold m) a = some jt) ∨
      (it.label = [] ∧ ∃ b first mn jt, OMap.find m b = some first ∧ b < a ∧ (∀ c x, OMap.find m c = some x → ¬ (b < c ∧ c < a)) ∧
        foldPair first it = some mn ∧ OMap.find (fold m) b = some jt ∧
        jt = { first with instruction := { it.instruction with mnemonic := mn }, next := it.next })) := by
  intro m
  induction hn : m.length using Nat.strongRecOn generalizing m with
  | _ n ih =>
    intro hs
    match m, hn, hs with
    | [], _, _ => exact ⟨by simp [fold, OMap.find], by simp [OMap.find]⟩
    | [x], _, _ =>
      obtain ⟨k, it⟩ := x
      have : fold [(k, it)] = [(k, it)] := by simp [fold]
      rw [this]
      exact ⟨fun a jt h => ⟨jt, h, .inl rfl⟩, fun a jt h => .inl ⟨jt, h⟩⟩
    | (k, it) :: (l, second) :: rest, hn, hs =>
      have hs1 := (OMap.sorted_cons hs).1
      have hs2 := (OMap.sorted_cons hs1).1
      have hkl : k < l := by
        unfold OMap.Sorted at hs; rw [List.pairwise_cons] at hs; exact hs.1 (l, second) (by simp)
      have hrest : ∀ y ∈ rest, l < y.1 := by
        unfold OMap.Sorted at hs1; rw [List.pairwise_cons] at hs1; exact fun y hy => hs1.1 y hy
      have hlr : ∀ c x, OMap.find rest c = some x → l < c := fun c x hc => hrest _ (OMap.mem_of_find hc)
      have hup : ∀ c x, OMap.find rest c = some x → OMap.find ((k, it) :: (l, second) :: rest) c = some x := by
        intro c x hc
        have := hlr c x hc
        rw [OMap.find, if_neg (by omega), OMap.find, if_neg (by omega)]
        exact hc
      have hup1 : ∀ c x, OMap.find ((l, second) :: rest) c = some x → OMap.find ((k, it) :: (l, second) :: rest) c = some x :=
        fun c x hc => (OMap.find_cons_of_tail hs hc).1
      have hcases : ∀ c x, OMap.find ((k, it) :: (l, second) :: rest) c = some x →
          (c = k ∧ x = it) ∨ (c = l ∧ x = second) ∨ OMap.find rest c = some x := by
        intro c x hc
        rw [OMap.find] at hc
        split at hc
        · rename_i h; cases hc; exact .inl ⟨h.symm, rfl⟩
        · rw [OMap.find] at hc
          split at hc
          · rename_i h; cases hc; exact .inr (.inl ⟨h.symm, rfl⟩)
          · exact .inr (.inr hc)
      have hk : OMap.find ((k, it) :: (l, second) :: rest) k = some it := by simp [OMap.find]
      have hl : OMap.find ((k, it) :: (l, second) :: rest) l = some second := by
        rw [OMap.find, if_neg (by omega)]; simp [OMap.find]
      cases hp : foldPair it second with
      | some mn =>
        obtain ⟨hlab, hmn⟩ := foldPair_spec hp
        have hf : fold ((k, it) :: (l, second) :: rest) =
            (k, { it with instruction := { second.instruction with mnemonic := mn }, next := second.next }) :: fold rest := by
          rw [fold, hp]
          refine fold_head _ _ ?_ _
          simp only
          rcases hmn with ⟨-, -, rfl⟩ | ⟨-, -, rfl⟩ <;> simp
        obtain ⟨i1, i2⟩ := ih rest.length (by simp at hn; omega) rest rfl hs2
        rw [hf]
        constructor
        · intro a jt ha
          rw [OMap.find] at ha
          split at ha
          · rename_i hka
            cases ha
            subst hka
            refine ⟨it, hk, .inr ⟨l, second, mn, hl, hkl, ?_, hp, rfl⟩⟩
            intro c x hc hlt
            rcases hcases c x hc with ⟨rfl, -⟩ | ⟨rfl, -⟩ | hc
            · omega
            · omega
            · have := hlr c x hc; omega
          · obtain ⟨it', h1, h2⟩ := i1 a jt ha
            refine ⟨it', hup a it' h1, ?_⟩
            rcases h2 with rfl | ⟨b, sc, mn', g1, g2, g3, g4, g5⟩
            · exact .inl rfl
            · refine .inr ⟨b, sc, mn', hup b sc g1, g2, ?_, g4, g5⟩
              intro c x hc hlt
              have hla := hlr a it' h1
              rcases hcases c x hc with ⟨rfl, -⟩ | ⟨rfl, -⟩ | hc
              · omega
              · omega
              · exact g3 c x hc hlt
        · intro a x ha
          rcases hcases a x ha with ⟨rfl, rfl⟩ | ⟨rfl, rfl⟩ | hc
          · left; exact ⟨_, by rw [OMap.find, if_pos rfl]⟩
          · right
            refine ⟨hlab, k, it, mn, _, hk, hkl, ?_, hp, by rw [OMap.find, if_pos rfl], rfl⟩
            intro c x hc hlt
            rcases hcases c x hc with ⟨rfl, -⟩ | ⟨rfl, -⟩ | hc
            · omega
            · omega
            · have := hlr c x hc; omega
          · have hla := hlr a x hc
            rcases i2 a x hc with ⟨jt, h⟩ | ⟨h0, b, first, mn', jt, g1, g2, g3, g4, g5, g6⟩
            · left; exact ⟨jt, by rw [OMap.find, if_neg (by omega)]; exact h⟩
            · right
              have hlb := hlr b first g1
              refine ⟨h0, b, first, mn', jt, hup b first g1, g2, ?_, g4, ?_, g6⟩
              · intro c x hc hlt
                rcases hcases c x hc with ⟨rfl, -⟩ | ⟨rfl, -⟩ | hc
                · omega
                · omega
                · exact g3 c x hc hlt
              · rw [OMap.find, if_neg (by omega)]; exact g5
      | none =>
        have hf : fold ((k, it) :: (l, second) :: rest) = (k, it) :: fold ((l, second) :: rest) := by
          rw [fold, hp]
        obtain ⟨i1, i2⟩ := ih ((l, second) :: rest).length (by simp at hn ⊢; omega) ((l, second) :: rest) rfl hs1
        rw [hf]
        have hle : ∀ c x, OMap.find ((l, second) :: rest) c = some x → k < c := by
          intro c x hc
          unfold OMap.Sorted at hs
          rw [List.pairwise_cons] at hs
          exact hs.1 _ (OMap.mem_of_find hc)
        have hcases1 : ∀ c x, OMap.find ((k, it) :: (l, second) :: rest) c = some x →
            (c = k ∧ x = it) ∨ OMap.find ((l, second) :: rest) c = some x := by
          intro c x hc
          rw [OMap.find] at hc
          split at hc
          · rename_i h; cases hc; exact .inl ⟨h.symm, rfl⟩
          · exact .inr hc
        constructor
        · intro a jt ha
          rw [OMap.find] at ha
          split at ha
          · rename_i hka; cases ha; subst hka; exact ⟨it, hk, .inl rfl⟩
          · obtain ⟨it', h1, h2⟩ := i1 a jt ha
            refine ⟨it', hup1 a it' h1, ?_⟩
            rcases h2 with rfl | ⟨b, sc, mn', g1, g2, g3, g4, g5⟩
            · exact .inl rfl
            · refine .inr ⟨b, sc, mn', hup1 b sc g1, g2, ?_, g4, g5⟩
              intro c x hc hlt
              have hka := hle a it' h1
              rcases hcases1 c x hc with ⟨rfl, -⟩ | hc
              · omega
              · exact g3 c x hc hlt
        · intro a x ha
          rcases hcases1 a x ha with ⟨rfl, rfl⟩ | hc
          · left; exact ⟨_, by rw [OMap.find, if_pos rfl]⟩
          · have hka := hle a x hc
            rcases i2 a x hc with ⟨jt, h⟩ | ⟨h0, b, first, mn', jt, g1, g2, g3, g4, g5, g6⟩
            · left; exact ⟨jt, by rw [OMap.find, if_neg (by omega)]; exact h⟩
            · right
              have hkb := hle b first g1
              refine ⟨h0, b, first, mn', jt, hup1 b first g1, g2, ?_, g4, ?_, g6⟩
              · intro c x hc hlt
                rcases hcases1 c x hc with ⟨rfl, -⟩ | hc
                · omega
                · exact g3 c x hc hlt
              · rw [OMap.find, if_neg (by omega)]; exact g5

/-! ## Cleaning up as a whole -/

/-- What renaming and naming far targets do to an entry. -/
structure Tidied (r : List (Str × Str)) (d : Disassembler) (a : Nat) (it jt : DisItem) : Prop where
  current : jt.current = it.current
  next : jt.next = it.next
  blank : it.label = [] → jt.label = []
  named : it.label ≠ [] → HMap.find r it.label = some jt.label
  made : it.label ≠ [] → NewName 0 0 jt.label
  instruction :
    jt.instruction = { it.instruction with arg1 := rewriteOperand r it.instruction.arg1 } ∨
    ∃ t n ty, ({ it.instruction with arg1 := rewriteOperand r it.instruction.arg1 } : Instruction).farBranchTarget a =
        .ok (some t) ∧ nameForAddress d t = some n ∧
      jt.instruction = { it.instruction with arg1 := .ident ⟨none, n⟩ ty }
  typed : ∀ n ty, jt.instruction.arg1 = .ident n ty → rewriteOperand r it.instruction.arg1 = .ident n ty ∨
    (it.instruction.mode = .dir_l ∧ ty = .long) ∨ (it.instruction.mode = .dir_w ∧ ty = .word)

theorem cleanup_inv {d d' : Disassembler} (hs : OMap.Sorted d.disassembly) (hd : DistinctLabels d.disassembly)
    (h : d.cleanup = .ok d') : ∃ (r : List (Str × Str)) (ops fars : OMap DisItem),
      OMap.Sorted fars ∧ d' = { d with disassembly := fold fars } ∧
      (∀ a, (OMap.find fars a).isSome = (d.disassembly.find a).isSome) ∧
      (∀ a, (OMap.find ops a).isSome = (d.disassembly.find a).isSome) ∧
      (∀ a it jt, d.disassembly.find a = some it → OMap.find ops a = some jt →
        (it.label = [] → jt.label = []) ∧ (it.label ≠ [] → HMap.find r it.label = some jt.label)) ∧
      (∀ a jt, OMap.find fars a = some jt → ∃ it, d.disassembly.find a = some it ∧
        Tidied r { d with disassembly := ops } a it jt) ∧ DistinctLabels fars := by
  unfold cleanup at h
  generalize hr : renameLabels d.entryPoints 0 0 [] d.disassembly = p at h
  obtain ⟨named, r⟩ := p
  simp only at h
  obtain ⟨fars, hf, h⟩ := Res.bind_eq_ok.1 h
  cases h
  obtain ⟨r1, r2, -, r4⟩ := renameLabels_spec d.entryPoints d.disassembly 0 0 [] hs hd named r hr
  obtain ⟨f1, f2⟩ := nameFars_spec _ _ hf
  generalize hopsdef : (named.map fun n => (n.1, ({ n.2 with
    instruction := { n.2.instruction with arg1 := rewriteOperand r n.2.instruction.arg1 } } : DisItem))) = ops at f1 f2
  have hkeys : fars.map Prod.fst = d.disassembly.map Prod.fst := by
    rw [f1, ← r1, ← hopsdef, List.map_map]
    rfl
  have hops := OMap.find_map (fun it : DisItem =>
    ({ it with instruction := { it.instruction with arg1 := rewriteOperand r it.instruction.arg1 } } : DisItem)) named
  rw [hopsdef] at hops
  refine ⟨r, ops, fars, (OMap.sorted_keys hkeys).1 hs, rfl, (OMap.sorted_keys hkeys).2, ?_, ?_, ?_, ?_⟩
  · intro a
    rw [hops, Option.isSome_map]
    exact (OMap.sorted_keys r1).2 a
  · intro a it jt ha hj
    rw [hops] at hj
    obtain ⟨x, hx, rfl⟩ := Option.map_eq_some_iff.1 hj
    obtain ⟨y, hy, hren, -⟩ := r2 a x hx
    rw [ha] at hy
    cases hy
    exact ⟨hren.blank, hren.named⟩
  · intro a jt ha
    obtain ⟨x, hx, hfn⟩ := f2 a jt ha
    rw [hops] at hx
    obtain ⟨y, hy, rfl⟩ := Option.map_eq_some_iff.1 hx
    obtain ⟨it, hit, hren, hnew⟩ := r2 a y hy
    refine ⟨it, hit, ⟨?_, ?_, ?_, ?_, ?_, ?_, ?_⟩⟩
    · rw [hfn.current]; exact hren.current
    · rw [hfn.next]; exact hren.next
    · intro hb; rw [hfn.label]; exact hren.blank hb
    · intro hb; rw [hfn.label]; exact hren.named hb
    · intro hb; rw [hfn.label]; exact hnew hb
    · have := hfn.instruction
      simp only [hren.instruction] at this
      exact this
    · have := hfn.typed
      simp only [hren.instruction] at this
      exact this
  · intro a b x y ha hb hne heq
    obtain ⟨x', hx', hfx⟩ := f2 a x ha
    obtain ⟨y', hy', hfy⟩ := f2 b y hb
    rw [hops] at hx' hy'
    obtain ⟨x0, hx0, rfl⟩ := Option.map_eq_some_iff.1 hx'
    obtain ⟨y0, hy0, rfl⟩ := Option.map_eq_some_iff.1 hy'
    have h1 := hfx.label
    have h2 := hfy.label
    simp only at h1 h2
    exact r4 a b x0 y0 hx0 hy0 (h1 ▸ hne) (by rw [← h1, ← h2, heq])

theorem tidied_kind {r : List (Str × Str)} {d : Disassembler} {a : Nat} {it jt : DisItem} (h : Tidied r d a it jt) :
    jt.instruction.mnemonic = it.instruction.mnemonic ∧ jt.instruction.mode = it.instruction.mode ∧
    jt.instruction.ret = it.instruction.ret ∧ jt.instruction.isLocalBranch = it.instruction.isLocalBranch := by
  rcases h.instruction with h | ⟨t, n, ty, -, -, h⟩ <;> rw [h] <;> exact ⟨rfl, rfl, rfl, rfl⟩

theorem tidied_branch {r : List (Str × Str)} {d : Disassembler} {a : Nat} {it jt : DisItem} (h : Tidied r d a it jt)
    (hb : it.instruction.isLocalBranch = true) :
    jt.instruction = { it.instruction with arg1 := rewriteOperand r it.instruction.arg1 } := by
  rcases h.instruction with h | ⟨t, n, ty, hf, -, -⟩
  · exact h
  · have hb' : ({ it.instruction with arg1 := rewriteOperand r it.instruction.arg1 } : Instruction).isLocalBranch = true := hb
    rw [branch_no_far hb'] at hf; cases hf

theorem tidied_proper {d : Disassembler} (hp : Proper d) {r : List (Str × Str)} {ops fars : OMap DisItem}
    (hs : OMap.Sorted fars) (hk : ∀ a, (OMap.find fars a).isSome = (d.disassembly.find a).isSome)
    (ht : ∀ a jt, OMap.find fars a = some jt → ∃ it, d.disassembly.find a = some it ∧
        Tidied r { d with disassembly := ops } a it jt) (hd : DistinctLabels fars) :
    Proper { d with disassembly := fars } := by
  refine ⟨hs, ?_, ?_, hp.table, ?_, hd, ?_, ?_, ?_⟩
  · intro a jt ha
    obtain ⟨it, h1, h2⟩ := ht a jt ha
    rw [h2.current]; exact hp.states a it h1
  · intro a jt f ha hf
    obtain ⟨it, h1, h2⟩ := ht a jt ha
    rw [(tidied_kind h2).2.2.1] at hf
    exact hp.rets a it f h1 hf
  · intro a jt ha hl
    obtain ⟨it, h1, h2⟩ := ht a jt ha
    have hne : it.label ≠ [] := fun h => hl (h2.blank h)
    rcases h2.made hne with ⟨n, -, h⟩ | ⟨n, -, h⟩
    · exact .inr (.inl ⟨n, h⟩)
    · exact .inr (.inr ⟨n, h⟩)
  · intro a jt ha hb
    obtain ⟨it, h1, h2⟩ := ht a jt ha
    have hb' : it.instruction.isLocalBranch = true := by rw [← (tidied_kind h2).2.2.2]; exact hb
    obtain ⟨name, e, v, kt, b1, b2, b3, b4, b5, b6⟩ := hp.branches a it h1 hb'
    have hi := tidied_branch h2 hb'
    have hsome := hk (Address.addWrapped (nextAddr a it.instruction) v)
    rw [b4] at hsome
    obtain ⟨kt', hk'⟩ := Option.isSome_iff_exists.1 hsome
    obtain ⟨kt2, hk2, hkt⟩ := ht _ kt' hk'
    rw [b4] at hk2
    cases hk2
    have hkne : kt.label ≠ [] := by rw [b5]; exact b6
    have hr := hkt.named hkne
    rw [b5] at hr
    refine ⟨kt'.label, e, v, kt', ?_, b2, b3, ?_, rfl, ?_⟩
    · rw [hi, b1]
      simp only [rewriteOperand, rewriteOf, hr, Option.getD_some]
    · rw [hi]; exact hk'
    · exact (hkt.made hkne).ne
  · intro a jt ha hb
    obtain ⟨it, h1, h2⟩ := ht a jt ha
    rw [(tidied_kind h2).2.2.2] at hb
    rw [(tidied_kind h2).1]
    exact hp.kinds a it h1 hb
  · intro a jt ha hm
    obtain ⟨it, h1, h2⟩ := ht a jt ha
    rw [(tidied_kind h2).1] at hm
    rw [(tidied_kind h2).2.1]
    obtain ⟨c1, c2⟩ := hp.carry a it h1 hm
    refine ⟨c1, fun hw => ?_⟩
    obtain ⟨kt, hkt⟩ := c2 hw
    have hsome := hk (Address.addWrapped a 1)
    rw [hkt] at hsome
    exact Option.isSome_iff_exists.1 hsome

theorem folded_rest {m : OMap DisItem} {a : Nat} {it jt : DisItem} (h : Folded m a it jt) :
    jt.label = it.label ∧ jt.isEntry = it.isEntry ∧ jt.current = it.current := by
  rcases h with rfl | ⟨b, sc, mn, -, -, -, -, rfl⟩ <;> exact ⟨rfl, rfl, rfl⟩

theorem fold_proper {d : Disassembler} (hp : Proper d) : Proper { d with disassembly := fold d.disassembly } := by
  obtain ⟨f1, f2⟩ := fold_spec d.disassembly hp.sorted
  have hlab : ∀ a it, d.disassembly.find a = some it → it.label ≠ [] → ∃ jt, OMap.find (fold d.disassembly) a = some jt ∧
      jt.label = it.label := by
    intro a it ha hl
    rcases f2 a it ha with ⟨jt, hj⟩ | ⟨h, -⟩
    · obtain ⟨it', h1, h2⟩ := f1 a jt hj
      rw [ha] at h1
      cases h1
      exact ⟨jt, hj, (folded_rest h2).1⟩
    · exact absurd h hl
  have hbr : ∀ a it jt, d.disassembly.find a = some it → Folded d.disassembly a it jt →
      jt.instruction.isLocalBranch = true → jt = it := by
    intro a it jt ha hf hb
    rcases hf with rfl | ⟨b, sc, mn, g1, -, -, g2, rfl⟩
    · rfl
    · exfalso
      obtain ⟨-, hm⟩ := foldPair_spec g2
      have hsb : sc.instruction.isLocalBranch = true := by
        simp only [Instruction.isLocalBranch, Bool.and_eq_true] at hb ⊢
        refine ⟨hb.1, ?_⟩
        rcases hm with ⟨-, h, -⟩ | ⟨-, h, -⟩ <;> simp [h]
      have := hp.kinds b sc g1 hsb
      rcases hm with ⟨-, h, -⟩ | ⟨-, h, -⟩ <;> rw [h] at this <;> simp [branchMnemonics] at this
  refine ⟨fold_sorted _ hp.sorted, ?_, ?_, hp.table, ?_, ?_, ?_, ?_, ?_⟩
  · intro a jt ha
    obtain ⟨it, h1, h2⟩ := f1 a jt ha
    rw [(folded_rest h2).2.2]; exact hp.states a it h1
  · intro a jt f ha hf
    obtain ⟨it, h1, h2⟩ := f1 a jt ha
    rcases h2 with rfl | ⟨b, sc, mn, g1, -, -, -, rfl⟩
    · exact hp.rets a _ f h1 hf
    · exact hp.rets b sc f g1 hf
  · intro a jt ha hl
    obtain ⟨it, h1, h2⟩ := f1 a jt ha
    rw [(folded_rest h2).1] at hl ⊢
    exact hp.made a it h1 hl
  · intro a b x y ha hb hl heq
    obtain ⟨x', hx1, hx2⟩ := f1 a x ha
    obtain ⟨y', hy1, hy2⟩ := f1 b y hb
    rw [(folded_rest hx2).1] at hl heq
    rw [(folded_rest hy2).1] at heq
    exact hp.distinct a b x' y' hx1 hy1 hl heq
  · intro a jt ha hb
    obtain ⟨it, h1, h2⟩ := f1 a jt ha
    have := hbr a it jt h1 h2 hb
    subst this
    obtain ⟨name, e, v, kt, b1, b2, b3, b4, b5, b6⟩ := hp.branches a jt h1 hb
    obtain ⟨kt', hk', hkl⟩ := hlab _ kt b4 (by rw [b5]; exact b6)
    exact ⟨name, e, v, kt', b1, b2, b3, hk', by rw [hkl, b5], b6⟩
  · intro a jt ha hb
    obtain ⟨it, h1, h2⟩ := f1 a jt ha
    have := hbr a it jt h1 h2 hb
    subst this
    exact hp.kinds a jt h1 hb
  · intro a jt ha hm
    obtain ⟨it, h1, h2⟩ := f1 a jt ha
    rcases h2 with rfl | ⟨b, sc, mn, -, -, -, g2, rfl⟩
    · obtain ⟨c1, c2⟩ := hp.carry a _ h1 hm
      refine ⟨c1, fun hw => ?_⟩
      obtain ⟨kt, hk⟩ := c2 hw
      rcases f2 _ kt hk with h | ⟨-, b, first, mn, jt', g1, g2, g3, g4, g5, g6⟩
      · exact h
      · exfalso
        rw [addWrapped_one hw] at g2 g3
        have hba : b = a := by
          by_contra hne
          exact g3 a _ h1 ⟨by omega, by omega⟩
        subst hba
        rw [ha] at g5
        cases g5
        obtain ⟨-, hmn⟩ := foldPair_spec g4
        rw [g6] at hm
        simp only at hm
        rcases hmn with ⟨-, -, h⟩ | ⟨-, -, h⟩ <;> rw [h] at hm <;> simp at hm
    · exfalso
      obtain ⟨-, hmn⟩ := foldPair_spec g2
      simp only at hm
      rcases hmn with ⟨-, -, h⟩ | ⟨-, -, h⟩ <;> rw [h] at hm <;> simp at hm

theorem cleanup_proper {d d' : Disassembler} (hp : Proper d) (h : d.cleanup = .ok d') : Proper d' := by
  obtain ⟨r, ops, fars, h1, rfl, h3, -, -, h4, h5⟩ := cleanup_inv hp.sorted hp.distinct h
  exact fold_proper (tidied_proper hp h1 h3 h4 h5)

/-- What holds between calls, for every history. -/
theorem history_proper {P : StatusFlags → Prop} (hP : ∀ f, P f → Normal f) {src : Source} {d : Disassembler}
    (h : History P src d) : Proper d := by
  induction h with
  | new =>
    exact ⟨List.Pairwise.nil, by simp [Disassembler.empty, OMap.find], by simp [Disassembler.empty, OMap.find],
      by simp [Disassembler.empty, OMap.find], by simp [Disassembler.empty, OMap.find],
      by simp [Disassembler.empty, OMap.find], by simp [Disassembler.empty, OMap.find],
      by simp [Disassembler.empty, OMap.find], by simp [Disassembler.empty, OMap.find]⟩
  | table before sorted ok ih =>
    exact ⟨ih.sorted, ih.states, ih.rets, fun a f hf => hP f (ok a f (OMap.mem_of_find hf)), ih.made, ih.distinct,
      ih.branches, ih.kinds, ih.carry⟩
  | call before address ok result ended ih =>
    exact disassemble_proper ih address (constructible_normal ok) result
  | cleanup before result ih => exact cleanup_proper ih result

theorem session_history {P : StatusFlags → Prop} {src : Source} {d : Disassembler} (h : Session P src d) :
    History P src d := by
  induction h with
  | new => exact .new
  | table before sorted ok ih => exact .table ih sorted ok
  | call before address ok result ended ih => exact .call ih address ok result ended
