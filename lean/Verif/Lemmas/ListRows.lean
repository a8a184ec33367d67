import Verif.Lemmas.Relist

/-! # How the lines of a listing follow each other -/

namespace Nsasm
open Spec Props Disassembler Parse

/-- The row is the instruction of the entry, or declares it. -/
def Stands (r : Row) (a : Addr) (it : DisItem) : Prop :=
  r.address = a ∧ (r.item = some it ∨ (r.item = none ∧ it.isEntry = true ∧
    ∃ f, StatusFlags.fromName it.current.flags.toName = some f ∧ r.read = entryStatement f))

/-- What comes after a row. -/
structure Before (m : OMap DisItem) (r : Row) (o : Option Row) : Prop where
  entry : ∀ f, r.item = none → r.read = entryStatement f → ∃ r' it, o = some r' ∧ r'.address = r.address ∧
    r'.item = some it ∧ it.isEntry = true ∧ StatusFlags.fromName it.current.flags.toName = some f ∧ (r.address, it) ∈ m
  code : ∀ it b nt, r.item = some it → b = Address.addWrapped r.address it.instruction.serializedSize →
    r.address < b → (b, nt) ∈ m → (∀ p ∈ m, ¬ (r.address < p.1 ∧ p.1 < b)) → ∃ r', o = some r' ∧ Stands r' b nt

/-- Each row is followed as it should be. -/
def Follow (m : OMap DisItem) (rows : List Row) : Prop :=
  ∀ (k : Nat) (r : Row), rows[k]? = some r → Before m r rows[k + 1]?

theorem follow_nil (m : OMap DisItem) : Follow m [] := by intro k r h; simp at h

theorem follow_cons {m : OMap DisItem} {r : Row} {rows : List Row} (h1 : Before m r rows[0]?) (h2 : Follow m rows) :
    Follow m (r :: rows) := by
  intro k q hk
  cases k with
  | zero => simp at hk; subst hk; simpa using h1
  | succ k => simp only [List.getElem?_cons_succ] at hk ⊢; exact h2 k q hk

theorem rows_head {a : Addr} {it : DisItem} {rest : OMap DisItem} {rows : List Row} (h : Rows a ((a, it) :: rest) rows) :
    ∃ r, rows[0]? = some r ∧ Stands r a it := by
  cases h with
  | @cons _ _ _ _ i0 f rows entry read after =>
    unfold originRows codeRows
    rw [if_pos rfl]
    cases he : it.isEntry with
    | true => exact ⟨_, rfl, rfl, .inr ⟨rfl, he, f, entry he, rfl⟩⟩
    | false => exact ⟨_, rfl, rfl, .inl rfl⟩

theorem rows_follow {pc : Addr} {m : OMap DisItem} {rows : List Row} (h : Rows pc m rows) (hs : OMap.Sorted m) :
    Follow m rows := by
  induction h with
  | nil => exact follow_nil _
  | @cons pc a it rest i0 f rows entry read after ih =>
    have hlt : ∀ p ∈ rest, a < p.1 := by
      unfold OMap.Sorted at hs; rw [List.pairwise_cons] at hs; exact hs.1
    have hrest : Follow ((a, it) :: rest) rows := by
      intro k r hk
      have hb := ih (OMap.sorted_cons hs).1 k r hk
      obtain ⟨jt, hj⟩ := ((rows_ok after).1 r (List.mem_of_getElem? hk)).address
      refine ⟨?_, ?_⟩
      · intro g h1 h2
        obtain ⟨r', kt, h3, h4, h5, h6, h7, h8⟩ := hb.entry g h1 h2
        exact ⟨r', kt, h3, h4, h5, h6, h7, by simp [h8]⟩
      · intro kt b nt h1 h2 h3 h4 h5
        refine hb.code kt b nt h1 h2 h3 ?_ (fun p hp => h5 p (by simp [hp]))
        rcases List.mem_cons.1 h4 with h4 | h4
        · cases h4
          have := hlt _ hj
          simp only at this
          omega
        · exact h4
    have hcode : ∀ lb, Follow ((a, it) :: rest) (⟨lb, .instr i0, .instr (asWritten it.instruction), a, some it⟩ :: rows) := by
      intro lb
      refine follow_cons ⟨by intro g h; simp at h, ?_⟩ hrest
      intro kt b nt h1 h2 h3 h4 h5
      simp only [Option.some.injEq] at h1
      subst h1
      simp only at h2 h3 h5
      rcases List.mem_cons.1 h4 with h4 | h4
      · cases h4; omega
      · cases rest with
        | nil => cases h4
        | cons q rest =>
          obtain ⟨c, ct⟩ := q
          have hac : a < c := hlt (c, ct) (by simp)
          have hcb : c = b ∧ ct = nt := by
            rcases List.mem_cons.1 h4 with h4 | h4
            · cases h4; exact ⟨rfl, rfl⟩
            · have hs' := (OMap.sorted_cons hs).1
              unfold OMap.Sorted at hs'
              rw [List.pairwise_cons] at hs'
              have := hs'.1 _ h4
              exact absurd ⟨hac, this⟩ (h5 (c, ct) (by simp))
          obtain ⟨rfl, rfl⟩ := hcb
          subst h2
          exact rows_head after
    have hall : Follow ((a, it) :: rest) (codeRows a it f i0 ++ rows) := by
      unfold codeRows
      cases he : it.isEntry with
      | true =>
        refine follow_cons ⟨?_, by intro kt b nt h; simp at h⟩ (hcode _)
        intro g _ hg
        have : f = g := by simpa [entryStatement] using hg
        exact ⟨_, it, rfl, rfl, rfl, he, this ▸ entry he, by simp⟩
      | false => exact hcode _
    unfold originRows
    split
    · exact hall
    · refine follow_cons ⟨?_, by intro kt b nt h; simp at h⟩ hall
      intro g _ hg
      simp [entryStatement, orgStatement] at hg

/-- What a row is. -/
def RowIs (m : OMap DisItem) (r : Row) : Prop :=
  (r.read = orgStatement r.address ∧ r.item = none ∧ r.labels = []) ∨
  ∃ it, (r.address, it) ∈ m ∧ Stands r r.address it ∧ (r.labels = [] ∨ r.labels = labelsOf it.label)

theorem rows_kinds {pc : Addr} {m : OMap DisItem} {rows : List Row} (h : Rows pc m rows) :
    (∀ r ∈ rows, RowIs m r) ∧
    (∀ a it, (a, it) ∈ m → it.label ≠ [] → ∃ r ∈ rows, r.labels = [⟨it.label, false⟩] ∧ Stands r a it) ∧
    (∀ a it, (a, it) ∈ m → it.isEntry = true → ∃ r ∈ rows, ∃ f, r.address = a ∧ r.item = none ∧
      StatusFlags.fromName it.current.flags.toName = some f ∧ r.read = entryStatement f) := by
  induction h with
  | nil => exact ⟨by simp, by simp, by simp⟩
  | @cons pc a it rest i0 f rows entry read after ih =>
    obtain ⟨h1, h2, h3⟩ := ih
    refine ⟨?_, ?_, ?_⟩
    · intro r hr
      rcases List.mem_append.1 hr with hr | hr
      · unfold originRows at hr
        split at hr
        · cases hr
        · simp only [List.mem_singleton] at hr
          subst hr
          exact .inl ⟨rfl, rfl, rfl⟩
      rcases List.mem_append.1 hr with hr | hr
      · right
        unfold codeRows at hr
        split at hr
        · rename_i he
          simp only [List.mem_cons, List.not_mem_nil, or_false] at hr
          rcases hr with rfl | rfl
          · exact ⟨it, by simp, ⟨rfl, .inr ⟨rfl, he, f, entry he, rfl⟩⟩, .inr rfl⟩
          · exact ⟨it, by simp, ⟨rfl, .inl rfl⟩, .inl rfl⟩
        · simp only [List.mem_singleton] at hr
          subst hr
          exact ⟨it, by simp, ⟨rfl, .inl rfl⟩, .inr rfl⟩
      · rcases h1 r hr with h | ⟨jt, h, h'⟩
        · exact .inl h
        · exact .inr ⟨jt, by simp [h], h'⟩
    · intro b jt hm hl
      rcases List.mem_cons.1 hm with hm | hm
      · cases hm
        have : ∃ r ∈ codeRows a it f i0, r.labels = [⟨it.label, false⟩] ∧ Stands r a it := by
          unfold codeRows
          split
          · rename_i he
            exact ⟨⟨labelsOf it.label, entryStatement f, entryStatement f, a, none⟩, by simp, by simp [labelsOf, hl], rfl,
              .inr ⟨rfl, he, f, entry he, rfl⟩⟩
          · exact ⟨_, List.mem_singleton.2 rfl, by simp [labelsOf, hl], rfl, .inl rfl⟩
        obtain ⟨r, hr, h⟩ := this
        exact ⟨r, by simp [hr], h⟩
      · obtain ⟨r, hr, h⟩ := h2 b jt hm hl
        exact ⟨r, by simp [hr], h⟩
    · intro b jt hm he
      rcases List.mem_cons.1 hm with hm | hm
      · cases hm
        refine ⟨⟨labelsOf it.label, entryStatement f, entryStatement f, a, none⟩, ?_, f, rfl, rfl, entry he, rfl⟩
        unfold codeRows
        rw [if_pos he]
        simp
      · obtain ⟨r, hr, h⟩ := h3 b jt hm he
        exact ⟨r, by simp [hr], h⟩

theorem file_follow {m : OMap DisItem} {rows : List Row} (h : FileRows m rows) (hs : OMap.Sorted m) : Follow m rows := by
  cases h with
  | nil => exact follow_nil _
  | @cons a it rest rows h =>
    refine follow_cons ⟨?_, by intro kt b nt h; simp at h⟩ (rows_follow h hs)
    intro g _ hg
    simp [entryStatement, orgStatement] at hg

theorem file_kinds {m : OMap DisItem} {rows : List Row} (h : FileRows m rows) :
    (∀ r ∈ rows, RowIs m r) ∧
    (∀ a it, (a, it) ∈ m → it.label ≠ [] → ∃ r ∈ rows, r.labels = [⟨it.label, false⟩] ∧ Stands r a it) ∧
    (∀ a it, (a, it) ∈ m → it.isEntry = true → ∃ r ∈ rows, ∃ f, r.address = a ∧ r.item = none ∧
      StatusFlags.fromName it.current.flags.toName = some f ∧ r.read = entryStatement f) := by
  cases h with
  | nil => exact ⟨by simp, by simp, by simp⟩
  | @cons a it rest rows h =>
    obtain ⟨h1, h2, h3⟩ := rows_kinds h
    refine ⟨?_, ?_, ?_⟩
    · intro r hr
      rcases List.mem_cons.1 hr with rfl | hr
      · exact .inl ⟨rfl, rfl, rfl⟩
      · exact h1 r hr
    · intro b jt hm hl
      obtain ⟨r, hr, h⟩ := h2 b jt hm hl
      exact ⟨r, List.mem_cons_of_mem _ hr, h⟩
    · intro b jt hm he
      obtain ⟨r, hr, h⟩ := h3 b jt hm he
      exact ⟨r, List.mem_cons_of_mem _ hr, h⟩

end Nsasm
