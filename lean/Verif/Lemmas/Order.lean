import Verif.Spec.Link
import Verif.Lemmas.Loader
import Mathlib.Data.List.Perm.Basic
import Mathlib.Data.List.Perm.Subperm

/-! # The assembly order -/

namespace Nsasm
open Spec

/-- The names of a module are distinct. -/
def NamesNodup (m : Module) : Prop := (m.globals.map (·.1)).Nodup

theorem mem_exportedNames {m : Module} {id : FullId} : id ∈ m.exportedNames ↔ Exports m id := by
  unfold Module.exportedNames Exports
  rw [List.mem_map]
  constructor
  · rintro ⟨⟨n, t⟩, h, rfl⟩; exact ⟨rfl, t, h⟩
  · rintro ⟨h, t, ht⟩
    refine ⟨(id.name, t), ht, ?_⟩
    cases id; simp_all

theorem exportedNames_nodup {m : Module} (h : NamesNodup m) : m.exportedNames.Nodup := by
  have : m.exportedNames = (m.globals.map (·.1)).map fun n => (⟨some m.name, n⟩ : FullId) := by
    simp [Module.exportedNames]
  rw [this]
  exact h.map (fun a b e => by injection e)

theorem addExports_ok {i : Nat} {ns : List FullId} : ∀ {ex ex' : HMap FullId Nat},
    Assembler.addExports i ex ns = .ok ex' →
    (∀ n ∈ ns, HMap.find ex n = none) ∧
    ∀ id, HMap.find ex' id = (HMap.find ex id).or (if id ∈ ns then some i else none) := by
  induction ns with
  | nil =>
    intro ex ex' h
    simp [Assembler.addExports] at h; subst h
    exact ⟨by simp, fun id => by simp⟩
  | cons n ns ih =>
    intro ex ex' h
    rw [Assembler.addExports] at h
    by_cases hh : HMap.has ex n = true
    · rw [if_pos hh] at h; cases h
    rw [if_neg hh] at h
    have hnone : HMap.find ex n = none := by simpa [HMap.has] using hh
    obtain ⟨h1, h2⟩ := ih h
    have hf : ∀ id, HMap.find (HMap.insertNew ex n i) id =
        (HMap.find ex id).or (if n = id then some i else none) := by
      intro id; unfold HMap.insertNew; rw [find_append]; simp [HMap.find]
    constructor
    · intro x hx
      rcases List.mem_cons.mp hx with rfl | hx
      · exact hnone
      · have := h1 x hx
        rw [hf] at this
        exact (Option.or_eq_none_iff.mp this).1
    · intro id
      rw [h2, hf]
      by_cases e : n = id
      · subst e; simp [hnone]
      · have : id ∈ n :: ns ↔ id ∈ ns := by simp [show id ≠ n from fun q => e q.symm]
        simp [e, this]

theorem addExports_succeeds {i : Nat} {ns : List FullId} : ∀ {ex : HMap FullId Nat}, ns.Nodup →
    (∀ n ∈ ns, HMap.find ex n = none) → ∃ ex', Assembler.addExports i ex ns = .ok ex' := by
  induction ns with
  | nil => intro ex _ _; exact ⟨ex, rfl⟩
  | cons n ns ih =>
    intro ex hnd hn
    rw [Assembler.addExports, if_neg (by simp [HMap.has, hn n (by simp)])]
    refine ih (List.nodup_cons.mp hnd).2 fun x hx => ?_
    unfold HMap.insertNew
    rw [find_append, hn x (by simp [hx])]
    have : n ≠ x := fun e => (List.nodup_cons.mp hnd).1 (e ▸ hx)
    simp [HMap.find, this]

theorem addExports_outcome (i : Nat) (ns : List FullId) : ∀ (ex : HMap FullId Nat),
    (∃ ex', Assembler.addExports i ex ns = .ok ex') ∨
      Assembler.addExports i ex ns = .err .duplicateExport := by
  induction ns with
  | nil => intro ex; exact .inl ⟨ex, rfl⟩
  | cons n ns ih =>
    intro ex
    rw [Assembler.addExports]
    split
    · exact .inr rfl
    · exact ih _

/-! ## The invariant -/

/-- What holds of a partial order. -/
structure OrderInv (ms : List Module) (o : Assembler.Ordering) : Prop where
  nodup : o.order.Nodup
  bound : ∀ i ∈ o.order, i < ms.length
  names : ∀ id i, HMap.find o.exported id = some i ↔
    i ∈ o.order ∧ ∃ m, ms[i]? = some m ∧ Exports m id
  deps : ∀ pre i post m, o.order = pre ++ i :: post → ms[i]? = some m → ∀ id ∈ m.deps,
    ∃ j ∈ pre, ∃ q, ms[j]? = some q ∧ Exports q id

theorem orderInv_init (ms : List Module) : OrderInv ms ⟨[], []⟩ where
  nodup := List.nodup_nil
  bound := by simp
  names := by simp [HMap.find]
  deps := by intro pre i post m h; simp at h

/-- What `consider` may do. -/
theorem consider_cases {ms : List Module} {o o' : Assembler.Ordering} (hI : OrderInv ms o) {i : Nat}
    {m : Module} (hm : ms[i]? = some m) (h : Assembler.consider o i m = .ok o') :
    OrderInv ms o' ∧
    ((o' = o ∧ (i ∉ o.order → ∃ d ∈ m.deps, HMap.find o.exported d = none)) ∨
      o'.order = o.order ++ [i]) := by
  unfold Assembler.consider at h
  by_cases hi : i ∈ o.order
  · rw [if_pos hi] at h; cases h
    exact ⟨hI, .inl ⟨rfl, fun hn => absurd hi hn⟩⟩
  rw [if_neg hi] at h
  by_cases hd : m.deps.all (fun d => HMap.has o.exported d) = true
  swap
  · rw [if_neg hd] at h; cases h
    refine ⟨hI, .inl ⟨rfl, fun _ => ?_⟩⟩
    simp only [List.all_eq_true, not_forall] at hd
    obtain ⟨d, hd1, hd2⟩ := hd
    exact ⟨d, hd1, by simpa [HMap.has] using hd2⟩
  rw [if_pos hd] at h
  replace h := Res.bind_eq_ok.mp h
  obtain ⟨ex, hex, h⟩ := h
  cases h
  obtain ⟨hnew, hfind⟩ := addExports_ok hex
  refine ⟨⟨?_, ?_, ?_, ?_⟩, .inr rfl⟩
  · rw [List.nodup_append]
    exact ⟨hI.nodup, by simp, by intro a ha b hb e; simp at hb; subst hb; subst e; exact hi ha⟩
  · intro j hj
    rcases List.mem_append.mp hj with hj | hj
    · exact hI.bound j hj
    · simp at hj; subst hj; exact (List.getElem?_eq_some_iff.mp hm).1
  · intro id j
    simp only [hfind, List.mem_append, List.mem_singleton]
    cases hf : HMap.find o.exported id with
    | some k =>
      rw [show (some k).or (if id ∈ m.exportedNames then some i else none) = some k from rfl]
      constructor
      · intro e
        cases e
        obtain ⟨a, b⟩ := (hI.names id _).mp hf
        exact ⟨.inl a, b⟩
      · rintro ⟨hj | rfl, b⟩
        · have := (hI.names id j).mpr ⟨hj, b⟩
          rw [hf] at this; cases this; rfl
        · obtain ⟨q, hq, he⟩ := b
          rw [hm] at hq; cases hq
          have := hnew id (mem_exportedNames.mpr he)
          rw [hf] at this; cases this
    | none =>
      rw [Option.none_or]
      constructor
      · intro h
        split at h
        · next hmem => cases h; exact ⟨.inr rfl, m, hm, mem_exportedNames.mp hmem⟩
        · cases h
      · rintro ⟨hj | rfl, b⟩
        · have := (hI.names id j).mpr ⟨hj, b⟩
          rw [hf] at this; cases this
        · obtain ⟨q, hq, he⟩ := b
          rw [hm] at hq; cases hq
          rw [if_pos (mem_exportedNames.mpr he)]
  · intro pre j post q hsplit hq id hid
    rcases List.eq_nil_or_concat post with rfl | ⟨post', z, rfl⟩
    · obtain ⟨e1, e2⟩ := List.append_inj' hsplit rfl
      cases e2
      rw [hm] at hq; cases hq
      have := List.all_eq_true.mp hd id hid
      obtain ⟨k, hk⟩ := Option.isSome_iff_exists.mp this
      obtain ⟨a, b⟩ := (hI.names id k).mp hk
      exact ⟨k, e1 ▸ a, b⟩
    · have : o.order ++ [i] = (pre ++ j :: post') ++ [z] := by simpa using hsplit
      obtain ⟨e1, -⟩ := List.append_inj' this rfl
      exact hI.deps pre j post' q e1 hq id hid

/-- A round keeps the invariant.  If it adds nothing, every module of the round that is not yet
in the order lacks a dependency. -/
theorem round_inv {ms : List Module} : ∀ (rest done : List Module), ms = done ++ rest →
    ∀ {o o' : Assembler.Ordering}, OrderInv ms o → Assembler.round o done.length rest = .ok o' →
    OrderInv ms o' ∧ (∃ l, o'.order = o.order ++ l) ∧
    (o'.order.length = o.order.length → o' = o ∧ ∀ (i : Nat) (m : Module), done.length ≤ i →
      ms[i]? = some m → i ∉ o.order → ∃ d ∈ m.deps, HMap.find o.exported d = none) := by
  intro rest
  induction rest with
  | nil =>
    intro done hms o o' hI h
    simp [Assembler.round] at h; subst h
    refine ⟨hI, ⟨[], by simp⟩, fun _ => ⟨rfl, fun i m hi hm => ?_⟩⟩
    have := (List.getElem?_eq_some_iff.mp hm).1
    simp [hms] at this; omega
  | cons m rest ih =>
    intro done hms o o' hI h
    rw [Assembler.round] at h
    replace h := Res.bind_eq_ok.mp h
    obtain ⟨o1, h1, h⟩ := h
    have hm : ms[done.length]? = some m := by rw [hms]; simp
    obtain ⟨hI1, hc⟩ := consider_cases hI hm h1
    have hl : (done ++ [m]).length = done.length + 1 := by simp
    obtain ⟨hI', ⟨l, hl'⟩, hst⟩ := ih (done ++ [m]) (by simp [hms]) hI1 (by rw [hl]; exact h)
    rcases hc with ⟨rfl, hc⟩ | hc
    · refine ⟨hI', ⟨l, hl'⟩, fun he => ?_⟩
      obtain ⟨rfl, h3⟩ := hst he
      refine ⟨rfl, fun i q hi hq hn => ?_⟩
      rcases Nat.eq_or_lt_of_le hi with rfl | hlt
      · rw [hm] at hq; cases hq; exact hc hn
      · exact h3 i q (by rw [hl]; exact hlt) hq hn
    · refine ⟨hI', ⟨[done.length] ++ l, by rw [hl', hc]; simp⟩, fun he => ?_⟩
      rw [hl', hc] at he
      simp at he

theorem round_grows {ms : List Module} {o o' : Assembler.Ordering} (hI : OrderInv ms o)
    (h : Assembler.round o 0 ms = .ok o') : OrderInv ms o' ∧ o.order.length ≤ o'.order.length ∧
    (o'.order.length = o.order.length → o' = o ∧ ∀ (i : Nat) (m : Module), ms[i]? = some m →
      i ∉ o.order → ∃ d ∈ m.deps, HMap.find o.exported d = none) := by
  obtain ⟨h1, ⟨l, hl⟩, h3⟩ := round_inv ms [] rfl hI h
  refine ⟨h1, by rw [hl]; simp, fun he => ?_⟩
  obtain ⟨e, h4⟩ := h3 he
  exact ⟨e, fun i m => h4 i m (Nat.zero_le _)⟩

theorem round_outcome (ms : List Module) : ∀ (i : Nat) (o : Assembler.Ordering),
    (∃ o', Assembler.round o i ms = .ok o') ∨ Assembler.round o i ms = .err .duplicateExport := by
  induction ms with
  | nil => intro i o; exact .inl ⟨o, rfl⟩
  | cons m ms ih =>
    intro i o
    rw [Assembler.round]
    have hc : (∃ o', Assembler.consider o i m = .ok o') ∨
        Assembler.consider o i m = .err .duplicateExport := by
      unfold Assembler.consider
      split
      · exact .inl ⟨_, rfl⟩
      · split
        · rcases addExports_outcome i m.exportedNames o.exported with ⟨e, he⟩ | he
          · rw [he]; exact .inl ⟨_, rfl⟩
          · rw [he]; exact .inr rfl
        · exact .inl ⟨_, rfl⟩
    rcases hc with ⟨o', ho⟩ | ho
    · rw [ho]; exact ih (i + 1) o'
    · rw [ho]; exact .inr rfl

theorem inv_length {ms : List Module} {o : Assembler.Ordering} (hI : OrderInv ms o) :
    o.order.length ≤ ms.length := by
  have : o.order ⊆ List.range ms.length := fun i hi => List.mem_range.mpr (hI.bound i hi)
  have := (List.subperm_of_subset hI.nodup this).length_le
  simpa using this

theorem inv_perm {ms : List Module} {o : Assembler.Ordering} (hI : OrderInv ms o)
    (hl : ¬ o.order.length < ms.length) : o.order.Perm (List.range ms.length) := by
  have hs : o.order ⊆ List.range ms.length := fun i hi => List.mem_range.mpr (hI.bound i hi)
  exact (List.subperm_of_subset hI.nodup hs).perm_of_length_le (by simp; omega)

/-- What the loop may end with. -/
theorem orderLoop_cases {ms : List Module} : ∀ (n : Nat) (o : Assembler.Ordering), OrderInv ms o →
    ms.length < n + o.order.length →
    (∃ o', Assembler.orderLoop ms n o = .ok o' ∧ OrderInv ms o' ∧ ¬ o'.order.length < ms.length) ∨
    Assembler.orderLoop ms n o = .err .duplicateExport ∨
    (Assembler.orderLoop ms n o = .err .cyclic ∧ ∃ o', OrderInv ms o' ∧
      o'.order.length < ms.length ∧ ∀ (i : Nat) (m : Module), ms[i]? = some m →
        i ∉ o'.order → ∃ d ∈ m.deps, HMap.find o'.exported d = none) := by
  intro n
  induction n with
  | zero =>
    intro o hI h
    have := inv_length hI
    omega
  | succ n ih =>
    intro o hI h
    rw [Assembler.orderLoop]
    by_cases hlt : o.order.length < ms.length
    swap
    · rw [if_neg hlt]; exact .inl ⟨o, rfl, hI, hlt⟩
    rw [if_pos hlt]
    rcases round_outcome ms 0 o with ⟨o', ho⟩ | ho
    swap
    · rw [ho]; exact .inr (.inl rfl)
    obtain ⟨hI', hle, hst⟩ := round_grows hI ho
    rw [ho]
    show _ ∨ _ ∨ _
    rw [Res.bind_ok]
    by_cases he : o'.order.length = o.order.length
    · rw [if_pos he]
      obtain ⟨rfl, h4⟩ := hst he
      exact .inr (.inr ⟨rfl, o', hI, hlt, h4⟩)
    · rw [if_neg he]
      exact ih o' hI' (by omega)

end Nsasm
