import Verif.Lemmas.Names

/-! # What a call of the disassembler stores -/

namespace Nsasm
open Spec Props Disassembler

/-! ## The maps after a call -/

theorem OMap.find_map {α β : Type} (f : α → β) (m : OMap α) (a : Nat) :
    OMap.find (m.map fun n => (n.1, f n.2)) a = (OMap.find m a).map f := by
  induction m with
  | nil => rfl
  | cons x m ih =>
    obtain ⟨k, v⟩ := x
    simp only [List.map_cons, OMap.find]
    split
    · rfl
    · exact ih

theorem OMap.sorted_map {α β : Type} (f : α → β) {m : OMap α} (h : OMap.Sorted m) :
    OMap.Sorted (m.map fun n => (n.1, f n.2)) := by
  unfold OMap.Sorted at *
  rw [List.pairwise_map]
  exact h

theorem OMap.sorted_cons {α : Type} {x : Nat × α} {m : OMap α} (h : OMap.Sorted (x :: m)) :
    OMap.Sorted m ∧ OMap.find m x.1 = none := by
  unfold OMap.Sorted at *
  rw [List.pairwise_cons] at h
  exact ⟨h.2, OMap.find_none_of_lt fun y hy => h.1 y hy⟩

theorem OMap.find_set {α : Type} {m : OMap α} (h : OMap.Sorted m) (a b : Nat) (v : α) :
    (m.set a v).find b = if a = b then some v else m.find b := by
  unfold OMap.set
  rw [OMap.find_upsert h]
  by_cases hab : a = b
  · subst hab; rw [if_pos rfl, if_pos rfl]; cases m.find a <;> rfl
  · rw [if_neg hab, if_neg hab]

theorem copyAll_find : ∀ (l : OMap DisItem) {m : OMap DisItem}, OMap.Sorted m → OMap.Sorted l →
    OMap.Sorted (copyAll m l) ∧
    ∀ a, (copyAll m l).find a = (match OMap.find l a with | some it => some it | none => m.find a) := by
  intro l
  induction l with
  | nil => intro m hm _; exact ⟨hm, fun _ => rfl⟩
  | cons x l ih =>
    intro m hm hl
    obtain ⟨k, v⟩ := x
    obtain ⟨hl', hk⟩ := OMap.sorted_cons hl
    obtain ⟨i1, i2⟩ := ih (m := m.set k v) (OMap.sorted_upsert hm _ _) hl'
    refine ⟨i1, fun a => ?_⟩
    rw [copyAll, i2, OMap.find, OMap.find_set hm]
    by_cases hka : k = a
    · subst hka
      simp only at hk
      rw [hk, if_pos rfl, if_pos rfl]
    · rw [if_neg hka, if_neg hka]

theorem labelAll_find : ∀ (l : OMap Str) {m : OMap DisItem}, OMap.Sorted m → OMap.Sorted l →
    OMap.Sorted (labelAll m l) ∧
    ∀ a, (labelAll m l).find a = (match OMap.find l a with
      | some n => some { (m.find a).getD DisItem.blank with label := n }
      | none => m.find a) := by
  intro l
  induction l with
  | nil => intro m hm _; exact ⟨hm, fun _ => rfl⟩
  | cons x l ih =>
    intro m hm hl
    obtain ⟨k, v⟩ := x
    obtain ⟨hl', hk⟩ := OMap.sorted_cons hl
    obtain ⟨i1, i2⟩ := ih
      (m := m.upsert (fun it => { it with label := v }) k { DisItem.blank with label := v })
      (OMap.sorted_upsert hm _ _) hl'
    refine ⟨i1, fun a => ?_⟩
    rw [labelAll, i2, OMap.find, OMap.find_upsert hm]
    by_cases hka : k = a
    · subst hka
      simp only at hk
      rw [hk, if_pos rfl, if_pos rfl]
      cases m.find k <;> rfl
    · rw [if_neg hka, if_neg hka]

theorem addSuffix_rest (it : DisItem) : (addSuffix it).label = it.label ∧ (addSuffix it).isEntry = it.isEntry ∧
    (addSuffix it).current = it.current ∧ (addSuffix it).next = it.next ∧
    ∃ s, (addSuffix it).instruction = { it.instruction with suffix := s } := by
  unfold addSuffix
  simp only
  split <;> exact ⟨rfl, rfl, rfl, rfl, _, rfl⟩

/-- The entry stored for an address, before labels are attached. -/
def stored (d : Disassembler) (w : Work) (a : Nat) : Option DisItem :=
  match w.fresh.find a with
  | some it => some (addSuffix it)
  | none => d.disassembly.find a

theorem finish_find {d : Disassembler} {w : Work} (hd : OMap.Sorted d.disassembly) (hf : OMap.Sorted w.fresh)
    (hl : OMap.Sorted w.labels) : OMap.Sorted (finish d w) ∧
    ∀ a, (finish d w).find a = (match w.labels.find a with
      | some n => some { (stored d w a).getD DisItem.blank with label := n }
      | none => stored d w a) := by
  obtain ⟨c1, c2⟩ := copyAll_find (w.fresh.map fun n => (n.1, addSuffix n.2)) hd (OMap.sorted_map addSuffix hf)
  obtain ⟨l1, l2⟩ := labelAll_find w.labels c1 hl
  refine ⟨l1, fun a => ?_⟩
  unfold finish
  rw [l2, c2, OMap.find_map]
  unfold stored
  cases w.fresh.find a <;> rfl

theorem stored_look (d : Disassembler) (w : Work) (a : Nat) :
    (∀ jt, stored d w a = some jt → ∃ it, look d w.fresh a = some it ∧ (jt = it ∨ jt = addSuffix it)) ∧
    (∀ it, look d w.fresh a = some it → stored d w a = some it ∨ stored d w a = some (addSuffix it)) := by
  unfold stored look
  cases w.fresh.find a with
  | some it =>
    exact ⟨fun jt h => by cases h; exact ⟨it, rfl, .inr rfl⟩, fun jt h => by cases h; exact .inr rfl⟩
  | none => exact ⟨fun jt h => ⟨jt, h, .inl rfl⟩, fun jt h => .inl h⟩

/-- The stored entry and the entry of the loop are the same but for the label and the suffix. -/
theorem finish_look {d : Disassembler} {w : Work} (hd : OMap.Sorted d.disassembly) (ht : Tidy d w)
    (hn : Named d w) (hs : w.stack = []) :
    (∀ a jt, (finish d w).find a = some jt → ∃ it, look d w.fresh a = some it ∧
      (∃ s l, jt = { (if (w.fresh.find a).isSome then addSuffix it else it) with label := l } ∧
        jt.instruction = { it.instruction with suffix := s }) ∧
      jt.label = (nameAt d w.labels a).getD []) ∧
    (∀ a it, look d w.fresh a = some it → ∃ jt, (finish d w).find a = some jt) := by
  obtain ⟨f1, f2⟩ := finish_find hd ht.fresh hn.given.sorted
  have hpres : ∀ a l, w.labels.find a = some l → ∃ it, look d w.fresh a = some it := by
    intro a l ha
    rcases hn.present a l ha with h | h
    · exact Option.isSome_iff_exists.1 h
    · rw [hs] at h; cases h
  have hst : ∀ a, stored d w a = (look d w.fresh a).map fun it =>
      if (w.fresh.find a).isSome then addSuffix it else it := by
    intro a
    unfold stored look
    cases w.fresh.find a with
    | some it => rfl
    | none => simp
  constructor
  · intro a jt ha
    rw [f2] at ha
    cases hl : w.labels.find a with
    | some n =>
      obtain ⟨it, hit⟩ := hpres a n hl
      rw [hl, hst, hit] at ha
      cases ha
      refine ⟨it, hit, ⟨(if (w.fresh.find a).isSome then addSuffix it else it).instruction.suffix, n, rfl, ?_⟩, ?_⟩
      · simp only [Option.map_some, Option.getD_some]
        split
        · obtain ⟨s, hs⟩ := (addSuffix_rest it).2.2.2.2
          rw [hs]
        · rfl
      · unfold nameAt; rw [hl]; rfl
    | none =>
      rw [hl, hst] at ha
      cases hit : look d w.fresh a with
      | none => rw [hit] at ha; cases ha
      | some it =>
        rw [hit] at ha
        cases ha
        have hlab : (if (w.fresh.find a).isSome then addSuffix it else it).label = it.label := by
          split
          · exact (addSuffix_rest it).1
          · rfl
        refine ⟨it, rfl, ⟨(if (w.fresh.find a).isSome then addSuffix it else it).instruction.suffix, it.label, ?_, ?_⟩, ?_⟩
        · simp only
          rw [← hlab]
        · split
          · obtain ⟨s, hs⟩ := (addSuffix_rest it).2.2.2.2
            rw [hs]
          · rfl
        · rw [hlab, hn.items a it hit]
          unfold nameAt
          rw [hl]
          simp only
          cases d.disassembly.find a with
          | none => rfl
          | some jt =>
            simp only
            by_cases h : jt.label = []
            · simp [h]
            · simp [h]
  · intro a it ha
    rw [f2]
    cases hl : w.labels.find a with
    | some n => exact ⟨_, rfl⟩
    | none => rw [hst, ha]; exact ⟨_, rfl⟩

/-! ## The loop as a whole -/

theorem step_none {src : Source} {d : Disassembler} {w : Work} (h : step src d w = .ok none) : w.stack = [] := by
  unfold step at h
  split at h
  · assumption
  · simp only at h
    split at h
    · obtain ⟨x, -, h⟩ := Res.bind_eq_ok.1 h; cases h
    · obtain ⟨x, -, h⟩ := Res.bind_eq_ok.1 h; cases h

theorem run_invariant {src : Source} {d : Disassembler} {I : Work → Prop}
    (hstep : ∀ w w', I w → step src d w = .ok (some w') → I w') :
    ∀ (n : Nat) (w w' : Work) (r : Res Unit), I w → run src d n w = (w', r) → I w' ∧ (r = .ok () → w'.stack = []) := by
  intro n
  induction n with
  | zero => intro w w' r hi h; cases h; exact ⟨hi, by simp⟩
  | succ n ih =>
    intro w w' r hi h
    unfold run at h
    split at h
    · rename_i hs; cases h; exact ⟨hi, fun _ => step_none hs⟩
    · rename_i w2 hs; exact ih _ _ _ (hstep _ _ hi hs) h
    · cases h; exact ⟨hi, by simp⟩
    · cases h; exact ⟨hi, by simp⟩

/-! ## What holds between calls -/

/-- A label that the disassembler can have made, when its counter is at `sym`. -/
def MadeLabel (sym : Nat) (l : Str) : Prop :=
  (∃ n, n ≤ sym ∧ l = genSym n) ∨ (∃ n : Nat, l = cs!"entry" ++ decimal n) ∨ (∃ n : Nat, l = cs!"label" ++ decimal n)

/-- What holds between calls, whatever they are. -/
structure Proper (d : Disassembler) : Prop where
  sorted : OMap.Sorted d.disassembly
  states : ∀ a it, d.disassembly.find a = some it → NormalState it.current
  rets : ∀ a it f, d.disassembly.find a = some it → it.instruction.ret = .yields f → Normal f
  table : ∀ a f, d.conventions.find a = some (.yields f) → Normal f
  made : ∀ a it, d.disassembly.find a = some it → it.label ≠ [] → MadeLabel d.sym it.label
  distinct : ∀ a b it jt, d.disassembly.find a = some it → d.disassembly.find b = some jt → it.label ≠ [] →
    it.label = jt.label → a = b
  branches : ∀ a it, d.disassembly.find a = some it → it.instruction.isLocalBranch = true →
    ∃ name e v jt, it.instruction.arg1 = .label name e ∧ e ≠ .null ∧ e.eval nullCtx = .ok v ∧
      d.disassembly.find (Address.addWrapped (nextAddr a it.instruction) v) = some jt ∧ jt.label = name ∧ name ≠ []
  kinds : ∀ a it, d.disassembly.find a = some it → it.instruction.isLocalBranch = true →
    it.instruction.mnemonic ∈ branchMnemonics
  carry : ∀ a it, d.disassembly.find a = some it → it.instruction.mnemonic = .clc ∨ it.instruction.mnemonic = .sec →
    it.instruction.mode = .imp ∧ (NoWrap a → ∃ jt, d.disassembly.find (Address.addWrapped a 1) = some jt)

theorem normal_init {f : StatusFlags} (h : Normal f) : NormalState (.init f) := by
  refine ⟨normal_setIncoming h, ?_⟩
  intro v hv
  cases hv

theorem begin_shape (d : Disassembler) (start : Nat) (flags : StatusFlags) :
    (begin d start flags).fresh = [] ∧ (begin d start flags).stack = [(start, .init flags)] ∧
    (begin d start flags).far = [] := by
  obtain ⟨h1, h2, h3⟩ := getLabel_rest d (push ⟨[], [], [], [], d.sym⟩ start (.init flags)) start
  exact ⟨h1, h2, h3⟩

theorem begin_tidy {d : Disassembler} (h : Proper d) {start : Nat} (hs : start ≤ 0x1000000) {flags : StatusFlags}
    (hf : Normal flags) : Tidy d (begin d start flags) := by
  obtain ⟨h1, h2, -⟩ := begin_shape d start flags
  have hfind : ∀ a s, OMap.find [(start, ExecutionState.init flags)] a = some s → start = a ∧ s = .init flags := by
    intro a s ha
    simp only [OMap.find] at ha
    split at ha
    · rename_i hsa; cases ha; exact ⟨hsa, rfl⟩
    · cases ha
  refine ⟨by rw [h1]; exact List.Pairwise.nil, by rw [h2]; exact List.pairwise_singleton _ _,
    ⟨fun a s ha => ?_, fun a s ha => ?_⟩, fun a it f ha => ?_, h.table, fun a s ha => ?_⟩
  · rw [h1] at ha
    simp only [look, OMap.find] at ha
    cases hd : d.disassembly.find a with
    | none => rw [hd] at ha; cases ha
    | some it => rw [hd] at ha; cases ha; exact h.states a it hd
  · rw [h2] at ha
    rw [(hfind a s ha).2]; exact normal_init hf
  · rw [h1] at ha
    simp only [look, OMap.find] at ha
    exact h.rets a it f ha
  · rw [h2] at ha
    rw [← (hfind a s ha).1]; exact hs

theorem begin_named {d : Disassembler} (h : Proper d) (start : Nat) (flags : StatusFlags) :
    Named d (begin d start flags) := by
  obtain ⟨h1, h2, -⟩ := begin_shape d start flags
  have hg : Given d [] d.sym := ⟨List.Pairwise.nil, by simp [OMap.find], by simp [OMap.find], by simp [OMap.find],
    Nat.le_refl _⟩
  obtain ⟨g1, g2, g3, g4⟩ := getLabel_given (w := push ⟨[], [], [], [], d.sym⟩ start (.init flags)) hg start
  have hlook : ∀ a, look d (begin d start flags).fresh a = d.disassembly.find a := by
    intro a; rw [h1]; rfl
  refine ⟨g1, ?_, ?_, ?_, ?_, ?_⟩
  · intro a l ha
    rcases g4 a l ha with rfl | ha
    · right; rw [h2]; simp [OMap.find]
    · simp [push, OMap.find] at ha
  · intro a it ha
    rw [hlook] at ha
    rw [ha]
  · intro a it ha hb
    rw [hlook] at ha
    obtain ⟨name, e, v, jt, b1, b2, b3, b4, b5, b6⟩ := h.branches a it ha hb
    refine ⟨name, e, v, b1, b2, b3, g3 _ _ ?_, .inl (by rw [hlook, b4]; rfl)⟩
    show nameAt d [] _ = _
    unfold nameAt
    rw [b4]
    subst b5
    simp [OMap.find, b6]
  · intro a it ha hb
    rw [hlook] at ha
    exact h.kinds a it ha hb
  · intro a it ha hm
    rw [hlook] at ha
    obtain ⟨c1, c2⟩ := h.carry a it ha hm
    refine ⟨c1, fun hw => ?_⟩
    obtain ⟨jt, c2⟩ := c2 hw
    exact .inl (by rw [hlook, c2]; rfl)

theorem nameAt_old {d : Disassembler} {labels : OMap Str} {a : Nat} {l : Str}
    (hn : nameAt d labels a = some l) : (labels.find a = some l) ∨
    (labels.find a = none ∧ ∃ it, d.disassembly.find a = some it ∧ it.label = l ∧ l ≠ []) := by
  unfold nameAt at hn
  split at hn
  · rename_i hf; rw [hf]; exact .inl hn
  · rename_i hf
    split at hn
    · rename_i it hit
      split at hn
      · rename_i hne; cases hn; exact .inr ⟨hf, it, hit, rfl, hne⟩
      · cases hn
    · cases hn

theorem genSym_head (n : Nat) : (genSym n).head? = some 'g' := rfl
theorem entry_head (n : Nat) : (cs!"entry" ++ decimal n).head? = some 'e' := rfl
theorem label_head (n : Nat) : (cs!"label" ++ decimal n).head? = some 'l' := rfl

/-- A new label is not an old one. -/
theorem new_not_old {sym n : Nat} (hn : sym < n) : ¬ MadeLabel sym (genSym n) := by
  rintro (⟨k, hk, h⟩ | ⟨k, h⟩ | ⟨k, h⟩)
  · have := genSym_inj h; omega
  · have := congrArg List.head? h; rw [genSym_head, entry_head] at this; cases this
  · have := congrArg List.head? h; rw [genSym_head, label_head] at this; cases this

theorem MadeLabel.mono {s t : Nat} (h : s ≤ t) {l : Str} (hm : MadeLabel s l) : MadeLabel t l := by
  rcases hm with ⟨n, hn, h'⟩ | h' | h'
  · exact .inl ⟨n, by omega, h'⟩
  · exact .inr (.inl h')
  · exact .inr (.inr h')

/-- Names are different at different addresses. -/
theorem nameAt_distinct {d : Disassembler} (hp : Proper d) {labels : OMap Str} {sym : Nat} (h : Given d labels sym)
    {a b : Nat} {l : Str} (ha : nameAt d labels a = some l) (hb : nameAt d labels b = some l) : a = b := by
  rcases nameAt_old ha with ha' | ⟨-, it, ha', hla, hne⟩ <;> rcases nameAt_old hb with hb' | ⟨-, jt, hb', hlb, hne'⟩
  · exact h.distinct a b l ha' hb'
  · obtain ⟨n, h1, -, rfl⟩ := h.new a l ha'
    exact absurd (hlb ▸ hp.made b jt hb' (by rw [hlb]; exact hne')) (new_not_old h1)
  · obtain ⟨n, h1, -, rfl⟩ := h.new b l hb'
    exact absurd (hla ▸ hp.made a it ha' (by rw [hla]; exact hne)) (new_not_old h1)
  · exact hp.distinct a b it jt ha' hb' (by rw [hla]; exact hne) (by rw [hla, hlb])

theorem nameAt_made {d : Disassembler} (hp : Proper d) {labels : OMap Str} {sym : Nat} (h : Given d labels sym)
    {a : Nat} {l : Str} (ha : nameAt d labels a = some l) : MadeLabel sym l ∧ l ≠ [] := by
  rcases nameAt_old ha with ha | ⟨-, it, ha, hla, hne⟩
  · obtain ⟨n, -, h2, rfl⟩ := h.new a l ha
    exact ⟨.inl ⟨n, h2, rfl⟩, genSym_ne n⟩
  · exact ⟨(hla ▸ hp.made a it ha (by rw [hla]; exact hne)).mono h.le, hne⟩

theorem finish_proper {d : Disassembler} (hp : Proper d) {w : Work} (ht : Tidy d w) (hn : Named d w)
    (hs : w.stack = []) (entries : OMap Unit) :
    Proper { d with entryPoints := entries, disassembly := finish d w, sym := w.sym } := by
  obtain ⟨f1, f2⟩ := finish_look hp.sorted ht hn hs
  have hcur : ∀ a jt, (finish d w).find a = some jt → ∃ it, look d w.fresh a = some it ∧
      jt.current = it.current ∧ ∃ s, jt.instruction = { it.instruction with suffix := s } := by
    intro a jt ha
    obtain ⟨it, h1, ⟨s, l, h2, h3⟩, -⟩ := f1 a jt ha
    refine ⟨it, h1, ?_, s, h3⟩
    rw [h2]
    simp only
    split
    · exact (addSuffix_rest it).2.2.1
    · rfl
  refine ⟨(finish_find hp.sorted ht.fresh hn.given.sorted).1, ?_, ?_, ht.table, ?_, ?_, ?_, ?_, ?_⟩
  · intro a jt ha
    obtain ⟨it, h1, h2, -⟩ := hcur a jt ha
    rw [h2]
    exact ht.states.1 a it.current (by simp only [h1, Option.map_some])
  · intro a jt f ha hf
    obtain ⟨it, h1, -, s, h2⟩ := hcur a jt ha
    rw [h2] at hf
    exact ht.rets a it f h1 hf
  · intro a jt ha hl
    obtain ⟨it, -, -, h⟩ := f1 a jt ha
    cases hname : nameAt d w.labels a with
    | none => rw [hname] at h; exact absurd h hl
    | some l => rw [hname] at h; rw [h]; exact (nameAt_made hp hn.given hname).1
  · intro a b it jt ha hb hl heq
    obtain ⟨-, -, -, h⟩ := f1 a it ha
    obtain ⟨-, -, -, h'⟩ := f1 b jt hb
    cases hna : nameAt d w.labels a with
    | none => rw [hna] at h; exact absurd h hl
    | some l =>
      rw [hna] at h
      cases hnb : nameAt d w.labels b with
      | none => rw [hnb] at h'; rw [h'] at heq; exact absurd heq hl
      | some l' =>
        rw [hnb] at h'
        simp only [Option.getD_some] at h h'
        rw [h, h'] at heq
        subst heq
        exact nameAt_distinct hp hn.given hna hnb
  · intro a jt ha hb
    obtain ⟨it, h1, -, s, h2⟩ := hcur a jt ha
    have hb' : it.instruction.isLocalBranch = true := by rw [h2] at hb; exact hb
    obtain ⟨name, e, v, b1, b2, b3, b4, b5⟩ := hn.branches a it h1 hb'
    have hpres : ∃ kt, look d w.fresh (Address.addWrapped (nextAddr a it.instruction) v) = some kt := by
      rcases b5 with h | h
      · exact Option.isSome_iff_exists.1 h
      · rw [hs] at h; cases h
    obtain ⟨kt, hk⟩ := hpres
    obtain ⟨kt', hk'⟩ := f2 _ _ hk
    obtain ⟨-, -, -, hlab⟩ := f1 _ _ hk'
    rw [b4] at hlab
    refine ⟨name, e, v, kt', by rw [h2]; exact b1, b2, b3, by rw [h2]; exact hk', hlab, (nameAt_made hp hn.given b4).2⟩
  · intro a jt ha hb
    obtain ⟨it, h1, -, s, h2⟩ := hcur a jt ha
    rw [h2] at hb ⊢
    exact hn.kinds a it h1 hb
  · intro a jt ha hm
    obtain ⟨it, h1, -, s, h2⟩ := hcur a jt ha
    rw [h2] at hm ⊢
    obtain ⟨c1, c2⟩ := hn.carry a it h1 hm
    refine ⟨c1, fun hw => ?_⟩
    rcases c2 hw with h | h
    · obtain ⟨kt, hk⟩ := Option.isSome_iff_exists.1 h
      exact f2 _ _ hk
    · rw [hs] at h; cases h

theorem constructible_normal {f : StatusFlags} (h : Constructible f) : Normal f := by
  obtain ⟨e, m, x, c, rfl⟩ := h
  exact normal_make e m x c

/-- A call keeps what holds between calls. -/
theorem disassemble_proper {src : Source} {d d' : Disassembler} (hp : Proper d) {fuel start : Nat}
    (hs : start ≤ 0x1000000) {flags : StatusFlags} (hf : Normal flags) {r : Res (OMap StatusFlags)}
    (h : d.disassemble fuel src start flags = (d', r)) : Proper d' := by
  unfold disassemble at h
  simp only at h
  have ht := begin_tidy hp hs hf
  have hn := begin_named hp start flags
  have hinv := run_invariant (src := src) (d := d) (I := fun w => Tidy d w ∧ Named d w)
    (fun w w' hw h => ⟨(tidy_step hw.1 h).1, named_step hw.1 hw.2 h⟩) fuel (begin d start flags)
  have hgrow : ∀ w, Named d w → Proper { d with entryPoints := d.entryPoints.set start (), sym := w.sym } := by
    intro w hw
    exact ⟨hp.sorted, hp.states, hp.rets, hp.table, fun a it h1 h2 => (hp.made a it h1 h2).mono hw.given.le,
      hp.distinct, hp.branches, hp.kinds, hp.carry⟩
  split at h
  · rename_i w hr
    cases h
    obtain ⟨⟨h1, h2⟩, h3⟩ := hinv _ _ ⟨ht, hn⟩ hr
    exact finish_proper hp h1 h2 (h3 rfl) _
  · rename_i w e hr
    cases h
    exact hgrow w (hinv _ _ ⟨ht, hn⟩ hr).1.2
  · rename_i w e hr
    cases h
    exact hgrow w (hinv _ _ ⟨ht, hn⟩ hr).1.2
