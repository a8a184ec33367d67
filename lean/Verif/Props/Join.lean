import Verif.Lemmas.JoinLink
import Verif.Spec.Join
import Verif.Props.Separate
import Verif.Props.Split
import Verif.Props.Unused

/-!
# Two source files put in one
-/

namespace Nsasm.Props
open Nsasm Nsasm.Spec Nsasm.Joined

theorem loadDirective_name {ld ld' : Module.Loading} {i : Nat} {d : Directive} (hd : d.name ≠ .module_)
    (h : Module.loadDirective ld i d = .ok ld') : ld'.m.name = ld.m.name := by
  unfold Module.loadDirective at h
  rw [if_neg hd] at h
  repeat' split at h
  all_goals first
    | cases h; rfl
    | cases h

theorem addLabels_name : ∀ {ls : List ParsedLabel} {b b' : Module} {scopes : List Nat} {t : Nat},
    b.addLabels scopes t ls = .ok b' → b'.name = b.name
  | [], b, b', scopes, t, h => by cases h; rfl
  | l :: ls, b, b', scopes, t, h => by
    unfold Module.addLabels at h
    obtain ⟨b1, h1, h⟩ := Res.bind_eq_ok.mp h
    rw [addLabels_name h]
    unfold Module.addLabel at h1
    repeat' split at h1
    all_goals first
      | cases h1; rfl
      | cases h1

theorem loadItems_name : ∀ {items : List Item} {ld ld' : Module.Loading}, (∀ it ∈ items, NotModule it) →
    Module.loadItems ld items = .ok ld' → ld'.m.name = ld.m.name
  | [], ld, ld', _, h => by cases h; rfl
  | .label l :: rest, ld, ld', hn, h =>
    loadItems_name (ld := { ld with pending := ld.pending ++ [l] }) (fun it hi => hn it (List.mem_cons_of_mem _ hi)) h
  | .stmt st :: rest, ld, ld', hn, h => by
    unfold Module.loadItems at h
    obtain ⟨ld1, h1, h⟩ := Res.bind_eq_ok.mp h
    rw [loadItems_name (fun it hi => hn it (List.mem_cons_of_mem _ hi)) h]
    unfold Module.loadStatement at h1
    obtain ⟨m, h2, h1⟩ := Res.bind_eq_ok.mp h1
    have h3 := addLabels_name h2
    cases st with
    | instr i => cases h1; exact h3
    | dir d => 
      have hd : d.name ≠ .module_ := hn (.stmt (.dir d)) List.mem_cons_self
      exact (loadDirective_name hd h1).trans h3

theorem unnamed_items {f : List Str} (h : Unnamed f) {items : List Item} (hF : FileItems f items) :
    ∀ it ∈ items, NotModule it := by
  intro it hi
  cases it with
  | label l => trivial
  | stmt st =>
    cases st with
    | instr i => trivial
    | dir d => exact h items hF d hi

theorem unnamed_name {f : List Str} (h : Unnamed f) {m : Module} (hm : Module.loadAsmFile f = .ok m) : m.name = [] := by
  obtain ⟨items, ld, hF, hl, -, rfl⟩ := loadAsmFile_items.mp hm
  exact loadItems_name (unnamed_items h hF) hl

theorem loaded_lines {f : List Str} {m : Module} (hm : Module.loadAsmFile f = .ok m) :
    (∀ l ∈ m.lines, ∀ s ∈ l.scopes, s < m.lines.length) ∧ (∀ l ∈ m.lines, l.value = none) ∧ m.deps = m.dependencies ∧
      m.owned = .empty := by
  obtain ⟨items, -, hI, -, hd⟩ := loadAsmFile_ok hm
  refine ⟨fun l hl s hs => ?_, fun l hl => ?_, hd, hI.fresh.1⟩
  · obtain ⟨i, hi⟩ := List.mem_iff_getElem?.1 hl
    have hlt := (List.getElem?_eq_some_iff.mp hi).1
    obtain ⟨-, hsc, -⟩ := hI.line i l hi
    rw [hsc] at hs
    have := ((mem_openAt (by rw [← hI.length]; omega)).mp hs).1
    omega
  · obtain ⟨i, hi⟩ := List.mem_iff_getElem?.1 hl
    exact (hI.line i l hi).2.2.2

theorem index_of_global {m : Module} {n : Str} (h : (HMap.find m.globals n).isSome = true) :
    ∀ scopes, (m.localIndex n scopes).isSome = true
  | [] => h
  | s :: rest => by
    unfold Module.localIndex
    cases (m.localsAt s).find n with
    | some i => rfl
    | none => exact index_of_global h rest

theorem has_of_mem {g : HMap Str Nat} {k : Str} {t : Nat} (h : (k, t) ∈ g) : (HMap.find g k).isSome = true := by
  induction g with
  | nil => cases h
  | cons p g ih =>
    obtain ⟨k', v⟩ := p
    simp only [HMap.find]
    split
    · rfl
    · next hne =>
      rcases List.mem_cons.1 h with h | h
      · cases h; exact absurd rfl hne
      · exact ih h

theorem exports_join {a b : Module} (hn : b.name = a.name) (id : FullId) :
    Exports (join a b) id ↔ Exports a id ∨ Exports b id := by
  unfold Exports
  rw [hn]
  change (id.module = some a.name ∧ ∃ t, (id.name, t) ∈ a.globals ++ moveNames a.lines.length b.globals) ↔ _
  constructor
  · rintro ⟨h, t, ht⟩
    rcases List.mem_append.1 ht with ht | ht
    · exact .inl ⟨h, t, ht⟩
    · obtain ⟨g, hg, he⟩ := List.mem_map.1 ht
      obtain ⟨k, i⟩ := g
      cases he
      exact .inr ⟨h, i, hg⟩
  · rintro (⟨h, t, ht⟩ | ⟨h, t, ht⟩)
    · exact ⟨h, t, List.mem_append_left _ ht⟩
    · exact ⟨h, t + a.lines.length, List.mem_append_right _ (List.mem_map.2 ⟨_, ht, rfl⟩)⟩

theorem deps_join {a b : Module} (hT : Together a b (join a b)) (ha : a.name = []) (da : a.deps = a.dependencies)
    (db : b.deps = b.dependencies) {id : FullId} (h : id ∈ (join a b).deps) :
    (id ∈ a.deps ∨ id ∈ b.deps) ∧ ¬ Exports a id ∧ ¬ Exports b id := by
  have h : id ∈ (join a b).dependencies := by
    change id ∈ ({ put a b with deps := (put a b).dependencies } : Module).dependencies
    rw [dependencies_deps]; exact h
  rw [da, db]
  have hex : ∀ (scopes : List Nat) (x : FullId), (join a b).isLocal scopes x = false →
      ¬ Exports (join a b) (qualified x) := by
    rintro scopes ⟨mod, n⟩ hl ⟨h1, t, ht⟩
    have hg := has_of_mem ht
    unfold Module.isLocal at hl
    cases mod with
    | none =>
      simp only at hl
      have := index_of_global hg scopes
      simp only [qualified] at this
      rw [this] at hl; cases hl
    | some mod =>
      simp only [qualified, Option.getD_some, Option.some.injEq] at h1
      simp only at hl
      rw [if_neg (by simp [h1])] at hl
      have := index_of_global hg []
      simp only [qualified] at this
      rw [this] at hl; cases hl
  obtain ⟨l, hl, h⟩ := List.mem_flatMap.1 h
  change l ∈ a.lines ++ b.lines.map (moveLine a.lines.length) at hl
  rcases List.mem_append.1 hl with hl | hl
  · split at h
    · next d hd =>
      split at h
      · next hq =>
        obtain ⟨x, hx, hloc, rfl⟩ := mem_externalNames.1 h
        refine ⟨.inl (List.mem_flatMap.2 ⟨l, hl, ?_⟩), ?_⟩
        · rw [hd]
          simp only [if_pos hq]
          refine mem_externalNames.2 ⟨x, hx, ?_, rfl⟩
          unfold Module.isLocal at hloc ⊢
          split at hloc
          · next mod hm =>
            change (if ¬ mod = a.name then _ else _) = false at hloc
            split at hloc
            · next hne => simp [hne]
            · next hne =>
              rw [if_neg hne]
              rw [index_first hT _ _ (by simp)] at hloc
              cases hi : a.localIndex x.name [] with
              | none => rfl
              | some i => rw [hi] at hloc; simp at hloc
          · next hm =>
            rw [index_first hT _ _ (hT.scopes l hl)] at hloc
            cases hi : a.localIndex x.name l.scopes with
            | none => rfl
            | some i => rw [hi] at hloc; simp at hloc
        · have := hex _ _ hloc
          rw [exports_join hT.same, not_or] at this
          exact this
      · cases h
    · cases h
  · obtain ⟨k, hk, rfl⟩ := List.mem_map.1 hl
    simp only [moveLine] at h
    split at h
    · next d hd =>
      split at h
      · next hq =>
        obtain ⟨x, hx, hloc, rfl⟩ := mem_externalNames.1 h
        refine ⟨.inr (List.mem_flatMap.2 ⟨k, hk, ?_⟩), ?_⟩
        · rw [hd]
          simp only [if_pos hq]
          refine mem_externalNames.2 ⟨x, hx, ?_, rfl⟩
          unfold Module.isLocal at hloc ⊢
          split at hloc
          · next mod hm =>
            change (if ¬ mod = a.name then _ else _) = false at hloc
            rw [hT.same]
            split at hloc
            · next hne => simp [hne]
            · next hne =>
              rw [if_neg hne]
              have e := index_second hT x.name []
              rw [List.map_nil] at e
              rw [e] at hloc
              cases hi : b.localIndex x.name [] with
              | none => rfl
              | some i => rw [hi] at hloc; simp at hloc
          · next hm =>
            rw [index_second hT] at hloc
            cases hi : b.localIndex x.name k.scopes with
            | none => rfl
            | some i => rw [hi] at hloc; simp at hloc
        · have := hex _ _ hloc
          rw [exports_join hT.same, not_or] at this
          exact this
      · cases h
    · cases h

theorem linkOrder_join {l₁ l₂ : List Module} {a b : Module} (hT : Together a b (join a b)) (ha : a.name = [])
    (da : a.deps = a.dependencies) (db : b.deps = b.dependencies) (h : LinkOrder (l₁ ++ a :: b :: l₂)) :
    LinkOrder (l₁ ++ join a b :: l₂) := by
  have hjoin : ∀ id ∈ (join a b).deps, ∃ q ∈ l₁, Exports q id := by
    intro id hid
    obtain ⟨hd, n1, n2⟩ := deps_join hT ha da db hid
    rcases hd with hd | hd
    · exact h l₁ a (b :: l₂) rfl id hd
    · obtain ⟨q, hq, hx⟩ := h (l₁ ++ [a]) b l₂ (by simp) id hd
      rcases List.mem_append.1 hq with hq | hq
      · exact ⟨q, hq, hx⟩
      · simp at hq; subst hq; exact absurd hx n1
  intro pre m post he id hid
  rcases List.append_eq_append_iff.1 he with ⟨c, rfl, hc⟩ | ⟨c, rfl, hc⟩
  · cases c with
    | nil =>
      simp only [List.nil_append, List.cons.injEq] at hc
      rw [← hc.1] at hid
      simpa using hjoin id hid
    | cons x c =>
      simp only [List.cons_append, List.cons.injEq] at hc
      obtain ⟨rfl, rfl⟩ := hc
      obtain ⟨q, hq, hx⟩ := h (l₁ ++ a :: b :: c) m post (by simp) id hid
      simp only [List.mem_append, List.mem_cons] at hq
      rcases hq with hq | rfl | rfl | hq
      · exact ⟨q, by simp [hq], hx⟩
      · exact ⟨_, by simp, (exports_join hT.same id).2 (.inl hx)⟩
      · exact ⟨_, by simp, (exports_join hT.same id).2 (.inr hx)⟩
      · exact ⟨q, by simp [hq], hx⟩
  · cases c with
    | nil =>
      simp only [List.nil_append, List.cons.injEq] at hc
      rw [hc.1] at hid
      simpa using hjoin id hid
    | cons x c =>
      simp only [List.cons_append, List.cons.injEq] at hc
      obtain ⟨rfl, rfl⟩ := hc
      exact h pre m (c ++ a :: b :: l₂) (by simp) id hid

theorem unique_join {l₁ l₂ : List Module} {a b : Module} (hn : b.name = a.name)
    (h : UniqueExports (l₁ ++ a :: b :: l₂)) : UniqueExports (l₁ ++ join a b :: l₂) := by
  unfold UniqueExports at h ⊢
  rw [List.pairwise_append] at h ⊢
  obtain ⟨h1, h2, h3⟩ := h
  rw [List.pairwise_cons, List.pairwise_cons] at h2
  obtain ⟨h4, h5, h6⟩ := h2
  refine ⟨h1, List.pairwise_cons.2 ⟨fun q hq id hx => ?_, h6⟩, fun p hp q hq id hx hy => ?_⟩
  · rcases (exports_join hn id).1 hx with hx | hx
    · exact h4 q (List.mem_cons_of_mem _ hq) id hx
    · exact h5 q hq id hx
  · rcases List.mem_cons.1 hq with rfl | hq
    · rcases (exports_join hn id).1 hy with hy | hy
      · exact h3 p hp a (by simp) id hx hy
      · exact h3 p hp b (by simp) id hx hy
    · exact h3 p hp q (by simp [hq]) id hx hy

theorem after_more {fuel : Nat} {E : Ctx} {m m₂ : Module} (h : after fuel E m = .ok m₂) (j : Nat) :
    after (fuel + j) E m = .ok m₂ := by
  obtain ⟨m₁, h1, h2⟩ := after_parts h
  refine Res.bind_eq_ok.mpr ⟨m₁, ?_, h2⟩
  obtain ⟨p, xs, ys, k1, k2, k3, rfl⟩ := firstPass_parts h1
  unfold Module.runFirstPass
  exact Res.bind_eq_ok.mpr ⟨p, explore_more k1 j, Res.bind_eq_ok.mpr ⟨xs, k2, Res.bind_eq_ok.mpr ⟨ys, k3, rfl⟩⟩⟩

theorem value_own {fuel : Nat} {E : Ctx} {ms : List Module} (hB : Builds fuel ms E) {a a₂ : Module} (hm : a ∈ ms)
    (ha : a.name = []) (h : after fuel E a = .ok a₂) {name : Str} {j : Nat} {v : Int}
    (hg : HMap.find a₂.globals name = some j) (hv : E ⟨some [], name⟩ = .ok v) : a₂.localLookup j = .ok v := by
  obtain ⟨q, hq, q₂, h1, h2⟩ := (hB.offers _ v).1 hv
  have hx := (exports_congr (after_fields h1).1 (after_fields h1).2.1 _).1 (exports_of_value h2)
  have hy : Exports a ⟨some [], name⟩ := ⟨by rw [ha], j, by rw [← (after_fields h).2.1]; exact Joined.find_none hg⟩
  have : q = a := unique_exporter hB.linkable.1 hq hm hx hy
  subst this
  rw [h] at h1; cases h1
  unfold Module.valueForName at h2
  rw [if_neg (by rw [(after_fields h).1, ha]; simp), hg] at h2
  exact h2

theorem builds_join {fuel : Nat} {E : Ctx} {l₁ l₂ : List Module} {a b : Module} {f g : List Str}
    (hB : Builds fuel (l₁ ++ a :: b :: l₂) E) (hO : LinkOrder (l₁ ++ a :: b :: l₂)) (hf : Module.loadAsmFile f = .ok a)
    (hg : Module.loadAsmFile g = .ok b) (uf : Unnamed f) (ug : Unnamed g) (ef : EndsInStatement f) :
    Module.loadAsmFile (f ++ g) = .ok (join a b) ∧ Builds (fuel + fuel) (l₁ ++ join a b :: l₂) E ∧
      (l₁ ++ join a b :: l₂).flatMap (made (fuel + fuel) E) = (l₁ ++ a :: b :: l₂).flatMap (made fuel E) := by
  have na := unnamed_name uf hf
  have nb := unnamed_name ug hg
  obtain ⟨sa, -, da, oa⟩ := loaded_lines hf
  obtain ⟨-, vb, db, ob⟩ := loaded_lines hg
  have ma : a ∈ l₁ ++ a :: b :: l₂ := by simp
  have mb : b ∈ l₁ ++ a :: b :: l₂ := by simp
  have huniq := hB.linkable.1
  have hpair := (List.pairwise_append.1 huniq)
  have hab : ∀ id, Exports a id → ¬ Exports b id := (List.pairwise_cons.1 hpair.2.1).1 b (by simp)
  have hap : ∀ x ∈ b.globals, HMap.find a.globals x.1 = none := by
    intro x hx
    cases hfi : HMap.find a.globals x.1 with
    | none => rfl
    | some i =>
      exact absurd (show Exports b ⟨some [], x.1⟩ from ⟨by rw [nb], x.2, hx⟩) (hab _ ⟨by rw [na], i, Joined.find_none hfi⟩)
  have hT := together_join (a := a) (b := b) (by rw [na, nb]) sa hap
  have hload := load_join hf hg (fun items hF => ef items hF) (fun items hF => unnamed_items ug hF) hap
  obtain ⟨a₂, a₃, ha2, ha3⟩ := hB.works a ma
  obtain ⟨b₂, b₃, hb2, hb3⟩ := hB.works b mb
  obtain ⟨a₁, ha1, ha2'⟩ := after_parts ha2
  obtain ⟨b₁, hb1, hb2'⟩ := after_parts hb2
  obtain ⟨m₁, hm1, hT1⟩ := first_join ha1 hb1 hT vb
  have hEa : ∀ name j v, HMap.find a₂.globals name = some j → E ⟨some [], name⟩ = .ok v → a₂.localLookup j = .ok v :=
    fun name j v hg hv => value_own hB ma na ha2 hg hv
  have hEb : ∀ name j v, HMap.find b₂.globals name = some j → E ⟨some [], name⟩ = .ok v → b₂.localLookup j = .ok v :=
    fun name j v hg hv => value_own hB mb nb hb2 hg hv
  obtain ⟨m₂, hm2, hT2⟩ := second_join (D := (· ∈ a.deps)) hT1 (by rw [(firstPass_name ha1).1]; exact na)
    (needs_first hf ha1) (fun x hx hid => by
      obtain ⟨q, hq, hqx⟩ := hO l₁ a (b :: l₂) rfl _ hid
      refine hpair.2.2 q hq b (by simp) _ hqx ⟨by rw [nb], x.2, ?_⟩
      rw [← (firstPass_name hb1).2.1]; exact hx) ha2' hEa hb2'
  have hm : after (fuel + fuel) E (join a b) = .ok m₂ := Res.bind_eq_ok.mpr ⟨m₁, hm1, hm2⟩
  have hmade : ∀ q ∈ l₁ ++ a :: b :: l₂, made (fuel + fuel) E q = made fuel E q := by
    intro q hq
    obtain ⟨q₂, q₃, k1, k2⟩ := hB.works q hq
    rw [made_of_works (after_more k1 fuel), made_of_works k1]
  have hflat : (l₁ ++ a :: b :: l₂).flatMap (made fuel E) =
      l₁.flatMap (made fuel E) ++ ((made fuel E a ++ made fuel E b) ++ l₂.flatMap (made fuel E)) := by
    simp
  have hapart := hB.apart
  rw [hflat] at hapart
  have hnd : (allFilled (made fuel E a ++ made fuel E b)).Nodup := by
    unfold allFilled at hapart ⊢
    rw [List.flatMap_append] at hapart
    have := (List.nodup_append.1 hapart).2.1
    rw [List.flatMap_append] at this
    exact (List.nodup_append.1 this).1
  obtain ⟨m₃, hm3⟩ := assemble_join hT2 (by rw [(after_fields ha2).1]; exact na) ha3 hb3
    (by rw [(after_fields ha2).2.2.1]; exact oa) (by rw [(after_fields hb2).2.2.1]; exact ob)
    (by rw [(after_fields hm).2.2.1]; exact oa) hEa hEb hnd
  have hmj : made (fuel + fuel) E (join a b) = made fuel E a ++ made fuel E b := by
    rw [made_of_works hm, hm3]
  have hfl : (l₁ ++ join a b :: l₂).flatMap (made (fuel + fuel) E) = (l₁ ++ a :: b :: l₂).flatMap (made fuel E) := by
    rw [hflat, List.flatMap_append, List.flatMap_cons, hmj]
    congr 1
    · exact List.flatMap_congr fun q hq => hmade q (by simp [hq])
    · congr 1
      exact List.flatMap_congr fun q hq => hmade q (by simp [hq])
  refine ⟨hload, ⟨⟨unique_join (by rw [na, nb]) huniq, _, .refl _, linkOrder_join hT na da db hO⟩, ?_, ?_, ?_⟩, hfl⟩
  · intro id v
    rw [hB.offers id v]
    have hva : ∀ i, HMap.find a₂.globals id.name = some i → ∃ w, a₂.localLookup i = .ok w := by
      intro i hi
      obtain ⟨-, na', -, ga, -⟩ := assemble_parts ha3
      obtain ⟨l, w, x, q1, q2, -⟩ := names_iff.1 ⟨na', ga⟩ _ (Joined.find_none hi)
      exact ⟨w, by unfold Module.localLookup; rw [q1]; simp only; rw [q2]⟩
    have hvb : ∀ i, HMap.find b₂.globals id.name = some i → ∃ w, b₂.localLookup i = .ok w := by
      intro i hi
      obtain ⟨-, na', -, ga, -⟩ := assemble_parts hb3
      obtain ⟨l, w, x, q1, q2, -⟩ := names_iff.1 ⟨na', ga⟩ _ (Joined.find_none hi)
      exact ⟨w, by unfold Module.localLookup; rw [q1]; simp only; rw [q2]⟩
    have hval : m₂.valueForName id = .ok v ↔ a₂.valueForName id = .ok v ∨ b₂.valueForName id = .ok v := by
      unfold Module.valueForName
      rw [hT2.name, hT2.same]
      split
      · simp
      · rw [hT2.globals, find_append, find_move]
        cases hfa : HMap.find a₂.globals id.name with
        | some i =>
          have hnb : HMap.find b₂.globals id.name = none := by
            cases hfb : HMap.find b₂.globals id.name with
            | none => rfl
            | some j => have := hT2.apart _ (Joined.find_none hfb); simp only at this; rw [hfa] at this; cases this
          rw [hnb]
          simp only [Option.some_or, reduceCtorEq, or_false]
          obtain ⟨w, hw⟩ := hva i hfa
          rw [localLookup_first hT2 hw, hw]
        | none =>
          simp only [Option.none_or, reduceCtorEq, false_or]
          cases hfb : HMap.find b₂.globals id.name with
          | none => simp
          | some j =>
            simp only [Option.map_some]
            obtain ⟨w, hw⟩ := hvb j hfb
            rw [localLookup_second hT2 hw, hw]
    constructor
    · rintro ⟨q, hq, q₂, k1, k2⟩
      simp only [List.mem_append, List.mem_cons] at hq
      rcases hq with hq | rfl | rfl | hq
      · exact ⟨q, by simp [hq], q₂, after_more k1 fuel, k2⟩
      · rw [ha2] at k1; cases k1
        exact ⟨_, by simp, m₂, hm, hval.2 (.inl k2)⟩
      · rw [hb2] at k1; cases k1
        exact ⟨_, by simp, m₂, hm, hval.2 (.inr k2)⟩
      · exact ⟨q, by simp [hq], q₂, after_more k1 fuel, k2⟩
    · rintro ⟨q, hq, q₂, k1, k2⟩
      have old : ∀ q ∈ l₁ ++ a :: b :: l₂, after (fuel + fuel) E q = .ok q₂ → after fuel E q = .ok q₂ := by
        intro q hq k
        obtain ⟨q', -, k3, -⟩ := hB.works q hq
        rw [after_more k3 fuel] at k; cases k; exact k3
      simp only [List.mem_append, List.mem_cons] at hq
      rcases hq with hq | rfl | hq
      · exact ⟨q, by simp [hq], q₂, old q (by simp [hq]) k1, k2⟩
      · rw [hm] at k1; cases k1
        rcases hval.1 k2 with k2 | k2
        · exact ⟨a, ma, a₂, ha2, k2⟩
        · exact ⟨b, mb, b₂, hb2, k2⟩
      · exact ⟨q, by simp [hq], q₂, old q (by simp [hq]) k1, k2⟩
  · intro q hq
    simp only [List.mem_append, List.mem_cons] at hq
    have old : ∀ q ∈ l₁ ++ a :: b :: l₂, ∃ m₂ m₃, after (fuel + fuel) E q = .ok m₂ ∧
        m₂.assemble E recorder [] = (made (fuel + fuel) E q, .ok m₃) := by
      intro q hq
      obtain ⟨q₂, q₃, k1, k2⟩ := hB.works q hq
      exact ⟨q₂, q₃, after_more k1 fuel, by rw [hmade q hq]; exact k2⟩
    rcases hq with hq | rfl | hq
    · exact old q (by simp [hq])
    · exact ⟨m₂, m₃, hm, by rw [hmj]; exact hm3⟩
    · exact old q (by simp [hq])
  · rw [hfl]; exact hB.apart

theorem builds_perm {fuel : Nat} {ms ms' : List Module} {E : Ctx} (hpm : ms.Perm ms') (hB : Builds fuel ms E) :
    Builds fuel ms' E :=
  ⟨linkable_perm hpm hB.linkable,
   fun id v => (hB.offers id v).trans ⟨fun ⟨m, hm, r⟩ => ⟨m, hpm.mem_iff.1 hm, r⟩, fun ⟨m, hm, r⟩ => ⟨m, hpm.mem_iff.2 hm, r⟩⟩,
   fun m hm => hB.works m (hpm.mem_iff.2 hm), ((hpm.flatMap_right _).flatMap_right filled).nodup_iff.1 hB.apart⟩

/-- Two accepted programs that are built with the same values. -/
theorem same_values {fuel k : Nat} {fs gs : List (List Str)} {ws ws' : Writes} {a a' : Assembler} {ms' : List Module}
    (h : Assembles fuel fs ws a) (h' : Assembles k gs ws' a') (hl' : Assembler.loadAll gs = .ok ms')
    (hB' : Builds k ms' (Assembler.lookup a.modules a.names)) {externs externs' : Ctx}
    (he : Publishes a.modules externs) (he' : Publishes a'.modules externs') (id : FullId) (v : Int) :
    externs id = .ok v ↔ externs' id = .ok v := by
  obtain ⟨o, wss, hA⟩ := assembled h
  obtain ⟨o', wss', hA'⟩ := assembled h'
  obtain ⟨ms, hl, hB, -⟩ := builds_of_assembles h'
  rw [hl'] at hl; cases hl
  rw [he id v, ← assembled_publishes hA id v, he' id v, ← assembled_publishes hA' id v]
  exact ⟨values_grow hl' hB' hB (fun m hm => hm) id v, values_grow hl' hB hB' (fun m hm => hm) id v⟩

/-- The modules of files whose constants are in order are in the order of linking. -/
theorem linkOrder_files {files : List (List Str)} {ms : List Module} (hl : Assembler.loadAll files = .ok ms)
    (h : ConstantsInOrder files) : LinkOrder ms := by
  rintro pre m post rfl id hid
  have hF := loadAll_iff.mp hl
  have h1 := List.forall₂_take pre.length hF
  have h2 := List.forall₂_drop pre.length hF
  rw [List.take_left] at h1
  rw [List.drop_left] at h2
  generalize hq : files.drop pre.length = rest at h2
  cases h2 with
  | @cons f _ fpost _ hf hr =>
    obtain ⟨items, hI, hd⟩ := C45_dependencies hf
    obtain ⟨g, hg, hx⟩ := h (files.take pre.length) f fpost (by rw [← hq, List.take_append_drop]) id ⟨m, items, hf, hI, (hd id).1 hid⟩
    exact (fileExports_iff (loadAll_iff.mpr h1) id).1 ⟨g, hg, hx⟩

theorem joined_of_builds {fuel : Nat} {files o₁ o₂ : List (List Str)} {A B : List Str} {ws : Writes} {a : Assembler}
    {l₁ l₂ : List Module} {x y : Module}
    (h : Assembles fuel files ws a) (h1 : Assembler.loadAll o₁ = .ok l₁) (hA : Module.loadAsmFile A = .ok x)
    (hB : Module.loadAsmFile B = .ok y) (h2 : Assembler.loadAll o₂ = .ok l₂)
    (hb : Builds fuel (l₁ ++ x :: y :: l₂) (Assembler.lookup a.modules a.names))
    (hw : ws.Perm ((l₁ ++ x :: y :: l₂).flatMap (made fuel (Assembler.lookup a.modules a.names))))
    (hO : LinkOrder (l₁ ++ x :: y :: l₂)) (uA : Unnamed A) (uB : Unnamed B) (eA : EndsInStatement A) :
    ∃ ws' a', Assembles (fuel + fuel) (o₁ ++ (A ++ B) :: o₂) ws' a' ∧ ws'.Perm ws ∧
      ∀ externs externs', Publishes a.modules externs → Publishes a'.modules externs' →
        ∀ id v, externs id = .ok v ↔ externs' id = .ok v := by
  obtain ⟨k1, k2, k3⟩ := builds_join hb hO hA hB uA uB eA
  have hl' : Assembler.loadAll (o₁ ++ (A ++ B) :: o₂) = .ok (l₁ ++ join x y :: l₂) :=
    append_loadAll h1 (loadAll_iff.mpr (.cons k1 (loadAll_iff.mp h2)))
  obtain ⟨ws', a', h', hw'⟩ := assembles_of_builds hl' k2
  rw [k3] at hw'
  exact ⟨ws', a', h', hw'.trans hw.symm, fun externs externs' he he' id v => same_values h h' hl' k2 he he' id v⟩

/-- **Two files may be put in one.**  Let files that assemble be put in an order in which the constants of every
file are defined with names of files before it.  Then two files next to each other that do not name their modules
may be replaced by one that has the lines of the first followed by those of the second, provided the first does not end
with a label: the files still assemble, make the same writes, and give all their exported names the same values. -/
theorem C105_joined {fuel : Nat} {files o₁ o₂ : List (List Str)} {A B : List Str} {ws : Writes} {a : Assembler}
    (h : Assembles fuel files ws a) (hp : files.Perm (o₁ ++ A :: B :: o₂))
    (hO : ConstantsInOrder (o₁ ++ A :: B :: o₂)) (uA : Unnamed A) (uB : Unnamed B) (eA : EndsInStatement A) :
    ∃ ws' a', Assembles (fuel + fuel) (o₁ ++ (A ++ B) :: o₂) ws' a' ∧ ws'.Perm ws ∧
      ∀ externs externs', Publishes a.modules externs → Publishes a'.modules externs' →
        ∀ id v, externs id = .ok v ↔ externs' id = .ok v := by
  obtain ⟨ms₀, hl₀, hB₀, hw₀⟩ := builds_of_assembles h
  obtain ⟨ms, hl, hpm⟩ := loadAll_perm hp hl₀
  have hB := builds_perm hpm hB₀
  have hw := hw₀.trans (hpm.flatMap_right _)
  have hLO := linkOrder_files hl hO
  obtain ⟨l₁, l, rfl, h1, h2⟩ := loadAll_append hl
  cases loadAll_iff.mp h2 with
  | cons hA h3 =>
    cases h3 with
    | cons hB' h4 => exact joined_of_builds h h1 hA hB' (loadAll_iff.mpr h4) hB hw hLO uA uB eA

/-! ## An example -/

/-- A file with a constant and code that uses what the other file defines. -/
def firstPart : List Str :=
  [cs!"size .equ 3", cs!" .org $8000", cs!"init .entry m8x8", cs!" lda #twice", cs!" jsr help", cs!" rts"]

/-- A file whose constant is defined with the first one's. -/
def secondPart : List Str :=
  [cs!"twice .equ size * 2", cs!" .org $8100", cs!"help .entry m8x8", cs!" ldx #size", cs!"again dex", cs!" bne again", cs!" rts"]

def partWrites : Writes :=
  [(0x8000, [0xa9, 6]), (0x8002, [0x20, 0, 0x81]), (0x8005, [0x60]), (0x8100, [0xa2, 3]), (0x8102, [0xca]),
   (0x8103, [0xd0, 0xfd]), (0x8105, [0x60])]

def unnamedTest : List Item → Bool
  | [] => true
  | .stmt (.dir d) :: rest => decide (d.name ≠ .module_) && unnamedTest rest
  | _ :: rest => unnamedTest rest

theorem unnamedTest_sound : ∀ {items : List Item}, unnamedTest items = true →
    ∀ d : Directive, Item.stmt (.dir d) ∈ items → d.name ≠ .module_
  | [], _, d, hd => by cases hd
  | .label l :: rest, h, d, hd => by
    rcases List.mem_cons.1 hd with hd | hd
    · cases hd
    · exact unnamedTest_sound (items := rest) h d hd
  | .stmt (.instr k) :: rest, h, d, hd => by
    rcases List.mem_cons.1 hd with hd | hd
    · cases hd
    · exact unnamedTest_sound (items := rest) h d hd
  | .stmt (.dir k) :: rest, h, d, hd => by
    simp only [unnamedTest, Bool.and_eq_true] at h
    rcases List.mem_cons.1 hd with hd | hd
    · cases hd; exact of_decide_eq_true h.1
    · exact unnamedTest_sound (items := rest) h.2 d hd

def endTest (items : List Item) : Bool :=
  match items.getLast? with
  | some (.label _) => false
  | _ => true

theorem part_of_test {file : List Str}
    (h : (match readItems file with | some items => unnamedTest items && endTest items | none => false) = true) :
    Unnamed file ∧ EndsInStatement file := by
  split at h
  · next items hr =>
    have hF := fileItems_of_read hr
    simp only [Bool.and_eq_true] at h
    refine ⟨fun items' hF' => ?_, fun items' hF' l hl => ?_⟩
    · rw [Props.fileItems_unique hF' hF]; exact unnamedTest_sound h.1
    · rw [Props.fileItems_unique hF' hF] at hl
      have h2 := h.2
      unfold endTest at h2
      rw [hl] at h2
      cases h2
  · cases h

theorem needs_of_loaded {file : List Str} {m : Module} (hm : Module.loadAsmFile file = .ok m) {id : FullId}
    (h : ConstantsNeed file id) : id ∈ m.deps := by
  obtain ⟨m', items, hm', hF, hn⟩ := h
  rw [hm] at hm'; cases hm'
  obtain ⟨items', hF', hd⟩ := C45_dependencies hm
  rw [Props.fileItems_unique hF hF'] at hn
  exact (hd id).2 hn

theorem pair_in_order {f g : List Str}
    (h : (match Module.loadAsmFile f, Module.loadAsmFile g with
      | .ok x, .ok y => decide (x.deps = []) && y.deps.all fun id =>
          decide (id.module = some x.name) && x.globals.any fun e => decide (e.1 = id.name)
      | _, _ => false) = true) : ConstantsInOrder [f, g] := by
  split at h
  · next x y hx hy =>
    simp only [Bool.and_eq_true, List.all_eq_true, List.any_eq_true, decide_eq_true_eq] at h
    intro pre k post he id hid
    match pre, he with
    | [], he =>
      cases he
      have := needs_of_loaded hx hid
      rw [h.1] at this; cases this
    | [_], he =>
      cases he
      obtain ⟨h1, ⟨n, t⟩, h2, h3⟩ := h.2 id (needs_of_loaded hy hid)
      cases h3
      exact ⟨_, List.mem_singleton.2 rfl, x, hx, h1, t, h2⟩
    | _ :: _ :: pre, he => simp at he
  · cases h

/-- The hypotheses can be met by two files that use names of each other, and what the theorem says of them is so. -/
example : (∃ ws a, Assembles 30 [secondPart, firstPart] ws a ∧ ws = partWrites) ∧
    [secondPart, firstPart].Perm ([] ++ firstPart :: secondPart :: []) ∧
    ConstantsInOrder ([] ++ firstPart :: secondPart :: []) ∧ Unnamed firstPart ∧ Unnamed secondPart ∧
    EndsInStatement firstPart ∧ writtenBy [firstPart ++ secondPart] = some partWrites := by
  refine ⟨?_, .swap _ _ _, pair_in_order (by decide +kernel), (part_of_test (by decide +kernel)).1,
    (part_of_test (by decide +kernel)).1, (part_of_test (by decide +kernel)).2, by decide +kernel⟩
  obtain ⟨ws, a, h, hc⟩ := assembles_of_check (fuel := 30) (files := [secondPart, firstPart])
    (fun ws _ => decide (ws = partWrites)) (by decide +kernel)
  exact ⟨ws, a, h, of_decide_eq_true hc⟩

/-- In the other order the files cannot be put in one: a constant would be used before its definition. -/
theorem C105_order_matters : writtenBy [secondPart, firstPart] = some partWrites ∧
    writtenBy [firstPart, secondPart] = some partWrites ∧ writtenBy [secondPart ++ firstPart] = none := by
  decide +kernel

/-- A label at the end of the first file is no label there, and would become one of the second file's first
statement, here in place of the one that the first file refers to. -/
theorem C105_last_label_matters :
    writtenBy [[cs!" .org $8000", cs!" .db 1", cs!"here:"], [cs!" .org $8100", cs!"here .db 2"]] =
      some [(0x8000, [1]), (0x8100, [2])] ∧
    writtenBy [[cs!" .org $8000", cs!" .db 1", cs!"here:"] ++ [cs!" .org $8100", cs!"here .db 2"]] = none := by
  decide +kernel

/-- **Two files alone** can always be put in one, in one of the two orders. -/
theorem C105_two {fuel : Nat} {A B : List Str} {ws : Writes} {a : Assembler} (h : Assembles fuel [A, B] ws a)
    (uA : Unnamed A) (uB : Unnamed B) (eA : EndsInStatement A) (eB : EndsInStatement B) :
    ∃ C, (C = A ++ B ∨ C = B ++ A) ∧ ∃ ws' a', Assembles (fuel + fuel) [C] ws' a' ∧ ws'.Perm ws ∧
      ∀ externs externs', Publishes a.modules externs → Publishes a'.modules externs' →
        ∀ id v, externs id = .ok v ↔ externs' id = .ok v := by
  obtain ⟨ms, hl, hB, hw⟩ := builds_of_assembles h
  cases loadAll_iff.mp hl with
  | @cons _ x _ _ hA h2 =>
    cases h2 with
    | @cons _ y _ _ hB' h2 =>
      cases h2
      obtain ⟨order, hp, hO⟩ := hB.linkable.2
      have hcase : order = [x, y] ∨ order = [y, x] := by
        match order, hp.length_eq with
        | [p, q], _ =>
          rcases List.mem_cons.1 (hp.mem_iff.1 (List.mem_cons_self (a := p))) with rfl | hq
          · have := (List.perm_cons p).1 hp
            rw [List.singleton_perm_singleton.1 this]; exact .inl rfl
          · rw [List.mem_singleton.1 hq] at hp ⊢
            have := (List.perm_cons y).1 (hp.trans (.swap _ _ _))
            rw [List.singleton_perm_singleton.1 this]; exact .inr rfl
      rcases hcase with rfl | rfl
      · exact ⟨A ++ B, .inl rfl,
          joined_of_builds (o₁ := []) (o₂ := []) (l₁ := []) (l₂ := []) h rfl hA hB' rfl hB hw hO uA uB eA⟩
      · exact ⟨B ++ A, .inr rfl, joined_of_builds (o₁ := []) (o₂ := []) (l₁ := []) (l₂ := []) h rfl hB' hA rfl
          (builds_perm (.swap _ _ _) hB) (hw.trans ((List.Perm.swap _ _ _).flatMap_right _)) hO uB uA eB⟩

/-- The hypotheses can be met. -/
example : (∃ ws a, Assembles 30 [secondPart, firstPart] ws a) ∧ Unnamed secondPart ∧ Unnamed firstPart ∧
    EndsInStatement secondPart ∧ EndsInStatement firstPart := by
  refine ⟨?_, (part_of_test (by decide +kernel)).1, (part_of_test (by decide +kernel)).1,
    (part_of_test (by decide +kernel)).2, (part_of_test (by decide +kernel)).2⟩
  obtain ⟨ws, a, h, -⟩ := assembles_of_check (fuel := 30) (files := [secondPart, firstPart])
    (fun ws _ => decide (ws = partWrites)) (by decide +kernel)
  exact ⟨ws, a, h⟩

end Nsasm.Props
