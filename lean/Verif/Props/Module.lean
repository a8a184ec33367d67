import Verif.Lemmas.Loader

/-! # C38: names and scopes -/

namespace Nsasm.Props
open Nsasm Nsasm.Spec

/-- A table-driven search through a descending list of scopes. -/
theorem localIndex_scopes {P : Program} {m : Module} (h : LoadInv P m) (name : Str) (t : Nat) :
    ∀ S : List Nat, S.Pairwise (· > ·) → (m.localIndex name S = some t ↔
      (∃ j, j ∈ S ∧ Defines P (some j) name t ∧
        ∀ j', j' ∈ S → j < j' → ∀ t', ¬ Defines P (some j') name t') ∨
      ((∀ j, j ∈ S → ∀ t', ¬ Defines P (some j) name t') ∧ Defines P none name t)) := by
  intro S
  induction S with
  | nil =>
    intro _
    rw [Module.localIndex, h.globals, find_tableOf h.nodup]
    simp
  | cons s rest ih =>
    intro hp
    rw [List.pairwise_cons] at hp
    rw [Module.localIndex, h.locals]
    cases hf : HMap.find (tableOf (some s) (defs P)) name with
    | some i =>
      have hd := (find_tableOf h.nodup).mp hf
      simp only [Option.some.injEq]
      constructor
      · rintro rfl
        left
        refine ⟨s, by simp, hd, ?_⟩
        intro j' hj' hlt
        rw [List.mem_cons] at hj'
        rcases hj' with rfl | hj'
        · omega
        · have := hp.1 j' hj'; omega
      · rintro (⟨j, hj, hd', hin⟩ | ⟨hno, -⟩)
        · rw [List.mem_cons] at hj
          rcases hj with rfl | hj
          · have := (find_tableOf h.nodup).mpr hd'
            rw [hf] at this
            exact Option.some.inj this
          · exact absurd hd (hin s (by simp) (hp.1 j hj) i)
        · exact absurd hd (hno s (by simp) i)
    | none =>
      have hn : ∀ t', ¬ Defines P (some s) name t' := by
        intro t' hd
        rw [(find_tableOf h.nodup).mpr hd] at hf
        cases hf
      simp only
      rw [ih hp.2]
      constructor
      · rintro (⟨j, hj, hd', hin⟩ | ⟨hno, hg⟩)
        · left
          refine ⟨j, List.mem_cons_of_mem _ hj, hd', ?_⟩
          intro j' hj' hlt
          rw [List.mem_cons] at hj'
          rcases hj' with rfl | hj'
          · exact hn
          · exact hin j' hj' hlt
        · right
          refine ⟨?_, hg⟩
          intro j hj
          rw [List.mem_cons] at hj
          rcases hj with rfl | hj
          · exact hn
          · exact hno j hj
      · rintro (⟨j, hj, hd', hin⟩ | ⟨hno, hg⟩)
        · rw [List.mem_cons] at hj
          rcases hj with rfl | hj
          · exact absurd hd' (hn t)
          · left
            exact ⟨j, hj, hd', fun j' hj' => hin j' (List.mem_cons_of_mem _ hj')⟩
        · right
          exact ⟨fun j hj => hno j (List.mem_cons_of_mem _ hj), hg⟩

theorem localIndex_resolves {P : Program} {m : Module} (h : LoadInv P m) (name : Str) (t i : Nat)
    (hi : i ≤ P.length) : m.localIndex name (openAt P i) = some t ↔ Resolves P i name t := by
  rw [localIndex_scopes h name t _ (openAt_sorted P i hi)]
  unfold Resolves
  simp only [mem_openAt hi]

/-- **Names resolve to the innermost enclosing scope.**  If a file loads, it consists of
lines that parse, its scopes balance, no scope defines a name twice, the module has one line
per statement, in order, and looking a name up from line `i` finds statement `t` exactly if
the name means `t` there. -/
theorem C38_resolution {file : List Str} {m : Module} (h : Module.loadAsmFile file = .ok m) :
    ∃ items, FileItems file items ∧ Balanced (program [] items) ∧ NoDuplicates (program [] items) ∧
      m.lines.map (·.statement) = (program [] items).map (·.statement) ∧
      ∀ i line, m.lines[i]? = some line → ∀ name t,
        (m.localIndex name line.scopes = some t ↔ Resolves (program [] items) i name t) := by
  obtain ⟨items, h1, h2, h3, -⟩ := loadAsmFile_ok h
  refine ⟨items, h1, h3, (noDuplicates_iff _).mpr h2.nodup, ?_, ?_⟩
  · apply List.ext_getElem?
    intro i
    rw [List.getElem?_map, List.getElem?_map]
    cases hl : m.lines[i]? with
    | some l =>
      obtain ⟨⟨pl, h4, h5⟩, -⟩ := h2.line i l hl
      rw [h4]
      simp [h5]
    | none =>
      have : (program [] items)[i]? = none := by
        rw [List.getElem?_eq_none_iff] at hl ⊢
        rw [← h2.length]; exact hl
      rw [this]; rfl
  · intro i line hl name t
    obtain ⟨⟨pl, h4, -⟩, h5, -⟩ := h2.line i line hl
    have hi : i < (program [] items).length := by
      by_contra hc
      rw [List.getElem?_eq_none (by omega)] at h4
      cases h4
    rw [h5]
    exact localIndex_resolves h2 name t i (by omega)

/-- What other modules see of a module are its module-wide names. -/
theorem C38_exports {file : List Str} {m : Module} (h : Module.loadAsmFile file = .ok m) :
    ∃ items, FileItems file items ∧ ∀ id, id ∈ m.exportedNames ↔
      id.module = some m.name ∧ ∃ t, Defines (program [] items) none id.name t := by
  obtain ⟨items, h1, h2, h3, -⟩ := loadAsmFile_ok h
  refine ⟨items, h1, ?_⟩
  intro id
  unfold Module.exportedNames
  rw [List.mem_map, h2.globals]
  constructor
  · rintro ⟨⟨n, t⟩, h4, rfl⟩
    exact ⟨rfl, t, mem_defs.mp (mem_tableOf.mp h4)⟩
  · rintro ⟨h4, t, h5⟩
    refine ⟨(id.name, t), mem_tableOf.mpr (mem_defs.mpr h5), ?_⟩
    obtain ⟨a, b⟩ := id
    simp at h4
    subst h4
    rfl

/-- **Nothing else is rejected**: a file whose lines parse, whose scopes balance, that
defines no name twice in a scope and has at most one `.module` directive loads. -/
theorem C38_accepts {file : List Str} {items : List Item} (h : FileItems file items)
    (hb : Balanced (program [] items)) (hn : NoDuplicates (program [] items))
    (hm : OneModuleName (program [] items)) : ∃ m, Module.loadAsmFile file = .ok m :=
  loadAsmFile_accepts h hb hn hm

/-- Duplicates and unbalanced scopes are rejected. -/
theorem C38_rejects {file : List Str} {items : List Item} (h : FileItems file items)
    (hbad : ¬ Balanced (program [] items) ∨ ¬ NoDuplicates (program [] items)) :
    ∀ m, Module.loadAsmFile file ≠ .ok m := by
  intro m hm
  obtain ⟨items', h1, h2, h3, -⟩ := loadAsmFile_ok hm
  have : items = items' := by
    obtain ⟨per, a1, a2⟩ := h
    obtain ⟨per', b1, b2⟩ := h1
    have key : per = per' := by
      clear a2 b2 h2 h3 hm hbad
      induction a1 generalizing per' with
      | nil => cases b1; rfl
      | cons c1 _ ih =>
        cases b1 with
        | cons d1 d2 =>
          obtain ⟨ts, e1, e2⟩ := c1
          obtain ⟨ts', f1, f2⟩ := d1
          rw [e1] at f1; cases f1
          rw [e2] at f2; cases f2
          rw [ih _ d2]
    rw [a2, b2, key]
  subst this
  rcases hbad with hb | hn
  · exact hb h3
  · exact hn ((noDuplicates_iff _).mpr h2.nodup)

/-- A file with a nested scope that shadows a name and exports another: it loads, and
inside the scope `foo` is the inner one. -/
example : ∃ m, Module.loadAsmFile
    [cs!"foo: nop", cs!"{", cs!"foo: nop", cs!"export bar: nop", cs!"}"] = .ok m ∧
    m.globals = [(cs!"foo", 0), (cs!"bar", 3)] ∧ m.localsAt 1 = [(cs!"foo", 2)] ∧
    m.localIndex cs!"foo" [1] = some 2 ∧ m.localIndex cs!"foo" [] = some 0 := by
  refine ⟨_, rfl, ?_⟩
  decide +kernel

example : Module.loadAsmFile [cs!"foo: nop", cs!"foo: nop"] = .err .duplicateLabel := by
  decide +kernel

example : Module.loadAsmFile [cs!"{", cs!"nop"] = .err .unclosedScope := by decide +kernel

end Nsasm.Props
