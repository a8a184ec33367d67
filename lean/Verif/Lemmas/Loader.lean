import Verif.Lemmas.Load

/-! # The loader builds the tables of the specification -/

namespace Nsasm
open Spec

/-- What the loader has built after the program `P`. -/
structure LoadInv (P : Program) (m : Module) : Prop where
  length : m.lines.length = P.length
  line : ∀ i l, m.lines[i]? = some l → (∃ pl, P[i]? = some pl ∧ l.statement = pl.statement) ∧
    l.scopes = openAt P i ∧ l.reached = false ∧ l.value = none
  globals : m.globals = tableOf none (defs P)
  locals : ∀ j, m.localsAt j = tableOf (some j) (defs P)
  nodup : (keys P).Nodup
  fresh : m.owned = .empty ∧ m.addrNames = [] ∧ m.targets = [] ∧ m.conventions = []

theorem loadInv_empty : LoadInv [] Module.empty where
  length := rfl
  line := by intro i l h; simp [Module.empty] at h
  globals := by simp [Module.empty, defs, tableOf]
  locals := by intro j; simp [Module.empty, Module.localsAt, defs, tableOf]
  nodup := by simp [keys, defs]
  fresh := ⟨rfl, rfl, rfl, rfl⟩

theorem localsAt_addLocal (m : Module) (s : Nat) (name : Str) (t j : Nat) (hs : s < m.lines.length) :
    Module.localsAt { m with lines := Module.addLocal m.lines s name t } j =
      if j = s then (m.localsAt j).insertNew name t else m.localsAt j := by
  unfold Module.localsAt Module.addLocal
  simp only [List.getElem?_modify]
  by_cases h : s = j
  · subst h
    rw [List.getElem?_eq_getElem hs]
    simp
  · have h' : ¬ j = s := fun e => h e.symm
    simp only [h, h', if_false]
    cases m.lines[j]? <;> simp

theorem defs_label (P : Program) (done : List ParsedLabel) (l : ParsedLabel) (st : Statement) :
    defs (P ++ [⟨done ++ [l], st⟩]) =
      defs (P ++ [⟨done, st⟩]) ++ [(scopeOf P l P.length, l.name, P.length)] := by
  rw [defs_append, defs_append, List.append_assoc]
  simp [lineDefs]

theorem keys_label (P : Program) (done : List ParsedLabel) (l : ParsedLabel) (st : Statement) :
    keys (P ++ [⟨done ++ [l], st⟩]) =
      keys (P ++ [⟨done, st⟩]) ++ [(scopeOf P l P.length, l.name)] := by
  unfold keys
  rw [defs_label, List.map_append]
  rfl

theorem openAt_last (P : Program) (l : ProgLine) : ∀ i, i ≤ P.length →
    openAt (P ++ [l]) i = openAt P i := openAt_append P [l]

theorem tableOf_single (s s' : Option Nat) (name : Str) (t : Nat) :
    tableOf s [(s', name, t)] = if s' = s then [(name, t)] else [] := by
  unfold tableOf
  by_cases h : s' = s <;> simp [h]

theorem line_label {P : Program} {done : List ParsedLabel} {l : ParsedLabel} {st : Statement}
    {m : Module} (h : LoadInv (P ++ [⟨done, st⟩]) m) {lines : List Line}
    (hl : ∀ (i : Nat) (q : Line), lines[i]? = some q → ∃ q' : Line, m.lines[i]? = some q' ∧ q.statement = q'.statement ∧
      q.scopes = q'.scopes ∧ q.reached = q'.reached ∧ q.value = q'.value) (i : Nat) (q : Line)
    (hq : lines[i]? = some q) :
    (∃ pl, (P ++ [(⟨done ++ [l], st⟩ : ProgLine)])[i]? = some pl ∧ q.statement = pl.statement) ∧
    q.scopes = openAt (P ++ [⟨done ++ [l], st⟩]) i ∧ q.reached = false ∧ q.value = none := by
  obtain ⟨q', h1, h2, h3, h4, h5⟩ := hl i q hq
  obtain ⟨⟨pl, h6, h7⟩, h8, h9, h10⟩ := h.line i q' h1
  have hst : (P ++ [(⟨done ++ [l], st⟩ : ProgLine)]).map (·.statement) =
      (P ++ [(⟨done, st⟩ : ProgLine)]).map (·.statement) := by simp
  refine ⟨?_, by rw [h3, h8, openAt_statements hst], by rw [h4, h9], by rw [h5, h10]⟩
  have : ((P ++ [(⟨done ++ [l], st⟩ : ProgLine)]).map (·.statement))[i]? = some pl.statement := by
    rw [hst, List.getElem?_map, h6]; rfl
  rw [List.getElem?_map] at this
  cases hp : (P ++ [(⟨done ++ [l], st⟩ : ProgLine)])[i]? with
  | none => rw [hp] at this; cases this
  | some pl' =>
    rw [hp] at this
    simp at this
    exact ⟨pl', rfl, by rw [h2, h7, this]⟩

theorem addLabel_spec {P : Program} {done : List ParsedLabel} {st : Statement} {m : Module}
    (h : LoadInv (P ++ [⟨done, st⟩]) m) (l : ParsedLabel) :
    (∃ m', m.addLabel (openAt P P.length) l P.length = .ok m' ∧
      LoadInv (P ++ [⟨done ++ [l], st⟩]) m' ∧ m'.name = m.name) ∨
    (m.addLabel (openAt P P.length) l P.length = .err .duplicateLabel ∧
      ¬ (keys (P ++ [⟨done ++ [l], st⟩])).Nodup) := by
  have hkeys := keys_label P done l st
  have hdefs := defs_label P done l st
  have hnd : (scopeOf P l P.length, l.name) ∉ keys (P ++ [⟨done, st⟩]) →
      (keys (P ++ [⟨done ++ [l], st⟩])).Nodup := by
    intro hn
    rw [hkeys, List.nodup_append]
    exact ⟨h.nodup, by simp, by
      intro a ha b hb hab
      rw [List.mem_singleton] at hb
      subst hab; subst hb; exact hn ha⟩
  have hd : (scopeOf P l P.length, l.name) ∈ keys (P ++ [⟨done, st⟩]) →
      ¬ (keys (P ++ [⟨done ++ [l], st⟩])).Nodup := by
    intro hm hn
    rw [hkeys, List.nodup_append] at hn
    exact hn.2.2 _ hm _ (List.mem_singleton.mpr rfl) rfl
  cases hs : scopeOf P l P.length with
  | none =>
    have hnil : (if l.exported = true then [] else openAt P P.length) = [] := by
      unfold scopeOf at hs
      by_cases he : l.exported = true
      · simp [he]
      · rw [if_neg he] at hs ⊢
        simpa using hs
    unfold Module.addLabel
    rw [hnil]
    simp only
    rw [hs] at hnd hd hdefs
    by_cases hm : (none, l.name) ∈ keys (P ++ [⟨done, st⟩])
    · right
      rw [if_pos (by rw [h.globals]; exact has_tableOf.mpr hm)]
      exact ⟨rfl, hd hm⟩
    · left
      rw [if_neg (by rw [h.globals]; exact fun hh => hm (has_tableOf.mp hh))]
      refine ⟨_, rfl, ⟨by simp [h.length], ?_, ?_, ?_, hnd hm, h.fresh⟩, rfl⟩
      · exact line_label h (fun i q hq => ⟨q, hq, rfl, rfl, rfl, rfl⟩)
      · show m.globals.insertNew l.name P.length = _
        rw [hdefs, tableOf_append, tableOf_single, h.globals]
        rfl
      · intro j
        show m.localsAt j = _
        rw [hdefs, tableOf_append, tableOf_single, h.locals]
        simp
  | some s =>
    have hcons : ∃ rest, (if l.exported = true then [] else openAt P P.length) = s :: rest := by
      unfold scopeOf at hs
      by_cases he : l.exported = true
      · simp [he] at hs
      · rw [if_neg he] at hs ⊢
        cases ho : openAt P P.length with
        | nil => rw [ho] at hs; simp at hs
        | cons a r => rw [ho] at hs; simp at hs; subst hs; exact ⟨r, rfl⟩
    obtain ⟨rest, hcons⟩ := hcons
    have hlt : s < m.lines.length := by
      have hmem : s ∈ openAt P P.length := by
        unfold scopeOf at hs
        split at hs
        · cases hs
        · exact List.mem_of_head? hs
      have := ((mem_openAt (Nat.le_refl _)).mp hmem).1
      rw [h.length]; simp; omega
    unfold Module.addLabel
    rw [hcons]
    simp only
    rw [hs] at hnd hd hdefs
    by_cases hm : (some s, l.name) ∈ keys (P ++ [⟨done, st⟩])
    · right
      rw [if_pos (by rw [h.locals]; exact has_tableOf.mpr hm)]
      exact ⟨rfl, hd hm⟩
    · left
      rw [if_neg (by rw [h.locals]; exact fun hh => hm (has_tableOf.mp hh))]
      refine ⟨_, rfl, ⟨by simp [h.length, Module.addLocal], ?_, ?_, ?_, hnd hm, h.fresh⟩, rfl⟩
      · apply line_label h
        intro i q hq
        unfold Module.addLocal at hq
        rw [List.getElem?_modify] at hq
        cases hml : m.lines[i]? with
        | none => rw [hml] at hq; simp at hq
        | some q' =>
          rw [hml] at hq
          simp only [Option.map_eq_map, Option.map_some, Option.some.injEq] at hq
          refine ⟨q', rfl, ?_⟩
          subst hq
          split <;> simp
      · show m.globals = _
        rw [hdefs, tableOf_append, tableOf_single, h.globals]
        simp
      · intro j
        rw [localsAt_addLocal m s l.name P.length j hlt, hdefs, tableOf_append, tableOf_single,
          h.locals]
        by_cases hj : j = s
        · subst hj; simp [HMap.insertNew]
        · have : ¬ (some s = some j) := fun e => hj (Option.some.inj e).symm
          simp [hj, this]

theorem keys_nodup_of_append {P Q : Program} (h : (keys (P ++ Q)).Nodup) : (keys P).Nodup := by
  rw [← noDuplicates_iff] at h ⊢
  intro s name i n i' n' h1 h2
  refine h s name i n i' n' ?_ ?_
  · rw [definesAt_iff] at h1 ⊢
    obtain ⟨line, l, a1, a2, a3, a4⟩ := h1
    have hi : i < P.length := by
      by_contra hc
      rw [List.getElem?_eq_none (by omega)] at a1
      cases a1
    refine ⟨line, l, by rw [List.getElem?_append_left hi]; exact a1, a2, a3, ?_⟩
    unfold scopeOf at a4 ⊢
    rw [openAt_append P Q i (by omega)]
    exact a4
  · rw [definesAt_iff] at h2 ⊢
    obtain ⟨line, l, a1, a2, a3, a4⟩ := h2
    have hi : i' < P.length := by
      by_contra hc
      rw [List.getElem?_eq_none (by omega)] at a1
      cases a1
    refine ⟨line, l, by rw [List.getElem?_append_left hi]; exact a1, a2, a3, ?_⟩
    unfold scopeOf at a4 ⊢
    rw [openAt_append P Q i' (by omega)]
    exact a4

theorem addLabels_spec {P : Program} {st : Statement} (ls : List ParsedLabel) :
    ∀ (done : List ParsedLabel) (m : Module), LoadInv (P ++ [⟨done, st⟩]) m →
    (∃ m', m.addLabels (openAt P P.length) P.length ls = .ok m' ∧
      LoadInv (P ++ [⟨done ++ ls, st⟩]) m' ∧ m'.name = m.name) ∨
    (m.addLabels (openAt P P.length) P.length ls = .err .duplicateLabel ∧
      ¬ (keys (P ++ [⟨done ++ ls, st⟩])).Nodup) := by
  induction ls with
  | nil =>
    intro done m h
    left
    exact ⟨m, rfl, by simpa using h, rfl⟩
  | cons l ls ih =>
    intro done m h
    rw [Module.addLabels]
    rcases addLabel_spec h l with ⟨m', h1, h2, h3⟩ | ⟨h1, h2⟩
    · rw [h1, Res.bind_ok]
      rcases ih (done ++ [l]) m' h2 with ⟨m'', h4, h5, h6⟩ | ⟨h4, h5⟩
      · left
        exact ⟨m'', h4, by simpa using h5, by rw [h6, h3]⟩
      · right
        exact ⟨h4, by simpa using h5⟩
    · right
      rw [h1]
      refine ⟨rfl, fun hn => h2 ?_⟩
      rw [keys_append, List.map_append, List.map_cons] at hn
      rw [keys_append, List.map_append, List.map_singleton]
      rw [List.nodup_append] at hn ⊢
      refine ⟨hn.1, ?_, ?_⟩
      · exact hn.2.1.sublist (by simp)
      · intro a ha b hb
        refine hn.2.2 a ha b ?_
        simp only [List.mem_append, List.mem_cons, List.not_mem_nil, or_false] at hb ⊢
        tauto

theorem newLine_inv {P : Program} {m : Module} (h : LoadInv P m) (st : Statement)
    (ls : List ParsedLabel) :
    LoadInv (P ++ [⟨[], st⟩])
      { m with lines := m.lines ++ [Module.newLine st ls (openAt P P.length)] } where
  length := by simp [h.length]
  line := by
    intro i l hl
    by_cases hi : i < P.length
    · rw [List.getElem?_append_left (by rw [h.length]; exact hi)] at hl
      obtain ⟨⟨pl, h1, h2⟩, h3, h4⟩ := h.line i l hl
      exact ⟨⟨pl, by rw [List.getElem?_append_left hi]; exact h1, h2⟩,
        by rw [openAt_last _ _ i (by omega)]; exact h3, h4⟩
    · have hi2 : i = P.length := by
        by_contra hc
        rw [List.getElem?_eq_none (by simp [h.length]; omega)] at hl
        cases hl
      subst hi2
      rw [List.getElem?_append_right (by rw [h.length]; exact Nat.le_refl _), h.length, Nat.sub_self] at hl
      cases hl
      exact ⟨⟨⟨[], st⟩, by simp, rfl⟩, by rw [openAt_last _ _ _ (Nat.le_refl _)]; rfl, rfl, rfl⟩
  globals := by
    show m.globals = _
    rw [defs_append, h.globals]; simp [lineDefs]
  locals := by
    intro j
    have : defs (P ++ [⟨[], st⟩]) = defs P := by rw [defs_append]; simp [lineDefs]
    rw [this, ← h.locals]
    unfold Module.localsAt
    by_cases hj : j < m.lines.length
    · simp only [List.getElem?_append_left hj]
    · rw [List.getElem?_eq_none (l := m.lines) (by omega)]
      by_cases hj2 : j = m.lines.length
      · subst hj2; simp [Module.newLine]
      · rw [List.getElem?_eq_none (by simp; omega)]
  nodup := by rw [keys_append]; simpa using h.nodup
  fresh := h.fresh

/-- The scopes after one more statement. -/
theorem openAt_snoc (P : Program) (l : ProgLine) :
    openAt (P ++ [l]) (P.length + 1) =
      if IsDirective .begin_ l then P.length :: openAt P P.length
      else if IsDirective .end_ l then (openAt P P.length).tail
      else openAt P P.length := by
  rw [openAt, List.getElem?_concat_length, openAt_last _ _ _ (Nat.le_refl _)]

/-- No `.end` without an open scope. -/
def NoUnderflow (P : Program) : Prop :=
  ∀ (i : Nat) (l : ProgLine), P[i]? = some l → IsDirective .end_ l = true → openAt P i ≠ []

theorem noUnderflow_append {P Q : Program} (h : NoUnderflow (P ++ Q)) : NoUnderflow P := by
  intro i l hl he
  have hi : i < P.length := by
    by_contra hc
    rw [List.getElem?_eq_none (by omega)] at hl
    cases hl
  have := h i l (by rw [List.getElem?_append_left hi]; exact hl) he
  rwa [openAt_append P Q i (by omega)] at this

theorem noUnderflow_snoc {P : Program} {l : ProgLine} (h : NoUnderflow P)
    (hl : IsDirective .end_ l = true → openAt P P.length ≠ []) : NoUnderflow (P ++ [l]) := by
  intro i q hq he
  by_cases hi : i < P.length
  · rw [openAt_append P [l] i (by omega)]
    rw [List.getElem?_append_left hi] at hq
    exact h i q hq he
  · have hi2 : i = P.length := by
      by_contra hc
      rw [List.getElem?_eq_none (by simp; omega)] at hq
      cases hq
    subst hi2
    rw [List.getElem?_concat_length] at hq
    cases hq
    rw [openAt_last _ _ _ (Nat.le_refl _)]
    exact hl he

theorem level_openAt {P : Program} (h : NoUnderflow P) : ∀ i, i ≤ P.length →
    level P i = (openAt P i).length := by
  intro i
  induction i with
  | zero => intro _; simp [level, openAt]
  | succ i ih =>
    intro hi
    obtain ⟨l, hl⟩ : ∃ l, P[i]? = some l := ⟨P[i]'(by omega), by simp⟩
    have hlev := level_succ P i l hl
    rw [openAt, hl]
    simp only
    rw [hlev, ih (by omega)]
    by_cases hb : IsDirective .begin_ l = true
    · simp [hb, begin_not_end hb]
    · by_cases he : IsDirective .end_ l = true
      · have := h i l hl he
        cases ho : openAt P i with
        | nil => exact absurd ho this
        | cons a r => simp [hb, he]
      · simp [hb, he]

theorem balanced_iff (P : Program) : Balanced P ↔ NoUnderflow P ∧ openAt P P.length = [] := by
  constructor
  · rintro ⟨h1, h2⟩
    have hn : NoUnderflow P := by
      have key : ∀ i, i ≤ P.length → NoUnderflow (P.take i) := by
        intro i
        induction i with
        | zero => intro _ k l hl; simp at hl
        | succ i ih =>
          intro hi
          obtain ⟨l, hl⟩ : ∃ l, P[i]? = some l := ⟨P[i]'(by omega), by simp⟩
          have ih := ih (by omega)
          have hlen : (P.take i).length = i := by rw [List.length_take]; omega
          rw [List.take_add_one, hl]
          refine noUnderflow_snoc ih ?_
          intro he ho
          have h3 := level_openAt ih i (by omega)
          rw [hlen] at ho
          rw [ho] at h3
          have h4 : level (P.take i) i = level P i := by
            unfold level; rw [List.take_take, Nat.min_self]
          have h5 := h1 (i + 1) hi
          rw [level_succ P i l hl, ← h4, h3] at h5
          have hb : IsDirective .begin_ l = false := by
            by_contra hb
            rw [begin_not_end (by simpa using hb)] at he
            cases he
          simp [hb, he] at h5
      have := key P.length (Nat.le_refl _)
      rwa [List.take_length] at this
    refine ⟨hn, ?_⟩
    have := level_openAt hn P.length (Nat.le_refl _)
    rw [h2] at this
    exact List.length_eq_zero_iff.mp (by omega)
  · rintro ⟨h1, h2⟩
    refine ⟨fun i hi => ?_, ?_⟩
    · rw [level_openAt h1 i hi]; omega
    · rw [level_openAt h1 _ (Nat.le_refl _), h2]; rfl

/-- Number of `.module` directives. -/
def moduleCount (P : Program) : Nat := (P.filter (IsDirective .module_)).length

/-- The state of the loader between two statements. -/
structure LoadState (P : Program) (ld : Module.Loading) : Prop where
  inv : LoadInv P ld.m
  scopes : ld.scopes = openAt P P.length
  under : NoUnderflow P
  name : moduleCount P = 0 → ld.m.name = []

theorem loadState_empty : LoadState [] ⟨Module.empty, [], []⟩ :=
  ⟨loadInv_empty, rfl, by intro i l h; simp at h, fun _ => rfl⟩

theorem loadInv_name {P : Program} {m : Module} (h : LoadInv P m) (name : Str) :
    LoadInv P { m with name := name } :=
  ⟨h.length, h.line, h.globals, h.locals, h.nodup, h.fresh⟩

theorem moduleCount_append (P Q : Program) : moduleCount (P ++ Q) = moduleCount P + moduleCount Q := by
  simp [moduleCount]

theorem isDirective_dir (ls : List ParsedLabel) (d : Directive) (n : DirectiveName) :
    IsDirective n ⟨ls, .dir d⟩ = decide (d.name = n) := rfl

theorem loadDirective_spec {P : Program} {ls : List ParsedLabel} {d : Directive} {m : Module}
    (h : LoadInv (P ++ [⟨ls, .dir d⟩]) m) (hu : NoUnderflow P)
    (hn : moduleCount P = 0 → m.name = []) :
    (∃ ld, Module.loadDirective ⟨m, [], openAt P P.length⟩ P.length d = .ok ld ∧
      LoadState (P ++ [⟨ls, .dir d⟩]) ld ∧ ld.pending = []) ∨
    (∃ e, Module.loadDirective ⟨m, [], openAt P P.length⟩ P.length d = .err e ∧
      (NoUnderflow (P ++ [⟨ls, .dir d⟩]) → moduleCount (P ++ [⟨ls, .dir d⟩]) ≤ 1 →
        d.name = .module_ ∧ d.argument.simpleIdentifier = none)) := by
  have hopen := openAt_snoc P ⟨ls, .dir d⟩
  rw [isDirective_dir, isDirective_dir] at hopen
  have hlen : (P ++ [(⟨ls, .dir d⟩ : ProgLine)]).length = P.length + 1 := by simp
  have hcount : moduleCount (P ++ [(⟨ls, .dir d⟩ : ProgLine)]) =
      moduleCount P + if d.name = .module_ then 1 else 0 := by
    rw [moduleCount_append]
    congr 1
    simp only [moduleCount, List.filter_cons, isDirective_dir, List.filter_nil]
    by_cases h : d.name = .module_ <;> simp [h]
  unfold Module.loadDirective
  by_cases h1 : d.name = .module_
  · rw [if_pos h1]
    simp only
    rw [if_pos h1] at hcount
    by_cases h2 : m.name = []
    · rw [if_neg (by simp [h2])]
      cases hsi : d.argument.simpleIdentifier with
      | none =>
        right
        exact ⟨_, rfl, fun _ _ => ⟨h1, rfl⟩⟩
      | some id =>
        left
        refine ⟨_, rfl, ⟨loadInv_name h id, ?_, ?_, ?_⟩, rfl⟩
        · rw [hlen, hopen]; simp [h1]
        · exact noUnderflow_snoc hu (by rw [isDirective_dir]; simp [h1])
        · rw [hcount]; intro hh; omega
    · rw [if_pos (by simp [h2])]
      right
      refine ⟨_, rfl, ?_⟩
      intro _ hc
      rw [hcount] at hc
      exact absurd (hn (by omega)) h2
  · rw [if_neg h1]
    rw [if_neg h1] at hcount
    by_cases h2 : d.name = .begin_
    · rw [if_pos h2]
      left
      refine ⟨_, rfl, ⟨h, ?_, ?_, ?_⟩, rfl⟩
      · rw [hlen, hopen]; simp [h2]
      · exact noUnderflow_snoc hu (by rw [isDirective_dir]; simp [h2])
      · rw [hcount]; simpa using hn
    · rw [if_neg h2]
      by_cases h3 : d.name = .end_
      · rw [if_pos h3]
        simp only
        cases ho : openAt P P.length with
        | nil =>
          right
          refine ⟨_, rfl, ?_⟩
          intro hb
          have := hb P.length ⟨ls, .dir d⟩ (by simp) (by rw [isDirective_dir]; simp [h3])
          rw [openAt_last _ _ _ (Nat.le_refl _), ho] at this
          exact absurd rfl this
        | cons a r =>
          left
          refine ⟨_, rfl, ⟨h, ?_, ?_, ?_⟩, rfl⟩
          · rw [hlen, hopen, ho]; simp [h3]
          · exact noUnderflow_snoc hu (by rw [ho]; simp)
          · rw [hcount]; simpa using hn
      · rw [if_neg h3]
        left
        refine ⟨_, rfl, ⟨h, ?_, ?_, ?_⟩, rfl⟩
        · rw [hlen, hopen]; simp [h2, h3]
        · exact noUnderflow_snoc hu (by rw [isDirective_dir]; simp [h3])
        · rw [hcount]; simpa using hn

/-- What is needed for a program to load. -/
structure Loads (P : Program) : Prop where
  nodup : (keys P).Nodup
  under : NoUnderflow P
  count : moduleCount P ≤ 1
  named : ∀ l ∈ P, ∀ d, l.statement = .dir d → d.name = .module_ → d.argument.simpleIdentifier.isSome

theorem loads_append {P Q : Program} (h : Loads (P ++ Q)) : Loads P :=
  ⟨keys_nodup_of_append h.nodup, noUnderflow_append h.under,
    by have := h.count; rw [moduleCount_append] at this; omega,
    fun l hl => h.named l (List.mem_append_left _ hl)⟩

theorem loadStatement_spec {P : Program} {ld : Module.Loading} (h : LoadState P ld) (st : Statement) :
    (∃ ld', Module.loadStatement ld st = .ok ld' ∧ LoadState (P ++ [⟨ld.pending, st⟩]) ld' ∧
      ld'.pending = []) ∨
    (∃ e, Module.loadStatement ld st = .err e ∧ ¬ Loads (P ++ [⟨ld.pending, st⟩])) := by
  unfold Module.loadStatement
  have hinv := newLine_inv h.inv st ld.pending
  rw [h.scopes, h.inv.length]
  simp only
  rcases addLabels_spec (P := P) (st := st) ld.pending [] _ hinv with ⟨m', h1, h2, h3⟩ | ⟨h1, h2⟩
  · rw [h1, Res.bind_ok]
    rw [List.nil_append] at h2
    cases st with
    | instr i =>
      left
      refine ⟨_, rfl, ⟨h2, ?_, ?_, ?_⟩, rfl⟩
      · have hopen := openAt_snoc P ⟨ld.pending, .instr i⟩
        rw [List.length_append, List.length_singleton, hopen]
        simp [IsDirective]
      · exact noUnderflow_snoc h.under (by simp [IsDirective])
      · rw [moduleCount_append, h3]
        intro hc
        exact h.name (by omega)
    | dir d =>
      simp only
      rcases loadDirective_spec h2 h.under (by rw [h3]; exact h.name) with ⟨ld', a1, a2, a3⟩ | ⟨e, a1, a2⟩
      · exact .inl ⟨ld', a1, a2, a3⟩
      · refine .inr ⟨e, a1, fun hl => ?_⟩
        obtain ⟨b1, b2⟩ := a2 hl.under hl.count
        have := hl.named ⟨ld.pending, .dir d⟩ (by simp) d rfl b1
        rw [b2] at this
        cases this
  · right
    rw [h1]
    exact ⟨_, rfl, fun hl => h2 hl.nodup⟩

theorem loadItems_spec (items : List Item) : ∀ (P : Program) (ld : Module.Loading), LoadState P ld →
    (∃ ld', Module.loadItems ld items = .ok ld' ∧
      LoadState (P ++ program ld.pending items) ld') ∨
    (∃ e, Module.loadItems ld items = .err e ∧ ¬ Loads (P ++ program ld.pending items)) := by
  induction items with
  | nil =>
    intro P ld h
    left
    exact ⟨ld, rfl, by rw [program, List.append_nil]; exact h⟩
  | cons it items ih =>
    intro P ld h
    cases it with
    | label l =>
      rw [Module.loadItems, program]
      exact ih P { ld with pending := ld.pending ++ [l] } ⟨h.inv, h.scopes, h.under, h.name⟩
    | stmt st =>
      rw [Module.loadItems, program]
      rcases loadStatement_spec h st with ⟨ld', h1, h2, h3⟩ | ⟨e, h1, h2⟩
      · rw [h1, Res.bind_ok]
        have := ih _ ld' h2
        rw [h3, List.append_assoc, List.singleton_append] at this
        exact this
      · right
        rw [h1]
        refine ⟨e, rfl, fun hl => h2 ?_⟩
        rw [← List.singleton_append, ← List.append_assoc] at hl
        exact loads_append hl

theorem loadItems_append (xs ys : List Item) : ∀ ld : Module.Loading,
    Module.loadItems ld (xs ++ ys) = (Module.loadItems ld xs >>= fun ld => Module.loadItems ld ys) := by
  induction xs with
  | nil => intro ld; rfl
  | cons it xs ih =>
    intro ld
    cases it with
    | label l => rw [List.cons_append, Module.loadItems, Module.loadItems, ih]
    | stmt st =>
      rw [List.cons_append, Module.loadItems, Module.loadItems]
      cases Module.loadStatement ld st <;> simp [ih]

theorem loadLines_ok (file : List Str) : ∀ (ld ld' : Module.Loading),
    Module.loadLines ld file = .ok ld' ↔
      ∃ items, FileItems file items ∧ Module.loadItems ld items = .ok ld' := by
  induction file with
  | nil =>
    intro ld ld'
    constructor
    · intro h
      exact ⟨[], ⟨[], .nil, rfl⟩, h⟩
    · rintro ⟨items, ⟨per, h1, h2⟩, h3⟩
      cases h1
      subst h2
      exact h3
  | cons line file ih =>
    intro ld ld'
    rw [Module.loadLines]
    constructor
    · intro h
      replace h := Res.bind_eq_ok.mp h
      obtain ⟨ts, h1, h⟩ := h
      replace h := Res.bind_eq_ok.mp h
      obtain ⟨its, h2, h⟩ := h
      replace h := Res.bind_eq_ok.mp h
      obtain ⟨ld1, h3, h⟩ := h
      obtain ⟨items, ⟨per, h4, h5⟩, h6⟩ := (ih ld1 ld').mp h
      refine ⟨its ++ items, ⟨its :: per, .cons ⟨ts, h1, h2⟩ h4, by simp [h5]⟩, ?_⟩
      rw [loadItems_append, h3, Res.bind_ok, h6]
    · rintro ⟨items, ⟨per, h4, h5⟩, h6⟩
      cases h4 with
      | cons h7 h8 =>
        obtain ⟨ts, h1, h2⟩ := h7
        rw [h1, Res.bind_ok, h2, Res.bind_ok]
        rw [List.flatten_cons] at h5
        subst h5
        rw [loadItems_append] at h6
        replace h6 := Res.bind_eq_ok.mp h6
        obtain ⟨ld1, h3, h6⟩ := h6
        rw [h3, Res.bind_ok]
        exact (ih ld1 ld').mpr ⟨_, ⟨_, h8, rfl⟩, h6⟩

theorem localIndex_congr {m m' : Module} (hg : m.globals = m'.globals)
    (hl : ∀ j, m.localsAt j = m'.localsAt j) (name : Str) (scopes : List Nat) :
    m.localIndex name scopes = m'.localIndex name scopes := by
  induction scopes with
  | nil => simp only [Module.localIndex, hg]
  | cons s r ih => simp only [Module.localIndex, hl, ih]

theorem isLocal_congr {m m' : Module} (hn : m.name = m'.name) (hg : m.globals = m'.globals)
    (hl : ∀ j, m.localsAt j = m'.localsAt j) (scopes : List Nat) :
    m.isLocal scopes = m'.isLocal scopes := by
  funext id
  unfold Module.isLocal
  rw [hn, localIndex_congr hg hl, localIndex_congr hg hl]

theorem dependencies_deps (m : Module) (d : List FullId) :
    { m with deps := d }.dependencies = m.dependencies := by
  unfold Module.dependencies
  apply List.flatMap_congr
  intro l _
  rw [isLocal_congr (m := { m with deps := d }) (m' := m) rfl rfl (fun _ => rfl)]

theorem loadAsmFile_ok {file : List Str} {m : Module} (h : Module.loadAsmFile file = .ok m) :
    ∃ items, FileItems file items ∧ LoadInv (program [] items) m ∧ Balanced (program [] items) ∧
      m.deps = m.dependencies := by
  unfold Module.loadAsmFile at h
  replace h := Res.bind_eq_ok.mp h
  obtain ⟨ld, h1, h⟩ := h
  obtain ⟨items, h2, h3⟩ := (loadLines_ok file _ ld).mp h1
  refine ⟨items, h2, ?_⟩
  rcases loadItems_spec items [] _ loadState_empty with ⟨ld', h4, h5⟩ | ⟨e, h4, -⟩
  · rw [h3] at h4
    cases h4
    rw [List.nil_append] at h5
    unfold Module.finishLoad at h
    cases hs : ld.scopes with
    | cons a r => rw [hs] at h; cases h
    | nil =>
      rw [hs] at h
      cases h
      refine ⟨⟨h5.inv.length, h5.inv.line, h5.inv.globals, h5.inv.locals, h5.inv.nodup, h5.inv.fresh⟩,
        ?_, (dependencies_deps _ _).symm⟩
      rw [balanced_iff]
      exact ⟨h5.under, by rw [← h5.scopes]; exact hs⟩
  · rw [h3] at h4; cases h4

theorem loadAsmFile_accepts {file : List Str} {items : List Item} (h : FileItems file items)
    (hb : Balanced (program [] items)) (hn : NoDuplicates (program [] items))
    (hm : OneModuleName (program [] items)) : ∃ m, Module.loadAsmFile file = .ok m := by
  rw [balanced_iff] at hb
  rw [noDuplicates_iff] at hn
  unfold Module.loadAsmFile
  rcases loadItems_spec items [] _ loadState_empty with ⟨ld, h4, h5⟩ | ⟨e, h4, h5⟩
  · rw [(loadLines_ok file _ ld).mpr ⟨items, h, h4⟩, Res.bind_ok]
    unfold Module.finishLoad
    rw [List.nil_append] at h5
    rw [h5.scopes, hb.2]
    exact ⟨_, rfl⟩
  · exact absurd ⟨hn, hb.1, hm.1, hm.2⟩ h5

end Nsasm
