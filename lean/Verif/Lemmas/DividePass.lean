import Verif.Lemmas.Divide

/-! # Facts about a file divided in two: passes and writes -/

namespace Nsasm.Joined
open Spec Props

/-! ## The first pass -/

theorem seeds_keeps : ∀ (B : List Line) (i : Nat) (w : OMap ExecutionState), ∀ e ∈ w, ∃ x, (e.1, x) ∈ Module.seeds w i B
  | [], i, w, e, he => ⟨e.2, he⟩
  | l :: B, i, w, e, he => by
    unfold Module.seeds
    split
    · split
      · obtain ⟨x, hx⟩ := (upsert_keys _ _ _ _).2 e he
        exact seeds_keeps B _ _ (e.1, x) hx
      · exact seeds_keeps B _ _ e he
    · exact seeds_keeps B _ _ e he

theorem seeds_below : ∀ (A : List Line) (i n : Nat) (w : OMap ExecutionState), Below n w → i + A.length < n →
    Below n (Module.seeds w i A)
  | [], i, n, w, h, _ => h
  | l :: A, i, n, w, h, hn => by
    rw [List.length_cons] at hn
    unfold Module.seeds
    split
    · split
      · exact seeds_below A _ _ _ (below_of_add (by omega) h) (by omega)
      · exact seeds_below A _ _ _ h (by omega)
    · exact seeds_below A _ _ _ h (by omega)

theorem fixLines_split : ∀ {A B C : List Line}, Module.fixLines (A ++ B) = .ok C →
    ∃ A' B', Module.fixLines A = .ok A' ∧ Module.fixLines B = .ok B' ∧ C = A' ++ B'
  | [], B, C, h => ⟨[], C, rfl, h, rfl⟩
  | l :: A, B, C, h => by
    simp only [List.cons_append, Module.fixLines] at h ⊢
    split at h
    · obtain ⟨x, h1, h⟩ := Res.bind_eq_ok.mp h
      cases h
      obtain ⟨A', B', k1, k2, rfl⟩ := fixLines_split h1
      exact ⟨_, B', Res.bind_eq_ok.mpr ⟨_, k1, rfl⟩, k2, rfl⟩
    · split at h
      · cases h
      · next hr =>
        obtain ⟨i, h0, h⟩ := Res.bind_eq_ok.mp h
        obtain ⟨x, h1, h⟩ := Res.bind_eq_ok.mp h
        cases h
        obtain ⟨A', B', k1, k2, rfl⟩ := fixLines_split h1
        rw [if_neg hr]
        exact ⟨_, B', Res.bind_eq_ok.mpr ⟨i, h0, Res.bind_eq_ok.mpr ⟨_, k1, rfl⟩⟩, k2, rfl⟩

theorem fixLines_unmove {n : Nat} : ∀ {B C : List Line}, Module.fixLines (B.map (moveLine n)) = .ok C →
    ∃ B', Module.fixLines B = .ok B' ∧ C = B'.map (moveLine n)
  | [], C, h => by cases h; exact ⟨[], rfl, rfl⟩
  | l :: B, C, h => by
    simp only [List.map_cons, Module.fixLines, moveLine] at h ⊢
    cases hst : l.statement with
    | dir d =>
      rw [hst] at h
      obtain ⟨x, h1, h⟩ := Res.bind_eq_ok.mp h
      obtain ⟨B', k1, rfl⟩ := fixLines_unmove h1
      cases h
      exact ⟨_, Res.bind_eq_ok.mpr ⟨_, k1, rfl⟩, by rw [List.map_cons, ← hst]; rfl⟩
    | instr i =>
      rw [hst] at h
      simp only at h ⊢
      split at h
      · cases h
      · next hr =>
        rw [if_neg hr]
        obtain ⟨i, h0, h⟩ := Res.bind_eq_ok.mp h
        obtain ⟨x, h1, h⟩ := Res.bind_eq_ok.mp h
        obtain ⟨B', k1, rfl⟩ := fixLines_unmove h1
        cases h
        exact ⟨_, Res.bind_eq_ok.mpr ⟨i, h0, Res.bind_eq_ok.mpr ⟨_, k1, rfl⟩⟩, rfl⟩

theorem layout_split : ∀ {A B C : List Line} {pc : Option Addr}, Module.layout pc (A ++ B) = .ok C →
    ∃ A' pc' B', Module.layout pc A = .ok A' ∧ Module.layout pc' B = .ok B' ∧ C = A' ++ B'
  | [], B, C, pc, h => ⟨[], pc, C, rfl, h, rfl⟩
  | l :: A, B, C, pc, h => by
    rw [List.cons_append] at h
    unfold Module.layout at h
    obtain ⟨o, h1, h⟩ := Res.bind_eq_ok.mp h
    cases o with
    | none =>
      simp only at h
      split at h
      · cases h
      · next hs =>
        obtain ⟨x, h2, h⟩ := Res.bind_eq_ok.mp h
        cases h
        obtain ⟨A', pc', B', k1, k2, rfl⟩ := layout_split h2
        refine ⟨_ :: A', pc', B', ?_, k2, rfl⟩
        unfold Module.layout
        refine Res.bind_eq_ok.mpr ⟨_, h1, ?_⟩
        simp only
        rw [if_neg hs]
        exact Res.bind_eq_ok.mpr ⟨_, k1, rfl⟩
    | some a =>
      simp only at h
      obtain ⟨x, h2, h⟩ := Res.bind_eq_ok.mp h
      cases h
      obtain ⟨A', pc', B', k1, k2, rfl⟩ := layout_split h2
      refine ⟨_ :: A', pc', B', ?_, k2, rfl⟩
      unfold Module.layout
      exact Res.bind_eq_ok.mpr ⟨_, h1, Res.bind_eq_ok.mpr ⟨_, k1, rfl⟩⟩

theorem layout_unmove {n : Nat} : ∀ {B C : List Line} {pc : Option Addr}, Module.layout pc (B.map (moveLine n)) = .ok C →
    ∃ B', Module.layout pc B = .ok B' ∧ C = B'.map (moveLine n)
  | [], C, pc, h => by cases h; exact ⟨[], rfl, rfl⟩
  | l :: B, C, pc, h => by
    rw [List.map_cons] at h
    have h0 := h
    unfold Module.layout at h
    obtain ⟨o, h1, h⟩ := Res.bind_eq_ok.mp h
    have key : ∃ B', Module.layout pc (l :: B) = .ok B' := by
      unfold Module.layout
      cases o with
      | none =>
        simp only at h
        split at h
        · cases h
        · next hs =>
          obtain ⟨x, h2, h⟩ := Res.bind_eq_ok.mp h
          obtain ⟨B', k1, -⟩ := layout_unmove h2
          refine ⟨l :: B', Res.bind_eq_ok.mpr ⟨none, h1, ?_⟩⟩
          simp only
          rw [if_neg (by exact hs)]
          exact Res.bind_eq_ok.mpr ⟨_, k1, rfl⟩
      | some a =>
        simp only at h
        obtain ⟨x, h2, h⟩ := Res.bind_eq_ok.mp h
        obtain ⟨B', k1, -⟩ := layout_unmove h2
        exact ⟨_, Res.bind_eq_ok.mpr ⟨some a, h1, Res.bind_eq_ok.mpr ⟨_, k1, rfl⟩⟩⟩
    obtain ⟨B', hB⟩ := key
    have := layout_move (n := n) hB
    rw [List.map_cons, h0] at this
    cases this
    exact ⟨B', hB, rfl⟩

/-- The line is an `.org`. -/
def IsOrg (l : Line) : Prop := ∃ d : Directive, l.statement = .dir d ∧ d.name = .org

theorem layout_org {l : Line} (hl : IsOrg l) (B : List Line) (pc pc' : Option Addr) :
    Module.layout pc (l :: B) = Module.layout pc' (l :: B) := by
  obtain ⟨d, hst, hd⟩ := hl
  have e : Module.originAt pc l.statement = Module.originAt pc' l.statement := by
    unfold Module.originAt
    rw [hst]
    simp only [hd, if_true]
  unfold Module.layout
  rw [e]

theorem wall_org {l : Line} (hr : l.reached = false) (hl : IsOrg l) : Wall l := by
  obtain ⟨d, hst, hd⟩ := hl
  refine ⟨hr, fun s nx h => ?_⟩
  rw [hst] at h
  simp only [Statement.execute, Directive.execute, hd] at h
  simp at h

theorem bare_org {l l' : Line} (h : l'.statement = l.statement) (hl : IsOrg l) : IsOrg l' := by
  obtain ⟨d, h1, h2⟩ := hl
  exact ⟨d, h.trans h1, h2⟩

theorem first_divide {f : Nat} {a b m₁ : Module} (h : (join a b).runFirstPass f = .ok m₁) (hT : Exact a b (join a b))
    (hr : ∀ l ∈ b.lines, l.reached = false) {l₀ : Line} {L : List Line} (hb : b.lines = l₀ :: L) (hl₀ : IsOrg l₀)
    (h1 : BranchesTo id id a (join a b) a.lines)
    (h2 : BranchesTo (List.map (· + a.lines.length)) (Option.map (· + a.lines.length)) b (join a b) b.lines) :
    ∃ a₁ b₁, a.runFirstPass f = .ok a₁ ∧ b.runFirstPass f = .ok b₁ ∧ Exact a₁ b₁ m₁ := by
  obtain ⟨q, zs, zs', q1, q2, q3, rfl⟩ := firstPass_parts h
  have hw₀ : Wall (moveLine a.lines.length l₀) := wall_org (hr l₀ (by rw [hb]; simp)) (bare_org rfl hl₀)
  have hlines : (join a b).lines = a.lines ++ moveLine a.lines.length l₀ :: L.map (moveLine a.lines.length) := by
    rw [hT.exact, hb]; rfl
  have hseed₀ : Module.seeds [] 0 (join a b).lines =
      Module.seeds (Module.seeds [] 0 a.lines) a.lines.length (b.lines.map (moveLine a.lines.length)) := by
    rw [hT.exact, seeds_append, Nat.zero_add]
  have hbel : Below a.lines.length (Module.seeds [] 0 a.lines) := by
    intro e he
    have k1 := seeds_below a.lines 0 (a.lines.length + 1) [] (by intro e he; cases he) (by omega) e he
    obtain ⟨x, hx⟩ := seeds_keeps (b.lines.map (moveLine a.lines.length)) a.lines.length _ e he
    have k2 := explore_wall (n := a.lines.length) q1 ⟨_, by
      rw [hlines, List.getElem?_append_right (by omega), Nat.sub_self]; rfl, hw₀⟩ (e.1, x)
      (by rw [hseed₀]; exact hx)
    simp only at k2
    omega
  have hseed : Module.seeds [] 0 (join a b).lines =
      Module.seeds [] 0 a.lines ++ moveWork a.lines.length (Module.seeds [] 0 b.lines) := by
    have := seeds_second (n := a.lines.length) hbel b.lines 0 []
    rw [← this, hseed₀, Nat.zero_add]
    simp [moveWork]
  rw [hseed, hlines] at q1
  obtain ⟨r, j, e1, e2, e3, e4⟩ := explore_back (a := a) (m := join a b) (p := ⟨a.lines, Module.seeds [] 0 a.lines⟩)
    hT.inside (fun e he => by
      obtain ⟨x, -, rfl⟩ := List.mem_map.1 he
      exact Nat.le_add_left _ _) hw₀ rfl hbel h1 q1
  have e5 : moveLine a.lines.length l₀ :: L.map (moveLine a.lines.length) = b.lines.map (moveLine r.lines.length) := by
    rw [e2, hb]; rfl
  rw [e5, ← e2] at e4
  obtain ⟨s, e6, rfl⟩ := explore_back_second (b := b) (p := ⟨b.lines, Module.seeds [] 0 b.lines⟩) (by rw [e2]; exact h2) e4
  have e7 : b.explore f ⟨b.lines, Module.seeds [] 0 b.lines⟩ = .ok s := by
    have := explore_more e6 (f - j)
    rwa [show j + (f - j) = f by omega] at this
  simp only at q2
  obtain ⟨xs, ys', f1, f2, rfl⟩ := fixLines_split q2
  obtain ⟨ys, f3, rfl⟩ := fixLines_unmove f2
  obtain ⟨xs', pc', Z, g1, g2, rfl⟩ := layout_split q3
  have horg : ∃ y Y, ys = y :: Y ∧ IsOrg y := by
    have k1 : ∃ y Y, s.lines = y :: Y ∧ IsOrg y := by
      cases hs : s.lines with
      | nil =>
        have hlen := congrArg List.length (explored_same e7)
        simp [hs, hb] at hlen
      | cons y Y =>
        obtain ⟨l', hl', hbare⟩ := getElem?_bare (explored_same e7) (k := 0) (by rw [hs]; rfl)
        rw [hb] at hl'
        cases hl'
        exact ⟨y, Y, rfl, bare_org (bare_fields hbare).1 hl₀⟩
    obtain ⟨y, Y, k1, d, k2, k3⟩ := k1
    rw [k1] at f3
    unfold Module.fixLines at f3
    rw [k2] at f3
    obtain ⟨x, -, f3⟩ := Res.bind_eq_ok.mp f3
    cases f3
    exact ⟨y, x, rfl, d, k2, k3⟩
  obtain ⟨y, Y, rfl, hy⟩ := horg
  have g3 : Module.layout none ((y :: Y).map (moveLine r.lines.length)) = .ok Z := by
    rw [← g2, List.map_cons]
    exact layout_org (bare_org (l' := moveLine r.lines.length y) rfl hy) _ _ _
  obtain ⟨ys', g4, rfl⟩ := layout_unmove g3
  refine ⟨{ a with lines := xs' }, { b with lines := ys' }, ?_, ?_, ?_⟩
  · unfold Module.runFirstPass
    exact Res.bind_eq_ok.mpr ⟨r, e1, Res.bind_eq_ok.mpr ⟨xs, f1, Res.bind_eq_ok.mpr ⟨xs', g1, rfl⟩⟩⟩
  · unfold Module.runFirstPass
    exact Res.bind_eq_ok.mpr ⟨s, e7, Res.bind_eq_ok.mpr ⟨_, f3, Res.bind_eq_ok.mpr ⟨ys', g4, rfl⟩⟩⟩
  · have hl1 : xs.length = r.lines.length := (fixLines_rel f1).length_eq.symm
    have hl2 : xs'.length = xs.length := (layout_rel g1).length_eq.symm
    have hl : xs'.length = a.lines.length := by omega
    refine ⟨⟨rfl, hT.same, ?_, ⟨_, rfl, ?_⟩, ?_, hT.apart⟩, ?_, ?_⟩
    · change _ = a.globals ++ moveNames xs'.length b.globals
      rw [hl]; rfl
    · rw [List.forall₂_map_right_iff]
      change List.Forall₂ (fun l l' => Ahead xs'.length l (moveLine r.lines.length l')) ys' ys'
      rw [hl, ← e2]
      exact List.forall₂_same.2 fun l _ => ahead_move _ l
    · change ∀ l ∈ xs', ∀ s ∈ l.scopes, s < xs'.length
      rw [hl]
      intro l hl
      have h3 := fixed_fields (P := fun sc _ => ∀ s ∈ sc, s < a.lines.length) (fixLines_rel f1)
        (explored_fields (P := fun sc _ => ∀ s ∈ sc, s < a.lines.length) e1 hT.scopes)
      obtain ⟨i, hi⟩ := List.mem_iff_getElem?.1 hl
      obtain ⟨l₀, hl₀, hr⟩ := forall2_getElem? (layout_rel g1) hi
      rw [hr]
      exact h3 l₀ (List.mem_of_getElem? hl₀)
    · change _ = xs' ++ ys'.map (moveLine xs'.length)
      rw [hl, ← e2]
    · intro name scopes i hi
      change i < xs'.length
      rw [hl]
      have hfp : a.runFirstPass f = .ok { a with lines := xs' } := by
        unfold Module.runFirstPass
        exact Res.bind_eq_ok.mpr ⟨r, e1, Res.bind_eq_ok.mpr ⟨xs, f1, Res.bind_eq_ok.mpr ⟨xs', g1, rfl⟩⟩⟩
      rw [firstPass_localIndex hfp] at hi
      exact hT.inside _ _ _ hi

/-! ## The second pass -/

theorem localLookup_back_first {a b m : Module} (h : Exact a b m) {i : Nat} {v : Int} (hi : i < a.lines.length)
    (hv : m.localLookup i = .ok v) : a.localLookup i = .ok v := by
  unfold Module.localLookup at hv ⊢
  rw [h.exact, List.getElem?_append_left hi] at hv
  exact hv

theorem localLookup_back_second {a b m : Module} (h : Exact a b m) {i : Nat} {v : Int}
    (hv : m.localLookup (i + a.lines.length) = .ok v) : b.localLookup i = .ok v := by
  unfold Module.localLookup at hv ⊢
  rw [h.exact, List.getElem?_append_right (by omega), Nat.add_sub_cancel, List.getElem?_map] at hv
  cases hb : b.lines[i]? with
  | none => rw [hb] at hv; cases hv
  | some l => rw [hb] at hv; exact hv

/-- Names that have values in the module have them for others. -/
def Offered (E : Ctx) (m : Module) : Prop :=
  ∀ name j v, HMap.find m.globals name = some j → m.localLookup j = .ok v → E ⟨some [], name⟩ = .ok v

theorem global_of_index {m : Module} {n : Str} : ∀ {scopes : List Nat}, m.localIndex n scopes = none →
    HMap.find m.globals n = none
  | [], h => h
  | s :: rest, h => by
    unfold Module.localIndex at h
    cases hf : (m.localsAt s).find n with
    | some i => rw [hf] at h; cases h
    | none => rw [hf] at h; exact global_of_index h

theorem lookup_back_first {a b m : Module} (h : Exact a b m) (ha : a.name = []) {E : Ctx} (hE : Offered E m)
    {scopes : List Nat} (hs : ∀ s ∈ scopes, s < a.lines.length) {id : FullId} {v : Int}
    (hv : m.lookup scopes E id = .ok v) : a.lookup scopes E id = .ok v := by
  obtain ⟨mod, n⟩ := id
  have two : ∀ j, HMap.find a.globals n = none → HMap.find b.globals n = some j →
      m.localLookup (j + a.lines.length) = .ok v → E ⟨some [], n⟩ = .ok v := by
    intro j h1 h2 h3
    refine hE n (j + a.lines.length) v ?_ h3
    rw [h.globals, find_append, find_move, h1, h2]; rfl
  unfold Module.lookup at hv ⊢
  rw [h.name] at hv
  cases mod with
  | none =>
    simp only at hv ⊢
    rw [index_first h.toTogether _ _ hs] at hv
    cases hi : a.localIndex n scopes with
    | some i => rw [hi] at hv; exact localLookup_back_first h (h.inside _ _ _ hi) hv
    | none =>
      rw [hi] at hv
      simp only [Option.none_or] at hv ⊢
      cases hg : HMap.find b.globals n with
      | none => rw [hg] at hv; exact hv
      | some j => rw [hg] at hv; exact two j (global_of_index hi) hg hv
  | some mod =>
    simp only at hv ⊢
    by_cases hm : mod = a.name
    · rw [if_pos hm] at hv ⊢
      rw [index_first h.toTogether _ _ (by simp)] at hv
      cases hi : a.localIndex n [] with
      | some i => rw [hi] at hv; exact localLookup_back_first h (h.inside _ _ _ hi) hv
      | none =>
        rw [hi] at hv
        rw [ha] at hm
        subst hm
        simp only [Option.none_or] at hv ⊢
        cases hg : HMap.find b.globals n with
        | none => rw [hg] at hv; exact hv
        | some j => rw [hg] at hv; exact two j (global_of_index hi) hg hv
    · rw [if_neg hm] at hv ⊢; exact hv

theorem lookup_back_second {a b m : Module} (h : Exact a b m) (ha : a.name = []) {E : Ctx} (hE : Offered E m)
    {scopes : List Nat} {id : FullId} {v : Int}
    (hv : m.lookup (scopes.map (· + a.lines.length)) E id = .ok v) : b.lookup scopes E id = .ok v := by
  obtain ⟨mod, n⟩ := id
  have two : ∀ j, HMap.find a.globals n = some j → m.localLookup j = .ok v → E ⟨some [], n⟩ = .ok v := by
    intro j h1 h3
    refine hE n j v ?_ h3
    rw [h.globals, find_append, h1]; rfl
  unfold Module.lookup at hv ⊢
  rw [h.name] at hv
  rw [h.same]
  cases mod with
  | none =>
    simp only at hv ⊢
    rw [index_second h.toTogether] at hv
    cases hi : b.localIndex n scopes with
    | some i => rw [hi] at hv; exact localLookup_back_second h hv
    | none =>
      rw [hi] at hv
      simp only [Option.map_none, Option.none_or] at hv ⊢
      cases hg : HMap.find a.globals n with
      | none => rw [hg] at hv; exact hv
      | some j => rw [hg] at hv; exact two j hg hv
  | some mod =>
    simp only at hv ⊢
    by_cases hm : mod = a.name
    · rw [if_pos hm] at hv ⊢
      have hi2 := index_second h.toTogether n []
      rw [List.map_nil] at hi2
      rw [hi2] at hv
      cases hi : b.localIndex n [] with
      | some i => rw [hi] at hv; exact localLookup_back_second h hv
      | none =>
        rw [hi] at hv
        rw [ha] at hm
        subst hm
        simp only [Option.map_none, Option.none_or] at hv ⊢
        cases hg : HMap.find a.globals n with
        | none => rw [hg] at hv; exact hv
        | some j => rw [hg] at hv; exact two j hg hv
    · rw [if_neg hm] at hv ⊢; exact hv

theorem exact_set_first {a b m : Module} (h : Exact a b m) {i : Nat} (hi : i < a.lines.length) (v : Int) :
    Exact (a.setValue i v) b (m.setValue i v) := by
  refine ⟨together_set_first h.toTogether hi v, ?_, ?_⟩
  · rw [setValue_length]
    simp only [Module.setValue, h.exact]
    refine List.ext_getElem? fun k => ?_
    by_cases hk : k < a.lines.length
    · rw [List.getElem?_append_left (by simpa using hk), List.getElem?_modify, List.getElem?_modify,
        List.getElem?_append_left hk]
    · rw [List.getElem?_append_right (by simpa using hk), List.getElem?_modify,
        List.getElem?_append_right (by omega)]
      simp [show i ≠ k by omega]
  · intro name scopes j hj
    rw [setValue_length]
    refine h.inside name scopes j ?_
    rw [← hj]
    refine localIndex_congr (m := a) (m' := a.setValue i v) rfl (fun k => ?_) name scopes
    simp only [Module.localsAt, Module.setValue, List.getElem?_modify]
    cases a.lines[k]? with
    | none => rfl
    | some l => by_cases hk : i = k <;> simp [hk]

theorem exact_set_second {a b m : Module} (h : Exact a b m) (i : Nat) (v : Int) :
    Exact a (b.setValue i v) (m.setValue (i + a.lines.length) v) := by
  refine ⟨together_set_second h.toTogether i v, ?_, h.inside⟩
  simp only [Module.setValue, h.exact]
  refine List.ext_getElem? fun k => ?_
  by_cases hk : k < a.lines.length
  · rw [List.getElem?_append_left hk, List.getElem?_modify, List.getElem?_append_left hk]
    simp [show i + a.lines.length ≠ k by omega]
  · rw [List.getElem?_append_right (by omega), List.getElem?_modify,
      List.getElem?_append_right (by omega), List.getElem?_map, List.getElem?_map, List.getElem?_modify]
    cases b.lines[k - a.lines.length]? with
    | none => rfl
    | some l =>
      by_cases he : i + a.lines.length = k
      · simp [show k - a.lines.length + a.lines.length = k by omega, show i = k - a.lines.length by omega, moveLine]
      · simp [he, show i ≠ k - a.lines.length by omega]

/-- The second pass changes no value that there is. -/
theorem second_keeps {E : Ctx} : ∀ (c i : Nat) {m M : Module}, Module.secondLoop E c i m = .ok M →
    M.globals = m.globals ∧ ∀ j v, m.localLookup j = .ok v → M.localLookup j = .ok v := by
  intro c
  induction c with
  | zero => intro i m M h; cases h; exact ⟨rfl, fun _ _ h => h⟩
  | succ c ih =>
    intro i m M h
    unfold Module.secondLoop at h
    cases hl : m.lines[i]? with
    | none => rw [hl] at h; cases h
    | some l =>
      rw [hl] at h
      simp only at h
      obtain ⟨m1, h1, h⟩ := Res.bind_eq_ok.mp h
      obtain ⟨g, k⟩ := ih (i + 1) h
      unfold Module.evalEqu at h1
      split at h1
      · cases h1; exact ⟨g, k⟩
      · split at h1
        · next hq =>
          obtain ⟨w, -, h1⟩ := Res.bind_eq_ok.mp h1
          cases h1
          refine ⟨g, fun j v hv => k j v ?_⟩
          unfold Module.localLookup at hv ⊢
          simp only [Module.setValue, List.getElem?_modify]
          by_cases hj : i = j
          · subst hj
            rw [hl] at hv
            simp only at hv
            cases hval : l.value with
            | none => rw [hval] at hv; cases hv
            | some x => rw [hval] at hq; cases hq.2
          · simpa [hj] using hv
        · cases h1; exact ⟨g, k⟩

theorem offered_keeps {E : Ctx} {c i : Nat} {m M : Module} (h : Module.secondLoop E c i m = .ok M) (hE : Offered E M) :
    Offered E m := by
  obtain ⟨g, k⟩ := second_keeps c i h
  intro name j v h1 h2
  exact hE name j v (by rw [g]; exact h1) (k j v h2)

theorem second_back_first {E : Ctx} {M : Module} (hE : Offered E M) {r : Nat} : ∀ (c i : Nat) {a b m : Module}, Exact a b m →
    a.name = [] → i + c = a.lines.length → Module.secondLoop E (c + r) i m = .ok M →
    ∃ a' m', Module.secondLoop E c i a = .ok a' ∧ a'.lines.length = a.lines.length ∧ a'.name = [] ∧ Exact a' b m' ∧
      Module.secondLoop E r (i + c) m' = .ok M := by
  intro c
  induction c with
  | zero =>
    intro i a b m hT ha _ h
    rw [Nat.zero_add] at h
    exact ⟨a, m, rfl, rfl, ha, hT, h⟩
  | succ c ih =>
    intro i a b m hT ha hi h
    have hO := offered_keeps h hE
    rw [Nat.succ_add] at h
    have hlt : i < a.lines.length := by omega
    have hget : m.lines[i]? = some a.lines[i] := by
      rw [hT.exact, List.getElem?_append_left hlt, List.getElem?_eq_getElem hlt]
    rw [Module.secondLoop, hget] at h
    simp only at h
    obtain ⟨m1, h1, h⟩ := Res.bind_eq_ok.mp h
    have key : ∃ a1, Module.evalEqu E a i a.lines[i] = .ok a1 ∧ Exact a1 b m1 ∧ a1.name = [] ∧
        a1.lines.length = a.lines.length := by
      unfold Module.evalEqu at h1 ⊢
      split at h1
      · cases h1; exact ⟨a, rfl, hT, ha, rfl⟩
      · next d hd =>
        split at h1
        · next hq =>
          obtain ⟨v, hv, h1⟩ := Res.bind_eq_ok.mp h1
          cases h1
          refine ⟨a.setValue i v, ?_, exact_set_first hT hlt v, ha, setValue_length _ _ _⟩
          rw [if_pos hq]
          exact Res.bind_eq_ok.mpr ⟨v, eval_mono (fun id w hw =>
            lookup_back_first hT ha hO (hT.scopes _ (List.getElem_mem hlt)) hw) _ v hv, rfl⟩
        · next hq => cases h1; rw [if_neg hq]; exact ⟨a, rfl, hT, ha, rfl⟩
    obtain ⟨a1, k1, k2, k3, k4⟩ := key
    obtain ⟨a', m', q1, q2, q3, q4, q5⟩ := ih (i + 1) k2 k3 (by omega) h
    refine ⟨a', m', ?_, q2.trans k4, q3, q4, by rw [← q5]; congr 1; omega⟩
    rw [Module.secondLoop, List.getElem?_eq_getElem hlt]
    exact Res.bind_eq_ok.mpr ⟨a1, k1, q1⟩

theorem second_back_second {E : Ctx} {M : Module} (hE : Offered E M) : ∀ (c i : Nat) {a b m : Module}, Exact a b m →
    a.name = [] → i + c = b.lines.length → Module.secondLoop E c (i + a.lines.length) m = .ok M →
    ∃ b', Module.secondLoop E c i b = .ok b' ∧ Exact a b' M := by
  intro c
  induction c with
  | zero => intro i a b m hT _ _ h; cases h; exact ⟨b, rfl, hT⟩
  | succ c ih =>
    intro i a b m hT ha hi h
    have hO := offered_keeps h hE
    have hlt : i < b.lines.length := by omega
    have hget : m.lines[i + a.lines.length]? = some (moveLine a.lines.length b.lines[i]) := by
      rw [hT.exact, List.getElem?_append_right (by omega), Nat.add_sub_cancel, List.getElem?_map,
        List.getElem?_eq_getElem hlt]; rfl
    rw [Module.secondLoop, hget] at h
    simp only at h
    obtain ⟨m1, h1, h⟩ := Res.bind_eq_ok.mp h
    have key : ∃ b1, Module.evalEqu E b i b.lines[i] = .ok b1 ∧ Exact a b1 m1 ∧ b1.lines.length = b.lines.length := by
      unfold Module.evalEqu at h1 ⊢
      have e1 : (moveLine a.lines.length b.lines[i]).statement = b.lines[i].statement := rfl
      rw [e1] at h1
      split at h1
      · cases h1; exact ⟨b, rfl, hT, rfl⟩
      · next d hd =>
        have e0 : (moveLine a.lines.length b.lines[i]).value = b.lines[i].value := rfl
        by_cases hq : d.name = DirectiveName.equ ∧ (moveLine a.lines.length b.lines[i]).value.isNone = true
        · rw [if_pos hq] at h1
          obtain ⟨v, hv, h1⟩ := Res.bind_eq_ok.mp h1
          cases h1
          refine ⟨b.setValue i v, ?_, exact_set_second hT i v, setValue_length _ _ _⟩
          rw [e0] at hq
          rw [if_pos hq]
          exact Res.bind_eq_ok.mpr ⟨v, eval_mono (fun id w hw => lookup_back_second hT ha hO hw) _ v hv, rfl⟩
        · rw [if_neg hq] at h1; rw [e0] at hq; rw [if_neg hq]; cases h1; exact ⟨b, rfl, hT, rfl⟩
    obtain ⟨b1, k1, k2, k3⟩ := key
    obtain ⟨b', q1, q2⟩ := ih (i + 1) k2 ha (by omega) (by rw [← h]; congr 1; omega)
    refine ⟨b', ?_, q2⟩
    rw [Module.secondLoop, List.getElem?_eq_getElem hlt]
    exact Res.bind_eq_ok.mpr ⟨b1, k1, q1⟩

theorem second_divide {E : Ctx} {a b m M : Module} (hT : Exact a b m) (ha : a.name = []) (h : m.runSecondPass E = .ok M)
    (hE : Offered E M) : ∃ a' b', a.runSecondPass E = .ok a' ∧ b.runSecondPass E = .ok b' ∧ Exact a' b' M ∧
      a'.lines.length = a.lines.length := by
  unfold Module.runSecondPass at h ⊢
  have e : m.lines.length = a.lines.length + b.lines.length := by rw [hT.exact]; simp
  rw [e] at h
  obtain ⟨a', m', k1, k2, k3, k4, k5⟩ := second_back_first hE _ 0 hT ha (by omega) h
  rw [Nat.zero_add, ← k2] at k5
  obtain ⟨b', q1, q2⟩ := second_back_second hE b.lines.length 0 k4 k3 (by omega) (by rw [Nat.zero_add]; exact k5)
  exact ⟨a', b', k1, q1, q2, k2⟩

/-! ## Assembly -/

theorem assembleLines_split {m : Module} {E : Ctx} : ∀ {xs ys : List Line} {s s' : Writes} {o o' : Module.Out},
    m.assembleLines E recorder (xs ++ ys) s o = (s', .ok o') →
    ∃ s1 o1, m.assembleLines E recorder xs s o = (s1, .ok o1) ∧ m.assembleLines E recorder ys s1 o1 = (s', .ok o')
  | [], ys, s, s', o, o', h => ⟨s, o, rfl, h⟩
  | l :: xs, ys, s, s', o, o', h => by
    rw [List.cons_append] at h
    rw [Module.assembleLines] at h ⊢
    rcases h1 : m.assembleLine E recorder l s o with ⟨s2, r2⟩
    rw [h1] at h
    cases r2 with
    | err e => cases h
    | ub u => cases h
    | ok o2 => exact assembleLines_split h

theorem lines_canonical {m : Module} {E : Ctx} : ∀ {ls : List Line} {s s' : Writes} {o o' : Module.Out},
    Canonical o.owned.ranges → m.assembleLines E recorder ls s o = (s', .ok o') → Canonical o'.owned.ranges
  | [], s, s', o, o', hc, h => by
    simp only [Module.assembleLines, Prod.mk.injEq, Res.ok.injEq] at h
    rw [← h.2]; exact hc
  | l :: ls, s, s', o, o', hc, h => by
    rw [Module.assembleLines] at h
    rcases h1 : m.assembleLine E recorder l s o with ⟨s2, r2⟩
    rw [h1] at h
    cases r2 with
    | err e => cases h
    | ub u => cases h
    | ok o2 =>
      obtain ⟨w, -, -, hg⟩ := assembleLine_ok hc h1
      exact lines_canonical hg.canonical h

theorem assemble_divide {E : Ctx} {a b m m' : Module} {w : Writes} (hT : Exact a b m) (ha : a.name = [])
    (h : m.assemble E recorder [] = (w, .ok m')) (o1 : a.owned = .empty) (o2 : b.owned = .empty) (o3 : m.owned = .empty)
    (hE : Offered E m) (hd : (allFilled w).Nodup) (hin : ∀ g ∈ a.globals, g.2 < a.lines.length) :
    ∃ wa wb a' b', w = wa ++ wb ∧ a.assemble E recorder [] = (wa, .ok a') ∧ b.assemble E recorder [] = (wb, .ok b') := by
  obtain ⟨o, ns, lm, gm, rfl⟩ := assemble_parts h
  have hcan : Canonical (DataRange.empty).ranges := ⟨by simp [DataRange.empty], by simp [DataRange.empty]⟩
  have hfree : ∀ y : Nat, DataRange.contains .empty y = false := by
    intro y; simp [DataRange.empty, DataRange.contains, DataRange.before]
  rw [hT.exact] at lm
  obtain ⟨s1, x1, l1, l2⟩ := assembleLines_split lm
  have hc0 : Canonical (Module.Out.mk m.owned m.targets m.conventions).owned.ranges := by simp only [o3]; exact hcan
  have hc1 := lines_canonical hc0 l1
  obtain ⟨wa, e1, r1⟩ := lines_again (m := m) (m' := a) (E := E) (ls := a.lines) (ls' := a.lines)
    (List.forall₂_same.2 fun l hl => ⟨fun id v hv => lookup_back_first hT ha hE (hT.scopes l hl) hv, rfl, rfl,
      fun _ h => h⟩) hc0 l1
  obtain ⟨wb, e2, r2⟩ := lines_again (m := m) (m' := b) (E := E) (ls := b.lines.map (moveLine a.lines.length)) (ls' := b.lines)
    (by
      rw [List.forall₂_map_left_iff]
      exact List.forall₂_same.2 fun l hl => ⟨fun id v hv => lookup_back_second hT ha hE hv, rfl, rfl, fun _ h => h⟩) hc1 l2
  rw [List.nil_append] at e1
  subst e1
  subst e2
  have e : allFilled (s1 ++ wb) = allFilled s1 ++ allFilled wb := by simp [allFilled]
  rw [e] at hd
  obtain ⟨y1, k1, -⟩ := r1 ⟨a.owned, a.targets, a.conventions⟩ [] (by simp only [o1]; exact hcan) (List.nodup_append.1 hd).1
    (fun y _ => by simp only [o1]; exact hfree y)
  obtain ⟨y2, k2, -⟩ := r2 ⟨b.owned, b.targets, b.conventions⟩ [] (by simp only [o2]; exact hcan) (List.nodup_append.1 hd).2.1
    (fun y _ => by simp only [o2]; exact hfree y)
  have hn := names_iff.1 ⟨ns, gm⟩
  rw [hT.globals] at hn
  obtain ⟨na, hna⟩ := (names_iff (m := a) (gs := a.globals) (n := a.addrNames)).2 (by
    rintro ⟨name, i⟩ hg
    obtain ⟨l, v, x, q1, q2, q3⟩ := hn (name, i) (List.mem_append_left _ hg)
    have hlt : i < a.lines.length := hin _ hg
    exact ⟨l, v, x, by rw [hT.exact, List.getElem?_append_left hlt] at q1; exact q1, q2, q3⟩)
  obtain ⟨nb, hnb⟩ := (names_iff (m := b) (gs := b.globals) (n := b.addrNames)).2 (by
    rintro ⟨name, i⟩ hg
    obtain ⟨l, v, x, q1, q2, q3⟩ := hn (name, i + a.lines.length) (List.mem_append_right _ (List.mem_map.2 ⟨_, hg, rfl⟩))
    simp only at q1
    rw [hT.exact, List.getElem?_append_right (by omega), Nat.add_sub_cancel, List.getElem?_map] at q1
    cases hb : b.lines[i]? with
    | none => rw [hb] at q1; cases q1
    | some l' => rw [hb] at q1; cases q1; exact ⟨l', v, x, rfl, q2, q3⟩)
  refine ⟨s1, wb, { a with owned := y1.owned, targets := y1.targets, conventions := y1.conventions, addrNames := na },
    { b with owned := y2.owned, targets := y2.targets, conventions := y2.conventions, addrNames := nb }, rfl, ?_, ?_⟩
  · unfold Module.assemble
    rw [k1, hna]; rfl
  · unfold Module.assemble
    rw [k2, hnb]; rfl

end Nsasm.Joined
