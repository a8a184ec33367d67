import Verif.Lemmas.Explore
import Verif.Spec.Run

/-! # What the analysis loop has accounted for when it ends -/

namespace Nsasm
open Spec Props

/-- `w` describes every processor that `s` describes. -/
def Subsumes (w s : ExecutionState) : Prop := ∀ o p, Describes o s p → Describes o w p

theorem Subsumes.refl (s : ExecutionState) : Subsumes s s := fun _ _ h => h

theorem Subsumes.trans {a b c : ExecutionState} (h : Subsumes a b) (h' : Subsumes b c) : Subsumes a c :=
  fun o p hp => h o p (h' o p hp)

theorem covers_merge_left {s : ExecutionState} (hs : NormalState s) (t : ExecutionState) :
    Subsumes (s.merge t) s := fun _ _ hp => (C15_state_sound hs hp t).1

theorem covers_merge_right {t : ExecutionState} (ht : NormalState t) (s : ExecutionState) :
    Subsumes (s.merge t) t := fun _ _ hp => (C15_state_sound ht hp s).2

/-- Merging `s` with `w` gives `w`. -/
structure Absorbs (w s : ExecutionState) : Prop where
  normal : NormalState w
  other : NormalState s
  same : w.merge s = w

theorem Absorbs.subsumes {w s : ExecutionState} (h : Absorbs w s) : Subsumes w s := by
  have := covers_merge_right h.other w
  rwa [h.same] at this

theorem Absorbs.refl {s : ExecutionState} (h : NormalState s) : Absorbs s s := ⟨h, h, C15_state_idem h⟩

theorem absorbs_merge {v s : ExecutionState} (hv : NormalState v) (hs : NormalState s) : Absorbs (v.merge s) s :=
  ⟨normal_merge hv, hs, by rw [C15_state_assoc hv hs hs, C15_state_idem hs]⟩

theorem Absorbs.merge {v s t : ExecutionState} (h : Absorbs v s) (ht : NormalState t) : Absorbs (v.merge t) s :=
  ⟨normal_merge h.normal, h.other, by
    rw [C15_state_assoc h.normal ht h.other, C15_state_comm t s, ← C15_state_assoc h.normal h.other ht, h.same]⟩

/-- Line `t` is pending in a state that absorbs `s`. -/
def Pending (w : OMap ExecutionState) (t : Nat) (s : ExecutionState) : Prop :=
  ∃ v, (t, v) ∈ w ∧ Absorbs v s

theorem pending_add_new {w : OMap ExecutionState} (h1 : OMap.Sorted w)
    (h2 : ∀ k s, (k, s) ∈ w → NormalState s) {k : Nat} {s : ExecutionState} (hs : NormalState s) : Pending (Module.addWork w k s) k s := by
  have hf := OMap.find_upsert (f := fun old => ExecutionState.merge old s) h1 k k s
  rw [if_pos rfl] at hf
  cases hw : OMap.find w k with
  | none => rw [hw] at hf; exact ⟨s, OMap.mem_of_find hf, .refl hs⟩
  | some v => rw [hw] at hf; exact ⟨_, OMap.mem_of_find hf, absorbs_merge (h2 k v (OMap.mem_of_find hw)) hs⟩

theorem pending_add_old {w : OMap ExecutionState} (h1 : OMap.Sorted w)
    (h2 : ∀ k s, (k, s) ∈ w → NormalState s) {k t : Nat} {s : ExecutionState} (hs : NormalState s) {s' : ExecutionState}
    (h : Pending w t s') : Pending (Module.addWork w k s) t s' := by
  obtain ⟨v, hv, hc⟩ := h
  have hf := OMap.find_upsert (f := fun old => ExecutionState.merge old s) h1 k t s
  have hw := OMap.find_of_mem h1 hv
  by_cases hk : k = t
  · subst hk
    rw [if_pos rfl, hw] at hf
    exact ⟨_, OMap.mem_of_find hf, hc.merge hs⟩
  · rw [if_neg hk, hw] at hf
    exact ⟨v, OMap.mem_of_find hf, hc⟩

/-! ## One visit -/

/-- A visit leaves pending what the visited line passes on, and everything that was pending. -/
theorem visit_pending {m : Module} {p p' : Module.Pass} (hg : GoodPass p) {k : Nat}
    {state next : ExecutionState} {line : Line} (hl : p.lines[k]? = some line)
    (hst : NormalState state) (h1 : line.statement.execute state = .ok next)
    (h2 : m.branchWork line state
      (if line.statement.isExitInstruction then p.work else Module.addWork p.work (k + 1) next)
      = .ok p'.work) :
    (¬ Stops line.statement → Pending p'.work (k + 1) next) ∧
    (∀ i name t, line.statement = .instr i → MayBranch i → i.arg1.simpleIdentifier = some name →
      m.localIndex name line.scopes = some t →
      ∃ nb, i.executeBranch state = .ok nb ∧ Pending p'.work t nb) ∧
    (∀ i, line.statement = .instr i → MayBranch i → ∃ name t, i.arg1.simpleIdentifier = some name ∧
      m.localIndex name line.scopes = some t) ∧
    (∀ t s, Pending p.work t s → Pending p'.work t s) ∧
    (∀ t s, (t, s) ∈ p'.work → (∃ s', (t, s') ∈ p.work) ∨ (t = k + 1 ∧ ¬ Stops line.statement) ∨
      ∃ i name, line.statement = .instr i ∧ MayBranch i ∧ i.arg1.simpleIdentifier = some name ∧
        m.localIndex name line.scopes = some t) := by
  have hw := hg.written line (List.mem_of_getElem? hl)
  have hn : NormalState next := normal_statement hw hst h1
  obtain ⟨w0, hw0⟩ : ∃ w0, w0 = (if line.statement.isExitInstruction then p.work
      else Module.addWork p.work (k + 1) next) := ⟨_, rfl⟩
  rw [← hw0] at h2
  have hg0 : Grows p.work w0 := by
    rw [hw0]
    split
    · exact grows_refl hg.sorted hg.normal
    · exact grows_add (grows_refl hg.sorted hg.normal) _ hn
  have hnext : ¬ Stops line.statement → Pending w0 (k + 1) next := by
    intro hns
    rw [hw0, if_neg (fun h => hns ((stops_iff _).mp h))]
    exact pending_add_new hg.sorted hg.normal hn
  have hold : ∀ t s, Pending p.work t s → Pending w0 t s := by
    intro t s hp
    rw [hw0]
    split
    · exact hp
    · exact pending_add_old hg.sorted hg.normal hn hp
  have hkeys : ∀ t s, (t, s) ∈ w0 → (∃ s', (t, s') ∈ p.work) ∨ (t = k + 1 ∧ ¬ Stops line.statement) := by
    intro t s hm
    rw [hw0] at hm
    split at hm
    · exact .inl ⟨s, hm⟩
    · next he =>
      rcases upsert_mem hm with h | h
      · exact .inr ⟨h, fun hs => he ((stops_iff _).mpr hs)⟩
      · exact .inl ⟨s, h⟩
  rcases branchWork_cases h2 with ⟨hno, h4⟩ | ⟨i, name, t, nx, a1, a2, a3, a4, a5, a6⟩
  · rw [h4]
    refine ⟨hnext, fun i name t hi hb => absurd hb (hno i hi), fun i hi hb => absurd hb (hno i hi),
      hold, fun t s hm => (hkeys t s hm).imp_right .inl⟩
  · rw [a6]
    rw [a1] at hw
    have hnx := normal_branch hw hst a5
    refine ⟨fun h => pending_add_old hg0.sorted hg0.normal hnx (hnext h), ?_, ?_,
      fun t' s' h => pending_add_old hg0.sorted hg0.normal hnx (hold t' s' h), ?_⟩
    · intro i' name' t' hi hb hnm ht
      rw [a1] at hi; cases hi
      rw [a3] at hnm; cases hnm
      rw [a4] at ht; cases ht
      exact ⟨nx, a5, pending_add_new hg0.sorted hg0.normal hnx⟩
    · intro i' hi _
      rw [a1] at hi; cases hi
      exact ⟨name, t, a3, a4⟩
    · intro t' s' hm
      rcases upsert_mem hm with h | h
      · subst h; exact .inr (.inr ⟨i, name, a1, a2, a3, a4⟩)
      · exact (hkeys t' s' h).imp_right .inl

/-! ## What has been accounted for -/

/-- What a visited line passes on satisfies `K`. -/
def Done (m : Module) (K : Nat → ExecutionState → Prop) (lines : List Line) : Prop :=
  ∀ (k : Nat) (l : Line), lines[k]? = some l → l.reached = true →
    (∃ next, l.statement.execute l.incoming = .ok next ∧ (¬ Stops l.statement → K (k + 1) next)) ∧
    (∀ i, l.statement = .instr i → MayBranch i → ∃ name t nb, i.arg1.simpleIdentifier = some name ∧
      m.localIndex name l.scopes = some t ∧ i.executeBranch l.incoming = .ok nb ∧ K t nb)

/-- `K` accounts for what is pending, and one round keeps what it accounts for. -/
structure Accounts (m : Module) (K : Module.Pass → Nat → ExecutionState → Prop)
    (p p' : Module.Pass) : Prop where
  pending : ∀ t s, Pending p'.work t s → K p' t s
  keeps : ∀ t s, K p t s → K p' t s

theorem done_step {m : Module} {K : Module.Pass → Nat → ExecutionState → Prop}
    {p p' : Module.Pass} (hg : GoodPass p) (hK : Accounts m K p p')
    (h : Done m (K p) p.lines) (hs : m.step p = .ok (some p')) : Done m (K p') p'.lines := by
  have hmono : ∀ (k : Nat) (l : Line), p.lines[k]? = some l → l.reached = true →
      (∃ next, l.statement.execute l.incoming = .ok next ∧ (¬ Stops l.statement → K p' (k + 1) next)) ∧
      (∀ i, l.statement = .instr i → MayBranch i → ∃ name t nb, i.arg1.simpleIdentifier = some name ∧
        m.localIndex name l.scopes = some t ∧ i.executeBranch l.incoming = .ok nb ∧ K p' t nb) := by
    intro k l hl hr
    obtain ⟨⟨next, h1, h2⟩, h3⟩ := h k l hl hr
    refine ⟨⟨next, h1, fun hns => hK.keeps _ _ (h2 hns)⟩, fun i hi hb => ?_⟩
    obtain ⟨name, t, nb, a, b, c, d⟩ := h3 i hi hb
    exact ⟨name, t, nb, a, b, c, hK.keeps _ _ d⟩
  obtain ⟨k, state, rest, line, hw, hl, h1 | ⟨-, next, h1, h2, h3⟩⟩ := step_cases hs
  · have : p'.lines = p.lines := by rw [h1.2.2]
    intro k' l' hl' hr'
    rw [this] at hl'
    exact hmono k' l' hl' hr'
  · obtain ⟨v1, v2, v3, -, -⟩ := visit_pending hg hl (hg.normal k state (by rw [hw]; simp)) h1 h2
    intro k' l' hl' hr'
    rw [h3, List.getElem?_set] at hl'
    split at hl'
    · next he =>
      subst he
      split at hl'
      · cases hl'
        refine ⟨⟨next, h1, fun hns => hK.pending _ _ (v1 hns)⟩, fun i hi hb => ?_⟩
        obtain ⟨name, t, hn, ht⟩ := v3 i hi hb
        obtain ⟨nb, hnb, hp⟩ := v2 i name t hi hb hn ht
        exact ⟨name, t, nb, hn, ht, hnb, hK.pending _ _ hp⟩
      · cases hl'
    · exact hmono k' l' hl' hr'

theorem seeds_pending (ls : List Line) : ∀ (i : Nat) (w : OMap ExecutionState), OMap.Sorted w →
    (∀ k s, (k, s) ∈ w → NormalState s) → (∀ l ∈ ls, StatementWritten l.statement) →
    (∀ t s, Pending w t s → Pending (Module.seeds w i ls) t s) ∧
    ∀ (j : Nat) (l : Line) (d : Directive), ls[j]? = some l → l.statement = .dir d → d.name = .entry →
      Pending (Module.seeds w i ls) (i + j + 1) (.init d.flags) := by
  induction ls with
  | nil => intro i w h1 h2 _; exact ⟨fun _ _ h => h, by intro j l d h; simp at h⟩
  | cons l ls ih =>
    intro i w h1 h2 h3
    have ht : ∀ l ∈ ls, StatementWritten l.statement := fun q hq => h3 q (by simp [hq])
    have hcons : ∀ w', OMap.Sorted w' → (∀ k s, (k, s) ∈ w' → NormalState s) →
        (∀ t s, Pending w t s → Pending w' t s) →
        (∀ d, l.statement = .dir d → d.name = .entry → Pending w' (i + 1) (.init d.flags)) →
        (∀ t s, Pending w t s → Pending (Module.seeds w' (i + 1) ls) t s) ∧
        ∀ (j : Nat) (l' : Line) (d : Directive), (l :: ls)[j]? = some l' → l'.statement = .dir d →
          d.name = .entry → Pending (Module.seeds w' (i + 1) ls) (i + j + 1) (.init d.flags) := by
      intro w' g1 g2 g3 g4
      obtain ⟨q1, q2⟩ := ih (i + 1) w' g1 g2 ht
      refine ⟨fun t s h => q1 t s (g3 t s h), fun j l' d hl hd he => ?_⟩
      cases j with
      | zero => simp at hl; subst hl; exact q1 _ _ (g4 d hd he)
      | succ j =>
        have := q2 j l' d (by simpa using hl) hd he
        rw [show i + (j + 1) + 1 = i + 1 + j + 1 by omega]
        exact this
    rw [Module.seeds]
    cases hs : l.statement with
    | instr x => exact hcons w h1 h2 (fun _ _ h => h) (by intro d hd; rw [hs] at hd; cases hd)
    | dir d =>
      simp only
      split
      · next he =>
        have hn : NormalState (.init d.flags) := by
          have := h3 l (by simp)
          rw [hs] at this
          refine ⟨normal_setIncoming (normal_written (this (by simp [he]))), ?_⟩
          intro v hv; simp at hv
        have hg := grows_add (grows_refl h1 h2) (i + 1) hn
        refine hcons _ hg.sorted hg.normal (fun t s h => pending_add_old h1 h2 hn h) ?_
        intro d' hd' _
        rw [hs] at hd'; cases hd'
        exact pending_add_new h1 h2 hn
      · next he =>
        refine hcons w h1 h2 (fun _ _ h => h) ?_
        intro d' hd' he'
        rw [hs] at hd'; cases hd'
        exact absurd he' he

/-! ## Every line execution may reach has been visited -/

/-- Line `t` is pending or has been visited. -/
def Seen (p : Module.Pass) (t : Nat) (_ : ExecutionState) : Prop :=
  (∃ s, (t, s) ∈ p.work) ∨ ∃ l, p.lines[t]? = some l ∧ l.reached = true

theorem seen_accounts {m : Module} {p p' : Module.Pass} (hg : GoodPass p)
    (hs : m.step p = .ok (some p')) : Accounts m Seen p p' := by
  refine ⟨fun t s ⟨v, hv, _⟩ => .inl ⟨v, hv⟩, ?_⟩
  obtain ⟨k, state, rest, line, hw, hl, h1 | ⟨-, next, h1, h2, h3⟩⟩ := step_cases hs
  · intro t s h
    rw [h1.2.2]
    rcases h with ⟨v, hv⟩ | h
    · rw [hw] at hv
      rcases List.mem_cons.mp hv with h | h
      · cases h; exact .inr ⟨line, hl, h1.1⟩
      · exact .inl ⟨v, h⟩
    · exact .inr h
  · obtain ⟨-, -, -, v4, -⟩ := visit_pending hg hl (hg.normal k state (by rw [hw]; simp)) h1 h2
    intro t s h
    rcases h with ⟨v, hv⟩ | ⟨l, hl', hr⟩
    · obtain ⟨v', hv', -⟩ := v4 t v ⟨v, hv, .refl (hg.normal t v hv)⟩
      exact .inl ⟨v', hv'⟩
    · right
      rw [h3, List.getElem?_set]
      by_cases he : k = t
      · subst he
        rw [if_pos rfl]
        have := (List.getElem?_eq_some_iff.mp hl).1
        rw [if_pos this]
        exact ⟨_, rfl, rfl⟩
      · rw [if_neg he]; exact ⟨l, hl', hr⟩

/-- Entry points are accounted for. -/
def Entered (m : Module) (K : Nat → ExecutionState → Prop) : Prop :=
  ∀ i f, DeclaresEntry m i f → K (i + 1) (.init f)

theorem explored_accounts {m : Module} {K : Module.Pass → Nat → ExecutionState → Prop}
    (hK : ∀ p p', SameLines m p → GoodPass p → m.step p = .ok (some p') → Accounts m K p p')
    (hinit : ∀ t s, Pending (Module.seeds [] 0 m.lines) t s →
      K ⟨m.lines, Module.seeds [] 0 m.lines⟩ t s)
    (hwr : ∀ l ∈ m.lines, StatementWritten l.statement)
    (hfresh : ∀ (k : Nat) (l : Line), m.lines[k]? = some l → l.reached = false)
    {fuel : Nat} {p : Module.Pass}
    (h : m.explore fuel ⟨m.lines, Module.seeds [] 0 m.lines⟩ = .ok p) :
    Done m (K p) p.lines ∧ Entered m (K p) ∧ p.work = [] ∧ SameLines m p ∧ GoodPass p := by
  obtain ⟨s1, s2⟩ := seeds_good m.lines 0 [] List.Pairwise.nil (by simp) hwr
  have hseed := (seeds_pending m.lines 0 [] List.Pairwise.nil (by simp) hwr).2
  have hent : Entered m (K ⟨m.lines, Module.seeds [] 0 m.lines⟩) := by
    rintro i f ⟨l, d, hl, hd, he, rfl⟩
    have := hseed i l d hl hd he
    rw [Nat.zero_add] at this
    exact hinit _ _ this
  have := explore_induct (m := m)
    (I := fun p => GoodPass p ∧ SameLines m p ∧ Done m (K p) p.lines ∧ Entered m (K p))
    (fun p p' ⟨a, b, c, d⟩ hs => ⟨good_step a hs, sameLines_step b hs,
      done_step a (hK p p' b a hs) c hs, fun i f he => (hK p p' b a hs).keeps _ _ (d i f he)⟩)
    fuel ⟨m.lines, Module.seeds [] 0 m.lines⟩ p
    ⟨⟨s1, s2, hwr⟩, rfl, fun k l hl hr => absurd hr (by rw [hfresh k l hl]; simp), hent⟩ h
  exact ⟨this.1.2.2.1, this.1.2.2.2, this.2, this.1.2.1, this.1.1⟩

/-! ## With forward branches only -/

/-- No branch goes back. -/
def NoBackward (m : Module) : Prop := ∀ k t, BranchesTo m k t → k ≤ t

/-- Line `t` is pending in a state that absorbs `s`, or has been left behind with such a state. -/
def Settled (p : Module.Pass) (t : Nat) (s : ExecutionState) : Prop :=
  Pending p.work t s ∨
  ((∀ k v, (k, v) ∈ p.work → t < k) ∧
    ∃ l, p.lines[t]? = some l ∧ l.reached = true ∧ Absorbs l.incoming s)

theorem settled_accounts {m : Module} (hf : NoBackward m) {p p' : Module.Pass}
    (hsame : SameLines m p) (hg : GoodPass p) (hs : m.step p = .ok (some p')) :
    Accounts m Settled p p' := by
  refine ⟨fun t s h => .inl h, ?_⟩
  obtain ⟨k, state, rest, line, hw, hl, h1 | ⟨-, next, h1, h2, h3⟩⟩ := step_cases hs
  · intro t s h
    rw [h1.2.2]
    have hsort := hg.sorted
    rw [hw] at hsort
    have hlt := (List.pairwise_cons.mp hsort).1
    rcases h with ⟨v, hv, hc⟩ | ⟨hlt', h⟩
    · rw [hw] at hv
      rcases List.mem_cons.mp hv with h | h
      · cases h
        refine .inr ⟨fun k' v' hm => hlt _ hm, line, hl, h1.1, ?_⟩
        rw [h1.2.1]; exact hc
      · exact .inl ⟨v, h, hc⟩
    · exact .inr ⟨fun k' v' hm => hlt' k' v' (by rw [hw]; exact List.mem_cons_of_mem _ hm), h⟩
  · obtain ⟨-, -, -, v4, v5⟩ := visit_pending hg hl (hg.normal k state (by rw [hw]; simp)) h1 h2
    intro t s h
    rcases h with h | ⟨hlt, l, hl', hr, hc⟩
    · exact .inl (v4 t s h)
    · have htk : t < k := hlt k state (by rw [hw]; simp)
      refine .inr ⟨fun k' v' hm => ?_, l, ?_, hr, hc⟩
      · rcases v5 k' v' hm with ⟨s', hs'⟩ | ⟨rfl, -⟩ | ⟨i, name, hi, hb, hn, ht⟩
        · exact hlt k' s' hs'
        · omega
        · obtain ⟨l', hl0, hst, hsc⟩ := flow_original hsame hl
          have := hf k k' ⟨l', i, name, hl0, by rw [← hst]; exact hi, hb, hn, by rw [← hsc]; exact ht⟩
          omega
      · rw [h3, List.getElem?_set, if_neg (by omega)]
        exact hl'

end Nsasm
