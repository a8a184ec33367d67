import Verif.Lemmas.Flow
import Verif.Lemmas.Monotone

/-! # When the first pass accepts its input -/

namespace Nsasm
open Spec Props

/-- States attached to lines, which the analysis never leaves and in which it never fails. -/
structure Safe (m : Module) (P : Nat → ExecutionState → Prop) : Prop where
  normal : ∀ k s, P k s → NormalState s
  merge : ∀ k s t, P k s → P k t → P k (s.merge t)
  step : ∀ k s, P k s → ∃ l next, m.lines[k]? = some l ∧ l.statement.execute s = .ok next ∧
    (l.statement.isExitInstruction = false → P (k + 1) next) ∧
    ∀ i, l.statement = .instr i → i.isLocalBranch = true → ∃ name t nb,
      i.arg1.simpleIdentifier = some name ∧ m.localIndex name l.scopes = some t ∧
      i.executeBranch s = .ok nb ∧ P t nb

/-- What is pending is safe. -/
def WorkIn (P : Nat → ExecutionState → Prop) (w : OMap ExecutionState) : Prop := ∀ k s, (k, s) ∈ w → P k s

theorem workIn_add {m : Module} {P : Nat → ExecutionState → Prop} (hP : Safe m P) {w : OMap ExecutionState}
    (hs : OMap.Sorted w) (hw : WorkIn P w) {k : Nat} {s : ExecutionState} (h : P k s) :
    WorkIn P (Module.addWork w k s) := by
  intro k' s' hm
  have hf := OMap.find_of_mem (OMap.sorted_upsert hs k s) hm
  rw [OMap.find_upsert hs] at hf
  split at hf
  · next he =>
    subst he
    cases ho : OMap.find w k with
    | none => rw [ho] at hf; cases hf; exact h
    | some t => rw [ho] at hf; cases hf; exact hP.merge _ _ _ (hw k t (OMap.mem_of_find ho)) h
  · exact hw k' s' (OMap.mem_of_find hf)

/-- One round succeeds and stays safe. -/
theorem safe_step {m : Module} {P : Nat → ExecutionState → Prop} (hP : Safe m P) {p : Module.Pass}
    (hg : GoodPass p) (hsame : SameLines m p) (hw : WorkIn P p.work) :
    (p.work = [] ∧ m.step p = .ok none) ∨
    ∃ p', m.step p = .ok (some p') ∧ GoodPass p' ∧ SameLines m p' ∧ WorkIn P p'.work := by
  cases hwk : p.work with
  | nil => exact .inl ⟨rfl, by unfold Module.step; rw [hwk]⟩
  | cons n rest =>
    right
    obtain ⟨k, s⟩ := n
    have hPk : P k s := hw k s (by rw [hwk]; simp)
    obtain ⟨l', next, hl', hx, hnext, hbr⟩ := hP.step k s hPk
    obtain ⟨l, hl, hb⟩ := getElem?_bare hsame.symm hl'
    obtain ⟨hst, -, -, hsc, -⟩ := bare_fields hb
    have hne : ¬ k = p.lines.length := by
      have := (List.getElem?_eq_some_iff.mp hl).1; omega
    have key : ∃ p', m.step p = .ok (some p') ∧ WorkIn P p'.work := by
      unfold Module.step
      rw [hwk]
      simp only
      rw [if_neg hne, hl]
      simp only
      split
      · exact ⟨_, rfl, fun k' s' hm => hw k' s' (by rw [hwk]; exact List.mem_cons_of_mem _ hm)⟩
      · unfold Module.visit
        rw [← hst, hx]
        simp only [Res.bind_ok]
        have hw1 : OMap.Sorted (if l'.statement.isExitInstruction then p.work else Module.addWork p.work (k + 1) next) ∧
            WorkIn P (if l'.statement.isExitInstruction then p.work else Module.addWork p.work (k + 1) next) := by
          split
          · exact ⟨hg.sorted, hw⟩
          · rename_i hn
            exact ⟨OMap.sorted_upsert hg.sorted _ _, workIn_add hP hg.sorted hw (hnext (by simpa using hn))⟩
        generalize (if l'.statement.isExitInstruction then p.work else Module.addWork p.work (k + 1) next) = w1 at hw1 ⊢
        obtain ⟨w2, hw2, hw3⟩ : ∃ w2, m.branchWork l s w1 = .ok w2 ∧ WorkIn P w2 := by
          unfold Module.branchWork
          rw [← hst]
          cases hs' : l'.statement with
          | dir d => exact ⟨w1, rfl, hw1.2⟩
          | instr i =>
            simp only
            by_cases hlb : i.isLocalBranch = true
            · obtain ⟨name, t, nb, h1, h2, h3, h4⟩ := hbr i hs' hlb
              rw [hlb]
              simp only [Bool.not_true, Bool.false_eq_true, if_false]
              rw [h1]
              simp only
              rw [← hsc, h2]
              simp only
              rw [h3]
              exact ⟨_, rfl, workIn_add hP hw1.1 hw1.2 h4⟩
            · simp only [hlb, Bool.not_false, if_true]
              exact ⟨w1, rfl, hw1.2⟩
        rw [hw2]
        exact ⟨_, rfl, hw3⟩
    obtain ⟨p', h1, h2⟩ := key
    exact ⟨p', h1, good_step hg h1, sameLines_step hsame h1, h2⟩

/-- The analysis of a safe module succeeds. -/
theorem safe_explore {m : Module} {P : Nat → ExecutionState → Prop} (hP : Safe m P)
    (hwr : ∀ l ∈ m.lines, StatementWritten l.statement) (hseed : WorkIn P (Module.seeds [] 0 m.lines)) :
    ∃ N p, ∀ n, N ≤ n → m.explore n ⟨m.lines, Module.seeds [] 0 m.lines⟩ = .ok p := by
  obtain ⟨s1, s2⟩ := seeds_good m.lines 0 [] List.Pairwise.nil (by simp) hwr
  have hg : GoodPass ⟨m.lines, Module.seeds [] 0 m.lines⟩ := ⟨s1, s2, hwr⟩
  obtain ⟨N, r, hr, hN⟩ := halts_all m _ hg
  have key : ∀ (n : Nat) (p : Module.Pass), GoodPass p → SameLines m p → WorkIn P p.work →
      (∃ q, m.explore n p = .ok q) ∨ m.explore n p = .err .steps := by
    intro n
    induction n with
    | zero => intro p _ _ _; exact .inr rfl
    | succ n ih =>
      intro p g1 g2 g3
      rw [Module.explore]
      rcases safe_step hP g1 g2 g3 with ⟨-, h⟩ | ⟨p', h, g1', g2', g3'⟩
      · rw [h]; exact .inl ⟨p, rfl⟩
      · rw [h]; exact ih p' g1' g2' g3'
  have hNN := hN N (Nat.le_refl _)
  rcases key N _ hg rfl hseed with ⟨q, hq⟩ | hq
  · refine ⟨N, q, fun n hn => ?_⟩
    rw [hN n hn, ← hNN, hq]
  · exfalso
    rw [hNN] at hq
    subst hq
    exact absurd hr (by simp [Res.NoSteps])

/-- What is seeded is safe. -/
theorem seeds_workIn {m : Module} {P : Nat → ExecutionState → Prop} (hP : Safe m P) (ls : List Line) :
    ∀ (i : Nat) (w : OMap ExecutionState), OMap.Sorted w → WorkIn P w →
    (∀ (j : Nat) (l : Line) (d : Directive), ls[j]? = some l → l.statement = .dir d → d.name = .entry →
      P (i + j + 1) (.init d.flags)) → WorkIn P (Module.seeds w i ls) := by
  induction ls with
  | nil => intro i w _ h _; exact h
  | cons l ls ih =>
    intro i w hs hw h
    have ht : ∀ (j : Nat) (q : Line) (d : Directive), ls[j]? = some q → q.statement = .dir d → d.name = .entry →
        P (i + 1 + j + 1) (.init d.flags) := by
      intro j q d h1 h2 h3
      have := h (j + 1) q d (by simpa using h1) h2 h3
      rwa [show i + (j + 1) + 1 = i + 1 + j + 1 by omega] at this
    rw [Module.seeds]
    split
    · rename_i d hd
      split
      · rename_i he
        refine ih (i + 1) _ (OMap.sorted_upsert hs _ _) (workIn_add hP hs hw ?_) ht
        exact h 0 l d rfl hd he
      · exact ih (i + 1) w hs hw ht
    · exact ih (i + 1) w hs hw ht

/-- In what lines are reached is safe. -/
def ReachedIn (P : Nat → ExecutionState → Prop) (p : Module.Pass) : Prop :=
  ∀ (k : Nat) (l : Line), p.lines[k]? = some l → l.reached = true → P k l.incoming

theorem safe_reached {m : Module} {P : Nat → ExecutionState → Prop} (hP : Safe m P)
    (hwr : ∀ l ∈ m.lines, StatementWritten l.statement) (hseed : WorkIn P (Module.seeds [] 0 m.lines))
    (hfresh : ∀ (k : Nat) (l : Line), m.lines[k]? = some l → l.reached = false) {fuel : Nat} {p : Module.Pass}
    (h : m.explore fuel ⟨m.lines, Module.seeds [] 0 m.lines⟩ = .ok p) : ReachedIn P p := by
  obtain ⟨s1, s2⟩ := seeds_good m.lines 0 [] List.Pairwise.nil (by simp) hwr
  refine (explore_induct (m := m)
    (I := fun p => GoodPass p ∧ SameLines m p ∧ WorkIn P p.work ∧ ReachedIn P p) ?_ fuel ⟨m.lines, Module.seeds [] 0 m.lines⟩ p
    ⟨⟨s1, s2, hwr⟩, rfl, hseed, fun k l hl hr => absurd hr (by rw [hfresh k l hl]; simp)⟩ h).1.2.2.2
  rintro p p' ⟨a, b, c, d⟩ hs
  have hp := safe_step hP a b c
  rw [hs] at hp
  rcases hp with ⟨-, hp⟩ | ⟨q, hq, g1, g2, g3⟩
  · cases hp
  · cases hq
    refine ⟨g1, g2, g3, ?_⟩
    obtain ⟨k, state, rest, line, hw, hl, h1 | ⟨-, next, h1, h2, h3⟩⟩ := step_cases hs
    · rw [h1.2.2]; exact d
    · intro k' l' hl' hr'
      rw [h3, List.getElem?_set] at hl'
      split at hl'
      · next he =>
        subst he
        split at hl'
        · cases hl'
          exact c k state (by rw [hw]; simp)
        · cases hl'
      · exact d k' l' hl' hr'

/-- After the analysis every reachable line is reached. -/
theorem reachable_reached {m : Module} (hwr : ∀ l ∈ m.lines, StatementWritten l.statement)
    (hfresh : ∀ (k : Nat) (l : Line), m.lines[k]? = some l → l.reached = false) {fuel : Nat} {p : Module.Pass}
    (he : m.explore fuel ⟨m.lines, Module.seeds [] 0 m.lines⟩ = .ok p) {k : Nat} (hk : Reachable m k) :
    ∃ c, p.lines[k]? = some c ∧ c.reached = true := by
  obtain ⟨hD, hE, hw, hS, -⟩ := explored_accounts (K := Seen)
    (fun p p' _ hg hs => seen_accounts hg hs) (fun t s ⟨v, hv, _⟩ => .inl ⟨v, hv⟩) hwr hfresh he
  have hseen : ∀ t s, Seen p t s → ∃ l, p.lines[t]? = some l ∧ l.reached = true := by
    intro t s h
    rcases h with ⟨v, hv⟩ | h
    · rw [hw] at hv; cases hv
    · exact h
  induction hk with
  | entry h => exact hseen _ _ (hE _ _ h)
  | @next k _ hf ih =>
    obtain ⟨c, hc, hr⟩ := ih
    obtain ⟨⟨next, hn, hK⟩, -⟩ := hD k c hc hr
    obtain ⟨l0, h0, hns⟩ := hf
    obtain ⟨l', hl', hst, -⟩ := flow_original hS hc
    rw [h0] at hl'; cases hl'
    exact hseen _ _ (hK (by rw [hst]; exact hns))
  | @branch k t _ hb ih =>
    obtain ⟨c, hc, hr⟩ := ih
    obtain ⟨l0, i, name, h0, hi, hmb, hnm, ht⟩ := hb
    obtain ⟨l', hl', hst, hsc⟩ := flow_original hS hc
    rw [h0] at hl'; cases hl'
    obtain ⟨name', t', nb, e1, e2, -, hK⟩ := (hD k c hc hr).2 i (by rw [hst]; exact hi) hmb
    rw [hnm] at e1; cases e1
    rw [hsc, ht] at e2; cases e2
    exact hseen _ _ hK

theorem fixLines_ok {ls : List Line} (h : ∀ l ∈ ls, ∀ i, l.statement = .instr i → l.reached = true ∧
    ∃ j, i.fixAddressingMode l.incoming.flags = .ok j) : ∃ ls', Module.fixLines ls = .ok ls' := by
  induction ls with
  | nil => exact ⟨[], rfl⟩
  | cons l ls ih =>
    obtain ⟨ls', h'⟩ := ih fun q hq => h q (by simp [hq])
    rw [Module.fixLines]
    cases hs : l.statement with
    | dir d => simp only [h', Res.bind_ok]; exact ⟨_, rfl⟩
    | instr i =>
      obtain ⟨h1, j, h2⟩ := h l (by simp) i hs
      simp only [h1, h2, h', Res.bind_ok, Bool.not_true, Bool.false_eq_true, if_false]
      exact ⟨_, rfl⟩

/-- The analysis of a safe module and the choice of addressing modes succeed. -/
theorem safe_fixes {m : Module} {P : Nat → ExecutionState → Prop} (hP : Safe m P)
    (hwr : ∀ l ∈ m.lines, StatementWritten l.statement)
    (hseed : ∀ i f, DeclaresEntry m i f → P (i + 1) (.init f))
    (hfresh : ∀ (k : Nat) (l : Line), m.lines[k]? = some l → l.reached = false)
    (hfix : ∀ (k : Nat) (l : Line) (i : Instruction), m.lines[k]? = some l → l.statement = .instr i →
      Reachable m k ∧ ∀ s, P k s → ∃ j, i.fixAddressingMode s.flags = .ok j) :
    ∃ N p ls, Module.fixLines p.lines = .ok ls ∧ SameLines m p ∧ ReachedIn P p ∧
      (∀ k, Reachable m k → ∃ c, p.lines[k]? = some c ∧ c.reached = true) ∧
      ∀ n, N ≤ n → m.explore n ⟨m.lines, Module.seeds [] 0 m.lines⟩ = .ok p := by
  have hs : WorkIn P (Module.seeds [] 0 m.lines) := by
    refine seeds_workIn hP m.lines 0 [] List.Pairwise.nil (by intro k s h; cases h) ?_
    intro j l d h1 h2 h3
    have := hseed j d.flags ⟨l, d, h1, h2, h3, rfl⟩
    rwa [Nat.zero_add]
  obtain ⟨N, p, hN⟩ := safe_explore hP hwr hs
  have he := hN N (Nat.le_refl _)
  have hsame := explored_same he
  have hin := safe_reached hP hwr hs hfresh he
  have hall := fun k (hk : Reachable m k) => reachable_reached hwr hfresh he hk
  obtain ⟨ls, hls⟩ := fixLines_ok (ls := p.lines) (by
    intro l hl i hi
    obtain ⟨k, hk⟩ := List.getElem?_of_mem hl
    obtain ⟨l', hl', hst, -⟩ := flow_original hsame hk
    obtain ⟨h1, h2⟩ := hfix k l' i hl' (hst ▸ hi)
    obtain ⟨c, hc, hr⟩ := hall k h1
    rw [hk] at hc; cases hc
    exact ⟨hr, h2 _ (hin k l hk hr)⟩)
  exact ⟨N, p, ls, hls, hsame, hin, hall, hN⟩

end Nsasm
