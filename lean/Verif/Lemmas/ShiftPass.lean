import Verif.Lemmas.Shift

/-! # A line more in a file: the two passes over it -/

namespace Nsasm.Shift
open Spec Parse

/-- Both fail, or both succeed with related results. -/
def Both {α β : Type} (R : α → β → Prop) (x : Res α) (y : Res β) : Prop :=
  (∃ a b, x = .ok a ∧ y = .ok b ∧ R a b) ∨ ((∀ a, x ≠ .ok a) ∧ ∀ b, y ≠ .ok b)

theorem Both.ok {α β : Type} {R : α → β → Prop} {a : α} {b : β} (h : R a b) : Both R (.ok a) (.ok b) :=
  .inl ⟨a, b, rfl, rfl, h⟩

theorem Both.fail {α β : Type} {R : α → β → Prop} {x : Res α} {y : Res β} (hx : ∀ a, x ≠ .ok a) (hy : ∀ b, y ≠ .ok b) :
    Both R x y := .inr ⟨hx, hy⟩

theorem Both.bind {α β γ δ : Type} {R : α → β → Prop} {S : γ → δ → Prop} {x : Res α} {y : Res β} (h : Both R x y)
    {f : α → Res γ} {g : β → Res δ} (hk : ∀ a b, x = .ok a → R a b → Both S (f a) (g b)) : Both S (x >>= f) (y >>= g) := by
  rcases h with ⟨a, b, rfl, rfl, h⟩ | ⟨hx, hy⟩
  · exact hk a b rfl h
  · refine .fail (fun a ha => ?_) fun b hb => ?_
    · obtain ⟨x', hx', -⟩ := Res.bind_eq_ok.mp ha; exact hx x' hx'
    · obtain ⟨y', hy', -⟩ := Res.bind_eq_ok.mp hb; exact hy y' hy'

theorem Both.of_map {α β : Type} {f : α → β} {x : Res α} {y : Res β} (h : y = f <$> x) :
    Both (fun a b => x = .ok a ∧ b = f a) x y := by
  subst h
  cases x with
  | ok a => exact .ok ⟨rfl, rfl⟩
  | err e => exact .fail (fun _ h => nomatch h) fun _ h => nomatch h
  | ub u => exact .fail (fun _ h => nomatch h) fun _ h => nomatch h

theorem Both.mono {α β : Type} {R S : α → β → Prop} {x : Res α} {y : Res β} (h : Both R x y) (hRS : ∀ a b, x = .ok a → R a b → S a b) :
    Both S x y := by
  rcases h with ⟨a, b, rfl, rfl, h⟩ | h
  · exact .ok (hRS a b rfl h)
  · exact .inr h

/-- Execution does not pass from this statement to the next. -/
def Strong (st : Statement) : Prop := st.isExitInstruction = true ∨ ∀ es a, st.execute es ≠ .ok a

/-- What is asked of the place of a new line with the statement `st`: the line before it has a statement that is `good`, and is
changed by `φ`. -/
structure Site (p : Nat) (φ : Statement → Statement) (good : Statement → Prop) (st : Statement) : Prop where
  keeps : Keeps φ
  entry : ∀ s, good s → s.isDir .entry = false
  size : ∀ s, good s → s.serializedSize = (φ s).serializedSize + st.serializedSize
  fix : ∀ i i' f, good (.instr i) → i.fixAddressingMode f = .ok i' → good (.instr i')
  first : p = 0 → st.serializedSize = 0
  shape : ∀ s, good s → (φ s = s ∧ st.serializedSize = 0) ∨ ∃ d es es', s = .dir d ∧ d.name ∈ [DirectiveName.db, .dw, .dl] ∧
    d.list = es ++ es' ∧ es ≠ [] ∧ es' ≠ [] ∧ φ s = .dir { d with list := es } ∧ st = .dir { d with list := es' }
  inert : ∃ d, st = .dir d ∧ (d.name ∈ [DirectiveName.db, .dw, .dl] ∨
    (d.name = .equ ∧ (∀ ctx, ∃ v, d.argument.eval ctx = .ok v) ∧ ∀ f, d.argument.externalNames f = []))

/-- A new line in its place among the lines. -/
structure Near (p : Nat) (good : Statement → Prop) (st : Statement) (ls : List Line) (nl : Line) : Prop where
  le : p ≤ ls.length
  before : ∀ k l, k + 1 = p → ls[k]? = some l → good l.statement ∧
    (st.serializedSize = 0 ∨ nl.scopes = l.scopes.map (sh p))
  statement : nl.statement = st

variable {p : Nat} {φ : Statement → Statement} {good : Statement → Prop} {nst : Statement} {nl : Line}

theorem execute_keeps (h : Keeps φ) (st : Statement) (es : ExecutionState) : (φ st).execute es = st.execute es := by
  cases st with
  | instr i => rw [h.instr]
  | dir d => obtain ⟨es', he⟩ := h.dir d; rw [he]; rfl

theorem isExit_keeps (h : Keeps φ) (st : Statement) : (φ st).isExitInstruction = st.isExitInstruction := by
  cases st with
  | instr i => rw [h.instr]
  | dir d => obtain ⟨es', he⟩ := h.dir d; rw [he]; rfl

theorem isDir_keeps (h : Keeps φ) (st : Statement) (n : DirectiveName) : (φ st).isDir n = st.isDir n := by
  cases st with
  | instr i => rw [h.instr]
  | dir d => obtain ⟨es', he⟩ := h.dir d; rw [he]; rfl

theorem originAt_keeps (h : Keeps φ) (pc : Option Addr) (st : Statement) : Module.originAt pc (φ st) = Module.originAt pc st := by
  cases st with
  | instr i => rw [h.instr]
  | dir d => obtain ⟨es', he⟩ := h.dir d; rw [he]; rfl

theorem at_execute (h : Keeps φ) (q k : Nat) (l : Line) (es : ExecutionState) :
    (at_ p φ q k l).statement.execute es = l.statement.execute es := by
  rw [at_statement]; split
  · exact execute_keeps h _ _
  · rfl

theorem at_exit (h : Keeps φ) (q k : Nat) (l : Line) :
    (at_ p φ q k l).statement.isExitInstruction = l.statement.isExitInstruction := by
  rw [at_statement]; split
  · exact isExit_keeps h _
  · rfl

theorem at_instr (h : Keeps φ) (q k : Nat) (l : Line) :
    (at_ p φ q k l).statement.instruction? = l.statement.instruction? := by
  rw [at_statement]; split
  · cases l.statement with
    | instr i => rw [h.instr]
    | dir d => obtain ⟨es', he⟩ := h.dir d; rw [he]; rfl
  · rfl

/-! ## The analysis -/

def insPass (p : Nat) (φ : Statement → Statement) (nl : Line) (P : Module.Pass) : Module.Pass :=
  ⟨insAt p φ nl p P.lines, shWork p P.work⟩

theorem branchWork_ins (hφ : Keeps φ) {m : Module} (h : p ≤ m.lines.length) (l : Line) (k : Nat) (st : ExecutionState)
    (w : OMap ExecutionState) :
    (insModule p φ nl m).branchWork (at_ p φ p k l) st (shWork p w) = shWork p <$> m.branchWork l st w := by
  have hi := at_instr (p := p) hφ p k l
  unfold Module.branchWork
  simp only [at_scopes, localIndex_ins h]
  cases hs : l.statement with
  | dir d =>
    rw [hs] at hi
    cases hs' : (at_ p φ p k l).statement with
    | dir d' => rfl
    | instr i => rw [hs'] at hi; cases hi
  | instr i =>
    rw [hs] at hi
    cases hs' : (at_ p φ p k l).statement with
    | dir d' => rw [hs'] at hi; cases hi
    | instr i' =>
      rw [hs'] at hi
      cases hi
      simp only
      refine ite_ren Iff.rfl (fun _ => rfl) fun _ => ?_
      cases i.arg1.simpleIdentifier with
      | none => rfl
      | some target =>
        simp only
        cases m.localIndex target l.scopes with
        | none => rfl
        | some t =>
          refine test_ren rfl fun next => ?_
          show Res.ok _ = Res.ok _
          rw [addWork_sh]

theorem visit_ins (S : Site p φ good nst) {m : Module} (h : p ≤ m.lines.length) {P : Module.Pass} (hP : Near p good nst P.lines nl)
    {k : Nat} {l : Line} (hl : P.lines[k]? = some l) (hst : k + 1 = p → Strong l.statement) (st : ExecutionState) :
    (insModule p φ nl m).visit (insPass p φ nl P) (sh p k) (at_ p φ p k l) st = insPass p φ nl <$> m.visit P k l st := by
  unfold Module.visit
  rw [at_execute S.keeps, at_exit S.keeps]
  cases hx : l.statement.execute st with
  | err e => rfl
  | ub u => rfl
  | ok next =>
    simp only [Res.bind_ok]
    have hw : (if l.statement.isExitInstruction then (insPass p φ nl P).work
        else Module.addWork (insPass p φ nl P).work (sh p k + 1) next)
        = shWork p (if l.statement.isExitInstruction then P.work else Module.addWork P.work (k + 1) next) := by
      by_cases he : l.statement.isExitInstruction = true
      · rw [if_pos he, if_pos he]; rfl
      · rw [if_neg he, if_neg he]
        have hk : k + 1 ≠ p := by
          intro hk
          rcases hst hk with h1 | h1
          · exact he h1
          · exact h1 _ _ hx
        rw [← sh_succ hk]
        exact addWork_sh p P.work (k + 1) next
    rw [hw]
    refine bind_ren (branchWork_ins S.keeps h l k st _) fun w => ?_
    show Res.ok _ = Res.ok _
    congr 1
    simp only [insPass, insAt_set p k _ hP.le]
    congr 2
    unfold at_
    split <;> rfl

theorem near_set {ls : List Line} (h : Near p good nst ls nl) {k : Nat} {l l' : Line} (hl : ls[k]? = some l)
    (hs : l'.statement = l.statement) (hc : l'.scopes = l.scopes) : Near p good nst (ls.set k l') nl where
  le := by rw [List.length_set]; exact h.le
  before := by
    intro j x hj hx
    rw [List.getElem?_set] at hx
    split at hx
    · rename_i hkj
      subst hkj
      split at hx
      · cases hx
        rw [hs, hc]
        exact h.before k l hj hl
      · cases hx
    · exact h.before j x hj hx
  statement := h.statement

theorem visit_near {m : Module} {P P' : Module.Pass} (hP : Near p good nst P.lines nl) {k : Nat} {l : Line}
    (hl : P.lines[k]? = some l) {st : ExecutionState} (h : m.visit P k l st = .ok P') : Near p good nst P'.lines nl := by
  unfold Module.visit at h
  obtain ⟨next, -, h⟩ := Res.bind_eq_ok.mp h
  obtain ⟨w, -, h⟩ := Res.bind_eq_ok.mp h
  cases h
  exact near_set hP hl rfl rfl

theorem step_ins (S : Site p φ good nst) {m : Module} (h : p ≤ m.lines.length) {P : Module.Pass} (hP : Near p good nst P.lines nl)
    (hst : ∀ k s rest l, P.work = (k, s) :: rest → k + 1 = p → P.lines[k]? = some l → Strong l.statement) :
    (insModule p φ nl m).step (insPass p φ nl P) = Option.map (insPass p φ nl) <$> m.step P := by
  unfold Module.step
  show (match shWork p P.work with
    | [] => Res.ok none
    | (k, state) :: rest =>
      if k = (insAt p φ nl p P.lines).length then .err .pastEndOfFile
      else match (insAt p φ nl p P.lines)[k]? with
        | none => .ub .outOfBounds
        | some line =>
          if line.reached ∧ line.incoming = state then .ok (some { insPass p φ nl P with work := rest })
          else do
            let P ← (insModule p φ nl m).visit (insPass p φ nl P) k line state
            .ok (some P)) = _
  cases hw : P.work with
  | nil => rfl
  | cons x rest =>
    show (if sh p x.1 = (insAt p φ nl p P.lines).length then Res.err .pastEndOfFile else _) = _
    rw [insAt_length hP.le, insAt_get hP.le]
    have hlen : sh p x.1 = P.lines.length + 1 ↔ x.1 = P.lines.length := by
      have := hP.le
      unfold sh; split <;> omega
    refine ite_ren hlen (fun _ => rfl) fun _ => ?_
    cases hl : P.lines[x.1]? with
    | none => rfl
    | some l =>
      simp only [Option.map_some, at_reached, at_incoming]
      refine ite_ren Iff.rfl (fun _ => rfl) fun _ => ?_
      exact bind_ren (visit_ins S h hP hl (fun hk => hst x.1 x.2 rest l hw hk hl) x.2) fun _ => rfl

theorem step_near {m : Module} {P P' : Module.Pass} (hP : Near p good nst P.lines nl) (h : m.step P = .ok (some P')) :
    Near p good nst P'.lines nl := by
  unfold Module.step at h
  split at h
  · cases h
  · split at h
    · cases h
    · split at h
      · cases h
      · rename_i hl
        split at h
        · cases h; exact hP
        · obtain ⟨P1, h1, h⟩ := Res.bind_eq_ok.mp h
          cases h
          exact visit_near hP hl h1

/-- The line at the head of the stack will have been reached. -/
theorem head_reached {m : Module} {n : Nat} {P P' : Module.Pass} {k : Nat} {s : ExecutionState} {rest : OMap ExecutionState}
    (hw : P.work = (k, s) :: rest) (h : m.explore n P = .ok P') : ∃ l, P'.lines[k]? = some l ∧ l.reached = true := by
  cases n with
  | zero => cases h
  | succ n =>
    rw [Module.explore] at h
    obtain ⟨q, hq, h⟩ := Res.bind_eq_ok.mp h
    have keep : ∀ P P' : Module.Pass, (∃ l, P.lines[k]? = some l ∧ l.reached = true) → m.step P = .ok (some P') →
        ∃ l, P'.lines[k]? = some l ∧ l.reached = true := by
      rintro P P' ⟨l, hl, hr⟩ hs
      obtain ⟨k', state, rest, line, hw, hl', h1 | ⟨-, next, h1, h2, h3⟩⟩ := step_cases hs
      · rw [h1.2.2]; exact ⟨l, hl, hr⟩
      · rw [h3, List.getElem?_set]
        split
        · rename_i he
          subst he
          rw [if_pos (List.getElem?_eq_some_iff.mp hl).1]
          exact ⟨_, rfl, rfl⟩
        · exact ⟨l, hl, hr⟩
    cases q with
    | none =>
      unfold Module.step at hq
      rw [hw] at hq
      simp only at hq
      split at hq
      · cases hq
      · split at hq
        · cases hq
        · split at hq
          · cases hq
          · obtain ⟨q, -, hq⟩ := Res.bind_eq_ok.mp hq
            cases hq
    | some P1 =>
      refine (explore_induct (I := fun P => ∃ l, P.lines[k]? = some l ∧ l.reached = true) keep n P1 P' ?_ h).1
      obtain ⟨k', state, rest', line, hw', hl', h1 | ⟨-, next, h1, h2, h3⟩⟩ := step_cases hq
      · rw [hw] at hw'
        cases hw'
        rw [h1.2.2]; exact ⟨line, hl', h1.1⟩
      · rw [hw] at hw'
        cases hw'
        rw [h3, List.getElem?_set, if_pos rfl, if_pos (List.getElem?_eq_some_iff.mp hl').1]
        exact ⟨_, rfl, rfl⟩

/-- The line before the new one goes nowhere, or is not reached. -/
def QuietFor (p : Nat) (m m' : Module) (n : Nat) (P P' : Module.Pass) : Prop :=
  (∀ k l, k + 1 = p → P.lines[k]? = some l → Strong l.statement) ∨
  ((∀ Q, m.explore n P = .ok Q → ∀ k l, k + 1 = p → Q.lines[k]? = some l → l.reached = false) ∧
    ∀ Q, m'.explore n P' = .ok Q → ∀ k l, k + 1 = p → Q.lines[k]? = some l → l.reached = false)

theorem explore_ins (S : Site p φ good nst) {m : Module} (h : p ≤ m.lines.length) : ∀ (n : Nat) {P : Module.Pass},
    Near p good nst P.lines nl → QuietFor p m (insModule p φ nl m) n P (insPass p φ nl P) →
    Both (fun a b => b = insPass p φ nl a) (m.explore n P) ((insModule p φ nl m).explore n (insPass p φ nl P)) := by
  intro n
  induction n with
  | zero => intro P _ _; exact .fail (fun _ h => nomatch h) fun _ h => nomatch h
  | succ n ih =>
    intro P hP hq
    by_cases hst : ∀ k s rest l, P.work = (k, s) :: rest → k + 1 = p → P.lines[k]? = some l → Strong l.statement
    · have hs' := step_ins S h hP hst
      rw [Module.explore, Module.explore, hs']
      cases hs : m.step P with
      | err e => exact .fail (fun _ h => nomatch h) fun _ h => nomatch h
      | ub u => exact .fail (fun _ h => nomatch h) fun _ h => nomatch h
      | ok q =>
        cases q with
        | none => exact .ok rfl
        | some P' =>
          refine ih (step_near hP hs) ?_
          rcases hq with hq | ⟨hq, hq'⟩
          · left
            intro k l hk hl
            obtain ⟨k', state, rest, line, hw, hl', h1 | ⟨-, next, h1, h2, h3⟩⟩ := step_cases hs
            · rw [h1.2.2] at hl; exact hq k l hk hl
            · rw [h3, List.getElem?_set] at hl
              split at hl
              · rename_i he
                subst he
                split at hl
                · cases hl; exact hq _ line hk hl'
                · cases hl
              · exact hq k l hk hl
          · right
            refine ⟨fun Q hQ => hq Q ?_, fun Q hQ => hq' Q ?_⟩
            · rw [Module.explore, hs]; exact hQ
            · rw [Module.explore, hs', hs]; exact hQ
    · rcases hq with hq | ⟨hq, hq'⟩
      · exact absurd (fun k s rest l _ => hq k l) hst
      · simp only [not_forall] at hst
        obtain ⟨k, s, rest, l, hw, hk, -, -⟩ := hst
        refine .fail (fun Q hQ => ?_) fun Q hQ => ?_
        · obtain ⟨x, hx, hr⟩ := head_reached hw hQ
          rw [hq Q hQ k x hk hx] at hr; cases hr
        · have hw' : (insPass p φ nl P).work = (k, s) :: shWork p rest := by
            show shWork p P.work = _
            rw [hw]
            show (sh p k, s) :: _ = _
            rw [sh_lt (by omega)]; rfl
          obtain ⟨x, hx, hr⟩ := head_reached hw' hQ
          rw [hq' Q hQ k x hk hx] at hr; cases hr

theorem explore_near {m : Module} : ∀ (n : Nat) {P P' : Module.Pass}, Near p good nst P.lines nl → m.explore n P = .ok P' →
    Near p good nst P'.lines nl := by
  intro n
  induction n with
  | zero => intro P P' _ h; cases h
  | succ n ih =>
    intro P P' hP h
    rw [Module.explore] at h
    obtain ⟨q, hq, h⟩ := Res.bind_eq_ok.mp h
    cases q with
    | none => cases h; exact hP
    | some P1 => exact ih (step_near hP hq) h

theorem seeds_after (w : OMap ExecutionState) (i : Nat) (hi : p ≤ i) (ls : List Line) :
    Module.seeds (shWork p w) (i + 1) (ls.map (shLine p)) = shWork p (Module.seeds w i ls) := by
  induction ls generalizing w i with
  | nil => rfl
  | cons l ls ih =>
    rw [List.map_cons, Module.seeds, Module.seeds]
    show (match l.statement with | .dir d => _ | .instr _ => _) = _
    cases l.statement with
    | instr _ => exact ih w (i + 1) (by omega)
    | dir d =>
      simp only
      split
      · rw [show i + 1 + 1 = sh p (i + 1) from (sh_ge (by omega)).symm, addWork_sh, sh_ge (by omega)]
        exact ih _ (i + 1) (by omega)
      · exact ih w (i + 1) (by omega)

theorem seeds_dir {w : OMap ExecutionState} {i : Nat} {l : Line} (h : l.statement.isDir .entry = false) (ls : List Line) :
    Module.seeds w i (l :: ls) = Module.seeds w (i + 1) ls := by
  rw [Module.seeds]
  cases hs : l.statement with
  | instr _ => rfl
  | dir d =>
    rw [hs] at h
    have : d.name ≠ .entry := by simpa [Statement.isDir] using h
    simp [this]

theorem inert_entry (S : Site p φ good nst) : nst.isDir .entry = false := by
  obtain ⟨d, rfl, h | h⟩ := S.inert
  · simp only [List.mem_cons, List.not_mem_nil, or_false] at h
    rcases h with h | h | h <;> simp [Statement.isDir, h]
  · simp [Statement.isDir, h.1]

theorem seeds_ins (S : Site p φ good nst) (hn : nl.statement = nst) : ∀ (q : Nat) (ls : List Line) (w : OMap ExecutionState) (i : Nat),
    i + q = p → q ≤ ls.length → (∀ k l, k + 1 = q → ls[k]? = some l → good l.statement) →
    Module.seeds (shWork p w) i (insAt p φ nl q ls) = shWork p (Module.seeds w i ls) := by
  intro q
  induction q with
  | zero =>
    intro ls w i hi _ _
    rw [insAt, seeds_dir (by rw [hn]; exact inert_entry S)]
    exact seeds_after w i (by omega) ls
  | succ q ih =>
    intro ls w i hi hq hg
    cases ls with
    | nil => simp at hq
    | cons l ls =>
      rw [insAt]
      have hg' : ∀ k x, k + 1 = q → ls[k]? = some x → good x.statement := fun k x hk hx => hg (k + 1) x (by omega) (by simpa using hx)
      have ih' := fun w => ih ls w (i + 1) (by omega) (by simpa using hq) hg'
      by_cases h0 : q = 0
      · rw [if_pos h0]
        have he : l.statement.isDir .entry = false := S.entry _ (hg 0 l (by omega) rfl)
        rw [seeds_dir (l := markLine p φ l) (by show (φ l.statement).isDir .entry = false; rw [isDir_keeps S.keeps]; exact he),
          seeds_dir he]
        exact ih' w
      · rw [if_neg h0, Module.seeds, Module.seeds]
        show (match l.statement with | .dir d => _ | .instr _ => _) = _
        cases l.statement with
        | instr _ => exact ih' w
        | dir d =>
          simp only
          split
          · have : sh p (i + 1) = i + 1 := sh_lt (by omega)
            rw [← ih', ← addWork_sh, this]
          · exact ih' w

/-! ## Modes and addresses -/

theorem fixLines_after (ls : List Line) : Module.fixLines (ls.map (shLine p)) = List.map (shLine p) <$> Module.fixLines ls := by
  induction ls with
  | nil => rfl
  | cons l ls ih =>
    rw [List.map_cons, Module.fixLines, Module.fixLines]
    show (match l.statement with | .dir _ => _ | .instr i => _) = _
    cases l.statement with
    | dir d => exact bind_ren ih fun _ => rfl
    | instr i =>
      refine ite_ren Iff.rfl (fun _ => rfl) fun _ => ?_
      exact test_ren rfl fun j => bind_ren ih fun _ => rfl

theorem fixLines_ins (S : Site p φ good nst) (hn : nl.statement = nst) : ∀ (q : Nat) (ls : List Line), q ≤ ls.length →
    Module.fixLines (insAt p φ nl q ls) = insAt p φ nl q <$> Module.fixLines ls := by
  intro q
  induction q with
  | zero =>
    intro ls _
    obtain ⟨d, hd, -⟩ := S.inert
    rw [insAt, Module.fixLines, hn, hd]
    rw [fixLines_after]
    cases Module.fixLines ls <;> rfl
  | succ q ih =>
    intro ls hq
    cases ls with
    | nil => simp at hq
    | cons l ls =>
      have ih' := ih ls (by simpa using hq)
      rw [insAt, Module.fixLines, Module.fixLines]
      by_cases h0 : q = 0
      · rw [if_pos h0]
        show (match φ l.statement with | .dir _ => _ | .instr i => _) = _
        cases hs : l.statement with
        | dir d =>
          obtain ⟨es, he⟩ := S.keeps.dir d
          rw [he]
          refine bind_ren ih' fun ls' => ?_
          show Res.ok _ = Res.ok (insAt p φ nl (q + 1) (l :: ls'))
          rw [insAt, if_pos h0]
        | instr i =>
          rw [S.keeps.instr]
          refine ite_ren Iff.rfl (fun _ => rfl) fun _ => ?_
          refine test_ren rfl fun j => bind_ren ih' fun ls' => ?_
          show Res.ok _ = Res.ok (insAt p φ nl (q + 1) (_ :: ls'))
          rw [insAt, if_pos h0]
          simp only [markLine, S.keeps.instr]
      · rw [if_neg h0]
        show (match l.statement with | .dir _ => _ | .instr i => _) = _
        cases hs : l.statement with
        | dir d =>
          refine bind_ren ih' fun ls' => ?_
          show Res.ok _ = Res.ok (insAt p φ nl (q + 1) (l :: ls'))
          rw [insAt, if_neg h0]
        | instr i =>
          refine ite_ren Iff.rfl (fun _ => rfl) fun _ => ?_
          refine test_ren rfl fun j => bind_ren ih' fun ls' => ?_
          show Res.ok _ = Res.ok (insAt p φ nl (q + 1) (_ :: ls'))
          rw [insAt, if_neg h0]
          rfl

theorem fixLines_good (S : Site p φ good nst) : ∀ {ls ls' : List Line}, Module.fixLines ls = .ok ls' →
    List.Forall₂ (fun l l' => l'.scopes = l.scopes ∧ (good l.statement → good l'.statement)) ls ls' := by
  intro ls
  induction ls with
  | nil => intro ls' h; cases h; exact .nil
  | cons l ls ih =>
    intro ls' h
    rw [Module.fixLines] at h
    split at h
    · obtain ⟨ls1, h1, h⟩ := Res.bind_eq_ok.mp h
      cases h
      exact .cons ⟨rfl, id⟩ (ih h1)
    · rename_i i hs
      split at h
      · cases h
      · obtain ⟨j, hj, h⟩ := Res.bind_eq_ok.mp h
        obtain ⟨ls1, h1, h⟩ := Res.bind_eq_ok.mp h
        cases h
        refine .cons ⟨rfl, fun hg => ?_⟩ (ih h1)
        rw [hs] at hg
        exact S.fix i j _ hg hj

theorem near_forall {R : Line → Line → Prop} {ls ls' : List Line} (h : Near p good nst ls nl) (hR : List.Forall₂ R ls ls')
    (hs : ∀ l l', R l l' → l'.scopes = l.scopes ∧ (good l.statement → good l'.statement)) {v : Option Int} :
    Near p good nst ls' { nl with value := v } where
  le := by rw [← hR.length_eq]; exact h.le
  before := by
    intro k l' hk hl'
    have hlen := (List.getElem?_eq_some_iff.mp hl').1
    have hlt : k < ls.length := by rw [hR.length_eq]; exact hlen
    have hr := (List.forall₂_iff_get.mp hR).2 k hlt hlen
    have he : ls'[k] = l' := (List.getElem?_eq_some_iff.mp hl').2
    simp only [List.get_eq_getElem, he] at hr
    obtain ⟨h1, h2⟩ := hs _ _ hr
    obtain ⟨h3, h4⟩ := h.before k ls[k] hk (List.getElem?_eq_getElem hlt)
    exact ⟨h2 h3, by rw [h1]; exact h4⟩
  statement := h.statement

theorem layout_after (ls : List Line) (pc : Option Addr) :
    Module.layout pc (ls.map (shLine p)) = List.map (shLine p) <$> Module.layout pc ls := by
  induction ls generalizing pc with
  | nil => rfl
  | cons l ls ih =>
    rw [List.map_cons, Module.layout, Module.layout]
    show (Module.originAt pc l.statement >>= _) = _
    refine test_ren rfl fun pc' => ?_
    cases pc' with
    | none =>
      refine ite_ren Iff.rfl (fun _ => rfl) fun _ => ?_
      exact bind_ren (ih none) fun _ => rfl
    | some a =>
      refine bind_ren (ih _) fun ls' => ?_
      show Res.ok _ = Res.ok _
      by_cases he : l.statement.isDir .equ = true <;> simp [shLine, he]

theorem layout_forall : ∀ {ls ls' : List Line} {pc : Option Addr}, Module.layout pc ls = .ok ls' →
    List.Forall₂ (fun l l' => l'.scopes = l.scopes ∧ l'.statement = l.statement) ls ls' := by
  intro ls
  induction ls with
  | nil => intro ls' pc h; cases h; exact .nil
  | cons l ls ih =>
    intro ls' pc h
    rw [Module.layout] at h
    obtain ⟨pc', -, h⟩ := Res.bind_eq_ok.mp h
    cases pc' with
    | none =>
      simp only at h
      split at h
      · cases h
      · obtain ⟨ls1, h1, h⟩ := Res.bind_eq_ok.mp h
        cases h
        exact .cons ⟨rfl, rfl⟩ (ih h1)
    | some a =>
      obtain ⟨ls1, h1, h⟩ := Res.bind_eq_ok.mp h
      cases h
      refine .cons ?_ (ih h1)
      split <;> exact ⟨rfl, rfl⟩

theorem addWrapped_add (a : Addr) (m n : Nat) : Address.addWrapped (Address.addWrapped a m) n = Address.addWrapped a ((m + n : Nat) : Int) := by
  unfold Address.addWrapped
  omega

/-- The new line has the address after the changed part of the line before it. -/
def Placed (p : Nat) (φ : Statement → Statement) (nst : Statement) (ls : List Line) (v : Option Int) : Prop :=
  ∀ k l, k + 1 = p → ls[k]? = some l → 0 < nst.serializedSize →
    ∃ a, l.value = some (labelOfAddress a) ∧ v = some (labelOfAddress (Address.addWrapped a (φ l.statement).serializedSize))

theorem inert_origin (S : Site p φ good nst) (pc : Option Addr) : Module.originAt pc nst = .ok pc := by
  obtain ⟨d, rfl, h | h⟩ := S.inert
  · have : d.name ≠ .org := by
      intro h'; rw [h'] at h; simp at h
    simp [Module.originAt, this]
  · simp [Module.originAt, h.1]

theorem size_equ {st : Statement} (h : 0 < st.serializedSize) : st.isDir .equ = false := by
  cases st with
  | instr i => rfl
  | dir d =>
    cases he : Statement.isDir .equ (.dir d) with
    | false => rfl
    | true =>
      have : d.name = .equ := by simpa [Statement.isDir] using he
      simp [Statement.serializedSize, Directive.serializedSize, this] at h

/-- The new line, when there is an origin or it takes no space. -/
theorem layout_new (S : Site p φ good nst) (hn : nl.statement = nst) (ls : List Line) (pc : Option Addr)
    (h0 : pc = none → nst.serializedSize = 0) :
    Both (fun ls' ls'' => ∃ v, ls'' = { nl with value := v } :: ls'.map (shLine p) ∧
        ∀ a, pc = some a → 0 < nst.serializedSize → v = some (labelOfAddress a))
      (Module.layout (pc.map fun a => Address.addWrapped a nst.serializedSize) ls)
      (Module.layout pc (nl :: ls.map (shLine p))) := by
  subst hn
  rw [Module.layout, inert_origin S, Res.bind_ok]
  cases pc with
  | none =>
    simp only [Option.map_none]
    rw [if_neg (by rw [h0 rfl]; simp)]
    rw [layout_after]
    cases Module.layout none ls with
    | err e => exact .fail (fun _ h => nomatch h) fun _ h => nomatch h
    | ub e => exact .fail (fun _ h => nomatch h) fun _ h => nomatch h
    | ok ls' => exact .ok ⟨nl.value, rfl, fun _ h => nomatch h⟩
  | some a =>
    simp only [Option.map_some]
    rw [layout_after]
    cases Module.layout (some (Address.addWrapped a nl.statement.serializedSize)) ls with
    | err e => exact .fail (fun _ h => nomatch h) fun _ h => nomatch h
    | ub e => exact .fail (fun _ h => nomatch h) fun _ h => nomatch h
    | ok ls' =>
      show Both _ (Res.ok ls') (Res.ok (_ :: ls'.map (shLine p)))
      by_cases he : nl.statement.isDir .equ = true
      · rw [if_pos he]
        refine .ok ⟨nl.value, rfl, fun b _ hs => ?_⟩
        rw [size_equ hs] at he; cases he
      · rw [if_neg he]
        exact .ok ⟨some (labelOfAddress a), rfl, fun b hb _ => by cases hb; rfl⟩

theorem layout_ins (S : Site p φ good nst) (hn : nl.statement = nst) : ∀ (q : Nat) (ls : List Line) (pc : Option Addr), q ≤ ls.length →
    (q = 0 → nst.serializedSize = 0 ∧ pc = none) → (∀ k l, k + 1 = q → ls[k]? = some l → good l.statement) →
    Both (fun ls' ls'' => ∃ v, ls'' = insAt p φ { nl with value := v } q ls' ∧ Placed q φ nst ls' v)
      (Module.layout pc ls) (Module.layout pc (insAt p φ nl q ls)) := by
  intro q
  induction q with
  | zero =>
    intro ls pc _ h0 _
    obtain ⟨hz, hpc⟩ := h0 rfl
    subst hpc
    have := layout_new S hn ls none (fun _ => hz)
    rw [insAt]
    refine this.mono fun ls' ls'' _ ⟨v, h1, _⟩ => ⟨v, h1, ?_⟩
    intro k l hk; omega
  | succ q ih =>
    intro ls pc hq _ hg
    cases ls with
    | nil => simp at hq
    | cons l ls =>
      by_cases h0 : q = 0
      · subst h0
        have hgl := hg 0 l rfl rfl
        have hsz := S.size _ hgl
        rw [insAt, if_pos rfl, insAt, Module.layout, Module.layout]
        show Both _ (Module.originAt pc l.statement >>= _) (Module.originAt pc (φ l.statement) >>= _)
        rw [originAt_keeps S.keeps]
        cases ho : Module.originAt pc l.statement with
        | err e => exact .fail (fun _ h => nomatch h) fun _ h => nomatch h
        | ub e => exact .fail (fun _ h => nomatch h) fun _ h => nomatch h
        | ok pc' =>
          simp only [Res.bind_ok]
          show Both _ _ (match pc' with
            | none => if (φ l.statement).serializedSize > 0 then Res.err .noOrigin else _
            | some a => Module.layout (some (Address.addWrapped a (φ l.statement).serializedSize)) _ >>= _)
          have hk : ∀ (x : Line) (ls' : List Line) (v : Option Int), (0 < nst.serializedSize → ∃ a, x.value = some (labelOfAddress a) ∧
              v = some (labelOfAddress (Address.addWrapped a (φ x.statement).serializedSize))) → Placed (0 + 1) φ nst (x :: ls') v := by
            intro x ls' v h k y hk hy hs
            have : k = 0 := by omega
            subst this
            cases hy
            exact h hs
          cases pc' with
          | none =>
            simp only
            by_cases hs : l.statement.serializedSize > 0
            · rw [if_pos hs]
              refine .fail (fun _ h => nomatch h) ?_
              by_cases hs' : (φ l.statement).serializedSize > 0
              · rw [if_pos hs']; exact fun _ h => nomatch h
              · rw [if_neg hs']
                intro b hb
                obtain ⟨ls1, h1, -⟩ := Res.bind_eq_ok.mp hb
                rw [Module.layout, hn, inert_origin S, Res.bind_ok] at h1
                simp only at h1
                rw [if_pos (by omega)] at h1
                cases h1
            · rw [if_neg hs, if_neg (by omega)]
              refine Both.bind (layout_new S hn ls none fun _ => by omega) fun ls' ls'' _ ⟨v, h1, _⟩ => ?_
              subst h1
              refine .ok ⟨v, ?_, hk _ _ _ fun h => by omega⟩
              rw [insAt, if_pos rfl, insAt]
          | some a =>
            simp only
            have hb := layout_new S hn ls (some (Address.addWrapped a (φ l.statement).serializedSize)) (fun h => nomatch h)
            simp only [Option.map_some] at hb
            rw [addWrapped_add, ← hsz] at hb
            refine Both.bind hb fun ls' ls'' _ ⟨v, h1, h2⟩ => ?_
            subst h1
            have he : (markLine p φ l).statement.isDir .equ = l.statement.isDir .equ := isDir_keeps S.keeps _ _
            rw [he]
            by_cases hq : l.statement.isDir .equ = true
            · rw [if_pos hq, if_pos hq]
              refine .ok ⟨v, ?_, hk _ _ _ fun h => ?_⟩
              · rw [insAt, if_pos rfl, insAt]
              · rw [size_equ (by omega)] at hq; cases hq
            · rw [if_neg hq, if_neg hq]
              refine .ok ⟨v, ?_, hk _ _ _ fun h => ⟨a, rfl, h2 _ rfl h⟩⟩
              rw [insAt, if_pos rfl, insAt]; rfl
      · have hg' : ∀ k x, k + 1 = q → ls[k]? = some x → good x.statement := fun k x hk hx => hg (k + 1) x (by omega) (by simpa using hx)
        have ih' := fun pc => ih ls pc (by simpa using hq) (fun h => absurd h h0) hg'
        have hk : ∀ (x : Line) (ls' : List Line) (v : Option Int), Placed q φ nst ls' v → Placed (q + 1) φ nst (x :: ls') v := by
          intro x ls' v h k y hk hy hs
          obtain ⟨j, rfl⟩ : ∃ j, k = j + 1 := ⟨k - 1, by omega⟩
          exact h j y (by omega) (by simpa using hy) hs
        rw [insAt, if_neg h0, Module.layout, Module.layout]
        show Both _ (Module.originAt pc l.statement >>= _) (Module.originAt pc l.statement >>= _)
        cases ho : Module.originAt pc l.statement with
        | err e => exact .fail (fun _ h => nomatch h) fun _ h => nomatch h
        | ub e => exact .fail (fun _ h => nomatch h) fun _ h => nomatch h
        | ok pc' =>
          simp only [Res.bind_ok]
          cases pc' with
          | none =>
            simp only
            show Both _ _ (if l.statement.serializedSize > 0 then Res.err .noOrigin else _)
            by_cases hs : l.statement.serializedSize > 0
            · rw [if_pos hs, if_pos hs]; exact .fail (fun _ h => nomatch h) fun _ h => nomatch h
            · rw [if_neg hs, if_neg hs]
              refine Both.bind (ih' none) fun ls' ls'' _ ⟨v, h1, h2⟩ => ?_
              subst h1
              refine .ok ⟨v, ?_, hk _ _ _ h2⟩
              rw [insAt, if_neg h0]
          | some a =>
            simp only
            refine Both.bind (ih' _) fun ls' ls'' _ ⟨v, h1, h2⟩ => ?_
            subst h1
            refine .ok ⟨v, ?_, hk _ _ _ h2⟩
            rw [insAt, if_neg h0]
            show (if l.statement.isDir .equ then _ else _) :: _ = _
            split <;> rfl

end Nsasm.Shift
