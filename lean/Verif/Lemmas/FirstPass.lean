import Verif.Lemmas.Loader
import Verif.Spec.Flow

/-! # Facts about the first pass -/

namespace Nsasm
open Spec

theorem stops_iff (st : Statement) : st.isExitInstruction = true ↔ Stops st := by
  cases st with
  | instr i =>
    simp only [Statement.isExitInstruction, Instruction.isExitInstruction, Stops]
    cases i.ret <;> simp [ReturnConvention.isExitCall]
  | dir d => simp [Statement.isExitInstruction, Directive.isExitInstruction, Stops]

theorem mayBranch_iff (i : Instruction) : i.isLocalBranch = true ↔ MayBranch i := by
  simp [Instruction.isLocalBranch, MayBranch]

/-- A line without what the analysis records in it. -/
def bare (l : Line) : Line := { l with reached := false, incoming := .default }

theorem getElem?_bare {ls ls' : List Line} (h : ls.map bare = ls'.map bare) {k : Nat} {l : Line}
    (hl : ls[k]? = some l) : ∃ l', ls'[k]? = some l' ∧ bare l = bare l' := by
  have h1 : (ls.map bare)[k]? = some (bare l) := by rw [List.getElem?_map, hl]; rfl
  rw [h, List.getElem?_map] at h1
  cases h2 : ls'[k]? with
  | none => rw [h2] at h1; cases h1
  | some l' => rw [h2] at h1; simp at h1; exact ⟨l', rfl, h1.symm⟩

theorem bare_fields {l l' : Line} (h : bare l = bare l') :
    l.statement = l'.statement ∧ l.labels = l'.labels ∧ l.value = l'.value ∧ l.scopes = l'.scopes ∧
      l.locals = l'.locals := by
  simp [bare] at h
  exact ⟨h.1, h.2.1, h.2.2.1, h.2.2.2.1, h.2.2.2.2⟩

theorem bare_reach (l : Line) (s : ExecutionState) : bare (Module.reach l s) = bare l := rfl

/-! ## Work lists -/

theorem upsert_mem {ν : Type} {f : ν → ν} {m : OMap ν} {k k' : Nat} {v w : ν}
    (h : (k', w) ∈ m.upsert f k v) : k' = k ∨ (k', w) ∈ m := by
  induction m with
  | nil => simp [OMap.upsert] at h; exact .inl h.1
  | cons a m ih =>
    obtain ⟨ka, va⟩ := a
    rw [OMap.upsert] at h
    split at h
    · rw [List.mem_cons] at h ⊢
      rcases h with h | h
      · exact .inr (.inl h)
      · rcases ih h with h | h
        · exact .inl h
        · exact .inr (.inr h)
    · split at h
      · next hk =>
        subst hk
        rw [List.mem_cons] at h ⊢
        rcases h with h | h
        · cases h; exact .inl rfl
        · exact .inr (.inr h)
      · rw [List.mem_cons] at h
        rcases h with h | h
        · cases h; exact .inl rfl
        · exact .inr h

/-- `P` holds of every key on the stack. -/
def KeysSat (P : Nat → Prop) (work : OMap ExecutionState) : Prop := ∀ k s, (k, s) ∈ work → P k

theorem keysSat_add {P : Nat → Prop} {work : OMap ExecutionState} (h : KeysSat P work) {k : Nat}
    (hk : P k) (s : ExecutionState) : KeysSat P (Module.addWork work k s) := by
  intro k' s' hm
  rcases upsert_mem hm with rfl | hm
  · exact hk
  · exact h k' s' hm

theorem seeds_keys {P : Nat → Prop} (ls : List Line) : ∀ (i : Nat) (work : OMap ExecutionState),
    KeysSat P work →
    (∀ k l d, ls[k]? = some l → l.statement = .dir d → d.name = .entry → P (i + k + 1)) →
    KeysSat P (Module.seeds work i ls) := by
  induction ls with
  | nil => intro i work h _; exact h
  | cons l ls ih =>
    intro i work h hP
    rw [Module.seeds]
    have htail : ∀ k l' d, ls[k]? = some l' → l'.statement = .dir d → d.name = .entry →
        P (i + 1 + k + 1) := by
      intro k l' d h1 h2 h3
      have := hP (k + 1) l' d (by simpa using h1) h2 h3
      rw [show i + 1 + k + 1 = i + (k + 1) + 1 by omega]
      exact this
    cases hs : l.statement with
    | instr x => exact ih (i + 1) work h htail
    | dir d =>
      simp only
      split
      · next he => exact ih (i + 1) _ (keysSat_add h (by simpa using hP 0 l d rfl hs he) _) htail
      · exact ih (i + 1) work h htail

/-! ## The analysis loop -/

/-- What a round does when it does not stop. -/
theorem step_cases {m : Module} {p p' : Module.Pass} (h : m.step p = .ok (some p')) :
    ∃ k state rest line, p.work = (k, state) :: rest ∧ p.lines[k]? = some line ∧
      ((line.reached = true ∧ line.incoming = state ∧ p' = ⟨p.lines, rest⟩) ∨
       (¬ (line.reached = true ∧ line.incoming = state) ∧
        ∃ next, line.statement.execute state = .ok next ∧
        m.branchWork line state
          (if line.statement.isExitInstruction then p.work else Module.addWork p.work (k + 1) next)
          = .ok p'.work ∧
        p'.lines = p.lines.set k (Module.reach line state))) := by
  unfold Module.step at h
  cases hw : p.work with
  | nil => rw [hw] at h; simp at h
  | cons n rest =>
    obtain ⟨k, state⟩ := n
    rw [hw] at h
    simp only at h
    split at h
    · cases h
    · cases hl : p.lines[k]? with
      | none => rw [hl] at h; cases h
      | some line =>
        rw [hl] at h
        simp only at h
        refine ⟨k, state, rest, line, rfl, hl, ?_⟩
        by_cases hr : line.reached = true ∧ line.incoming = state
        · rw [if_pos hr] at h
          simp at h
          exact .inl ⟨hr.1, hr.2, h.symm⟩
        · rw [if_neg hr] at h
          replace h := Res.bind_eq_ok.mp h
          obtain ⟨q, hq, h⟩ := h
          simp at h
          subst h
          unfold Module.visit at hq
          replace hq := Res.bind_eq_ok.mp hq
          obtain ⟨next, hn, hq⟩ := hq
          replace hq := Res.bind_eq_ok.mp hq
          obtain ⟨work, hb, hq⟩ := hq
          simp at hq
          refine .inr ⟨hr, next, hn, ?_, by rw [← hq]⟩
          rw [← hq, ← hw]
          exact hb

theorem branchWork_cases {m : Module} {line : Line} {state : ExecutionState}
    {work work' : OMap ExecutionState} (h : m.branchWork line state work = .ok work') :
    ((∀ i, line.statement = .instr i → ¬ MayBranch i) ∧ work' = work) ∨
    (∃ i name t next, line.statement = .instr i ∧ MayBranch i ∧
      i.arg1.simpleIdentifier = some name ∧ m.localIndex name line.scopes = some t ∧
      i.executeBranch state = .ok next ∧ work' = Module.addWork work t next) := by
  unfold Module.branchWork at h
  cases hs : line.statement with
  | dir d =>
    rw [hs] at h
    simp at h
    exact .inl ⟨by simp, h.symm⟩
  | instr i =>
    rw [hs] at h
    simp only at h
    by_cases hb : i.isLocalBranch = true
    · rw [if_neg (by simp [hb])] at h
      right
      cases hn : i.arg1.simpleIdentifier with
      | none => rw [hn] at h; cases h
      | some name =>
        rw [hn] at h
        simp only at h
        cases ht : m.localIndex name line.scopes with
        | none => rw [ht] at h; cases h
        | some t =>
          rw [ht] at h
          simp only at h
          replace h := Res.bind_eq_ok.mp h
          obtain ⟨next, h1, h⟩ := h
          simp at h
          exact ⟨i, name, t, next, rfl, (mayBranch_iff i).mp hb, hn, ht, h1, h.symm⟩
    · rw [if_pos (by simp [hb])] at h
      simp at h
      refine .inl ⟨?_, h.symm⟩
      intro j hj
      cases hj
      rwa [← mayBranch_iff]

theorem explore_induct {m : Module} {I : Module.Pass → Prop}
    (hstep : ∀ p p', I p → m.step p = .ok (some p') → I p') :
    ∀ (n : Nat) (p p' : Module.Pass), I p → m.explore n p = .ok p' → I p' ∧ p'.work = [] := by
  intro n
  induction n with
  | zero => intro p p' _ h; cases h
  | succ n ih =>
    intro p p' hI h
    rw [Module.explore] at h
    replace h := Res.bind_eq_ok.mp h
    obtain ⟨o, ho, h⟩ := h
    cases o with
    | none =>
      simp at h
      subst h
      refine ⟨hI, ?_⟩
      unfold Module.step at ho
      cases hw : p.work with
      | nil => rfl
      | cons a r =>
        rw [hw] at ho
        simp only at ho
        split at ho
        · cases ho
        · split at ho
          · cases ho
          · split at ho
            · cases ho
            · replace ho := Res.bind_eq_ok.mp ho
              obtain ⟨q, -, ho⟩ := ho
              cases ho
    | some q => exact ih q p' (hstep p q hI ho) h

/-- The analysis only changes what it records. -/
def SameLines (m : Module) (p : Module.Pass) : Prop := p.lines.map bare = m.lines.map bare

theorem sameLines_step {m : Module} {p p' : Module.Pass} (h : SameLines m p)
    (hs : m.step p = .ok (some p')) : SameLines m p' := by
  obtain ⟨k, state, rest, line, hw, hl, h1 | ⟨-, next, h1, h2, h3⟩⟩ := step_cases hs
  · rw [h1.2.2]; exact h
  · unfold SameLines at *
    rw [h3, List.map_set, bare_reach, ← h]
    apply List.ext_getElem?
    intro j
    rw [List.getElem?_set]
    split
    · next he =>
      subst he
      rw [List.getElem?_map, hl]
      simp [(List.getElem?_eq_some_iff.mp hl).1]
    · rfl

theorem explored_same {m : Module} {fuel : Nat} {w : OMap ExecutionState} {p : Module.Pass}
    (h : m.explore fuel ⟨m.lines, w⟩ = .ok p) : SameLines m p :=
  (explore_induct (I := SameLines m) (fun _ _ => sameLines_step) fuel ⟨m.lines, w⟩ p rfl h).1

/-- Keys and reached lines are reachable, and a reached line executes in the state
recorded for it. -/
structure Analysed (m : Module) (p : Module.Pass) : Prop where
  same : SameLines m p
  work : KeysSat (Reachable m) p.work
  reached : ∀ k l, p.lines[k]? = some l → l.reached = true →
    Reachable m k ∧ ∃ next, l.statement.execute l.incoming = .ok next

theorem flow_original {m : Module} {p : Module.Pass} (h : SameLines m p) {k : Nat} {l : Line}
    (hl : p.lines[k]? = some l) : ∃ l', m.lines[k]? = some l' ∧ l.statement = l'.statement ∧
      l.scopes = l'.scopes := by
  obtain ⟨l', h1, h2⟩ := getElem?_bare h hl
  exact ⟨l', h1, (bare_fields h2).1, (bare_fields h2).2.2.2.1⟩

theorem analysed_step {m : Module} {p p' : Module.Pass} (h : Analysed m p)
    (hs : m.step p = .ok (some p')) : Analysed m p' := by
  have hsame := sameLines_step h.same hs
  obtain ⟨k, state, rest, line, hw, hl, h1 | ⟨-, next, h1, h2, h3⟩⟩ := step_cases hs
  · rw [h1.2.2] at hsame ⊢
    exact ⟨hsame, fun k' s' hm => h.work k' s' (by rw [hw]; exact List.mem_cons_of_mem _ hm), h.reached⟩
  · have hk : Reachable m k := h.work k state (by rw [hw]; simp)
    obtain ⟨l', hl', hst, hsc⟩ := flow_original h.same hl
    have hwork : KeysSat (Reachable m)
        (if line.statement.isExitInstruction then p.work else Module.addWork p.work (k + 1) next) := by
      split
      · exact h.work
      · next hx =>
        refine keysSat_add h.work (.next hk ⟨l', hl', ?_⟩) _
        rw [← hst, ← stops_iff]
        exact hx
    refine ⟨hsame, ?_, ?_⟩
    · rcases branchWork_cases h2 with ⟨-, h4⟩ | ⟨i, name, t, nx, a1, a2, a3, a4, a5, a6⟩
      · rw [h4]; exact hwork
      · rw [a6]
        refine keysSat_add hwork (.branch hk ⟨l', i, name, hl', ?_, a2, a3, ?_⟩) _
        · rw [← hst]; exact a1
        · rw [← hsc]; exact a4
    · intro k' q hq hr
      rw [h3, List.getElem?_set] at hq
      split at hq
      · next he =>
        subst he
        split at hq
        · cases hq
          exact ⟨hk, next, h1⟩
        · cases hq
      · exact h.reached k' q hq hr

theorem analysed_init {m : Module} (hf : ∀ (k : Nat) (l : Line), m.lines[k]? = some l → l.reached = false) :
    Analysed m ⟨m.lines, Module.seeds [] 0 m.lines⟩ := by
  refine ⟨rfl, ?_, ?_⟩
  · refine seeds_keys _ 0 [] (by intro k s h; simp at h) ?_
    intro k l d h1 h2 h3
    rw [Nat.zero_add]
    exact .entry ⟨l, d, h1, h2, h3, rfl⟩
  · intro k l hl hr
    rw [hf k l hl] at hr
    cases hr

/-! ## Fixing addressing modes and layout -/

/-- What the addressing-mode loop does to a line. -/
def FixRel (l l' : Line) : Prop :=
  match l.statement with
  | .dir _ => l' = l
  | .instr i => l.reached = true ∧ ∃ j, i.fixAddressingMode l.incoming.flags = .ok j ∧
      l' = { l with statement := .instr j }

theorem fixLines_rel {ls : List Line} : ∀ {ls' : List Line}, Module.fixLines ls = .ok ls' →
    List.Forall₂ FixRel ls ls' := by
  induction ls with
  | nil => intro ls' h; simp [Module.fixLines] at h; subst h; exact .nil
  | cons l ls ih =>
    intro ls' h
    rw [Module.fixLines] at h
    cases hs : l.statement with
    | dir d =>
      rw [hs] at h
      simp only at h
      replace h := Res.bind_eq_ok.mp h
      obtain ⟨r, hr, h⟩ := h
      simp at h
      subst h
      exact .cons (by unfold FixRel; rw [hs]) (ih hr)
    | instr i =>
      rw [hs] at h
      simp only at h
      split at h
      · cases h
      · next hreach =>
        replace h := Res.bind_eq_ok.mp h
        obtain ⟨j, hj, h⟩ := h
        replace h := Res.bind_eq_ok.mp h
        obtain ⟨r, hr, h⟩ := h
        simp at h
        subst h
        refine .cons ?_ (ih hr)
        unfold FixRel
        rw [hs]
        exact ⟨by simpa using hreach, j, hj, rfl⟩

/-- What the layout loop does to a line. -/
def LayRel (l l' : Line) : Prop := l' = { l with value := l'.value }

theorem layout_rel {ls : List Line} : ∀ {pc : Option Addr} {ls' : List Line},
    Module.layout pc ls = .ok ls' → List.Forall₂ LayRel ls ls' := by
  induction ls with
  | nil => intro pc ls' h; simp [Module.layout] at h; subst h; exact .nil
  | cons l ls ih =>
    intro pc ls' h
    rw [Module.layout] at h
    replace h := Res.bind_eq_ok.mp h
    obtain ⟨o, ho, h⟩ := h
    cases o with
    | none =>
      simp only at h
      split at h
      · cases h
      · replace h := Res.bind_eq_ok.mp h
        obtain ⟨r, hr, h⟩ := h
        simp at h
        subst h
        exact .cons rfl (ih hr)
    | some a =>
      simp only at h
      replace h := Res.bind_eq_ok.mp h
      obtain ⟨r, hr, h⟩ := h
      simp at h
      subst h
      refine .cons ?_ (ih hr)
      unfold LayRel
      split <;> rfl

theorem forall2_getElem? {α β : Type} {R : α → β → Prop} {l : List α} {l' : List β}
    (h : List.Forall₂ R l l') {k : Nat} {b : β} (hb : l'[k]? = some b) :
    ∃ a, l[k]? = some a ∧ R a b := by
  induction h generalizing k with
  | nil => simp at hb
  | cons h1 _ ih =>
    cases k with
    | zero => simp at hb; subst hb; exact ⟨_, rfl, h1⟩
    | succ k => simp at hb ⊢; exact ih hb

/-! ## Layout -/

theorem isDir_iff (st : Statement) (n : DirectiveName) :
    st.isDir n = true ↔ ∃ d, st = .dir d ∧ d.name = n := by
  cases st <;> simp [Statement.isDir]

theorem label_place (a : Addr) : labelOfAddress a = place a 0 := by
  have h : (a : Int) + (0 : Nat) = a := by simp
  simp only [labelOfAddress, place, Address.bank, Address.bankAddress, h]
  omega

theorem addWrapped_lt (a : Addr) (n : Int) : Address.addWrapped a n < 0x1000000 := by
  unfold Address.addWrapped; omega

theorem place_add (a : Addr) (ha : a < 0x1000000) (n k : Nat) :
    place (Address.addWrapped a n : Nat) k = place a (n + k) := by
  have h : ((Address.addWrapped a n : Nat) : Int) =
      (a : Int) / 0x10000 % 0x100 * 0x10000 + ((a : Int) + n) % 0x10000 := by
    unfold Address.addWrapped; omega
  have h2 : ((n + k : Nat) : Int) = n + k := by omega
  unfold place
  rw [h, h2]
  omega

/-- What an `.org` does. -/
theorem originAt_spec {pc o : Option Addr} {st : Statement} (h : Module.originAt pc st = .ok o) :
    ((∃ d, st = .dir d ∧ d.name = .org) →
      ∃ d a, st = .dir d ∧ d.argument.eval nullCtx = .ok ((a : Nat) : Int) ∧ o = some a ∧
        st.serializedSize = 0) ∧
    (¬ (∃ d, st = .dir d ∧ d.name = .org) → o = pc) := by
  unfold Module.originAt at h
  cases st with
  | instr i => simp at h; exact ⟨by simp, fun _ => h.symm⟩
  | dir d =>
    simp only at h
    split at h
    · next hd =>
      replace h := Res.bind_eq_ok.mp h
      obtain ⟨v, hv, h⟩ := h
      replace h := Res.bind_eq_ok.mp h
      obtain ⟨a, ha, h⟩ := h
      simp at h
      refine ⟨fun _ => ⟨d, a, rfl, ?_, h.symm, ?_⟩, fun hn => absurd ⟨d, rfl, hd⟩ hn⟩
      · unfold Address.ofInt at ha
        split at ha
        · next hb => cases ha; rw [hv, Int.toNat_of_nonneg hb.1]
        · cases ha
      · simp [Statement.serializedSize, Directive.serializedSize, hd]
    · next hd =>
      simp at h
      exact ⟨fun ⟨d', e, h'⟩ => by cases e; exact absurd h' hd, fun _ => h.symm⟩

/-- One line of the layout loop. -/
theorem layout_cons {x : Line} {ls ls' : List Line} {pc : Option Addr}
    (h : Module.layout pc (x :: ls) = .ok ls') :
    ∃ o x' r pc', ls' = x' :: r ∧ Module.originAt pc x.statement = .ok o ∧
      Module.layout pc' ls = .ok r ∧ x'.statement = x.statement ∧
      (o = none → pc' = none ∧ x' = x ∧ x.statement.serializedSize = 0) ∧
      (∀ a, o = some a → pc' = some (Address.addWrapped a x.statement.serializedSize) ∧
        (x.statement.isDir .equ = false → x'.value = some (labelOfAddress a)) ∧
        (x.statement.isDir .equ = true → x' = x)) := by
  rw [Module.layout] at h
  replace h := Res.bind_eq_ok.mp h
  obtain ⟨o, ho, h⟩ := h
  cases o with
  | none =>
    simp only at h
    split at h
    · cases h
    · next hz =>
      replace h := Res.bind_eq_ok.mp h
      obtain ⟨r, hr, h⟩ := h
      simp at h
      exact ⟨none, x, r, none, h.symm, ho, hr, rfl, fun _ => ⟨rfl, rfl, by omega⟩, by simp⟩
  | some a =>
    simp only at h
    replace h := Res.bind_eq_ok.mp h
    obtain ⟨r, hr, h⟩ := h
    simp only [Res.ok.injEq] at h
    refine ⟨some a, _, r, _, h.symm, ho, hr, by split <;> rfl, by simp, ?_⟩
    intro b hb
    cases hb
    refine ⟨rfl, ?_, ?_⟩
    · intro he; rw [if_neg (by simp [he])]
    · intro he; rw [if_pos he]

theorem layout_equ {ls : List Line} : ∀ {pc : Option Addr} {ls' : List Line},
    Module.layout pc ls = .ok ls' → ∀ {i : Nat} {b l : Line}, ls[i]? = some b → ls'[i]? = some l →
      l.statement.isDir .equ = true → l = b := by
  induction ls with
  | nil => intro pc ls' h i b l hb hl; simp at hb
  | cons x ls ih =>
    intro pc ls' h i b l hb hl he
    obtain ⟨o, x', r, pc', rfl, ho, hr, hst, hnone, hsome⟩ := layout_cons h
    cases i with
    | zero =>
      simp at hb hl
      subst hb hl
      cases o with
      | none => exact (hnone rfl).2.1
      | some a => exact (hsome a rfl).2.2 (by rw [← hst]; exact he)
    | succ i => exact ih hr (by simpa using hb) (by simpa using hl) he

theorem bytesBetween_zero (x : Line) (r : List Line) (i : Nat) :
    bytesBetween (x :: r) 0 (i + 1) = x.statement.serializedSize + bytesBetween r 0 i := by
  simp [bytesBetween]

theorem bytesBetween_succ (x : Line) (r : List Line) (o i : Nat) :
    bytesBetween (x :: r) (o + 1) (i + 1) = bytesBetween r o i := by
  simp [bytesBetween]

theorem bytesBetween_self (r : List Line) (i : Nat) : bytesBetween r i i = 0 := by
  simp [bytesBetween]

theorem layout_place {ls : List Line} : ∀ {pc : Option Addr} {ls' : List Line},
    Module.layout pc ls = .ok ls' → ∀ (i : Nat) (l : Line), ls'[i]? = some l →
      (∀ o v, LastOrigin ls' i o v → v < 0x1000000 → l.statement.isDir .equ = false →
        l.value = some (place v (bytesBetween ls' o i))) ∧
      ((∀ (k : Nat) (q : Line), k ≤ i → ls'[k]? = some q → ¬ IsOrg q) →
        (∀ a : Addr, pc = some a → a < 0x1000000 → l.statement.isDir .equ = false →
          l.value = some (place a (bytesBetween ls' 0 i))) ∧
        (pc = none → l.statement.serializedSize = 0 ∧ ls[i]? = some l)) := by
  induction ls with
  | nil => intro pc ls' h i l hl; simp [Module.layout] at h; subst h; simp at hl
  | cons x ls ih =>
    intro pc ls' h i l hl
    obtain ⟨o, x', r, pc', rfl, ho, hr, hst, hnone, hsome⟩ := layout_cons h
    have hspec := originAt_spec ho
    have horg : ∀ v, SetsOrigin x' v → ∃ a : Addr, v = a ∧ o = some a ∧
        x.statement.serializedSize = 0 := by
      rintro v ⟨d, h1, h2, h3⟩
      obtain ⟨d', a, h4, h5, h6, h7⟩ := hspec.1 ⟨d, by rw [← hst]; exact h1, h2⟩
      rw [hst, h4] at h1
      cases h1
      rw [h5] at h3
      cases h3
      exact ⟨a, rfl, h6, h7⟩
    have hnorg : ¬ IsOrg x' → o = pc := by
      intro hn
      refine hspec.2 ?_
      rw [← hst]
      exact hn
    cases i with
    | zero =>
      simp at hl
      subst hl
      refine ⟨?_, ?_⟩
      · rintro o' v ⟨ho', ⟨l0, hl0, hso⟩, -⟩ hv he
        have : o' = 0 := by omega
        subst this
        simp at hl0
        subst hl0
        obtain ⟨a, rfl, ha, -⟩ := horg v hso
        rw [bytesBetween_self, ← label_place]
        exact (hsome a ha).2.1 (by rw [← hst]; exact he)
      · intro hno
        have hop := hnorg (hno 0 x' (Nat.le_refl _) rfl)
        refine ⟨?_, ?_⟩
        · intro a ha hv he
          rw [bytesBetween_self, ← label_place]
          exact (hsome a (by rw [hop, ha])).2.1 (by rw [← hst]; exact he)
        · intro hp
          obtain ⟨-, h2, h3⟩ := hnone (by rw [hop, hp])
          rw [h2]
          exact ⟨h3, rfl⟩
    | succ i =>
      have hl' : r[i]? = some l := by simpa using hl
      obtain ⟨ih1, ih2⟩ := ih hr i l hl'
      refine ⟨?_, ?_⟩
      · rintro o' v ⟨ho', ⟨l0, hl0, hso⟩, hlast⟩ hv he
        cases o' with
        | succ o' =>
          rw [bytesBetween_succ]
          refine ih1 o' v ⟨by omega, ⟨l0, by simpa using hl0, hso⟩, ?_⟩ hv he
          intro k q h1 h2 h3
          exact hlast (k + 1) q (by omega) (by omega) (by simpa using h3)
        | zero =>
          simp at hl0
          subst hl0
          obtain ⟨a, rfl, ha, hz⟩ := horg v hso
          have := (ih2 fun k q h1 h2 => hlast (k + 1) q (by omega) (by omega) (by simpa using h2)).1
            _ (hsome a ha).1 (addWrapped_lt _ _) he
          rw [this, place_add _ (by omega), bytesBetween_zero, hst]
      · intro hno
        have hop := hnorg (hno 0 x' (by omega) rfl)
        have htail := ih2 fun k q h1 h2 => hno (k + 1) q (by omega) (by simpa using h2)
        refine ⟨?_, ?_⟩
        · intro a ha hv he
          have := htail.1 _ (hsome a (by rw [hop, ha])).1 (addWrapped_lt _ _) he
          rw [this, place_add _ (by omega), bytesBetween_zero, hst]
        · intro hp
          have := htail.2 (hnone (by rw [hop, hp])).1
          exact ⟨this.1, by simpa using this.2⟩

/-- The three parts of a successful first pass. -/
theorem firstPass_parts {fuel : Nat} {m m' : Module} (h : m.runFirstPass fuel = .ok m') :
    ∃ p lines lines', m.explore fuel ⟨m.lines, Module.seeds [] 0 m.lines⟩ = .ok p ∧
      Module.fixLines p.lines = .ok lines ∧ Module.layout none lines = .ok lines' ∧
      m' = { m with lines := lines' } := by
  unfold Module.runFirstPass at h
  replace h := Res.bind_eq_ok.mp h
  obtain ⟨p, h1, h⟩ := h
  replace h := Res.bind_eq_ok.mp h
  obtain ⟨l1, h2, h⟩ := h
  replace h := Res.bind_eq_ok.mp h
  obtain ⟨l2, h3, h⟩ := h
  simp at h
  exact ⟨p, l1, l2, h1, h2, h3, h.symm⟩

end Nsasm
