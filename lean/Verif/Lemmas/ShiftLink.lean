import Verif.Lemmas.ShiftPass
import Verif.Lemmas.Separate
import Verif.Lemmas.Relist

/-! # A line more in a file: values and bytes -/

namespace Nsasm.Shift
open Spec Parse Props

variable {p : Nat} {φ : Statement → Statement} {good : Statement → Prop} {nst : Statement} {nl : Line}

/-- Lines that cannot be reached: directives, and then data, an `.org` or the end of the file. -/
def IdleLines : List Line → Prop
  | [] => True
  | l :: ls => ∃ d, l.statement = .dir d ∧ d.name ≠ .halt ∧ (d.name ∈ [DirectiveName.db, .dl, .dw, .org] ∨ IdleLines ls)

/-- Analysis does not get from the line before the new one to the new one. -/
def Quiet (p : Nat) (m : Module) (nl : Line) : Prop :=
  (∀ k l, k + 1 = p → m.lines[k]? = some l → Strong l.statement) ∨
  (IdleLines (m.lines.drop p) ∧ (∀ (k : Nat) (l : Line), m.lines[k]? = some l → l.reached = false) ∧
    (∀ l ∈ m.lines, StatementWritten l.statement) ∧ nl.reached = false ∧ ∃ d, nl.statement = .dir d ∧ d.name = .equ)

/-- A module with a new line in it, before and after the first pass. -/
def Loaded (p : Nat) (φ : Statement → Statement) (good : Statement → Prop) (nst : Statement) (m m' : Module) : Prop :=
  ∃ nl, m' = insModule p φ nl m ∧ Near p good nst m.lines nl ∧ Quiet p m nl

def Laid (p : Nat) (φ : Statement → Statement) (good : Statement → Prop) (nst : Statement) (m m' : Module) : Prop :=
  ∃ nl, m' = insModule p φ nl m ∧ Near p good nst m.lines nl ∧ Placed p φ nst m.lines nl.value

theorem idle_unreached {m : Module} (hwr : ∀ l ∈ m.lines, StatementWritten l.statement)
    (hfresh : ∀ (k : Nat) (l : Line), m.lines[k]? = some l → l.reached = false) {fuel : Nat} {P : Module.Pass}
    (he : m.explore fuel ⟨m.lines, Module.seeds [] 0 m.lines⟩ = .ok P) {p : Nat} (hi : IdleLines (m.lines.drop p)) {k : Nat} {l : Line}
    (hk : k + 1 = p) (hl : P.lines[k]? = some l) (hs : ¬ Strong l.statement) : l.reached = false := by
  obtain ⟨hD, -, hw, hS, -⟩ := explored_accounts (K := Seen)
    (fun p p' _ hg hs => seen_accounts hg hs) (fun t s ⟨v, hv, _⟩ => .inl ⟨v, hv⟩) hwr hfresh he
  have hseen : ∀ t s, Seen P t s → ∃ l, P.lines[t]? = some l ∧ l.reached = true := by
    intro t s h
    rcases h with ⟨v, hv⟩ | h
    · rw [hw] at hv; cases hv
    · exact h
  have key : ∀ (ls : List Line) (k : Nat), m.lines.drop k = ls → IdleLines ls → ¬ ∃ l, P.lines[k]? = some l ∧ l.reached = true := by
    intro ls
    induction ls with
    | nil =>
      rintro k hk - ⟨l, hl, -⟩
      obtain ⟨l', hl', -⟩ := flow_original hS hl
      have := (List.getElem?_eq_some_iff.mp hl').1
      rw [List.drop_eq_nil_iff] at hk
      omega
    | cons x ls ih =>
      rintro k hk ⟨d, hd, hh, hi⟩ ⟨l, hl, hr⟩
      obtain ⟨l', hl', hst, -⟩ := flow_original hS hl
      have hx : l' = x := by
        have : (m.lines.drop k)[0]? = some l' := by rw [List.getElem?_drop]; exact hl'
        rw [hk] at this
        exact (Option.some.inj this).symm
      subst hx
      rw [hd] at hst
      obtain ⟨⟨next, hn, hK⟩, -⟩ := hD k l hl hr
      rw [hst] at hn hK
      rcases hi with hi | hi
      · simp only [Statement.execute, Directive.execute, if_pos hi] at hn
        cases hn
      · refine ih (k + 1) ?_ hi (hseen _ _ (hK hh))
        rw [← List.drop_drop, hk]; rfl
  cases hr : l.reached with
  | false => rfl
  | true =>
    obtain ⟨⟨next, hn, hK⟩, -⟩ := hD k l hl hr
    refine absurd (hseen _ _ (hK fun h => hs (.inl ((stops_iff _).mpr h)))) ?_
    rw [hk]
    exact key _ _ rfl hi

theorem insAt_drop : ∀ (q : Nat) (ls : List Line), q ≤ ls.length → (insAt p φ nl q ls).drop q = nl :: (ls.drop q).map (shLine p)
  | 0, ls, _ => by simp [insAt]
  | q + 1, [], h => by simp at h
  | q + 1, l :: ls, h => by rw [insAt, List.drop_succ_cons, List.drop_succ_cons, insAt_drop q ls (by simpa using h)]

theorem idle_map : ∀ {ls : List Line}, IdleLines ls → IdleLines (ls.map (shLine p))
  | [], _ => trivial
  | _ :: _, ⟨d, h1, h2, h3⟩ => ⟨d, h1, h2, h3.imp id idle_map⟩

theorem quiet_for (S : Site p φ good nst) {m : Module} (h : Near p good nst m.lines nl) (hq : Quiet p m nl) (n : Nat)
    (hseeds : Module.seeds [] 0 (insModule p φ nl m).lines = shWork p (Module.seeds [] 0 m.lines)) :
    QuietFor p m (insModule p φ nl m) n ⟨m.lines, Module.seeds [] 0 m.lines⟩ (insPass p φ nl ⟨m.lines, Module.seeds [] 0 m.lines⟩) := by
  rcases hq with hq | ⟨h1, h2, h3, h4, d, h5, h6⟩
  · exact .inl hq
  by_cases hst : ∀ k l, k + 1 = p → m.lines[k]? = some l → Strong l.statement
  · exact .inl hst
  right
  have hno : ∀ k l, k + 1 = p → m.lines[k]? = some l → ¬ Strong l.statement := by
    intro k l hk hl hs
    refine hst fun k' l' hk' hl' => ?_
    have : k' = k := by omega
    subst this
    rw [hl] at hl'
    cases hl'
    exact hs
  have hmem : ∀ k l', (insModule p φ nl m).lines[k]? = some l' → l' = nl ∨ ∃ l j, m.lines[j]? = some l ∧ l' = at_ p φ p j l ∧ (k < p → j = k) := by
    intro k l' hl'
    by_cases hkp : k = p
    · left
      subst hkp
      have := insAt_new (p := k) (φ := φ) (nl := nl) (q := k) (ls := m.lines) h.le
      rw [show (insModule k φ nl m).lines = insAt k φ nl k m.lines from rfl, this] at hl'
      exact (Option.some.inj hl').symm
    · right
      obtain ⟨j, hj, hjk⟩ : ∃ j, sh p j = k ∧ (k < p → j = k) := by
        by_cases hlt : k < p
        · exact ⟨k, sh_lt hlt, fun _ => rfl⟩
        · exact ⟨k - 1, by rw [sh_ge (by omega)]; omega, fun h => absurd h hlt⟩
      rw [← hj, show (insModule p φ nl m).lines = insAt p φ nl p m.lines from rfl, insAt_get h.le] at hl'
      simp only [Option.map_eq_some_iff] at hl'
      obtain ⟨l, hl, rfl⟩ := hl'
      exact ⟨l, j, hl, rfl, hjk⟩
  refine ⟨fun Q hQ k l hk hl => ?_, fun Q hQ k l hk hl => ?_⟩
  · obtain ⟨l', hl', hst', -⟩ := flow_original (explored_same hQ) hl
    exact idle_unreached h3 h2 hQ h1 hk hl (by rw [hst']; exact hno k l' hk hl')
  · have hQ' : (insModule p φ nl m).explore n ⟨(insModule p φ nl m).lines, Module.seeds [] 0 (insModule p φ nl m).lines⟩ = .ok Q := by
      rw [hseeds]; exact hQ
    refine idle_unreached (p := p) ?_ ?_ hQ' ?_ hk hl ?_
    · intro x hx
      obtain ⟨i, hi⟩ := List.mem_iff_getElem?.mp hx
      rcases hmem i x hi with rfl | ⟨y, j, hy, rfl, -⟩
      · rw [h5]; intro hd; rw [h6] at hd; simp at hd
      · have hw := h3 y (List.mem_of_getElem? hy)
        rw [at_statement]
        split
        · cases hys : y.statement with
          | instr i => rw [S.keeps.instr]; rw [hys] at hw; exact hw
          | dir d => obtain ⟨es, he⟩ := S.keeps.dir d; rw [he]; rw [hys] at hw; exact hw
        · exact hw
    · intro i x hi
      rcases hmem i x hi with rfl | ⟨y, j, hy, rfl, -⟩
      · exact h4
      · rw [at_reached]; exact h2 j y hy
    · show IdleLines ((insAt p φ nl p m.lines).drop p)
      rw [insAt_drop p m.lines h.le]
      exact ⟨d, h5, by rw [h6]; simp, .inr (idle_map h1)⟩
    · obtain ⟨l', hl', hst', -⟩ := flow_original (explored_same hQ') hl
      rw [hst']
      rcases hmem k l' hl' with rfl | ⟨y, j, hy, rfl, hj⟩
      · rw [h5]
        rintro (hs | hs)
        · simp [Statement.isExitInstruction, Directive.isExitInstruction, h6] at hs
        · exact hs (.init ⟨.unknown, .unknown, .unknown, .unknown⟩) _ (by simp only [Statement.execute, Directive.execute]; rw [if_neg (by simp [h6]), if_neg (by simp [h6])])
      · have hjk := hj (by omega)
        subst hjk
        have := hno j y hk hy
        intro hs
        refine this (hs.imp (fun h => ?_) fun h es a => ?_)
        · rwa [at_exit S.keeps] at h
        · have := h es a; rwa [at_execute S.keeps] at this

theorem runFirstPass_ins (S : Site p φ good nst) {m m' : Module} (h : Loaded p φ good nst m m') (fuel : Nat) :
    Both (Laid p φ good nst) (m.runFirstPass fuel) (m'.runFirstPass fuel) := by
  obtain ⟨nl, rfl, h, hq⟩ := h
  unfold Module.runFirstPass
  have hseeds : Module.seeds [] 0 (insModule p φ nl m).lines = shWork p (Module.seeds [] 0 m.lines) :=
    seeds_ins S h.statement p m.lines [] 0 (by omega) h.le fun k l hk hl => (h.before k l hk hl).1
  rw [hseeds]
  refine Both.bind (explore_ins S h.le fuel (P := ⟨m.lines, Module.seeds [] 0 m.lines⟩) h (quiet_for S h hq fuel hseeds)) fun P P' hP hP' => ?_
  subst hP'
  have hn := explore_near fuel h hP
  refine Both.bind (Both.of_map (fixLines_ins S hn.statement p P.lines hn.le)) fun ls ls' hls ⟨_, hls'⟩ => ?_
  subst hls'
  have hn2 : Near p good nst ls nl := near_forall (v := nl.value) hn (fixLines_good S hls) fun _ _ h => h
  refine Both.bind (layout_ins S hn2.statement p ls none hn2.le (fun h => ⟨S.first h, rfl⟩)
    fun k l hk hl => (hn2.before k l hk hl).1) fun ls1 ls1' hls1 ⟨v, h1, h2⟩ => ?_
  subst h1
  refine .ok ⟨{ nl with value := v }, rfl, ?_, h2⟩
  exact near_forall hn2 (layout_forall hls1) fun _ _ h => ⟨h.1, fun hg => by rw [h.2]; exact hg⟩

/-! ## The second pass -/

theorem modify_new (g : Line → Line) : ∀ (q : Nat) (ls : List Line), q ≤ ls.length →
    (insAt p φ nl q ls).modify q g = insAt p φ (g nl) q ls
  | 0, ls, _ => by rw [insAt, insAt, List.modify_zero_cons]
  | q + 1, [], h => by simp at h
  | q + 1, l :: ls, h => by rw [insAt, insAt, List.modify_succ_cons, modify_new g q ls (by simpa using h)]

theorem near_value {ls : List Line} (h : Near p good nst ls nl) (v : Option Int) : Near p good nst ls { nl with value := v } :=
  ⟨h.le, h.before, h.statement⟩

theorem near_setValue {m : Module} (h : Near p good nst m.lines nl) (i : Nat) (v : Int) : Near p good nst (m.setValue i v).lines nl where
  le := by simp only [Module.setValue, List.length_modify]; exact h.le
  before := by
    intro k l hk hl
    simp only [Module.setValue, List.getElem?_modify] at hl
    cases hx : m.lines[k]? with
    | none => rw [hx] at hl; cases hl
    | some x =>
      rw [hx] at hl
      have := h.before k x hk hx
      simp only [Option.map_eq_map, Option.map_some, Option.some.injEq] at hl
      subst hl
      split <;> exact this
  statement := h.statement

theorem evalEqu_ins (S : Site p φ good nst) {m m' : Module} (h : Laid p φ good nst m m') (externs : Ctx) {i : Nat} {l : Line}
    (hl : m.lines[i]? = some l) :
    Both (fun a b => Laid p φ good nst a b ∧ a.lines.length = m.lines.length) (Module.evalEqu externs m i l)
      (Module.evalEqu externs m' (sh p i) (at_ p φ p i l)) := by
  obtain ⟨nl, rfl, h, hp⟩ := h
  have hdir : ∀ d, l.statement = .dir d → ∃ d', (at_ p φ p i l).statement = .dir d' ∧ d'.name = d.name ∧ d'.argument = d.argument := by
    intro d hd
    rw [at_statement, hd]
    split
    · obtain ⟨es, he⟩ := S.keeps.dir d
      exact ⟨_, he, rfl, rfl⟩
    · exact ⟨d, rfl, rfl, rfl⟩
  have hsame : Laid p φ good nst m (insModule p φ nl m) := ⟨nl, rfl, h, hp⟩
  unfold Module.evalEqu
  cases hs : l.statement with
  | instr j =>
    have : (at_ p φ p i l).statement = .instr j := by
      rw [at_statement, hs]
      split
      · exact S.keeps.instr j
      · rfl
    rw [this]
    exact .ok ⟨hsame, rfl⟩
  | dir d =>
    obtain ⟨d', hd', hname, harg⟩ := hdir d hs
    rw [hd']
    simp only [hname, harg, at_value, at_scopes, lookup_ins h.le]
    by_cases hc : d.name = .equ ∧ l.value.isNone = true
    · rw [if_pos hc, if_pos hc]
      cases d.argument.eval (m.lookup l.scopes externs) with
      | err e => exact .fail (fun _ h => nomatch h) fun _ h => nomatch h
      | ub e => exact .fail (fun _ h => nomatch h) fun _ h => nomatch h
      | ok v =>
        refine .ok ⟨⟨nl, ?_, near_setValue h i v, ?_⟩, by simp [Module.setValue]⟩
        · simp only [Module.setValue, insModule]
          congr 1
          refine (insAt_modify p i (fun x => ?_) m.lines h.le).symm
          unfold at_
          split <;> rfl
        · intro k x hk hx hsz
          simp only [Module.setValue, List.getElem?_modify] at hx
          by_cases hik : i = k
          · subst hik
            obtain ⟨a, ha, -⟩ := hp i l hk hl hsz
            rw [ha] at hc
            simp at hc
          · cases hy : m.lines[k]? with
            | none => rw [hy] at hx; cases hx
            | some y =>
              rw [hy] at hx
              simp only [if_neg hik, Option.map_eq_map, Option.map_some, Option.some.injEq] at hx
              subst hx
              exact hp k y hk hy hsz
    · rw [if_neg hc, if_neg hc]
      exact .ok ⟨hsame, rfl⟩

theorem evalEqu_new (S : Site p φ good nst) {m : Module} (hn : Near p good nst m.lines nl) (hp : Placed p φ nst m.lines nl.value) (externs : Ctx) :
    ∃ m'', Module.evalEqu externs (insModule p φ nl m) p nl = .ok m'' ∧ Laid p φ good nst m m'' := by
  have hsame : Laid p φ good nst m (insModule p φ nl m) := ⟨nl, rfl, hn, hp⟩
  obtain ⟨d, rfl, h | ⟨h1, h2, -⟩⟩ := S.inert
  · have he : d.name ≠ .equ := by intro he; rw [he] at h; simp at h
    refine ⟨_, ?_, hsame⟩
    unfold Module.evalEqu
    rw [hn.statement]
    simp [he]
  · unfold Module.evalEqu
    rw [hn.statement]
    simp only [h1, true_and]
    split
    · obtain ⟨v, hv⟩ := h2 ((insModule p φ nl m).lookup nl.scopes externs)
      rw [hv, Res.bind_ok]
      refine ⟨_, rfl, { nl with value := some v }, ?_, near_value hn _, ?_⟩
      · simp only [Module.setValue, insModule, modify_new _ p m.lines hn.le]
      · intro k l _ _ hsz
        simp [Statement.serializedSize, Directive.serializedSize, h1] at hsz
    · exact ⟨_, rfl, hsame⟩

theorem Laid.le {m m' : Module} (h : Laid p φ good nst m m') : p ≤ m.lines.length := by
  obtain ⟨nl, -, h, -⟩ := h; exact h.le

theorem secondLoop_after (S : Site p φ good nst) (externs : Ctx) : ∀ (n i : Nat) {m m' : Module}, Laid p φ good nst m m' → p ≤ i →
    Both (Laid p φ good nst) (Module.secondLoop externs n i m) (Module.secondLoop externs n (i + 1) m') := by
  intro n
  induction n with
  | zero => intro i m m' h _; exact .ok h
  | succ n ih =>
    intro i m m' h hi
    rw [Module.secondLoop, Module.secondLoop]
    have hg : m'.lines[i + 1]? = (m.lines[i]?).map (at_ p φ p i) := by
      obtain ⟨nl, rfl, hn, -⟩ := h
      rw [← sh_ge hi]; exact insAt_get hn.le i
    rw [hg]
    cases hl : m.lines[i]? with
    | none => exact .fail (fun _ h => nomatch h) fun _ h => nomatch h
    | some l =>
      simp only [Option.map_some]
      have := evalEqu_ins S h externs hl
      rw [sh_ge hi] at this
      exact this.bind fun a b _ hab => ih (i + 1) hab.1 (by omega)

theorem secondLoop_ins (S : Site p φ good nst) (externs : Ctx) : ∀ (r n i : Nat) {m m' : Module}, Laid p φ good nst m m' →
    i + r = p → i + n = m.lines.length →
    Both (Laid p φ good nst) (Module.secondLoop externs n i m) (Module.secondLoop externs (n + 1) i m') := by
  intro r
  induction r with
  | zero =>
    intro n i m m' h hi hn
    have hip : i = p := by omega
    subst hip
    obtain ⟨nl, rfl, hnr, hp⟩ := h
    have : (insModule i φ nl m).lines[i]? = some nl := insAt_new hnr.le
    obtain ⟨m'', h1, h2⟩ := evalEqu_new S hnr hp externs
    rw [show Module.secondLoop externs (n + 1) i (insModule i φ nl m) = Module.secondLoop externs n (i + 1) m'' from by
      rw [Module.secondLoop, this]; simp only; rw [h1, Res.bind_ok]]
    exact secondLoop_after S externs n i h2 (Nat.le_refl i)
  | succ r ih =>
    intro n i m m' h hi hn
    have hle := h.le
    obtain ⟨n, rfl⟩ : ∃ k, n = k + 1 := ⟨n - 1, by omega⟩
    rw [Module.secondLoop, Module.secondLoop]
    have hg : m'.lines[i]? = (m.lines[i]?).map (at_ p φ p i) := by
      obtain ⟨nl, rfl, hn, -⟩ := h
      have := insAt_get (p := p) (φ := φ) (nl := nl) hn.le i
      rw [sh_lt (by omega)] at this; exact this
    rw [hg]
    cases hl : m.lines[i]? with
    | none => exact .fail (fun _ h => nomatch h) fun _ h => nomatch h
    | some l =>
      simp only [Option.map_some]
      have := evalEqu_ins S h externs hl
      rw [sh_lt (by omega)] at this
      exact this.bind fun a b _ hab => ih n (i + 1) hab.1 (by omega) (by rw [hab.2]; omega)

theorem runSecondPass_ins (S : Site p φ good nst) (externs : Ctx) {m m' : Module} (h : Laid p φ good nst m m') :
    Both (Laid p φ good nst) (m.runSecondPass externs) (m'.runSecondPass externs) := by
  unfold Module.runSecondPass
  have hl : m'.lines.length = m.lines.length + 1 := by
    obtain ⟨nl, rfl, hn, -⟩ := h
    exact insAt_length hn.le
  rw [hl]
  exact secondLoop_ins S externs p m.lines.length 0 h (by omega) (by omega)

/-! ## The bytes -/

/-- Both fail, or both succeed with related results and writes that differ by parting some. -/
def Emits {α β : Type} (R : α → β → Prop) (x : Writes × Res α) (y : Writes × Res β) : Prop :=
  (∃ a b, x.2 = .ok a ∧ y.2 = .ok b ∧ R a b ∧ Parted x.1 y.1) ∨ ((∀ a, x.2 ≠ .ok a) ∧ ∀ b, y.2 ≠ .ok b)

theorem parted_append {a a' b b' : Writes} (h : Parted a a') (h' : Parted b b') : Parted (a ++ b) (a' ++ b') := by
  induction h with
  | nil => exact h'
  | same w _ ih => exact .same w ih
  | parted x bs bs' _ ih => exact .parted x bs bs' ih

theorem parted_refl (a : Writes) : Parted a a := by
  induction a with
  | nil => exact .nil
  | cons w a ih => exact .same w ih

theorem wrapped_wrapped (a m n : Nat) : wrapped (wrapped a m) n = wrapped a (m + n) := by unfold wrapped; omega

theorem range_eq {r r' : DataRange} (h : Canonical r.ranges) (h' : Canonical r'.ranges)
    (hc : ∀ a, r.contains a = true ↔ r'.contains a = true) : r = r' := by
  have : r.ranges = r'.ranges := canonical_unique h h' fun a => by rw [← contains_iff h, ← contains_iff h', hc]
  cases r; cases r'; simp_all

theorem claim_fresh {o : Module.Out} (hc : Canonical o.owned.ranges) {a : Nat} (ha : a < 0x1000000) (n : Nat) :
    (∃ r, Module.claim o a n = .ok { o with owned := r } ∧ Canonical r.ranges ∧
      (∀ x, r.contains x = true ↔ o.owned.contains x = true ∨ ∃ i < n, x = wrapped a i) ∧ Fresh o.owned a n) ∨
    (Module.claim o a n = .err .overlap ∧ ¬ Fresh o.owned a n) := by
  obtain ⟨r, ok, h1, h2, h3, h4⟩ := C25_claim_bytes hc ha n
  unfold Module.claim
  rw [h1, Res.bind_ok]
  cases ok with
  | true => exact .inl ⟨r, rfl, h2, h3, h4.mp rfl⟩
  | false => exact .inr ⟨rfl, fun h => nomatch h4.mpr h⟩

theorem claim_two {o : Module.Out} (hc : Canonical o.owned.ranges) {a : Nat} (ha : a < 0x1000000) (m n : Nat) :
    Both (fun x y => x = y ∧ Canonical x.owned.ranges) (Module.claim o a (m + n))
      (Module.claim o a m >>= fun o1 => Module.claim o1 (wrapped a m) n) := by
  have hw : wrapped a m < 0x1000000 := by unfold wrapped; omega
  have hfresh : Fresh o.owned a (m + n) ↔ Fresh o.owned a m ∧ (∀ i < n, o.owned.contains (wrapped a (m + i)) = false) ∧
      (∀ i < n, ∀ j < m, wrapped a (m + i) ≠ wrapped a j) ∧ ∀ i < n, ∀ j < i, wrapped a (m + i) ≠ wrapped a (m + j) := by
    constructor
    · rintro ⟨h1, h2⟩
      exact ⟨⟨fun i hi => h1 i (by omega), fun i hi j hj => h2 i (by omega) j hj⟩, fun i hi => h1 _ (by omega),
        fun i hi j hj => h2 _ (by omega) j (by omega), fun i hi j hj => h2 _ (by omega) _ (by omega)⟩
    · rintro ⟨⟨h1, h2⟩, h3, h4, h5⟩
      refine ⟨fun i hi => ?_, fun i hi j hj => ?_⟩
      · by_cases him : i < m
        · exact h1 i him
        · obtain ⟨k, rfl⟩ : ∃ k, i = m + k := ⟨i - m, by omega⟩
          exact h3 k (by omega)
      · by_cases him : i < m
        · exact h2 i him j hj
        · obtain ⟨k, rfl⟩ : ∃ k, i = m + k := ⟨i - m, by omega⟩
          by_cases hjm : j < m
          · exact h4 k (by omega) j hjm
          · obtain ⟨k', rfl⟩ : ∃ k, j = m + k := ⟨j - m, by omega⟩
            exact h5 k (by omega) k' (by omega)
  rcases claim_fresh hc ha m with ⟨r1, e1, c1, x1, f1⟩ | ⟨e1, f1⟩
  · rw [e1, Res.bind_ok]
    have hf2 : Fresh r1 (wrapped a m) n ↔ (∀ i < n, o.owned.contains (wrapped a (m + i)) = false) ∧
        (∀ i < n, ∀ j < m, wrapped a (m + i) ≠ wrapped a j) ∧ ∀ i < n, ∀ j < i, wrapped a (m + i) ≠ wrapped a (m + j) := by
      unfold Fresh
      simp only [wrapped_wrapped]
      have : ∀ i, r1.contains (wrapped a (m + i)) = false ↔ o.owned.contains (wrapped a (m + i)) = false ∧
          ∀ j < m, wrapped a (m + i) ≠ wrapped a j := by
        intro i
        rw [← Bool.not_eq_true, ← Bool.not_eq_true, x1]
        simp only [not_or, not_exists, not_and, ne_eq]
      simp only [this]
      constructor
      · rintro ⟨h1, h2⟩; exact ⟨fun i hi => (h1 i hi).1, fun i hi => (h1 i hi).2, h2⟩
      · rintro ⟨h1, h2, h3⟩; exact ⟨fun i hi => ⟨h1 i hi, h2 i hi⟩, h3⟩
    rcases claim_fresh hc ha (m + n) with ⟨r, e, c, x, f⟩ | ⟨e, f⟩
    · rcases claim_fresh (o := { o with owned := r1 }) c1 hw n with ⟨r2, e2, c2, x2, -⟩ | ⟨e2, f2⟩
      · rw [e, e2]
        refine .ok ⟨?_, c⟩
        have : r = r2 := by
          refine range_eq c c2 fun y => ?_
          rw [x, x2, x1, or_assoc]
          refine or_congr Iff.rfl ?_
          constructor
          · rintro ⟨i, hi, rfl⟩
            by_cases him : i < m
            · exact .inl ⟨i, him, rfl⟩
            · exact .inr ⟨i - m, by omega, by rw [wrapped_wrapped]; congr 1; omega⟩
          · rintro (⟨i, hi, rfl⟩ | ⟨i, hi, rfl⟩)
            · exact ⟨i, by omega, rfl⟩
            · exact ⟨m + i, by omega, wrapped_wrapped _ _ _⟩
        rw [this]
      · exact absurd (hf2.mpr (hfresh.mp f).2) f2
    · rcases claim_fresh (o := { o with owned := r1 }) c1 hw n with ⟨r2, e2, c2, x2, f2⟩ | ⟨e2, f2⟩
      · exact absurd (hfresh.mpr ⟨f1, hf2.mp f2⟩) f
      · rw [e, e2]; exact .fail (fun _ h => nomatch h) fun _ h => nomatch h
  · rcases claim_fresh hc ha (m + n) with ⟨r, e, c, x, f⟩ | ⟨e, f⟩
    · exact absurd (hfresh.mp f).1 f1
    · rw [e, e1]; exact .fail (fun _ h => nomatch h) fun _ h => nomatch h

theorem encodeList_append (n : DirectiveName) (ctx : Ctx) (es es' : List Expr) :
    Directive.encodeList n ctx (es ++ es') =
      (Directive.encodeList n ctx es >>= fun bs => Directive.encodeList n ctx es' >>= fun bs' => .ok (bs ++ bs')) := by
  induction es with
  | nil => simp only [List.nil_append, Directive.encodeList, Res.bind_ok]; cases Directive.encodeList n ctx es' <;> rfl
  | cons e es ih =>
    rw [List.cons_append, Directive.encodeList, Directive.encodeList, ih]
    cases e.eval ctx with
    | err e => rfl
    | ub e => rfl
    | ok v =>
      simp only [Res.bind_ok]
      cases Directive.encodeList n ctx es with
      | err e => rfl
      | ub e => rfl
      | ok bs =>
        simp only [Res.bind_ok]
        cases Directive.encodeList n ctx es' with
        | err e => rfl
        | ub e => rfl
        | ok bs' => simp only [Res.bind_ok, List.append_assoc]

/-- What a line of data does. -/
theorem data_line {m : Module} {E : Ctx} {l : Line} {d : Directive} (hs : l.statement = .dir d) (hd : d.name ∈ [DirectiveName.db, .dw, .dl])
    (hne : d.list ≠ []) {a : Nat} (hv : l.value = some (a : Int)) (ha : a < 0x1000000) (s : Writes) (o : Module.Out) :
    m.assembleLine E recorder l s o =
      match Directive.encodeList d.name (m.lookup l.scopes E) d.list with
      | .ok bs => (s ++ [(a, bs)], Module.claim o a d.serializedSize)
      | .err e => (s, .err e)
      | .ub u => (s, .ub u) := by
  have hsz : 0 < d.serializedSize := by
    have hl : 0 < d.list.length := List.length_pos_iff.mpr hne
    simp only [List.mem_cons, List.not_mem_nil, or_false] at hd
    rcases hd with hd | hd | hd <;> simp only [Directive.serializedSize, hd] <;> omega
  have hb : d.assembleBytes (m.lookup l.scopes E) = (Directive.encodeList d.name (m.lookup l.scopes E) d.list >>= fun bs => .ok (some bs)) := by
    unfold Directive.assembleBytes
    rw [if_neg]
    simp only [List.mem_cons, List.not_mem_nil, or_false] at hd
    rcases hd with hd | hd | hd <;> simp [hd]
  have ho : Address.ofInt (a : Int) = .ok a := by
    unfold Address.ofInt
    rw [if_pos ⟨by omega, by omega⟩]
    simp
  have hnote : ∀ r : Res Module.Out, (r >>= Module.noteTarget l) = r := by
    intro r
    cases r with
    | ok o => simp only [Res.bind_ok, Module.noteTarget, hs]
    | err e => rfl
    | ub u => rfl
  unfold Module.assembleLine
  rw [hs]
  simp only [Statement.serializedSize, gt_iff_lt, if_pos hsz, hnote]
  unfold Module.writeLine
  rw [hv]
  simp only [ho, hs, Statement.assemble, Statement.assembleBytes, hb, Statement.serializedSize]
  cases Directive.encodeList d.name (m.lookup l.scopes E) d.list <;> rfl

theorem assembleLine_sh {m : Module} (h : p ≤ m.lines.length) {l l' : Line} (hs : l'.statement = l.statement) (hv : l'.value = l.value)
    (hi : l'.incoming = l.incoming) (hc : l'.scopes = l.scopes.map (sh p)) (E : Ctx) (s : Writes) (o : Module.Out) :
    (insModule p φ nl m).assembleLine E recorder l' s o = m.assembleLine E recorder l s o := by
  unfold Module.assembleLine Module.writeLine Module.noteTarget
  rw [hc, lookup_ins h, hs, hv, hi]

theorem assembleLines_after {m : Module} (h : p ≤ m.lines.length) (E : Ctx) : ∀ (ls : List Line) (s : Writes) (o : Module.Out),
    (insModule p φ nl m).assembleLines E recorder (ls.map (shLine p)) s o = m.assembleLines E recorder ls s o := by
  intro ls
  induction ls with
  | nil => intro s o; rfl
  | cons l ls ih =>
    intro s o
    rw [List.map_cons, Module.assembleLines, Module.assembleLines, assembleLine_sh h (l := l) (l' := shLine p l) rfl rfl rfl rfl]
    rcases m.assembleLine E recorder l s o with ⟨s1, r⟩
    cases r with
    | ok o1 => exact ih s1 o1
    | err e => rfl
    | ub u => rfl

theorem new_line (S : Site p φ good nst) (hn : nl.statement = nst) (h0 : nst.serializedSize = 0) (m : Module) (E : Ctx) (s : Writes)
    (o : Module.Out) : m.assembleLine E recorder nl s o = (s, .ok o) := by
  obtain ⟨d, rfl, h⟩ := S.inert
  have he : d.name ≠ .entry ∧ d.name ≠ .remote := by
    rcases h with h | h
    · constructor <;> (intro he; rw [he] at h; simp at h)
    · rw [h.1]; simp
  have hz : ¬ (Statement.dir d).serializedSize > 0 := by omega
  simp only [Module.assembleLine, hn, if_neg hz, Module.assembleNote, he, if_false, Res.bind_ok, Module.noteTarget]

/-- One step after the other. -/
def chain {α β : Type} (x : Writes × Res α) (f : Writes → α → Writes × Res β) : Writes × Res β :=
  match x with
  | (s, .ok a) => f s a
  | (s, .err e) => (s, .err e)
  | (s, .ub u) => (s, .ub u)

theorem Emits.chain {α β γ δ : Type} {R : α → β → Prop} {T : γ → δ → Prop} {x : Writes × Res α} {y : Writes × Res β} (h : Emits R x y)
    {f : Writes → α → Writes × Res γ} {g : Writes → β → Writes × Res δ}
    (hk : ∀ s a s' b, x = (s, .ok a) → y = (s', .ok b) → R a b → Parted s s' → Emits T (f s a) (g s' b)) :
    Emits T (chain x f) (Shift.chain y g) := by
  obtain ⟨s, rx⟩ := x
  obtain ⟨s', ry⟩ := y
  rcases h with ⟨a, b, h1, h2, h3, h4⟩ | ⟨h1, h2⟩
  · simp only at h1 h2 h4
    subst h1 h2
    exact hk s a s' b rfl rfl h3 h4
  · right
    cases rx with
    | ok a => exact absurd rfl (h1 a)
    | err e =>
      cases ry with
      | ok a => exact absurd rfl (h2 a)
      | err e => exact ⟨(fun _ h => nomatch h), (fun _ h => nomatch h)⟩
      | ub e => exact ⟨(fun _ h => nomatch h), (fun _ h => nomatch h)⟩
    | ub e =>
      cases ry with
      | ok a => exact absurd rfl (h2 a)
      | err e => exact ⟨(fun _ h => nomatch h), (fun _ h => nomatch h)⟩
      | ub e => exact ⟨(fun _ h => nomatch h), (fun _ h => nomatch h)⟩

theorem assembleLines_chain (m : Module) (E : Ctx) (l : Line) (ls : List Line) (s : Writes) (o : Module.Out) :
    m.assembleLines E recorder (l :: ls) s o = chain (m.assembleLine E recorder l s o) (m.assembleLines E recorder ls) := by
  rw [Module.assembleLines]
  rcases m.assembleLine E recorder l s o with ⟨s1, r⟩
  cases r <;> rfl

theorem chain_chain {α β γ : Type} (x : Writes × Res α) (f : Writes → α → Writes × Res β) (g : Writes → β → Writes × Res γ) :
    chain (chain x f) g = chain x fun s a => chain (f s a) g := by
  rcases x with ⟨s1, r⟩
  cases r <;> rfl

/-- Two runs end alike. -/
def SameOut (o o' : Module.Out) : Prop := o = o' ∧ Canonical o.owned.ranges

theorem line_emits {m : Module} {E : Ctx} {l : Line} {s s' : Writes} {o : Module.Out} (hs : Parted s s') (hc : Canonical o.owned.ranges) :
    Emits SameOut (m.assembleLine E recorder l s o) (m.assembleLine E recorder l s' o) := by
  rw [assembleLine_frame (s := s), assembleLine_frame (s := s')]
  cases h : (m.assembleLine E recorder l [] o).2 with
  | ok o1 =>
    obtain ⟨w, -, -, h3⟩ := assembleLine_ok hc (show m.assembleLine E recorder l [] o = (_, .ok o1) from Prod.ext rfl h)
    exact .inl ⟨o1, o1, rfl, rfl, ⟨rfl, h3.canonical⟩, parted_append hs (parted_refl _)⟩
  | err e => exact .inr ⟨(fun _ h => nomatch h), (fun _ h => nomatch h)⟩
  | ub e => exact .inr ⟨(fun _ h => nomatch h), (fun _ h => nomatch h)⟩

theorem lines_emits {m : Module} {E : Ctx} : ∀ {ls : List Line} {s s' : Writes} {o : Module.Out}, Parted s s' → Canonical o.owned.ranges →
    Emits SameOut (m.assembleLines E recorder ls s o) (m.assembleLines E recorder ls s' o) := by
  intro ls
  induction ls with
  | nil => intro s s' o hs hc; exact .inl ⟨o, o, rfl, rfl, ⟨rfl, hc⟩, hs⟩
  | cons l ls ih =>
    intro s s' o hs hc
    rw [assembleLines_chain, assembleLines_chain]
    refine (line_emits (l := l) hs hc).chain fun s1 a s1' b _ _ hab hs1 => ?_
    obtain ⟨rfl, hc1⟩ := hab
    exact ih hs1 hc1

theorem claim_lt {o o' : Module.Out} {a n : Nat} (hn : 0 < n) (h : Module.claim o a n = .ok o') : a < 0x1000000 := by
  unfold Module.claim at h
  replace h := Res.bind_eq_ok.mp h
  obtain ⟨⟨owned, ok⟩, hx, h⟩ := h
  rw [DataRange.claimBytes, dif_pos (by omega)] at hx
  replace hx := Res.bind_eq_ok.mp hx
  obtain ⟨stop, hs, -⟩ := hx
  simp only [Address.addUnwrapped, Address.ofInt] at hs
  split at hs
  · simp only [Address.bankAddress] at *; omega
  · cases hs

theorem big_line {m : Module} {E : Ctx} {l : Line} (hs : 0 < l.statement.serializedSize) {a : Nat} (hv : l.value = some (a : Int))
    (ha : ¬ a < 0x1000000) (s : Writes) (o o' : Module.Out) : (m.assembleLine E recorder l s o).2 ≠ .ok o' := by
  intro h
  unfold Module.assembleLine at h
  simp only [gt_iff_lt, if_pos hs] at h
  obtain ⟨o1, h1, -⟩ := Res.bind_eq_ok.mp h
  unfold Module.writeLine at h1
  rw [hv] at h1
  simp only at h1
  cases hx : Address.ofInt (a : Int) with
  | err e => rw [hx] at h1; cases h1
  | ub u => rw [hx] at h1; cases h1
  | ok b =>
    have hb : b = a := by
      unfold Address.ofInt at hx
      split at hx
      · cases hx; simp
      · cases hx
    subst hb
    rw [hx] at h1
    simp only at h1
    rcases hy : l.statement.assemble b (m.lookup l.scopes E) recorder s with ⟨s1, r⟩
    rw [hy] at h1
    cases r with
    | ok u => exact ha (claim_lt hs h1)
    | err e => cases h1
    | ub u => cases h1

theorem labelOfAddress_eq (a : Addr) : ∃ b, labelOfAddress a = ((b : Nat) : Int) ∧ (b < 0x1000000 →
    ∀ n : Nat, labelOfAddress (Address.addWrapped a n) = ((wrapped b n : Nat) : Int)) := by
  refine ⟨Address.bank a * 0x10000 + Address.bankAddress a, rfl, fun h n => ?_⟩
  have h' : Address.bank a * 0x10000 + Address.bankAddress a = a := by
    unfold Address.bank Address.bankAddress; omega
  rw [h'] at h ⊢
  unfold labelOfAddress Address.bank Address.bankAddress Address.addWrapped wrapped
  omega

/-- The line before the new one, and the new one. -/
theorem pair_emits (S : Site p φ good nst) {m : Module} (h : p ≤ m.lines.length) (E : Ctx) {l : Line} (hg : good l.statement)
    (hsc : nst.serializedSize = 0 ∨ nl.scopes = l.scopes.map (sh p)) (hn : nl.statement = nst)
    (hp : 0 < nst.serializedSize →
      ∃ a, l.value = some (labelOfAddress a) ∧ nl.value = some (labelOfAddress (Address.addWrapped a (φ l.statement).serializedSize)))
    {s s' : Writes} {o : Module.Out} (hs : Parted s s') (hc : Canonical o.owned.ranges) :
    Emits SameOut (m.assembleLine E recorder l s o)
      (chain ((insModule p φ nl m).assembleLine E recorder (markLine p φ l) s' o)
        ((insModule p φ nl m).assembleLine E recorder nl)) := by
  rcases S.shape _ hg with ⟨h1, h0⟩ | ⟨d, es, es', h1, h2, h3, h4, h5, h6, h7⟩
  · rw [assembleLine_sh h (l := l) (l' := markLine p φ l) h1 rfl rfl rfl]
    have := line_emits (m := m) (E := E) (l := l) hs hc
    rcases hx : m.assembleLine E recorder l s' o with ⟨s1, r⟩
    rw [hx] at this
    cases r with
    | ok o1 => simp only [chain, new_line S hn h0]; exact this
    | err e => exact this
    | ub e => exact this
  · have hsz : 0 < nst.serializedSize := by
      rw [h7]
      have hl : 0 < es'.length := List.length_pos_iff.mpr h5
      simp only [List.mem_cons, List.not_mem_nil, or_false] at h2
      rcases h2 with hd | hd | hd <;> simp only [Statement.serializedSize, Directive.serializedSize, hd] <;> omega
    obtain ⟨a0, hv, hv'⟩ := hp hsz
    obtain ⟨a, hl1, hl2⟩ := labelOfAddress_eq a0
    rw [hl1] at hv
    have hsz1 : 0 < (φ l.statement).serializedSize := by
      rw [h6]
      have hl : 0 < es.length := List.length_pos_iff.mpr h4
      simp only [List.mem_cons, List.not_mem_nil, or_false] at h2
      rcases h2 with hd | hd | hd <;> simp only [Statement.serializedSize, Directive.serializedSize, hd] <;> omega
    by_cases ha : a < 0x1000000
    swap
    · refine .inr ⟨fun o' h' => big_line (by rw [S.size _ hg]; omega) hv ha s o o' h', fun o' h' => ?_⟩
      have hbig := big_line (m := insModule p φ nl m) (E := E) (l := markLine p φ l) hsz1 hv ha s' o
      rcases hx : (insModule p φ nl m).assembleLine E recorder (markLine p φ l) s' o with ⟨s1, r⟩
      rw [hx] at h' hbig
      cases r with
      | ok o1 => exact hbig o1 rfl
      | err e => cases h'
      | ub u => cases h'
    rw [hl2 ha, h6] at hv'
    rw [data_line h1 h2 (by rw [h3]; simp [h4]) hv ha]
    rw [data_line (l := markLine p φ l) (d := { d with list := es }) h6 h2 h4 hv ha]
    have hnl := fun s o => data_line (m := insModule p φ nl m) (E := E) (l := nl) (d := { d with list := es' }) (hn.trans h7) h2 h5 hv'
      (by unfold wrapped; omega) s o
    have hctx : (insModule p φ nl m).lookup (markLine p φ l).scopes E = m.lookup l.scopes E := lookup_ins h l.scopes E
    have hctx' : (insModule p φ nl m).lookup nl.scopes E = m.lookup l.scopes E := by rw [hsc.resolve_left (by omega)]; exact lookup_ins h l.scopes E
    simp only [hctx, hctx'] at hnl ⊢
    rw [h3, encodeList_append]
    have hsize : d.serializedSize = ({ d with list := es } : Directive).serializedSize + ({ d with list := es' } : Directive).serializedSize := by
      have := S.size _ hg
      rw [h1, h7] at this
      rw [h1] at h6
      rw [h6] at this
      exact this
    cases he : Directive.encodeList d.name (m.lookup l.scopes E) es with
    | err e => exact .inr ⟨(fun _ h => nomatch h), (fun _ h => nomatch h)⟩
    | ub e => exact .inr ⟨(fun _ h => nomatch h), (fun _ h => nomatch h)⟩
    | ok bs =>
      have hlen : bs.length = ({ d with list := es } : Directive).serializedSize := by
        refine statement_bytes_length (st := .dir { d with list := es }) (a := a) (ctx := m.lookup l.scopes E) ?_
        show Directive.assembleBytes { d with list := es } _ = _
        unfold Directive.assembleBytes
        rw [if_neg]
        · simp only [he, Res.bind_ok]
        · simp only [List.mem_cons, List.not_mem_nil, or_false] at h2
          rcases h2 with hd | hd | hd <;> simp [hd]
      cases he' : Directive.encodeList d.name (m.lookup l.scopes E) es' with
      | err e =>
        simp only [Res.bind_ok, chain, hnl, he']
        refine .inr ⟨(fun _ h => nomatch h), ?_⟩
        cases Module.claim o a ({ d with list := es } : Directive).serializedSize <;> exact fun _ h => nomatch h
      | ub e =>
        simp only [Res.bind_ok, chain, hnl, he']
        refine .inr ⟨(fun _ h => nomatch h), ?_⟩
        cases Module.claim o a ({ d with list := es } : Directive).serializedSize <;> exact fun _ h => nomatch h
      | ok bs' =>
        simp only [Res.bind_ok, chain, hnl, he']
        have htwo := claim_two hc ha ({ d with list := es } : Directive).serializedSize ({ d with list := es' } : Directive).serializedSize
        rw [← hsize] at htwo
        cases hcl : Module.claim o a ({ d with list := es } : Directive).serializedSize with
        | err e =>
          rw [hcl] at htwo
          rcases htwo with ⟨x, y, hx, hy, -⟩ | ⟨hx, -⟩
          · cases hy
          · exact .inr ⟨hx, (fun _ h => nomatch h)⟩
        | ub e =>
          rw [hcl] at htwo
          rcases htwo with ⟨x, y, hx, hy, -⟩ | ⟨hx, -⟩
          · cases hy
          · exact .inr ⟨hx, (fun _ h => nomatch h)⟩
        | ok o1 =>
          rw [hcl, Res.bind_ok] at htwo
          rcases htwo with ⟨x, y, hx, hy, hxy⟩ | hf
          · refine .inl ⟨x, y, hx, hy, hxy, ?_⟩
            simp only [h6, List.append_assoc, List.cons_append, List.nil_append]
            refine parted_append hs ?_
            have hw : wrapped a (Statement.dir { d with list := es }).serializedSize = wrapped a bs.length := by rw [hlen]; rfl
            rw [hw]
            exact .parted a bs bs' .nil
          · exact .inr hf

theorem assembleLines_ins (S : Site p φ good nst) {m : Module} (h : p ≤ m.lines.length) (hn : nl.statement = nst) (E : Ctx) :
    ∀ (q : Nat) (ls : List Line) {s s' : Writes} {o : Module.Out}, q ≤ ls.length → (q = 0 → nst.serializedSize = 0) →
    (∀ k l, k + 1 = q → ls[k]? = some l → good l.statement ∧ (nst.serializedSize = 0 ∨ nl.scopes = l.scopes.map (sh p))) → Placed q φ nst ls nl.value →
    Parted s s' → Canonical o.owned.ranges →
    Emits SameOut (m.assembleLines E recorder ls s o) ((insModule p φ nl m).assembleLines E recorder (insAt p φ nl q ls) s' o) := by
  intro q
  induction q with
  | zero =>
    intro ls s s' o _ h0 _ _ hs hc
    rw [insAt, Module.assembleLines, new_line S hn (h0 rfl)]
    simp only
    rw [assembleLines_after h]
    exact lines_emits hs hc
  | succ q ih =>
    intro ls s s' o hq _ hb hp hs hc
    cases ls with
    | nil => simp at hq
    | cons l ls =>
      rw [insAt]
      by_cases h0 : q = 0
      · subst h0
        obtain ⟨hg, hsc⟩ := hb 0 l rfl rfl
        have := pair_emits S h E hg hsc hn (hp 0 l rfl rfl) hs hc
        rw [if_pos rfl, insAt, assembleLines_chain, assembleLines_chain]
        have hy : (fun s o => (insModule p φ nl m).assembleLines E recorder (nl :: ls.map (shLine p)) s o) =
            fun s o => chain ((insModule p φ nl m).assembleLine E recorder nl s o)
              ((insModule p φ nl m).assembleLines E recorder (ls.map (shLine p))) := by
          funext s o; exact assembleLines_chain _ _ _ _ _ _
        show Emits _ _ (chain _ fun s o => (insModule p φ nl m).assembleLines E recorder (nl :: ls.map (shLine p)) s o)
        rw [hy, ← chain_chain]
        refine this.chain fun s1 a s1' b _ _ hab hs1 => ?_
        obtain ⟨rfl, hc1⟩ := hab
        rw [assembleLines_after h]
        exact lines_emits hs1 hc1
      · rw [if_neg h0, assembleLines_chain, assembleLines_chain, assembleLine_sh h (l := l) (l' := shLine p l) rfl rfl rfl rfl]
        refine (line_emits (l := l) hs hc).chain fun s1 a s1' b _ _ hab hs1 => ?_
        obtain ⟨rfl, hc1⟩ := hab
        refine ih ls (by simpa using hq) (fun h => absurd h h0) (fun k x hk hx => hb (k + 1) x (by omega) (by simpa using hx)) ?_ hs1 hc1
        intro k x hk hx hsz
        exact hp (k + 1) x (by omega) (by simpa using hx) hsz

theorem nameAddresses_ins {m : Module} (h : p ≤ m.lines.length) : ∀ (g : List (Str × Nat)) (names : HMap Nat Str),
    (insModule p φ nl m).nameAddresses names (shMap p g) = m.nameAddresses names g := by
  intro g
  induction g with
  | nil => intro names; rfl
  | cons e g ih =>
    intro names
    obtain ⟨n, i⟩ := e
    show (insModule p φ nl m).nameAddresses names ((n, sh p i) :: shMap p g) = _
    rw [Module.nameAddresses, Module.nameAddresses]
    show (match (insAt p φ nl p m.lines)[sh p i]? with | none => _ | some l => _) = _
    rw [insAt_get h]
    cases m.lines[i]? with
    | none => rfl
    | some l =>
      simp only [Option.map_some, at_value]
      cases l.value with
      | none => rfl
      | some v => simp only [ih]

theorem assemble_ins (S : Site p φ good nst) {m m' : Module} (h : Laid p φ good nst m m') (hc : Canonical m.owned.ranges) (E : Ctx)
    {s s' : Writes} (hs : Parted s s') :
    Emits (fun a b => Laid p φ good nst a b ∧ Canonical a.owned.ranges) (m.assemble E recorder s) (m'.assemble E recorder s') := by
  obtain ⟨nl, rfl, hn, hp⟩ := h
  have hl := assembleLines_ins S hn.le hn.statement E p m.lines (s := s) (s' := s') (o := ⟨m.owned, m.targets, m.conventions⟩) hn.le
    (fun h => S.first h) hn.before hp hs hc
  unfold Module.assemble
  show Emits _ _ ((Module.assembleLines (insModule p φ nl m) E recorder (insAt p φ nl p m.lines) s' ⟨m.owned, m.targets, m.conventions⟩).1, _)
  have hnames : (insModule p φ nl m).nameAddresses (insModule p φ nl m).addrNames (insModule p φ nl m).globals
      = m.nameAddresses m.addrNames m.globals := nameAddresses_ins hn.le m.globals m.addrNames
  rw [hnames]
  show Emits _ ((Module.assembleLines m E recorder m.lines s ⟨m.owned, m.targets, m.conventions⟩).1,
    (Module.assembleLines m E recorder m.lines s ⟨m.owned, m.targets, m.conventions⟩).2 >>= _)
    (_, (Module.assembleLines (insModule p φ nl m) E recorder (insAt p φ nl p m.lines) s' ⟨m.owned, m.targets, m.conventions⟩).2 >>= _)
  rcases hl with ⟨o, o', h1, h2, ⟨rfl, hc1⟩, h4⟩ | ⟨h1, h2⟩
  · rw [h1, h2, Res.bind_ok, Res.bind_ok]
    cases m.nameAddresses m.addrNames m.globals with
    | err e => exact .inr ⟨(fun _ h => nomatch h), (fun _ h => nomatch h)⟩
    | ub e => exact .inr ⟨(fun _ h => nomatch h), (fun _ h => nomatch h)⟩
    | ok names =>
      exact .inl ⟨_, _, rfl, rfl, ⟨⟨nl, rfl, hn, hp⟩, hc1⟩, h4⟩
  · refine .inr ⟨fun a ha => ?_, fun a ha => ?_⟩
    · obtain ⟨x, hx, -⟩ := Res.bind_eq_ok.mp ha; exact h1 x hx
    · obtain ⟨x, hx, -⟩ := Res.bind_eq_ok.mp ha; exact h2 x hx

end Nsasm.Shift
