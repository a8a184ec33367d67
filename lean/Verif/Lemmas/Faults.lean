import Verif.Lemmas.Located
import Verif.Lemmas.Accepts
import Verif.Lemmas.Emit
import Verif.Lemmas.ParseDefined
import Verif.Spec.Located

/-! # What is wrong with the line an error names -/

namespace Nsasm
open Spec Props

@[simp] theorem Location.none_update (l : Location) : Location.none.update l = l := by
  obtain ⟨path, line⟩ := l
  cases path <;> cases line <;> rfl

theorem Parse.parseAt_of_err {l : Location} {ts : List Token} {e : Err} (h : Parse.parse ts = .err e) :
    Parse.parseAt l ts = if e = .other then .err .other .none else .err e l := by
  unfold Parse.parseAt
  rw [h]
  cases e <;> simp

theorem Parse.parseAt_of_ok {l : Location} {ts : List Token} {is : List Item} (h : Parse.parse ts = .ok is) :
    Parse.parseAt l ts = .ok is := by
  unfold Parse.parseAt
  rw [h]

namespace Module

/-! ## Loading -/

theorem loadLines_append (xs ys : List Str) : ∀ ld : Loading,
    loadLines ld (xs ++ ys) = loadLines ld xs >>= fun ld => loadLines ld ys := by
  induction xs with
  | nil => intro ld; rfl
  | cons x xs ih =>
    intro ld
    rw [List.cons_append, loadLines, loadLines]
    cases tokenize x with
    | err e => rfl
    | ub u => rfl
    | ok ts =>
      simp only [Res.bind_ok]
      cases Parse.parse ts with
      | err e => rfl
      | ub u => rfl
      | ok is =>
        simp only [Res.bind_ok]
        cases loadItems ld is with
        | err e => rfl
        | ub u => rfl
        | ok ld' => simp only [Res.bind_ok]; exact ih _

/-- Where the loop over the lines fails. -/
theorem loadLinesAt_err (path : Str) : ∀ (file : List Str) (n : Nat) (ld : Loading) (nums : List Nat) (e : Err)
    (loc : Location), loadLinesAt path n ld nums file = .err e loc →
    ∃ before line after ld', file = before ++ line :: after ∧ loadLines ld before = .ok ld' ∧
      loadLines ld' [line] = .err e ∧
      (loc = ⟨path, some (n + before.length + 1)⟩ ∨
        loc = .none ∧ e = .other ∧ ∃ ts, tokenize line = .ok ts ∧ Parse.parse ts = .err .other) := by
  intro file
  induction file with
  | nil => intro n ld nums e loc h; cases h
  | cons line rest ih =>
    intro n ld nums e loc h
    rw [loadLinesAt] at h
    have hl : loadLines ld [line] = (do
        let tokens ← tokenize line
        let items ← Parse.parse tokens
        loadItems ld items) := by
      rw [loadLines]
      cases tokenize line with
      | err e => rfl
      | ub u => rfl
      | ok ts =>
        simp only [Res.bind_ok]
        cases Parse.parse ts with
        | err e => rfl
        | ub u => rfl
        | ok is => simp only [Res.bind_ok]; cases loadItems ld is <;> rfl
    cases ht : tokenize line with
    | err e' =>
      rw [ht] at h hl
      simp only [Res.at, LRes.bind_err, LRes.err.injEq] at h
      obtain ⟨rfl, rfl⟩ := h
      exact ⟨[], line, rest, ld, rfl, rfl, hl, .inl (by simp)⟩
    | ub u => rw [ht] at h; cases h
    | ok ts =>
      rw [ht] at h hl
      simp only [Res.at, LRes.bind_ok] at h
      simp only [Res.bind_ok] at hl
      cases hp : Parse.parse ts with
      | err e' =>
        rw [Parse.parseAt_of_err hp] at h
        rw [hp] at hl
        by_cases he : e' = .other
        · rw [if_pos he] at h
          subst he
          simp only [LRes.bind_err, LRes.err.injEq] at h
          obtain ⟨rfl, rfl⟩ := h
          exact ⟨[], line, rest, ld, rfl, rfl, hl, .inr ⟨rfl, rfl, ts, ht, hp⟩⟩
        · rw [if_neg he] at h
          simp only [LRes.bind_err, LRes.err.injEq] at h
          obtain ⟨rfl, rfl⟩ := h
          exact ⟨[], line, rest, ld, rfl, rfl, hl, .inl (by simp)⟩
      | ub u => unfold Parse.parseAt at h; rw [hp] at h; cases h
      | ok is =>
        rw [Parse.parseAt_of_ok hp] at h
        rw [hp] at hl
        simp only [LRes.bind_ok] at h
        simp only [Res.bind_ok] at hl
        cases hi : loadItems ld is with
        | err e' =>
          rw [hi] at h hl
          simp only [LRes.bind_err, LRes.err.injEq] at h
          obtain ⟨rfl, rfl⟩ := h
          exact ⟨[], line, rest, ld, rfl, rfl, hl, .inl (by simp)⟩
        | ub u => rw [hi] at h; cases h
        | ok ld' =>
          rw [hi] at h hl
          simp only [LRes.bind_ok] at h
          obtain ⟨before, line', after, ld'', h1, h2, h3, h4⟩ := ih _ _ _ _ _ h
          refine ⟨line :: before, line', after, ld'', by rw [h1]; rfl, ?_, h3, ?_⟩
          · rw [show line :: before = [line] ++ before from rfl, loadLines_append, hl, Res.bind_ok, h2]
          · rcases h4 with h4 | h4
            · left; rw [h4, List.length_cons, show n + 1 + before.length + 1 = n + (before.length + 1) + 1 by omega]
            · exact .inr h4

theorem program_length (items : List Item) : ∀ ls ls' : List ParsedLabel,
    (program ls items).length = (program ls' items).length := by
  induction items with
  | nil => intro ls ls'; rfl
  | cons it items ih =>
    intro ls ls'
    cases it with
    | label l => rw [program, program]; exact ih _ _
    | stmt s => rw [program, program]; simp

theorem program_length_append (xs ys : List Item) : ∀ ls : List ParsedLabel,
    (program ls (xs ++ ys)).length = (program ls xs).length + (program [] ys).length := by
  induction xs with
  | nil => intro ls; rw [List.nil_append, program_length ys ls []]; simp [program]
  | cons it xs ih =>
    intro ls
    cases it with
    | label l => rw [List.cons_append, program, program]; exact ih _
    | stmt s => rw [List.cons_append, program, program]; simp only [List.length_cons, ih]; omega

theorem fileItems_cons {line : Str} {rest : List Str} {ys zs : List Item} (h : FileItems [line] ys)
    (h' : FileItems rest zs) : FileItems (line :: rest) (ys ++ zs) := by
  obtain ⟨per, h1, rfl⟩ := h
  obtain ⟨per', h2, rfl⟩ := h'
  exact ⟨per ++ per', List.rel_append h1 h2, by simp⟩

/-- The numbers recorded are those of the lines the statements stand on. -/
theorem loadLinesAt_ok (path : Str) : ∀ (file : List Str) (n : Nat) (P : Program) (ld ld' : Loading) (nums nums' : List Nat),
    LoadState P ld → loadLinesAt path n ld nums file = .ok (ld', nums') →
    ∃ P' extra items, LoadState P' ld' ∧ nums' = nums ++ extra ∧ FileItems file items ∧
      P' = P ++ program ld.pending items ∧ extra.length = (program [] items).length ∧
      ∀ i v, extra[i]? = some v → n < v ∧ StandsOn file (v - n) i := by
  intro file
  induction file with
  | nil =>
    intro n P ld ld' nums nums' hP h
    simp only [loadLinesAt, LRes.ok.injEq, Prod.mk.injEq] at h
    obtain ⟨rfl, rfl⟩ := h
    exact ⟨P, [], [], hP, by simp, ⟨[], .nil, rfl⟩, by simp [program], rfl, by simp⟩
  | cons line rest ih =>
    intro n P ld ld' nums nums' hP h
    rw [loadLinesAt] at h
    obtain ⟨ts, ht, h⟩ := LRes.bind_eq_ok.mp h
    obtain ⟨is, hp, h⟩ := LRes.bind_eq_ok.mp h
    obtain ⟨ld1, hi, h⟩ := LRes.bind_eq_ok.mp h
    rw [Res.at_eq_ok] at ht hi
    have hp : Parse.parse ts = .ok is := by
      have := congrArg LRes.erase hp
      rwa [Parse.erase_parseAt] at this
    rcases loadItems_spec is P ld hP with ⟨ld1', h1, h2⟩ | ⟨e, h1, -⟩
    swap
    · rw [hi] at h1; cases h1
    rw [hi] at h1
    cases h1
    have hcount : ld1.m.lines.length - ld.m.lines.length = (program [] is).length := by
      rw [h2.inv.length, hP.inv.length, List.length_append, program_length is _ []]; omega
    obtain ⟨P', extra, items, g1, g2, g3, g4, g5, g6⟩ := ih (n + 1) _ ld1 ld' _ nums' h2 h
    have hline : FileItems [line] is := ⟨[is], .cons ⟨ts, ht, hp⟩ .nil, by simp⟩
    rw [hcount] at g2
    refine ⟨P', List.replicate (program [] is).length (n + 1) ++ extra, is ++ items, g1, by rw [g2, List.append_assoc],
      fileItems_cons hline g3, ?_, ?_, ?_⟩
    · rw [g4, List.append_assoc]
      congr 1
      have key : ∀ (is : List Item) (ls : List ParsedLabel) (ld ld1 : Loading), ld.pending = ls →
          loadItems ld is = .ok ld1 → program ls is ++ program ld1.pending items = program ls (is ++ items) := by
        intro is
        induction is with
        | nil => intro ls ld ld1 hls h; cases h; rw [hls]; rfl
        | cons it is ih =>
          intro ls ld ld1 hls h
          cases it with
          | label l =>
            rw [List.cons_append, program, program]
            exact ih _ { ld with pending := ld.pending ++ [l] } ld1 (by rw [← hls]) h
          | stmt s =>
            rw [List.cons_append, program, program, List.cons_append]
            rw [loadItems] at h
            obtain ⟨ld2, hs, h⟩ := Res.bind_eq_ok.mp h
            congr 1
            refine ih _ ld2 ld1 ?_ h
            unfold loadStatement at hs
            obtain ⟨m2, -, hs⟩ := Res.bind_eq_ok.mp hs
            cases s with
            | instr i => simp only [Res.ok.injEq] at hs; rw [← hs]
            | dir d =>
              simp only at hs
              unfold loadDirective at hs
              split at hs
              · split at hs
                · cases hs
                · split at hs
                  · cases hs
                  · cases hs; rfl
              · split at hs
                · cases hs; rfl
                · split at hs
                  · split at hs
                    · cases hs
                    · cases hs; rfl
                  · cases hs; rfl
      exact key is ld.pending ld ld1 rfl hi
    · rw [List.length_append, List.length_replicate, g5, program_length_append]
    · intro i v hv
      by_cases hc : i < (program [] is).length
      · rw [List.getElem?_append_left (by simpa using hc)] at hv
        rw [List.getElem?_replicate, if_pos hc] at hv
        cases hv
        refine ⟨by omega, [], line, rest, [], is, rfl, by simp, ⟨[], .nil, rfl⟩, hline, by simp [program], by simpa using hc⟩
      · rw [List.getElem?_append_right (by simpa using Nat.not_lt.mp hc), List.length_replicate] at hv
        obtain ⟨q1, before, line', after, xs, ys, q2, q3, q4, q5, q6, q7⟩ := g6 _ _ hv
        refine ⟨by omega, line :: before, line', after, is ++ xs, ys, by rw [q2]; rfl, ?_, fileItems_cons hline q4, q5, ?_, ?_⟩
        · rw [List.length_cons]; omega
        · rw [program_length_append]; omega
        · rw [List.append_assoc, program_length_append]; omega

/-- What is known of a file that loads. -/
theorem loadAsmFileAt_ok {path : Str} {file : List Str} {m : Module} {nums : List Nat}
    (h : loadAsmFileAt path file = .ok (m, nums)) :
    loadAsmFile file = .ok m ∧ nums.length = m.lines.length ∧ ∀ j n, nums[j]? = some n → StandsOn file n j := by
  have hm : loadAsmFile file = .ok m := by rw [← erase_loadAsmFileAt path, h]; rfl
  refine ⟨hm, ?_⟩
  unfold loadAsmFileAt at h
  obtain ⟨⟨ld, nums'⟩, h1, h⟩ := LRes.bind_eq_ok.mp h
  obtain ⟨m', h2, h⟩ := LRes.bind_eq_ok.mp h
  simp only [LRes.ok.injEq, Prod.mk.injEq] at h
  obtain ⟨rfl, rfl⟩ := h
  obtain ⟨P', extra, items, g1, g2, g3, g4, g5, g6⟩ := loadLinesAt_ok path file 0 [] _ _ _ _ loadState_empty h1
  rw [List.nil_append] at g2
  subst g2
  refine ⟨?_, fun j n hn => (g6 j n hn).2⟩
  obtain ⟨items', hf, hI, -, -⟩ := loadAsmFile_ok hm
  have hl : m'.lines.length = ld.m.lines.length := by
    unfold finishLoadAt at h2
    split at h2
    · cases h2
    · cases h2; rfl
  rw [hl, g1.inv.length, g4, List.nil_append, g5]

theorem doomed_of {before : List Str} {line : Str} {ld : Loading} {e : Err}
    (h1 : loadLines ⟨empty, [], []⟩ before = .ok ld) (h2 : loadLines ld [line] = .err e) :
    Doomed (before ++ [line]) e := by
  intro rest
  unfold loadAsmFile
  rw [loadLines_append, loadLines_append, h1]
  simp only [Res.bind_ok, h2]
  rfl

theorem loadLines_take {file : List Str} {ld ld' : Loading} (h : loadLines ld file = .ok ld') (k : Nat) :
    ∃ ld'', loadLines ld (file.take k) = .ok ld'' := by
  rw [← List.take_append_drop k file, loadLines_append] at h
  obtain ⟨ld'', h1, -⟩ := Res.bind_eq_ok.mp h
  exact ⟨ld'', h1⟩

/-- Lines that load are not doomed: what follows may be wrong in two ways. -/
theorem not_doomed {lines : List Str} {ld : Loading} (h : loadLines ⟨empty, [], []⟩ lines = .ok ld) (e : Err) :
    ¬ Doomed lines e := by
  intro hd
  have h1 := hd [cs!"?"]
  have h2 := hd [cs!" ,"]
  unfold loadAsmFile at h1 h2
  rw [loadLines_append, h] at h1 h2
  simp only [Res.bind_ok] at h1 h2
  have e1 : loadLines ld [cs!"?"] = .err .tokenize := by
    rw [loadLines, show tokenize cs!"?" = .err .tokenize by decide +kernel]; rfl
  have e2 : loadLines ld [cs!" ,"] = .err .parse := by
    obtain ⟨ts, ht, hp⟩ : ∃ ts, tokenize cs!" ," = .ok ts ∧ Parse.parse ts = .err .parse := ⟨_, rfl, by decide +kernel⟩
    rw [loadLines, ht, Res.bind_ok, hp]; rfl
  rw [e1] at h1
  rw [e2] at h2
  cases h1
  cases h2

/-- Where loading fails. -/
theorem loadAsmFileAt_err {path : Str} {file : List Str} {e : Err} {loc : Location}
    (h : loadAsmFileAt path file = .err e loc) :
    (∃ n, loc = ⟨path, some n⟩ ∧ (FirstDoomed file n e ∨ e = .unclosedScope ∧ NeverClosed file n)) ∨
    (loc = .none ∧ e = .other ∧ ∃ line ∈ file, ∃ ts, tokenize line = .ok ts ∧ Parse.parse ts = .err .other) := by
  unfold loadAsmFileAt at h
  rcases LRes.bind_eq_err.mp h with h | ⟨⟨ld, nums⟩, h1, h⟩
  · obtain ⟨before, line, after, ld', h1, h2, h3, h4⟩ := loadLinesAt_err path file 0 _ [] e loc h
    rcases h4 with h4 | ⟨h4, h5, h6⟩
    · refine .inl ⟨_, h4, .inl ⟨by omega, ?_, ?_, ?_⟩⟩
      · rw [h1]; simp
      · rw [h1, show 0 + before.length + 1 = before.length + 1 by omega]
        have : (before ++ line :: after).take (before.length + 1) = before ++ [line] := by
          rw [List.take_append]; simp; exact List.take_of_length_le (by omega)
        rw [this]
        exact doomed_of h2 h3
      · intro k hk e'
        have : file.take k = before.take k := by
          rw [h1, List.take_append_of_le_length (by omega)]
        rw [this]
        obtain ⟨ld'', hl⟩ := loadLines_take h2 k
        exact not_doomed hl e'
    · exact .inr ⟨h4, h5, line, by rw [h1]; simp, h6⟩
  · rcases LRes.bind_eq_err.mp h with h | ⟨m, h2, h⟩
    swap
    · cases h
    left
    unfold finishLoadAt at h
    obtain ⟨P', extra, items, g1, g2, g3, g4, g5, g6⟩ := loadLinesAt_ok path file 0 [] _ _ _ _ loadState_empty h1
    rw [List.nil_append] at g2 g4
    subst g2
    cases hs : ld.scopes with
    | nil => rw [hs] at h; cases h
    | cons s ss =>
      rw [hs] at h
      simp only [Res.at, Location.none_update, LRes.err.injEq] at h
      obtain ⟨rfl, rfl⟩ := h
      have hopen := g1.scopes
      rw [hs] at hopen
      have henc : Encloses P' s P'.length := (mem_openAt (Nat.le_refl _)).mp (by rw [← hopen]; simp)
      have hlt : s < nums.length := by rw [g5, ← g4]; exact henc.1
      refine ⟨nums[s], by rw [place, List.getElem?_eq_getElem hlt], .inr ⟨rfl, items, s, g3, ?_, ?_, ?_⟩⟩
      · exact (g6 s _ (List.getElem?_eq_getElem hlt)).2
      · have := henc; rw [g4] at this; exact this
      · intro j' hj'
        have hj' : Encloses P' j' P'.length := by rw [g4]; exact hj'
        have := (mem_openAt (Nat.le_refl _)).mpr hj'
        rw [← hopen] at this
        have hsort := openAt_sorted P' P'.length (Nat.le_refl _)
        rw [← hopen] at hsort
        rcases List.mem_cons.mp this with h | h
        · omega
        · have := (List.pairwise_cons.mp hsort).1 j' h; omega

/-! ## The first pass -/

/-- What is pending, and what has been recorded, are states that may arrive there. -/
structure Flowing (m : Module) (p : Pass) : Prop where
  good : GoodPass p
  same : SameLines m p
  work : WorkIn (Arrives m) p.work
  lines : ∀ (k : Nat) (l : Line), p.lines[k]? = some l → l.reached = true → Arrives m k l.incoming

theorem arrives_add {m : Module} {w : OMap ExecutionState} (hs : OMap.Sorted w) (hw : WorkIn (Arrives m) w) {k : Nat}
    {s : ExecutionState} (h : Arrives m k s) : WorkIn (Arrives m) (addWork w k s) := by
  intro k' s' hm
  have hf := OMap.find_of_mem (OMap.sorted_upsert hs k s) hm
  rw [OMap.find_upsert hs] at hf
  split at hf
  · next he =>
    subst he
    cases ho : OMap.find w k with
    | none => rw [ho] at hf; cases hf; exact h
    | some t => rw [ho] at hf; cases hf; exact .merge (hw k t (OMap.mem_of_find ho)) h
  · exact hw k' s' (OMap.mem_of_find hf)

theorem arrives_seeds {m : Module} (ls : List Line) : ∀ (i : Nat) (w : OMap ExecutionState), OMap.Sorted w →
    WorkIn (Arrives m) w →
    (∀ (j : Nat) (l : Line) (d : Directive), ls[j]? = some l → l.statement = .dir d → d.name = .entry →
      Arrives m (i + j + 1) (.init d.flags)) → WorkIn (Arrives m) (seeds w i ls) := by
  induction ls with
  | nil => intro i w _ h _; exact h
  | cons l ls ih =>
    intro i w hs hw h
    have ht : ∀ (j : Nat) (q : Line) (d : Directive), ls[j]? = some q → q.statement = .dir d → d.name = .entry →
        Arrives m (i + 1 + j + 1) (.init d.flags) := by
      intro j q d h1 h2 h3
      have := h (j + 1) q d (by simpa using h1) h2 h3
      rwa [show i + (j + 1) + 1 = i + 1 + j + 1 by omega] at this
    rw [seeds]
    split
    · rename_i d hd
      split
      · rename_i he
        refine ih (i + 1) _ (OMap.sorted_upsert hs _ _) (arrives_add hs hw ?_) ht
        have := h 0 l d (by simp) hd he
        simpa using this
      · exact ih (i + 1) w hs hw ht
    · exact ih (i + 1) w hs hw ht

theorem flowing_init {m : Module} (hwr : ∀ l ∈ m.lines, StatementWritten l.statement)
    (hfresh : ∀ (k : Nat) (l : Line), m.lines[k]? = some l → l.reached = false) :
    Flowing m ⟨m.lines, seeds [] 0 m.lines⟩ := by
  obtain ⟨s1, s2⟩ := seeds_good m.lines 0 [] List.Pairwise.nil (by simp) hwr
  refine ⟨⟨s1, s2, hwr⟩, rfl, ?_, ?_⟩
  · refine arrives_seeds m.lines 0 [] List.Pairwise.nil (by intro k s h; simp at h) ?_
    intro j l d h1 h2 h3
    rw [Nat.zero_add]
    exact .entry ⟨l, d, h1, h2, h3, rfl⟩
  · intro k l hl hr
    have := hfresh k l hl
    rw [this] at hr
    cases hr

theorem flowing_step {m : Module} {p p' : Pass} (h : Flowing m p) (hs : m.step p = .ok (some p')) : Flowing m p' := by
  have hgood := good_step h.good hs
  have hsame := sameLines_step h.same hs
  obtain ⟨k, state, rest, line, hw, hl, h1 | ⟨-, next, h1, h2, h3⟩⟩ := step_cases hs
  · refine ⟨hgood, hsame, ?_, ?_⟩
    · rw [h1.2.2]
      exact fun k' s' hm => h.work k' s' (by rw [hw]; exact List.mem_cons_of_mem _ hm)
    · rw [h1.2.2]; exact h.lines
  · have hk : Arrives m k state := h.work k state (by rw [hw]; simp)
    obtain ⟨l', hl', hst, hsc⟩ := flow_original h.same hl
    have hwork : OMap.Sorted (if line.statement.isExitInstruction then p.work else addWork p.work (k + 1) next) ∧
        WorkIn (Arrives m) (if line.statement.isExitInstruction then p.work else addWork p.work (k + 1) next) := by
      split
      · exact ⟨h.good.sorted, h.work⟩
      · next hx =>
        refine ⟨OMap.sorted_upsert h.good.sorted _ _, arrives_add h.good.sorted h.work
          (.next hk hl' (by rw [← hst]; exact h1) ?_)⟩
        rw [← hst, ← stops_iff]
        exact hx
    refine ⟨hgood, hsame, ?_, ?_⟩
    · rcases branchWork_cases h2 with ⟨-, h4⟩ | ⟨i, name, t, nx, a1, a2, a3, a4, a5, a6⟩
      · rw [h4]; exact hwork.2
      · rw [a6]
        exact arrives_add hwork.1 hwork.2
          (.branch hk hl' (by rw [← hst]; exact a1) a2 a3 (by rw [← hsc]; exact a4) a5)
    · intro k' q hq hr
      rw [h3, List.getElem?_set] at hq
      split at hq
      · next he =>
        subst he
        split at hq
        · cases hq; exact hk
        · cases hq
      · exact h.lines k' q hq hr

/-- A branch is to a name. -/
def BranchesNamed (m : Module) : Prop := ∀ (k : Nat) (l : Line) (i : Instruction), m.lines[k]? = some l →
  l.statement = .instr i → MayBranch i → i.arg1.simpleIdentifier ≠ none

/-- What a round fails with. -/
theorem stepAt_err {path : Str} {nums : List Nat} {m : Module} (hnm : BranchesNamed m) {p : Pass} (hI : Flowing m p) {e : Err} {loc : Location}
    (h : m.stepAt path nums p = .err e loc) :
    (∃ k, loc = place path nums k ∧ FlowFault m k e) ∨
    loc = .none ∧ e = .pastEndOfFile ∧ ∃ s, Arrives m m.lines.length s := by
  unfold stepAt at h
  cases hw : p.work with
  | nil => rw [hw] at h; cases h
  | cons n rest =>
    obtain ⟨k, state⟩ := n
    rw [hw] at h
    simp only at h
    have hk : Arrives m k state := hI.work k state (by rw [hw]; simp)
    have hlen : p.lines.length = m.lines.length := by
      have := congrArg List.length hI.same
      simpa using this
    by_cases hend : k = p.lines.length
    · rw [if_pos hend] at h
      simp only [Res.here, LRes.err.injEq] at h
      obtain ⟨rfl, rfl⟩ := h
      exact .inr ⟨rfl, rfl, state, by rw [← hlen, ← hend]; exact hk⟩
    · rw [if_neg hend] at h
      cases hl : p.lines[k]? with
      | none => rw [hl] at h; cases h
      | some line =>
        rw [hl] at h
        simp only at h
        split at h
        · cases h
        obtain ⟨l', hl', hst, hsc⟩ := flow_original hI.same hl
        rcases LRes.bind_eq_err.mp h with h | ⟨q, -, h⟩
        swap
        · cases h
        unfold visitAt at h
        rcases LRes.bind_eq_err.mp h with h | ⟨next, hx, h⟩
        · rw [Res.at_eq_err, Location.none_update] at h
          exact .inl ⟨k, h.2, .runs hl' hk (by rw [← hst]; exact h.1)⟩
        rcases LRes.bind_eq_err.mp h with h | ⟨w, -, h⟩
        swap
        · cases h
        unfold branchWorkAt at h
        cases hs : line.statement with
        | dir d => rw [hs] at h; cases h
        | instr i =>
          rw [hs] at h
          simp only at h
          by_cases hb : i.isLocalBranch = true
          swap
          · rw [if_pos (by simp [hb])] at h; cases h
          rw [if_neg (by simp [hb])] at h
          have hmb := (mayBranch_iff i).mp hb
          have hi : l'.statement = .instr i := by rw [← hst, hs]
          cases hn : i.arg1.simpleIdentifier with
          | none => exact absurd hn (hnm k l' i hl' hi hmb)
          | some name =>
            rw [hn] at h
            simp only at h
            cases ht : m.localIndex name line.scopes with
            | none =>
              rw [ht] at h
              simp only [Res.at, Location.none_update, LRes.err.injEq] at h
              obtain ⟨rfl, rfl⟩ := h
              exact .inl ⟨k, rfl, .target hl' hk hi hmb hn (by rw [← hsc]; exact ht)⟩
            | some t =>
              rw [ht] at h
              simp only at h
              rcases LRes.bind_eq_err.mp h with h | ⟨nx, -, h⟩
              · rw [Res.at_eq_err, Location.none_update] at h
                exact .inl ⟨k, h.2, .branch hl' hk hi hmb h.1⟩
              · cases h

theorem exploreAt_err {path : Str} {nums : List Nat} {m : Module} (hnm : BranchesNamed m) : ∀ (n : Nat) (p : Pass), Flowing m p →
    ∀ {e : Err} {loc : Location}, m.exploreAt path nums n p = .err e loc →
    (∃ k, loc = place path nums k ∧ FlowFault m k e) ∨
    loc = .none ∧ (e = .steps ∨ e = .pastEndOfFile ∧ ∃ s, Arrives m m.lines.length s) := by
  intro n
  induction n with
  | zero =>
    intro p _ e loc h
    simp only [exploreAt, Res.here, LRes.err.injEq] at h
    obtain ⟨rfl, rfl⟩ := h
    exact .inr ⟨rfl, .inl rfl⟩
  | succ n ih =>
    intro p hI e loc h
    rw [exploreAt] at h
    rcases LRes.bind_eq_err.mp h with h | ⟨o, ho, h⟩
    · rcases stepAt_err hnm hI h with h | ⟨h1, h2⟩
      · exact .inl h
      · exact .inr ⟨h1, .inr h2⟩
    · cases o with
      | none => cases h
      | some p' =>
        have hs : m.step p = .ok (some p') := by
          rw [← erase_stepAt path nums, ho]; rfl
        exact ih p' (flowing_step hI hs) h

theorem explored_flowing {m : Module} {fuel : Nat} {p p' : Pass} (hI : Flowing m p) (h : m.explore fuel p = .ok p') :
    Flowing m p' :=
  (explore_induct (I := Flowing m) (fun _ _ => flowing_step) fuel p p' hI h).1

theorem fixLinesAt_err {path : Str} {nums : List Nat} : ∀ (ls : List Line) (k : Nat) {e : Err} {loc : Location},
    fixLinesAt path nums k ls = .err e loc →
    ∃ j l i, ls[j]? = some l ∧ l.statement = .instr i ∧ loc = place path nums (k + j) ∧
      (l.reached = false ∧ e = .unreached ∨ l.reached = true ∧ i.fixAddressingMode l.incoming.flags = .err e) := by
  intro ls
  induction ls with
  | nil => intro k e loc h; cases h
  | cons l ls ih =>
    intro k e loc h
    have next : fixLinesAt path nums (k + 1) ls = .err e loc →
        ∃ j q i, (l :: ls)[j]? = some q ∧ q.statement = .instr i ∧ loc = place path nums (k + j) ∧
          (q.reached = false ∧ e = .unreached ∨
            q.reached = true ∧ i.fixAddressingMode q.incoming.flags = .err e) := fun h => by
      obtain ⟨j, q, i, h1, h2, h3, h4⟩ := ih (k + 1) h
      exact ⟨j + 1, q, i, by simpa using h1, h2, by rw [h3]; congr 1; omega, h4⟩
    rw [fixLinesAt] at h
    cases hs : l.statement with
    | dir d =>
      rw [hs] at h
      rcases LRes.bind_eq_err.mp h with h | ⟨o, ho, h⟩
      · exact next h
      · cases h
    | instr i =>
      rw [hs] at h
      simp only at h
      split at h
      · next hr =>
        simp only [Res.at, Location.none_update, LRes.err.injEq] at h
        obtain ⟨rfl, rfl⟩ := h
        exact ⟨0, l, i, rfl, hs, rfl, .inl ⟨by simpa using hr, rfl⟩⟩
      · next hr =>
        rcases LRes.bind_eq_err.mp h with h | ⟨o, ho, h⟩
        · rw [Res.at_eq_err, Location.none_update] at h
          exact ⟨0, l, i, rfl, hs, h.2, .inr ⟨by simpa using hr, h.1⟩⟩
        · rcases LRes.bind_eq_err.mp h with h | ⟨o, ho, h⟩
          · exact next h
          · cases h

theorem layoutAt_err {path : Str} {nums : List Nat} : ∀ (ls : List Line) (k : Nat) (pc : Option Addr) {e : Err}
    {loc : Location}, layoutAt path nums k pc ls = .err e loc →
    ∃ (j : Nat) (l : Line), ls[j]? = some l ∧ loc = place path nums (k + j) ∧
      ((∃ d, l.statement = .dir d ∧ d.name = .org ∧ d.argument.eval nullCtx = .err e) ∨
       (e = .noOrigin ∧ l.statement.serializedSize > 0 ∧ pc = none ∧
        ∀ (i : Nat) (q : Line), i ≤ j → ls[i]? = some q → ¬ IsOrg q)) := by
  intro ls
  induction ls with
  | nil => intro k pc e loc h; cases h
  | cons l ls ih =>
    intro k pc e loc h
    rw [layoutAt] at h
    rcases LRes.bind_eq_err.mp h with h | ⟨o, ho, h⟩
    · rw [Res.at_eq_err, Location.none_update] at h
      obtain ⟨h, h'⟩ := h
      refine ⟨0, l, rfl, h', .inl ?_⟩
      unfold originAt at h
      cases hs : l.statement with
      | instr i => rw [hs] at h; cases h
      | dir d =>
        rw [hs] at h
        simp only at h
        split at h
        · next hd =>
          refine ⟨d, rfl, hd, ?_⟩
          cases hv : d.argument.eval nullCtx with
          | err e' => rw [hv] at h; cases h; rfl
          | ub u => rw [hv] at h; cases h
          | ok v =>
            rw [hv, Res.bind_ok] at h
            unfold Address.ofInt at h
            split at h <;> cases h
        · cases h
    · rw [Res.at_eq_ok] at ho
      have hspec := originAt_spec ho
      cases o with
      | none =>
        have hno : ¬ IsOrg l := by
          intro horg
          obtain ⟨d, a, -, -, h, -⟩ := hspec.1 horg
          cases h
        have hpc : pc = none := (hspec.2 hno).symm
        simp only at h
        split at h
        · next hsz =>
          simp only [Res.at, Location.none_update, LRes.err.injEq] at h
          obtain ⟨rfl, rfl⟩ := h
          refine ⟨0, l, rfl, rfl, .inr ⟨rfl, hsz, hpc, ?_⟩⟩
          intro i q hi hq
          obtain rfl : i = 0 := by omega
          cases hq; exact hno
        · rcases LRes.bind_eq_err.mp h with h | ⟨r, hr, h⟩
          swap
          · cases h
          obtain ⟨j, q, h1, h2, h3⟩ := ih (k + 1) none h
          refine ⟨j + 1, q, by simpa using h1, by rw [h2]; congr 1; omega, h3.imp_right ?_⟩
          rintro ⟨e1, e2, -, e4⟩
          refine ⟨e1, e2, hpc, fun i r hi hr => ?_⟩
          cases i with
          | zero => cases hr; exact hno
          | succ i => exact e4 i r (by omega) (by simpa using hr)
      | some a =>
        simp only at h
        rcases LRes.bind_eq_err.mp h with h | ⟨r, hr, h⟩
        swap
        · cases h
        obtain ⟨j, q, h1, h2, h3⟩ := ih (k + 1) _ h
        refine ⟨j + 1, q, by simpa using h1, by rw [h2]; congr 1; omega, .inl ?_⟩
        rcases h3 with h3 | ⟨-, -, h3, -⟩
        · exact h3
        · cases h3

/-- What the first pass fails with. -/
theorem runFirstPassAt_err {path : Str} {nums : List Nat} {m : Module} {fuel : Nat} (hnm : BranchesNamed m)
    (hwr : ∀ l ∈ m.lines, StatementWritten l.statement)
    (hfresh : ∀ (k : Nat) (l : Line), m.lines[k]? = some l → l.reached = false) {e : Err} {loc : Location}
    (h : m.runFirstPassAt path nums fuel = .err e loc) :
    (∃ k, loc = place path nums k ∧ FlowFault m k e) ∨
    loc = .none ∧ (e = .steps ∨ e = .pastEndOfFile ∧ ∃ s, Arrives m m.lines.length s) := by
  have hI := flowing_init hwr hfresh
  unfold runFirstPassAt at h
  rcases LRes.bind_eq_err.mp h with h | ⟨p, hp, h⟩
  · exact exploreAt_err hnm fuel _ hI h
  have hp : m.explore fuel ⟨m.lines, seeds [] 0 m.lines⟩ = .ok p := by
    rw [← erase_exploreAt path nums, hp]; rfl
  have hF := explored_flowing hI hp
  left
  rcases LRes.bind_eq_err.mp h with h | ⟨l1, h1, h⟩
  · obtain ⟨j, l, i, h1, h2, h3, h4⟩ := fixLinesAt_err _ 0 h
    rw [Nat.zero_add] at h3
    obtain ⟨l', hl', hst, -⟩ := flow_original hF.same h1
    refine ⟨j, h3, ?_⟩
    rcases h4 with ⟨h4, rfl⟩ | ⟨h4, h5⟩
    · refine .unreached hl' (by rw [← hst]; exact h2) fun hr => ?_
      obtain ⟨c, hc, hr⟩ := reachable_reached hwr hfresh hp hr
      rw [h1] at hc
      cases hc
      rw [h4] at hr
      cases hr
    · exact .size hl' (hF.lines j l h1 h4) (by rw [← hst]; exact h2) h5
  have h1 : fixLines p.lines = .ok l1 := by
    rw [← erase_fixLinesAt path nums _ 0, h1]; rfl
  have hrel := fixLines_rel h1
  have back : ∀ {j : Nat} {l : Line}, l1[j]? = some l → ∃ l', m.lines[j]? = some l' ∧
      (∀ d, l.statement = .dir d ↔ l'.statement = .dir d) := by
    intro j l hl
    obtain ⟨c, hc, hr⟩ := forall2_getElem? hrel hl
    obtain ⟨l', hl', hst, -⟩ := flow_original hF.same hc
    refine ⟨l', hl', fun d => ?_⟩
    rw [← hst]
    unfold FixRel at hr
    split at hr
    · rw [hr]
    · next i hi =>
      obtain ⟨-, i', -, rfl⟩ := hr
      simp [hi]
  rcases LRes.bind_eq_err.mp h with h | ⟨l2, h2, h⟩
  swap
  · cases h
  obtain ⟨j, l, g1, g2, g3⟩ := layoutAt_err _ 0 none h
  rw [Nat.zero_add] at g2
  obtain ⟨l', hl', hd⟩ := back g1
  refine ⟨j, g2, ?_⟩
  rcases g3 with ⟨d, e1, e2, e3⟩ | ⟨rfl, e2, -, e4⟩
  · exact .origin hl' ((hd d).mp e1) e2 e3
  · refine .noOrigin hl' ?_ ?_
    · cases hs : l'.statement with
      | instr i => trivial
      | dir d =>
        rw [(hd d).mpr hs] at e2
        exact e2
    · intro k q hk hq horg
      have hlt : k < l1.length := by
        have := (List.getElem?_eq_some_iff.mp g1).1
        omega
      obtain ⟨q', hq', hd'⟩ := back (List.getElem?_eq_getElem hlt)
      rw [hq] at hq'
      cases hq'
      obtain ⟨d, hd1, hd2⟩ := horg
      exact e4 k _ hk (List.getElem?_eq_getElem hlt) ⟨d, (hd' d).mpr hd1, hd2⟩

/-! ## The second pass -/

/-- The loop of the second pass, from line `i`. -/
structure Between (m : Module) (externs : Ctx) (i : Nat) (m' : Module) : Prop where
  more : MoreValues m m'
  right : ∀ (k : Nat) (l : Line), k < i → m'.lines[k]? = some l → EquRight externs m' l
  same : ∀ (k : Nat) (l l' : Line), m.lines[k]? = some l → m'.lines[k]? = some l' → ¬ (k < i ∧ IsEqu l) → l' = l

theorem Between.partway {m m' : Module} {externs : Ctx} {i : Nat} (h : Between m externs i m') :
    Partway m externs i m' where
  name := h.more.name
  globals := h.more.globals
  locals := localsAt_valueless h.more.lines
  length := by simpa using congrArg List.length h.more.lines
  line := by
    intro k l l' hl hl'
    refine ⟨h.same k l l' hl hl', fun d hk hd hq => ?_⟩
    obtain ⟨l'', hl'', hv⟩ := getElem?_valueless h.more.lines hl
    rw [hl'] at hl''
    cases hl''
    have hf := valueless_fields hv
    obtain ⟨v, h1, h2⟩ := h.right k l' hk hl' d (by rw [hf.1]; exact hd) hq
    refine ⟨v, ?_, by rw [← hf.2.2.1]; exact h2⟩
    obtain ⟨f1, f2, f3, f4, f5, f6⟩ := hf
    cases l; cases l'
    simp_all

theorem between_step {m m' m'' : Module} {externs : Ctx} {i : Nat} {l : Line} (hu : Unvalued m)
    (h : Between m externs i m') (hl : m'.lines[i]? = some l) (he : evalEqu externs m' i l = .ok m'') :
    Between m externs (i + 1) m'' := by
  have hlen : m'.lines.length = m.lines.length := by simpa using congrArg List.length h.more.lines
  have hi : i < m.lines.length := by rw [← hlen]; exact (List.getElem?_eq_some_iff.mp hl).1
  have hl0 := List.getElem?_eq_getElem hi
  have : l = m.lines[i] := h.same i _ l hl0 hl (by omega)
  have hnone : ∀ d, l.statement = .dir d → d.name = .equ → l.value = none := by
    rw [this]
    exact fun d h1 h2 => hu i _ d hl0 h1 h2
  obtain ⟨h1, h2, h3⟩ := evalEqu_spec hl hnone he
  refine ⟨h.more.trans h1, ?_, ?_⟩
  · intro k q hk hq
    by_cases hki : k = i
    · subst hki; exact h2 q hq
    · have hq' := hq
      rw [h3 k hki] at hq'
      exact EquRight.mono h1 hq' hq (h.right k q (by omega) hq')
  · intro k q q' hq hq' hn
    by_cases hki : k = i
    · subst hki
      have hne : ¬ IsEqu q := fun hx => hn ⟨by omega, hx⟩
      rw [hl0] at hq
      cases hq
      rw [← this] at hne ⊢
      unfold evalEqu at he
      cases hs : l.statement with
      | instr x =>
        rw [hs] at he
        simp at he
        subst he
        rw [hl] at hq'
        exact (Option.some.inj hq').symm
      | dir d =>
        rw [hs] at he
        simp only at he
        rw [if_neg (fun e => hne ⟨d, hs, e.1⟩)] at he
        simp at he
        subst he
        rw [hl] at hq'
        exact (Option.some.inj hq').symm
    · rw [h3 k hki] at hq'
      exact h.same k q q' hq hq' (fun hx => hn ⟨by omega, hx.2⟩)

theorem secondLoopAt_err {path : Str} {nums : List Nat} {externs : Ctx} {m : Module} (hu : Unvalued m) :
    ∀ (n i : Nat) (m' : Module), Between m externs i m' → ∀ {e : Err} {loc : Location},
      secondLoopAt path nums externs n i m' = .err e loc →
      ∃ k, loc = place path nums k ∧ ConstantFault m externs k e := by
  intro n
  induction n with
  | zero => intro i m' _ e loc h; cases h
  | succ n ih =>
    intro i m' hb e loc h
    rw [secondLoopAt] at h
    cases hl : m'.lines[i]? with
    | none => rw [hl] at h; cases h
    | some l =>
      rw [hl] at h
      simp only at h
      replace h := LRes.bind_eq_err.mp h
      rcases h with h | ⟨m'', he, h⟩
      · rw [Res.at_eq_err, Location.none_update] at h
        obtain ⟨h, hloc⟩ := h
        refine ⟨i, hloc, ?_⟩
        have hlen : m'.lines.length = m.lines.length := hb.partway.length
        have hi : i < m.lines.length := by rw [← hlen]; exact (List.getElem?_eq_some_iff.mp hl).1
        have hl0 := List.getElem?_eq_getElem hi
        have : l = m.lines[i] := hb.same i _ l hl0 hl (by omega)
        rw [← this] at hl0
        unfold evalEqu at h
        cases hs : l.statement with
        | instr x => rw [hs] at h; cases h
        | dir d =>
          rw [hs] at h
          simp only at h
          split at h
          · next hc =>
            refine .value hl0 hs hc.1 hb.partway ?_
            cases hv : d.argument.eval (m'.lookup l.scopes externs) with
            | err e' => rw [hv] at h; cases h; rfl
            | ub u => rw [hv] at h; cases h
            | ok v => rw [hv] at h; cases h
          · cases h
      · rw [Res.at_eq_ok] at he
        exact ih (i + 1) m'' (between_step hu hb hl he) h

/-- What the second pass fails with. -/
theorem runSecondPassAt_err {path : Str} {nums : List Nat} {externs : Ctx} {m : Module} (hu : Unvalued m) {e : Err}
    {loc : Location} (h : m.runSecondPassAt path nums externs = .err e loc) :
    ∃ k, loc = place path nums k ∧ ConstantFault m externs k e :=
  secondLoopAt_err hu _ 0 m ⟨.refl m, fun k l hk => by omega,
    fun k l l' h1 h2 _ => by rw [h1] at h2; cases h2; rfl⟩ h

/-! ## Writing -/

/-- A line has no value only where there is no `.org` before it, and then it is no constant and takes no space. -/
def Valued (m : Module) : Prop := ∀ (j : Nat) (l : Line), m.lines[j]? = some l → l.value = none →
  ¬ IsEqu l ∧ l.statement.serializedSize = 0 ∧ ∀ (k : Nat) (q : Line), k ≤ j → m.lines[k]? = some q → ¬ IsOrg q

theorem layout_valued : ∀ (ls : List Line) {pc : Option Addr} {ls' : List Line}, layout pc ls = .ok ls' →
    ∀ (j : Nat) (l : Line), ls'[j]? = some l → ¬ IsEqu l → l.value = none →
    l.statement.serializedSize = 0 ∧ pc = none ∧ ∀ (k : Nat) (q : Line), k ≤ j → ls'[k]? = some q → ¬ IsOrg q := by
  intro ls
  induction ls with
  | nil => intro pc ls' h j l hl; simp [layout] at h; subst h; simp at hl
  | cons x ls ih =>
    intro pc ls' h j l hl hne hv
    obtain ⟨o, x', r, pc', rfl, ho, hr, hst, hnone, hsome⟩ := layout_cons h
    have horg := originAt_spec ho
    have noOrg : o = none → pc = none ∧ ¬ IsOrg x' := by
      rintro rfl
      have hno : ¬ IsOrg x := by
        intro hx
        obtain ⟨d, a, -, -, h, -⟩ := horg.1 hx
        cases h
      exact ⟨(horg.2 hno).symm, by rw [(hnone rfl).2.1]; exact hno⟩
    cases j with
    | zero =>
      simp at hl
      subst hl
      cases o with
      | some a =>
        obtain ⟨-, h2, -⟩ := hsome a rfl
        rw [h2 (by
          cases he : x.statement.isDir .equ with
          | false => rfl
          | true => exact absurd ((isDir_iff _ _).mp (by rw [hst]; exact he)) hne)] at hv
        cases hv
      | none =>
        obtain ⟨n1, n2⟩ := noOrg rfl
        refine ⟨by rw [hst]; exact (hnone rfl).2.2, n1, fun k q hk hq => ?_⟩
        obtain rfl : k = 0 := by omega
        simp at hq
        subst hq
        exact n2
    | succ j =>
      obtain ⟨a1, a2, a3⟩ := ih hr j l (by simpa using hl) hne hv
      cases o with
      | some a =>
        rw [(hsome a rfl).1] at a2
        cases a2
      | none =>
        obtain ⟨n1, n2⟩ := noOrg rfl
        refine ⟨a1, n1, fun k q hk hq => ?_⟩
        cases k with
        | zero => simp at hq; subst hq; exact n2
        | succ k => exact a3 k q (by omega) (by simpa using hq)

theorem valued_passes {m₀ m₁ m₂ : Module} {fuel : Nat} {externs : Ctx} (hu : Unvalued m₁)
    (h1 : m₀.runFirstPass fuel = .ok m₁) (h2 : m₁.runSecondPass externs = .ok m₂) : Valued m₂ := by
  obtain ⟨hmore, hright, hsame⟩ := secondLoop_spec _ 0 m₁ m₂ h2 (fun j l d _ => hu j l d)
  have hlen : m₂.lines.length = m₁.lines.length := by simpa using congrArg List.length hmore.lines
  obtain ⟨p, l1, l2, -, -, hlay, rfl⟩ := firstPass_parts h1
  intro j l hl hv
  have hj : j < m₂.lines.length := (List.getElem?_eq_some_iff.mp hl).1
  have hne : ¬ IsEqu l := by
    rintro ⟨d, hd, hq⟩
    obtain ⟨v, h, -⟩ := hright j l (by omega) (by simp only [hlen] at hj ⊢; omega) hl d hd hq
    rw [hv] at h
    cases h
  have hj1 : j < l2.length := by rw [hlen] at hj; exact hj
  have e1 : l2[j]? = some l2[j] := List.getElem?_eq_getElem hj1
  obtain ⟨l', hl', hvl⟩ := getElem?_valueless hmore.lines e1
  rw [hl] at hl'
  cases hl'
  have heq : l = l2[j] := hsame j _ l e1 hl (by
    cases he : l2[j].statement.isDir .equ with
    | false => rfl
    | true =>
      refine absurd ((isDir_iff _ _).mp ?_) hne
      rw [(valueless_fields hvl).1]
      exact he)
  rw [← heq] at e1
  obtain ⟨a1, -, a3⟩ := layout_valued _ hlay j l e1 hne hv
  refine ⟨hne, a1, fun k q hk hq ho => ?_⟩
  have hk1 : k < l2.length := by omega
  obtain ⟨q', hq', hvq⟩ := getElem?_valueless hmore.lines (List.getElem?_eq_getElem hk1)
  rw [hq] at hq'
  cases hq'
  refine a3 k _ hk (List.getElem?_eq_getElem hk1) ?_
  obtain ⟨d, hd, hn⟩ := ho
  exact ⟨d, by rw [← (valueless_fields hvq).1]; exact hd, hn⟩

theorem ofInt_noErr {v : Int} {e : Err} (h : Address.ofInt v = .err e) : False := by
  unfold Address.ofInt at h
  split at h <;> cases h

theorem noteTarget_noErr {l : Line} {o : Out} {e : Err} (h : noteTarget l o = .err e) : False := by
  unfold noteTarget at h
  cases hs : l.statement with
  | dir d => rw [hs] at h; cases h
  | instr i =>
    rw [hs] at h
    simp only at h
    cases ha : toAddress l.value with
    | err e' =>
      unfold toAddress at ha
      cases hv : l.value with
      | none => rw [hv] at ha; cases ha
      | some v => rw [hv] at ha; exact ofInt_noErr ha
    | ub u => rw [ha] at h; cases h
    | ok a =>
      rw [ha, Res.bind_ok] at h
      cases hf : i.farBranchTarget a with
      | ub u => rw [hf] at h; cases h
      | ok t => rw [hf, Res.bind_ok] at h; cases t <;> cases h
      | err e' =>
        unfold Instruction.farBranchTarget at hf
        split at hf
        · split at hf
          · next t _ =>
            cases ht : Address.ofInt t with
            | err e'' => exact ofInt_noErr ht
            | ub u => rw [ht] at hf; cases hf
            | ok a' => rw [ht] at hf; cases hf
          · cases hf
          · cases hf
        · split at hf
          · split at hf <;> cases hf
          · cases hf

/-- What a claim fails with. -/
theorem claim_err {o : Out} {a n : Nat} (hc : Canonical o.owned.ranges) (hn : 0 < n) {e : Err}
    (h : claim o a n = .err e) : e = .overlap ∧
      ((∃ i < n, o.owned.contains (wrapped a i) = true) ∨ n > 0x10000) := by
  unfold claim at h
  by_cases hlt : a < 0x1000000
  · obtain ⟨r', ok, he, -, -, h3⟩ := C25_claim_bytes hc hlt n
    rw [he, Res.bind_ok] at h
    cases ok with
    | true => cases h
    | false =>
      simp only [Bool.false_eq_true, if_false, Res.err.injEq] at h
      refine ⟨h.symm, ?_⟩
      by_contra hno
      have hfree : ∀ i < n, o.owned.contains (wrapped a i) = false := by
        intro i hi
        cases hx : o.owned.contains (wrapped a i) with
        | false => rfl
        | true => exact absurd (.inl ⟨i, hi, hx⟩) hno
      have : ¬ n > 0x10000 := fun hx => hno (.inr hx)
      have := h3.mpr ⟨hfree, fun i hi j hj => by unfold wrapped; omega⟩
      cases this
  · rw [DataRange.claimBytes, dif_pos (by omega)] at h
    have hx : Address.addUnwrapped a (min (n : Int) (0x10000 - (Address.bankAddress a : Int))) = .ub .assertFail := by
      rw [Address.addUnwrapped, Address.ofInt, if_neg (by simp only [Address.bankAddress]; omega)]
    simp only at h
    rw [hx] at h
    cases h

/-- What has been written so far: the addresses that are claimed are those of the statements before `k`. -/
structure SoFar {σ : Type} (m : Module) (externs : Ctx) (sink : Sink σ) (s₀ : σ) (k : Nat) (s : σ) (o : Out) : Prop where
  canonical : Canonical o.owned.ranges
  owned : ∀ x, o.owned.contains x = true → ∃ i < k, ∃ q w, m.lines[i]? = some q ∧
    LineWrites (m.lookup q.scopes externs) q [w] ∧ x ∈ filled w
  fed : ∃ ws, Feeds sink s₀ ws s

theorem assembleLine_err {σ : Type} {m : Module} {externs : Ctx} {sink : Sink σ} {s₀ s s' : σ} {k : Nat} {l : Line}
    {o : Out} {e : Err} (hv : Valued m) (hl : m.lines[k]? = some l) (hI : SoFar m externs sink s₀ k s o)
    (h : m.assembleLine externs sink l s o = (s', .err e)) : WriteFault m externs sink s₀ k e := by
  unfold assembleLine at h
  obtain ⟨ws, hfed⟩ := hI.fed
  by_cases hs : l.statement.serializedSize > 0
  · simp only [if_pos hs] at h
    unfold writeLine at h
    cases hval : l.value with
    | none =>
      have := (hv k l hl hval).2.1
      omega
    | some v =>
      rw [hval] at h
      simp only at h
      cases ha : Address.ofInt v with
      | err e' => exact absurd ha (fun h => ofInt_noErr h)
      | ub u => rw [ha] at h; cases h
      | ok a =>
        rw [ha] at h
        have hva : v = (a : Int) := by
          simp only [Address.ofInt] at ha
          split at ha
          · injection ha with ha; omega
          · cases ha
        subst hva
        simp only [Statement.assemble] at h
        cases hb : l.statement.assembleBytes a (m.lookup l.scopes externs) with
        | err e' =>
          rw [hb] at h
          simp only [Prod.mk.injEq] at h
          have : e' = e := by simpa [bind, Res.bind] using h.2
          exact .bytes hl hval (this ▸ hb)
        | ub u => rw [hb] at h; cases h
        | ok r =>
          obtain ⟨bs, rfl⟩ := statement_bytes_some hb hs
          have hlen := statement_bytes_length hb
          have hw : LineWrites (m.lookup l.scopes externs) l [(a, bs)] :=
            .inr ⟨a, bs, hval, hb, hlen, by rintro rfl; simp at hlen; omega, rfl⟩
          rw [hb] at h
          simp only at h
          rcases hsk : sink s a bs with ⟨s1, r1⟩
          rw [hsk] at h
          cases r1 with
          | err e' =>
            simp only [Prod.mk.injEq] at h
            have : e' = e := by simpa [bind, Res.bind] using h.2
            subst this
            exact .refused hl hfed hw hsk
          | ub u => cases h
          | ok u =>
            simp only [Prod.mk.injEq] at h
            cases hcl : claim o a l.statement.serializedSize with
            | ub u => rw [hcl] at h; cases h.2
            | ok o' =>
              rw [hcl, Res.bind_ok] at h
              exact (noteTarget_noErr h.2).elim
            | err e' =>
              rw [hcl] at h
              have : e' = e := by simpa [bind, Res.bind] using h.2
              subst this
              obtain ⟨rfl, ⟨i, hi, hx⟩ | hx⟩ := claim_err hI.canonical hs hcl
              · obtain ⟨i', hi', q, w, h1, h2, h3⟩ := hI.owned _ hx
                refine .twice hl hi' h1 hw h2 ?_ h3
                unfold filled
                exact List.mem_map.mpr ⟨i, List.mem_range.mpr (by rw [hlen]; exact hi), rfl⟩
              · exact .itself hl hw (by rw [hlen]; exact hx)
  · simp only [if_neg hs] at h
    cases hst : l.statement with
    | instr i =>
      rw [hst] at h
      simp only [Prod.mk.injEq, Res.bind_ok] at h
      exact (noteTarget_noErr h.2).elim
    | dir d =>
      rw [hst] at h
      simp only [Prod.mk.injEq] at h
      cases hn : assembleNote d l.value (m.lookup l.scopes externs) o with
      | ub u => rw [hn] at h; cases h.2
      | ok o' =>
        rw [hn, Res.bind_ok] at h
        exact (noteTarget_noErr h.2).elim
      | err e' =>
        rw [hn] at h
        have : e' = e := by simpa [bind, Res.bind] using h.2
        subst this
        unfold assembleNote at hn
        split at hn
        · next he =>
          split at hn
          · next hval =>
            cases hn
            obtain ⟨a1, -, a3⟩ := hv k l hl hval
            exact .noPlace hl a1 (.inl ⟨d, hst, he⟩) a3
          · next v _ =>
            cases ha : Address.ofInt v with
            | err e'' => exact absurd ha (fun h => ofInt_noErr h)
            | ub u => rw [ha] at hn; cases hn
            | ok a => rw [ha] at hn; cases hn
        · split at hn
          · next hr =>
            cases hev : d.argument.eval (m.lookup l.scopes externs) with
            | ub u => rw [hev] at hn; cases hn
            | err e'' =>
              rw [hev] at hn
              have : e'' = e' := by simpa [bind, Res.bind] using hn
              exact .remote hl hst hr (this ▸ hev)
            | ok v =>
              rw [hev, Res.bind_ok] at hn
              cases ha : Address.ofInt v with
              | err e'' => exact absurd ha (fun h => ofInt_noErr h)
              | ub u => rw [ha] at hn; cases hn
              | ok a => rw [ha] at hn; cases hn
          · cases hn

theorem soFar_step {σ : Type} {m : Module} {externs : Ctx} {sink : Sink σ} {s₀ s s' : σ} {k : Nat} {l : Line}
    {o o' : Out} (hl : m.lines[k]? = some l) (hI : SoFar m externs sink s₀ k s o)
    (h : m.assembleLine externs sink l s o = (s', .ok o')) : SoFar m externs sink s₀ (k + 1) s' o' := by
  obtain ⟨w, hw, hf, hc⟩ := assembleLine_ok hI.canonical h
  obtain ⟨ws, hfed⟩ := hI.fed
  refine ⟨hc.canonical, fun x hx => ?_, ws ++ w, hfed.trans hf⟩
  rcases (hc.exact x).mp hx with hx | hx
  · obtain ⟨i, hi, h⟩ := hI.owned x hx
    exact ⟨i, by omega, h⟩
  · rcases hw with ⟨-, rfl⟩ | ⟨a, bs, h1, h2, h3, h4, rfl⟩
    · simp [allFilled] at hx
    · exact ⟨k, by omega, l, (a, bs), hl, .inr ⟨a, bs, h1, h2, h3, h4, rfl⟩, by simpa [allFilled] using hx⟩

theorem assembleLinesAt_err {σ : Type} {path : Str} {nums : List Nat} {m : Module} {externs : Ctx} {sink : Sink σ}
    {s₀ : σ} (hv : Valued m) : ∀ (ls : List Line) (k : Nat) (s : σ) (o : Out), m.lines.drop k = ls →
    SoFar m externs sink s₀ k s o → ∀ {s' : σ} {e : Err} {loc : Location},
    m.assembleLinesAt path nums externs sink k ls s o = (s', .err e loc) →
    ∃ j, loc = place path nums j ∧ WriteFault m externs sink s₀ j e := by
  intro ls
  induction ls with
  | nil => intro k s o _ _ s' e loc h; cases h
  | cons l ls ih =>
    intro k s o hd hI s' e loc h
    have hl : m.lines[k]? = some l := by
      rw [← List.head?_drop, hd]; rfl
    rw [assembleLinesAt] at h
    rcases hr : m.assembleLine externs sink l s o with ⟨s1, r⟩
    rw [hr] at h
    cases r with
    | ub u => cases h
    | err e' =>
      simp only [Res.at, Location.none_update, Prod.mk.injEq, LRes.err.injEq] at h
      obtain ⟨-, rfl, rfl⟩ := h
      exact ⟨k, rfl, assembleLine_err hv hl hI hr⟩
    | ok o' =>
      refine ih (k + 1) s1 o' ?_ (soFar_step hl hI hr) h
      rw [← List.drop_drop, hd]
      rfl

theorem nameAddressesAt_err {σ : Type} {path : Str} {nums : List Nat} {m : Module} {externs : Ctx} {sink : Sink σ}
    {s₀ : σ} (hv : Valued m) : ∀ (gs : List (Str × Nat)) (names : HMap Nat Str), (∀ g ∈ gs, g ∈ m.globals) →
    ∀ {e : Err} {loc : Location}, m.nameAddressesAt path nums names gs = .err e loc →
    ∃ j, loc = place path nums j ∧ WriteFault m externs sink s₀ j e := by
  intro gs
  induction gs with
  | nil => intro names _ e loc h; cases h
  | cons g gs ih =>
    obtain ⟨name, i⟩ := g
    intro names hg e loc h
    rw [nameAddressesAt] at h
    cases hl : m.lines[i]? with
    | none => rw [hl] at h; cases h
    | some l =>
      rw [hl] at h
      simp only at h
      cases hval : l.value with
      | none =>
        rw [hval] at h
        simp only [Res.at, Location.none_update, LRes.err.injEq] at h
        obtain ⟨rfl, rfl⟩ := h
        obtain ⟨a1, -, a3⟩ := hv i l hl hval
        exact ⟨i, rfl, .noPlace hl a1 (.inr ⟨name, hg _ (by simp)⟩) a3⟩
      | some v =>
        rw [hval] at h
        simp only at h
        replace h := LRes.bind_eq_err.mp h
        rcases h with h | ⟨a, ha, h⟩
        · cases ha : Address.ofInt v with
          | err e' => exact absurd ha (fun h => ofInt_noErr h)
          | ub u => rw [ha] at h; cases h
          | ok a => rw [ha] at h; cases h
        · exact ih _ (fun g hm => hg g (List.mem_cons_of_mem _ hm)) h

/-- What assembling a module fails with. -/
theorem assembleAt_err {σ : Type} {path : Str} {nums : List Nat} {m : Module} {externs : Ctx} {sink : Sink σ}
    {s₀ s s' : σ} (hv : Valued m) (hown : m.owned = .empty) (hfed : ∃ ws, Feeds sink s₀ ws s) {e : Err} {loc : Location}
    (h : m.assembleAt path nums externs sink s = (s', .err e loc)) :
    ∃ j, loc = place path nums j ∧ WriteFault m externs sink s₀ j e := by
  unfold assembleAt at h
  rcases hr : m.assembleLinesAt path nums externs sink 0 m.lines s ⟨m.owned, m.targets, m.conventions⟩ with ⟨s1, r⟩
  rw [hr] at h
  simp only [Prod.mk.injEq] at h
  obtain ⟨-, h⟩ := h
  replace h := LRes.bind_eq_err.mp h
  rcases h with rfl | ⟨o, -, h⟩
  · refine assembleLinesAt_err hv m.lines 0 s _ rfl ⟨?_, ?_, hfed⟩ hr
    · rw [hown]; exact ⟨by simp [DataRange.empty], .nil⟩
    · intro x hx
      rw [hown] at hx
      simp [DataRange.contains, DataRange.empty, DataRange.before] at hx
  · replace h := LRes.bind_eq_err.mp h
    rcases h with h | ⟨names, -, h⟩
    · exact nameAddressesAt_err hv _ _ (fun _ h => h) h
    · cases h

end Module

theorem Spec.FlowFault.inside {m : Module} {j : Nat} {e : Err} (h : FlowFault m j e) : j < m.lines.length := by
  cases h <;> exact (List.getElem?_eq_some_iff.mp ‹m.lines[j]? = some _›).1

theorem Spec.ConstantFault.inside {m : Module} {externs : Ctx} {j : Nat} {e : Err} (h : ConstantFault m externs j e) :
    j < m.lines.length := by
  cases h
  exact (List.getElem?_eq_some_iff.mp ‹m.lines[j]? = some _›).1

theorem Spec.WriteFault.inside {σ : Type} {m : Module} {externs : Ctx} {sink : Sink σ} {s₀ : σ} {j : Nat} {e : Err}
    (h : WriteFault m externs sink s₀ j e) : j < m.lines.length := by
  cases h <;> exact (List.getElem?_eq_some_iff.mp ‹m.lines[j]? = some _›).1

namespace Assembler

/-! ## The order -/

theorem find_insertNew {α β : Type} [DecidableEq α] (m : HMap α β) (k : α) (v : β) (x : α) :
    HMap.find (HMap.insertNew m k v) x = (HMap.find m x).or (if k = x then some v else none) := by
  unfold HMap.insertNew
  rw [find_append]
  simp [HMap.find]

theorem addExportsAt_err {i : Nat} : ∀ {ns : List (FullId × Location)} {ex : HMap FullId Nat} {pl : HMap FullId Location},
    (ns.map (·.1)).Nodup → ∀ {e : Err} {loc : Location}, addExportsAt i ex pl ns = .err e loc →
    e = .duplicateExport ∧ ∃ n ∈ ns, HMap.has ex n.1 = true ∧
      loc = Location.none.update ((HMap.find pl n.1).getD .none) := by
  intro ns
  induction ns with
  | nil => intro ex pl _ e loc h; cases h
  | cons n ns ih =>
    intro ex pl hnd e loc h
    rw [addExportsAt] at h
    by_cases hh : HMap.has ex n.1 = true
    · rw [if_pos hh] at h
      simp only [Res.at, LRes.err.injEq] at h
      exact ⟨h.1.symm, n, by simp, hh, h.2.symm⟩
    · rw [if_neg hh] at h
      rw [List.map_cons, List.nodup_cons] at hnd
      obtain ⟨h1, n', h2, h3, h4⟩ := ih hnd.2 h
      have hne : n.1 ≠ n'.1 := fun he => hnd.1 (he ▸ List.mem_map_of_mem h2)
      refine ⟨h1, n', by simp [h2], ?_, ?_⟩
      · simpa [HMap.has, find_insertNew, hne] using h3
      · rw [h4, find_insertNew, if_neg hne, Option.or_none]

theorem addExportsAt_places {i : Nat} : ∀ {ns : List (FullId × Location)} {ex ex' : HMap FullId Nat}
    {pl pl' : HMap FullId Location}, addExportsAt i ex pl ns = .ok (ex', pl') →
    (∀ id, HMap.has ex id = true → HMap.has pl id = true) →
    (∀ id, HMap.has ex' id = true → HMap.has pl' id = true) ∧
    ∀ id loc, HMap.find pl' id = some loc → HMap.find pl id = some loc ∨ (id, loc) ∈ ns := by
  intro ns
  induction ns with
  | nil =>
    intro ex ex' pl pl' h hp
    simp only [addExportsAt, LRes.ok.injEq, Prod.mk.injEq] at h
    obtain ⟨rfl, rfl⟩ := h
    exact ⟨hp, fun id loc h => .inl h⟩
  | cons n ns ih =>
    intro ex ex' pl pl' h hp
    rw [addExportsAt] at h
    by_cases hh : HMap.has ex n.1 = true
    · rw [if_pos hh] at h; cases h
    · rw [if_neg hh] at h
      obtain ⟨h1, h2⟩ := ih h (by
        intro id hid
        by_cases he : n.1 = id
        · subst he; cases hf : HMap.find pl n.1 <;> simp [HMap.has, find_insertNew, hf]
        · have := hp id (by simpa [HMap.has, find_insertNew, he] using hid)
          simpa [HMap.has, find_insertNew, he] using this)
      refine ⟨h1, fun id loc hf => ?_⟩
      rcases h2 id loc hf with h3 | h3
      · rw [find_insertNew] at h3
        cases hp' : HMap.find pl id with
        | some l => rw [hp'] at h3; exact .inl h3
        | none =>
          rw [hp', Option.none_or] at h3
          split at h3
          · next he =>
            cases h3
            exact .inr (by subst he; simp)
          · cases h3
      · exact .inr (by simp [h3])

/-- The places of the exported names. -/
structure PlacesInv (mp : List (Str × Module)) (o : OrderingAt) : Prop where
  all : ∀ id, HMap.has o.o.exported id = true → HMap.has o.places id = true
  right : ∀ id loc, HMap.find o.places id = some loc → ∃ (i : Nat) (path : Str) (m : Module) (t : Nat), i ∈ o.o.order ∧ mp[i]? = some (path, m) ∧
    id.module = some m.name ∧ (id.name, t) ∈ m.globals ∧ loc = ⟨path, some t⟩

/-- A name that two modules define, and the place that is given for it: the path of the one, and the number of the
statement. -/
def TwoExport (mp : List (Str × Module)) (loc : Location) : Prop :=
  ∃ (i k : Nat) (path path' : Str) (m m' : Module) (name : Str) (t t' : Nat), i ≠ k ∧ mp[i]? = some (path, m) ∧ mp[k]? = some (path', m') ∧
    m'.name = m.name ∧ (name, t) ∈ m.globals ∧ (name, t') ∈ m'.globals ∧ loc = ⟨path, some t⟩

theorem mem_exportedNamesAt {path : Str} {m : Module} {n : FullId × Location} (h : n ∈ m.exportedNamesAt path) :
    ∃ t, n.1.module = some m.name ∧ (n.1.name, t) ∈ m.globals ∧ n.2 = ⟨path, some t⟩ := by
  unfold Module.exportedNamesAt at h
  obtain ⟨⟨name, t⟩, h1, rfl⟩ := List.mem_map.mp h
  exact ⟨t, rfl, h1, rfl⟩

theorem considerAt_cases {mp : List (Str × Module)} (hnd : ∀ p ∈ mp, NamesNodup p.2) {o : OrderingAt}
    (hI : PlacesInv mp o) {i : Nat} {path : Str} {m : Module} (hm : mp[i]? = some (path, m)) :
    (∀ o', considerAt o i path m = .ok o' → PlacesInv mp o') ∧
    ∀ e loc, considerAt o i path m = .err e loc → e = .duplicateExport ∧ TwoExport mp loc := by
  unfold considerAt
  by_cases hi : i ∈ o.o.order
  · rw [if_pos hi]
    exact ⟨fun o' h => by cases h; exact hI, fun e loc h => by cases h⟩
  rw [if_neg hi]
  by_cases hd : m.deps.all (fun d => HMap.has o.o.exported d) = true
  swap
  · rw [if_neg hd]
    exact ⟨fun o' h => by cases h; exact hI, fun e loc h => by cases h⟩
  rw [if_pos hd]
  refine ⟨fun o' h => ?_, fun e loc h => ?_⟩
  · obtain ⟨⟨ex, pl⟩, h1, h⟩ := LRes.bind_eq_ok.mp h
    cases h
    obtain ⟨a1, a2⟩ := addExportsAt_places h1 hI.all
    refine ⟨a1, fun id loc hf => ?_⟩
    rcases a2 id loc hf with h | h
    · obtain ⟨i', p', m', t, b1, b2⟩ := hI.right id loc h
      exact ⟨i', p', m', t, by simp [b1], b2⟩
    · obtain ⟨t, b1, b2, b3⟩ := mem_exportedNamesAt h
      exact ⟨i, path, m, t, by simp, hm, b1, b2, b3⟩
  · rcases LRes.bind_eq_err.mp h with h | ⟨r, -, h⟩
    swap
    · cases h
    obtain ⟨h1, n, h2, h3, h4⟩ := addExportsAt_err (by
      rw [exportedNamesAt_names]
      exact exportedNames_nodup (hnd _ (List.mem_of_getElem? hm))) h
    obtain ⟨t', b1, b2, -⟩ := mem_exportedNamesAt h2
    obtain ⟨l, hl⟩ := Option.isSome_iff_exists.mp (hI.all _ h3)
    obtain ⟨i', p', m', t, c1, c2, c3, c4, c5⟩ := hI.right _ _ hl
    refine ⟨h1, i', i, p', path, m', m, n.1.name, t, t', ?_, c2, hm, ?_, c4, b2, ?_⟩
    · rintro rfl; exact hi c1
    · rw [b1] at c3; exact (Option.some.inj c3)
    · rw [h4, hl]; simp [c5]

theorem roundAt_cases {mp : List (Str × Module)} (hnd : ∀ p ∈ mp, NamesNodup p.2) : ∀ (rest : List (Str × Module))
    (i : Nat), mp.drop i = rest → ∀ {o : OrderingAt}, PlacesInv mp o →
    (∀ o', roundAt o i rest = .ok o' → PlacesInv mp o') ∧
    ∀ e loc, roundAt o i rest = .err e loc → e = .duplicateExport ∧ TwoExport mp loc := by
  intro rest
  induction rest with
  | nil =>
    intro i _ o hI
    exact ⟨fun o' h => by cases h; exact hI, fun e loc h => by cases h⟩
  | cons p rest ih =>
    intro i hd o hI
    obtain ⟨path, m⟩ := p
    have hm : mp[i]? = some (path, m) := by
      rw [← List.head?_drop, hd]; rfl
    have hd' : mp.drop (i + 1) = rest := by
      rw [← List.drop_drop, hd]; rfl
    obtain ⟨c1, c2⟩ := considerAt_cases hnd hI hm
    refine ⟨fun o' h => ?_, fun e loc h => ?_⟩
    · rw [roundAt] at h
      obtain ⟨o1, h1, h⟩ := LRes.bind_eq_ok.mp h
      exact (ih (i + 1) hd' (c1 o1 h1)).1 o' h
    · rw [roundAt] at h
      rcases LRes.bind_eq_err.mp h with h | ⟨o1, h1, h⟩
      · exact c2 e loc h
      · exact (ih (i + 1) hd' (c1 o1 h1)).2 e loc h

theorem orderLoopAt_err {mp : List (Str × Module)} (hnd : ∀ p ∈ mp, NamesNodup p.2) : ∀ (n : Nat) {o : OrderingAt},
    PlacesInv mp o → ∀ {e : Err} {loc : Location}, orderLoopAt mp n o = .err e loc →
    e = .duplicateExport ∧ TwoExport mp loc ∨ loc = .none ∧ (e = .steps ∨ e = .cyclic) := by
  intro n
  induction n with
  | zero =>
    intro o _ e loc h
    simp only [orderLoopAt, Res.here, LRes.err.injEq] at h
    exact .inr ⟨h.2.symm, .inl h.1.symm⟩
  | succ n ih =>
    intro o hI e loc h
    rw [orderLoopAt] at h
    by_cases hlt : o.o.order.length < mp.length
    · rw [if_pos hlt] at h
      obtain ⟨r1, r2⟩ := roundAt_cases hnd mp 0 rfl hI
      rcases LRes.bind_eq_err.mp h with h | ⟨o1, h1, h⟩
      · exact .inl (r2 e loc h)
      · by_cases heq : o1.o.order.length = o.o.order.length
        · rw [if_pos heq] at h
          simp only [Res.here, LRes.err.injEq] at h
          exact .inr ⟨h.2.symm, .inr h.1.symm⟩
        · rw [if_neg heq] at h
          exact ih (r1 o1 h1) h
    · rw [if_neg hlt] at h
      cases h

/-! ## The passes -/

theorem firstPassesAt_err {ps : List Placed} {fuel : Nat} {ms : List Module} : ∀ (is : List Nat) (ms' : List Module),
    is.Nodup → (∀ i ∈ is, ms'[i]? = ms[i]?) → ∀ {e : Err} {loc : Location},
    firstPassesAt ps fuel ms' is = .err e loc →
    ∃ i ∈ is, ∃ m, ms[i]? = some m ∧ m.runFirstPassAt (placeOf ps i).path (placeOf ps i).nums fuel = .err e loc := by
  intro is
  induction is with
  | nil => intro ms' _ _ e loc h; cases h
  | cons i is ih =>
    intro ms' hnd hs e loc h
    rw [firstPassesAt] at h
    cases hm : ms'[i]? with
    | none => rw [hm] at h; cases h
    | some m =>
      rw [hm] at h
      simp only at h
      rcases LRes.bind_eq_err.mp h with h | ⟨m1, -, h⟩
      · exact ⟨i, by simp, m, by rw [← hs i (by simp), hm], h⟩
      · rw [List.nodup_cons] at hnd
        obtain ⟨k, hk, r⟩ := ih _ hnd.2 (fun k hk => by
          have hne : i ≠ k := by rintro rfl; exact hnd.1 hk
          rw [List.getElem?_set_ne hne]
          exact hs k (by simp [hk])) h
        exact ⟨k, by simp [hk], r⟩

theorem secondPassesAt_err {ps : List Placed} {names : HMap FullId Nat} : ∀ (is : List Nat) (ms : List Module)
    {e : Err} {loc : Location}, secondPassesAt ps names ms is = .err e loc →
    ∃ pre i post ms' m, is = pre ++ i :: post ∧ secondPasses names ms pre = .ok ms' ∧ ms'[i]? = some m ∧
      m.runSecondPassAt (placeOf ps i).path (placeOf ps i).nums (lookup ms' names) = .err e loc := by
  intro is
  induction is with
  | nil => intro ms e loc h; cases h
  | cons i is ih =>
    intro ms e loc h
    rw [secondPassesAt] at h
    cases hm : ms[i]? with
    | none => rw [hm] at h; cases h
    | some m =>
      rw [hm] at h
      simp only at h
      rcases LRes.bind_eq_err.mp h with h | ⟨m1, h1, h⟩
      · exact ⟨[], i, is, ms, m, rfl, rfl, hm, h⟩
      · obtain ⟨pre, k, post, ms', q, a1, a2, a3, a4⟩ := ih _ h
        refine ⟨i :: pre, k, post, ms', q, by rw [a1]; rfl, ?_, a3, a4⟩
        rw [secondPasses, hm]
        simp only
        rw [← Module.erase_runSecondPassAt (placeOf ps i).path (placeOf ps i).nums, h1, LRes.erase_ok, Res.bind_ok]
        exact a2

theorem finalPassesAt_err {σ : Type} {ps : List Placed} {sink : Sink σ} {s₀ : σ} {a₀ : Assembler} :
    ∀ (is : List Nat) (a : Assembler) (s : σ), is.Nodup → a.names = a₀.names →
    Pointwise (fun _ => SameSource) a₀.modules a.modules → (∀ i ∈ is, a.modules[i]? = a₀.modules[i]?) →
    (∀ i ∈ is, ∀ m, a₀.modules[i]? = some m → m.Valued ∧ m.owned = .empty) → (∃ ws, Feeds sink s₀ ws s) →
    ∀ {s' : σ} {e : Err} {loc : Location}, finalPassesAt ps sink a is s = (s', .err e loc) →
    (∃ i m j, a₀.modules[i]? = some m ∧ loc = Module.place (placeOf ps i).path (placeOf ps i).nums j ∧
      WriteFault m (lookup a₀.modules a₀.names) sink s₀ j e) ∨ loc = .none ∧ e = .overlap := by
  intro is
  induction is with
  | nil => intro a s _ _ _ _ _ _ s' e loc h; cases h
  | cons i is ih =>
    intro a s hnd hn hsame hs hv hfed s' e loc h
    rw [finalPassesAt] at h
    have hlook : lookup a.modules a.names = lookup a₀.modules a₀.names := by rw [hn, lookup_same hsame]
    cases hm : a.modules[i]? with
    | none => rw [hm] at h; cases h
    | some m =>
      rw [hm] at h
      simp only at h
      have hm0 : a₀.modules[i]? = some m := by rw [← hs i (by simp), hm]
      obtain ⟨v1, v2⟩ := hv i (by simp) m hm0
      rcases ha : m.assembleAt (placeOf ps i).path (placeOf ps i).nums (lookup a.modules a.names) sink s with ⟨s1, r⟩
      rw [ha] at h
      cases r with
      | ub u => cases h
      | err e' loc' =>
        simp only [Prod.mk.injEq, LRes.err.injEq] at h
        obtain ⟨-, rfl, rfl⟩ := h
        obtain ⟨j, h1, h2⟩ := Module.assembleAt_err v1 v2 hfed ha
        exact .inl ⟨i, m, j, hm0, h1, hlook ▸ h2⟩
      | ok m1 =>
        have ha' : m.assemble (lookup a.modules a.names) sink s = (s1, .ok m1) := by
          rw [← Module.erase_assembleAt (placeOf ps i).path (placeOf ps i).nums, ha]
          rfl
        obtain ⟨o, names, hl, -, hm1⟩ := assemble_parts ha'
        obtain ⟨ws, -, hf, -⟩ := assembleLines_ok (by rw [v2]; exact ⟨by simp [DataRange.empty], .nil⟩) hl
        simp only at h
        rcases hi : a.memory.insert m1.owned i with ⟨mem, ok⟩
        rw [hi] at h
        cases ok with
        | false =>
          simp only [Res.here, Prod.mk.injEq, LRes.err.injEq] at h
          exact .inr ⟨h.2.2.symm, h.2.1.symm⟩
        | true =>
          simp only at h
          rw [List.nodup_cons] at hnd
          obtain ⟨ws0, hfed⟩ := hfed
          refine ih { a with modules := a.modules.set i m1, memory := mem } s1 hnd.2 hn ?_ ?_
            (fun k hk => hv k (by simp [hk])) ⟨_, hfed.trans hf⟩ h
          · exact pointwise_trans (R := fun _ => SameSource) (fun _ _ _ _ => SameSource.trans) hsame
              (pointwise_set (R := fun _ => SameSource) (fun _ a => .refl a) hm (by rw [hm1]; exact ⟨rfl, rfl, rfl, rfl⟩))
          · intro k hk
            have hne : i ≠ k := by rintro rfl; exact hnd.1 hk
            rw [← hs k (by simp [hk])]
            exact List.getElem?_set_ne hne

theorem loadAllAt_ok : ∀ {files : List (Str × List Str)} {ps : List Placed} {ms : List Module},
    loadAllAt files = .ok (ps, ms) → ps.map (·.path) = files.map (·.1) ∧ ms.length = files.length ∧
    ∀ (i : Nat) (m : Module), ms[i]? = some m → ∃ path file nums, files[i]? = some (path, file) ∧
      ps[i]? = some ⟨path, nums⟩ ∧ Module.loadAsmFileAt path file = .ok (m, nums) := by
  intro files
  induction files with
  | nil =>
    intro ps ms h
    simp only [loadAllAt, LRes.ok.injEq, Prod.mk.injEq] at h
    obtain ⟨rfl, rfl⟩ := h
    exact ⟨rfl, rfl, fun i m h => by simp at h⟩
  | cons f fs ih =>
    intro ps ms h
    rw [loadAllAt] at h
    obtain ⟨⟨m0, nums⟩, h0, h⟩ := LRes.bind_eq_ok.mp h
    obtain ⟨⟨ps', ms'⟩, h1, h⟩ := LRes.bind_eq_ok.mp h
    cases h
    obtain ⟨a1, a2, a3⟩ := ih h1
    refine ⟨by simp [a1], by simp [a2], fun i m hm => ?_⟩
    cases i with
    | zero =>
      simp at hm
      subst hm
      exact ⟨f.1, f.2, nums, rfl, rfl, h0⟩
    | succ i => simpa using a3 i m (by simpa using hm)

theorem loadAllAt_err : ∀ {files : List (Str × List Str)} {e : Err} {loc : Location},
    loadAllAt files = .err e loc → ∃ f ∈ files, Module.loadAsmFileAt f.1 f.2 = .err e loc := by
  intro files
  induction files with
  | nil => intro e loc h; cases h
  | cons f fs ih =>
    intro e loc h
    rw [loadAllAt] at h
    rcases LRes.bind_eq_err.mp h with h | ⟨r, -, h⟩
    · exact ⟨f, by simp, h⟩
    · rcases LRes.bind_eq_err.mp h with h | ⟨r, -, h⟩
      · obtain ⟨g, hg, h⟩ := ih h
        exact ⟨g, by simp [hg], h⟩
      · cases h

end Assembler

/-! ## The branches of a file -/

theorem fileItems_branches {file : List Str} {items : List Item} (h : FileItems file items) :
    ∀ i, Item.stmt (.instr i) ∈ items → MayBranch i → i.arg1.simpleIdentifier ≠ none := by
  obtain ⟨per, h1, rfl⟩ := h
  intro i hst hb
  rw [List.mem_flatten] at hst
  obtain ⟨its, h2, h3⟩ := hst
  have hb := (mayBranch_iff i).mpr hb
  induction h1 with
  | nil => simp at h2
  | @cons line its' _ _ hx _ ih =>
    rw [List.mem_cons] at h2
    rcases h2 with rfl | h2
    · obtain ⟨ts, ht, hp⟩ := hx
      have := (parseLoop_blames (ts.length + 1) (tokenize_names line ts ht)).2 _ hp _ h3
      refine this.2.2 ?_
      simp only [Instruction.isLocalBranch, Bool.and_eq_true, Bool.or_eq_true, decide_eq_true_eq] at hb
      exact hb.1
    · exact ih h2

theorem program_stmts {items : List Item} : ∀ (ls : List ParsedLabel) (l : ProgLine), l ∈ program ls items →
    Item.stmt l.statement ∈ items := by
  induction items with
  | nil => intro ls l hl; simp [program] at hl
  | cons it items ih =>
    intro ls l hl
    cases it with
    | label x => exact List.mem_cons_of_mem _ (ih _ l hl)
    | stmt s =>
      simp only [program, List.mem_cons] at hl
      rcases hl with rfl | hl
      · simp
      · exact List.mem_cons_of_mem _ (ih _ l hl)

theorem loaded_branches {file : List Str} {m : Module} (h : Module.loadAsmFile file = .ok m) : m.BranchesNamed := by
  obtain ⟨items, h1, h2, -⟩ := loadAsmFile_ok h
  intro k l i hl hi hb
  obtain ⟨⟨pl, h4, h5⟩, -⟩ := h2.line k l hl
  have := program_stmts [] pl (List.mem_of_getElem? h4)
  rw [← h5, hi] at this
  exact fileItems_branches h1 i this hb

end Nsasm
