import Verif.Spec.Layout
import Verif.Model.File
import Verif.Lemmas.Grammar
import Verif.Lemmas.Loader

/-! # Joining and splitting lines -/

namespace Nsasm.Props
open Nsasm Nsasm.Spec Nsasm.Parse

theorem closed_cons {p a : Toks} {c : Token} (hc : c = tok ':' ∨ c = tok '{' ∨ c = tok '}') :
    Closed (p ++ c :: a) ↔ Closed a := by
  unfold Closed
  cases a with
  | nil => simp [hc]
  | cons x a =>
    have : (p ++ c :: x :: a).getLast? = (x :: a).getLast? := by
      rw [List.getLast?_append, List.getLast?_cons_cons]
      cases h : (x :: a).getLast? with
      | none => simp at h
      | some y => rfl
    rw [this]
    simp

theorem statementForm_open {ls ts : Toks} {st : Statement} (h : StatementForm ts st) : ¬ Closed (ls ++ ts) := by
  obtain ⟨-, h2, h3⟩ := statement_counts h
  have h4 : ∃ t us, ts = t :: us ∧ StartsStatement t = true ∧ t ≠ tok '{' ∧ t ≠ tok '}' := by
    cases h with
    | instr => exact ⟨_, _, by simp only [List.cons_append]; rfl, rfl, by simp, by simp⟩
    | dir => exact ⟨_, _, rfl, rfl, by simp, by simp⟩
  obtain ⟨t, us, rfl, e1, e2, e3⟩ := h4
  have h5 : us.countP StartsStatement = 0 := by simpa [List.countP_cons, e1] using h2
  rw [List.countP_eq_zero] at h5
  have hb : ∀ c, (c = '{' ∨ c = '}') → tok c ∉ t :: us := by
    intro c hc hm
    rcases List.mem_cons.1 hm with hm | hm
    · rcases hc with rfl | rfl
      · exact e2 hm.symm
      · exact e3 hm.symm
    · have := h5 _ hm
      rcases hc with rfl | rfl <;> exact this rfl
  have hl : (ls ++ t :: us).getLast? = (t :: us).getLast? := by
    rw [List.getLast?_append]
    cases h : (t :: us).getLast? with
    | none => simp at h
    | some y => rfl
  rintro (h | h | h | h)
  · simp at h
  all_goals rw [hl] at h; have := List.mem_of_getLast? h
  · exact h3 this
  · exact hb _ (.inl rfl) this
  · exact hb _ (.inr rfl) this

theorem labelTokens_open (l : ParsedLabel) : ¬ Closed (labelTokens l) := by
  rcases l with ⟨n, _ | _⟩ <;> simp [labelTokens, Closed]

theorem lineForm_ne {ts : Toks} {is : List Item} (h : LineForm ts is) : ts ≠ [] := by
  rintro rfl
  obtain ⟨b, hb, -⟩ := lineForm_isLine h
  simp at hb

theorem lineForm_nil {ts : Toks} {is : List Item} (h : LineForm ts is) (hi : is = []) : ts = [.eol] := by
  cases h with
  | done => rfl
  | _ => simp at hi

/-- What comes before the last token of a line that ends in a non-empty line. -/
theorem split_last {p ts a : Toks} (h : p ++ ts = a ++ [.eol]) (hne : ts ≠ []) :
    ∃ a', ts = a' ++ [Token.eol] ∧ a = p ++ a' := by
  obtain ⟨b, x, rfl⟩ : ∃ b x, ts = b ++ [x] := ⟨ts.dropLast, ts.getLast hne, (List.dropLast_append_getLast hne).symm⟩
  rw [← List.append_assoc] at h
  obtain ⟨h1, h2⟩ := List.append_inj' h rfl
  cases h2
  exact ⟨b, rfl, h1.symm⟩

theorem lineForm_starts {b : Toks} {js : List Item} (h : LineForm b js) (hs : BeginsWithStatement b) (l : ParsedLabel) :
    LineForm (labelTokens l ++ b) (.label l :: js) := by
  obtain ⟨t, ht, hs⟩ := hs
  have hlab : ∀ (l : ParsedLabel) (q : Toks), (labelTokens l ++ q).head? = some t → False := by
    rintro ⟨n, _ | _⟩ q h <;> (cases h; cases hs)
  cases h with
  | done => cases ht; cases hs
  | label h => exact (hlab _ _ ht).elim
  | lastLabel => exact (hlab _ _ ht).elim
  | stmt h1 h2 h3 =>
    cases h1 with
    | absent => simpa using LineForm.stmt (.present l) h2 h3
    | present => rw [List.append_assoc] at ht; exact (hlab _ _ ht).elim
  | last h1 h2 =>
    cases h1 with
    | absent => simpa using LineForm.last (.present l) h2
    | present => rw [List.append_assoc] at ht; exact (hlab _ _ ht).elim
  | opening h1 h2 =>
    cases h1 with
    | absent => simpa using LineForm.opening (.present l) h2
    | present => exact (hlab _ _ ht).elim
  | closing h1 h2 =>
    cases h1 with
    | absent => simpa using LineForm.closing (.present l) h2
    | present => exact (hlab _ _ ht).elim

theorem endsWithLabel_cons {p is : List Item} {st : Statement} (h : EndsWithLabel (p ++ .stmt st :: is)) : EndsWithLabel is := by
  obtain ⟨l, hl⟩ := h
  cases is with
  | nil => simp at hl
  | cons x is =>
    refine ⟨l, ?_⟩
    rw [List.getLast?_append, List.getLast?_cons_cons] at hl
    cases h : (x :: is).getLast? with
    | none => simp at h
    | some y => rw [h] at hl; simpa using hl

/-- Two lines of the grammar as one. -/
theorem lineForm_join {ts b : Toks} {is js : List Item} (h : LineForm ts is) (hb : LineForm b js) :
    ∀ a, ts = a ++ [.eol] →
      (Closed a → LineForm (a ++ b) (is ++ js)) ∧
      (¬ Closed a → LineForm (a ++ tok ':' :: b) (is ++ js)) ∧
      (¬ Closed a → EndsWithLabel is → BeginsWithStatement b → LineForm (a ++ b) (is ++ js)) := by
  induction h with
  | done =>
    intro a ha
    have : a = [] := by
      cases a with
      | nil => rfl
      | cons x a => simp at ha
    subst this
    exact ⟨fun _ => hb, fun h => absurd (.inl rfl) h, fun h => absurd (.inl rfl) h⟩
  | @label l ts is hr ih =>
    intro a ha
    have e : labelTokens l ++ tok ':' :: ts = (labelTokens l ++ [tok ':']) ++ ts := by simp
    obtain ⟨a', h1, rfl⟩ := split_last (e ▸ ha) (lineForm_ne hr)
    obtain ⟨i1, i2, i3⟩ := ih a' h1
    have hc : Closed (labelTokens l ++ [tok ':'] ++ a') ↔ Closed a' := by
      have := closed_cons (p := labelTokens l) (a := a') (c := tok ':') (.inl rfl)
      simpa using this
    rw [hc]
    refine ⟨fun h => by simpa using LineForm.label (l := l) (i1 h), fun h => by simpa using LineForm.label (l := l) (i2 h), fun h h' h'' => ?_⟩
    have : EndsWithLabel is := by
      obtain ⟨l', hl'⟩ := h'
      cases is with
      | nil =>
        exfalso
        -- the rest of the line has no item, so it is closed
        have h2 := lineForm_nil hr rfl
        rw [h1] at h2
        cases a' with
        | nil => exact h (.inl rfl)
        | cons x a' => simp at h2
      | cons x is => exact ⟨l', by rwa [List.getLast?_cons_cons] at hl'⟩
    simpa using LineForm.label (l := l) (i3 h this h'')
  | lastLabel l =>
    intro a ha
    obtain ⟨rfl, -⟩ := List.append_inj' ha rfl
    exact ⟨fun h => absurd h (labelTokens_open l), fun _ => .label hb, fun _ _ h => lineForm_starts hb h l⟩
  | @stmt ls li ts st us is hl hs hr ih =>
    intro a ha
    have e : ls ++ ts ++ tok ':' :: us = (ls ++ ts ++ [tok ':']) ++ us := by simp
    obtain ⟨a', h1, rfl⟩ := split_last (e ▸ ha) (lineForm_ne hr)
    obtain ⟨i1, i2, i3⟩ := ih a' h1
    have hc : Closed (ls ++ ts ++ [tok ':'] ++ a') ↔ Closed a' := by
      have := closed_cons (p := ls ++ ts) (a := a') (c := tok ':') (.inl rfl)
      simpa using this
    rw [hc]
    refine ⟨fun h => by simpa using LineForm.stmt hl hs (i1 h), fun h => by simpa using LineForm.stmt hl hs (i2 h),
      fun h h' h'' => by simpa using LineForm.stmt hl hs (i3 h (endsWithLabel_cons h') h'')⟩
  | @last ls li ts st hl hs =>
    intro a ha
    obtain ⟨rfl, -⟩ := List.append_inj' ha rfl
    refine ⟨fun h => absurd h (statementForm_open hs), fun _ => by simpa using LineForm.stmt hl hs hb, fun _ h => ?_⟩
    obtain ⟨l, hl⟩ := endsWithLabel_cons h
    cases hl
  | @opening ls li ts is hl hr ih =>
    intro a ha
    have e : ls ++ tok '{' :: ts = (ls ++ [tok '{']) ++ ts := by simp
    obtain ⟨a', h1, rfl⟩ := split_last (e ▸ ha) (lineForm_ne hr)
    obtain ⟨i1, i2, i3⟩ := ih a' h1
    have hc : Closed (ls ++ [tok '{'] ++ a') ↔ Closed a' := by
      have := closed_cons (p := ls) (a := a') (c := tok '{') (.inr (.inl rfl))
      simpa using this
    rw [hc]
    refine ⟨fun h => by simpa using LineForm.opening hl (i1 h), fun h => by simpa using LineForm.opening hl (i2 h),
      fun h h' h'' => by simpa using LineForm.opening hl (i3 h (endsWithLabel_cons h') h'')⟩
  | @closing ls li ts is hl hr ih =>
    intro a ha
    have e : ls ++ tok '}' :: ts = (ls ++ [tok '}']) ++ ts := by simp
    obtain ⟨a', h1, rfl⟩ := split_last (e ▸ ha) (lineForm_ne hr)
    obtain ⟨i1, i2, i3⟩ := ih a' h1
    have hc : Closed (ls ++ [tok '}'] ++ a') ↔ Closed a' := by
      have := closed_cons (p := ls) (a := a') (c := tok '}') (.inr (.inr rfl))
      simpa using this
    rw [hc]
    refine ⟨fun h => by simpa using LineForm.closing hl (i1 h), fun h => by simpa using LineForm.closing hl (i2 h),
      fun h h' h'' => by simpa using LineForm.closing hl (i3 h (endsWithLabel_cons h') h'')⟩

/-- What a line contributes to the module. -/
theorem loadLines_cons (ld : Module.Loading) (s : Str) (f : List Str) {ts : Toks} {is : List Item}
    (h1 : tokenize s = .ok ts) (h2 : parse ts = .ok is) :
    Module.loadLines ld (s :: f) = (do let ld ← Module.loadItems ld is; Module.loadLines ld f) := by
  rw [Module.loadLines, h1, Res.bind_ok, h2, Res.bind_ok]

theorem loadLines_two (ld : Module.Loading) {s t r : Str} (f : List Str) {a b c : Toks} {is js : List Item}
    (hs : LineMeans s a is) (ht : LineMeans t b js) (hr : tokenize r = .ok c) (hl : LineForm c (is ++ js)) :
    Module.loadLines ld (r :: f) = Module.loadLines ld (s :: t :: f) := by
  rw [loadLines_cons ld r f hr (parseLoop_accepts hl _ (Nat.lt_succ_self _)),
    loadLines_cons ld s (t :: f) hs.1 (parseLoop_accepts hs.2 _ (Nat.lt_succ_self _)), loadItems_append]
  cases Module.loadItems ld is with
  | ok ld1 =>
    rw [Res.bind_ok, Res.bind_ok, loadLines_cons ld1 t f ht.1 (parseLoop_accepts ht.2 _ (Nat.lt_succ_self _))]
  | err e => rfl
  | ub u => rfl

theorem tokenize_space {s t : Str} {a b : Toks} (hs : ';' ∉ s) (h1 : tokenize s = .ok (a ++ [.eol]))
    (h2 : tokenize t = .ok b) : tokenize (s ++ ' ' :: t) = .ok (a ++ b) :=
  (C33_blank_separates s t ' ' (.inl rfl) hs).1 a b h1 h2

theorem sameLayout_load {f g : List Str} (h : SameLayout f g) : ∀ ld, Module.loadLines ld f = Module.loadLines ld g := by
  induction h with
  | refl => intro ld; rfl
  | symm _ ih => intro ld; exact (ih ld).symm
  | trans _ _ ih1 ih2 => intro ld; rw [ih1, ih2]
  | cons s _ ih =>
    intro ld
    rw [Module.loadLines, Module.loadLines]
    simp only [ih]
  | blanks s f hb hb' =>
    intro ld
    rw [Module.loadLines, Module.loadLines, C33_blanks _ _ _ hb hb']
  | comment s text f =>
    intro ld
    rw [Module.loadLines, Module.loadLines, C33_comment]
  | @blankLine b f hb =>
    intro ld
    have h1 : tokenize b = .ok [.eol] := by
      have := C33_blanks b [] [] hb (by simp)
      simp only [List.append_nil] at this
      rw [this]
      rfl
    rw [loadLines_cons ld b f h1 (is := []) rfl]
    rfl
  | @colon s t a b is js f hs h1 h2 hc =>
    intro ld
    have e : s ++ cs!" : " ++ t = s ++ ' ' :: ([':'] ++ ' ' :: t) := by
      rw [List.append_assoc]
      rfl
    have h3 : tokenize ([':'] ++ ' ' :: t) = .ok ([tok ':'] ++ (b ++ [.eol])) :=
      tokenize_space (by simp) rfl h2.1
    have h4 := tokenize_space hs h1.1 h3
    rw [← e] at h4
    exact loadLines_two ld f h1 h2 h4 ((lineForm_join h1.2 h2.2 a rfl).2.1 hc)
  | @closed s t a b is js f hs h1 h2 hc =>
    intro ld
    exact loadLines_two ld f h1 h2 (tokenize_space hs h1.1 h2.1) ((lineForm_join h1.2 h2.2 a rfl).1 hc)
  | @label s t a b is js f hs h1 h2 hl hb =>
    intro ld
    refine loadLines_two ld f h1 h2 (tokenize_space hs h1.1 h2.1) ?_
    have hb' : BeginsWithStatement (b ++ [.eol]) := by
      obtain ⟨t, ht, h⟩ := hb
      cases b with
      | nil => cases ht
      | cons x b => exact ⟨t, ht, h⟩
    by_cases hc : Closed a
    · exact (lineForm_join h1.2 h2.2 a rfl).1 hc
    · exact (lineForm_join h1.2 h2.2 a rfl).2.2 hc hl hb'

/-! ## Reading files -/

theorem stripBlanks_spec (s : Str) : ∃ b b', (∀ c ∈ b, Blank c) ∧ (∀ c ∈ b', Blank c) ∧ s = b ++ stripBlanks s ++ b' := by
  have hd : ∀ s : Str, ∃ b, (∀ c ∈ b, Blank c) ∧ s = b ++ stripLeading s := by
    intro s
    refine ⟨s.takeWhile isSpace, fun c hc => ?_, (List.takeWhile_append_dropWhile).symm⟩
    have := List.all_takeWhile (p := isSpace) (l := s)
    exact (isSpace_iff c).mp (List.all_eq_true.mp this c hc)
  obtain ⟨b, h1, h2⟩ := hd s
  obtain ⟨b', h3, h4⟩ := hd (stripLeading s).reverse
  refine ⟨b, b'.reverse, h1, fun c hc => h3 c (by simpa using hc), ?_⟩
  unfold stripBlanks
  conv_lhs => rw [h2]
  rw [List.append_assoc]
  congr 1
  have := congrArg List.reverse h4
  simpa using this

theorem sameLayout_strip (s : Str) (f : List Str) : SameLayout (s :: f) (stripBlanks s :: f) := by
  obtain ⟨b, b', h1, h2, h3⟩ := stripBlanks_spec s
  have := SameLayout.blanks (stripBlanks s) f h1 h2
  rw [← h3] at this
  exact .symm this

theorem sameLayout_fake (text : Str) : ∀ line, SameLayout (getLines line text) ((splitLines line text).map stripBlanks) := by
  induction text with
  | nil =>
    intro line
    simp only [getLines, splitLines, List.map_cons, List.map_nil]
    by_cases h : line = []
    · rw [if_pos h, h]
      exact .blankLine (b := stripBlanks []) [] (by intro c hc; cases hc)
    · rw [if_neg h]
      exact sameLayout_strip line []
  | cons c s ih =>
    intro line
    rw [getLines, splitLines]
    by_cases h : c = '\n'
    · rw [if_pos h, if_pos h, List.map_cons]
      exact .trans (.cons _ (ih [])) (sameLayout_strip _ _)
    · rw [if_neg h, if_neg h]
      exact ih _

theorem sameLayout_dos (text : Str) : ∀ line, SameLayout (getLines line text) (getLines line (dosText text)) := by
  induction text with
  | nil => intro line; exact .refl _
  | cons c s ih =>
    intro line
    have hd : dosText (c :: s) = (if c = '\n' then ['\r', '\n'] else [c]) ++ dosText s := rfl
    rw [hd]
    by_cases h : c = '\n'
    · subst h
      simp only [if_true, List.cons_append, List.nil_append, getLines]
      rw [if_neg (by decide)]
      refine .trans (.cons _ (ih [])) ?_
      have := SameLayout.blanks (b := []) (b' := ['\r']) line (getLines [] (dosText s)) (by simp)
        (by intro c hc; rw [List.mem_singleton] at hc; subst hc; simp [Blank])
      simpa using this
    · simp only [h, if_false, List.cons_append, List.nil_append, getLines]
      exact ih _

theorem getLines_text (lines : List Str) (h : ∀ l ∈ lines, '\n' ∉ l) : getLines [] (fileText lines) = lines := by
  have key : ∀ (l line rest : Str), '\n' ∉ l → getLines line (l ++ '\n' :: rest) = (line ++ l) :: getLines [] rest := by
    intro l
    induction l with
    | nil => intro line rest _; simp [getLines]
    | cons c l ih =>
      intro line rest hl
      simp only [List.mem_cons, not_or] at hl
      rw [List.cons_append, getLines, if_neg (Ne.symm hl.1), ih _ _ hl.2]
      simp
  induction lines with
  | nil => rfl
  | cons l ls ih =>
    have e : fileText (l :: ls) = l ++ '\n' :: fileText ls := by simp [fileText]
    rw [e, key l [] _ (h l (by simp)), ih (fun l hl => h l (by simp [hl])), List.nil_append]

end Nsasm.Props
