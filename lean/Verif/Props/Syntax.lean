import Verif.Lemmas.Syntax

/-! # C36: every token of a line contributes -/

namespace Nsasm.Props
open Nsasm Nsasm.Spec Nsasm.Parse

theorem isLine_suffix {p q : Toks} (h : IsLine (p ++ q)) (hq : q ≠ []) : IsLine q := by
  induction p with
  | nil => exact h
  | cons a p ih =>
    apply ih
    obtain ⟨body, hb, hn⟩ := h
    cases body with
    | nil =>
      simp only [List.cons_append, List.nil_append, List.cons.injEq, List.append_eq_nil_iff] at hb
      exact absurd hb.2.2 hq
    | cons b body =>
      simp only [List.cons_append, List.cons.injEq] at hb
      exact ⟨body, hb.2, fun hm => hn (by simp [hm])⟩

theorem isLine_eol {p q : Toks} (h : IsLine (p ++ .eol :: q)) : q = [] := by
  have := isLine_suffix h (by simp)
  obtain ⟨t, rest, h1, _, h2⟩ := isLine_cons this
  cases h1; exact h2 rfl

theorem noEmpty_suffix {p q : Toks} {c : Token} (hc : c ∈ [tok ':', tok '{', tok '}'])
    (h : NoEmptyStatement (p ++ c :: q)) : NoEmptyStatement q := by
  refine ⟨fun hq => ?_, fun d hd p' q' he => h.2 d hd (p ++ c :: p') q' (by simp [he])⟩
  cases q with
  | nil => cases hq
  | cons a q => cases hq; exact h.2 c hc p q rfl

/-- What reading a label says about the tokens. -/
theorem lineLabel_ok {ts rest : Toks} {l : Option ParsedLabel} {colon : Bool}
    (h : lineLabel ts = .ok (l, colon, rest)) :
    (l = none ∧ colon = false ∧ rest = ts) ∨
    (∃ lab, l = some lab ∧ colon = true ∧ ts = labelTokens lab ++ tok ':' :: rest) ∨
    (∃ lab, l = some lab ∧ colon = false ∧ ts = labelTokens lab ++ rest ∧
      rest.head? ≠ some (tok ':')) := by
  have at_ok : ∀ ex us, labelAt ex us = .ok (l, colon, rest) →
      (ex = false ∧ l = none ∧ colon = false ∧ rest = us) ∨
      (∃ s, l = some ⟨s, ex⟩ ∧ colon = true ∧ us = .ident s :: tok ':' :: rest) ∨
      (∃ s, l = some ⟨s, ex⟩ ∧ colon = false ∧ us = .ident s :: rest ∧
        rest.head? ≠ some (tok ':')) := by
    intro ex us h
    unfold labelAt at h
    replace h := Res.bind_eq_ok.mp h
    obtain ⟨t, ht, h⟩ := h
    obtain ⟨us', rfl⟩ := front_ok ht
    cases t with
    | ident s =>
      simp only at h
      by_cases hc : us'.head? = some (pc ':')
      · rw [List.tail_cons, if_pos hc] at h
        cases us' with
        | nil => cases hc
        | cons a q => cases hc; cases h; exact .inr (.inl ⟨s, rfl, rfl, rfl⟩)
      · rw [List.tail_cons, if_neg hc] at h
        cases h
        exact .inr (.inr ⟨s, rfl, rfl, rfl, hc⟩)
    | lit _ _ | mnem _ | suffix _ | dir _ | punct _ | eol =>
      cases ex with
      | true => cases h
      | false => cases h; exact .inl ⟨rfl, rfl, rfl, rfl⟩
  unfold lineLabel at h
  replace h := Res.bind_eq_ok.mp h
  obtain ⟨t, ht, h⟩ := h
  obtain ⟨us, rfl⟩ := front_ok ht
  by_cases he : t = .punct .export_
  · rw [if_pos he] at h
    subst he
    rcases at_ok true _ h with ⟨hc, _⟩ | ⟨s, h1, h2, h3⟩ | ⟨s, h1, h2, h3, h4⟩
    · cases hc
    · exact .inr (.inl ⟨_, h1, h2, by rw [List.tail_cons] at h3; simp [labelTokens, h3]⟩)
    · exact .inr (.inr ⟨_, h1, h2, by rw [List.tail_cons] at h3; simp [labelTokens, h3], h4⟩)
  · rw [if_neg he] at h
    rcases at_ok false _ h with ⟨_, h1⟩ | ⟨s, h1, h2, h3⟩ | ⟨s, h1, h2, h3, h4⟩
    · exact .inl h1
    · exact .inr (.inl ⟨_, h1, h2, by simp [labelTokens, h3]⟩)
    · exact .inr (.inr ⟨_, h1, h2, by simp [labelTokens, h3], h4⟩)

theorem isEnd_cases {t : Token} (h : isEnd t = true) : t = .eol ∨ t = tok ':' := by
  simpa [isEnd] using h

theorem atEnd_true {ts : Toks} (h : atEnd ts = .ok true) :
    ∃ t us, ts = t :: us ∧ (t = .eol ∨ t = tok ':') := by
  unfold atEnd at h
  replace h := Res.bind_eq_ok.mp h
  obtain ⟨t, ht, h⟩ := h
  obtain ⟨us, rfl⟩ := front_ok ht
  injection h with h
  exact ⟨t, us, rfl, isEnd_cases h⟩

/-- What reading a statement says about the tokens. -/
theorem lineStatement_ok {ts : Toks} {r : Option (Statement × Toks)} (hne : NamesNonempty ts)
    (h : lineStatement ts = .ok r) :
    (r = none ∧ ∃ t us, ts = t :: us ∧ (t = .eol ∨ t = tok ':')) ∨
    (∃ us, r = some (.dir ⟨.begin_, .null, .default, .default, []⟩, us) ∧ ts = tok '{' :: us) ∨
    (∃ us, r = some (.dir ⟨.end_, .null, .default, .default, []⟩, us) ∧ ts = tok '}' :: us) ∨
    (∃ st t us, r = some (st, us) ∧ (t = .eol ∨ t = tok ':') ∧ StatementRead ts st (t :: us)) := by
  unfold lineStatement at h
  replace h := Res.bind_eq_ok.mp h
  obtain ⟨t, ht, h⟩ := h
  obtain ⟨us, rfl⟩ := front_ok ht
  by_cases he : isEnd t = true
  · rw [if_pos he] at h
    cases h
    exact .inl ⟨rfl, t, us, rfl, isEnd_cases he⟩
  rw [if_neg he] at h
  split at h
  · cases h; exact .inr (.inl ⟨_, rfl, rfl⟩)
  · cases h; exact .inr (.inr (.inl ⟨_, rfl, rfl⟩))
  · replace h := Res.bind_eq_ok.mp h
    obtain ⟨⟨d, ts1⟩, h1, h⟩ := h
    obtain ⟨p, hp, hd⟩ := directive_ok (ts := us) hne.cons h1
    simp only at h
    replace h := Res.bind_eq_ok.mp h
    obtain ⟨b, hb, h⟩ := h
    cases b with
    | false => cases h
    | true =>
      cases h
      obtain ⟨t, us', rfl, ht⟩ := atEnd_true hb
      exact .inr (.inr (.inr ⟨_, t, us', rfl, ht, _, by rw [hp]; rfl, .inl (.dir hd)⟩))
  · replace h := Res.bind_eq_ok.mp h
    obtain ⟨⟨i, ts1⟩, h1, h⟩ := h
    have hi := instruction_ok hne h1
    simp only at h
    replace h := Res.bind_eq_ok.mp h
    obtain ⟨b, hb, h⟩ := h
    cases b with
    | false => cases h
    | true =>
      cases h
      obtain ⟨t, us', rfl, ht⟩ := atEnd_true hb
      exact .inr (.inr (.inr ⟨_, t, us', rfl, ht, hi⟩))
  · cases h

/-- The invariant of the line parser. -/
def Accounted (ts : Toks) (is : List Item) : Prop :=
  ts.count (tok ')') ≤ ts.count (tok '(') ∧
    (ParensBalanced ts → LineForm ts is) ∧
    ts.countP StartsStatement = is.countP IsStatement

@[simp] theorem labelTokens_counts (l : ParsedLabel) :
    (labelTokens l).count (tok '(') = 0 ∧ (labelTokens l).count (tok ')') = 0 ∧
      (labelTokens l).countP StartsStatement = 0 := by
  rcases l with ⟨n, _ | _⟩ <;> simp [labelTokens]

theorem labelForm_counts {ls : Toks} {li : List Item} (h : LabelForm ls li) :
    ls.count (tok '(') = 0 ∧ ls.count (tok ')') = 0 ∧
      ls.countP StartsStatement = 0 ∧ li.countP IsStatement = 0 := by
  cases h with
  | absent => simp
  | present l =>
    obtain ⟨h1, h2, h3⟩ := labelTokens_counts l
    exact ⟨h1, h2, h3, by simp [IsStatement]⟩

theorem accounted_label {l : ParsedLabel} {ts : Toks} {is : List Item} (h : Accounted ts is) :
    Accounted (labelTokens l ++ tok ':' :: ts) (.label l :: is) := by
  obtain ⟨h1, h2, h3⟩ := h
  obtain ⟨c1, c2, c3⟩ := labelTokens_counts l
  refine ⟨?_, fun hb => .label (h2 ?_), ?_⟩
  · simp only [List.count_append, List.count_cons, c1, c2]; simpa using h1
  · simpa [ParensBalanced, List.count_append, List.count_cons, c1, c2] using hb
  · rw [List.countP_append, c3]; simp [List.countP_cons, IsStatement, h3]

/-- One more statement in front of the rest of the line. -/
theorem accounted_stmt {ls : Toks} {li : List Item} {p : Toks} {st : Statement} {t : Token}
    {us : Toks} {is : List Item} (hl : LabelForm ls li)
    (hp : StatementForm p st ∨
      (p.count (tok ')') < p.count (tok '(') ∧ p.countP StartsStatement = 1 ∧ tok ':' ∉ p))
    (ht : (t = .eol ∧ us = [] ∧ is = []) ∨ (t = tok ':' ∧ Accounted us is)) :
    Accounted (ls ++ p ++ t :: us) (li ++ .stmt st :: is) := by
  obtain ⟨c1, c2, c3, c4⟩ := labelForm_counts hl
  have hus : us.count (tok ')') ≤ us.count (tok '(') ∧
      us.countP StartsStatement = is.countP IsStatement := by
    rcases ht with ⟨_, rfl, rfl⟩ | ⟨_, h⟩
    · simp
    · exact ⟨h.1, h.2.2⟩
  have htok : StartsStatement t = false ∧ t ≠ tok '(' ∧ t ≠ tok ')' := by
    rcases ht with ⟨rfl, _⟩ | ⟨rfl, _⟩ <;> simp
  have e1 : (ls ++ p ++ t :: us).count (tok '(') = p.count (tok '(') + us.count (tok '(') := by
    simp [List.count_append, List.count_cons, c1, htok.2.1]
  have e2 : (ls ++ p ++ t :: us).count (tok ')') = p.count (tok ')') + us.count (tok ')') := by
    simp [List.count_append, List.count_cons, c2, htok.2.2]
  have e3 : (ls ++ p ++ t :: us).countP StartsStatement =
      p.countP StartsStatement + us.countP StartsStatement := by
    rw [List.countP_append, List.countP_append, c3, List.countP_cons, htok.1]; simp
  have e4 : (li ++ .stmt st :: is).countP IsStatement = 1 + is.countP IsStatement := by
    rw [List.countP_append, c4, List.countP_cons]; simp [IsStatement, Nat.add_comm]
  rcases hp with hp | ⟨hp1, hp2, _⟩
  · obtain ⟨s1, s2, _⟩ := statement_counts hp
    refine ⟨by omega, fun hb => ?_, by omega⟩
    unfold ParensBalanced at hb
    rcases ht with ⟨rfl, rfl, rfl⟩ | ⟨rfl, h⟩
    · exact .last hl hp
    · exact .stmt hl hp (h.2.1 (by unfold ParensBalanced; omega))
  · refine ⟨by omega, fun hb => ?_, by omega⟩
    unfold ParensBalanced at hb
    omega

theorem accounted_brace {ls : Toks} {li : List Item} {us : Toks} {is : List Item}
    (hl : LabelForm ls li) (h : Accounted us is) :
    Accounted (ls ++ tok '{' :: us)
      (li ++ .stmt (.dir ⟨.begin_, .null, .default, .default, []⟩) :: is) ∧
    Accounted (ls ++ tok '}' :: us)
      (li ++ .stmt (.dir ⟨.end_, .null, .default, .default, []⟩) :: is) := by
  obtain ⟨c1, c2, c3, c4⟩ := labelForm_counts hl
  obtain ⟨h1, h2, h3⟩ := h
  refine ⟨⟨?_, fun hb => .opening hl (h2 ?_), ?_⟩, ⟨?_, fun hb => .closing hl (h2 ?_), ?_⟩⟩
  · simpa [List.count_append, List.count_cons, c1, c2] using h1
  · simpa [ParensBalanced, List.count_append, List.count_cons, c1, c2] using hb
  · rw [List.countP_append, List.countP_append, c3, c4]
    simp [List.countP_cons, IsStatement, h3]
  · simpa [List.count_append, List.count_cons, c1, c2] using h1
  · simpa [ParensBalanced, List.count_append, List.count_cons, c1, c2] using hb
  · rw [List.countP_append, List.countP_append, c3, c4]
    simp [List.countP_cons, IsStatement, h3]

theorem parseLoop_accounted (n : Nat) : ∀ {ts : Toks} {is : List Item}, NamesNonempty ts →
    IsLine ts → NoEmptyStatement ts → parseLoop n ts = .ok is → Accounted ts is := by
  induction n with
  | zero => intro ts is _ _ _ h; cases h
  | succ n ih =>
    intro ts is hne hl hno h
    have h0 : ts ≠ [] := by rintro rfl; obtain ⟨b, hb, _⟩ := hl; simp at hb
    rw [parseLoop, if_neg h0] at h
    replace h := Res.bind_eq_ok.mp h
    obtain ⟨⟨l, colon, ts1⟩, h1, h⟩ := h
    -- the statement part
    have hstmt : ∀ ls li, LabelForm ls li → ts = ls ++ ts1 → ts1.head? ≠ some (tok ':') →
        (do match ← lineStatement ts1 with
            | none => .ok li
            | some (s, ts) => do
              let rest ← parseLoop n ts
              .ok (li ++ Item.stmt s :: rest)) = Res.ok is → Accounted ts is := by
      clear h
      rintro ls li hli rfl hhead h
      have hl1 : IsLine ts1 := by
        refine isLine_suffix hl ?_
        rintro rfl
        replace h := Res.bind_eq_ok.mp h
        obtain ⟨r, hr, h⟩ := h
        cases hr
      have hne1 := hne.tail
      replace h := Res.bind_eq_ok.mp h
      obtain ⟨r, hr, h⟩ := h
      rcases lineStatement_ok hne1 hr with ⟨rfl, t, us, rfl, ht⟩ | ⟨us, rfl, rfl⟩ |
        ⟨us, rfl, rfl⟩ | ⟨st, t, us, rfl, ht, p, rfl, hp⟩
      · cases h
        rcases ht with rfl | rfl
        · cases isLine_eol (p := []) hl1
          cases hli with
          | absent => exact ⟨by simp, fun _ => .done, by simp⟩
          | present l =>
            obtain ⟨c1, c2, c3⟩ := labelTokens_counts l
            refine ⟨by simp [List.count_append, c1, c2], fun _ => .lastLabel l, ?_⟩
            rw [List.countP_append, c3]; simp [IsStatement]
        · exact absurd rfl hhead
      · replace h := Res.bind_eq_ok.mp h
        obtain ⟨rest, hrest, h⟩ := h
        cases h
        have hus : us ≠ [] := by
          rintro rfl
          obtain ⟨t, r, hr, hr1, _⟩ := isLine_cons hl1
          cases hr
          obtain ⟨b, hb, _⟩ := hr1 (by simp)
          simp at hb
        exact (accounted_brace hli (ih hne1.cons (isLine_suffix (p := [_]) hl1 hus)
          (noEmpty_suffix (by simp) hno) hrest)).1
      · replace h := Res.bind_eq_ok.mp h
        obtain ⟨rest, hrest, h⟩ := h
        cases h
        have hus : us ≠ [] := by
          rintro rfl
          obtain ⟨t, r, hr, hr1, _⟩ := isLine_cons hl1
          cases hr
          obtain ⟨b, hb, _⟩ := hr1 (by simp)
          simp at hb
        exact (accounted_brace hli (ih hne1.cons (isLine_suffix (p := [_]) hl1 hus)
          (noEmpty_suffix (by simp) hno) hrest)).2
      · replace h := Res.bind_eq_ok.mp h
        obtain ⟨rest, hrest, h⟩ := h
        cases h
        rw [← List.append_assoc]
        refine accounted_stmt hli hp ?_
        rcases ht with rfl | rfl
        · have := isLine_eol hl1
          subst this
          refine .inl ⟨rfl, rfl, ?_⟩
          cases n with
          | zero => cases hrest
          | succ n => rw [parseLoop, if_pos rfl] at hrest; cases hrest; rfl
        · refine .inr ⟨rfl, ?_⟩
          have hl2 : IsLine (tok ':' :: us) := isLine_suffix hl1 (by simp)
          have hus : us ≠ [] := by
            rintro rfl
            obtain ⟨t, r, hr, hr1, _⟩ := isLine_cons hl2
            cases hr
            obtain ⟨b, hb, _⟩ := hr1 (by simp)
            simp at hb
          refine ih hne1.tail.cons (isLine_suffix (p := [_]) hl2 hus) ?_ hrest
          rw [← List.append_assoc] at hno
          exact noEmpty_suffix (by simp) hno
    rcases lineLabel_ok h1 with ⟨rfl, rfl, rfl⟩ | ⟨lab, rfl, rfl, rfl⟩ | ⟨lab, rfl, rfl, rfl, hh⟩
    · exact hstmt [] [] .absent rfl hno.1 h
    · replace h := Res.bind_eq_ok.mp h
      obtain ⟨rest, hrest, h⟩ := h
      cases h
      have hl2 : IsLine (tok ':' :: ts1) := isLine_suffix hl (by simp)
      have hus : ts1 ≠ [] := by
        rintro rfl
        obtain ⟨t, r, hr, hr1, _⟩ := isLine_cons hl2
        cases hr
        obtain ⟨b, hb, _⟩ := hr1 (by simp)
        simp at hb
      exact accounted_label (ih hne.tail.cons (isLine_suffix (p := [_]) hl2 hus)
        (noEmpty_suffix (by simp) hno) hrest)
    · exact hstmt _ _ (.present lab) rfl hh h

/-- **C36 (partial).** If a line parses, has as many `(` as `)` and no empty
statement before a `:`, every token of the line is accounted for by exactly one of
the items, in order.  Missing: lines with an empty statement
(`C36_violated_colon`) or an unclosed `(` (`C36_violated_paren`), for which the
property fails. -/
theorem C36_all_tokens_partial (ts : List Token) (items : List Item) (hl : IsLine ts)
    (hn : Token.ident [] ∉ ts) (hb : ParensBalanced ts) (he : NoEmptyStatement ts)
    (h : parse ts = .ok items) : LineForm ts items :=
  (parseLoop_accounted _ hn hl he h).2.1 hb

/-- **C36 (partial).** If a line parses and has no empty statement before a `:`,
there are as many statements as tokens that begin one: no statement is dropped. -/
theorem C36_no_statement_dropped_partial (ts : List Token) (items : List Item) (hl : IsLine ts)
    (hn : Token.ident [] ∉ ts) (he : NoEmptyStatement ts) (h : parse ts = .ok items) :
    items.countP IsStatement = ts.countP StartsStatement :=
  (parseLoop_accounted _ hn hl he h).2.2.symm

theorem wordToken_name {c : Char} {w : Str} : wordToken (c :: w) ≠ .ident [] := by
  unfold wordToken
  split
  · simp
  · split
    · split <;> simp
    · split
      · simp
      · split
        · simp
        · split <;> simp

theorem scanToken_name {s r : Str} {t : Token} (h : scanToken s = .ok (t, r)) : t ≠ .ident [] := by
  unfold scanToken at h
  split at h
  · cases h; simp
  split at h
  · cases h; simp
  split at h
  · cases h; simp
  split at h
  · cases h
  split at h
  · cases h; simp
  split at h
  · replace h := Res.bind_eq_ok.mp h
    obtain ⟨t', ht, h⟩ := h
    cases h
    unfold dottedToken at ht
    split at ht
    · cases ht; simp
    · split at ht
      · cases ht; simp
      · cases ht
  split at h
  · cases h; exact wordToken_name
  · cases h

/-- The tokenizer yields no empty name. -/
theorem tokenize_names (s : Str) (ts : List Token) (h : tokenize s = .ok ts) :
    Token.ident [] ∉ ts := by
  have : ∀ k s ts, tokenizeLoop k s = .ok ts → Token.ident [] ∉ ts := by
    intro k
    induction k with
    | zero => intro s ts h; cases h
    | succ k ih =>
      intro s ts h
      rw [tokenizeLoop] at h
      simp only at h
      split at h
      · cases h; simp
      · replace h := Res.bind_eq_ok.mp h
        obtain ⟨⟨t, rest⟩, h1, h⟩ := h
        replace h := Res.bind_eq_ok.mp h
        obtain ⟨us, h2, h⟩ := h
        cases h
        have h3 := scanToken_name h1
        have h4 := ih _ _ h2
        simp only [List.mem_cons, not_or]
        exact ⟨fun hh => h3 hh.symm, h4⟩
  exact this _ _ _ h

/-- **C36 (partial)** for source text. -/
theorem C36_source_line_partial (s : Str) (ts : List Token) (items : List Item)
    (ht : tokenize s = .ok ts) (hb : ParensBalanced ts) (he : NoEmptyStatement ts)
    (h : parse ts = .ok items) : LineForm ts items :=
  C36_all_tokens_partial ts items ((C32_one_end_of_line s).2 ts ht) (tokenize_names s ts ht) hb he h

/-- **C36 fails.** After an empty statement the rest of the line is dropped. -/
theorem C36_violated_colon :
    ∃ s ts, tokenize s = .ok ts ∧ ts.countP StartsStatement = 2 ∧
      parse ts = .ok [.stmt (.instr ⟨.nop, .none, .imp, .null, .null, .default⟩)] :=
  ⟨cs!"nop : : clc", _, rfl, by decide +kernel, by decide +kernel⟩

/-- **C36 fails.** An unclosed `(` and the expression after it are dropped: the
line has the meaning of `lda $34`. -/
theorem C36_violated_paren :
    ∃ s ts s' ts', tokenize s = .ok ts ∧ tokenize s' = .ok ts' ∧
      s = cs!"lda ($12 $34" ∧ s' = cs!"lda $34" ∧
      parse ts = parse ts' ∧ (parse ts).isOk = true :=
  ⟨_, _, _, _, rfl, rfl, rfl, rfl, by decide +kernel, by decide +kernel⟩

/-- The hypotheses of the partial theorems hold of a line with labels, two
statements and parentheses. -/
example : ∃ ts, tokenize cs!"go: lda ($12),y : loop nop" = .ok ts ∧ IsLine ts ∧
    ParensBalanced ts ∧ Token.ident [] ∉ ts ∧ ts.countP StartsStatement = 2 ∧
    (parse ts).isOk = true :=
  ⟨_, rfl, (C32_one_end_of_line cs!"go: lda ($12),y : loop nop").2 _ rfl, by unfold ParensBalanced; decide +kernel, by decide +kernel,
    by decide +kernel, by decide +kernel⟩

/-- Deciding `NoEmptyStatement`. -/
theorem noEmpty_iff (ts : Toks) : NoEmptyStatement ts ↔
    ts.head? ≠ some (tok ':') ∧ ∀ i < ts.length, ts[i]? ∈ [some (tok ':'), some (tok '{'), some (tok '}')] →
      ts[i + 1]? ≠ some (tok ':') := by
  refine and_congr_right fun _ => ⟨fun h i hi hm hn => ?_, fun h c hc p q he => ?_⟩
  · have hi1 : i + 1 < ts.length := by
      by_contra hh
      rw [List.getElem?_eq_none (by omega)] at hn
      cases hn
    rw [List.getElem?_eq_getElem hi] at hm
    rw [List.getElem?_eq_getElem hi1] at hn
    refine h ts[i] ?_ (ts.take i) (ts.drop (i + 2)) ?_
    · simpa using hm
    · injection hn with hn
      rw [← hn]
      conv => lhs; rw [← List.take_append_drop i ts]
      rw [← List.getElem_cons_drop_succ_eq_drop, ← List.getElem_cons_drop_succ_eq_drop]
  · subst he
    refine h p.length (by simp) ?_ ?_
    · simpa using hc
    · simp

example : ∃ ts, tokenize cs!"go: lda ($12),y : loop nop" = .ok ts ∧ NoEmptyStatement ts :=
  ⟨_, rfl, (noEmpty_iff _).mpr (by decide +kernel)⟩

end Nsasm.Props
