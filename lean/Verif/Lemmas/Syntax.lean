import Verif.Spec.Syntax
import Verif.Props.Parse

/-! # What success of the statement parser says about the tokens read -/

namespace Nsasm.Props
open Nsasm Nsasm.Spec Nsasm.Parse

theorem NamesNonempty.tail {p q : Toks} (h : NamesNonempty (p ++ q)) : NamesNonempty q :=
  fun hm => h (by simp [hm])

theorem NamesNonempty.cons {t : Token} {q : Toks} (h : NamesNonempty (t :: q)) :
    NamesNonempty q := fun hm => h (by simp [hm])

theorem consume_ok {c : Char} {ts ts' : Toks} (h : consume c ts = .ok ts') :
    ts = tok c :: ts' := by
  unfold consume at h
  replace h := Res.bind_eq_ok.mp h
  obtain ⟨t, ht, h⟩ := h
  obtain ⟨us, rfl⟩ := front_ok ht
  by_cases hc : t = pc c
  · rw [if_neg (by simpa using hc)] at h; cases h; rw [hc]; rfl
  · rw [if_pos (by simpa using hc)] at h; cases h

theorem atEndOrSuffix_ok {ts : Toks} {b : Bool} (h : atEndOrSuffix ts = .ok b) :
    ∃ t us, ts = t :: us ∧ isEndOrSuffix t = b := by
  unfold atEndOrSuffix at h
  replace h := Res.bind_eq_ok.mp h
  obtain ⟨t, ht, h⟩ := h
  obtain ⟨us, rfl⟩ := front_ok ht
  cases h; exact ⟨t, us, rfl, rfl⟩

theorem confirmAtEnd_ok {ts : Toks} (h : confirmAtEnd ts = .ok ()) :
    ∃ t us, ts = t :: us ∧ isEnd t = true := by
  unfold confirmAtEnd at h
  replace h := Res.bind_eq_ok.mp h
  obtain ⟨b, hb, h⟩ := h
  replace hb := Res.bind_eq_ok.mp hb
  obtain ⟨t, ht, hb⟩ := hb
  obtain ⟨us, rfl⟩ := front_ok ht
  cases hb
  cases he : isEnd t with
  | true => exact ⟨t, us, rfl, he⟩
  | false => rw [he] at h; cases h

theorem create_ok {m : Mnemonic} {s : Suffix} {sm : SMode} {a b : Expr} {ts rest : Toks}
    {i : Instruction} (h : create m s sm a b ts = .ok (i, rest)) :
    ts = rest ∧ Written m s sm a b .default i := by
  unfold create at h
  replace h := Res.bind_eq_ok.mp h
  obtain ⟨i', hi, h⟩ := h
  cases h
  unfold createInstruction at hi
  replace hi := Res.bind_eq_ok.mp hi
  obtain ⟨am, ham, hi⟩ := hi
  split at hi
  · cases hi
  · next hs => cases hi; exact ⟨rfl, ham, rfl, rfl, rfl, rfl, rfl, fun h1 h2 => hs ⟨h1, h2⟩⟩

theorem finish_ok {m : Mnemonic} {s : Suffix} {sm : SMode} {a b : Expr} {ts rest : Toks}
    {i : Instruction} (h : finish m s sm a b ts = .ok (i, rest)) :
    ts = rest ∧ Written m s sm a b .default i := by
  unfold finish at h
  replace h := Res.bind_eq_ok.mp h
  obtain ⟨_, _, h⟩ := h
  exact create_ok h

/-- Whatever reads an expression up to a `)` reads the one the grammar gives. -/
theorem expression_unique {ts us rest : Toks} {e e' : Expr} (hd : Derives .expr ts e)
    (h : expression (ts ++ tok ')' :: us) = .ok (e', rest)) : (e, tok ')' :: us) = (e', rest) := by
  obtain ⟨n, hn⟩ := derives_accepts hd (tok ')') us (e, tok ')' :: us) (by simp) rfl ⟨1, exprLoop_stop rfl⟩
  have h1 := expr_mono (done_ok hn) (Nat.le_max_left n (bound (ts ++ tok ')' :: us)))
  unfold expression at h
  have h2 := expr_mono (done_ok h) (Nat.le_max_right n (bound (ts ++ tok ')' :: us)))
  rw [hn] at h1
  rw [h, h1] at h2
  injection h2 with h2

/-- What a parsed operand looks like. -/
def OperandRead (m : Mnemonic) (s : Suffix) (ts : Toks) (i : Instruction) (rest : Toks) : Prop :=
  ∃ p sm a b, ts = p ++ rest ∧ Operand p sm a b ∧ NotIndirect p sm ∧ Written m s sm a b .default i

/-- The tokens do not begin with a parenthesised expression after which an operand
ends or a `,` follows. -/
def Unwrapped (ts : Toks) : Prop := ∀ us e rest, Derives .expr us e →
  ts = tok '(' :: us ++ tok ')' :: rest → ∃ t r, rest = t :: r ∧ t ≠ tok ',' ∧ isEndOrSuffix t = false

theorem Unwrapped.of_ne {t : Token} {ts : Toks} (h : t ≠ tok '(') : Unwrapped (t :: ts) := by
  intro us e rest _ he
  simp only [List.cons_append, List.cons.injEq] at he
  exact absurd he.1 h

theorem Unwrapped.whole {p rest : Toks} {t : Token} {us : Toks} (h : Unwrapped (p ++ rest)) (hr : rest = t :: us)
    (ht : isEndOrSuffix t = true) : ∀ us e rest, Derives .expr us e →
      p = tok '(' :: us ++ tok ')' :: rest → ∃ t r, rest = t :: r ∧ t ≠ tok ',' := by
  intro vs e r hv hp
  subst hr
  obtain ⟨t', r', h1, h2, h3⟩ := h vs e (r ++ t :: us) hv (by simp [hp])
  cases r with
  | nil => simp only [List.nil_append, List.cons.injEq] at h1; rw [← h1.1, ht] at h3; cases h3
  | cons a r => simp only [List.cons_append, List.cons.injEq] at h1; exact ⟨a, r, rfl, h1.1 ▸ h2⟩

theorem Unwrapped.indexed {p rest : Toks} {c : Char} (h : Unwrapped (p ++ tok ',' :: tok c :: rest)) (hc : c ≠ ')') :
    ∀ us e rest, Derives .expr us e →
      p ++ [tok ',', tok c] = tok '(' :: us ++ tok ')' :: rest → ∃ t r, rest = t :: r ∧ t ≠ tok ',' := by
  intro vs e r hv hp
  obtain ⟨t', r', h1, h2, h3⟩ := h vs e (r ++ rest) hv (by
    have : p ++ tok ',' :: tok c :: rest = (p ++ [tok ',', tok c]) ++ rest := by simp
    rw [this, hp]; simp)
  cases r with
  | nil =>
    have := congrArg List.getLast? hp
    have h2 : (tok '(' :: vs ++ tok ')' :: []).getLast? = some (tok ')') := List.getLast?_concat
    rw [h2] at this
    simp at this
    exact absurd this hc
  | cons a r => simp only [List.cons_append, List.cons.injEq] at h1; exact ⟨a, r, rfl, h1.1 ▸ h2⟩

theorem immediate_ok {m : Mnemonic} {s : Suffix} {ts rest : Toks} {i : Instruction}
    (hne : NamesNonempty ts) (h : immediate m s ts = .ok (i, rest)) :
    OperandRead m s (tok '#' :: ts) i rest := by
  unfold immediate at h
  replace h := Res.bind_eq_ok.mp h
  obtain ⟨⟨a1, ts1⟩, h1, h⟩ := h
  obtain ⟨p, rfl, hp⟩ := C35_only_grammar _ _ _ hne h1
  replace h := Res.bind_eq_ok.mp h
  obtain ⟨b, hb, h⟩ := h
  cases b with
  | true =>
    obtain ⟨rfl, hw⟩ := create_ok h
    exact ⟨_, _, _, _, by simp, .imm hp, trivial, hw⟩
  | false =>
    simp only [Bool.false_eq_true, if_false] at h
    replace h := Res.bind_eq_ok.mp h
    obtain ⟨ts2, h2, h⟩ := h
    cases consume_ok h2
    replace h := Res.bind_eq_ok.mp h
    obtain ⟨ts3, h3, h⟩ := h
    cases consume_ok h3
    replace h := Res.bind_eq_ok.mp h
    obtain ⟨⟨a2, ts4⟩, h4, h⟩ := h
    obtain ⟨q, rfl, hq⟩ := C35_only_grammar _ _ _ hne.tail.cons.cons h4
    obtain ⟨rfl, hw⟩ := finish_ok h
    exact ⟨_, _, _, _, by simp, .mov hp hq, trivial, hw⟩

theorem bracketed_ok {m : Mnemonic} {s : Suffix} {ts rest : Toks} {i : Instruction}
    (hne : NamesNonempty ts) (h : bracketed m s ts = .ok (i, rest)) :
    OperandRead m s (tok '[' :: ts) i rest := by
  unfold bracketed at h
  replace h := Res.bind_eq_ok.mp h
  obtain ⟨⟨a1, ts1⟩, h1, h⟩ := h
  obtain ⟨p, rfl, hp⟩ := C35_only_grammar _ _ _ hne h1
  replace h := Res.bind_eq_ok.mp h
  obtain ⟨ts2, h2, h⟩ := h
  cases consume_ok h2
  replace h := Res.bind_eq_ok.mp h
  obtain ⟨b, hb, h⟩ := h
  cases b with
  | true =>
    obtain ⟨rfl, hw⟩ := create_ok h
    exact ⟨_, _, _, _, by simp, .lng hp, trivial, hw⟩
  | false =>
    simp only [Bool.false_eq_true, if_false] at h
    replace h := Res.bind_eq_ok.mp h
    obtain ⟨ts3, h3, h⟩ := h
    cases consume_ok h3
    replace h := Res.bind_eq_ok.mp h
    obtain ⟨_, _, h⟩ := h
    replace h := Res.bind_eq_ok.mp h
    obtain ⟨ts4, h4, h⟩ := h
    cases consume_ok h4
    obtain ⟨rfl, hw⟩ := finish_ok h
    exact ⟨_, _, _, _, by simp, .lng_y hp, trivial, hw⟩

theorem indirectComma_ok {m : Mnemonic} {s : Suffix} {p ts rest : Toks} {a : Expr}
    {i : Instruction} (hp : Derives .expr p a) (h : indirectComma m s a ts = .ok (i, rest)) :
    OperandRead m s (tok '(' :: p ++ tok ',' :: ts) i rest := by
  unfold indirectComma at h
  replace h := Res.bind_eq_ok.mp h
  obtain ⟨_, _, h⟩ := h
  replace h := Res.bind_eq_ok.mp h
  obtain ⟨t, ht, h⟩ := h
  obtain ⟨us, rfl⟩ := front_ok ht
  by_cases hx : t = pc 'X'
  · rw [if_pos hx] at h
    subst hx
    replace h := Res.bind_eq_ok.mp h
    obtain ⟨ts2, h2, h⟩ := h
    cases consume_ok h2
    obtain ⟨rfl, hw⟩ := finish_ok h
    exact ⟨_, _, _, _, by simp, .ind_x hp, trivial, hw⟩
  · rw [if_neg hx] at h
    replace h := Res.bind_eq_ok.mp h
    obtain ⟨ts2, h2, h⟩ := h
    cases consume_ok h2
    replace h := Res.bind_eq_ok.mp h
    obtain ⟨ts3, h3, h⟩ := h
    cases consume_ok h3
    replace h := Res.bind_eq_ok.mp h
    obtain ⟨ts4, h4, h⟩ := h
    cases consume_ok h4
    replace h := Res.bind_eq_ok.mp h
    obtain ⟨_, _, h⟩ := h
    replace h := Res.bind_eq_ok.mp h
    obtain ⟨ts5, h5, h⟩ := h
    cases consume_ok h5
    obtain ⟨rfl, hw⟩ := finish_ok h
    exact ⟨_, _, _, _, by simp, .stk_y hp, trivial, hw⟩

theorem bare_ok {m : Mnemonic} {s : Suffix} {ts rest : Toks} {i : Instruction}
    (hne : NamesNonempty ts) (h : bare m s ts = .ok (i, rest)) :
    ∃ p sm a b, ts = p ++ rest ∧ Operand p sm a b ∧ (Unwrapped ts → NotIndirect p sm) ∧
      Written m s sm a b .default i := by
  unfold bare at h
  replace h := Res.bind_eq_ok.mp h
  obtain ⟨⟨a1, ts1⟩, h1, h⟩ := h
  obtain ⟨p, rfl, hp⟩ := C35_only_grammar _ _ _ hne h1
  replace h := Res.bind_eq_ok.mp h
  obtain ⟨b, hb, h⟩ := h
  cases b with
  | true =>
    obtain ⟨rfl, hw⟩ := create_ok h
    obtain ⟨t, us, hus, ht⟩ := atEndOrSuffix_ok hb
    exact ⟨_, _, _, _, rfl, .dir hp, fun hu => hu.whole hus ht, hw⟩
  | false =>
    simp only [Bool.false_eq_true, if_false] at h
    replace h := Res.bind_eq_ok.mp h
    obtain ⟨ts2, h2, h⟩ := h
    cases consume_ok h2
    replace h := Res.bind_eq_ok.mp h
    obtain ⟨_, _, h⟩ := h
    replace h := Res.bind_eq_ok.mp h
    obtain ⟨t, ht, h⟩ := h
    obtain ⟨us, rfl⟩ := front_ok ht
    by_cases hx : t = pc 'X'
    · rw [if_pos hx] at h
      subst hx
      obtain ⟨rfl, hw⟩ := finish_ok h
      exact ⟨_, _, _, _, by simp, .dir_x hp, fun hu => hu.indexed (by decide), hw⟩
    rw [if_neg hx] at h
    by_cases hy : t = pc 'Y'
    · rw [if_pos hy] at h
      subst hy
      obtain ⟨rfl, hw⟩ := finish_ok h
      exact ⟨_, _, _, _, by simp, .dir_y hp, fun hu => hu.indexed (by decide), hw⟩
    rw [if_neg hy] at h
    replace h := Res.bind_eq_ok.mp h
    obtain ⟨ts3, h3, h⟩ := h
    cases consume_ok h3
    obtain ⟨rfl, hw⟩ := finish_ok h
    exact ⟨_, _, _, _, by simp, .stk hp, fun hu => hu.indexed (by decide), hw⟩

/-- The operand was read completely, or it starts with a `(` and an expression that
were dropped. -/
def OperandLenient (m : Mnemonic) (s : Suffix) (ts : Toks) (i : Instruction) (rest : Toks) : Prop :=
  OperandRead m s ts i rest ∨
    ∃ q a p sm b c, ts = tok '(' :: q ++ p ++ rest ∧ Derives .expr q a ∧ Operand p sm b c ∧
      Written m s sm b c .default i

theorem parenthesized_ok {m : Mnemonic} {s : Suffix} {ts rest : Toks} {i : Instruction}
    (hne : NamesNonempty ts) (h : parenthesized m s (tok '(' :: ts) = .ok (i, rest)) :
    OperandLenient m s (tok '(' :: ts) i rest := by
  unfold parenthesized at h
  replace h := Res.bind_eq_ok.mp h
  obtain ⟨⟨a1, ts1⟩, h1, h⟩ := h
  rw [List.tail_cons] at h1
  obtain ⟨p, rfl, hp⟩ := C35_only_grammar _ _ _ hne h1
  replace h := Res.bind_eq_ok.mp h
  obtain ⟨t, ht, h⟩ := h
  obtain ⟨us, hus⟩ := front_ok ht
  subst hus
  by_cases hc : t = pc ','
  · rw [if_pos hc] at h
    subst hc
    exact .inl (indirectComma_ok hp h)
  rw [if_neg hc] at h
  by_cases hc : t = pc ')'
  · rw [if_pos hc] at h
    subst hc
    replace h := Res.bind_eq_ok.mp h
    obtain ⟨b, hb, h⟩ := h
    cases b with
    | true =>
      obtain ⟨hr, hw⟩ := create_ok h
      simp only [List.tail_cons] at hr
      subst hr
      exact .inl ⟨_, _, _, _, by simp, .ind hp, trivial, hw⟩
    | false =>
      simp only [Bool.false_eq_true, if_false] at h
      replace h := Res.bind_eq_ok.mp h
      obtain ⟨t2, ht2, h⟩ := h
      obtain ⟨us2, hus2⟩ := front_ok ht2
      simp only [List.tail_cons] at hus2
      subst hus2
      by_cases hc : t2 = pc ','
      · rw [if_pos hc] at h
        subst hc
        replace h := Res.bind_eq_ok.mp h
        obtain ⟨_, _, h⟩ := h
        replace h := Res.bind_eq_ok.mp h
        obtain ⟨ts3, h3, h⟩ := h
        cases consume_ok h3
        obtain ⟨rfl, hw⟩ := finish_ok h
        exact .inl ⟨_, _, _, _, by simp, .ind_y hp, trivial, hw⟩
      · rw [if_neg hc] at h
        obtain ⟨p', sm, a, b', h2, h3, h4, h5⟩ := bare_ok (fun hm => hne (by simpa using hm)) h
        refine .inl ⟨p', sm, a, b', h2, h3, h4 ?_, h5⟩
        intro vs e rest hv he
        simp only [List.cons_append, List.cons.injEq, true_and] at he
        have h6 := expression_unique hv (he ▸ h1)
        injection h6 with _ h7
        injection h7 with _ h8
        obtain ⟨t3, us3, h9, h10⟩ := atEndOrSuffix_ok hb
        cases h9
        exact ⟨t2, us2, h8, hc, h10⟩
  · rw [if_neg hc] at h
    obtain ⟨p', sm, a, b', h2, h3, h4, h5⟩ := bare_ok hne.tail h
    exact .inr ⟨p, a1, p', sm, a, b', by rw [h2]; simp, hp, h3, h5⟩

theorem operand_ok {m : Mnemonic} {s : Suffix} {ts rest : Toks} {i : Instruction}
    (hne : NamesNonempty ts) (h : operand m s ts = .ok (i, rest)) :
    OperandLenient m s ts i rest := by
  unfold operand at h
  replace h := Res.bind_eq_ok.mp h
  obtain ⟨b, hb, h⟩ := h
  cases b with
  | true =>
    obtain ⟨rfl, hw⟩ := create_ok h
    exact .inl ⟨_, _, _, _, rfl, .imp, trivial, hw⟩
  | false =>
    simp only [Bool.false_eq_true, if_false] at h
    replace h := Res.bind_eq_ok.mp h
    obtain ⟨_, _, h⟩ := h
    replace h := Res.bind_eq_ok.mp h
    obtain ⟨t, ht, h⟩ := h
    obtain ⟨us, rfl⟩ := front_ok ht
    by_cases hc : t = pc 'A'
    · rw [if_pos hc] at h
      subst hc
      obtain ⟨hr, hw⟩ := finish_ok h
      simp only [List.tail_cons] at hr
      subst hr
      exact .inl ⟨_, _, _, _, rfl, .acc, trivial, hw⟩
    rw [if_neg hc] at h
    by_cases hc : t = pc '#'
    · rw [if_pos hc] at h
      subst hc
      exact .inl (immediate_ok hne.cons h)
    rw [if_neg hc] at h
    by_cases hc : t = pc '['
    · rw [if_pos hc] at h
      subst hc
      exact .inl (bracketed_ok hne.cons h)
    rw [if_neg hc] at h
    by_cases hc : t = pc '('
    · rw [if_pos hc] at h
      subst hc
      exact parenthesized_ok hne.cons h
    rw [if_neg hc] at h
    obtain ⟨p', sm, a, b', h2, h3, h4, h5⟩ := bare_ok hne h
    exact .inl ⟨p', sm, a, b', h2, h3, h4 (.of_ne hc), h5⟩

theorem mode_ok {ts rest : Toks} {f : StatusFlags} (h : mode ts = .ok (f, rest)) :
    ∃ n, ts = .ident n :: rest ∧ StatusFlags.fromName n = some f := by
  unfold mode at h
  replace h := Res.bind_eq_ok.mp h
  obtain ⟨t, ht, h⟩ := h
  obtain ⟨us, rfl⟩ := front_ok ht
  split at h
  · split at h
    · next hf => cases h; exact ⟨_, rfl, hf⟩
    · cases h
  · cases h

theorem returnConvention_ok {ts rest : Toks} {rc : ReturnConvention}
    (h : returnConvention ts = .ok (rc, rest)) : ∃ p, ts = p ++ rest ∧ Convention p rc := by
  unfold returnConvention at h
  replace h := Res.bind_eq_ok.mp h
  obtain ⟨t, ht, h⟩ := h
  obtain ⟨us, rfl⟩ := front_ok ht
  split at h
  · cases h; exact ⟨_, rfl, .noreturn⟩
  · replace h := Res.bind_eq_ok.mp h
    obtain ⟨⟨f, ts1⟩, h1, h⟩ := h
    obtain ⟨n, hn, hf⟩ := mode_ok h1
    cases h
    simp only [List.tail_cons] at hn
    subst hn
    exact ⟨_, rfl, .yields hf⟩
  · cases h; exact ⟨[], rfl, .absent⟩

/-- What parsing a statement says: it was read completely, or there is an unclosed
`(` in what was read. -/
def StatementRead (ts : Toks) (st : Statement) (rest : Toks) : Prop :=
  ∃ p, ts = p ++ rest ∧ (StatementForm p st ∨
    (p.count (tok ')') < p.count (tok '(') ∧ p.countP StartsStatement = 1 ∧ tok ':' ∉ p))

@[simp] theorem starts_tok (c : Char) : StartsStatement (tok c) = (c == '{' || c == '}') := by
  unfold StartsStatement
  split <;> simp_all
@[simp] theorem starts_ident (s : Str) : StartsStatement (.ident s) = false := rfl
@[simp] theorem starts_lit (v : Int) (t : NumericType) : StartsStatement (.lit v t) = false := rfl
@[simp] theorem starts_suffix (s : Suffix) : StartsStatement (.suffix s) = false := rfl
@[simp] theorem starts_mnem (m : Mnemonic) : StartsStatement (.mnem m) = true := rfl
@[simp] theorem starts_dir (d : DirectiveName) : StartsStatement (.dir d) = true := rfl
@[simp] theorem starts_eol : StartsStatement .eol = false := rfl
@[simp] theorem starts_scope : StartsStatement (.punct .scope) = false := rfl
@[simp] theorem starts_export : StartsStatement (.punct .export_) = false := rfl
@[simp] theorem starts_yields : StartsStatement (.punct .yields) = false := rfl
@[simp] theorem starts_noreturn : StartsStatement (.punct .noreturn) = false := rfl

theorem derives_counts {l : Level} {ts : Toks} {e : Expr} (h : Derives l ts e) :
    ts.count (tok '(') = ts.count (tok ')') ∧ ts.countP StartsStatement = 0 ∧ tok ':' ∉ ts := by
  have hname : ∀ id, (nameTokens id).count (tok '(') = 0 ∧ (nameTokens id).count (tok ')') = 0 ∧
      (nameTokens id).countP StartsStatement = 0 ∧ tok ':' ∉ nameTokens id := by
    rintro ⟨_ | m, n⟩
    · simp [nameTokens]
    · cases m <;> simp [nameTokens]
  induction h <;> first
    | (next id => have := hname id; exact ⟨by simp [this.1, this.2.1], by
        simpa [List.countP_cons] using this.2.2.1, by simp [this.2.2.2]⟩)
    | (simp_all [List.count_cons, List.count_append, List.countP_cons, List.countP_append] <;> try omega)

theorem operand_counts {ts : Toks} {sm : SMode} {a b : Expr} (h : Operand ts sm a b) :
    ts.count (tok '(') = ts.count (tok ')') ∧ ts.countP StartsStatement = 0 ∧ tok ':' ∉ ts := by
  cases h with
  | imp => simp
  | acc => simp
  | mov h1 h2 =>
    have := derives_counts h1
    have := derives_counts h2
    simp_all [List.count_cons, List.count_append, List.countP_cons, List.countP_append]
  | imm h1 | lng h1 | lng_y h1 | ind h1 | ind_x h1 | ind_y h1 | stk_y h1 | dir h1 | dir_x h1
  | dir_y h1 | stk h1 =>
    have := derives_counts h1
    simp_all [List.count_cons, List.count_append, List.countP_cons, List.countP_append]

theorem convention_counts {ts : Toks} {rc : ReturnConvention} (h : Convention ts rc) :
    ts.count (tok '(') = 0 ∧ ts.count (tok ')') = 0 ∧ ts.countP StartsStatement = 0 ∧
      tok ':' ∉ ts := by
  cases h <;> simp

theorem suffix_counts {ts : Toks} {s : Suffix} (h : SuffixForm ts s) :
    ts.count (tok '(') = 0 ∧ ts.count (tok ')') = 0 ∧ ts.countP StartsStatement = 0 ∧
      tok ':' ∉ ts := by
  cases h <;> simp

theorem exprList_counts {ts : Toks} {es : List Expr} (h : ExprList ts es) :
    ts.count (tok '(') = ts.count (tok ')') ∧ ts.countP StartsStatement = 0 ∧ tok ':' ∉ ts := by
  induction h with
  | one h => exact derives_counts h
  | cons h1 _ ih =>
    have := derives_counts h1
    simp_all [List.count_cons, List.count_append, List.countP_cons, List.countP_append]

theorem directive_counts {d : DirectiveName} {ts : Toks} {st : Directive}
    (h : DirectiveForm d ts st) :
    ts.count (tok '(') = ts.count (tok ')') ∧ ts.countP StartsStatement = 0 ∧ tok ':' ∉ ts := by
  cases h with
  | none _ => simp
  | expr _ h _ _ => exact derives_counts h
  | list _ h => exact exprList_counts h
  | flags _ _ => simp
  | convention _ _ h =>
    have := convention_counts h
    simp_all [List.count_cons, List.countP_cons]
  | remote _ h1 _ h =>
    have := convention_counts h
    have := derives_counts h1
    simp_all [List.count_cons, List.count_append, List.countP_cons, List.countP_append]

theorem statement_counts {ts : Toks} {st : Statement} (h : StatementForm ts st) :
    ts.count (tok '(') = ts.count (tok ')') ∧ ts.countP StartsStatement = 1 ∧ tok ':' ∉ ts := by
  cases h with
  | instr h1 h2 _ h3 _ _ =>
    have := suffix_counts h1
    have := operand_counts h2
    have := convention_counts h3
    simp_all [List.count_cons, List.count_append, List.countP_cons, List.countP_append]
  | dir h =>
    have := directive_counts h
    simp_all [List.count_cons, List.countP_cons]

theorem instruction_ok {ts rest : Toks} {i : Instruction} (hne : NamesNonempty ts)
    (h : instruction ts = .ok (i, rest)) : StatementRead ts (.instr i) rest := by
  unfold instruction at h
  replace h := Res.bind_eq_ok.mp h
  obtain ⟨⟨i1, ts1⟩, h1, h⟩ := h
  replace h := Res.bind_eq_ok.mp h
  obtain ⟨⟨rc, ts2⟩, h2, h⟩ := h
  simp only at h
  split at h
  · cases h
  next hr =>
  cases h
  have hrc : ∀ m, i1.mnemonic = m → rc ≠ .default → m = .jsr ∨ m = .jsl := by
    rintro m rfl h0
    by_cases h1 : i1.mnemonic = .jsl
    · exact .inr h1
    · by_cases h2 : i1.mnemonic = .jsr
      · exact .inl h2
      · exact absurd ⟨h0, h1, h2⟩ hr
  obtain ⟨q, rfl, hq⟩ := returnConvention_ok h2
  have key : ∀ m s ss us, SuffixForm ss s → ts = .mnem m :: ss ++ us → NamesNonempty us →
      operand m s us = .ok (i1, q ++ rest) →
      StatementRead ts (.instr { i1 with ret := rc }) rest := by
    rintro m s ss us hss rfl hus ho
    rcases operand_ok hus ho with ⟨p, sm, a, b, rfl, hp, hi, hw⟩ | ⟨p', a', p, sm, a, b, rfl, hp', hp, hw⟩
    · refine ⟨.mnem m :: ss ++ p ++ q, by simp, .inl (.instr hss hp hi hq (hrc m hw.2.1) ?_)⟩
      obtain ⟨w1, w2, w3, w4, w5, _, w6⟩ := hw
      exact ⟨w1, w2, w3, w4, w5, rfl, w6⟩
    · refine ⟨.mnem m :: ss ++ (tok '(' :: p') ++ p ++ q, by simp, .inr ?_⟩
      have := suffix_counts hss
      have := operand_counts hp
      have := derives_counts hp'
      have := convention_counts hq
      simp_all [List.count_cons, List.count_append, List.countP_cons, List.countP_append] <;> omega
  unfold instructionCore at h1
  replace h1 := Res.bind_eq_ok.mp h1
  obtain ⟨t, ht, h1⟩ := h1
  obtain ⟨us, rfl⟩ := front_ok ht
  split at h1
  · replace h1 := Res.bind_eq_ok.mp h1
    obtain ⟨t2, ht2, h1⟩ := h1
    obtain ⟨us2, hus2⟩ := front_ok ht2
    simp only [List.tail_cons] at hus2
    subst hus2
    split at h1
    · exact key _ _ _ _ (.present _) rfl hne.cons.cons h1
    · exact key _ _ [] _ .absent rfl hne.cons h1
  · cases h1

theorem exprList_ok (n : Nat) : ∀ {ts rest : Toks} {es : List Expr}, NamesNonempty ts →
    exprList n ts = .ok (es, rest) → ∃ p, ts = p ++ rest ∧ ExprList p es := by
  induction n with
  | zero => intro ts rest es _ h; cases h
  | succ n ih =>
    intro ts rest es hne h
    rw [exprList] at h
    replace h := Res.bind_eq_ok.mp h
    obtain ⟨⟨e, ts1⟩, h1, h⟩ := h
    obtain ⟨p, rfl, hp⟩ := C35_only_grammar _ _ _ hne h1
    replace h := Res.bind_eq_ok.mp h
    obtain ⟨b, hb, h⟩ := h
    cases b with
    | true => cases h; exact ⟨p, rfl, .one hp⟩
    | false =>
      simp only [Bool.false_eq_true, if_false] at h
      replace h := Res.bind_eq_ok.mp h
      obtain ⟨ts2, h2, h⟩ := h
      cases consume_ok h2
      replace h := Res.bind_eq_ok.mp h
      obtain ⟨⟨es', ts3⟩, h3, h⟩ := h
      cases h
      obtain ⟨q, rfl, hq⟩ := ih hne.tail.cons h3
      exact ⟨_, by simp, .cons hp hq⟩

theorem directiveFlags_ok {d : DirectiveName} {a : Expr} {ts rest : Toks} {st : Directive}
    (h : directiveFlags d a ts = .ok (st, rest)) :
    ∃ n f p rc, ts = .ident n :: p ++ rest ∧ StatusFlags.fromName n = some f ∧
      Convention p rc ∧ st = ⟨d, a, f, rc, []⟩ ∧ (d.type = .flag_arg → p = [] ∧ rc = .default) := by
  unfold directiveFlags at h
  replace h := Res.bind_eq_ok.mp h
  obtain ⟨⟨f, ts1⟩, h1, h⟩ := h
  obtain ⟨n, rfl, hf⟩ := mode_ok h1
  have main : ∀ (hc : d.type = .flag_arg → ∃ t us, ts1 = t :: us ∧ isEnd t = true),
      (do let (rc, ts) ← returnConvention ts1
          confirmAtEnd ts
          Res.ok ((⟨d, a, f, rc, []⟩ : Directive), ts)) = .ok (st, rest) →
      ∃ n' f' p rc, (.ident n :: ts1 : Toks) = .ident n' :: p ++ rest ∧
        StatusFlags.fromName n' = some f' ∧ Convention p rc ∧ st = ⟨d, a, f', rc, []⟩ ∧
        (d.type = .flag_arg → p = [] ∧ rc = .default) := by
    intro hc h
    replace h := Res.bind_eq_ok.mp h
    obtain ⟨⟨rc, ts2⟩, h2, h⟩ := h
    replace h := Res.bind_eq_ok.mp h
    obtain ⟨_, _, h⟩ := h
    cases h
    obtain ⟨p, rfl, hp⟩ := returnConvention_ok h2
    refine ⟨n, f, p, rc, rfl, hf, hp, rfl, fun hd => ?_⟩
    obtain ⟨t, us, hts, he⟩ := hc hd
    cases hp with
    | absent => exact ⟨rfl, rfl⟩
    | noreturn => cases hts; cases he
    | yields _ => cases hts; cases he
  by_cases hd : d.type = .flag_arg
  · simp only [hd, if_true] at h
    replace h := Res.bind_eq_ok.mp h
    obtain ⟨_, hc, h⟩ := h
    exact main (fun _ => confirmAtEnd_ok hc) h
  · simp only [hd, if_false] at h
    exact main (fun h => absurd h hd) h

theorem directive_ok {d : DirectiveName} {ts rest : Toks} {st : Directive}
    (hne : NamesNonempty ts) (h0 : directive d ts = .ok (st, rest)) :
    ∃ p, ts = p ++ rest ∧ DirectiveForm d p st := by
  have harg : (d.type = .single_arg ∨ d.type = .constant_arg ∨ d.type = .name_arg) →
      directiveArg d ts = .ok (st, rest) → ∃ p, ts = p ++ rest ∧ DirectiveForm d p st := by
    intro hd h
    clear h0
    unfold directiveArg at h
    replace h := Res.bind_eq_ok.mp h
    obtain ⟨⟨a, ts1⟩, h1, h⟩ := h
    obtain ⟨p, rfl, hp⟩ := C35_only_grammar _ _ _ hne h1
    simp only at h
    split at h
    · cases h
    next hconst =>
    split at h
    · cases h
    next hname =>
    replace h := Res.bind_eq_ok.mp h
    obtain ⟨_, _, h⟩ := h
    cases h
    exact ⟨p, rfl, .expr hd hp (fun h1 => by simpa [h1] using hconst) (fun h1 h2 => hname ⟨h1, h2⟩)⟩
  have h := h0
  clear h0
  unfold directive at h
  split at h
  · next hd =>
    replace h := Res.bind_eq_ok.mp h
    obtain ⟨_, _, h⟩ := h
    cases h
    exact ⟨[], rfl, .none hd⟩
  · next hd => exact harg (.inl hd) h
  · next hd => exact harg (.inr (.inl hd)) h
  · next hd => exact harg (.inr (.inr hd)) h
  · next hd =>
    replace h := Res.bind_eq_ok.mp h
    obtain ⟨⟨es, ts1⟩, h1, h⟩ := h
    cases h
    obtain ⟨p, rfl, hp⟩ := exprList_ok _ hne h1
    exact ⟨p, rfl, .list hd hp⟩
  · next hd =>
    replace h := Res.bind_eq_ok.mp h
    obtain ⟨⟨a, ts1⟩, h1, h⟩ := h
    obtain ⟨p, rfl, hp⟩ := C35_only_grammar _ _ _ hne h1
    obtain ⟨n, f, q, rc, hq, hf, hc, rfl, _⟩ := directiveFlags_ok h
    subst hq
    exact ⟨_, by simp, .remote hd hp hf hc⟩
  · next hd =>
    obtain ⟨n, f, q, rc, rfl, hf, hc, rfl, hz⟩ := directiveFlags_ok h
    obtain ⟨rfl, rfl⟩ := hz hd
    exact ⟨_, rfl, .flags hd hf⟩
  · next hd =>
    obtain ⟨n, f, q, rc, rfl, hf, hc, rfl, _⟩ := directiveFlags_ok h
    exact ⟨_, rfl, .convention hd hf hc⟩

end Nsasm.Props
