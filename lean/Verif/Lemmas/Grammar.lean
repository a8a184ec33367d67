import Verif.Props.Syntax

/-! # The statement parser accepts every line of the grammar -/

namespace Nsasm.Props
open Nsasm Nsasm.Spec Nsasm.Parse

/-- Tokens that end an operand cannot occur in an expression. -/
theorem derives_inner {l : Level} {ts : Toks} {e : Expr} (h : Derives l ts e) :
    ∀ t ∈ ts, isEndOrSuffix t = false ∧ isRegister t = false ∧ t ≠ tok ',' ∧ t ≠ tok '#' ∧ t ≠ tok '[' ∧
      (∀ s, t ≠ .suffix s) := by
  have hname : ∀ id, ∀ t ∈ nameTokens id, isEndOrSuffix t = false ∧ isRegister t = false ∧ t ≠ tok ',' ∧
      t ≠ tok '#' ∧ t ≠ tok '[' ∧ (∀ s, t ≠ .suffix s) := by
    rintro ⟨_ | m, n⟩
    · simp [nameTokens, isEndOrSuffix, isEnd, isRegister]
    · cases m <;> simp [nameTokens, isEndOrSuffix, isEnd, isRegister]
  induction h with
  | lit v t => simp [isEndOrSuffix, isEnd, isRegister]
  | name id => exact hname id
  | longName id =>
    intro t ht
    rcases List.mem_cons.1 ht with rfl | ht
    · simp [isEndOrSuffix, isEnd, isRegister]
    · exact hname id t ht
  | paren _ ih =>
    intro t ht
    simp only [List.cons_append, List.mem_cons, List.mem_append, List.not_mem_nil, or_false] at ht
    rcases ht with rfl | ht | rfl
    · simp [isEndOrSuffix, isEnd, isRegister]
    · exact ih t ht
    · simp [isEndOrSuffix, isEnd, isRegister]
  | comp _ ih | factor _ ih | term _ ih => exact ih
  | neg _ ih | lowbyte _ ih | highbyte _ ih | bankbyte _ ih =>
    intro t ht
    rcases List.mem_cons.1 ht with rfl | ht
    · simp [isEndOrSuffix, isEnd, isRegister]
    · exact ih t ht
  | mul _ _ ih1 ih2 | div _ _ ih1 ih2 | plus _ _ ih1 ih2 | minus _ _ ih1 ih2 =>
    intro t ht
    simp only [List.mem_append, List.mem_cons] at ht
    rcases ht with ht | rfl | ht
    · exact ih1 t ht
    · simp [isEndOrSuffix, isEnd, isRegister]
    · exact ih2 t ht

/-- An expression that begins with a `(` begins with a parenthesised expression. -/
theorem derives_paren {l : Level} {ts : Toks} {e : Expr} (h : Derives l ts e) :
    ∃ t us, ts = t :: us ∧ (t = tok '(' → ∃ vs f rest, Derives .expr vs f ∧ ts = tok '(' :: vs ++ tok ')' :: rest) := by
  have ext : ∀ {ts us : Toks}, (∃ t r, ts = t :: r ∧ (t = tok '(' → ∃ vs f rest, Derives .expr vs f ∧
      ts = tok '(' :: vs ++ tok ')' :: rest)) → ∃ t r, ts ++ us = t :: r ∧ (t = tok '(' → ∃ vs f rest,
      Derives .expr vs f ∧ ts ++ us = tok '(' :: vs ++ tok ')' :: rest) := by
    rintro ts us ⟨t, r, rfl, h⟩
    refine ⟨t, r ++ us, rfl, fun ht => ?_⟩
    obtain ⟨vs, f, rest, hv, he⟩ := h ht
    exact ⟨vs, f, rest ++ us, hv, by rw [he]; simp⟩
  induction h with
  | lit v t => exact ⟨_, _, rfl, fun h => by cases h⟩
  | name id =>
    obtain ⟨t, us, h, ht⟩ := nameTokens_cons id
    refine ⟨t, us, h, ?_⟩
    rintro rfl
    rcases ht with ht | ⟨s, ht⟩ <;> cases ht
  | longName id => exact ⟨_, _, rfl, fun h => by cases h⟩
  | @paren ts e h ih => exact ⟨_, _, rfl, fun _ => ⟨ts, e, [], h, rfl⟩⟩
  | comp _ ih | factor _ ih | term _ ih => exact ih
  | neg _ ih | lowbyte _ ih | highbyte _ ih | bankbyte _ ih => exact ⟨_, _, rfl, fun h => by cases h⟩
  | mul _ _ ih1 ih2 | div _ _ ih1 ih2 | plus _ _ ih1 ih2 | minus _ _ ih1 ih2 => exact ext ih1

theorem follow_of_end {t : Token} (h : isEndOrSuffix t = true) : Follow t := by
  simp only [isEndOrSuffix, isEnd, Bool.or_eq_true, decide_eq_true_eq] at h
  rcases h with ((rfl | rfl) | rfl) | rfl <;> simp [Follow]

theorem follow_tok {c : Char} (h : c ∉ ['+', '-', '*', '/']) : Follow (tok c) := by
  simp only [List.mem_cons, List.not_mem_nil, or_false, not_or] at h
  simp [Follow, h]

theorem isLine_tok {c : Token} {ts : Toks} (hc : c ≠ .eol) (h : IsLine ts) : IsLine (c :: ts) := by
  obtain ⟨b, rfl, hb⟩ := h
  exact ⟨c :: b, rfl, by simp [hb, Ne.symm hc]⟩

/-- The instruction `create` makes. -/
theorem create_written {m : Mnemonic} {s : Suffix} {sm : SMode} {a b : Expr} {rc : ReturnConvention}
    {i : Instruction} (h : Written m s sm a b rc i) (ts : Toks) :
    create m s sm a b ts = .ok ({ i with ret := .default }, ts) := by
  obtain ⟨h1, h2, h3, h4, h5, h6, h7⟩ := h
  unfold create createInstruction
  rw [h1, Res.bind_ok, if_neg (by rintro ⟨h8, h9⟩; exact h7 h8 h9), Res.bind_ok]
  rcases i with ⟨im, is, imd, ia, ib, ir⟩
  simp only at h2 h3 h4 h5
  subst h2 h3 h4 h5
  rfl

theorem finish_end {m : Mnemonic} {s : Suffix} {sm : SMode} {a b : Expr} {u : Token} {us : Toks}
    (hu : isEndOrSuffix u = true) : finish m s sm a b (u :: us) = create m s sm a b (u :: us) := by
  simp [finish, confirmAtEndOrSuffix, atEndOrSuffix, front, hu]

theorem consume_tok {c : Char} {ts : Toks} : consume c (tok c :: ts) = .ok ts := by
  simp [consume, front]

theorem atEndOrSuffix_cons {t : Token} {ts : Toks} : atEndOrSuffix (t :: ts) = .ok (isEndOrSuffix t) := by
  simp [atEndOrSuffix, front]

theorem legal_tok {c : Char} {l : List Char} {ts : Toks} (h : c ∈ l) : confirmLegalRegister l (tok c :: ts) = .ok () := by
  simp [confirmLegalRegister, front, h]

theorem legal_inner {t : Token} {l : List Char} {ts : Toks} (h : isRegister t = false) :
    confirmLegalRegister l (t :: ts) = .ok () := by
  simp [confirmLegalRegister, front, h]

/-- The bare forms. -/
theorem bare_form {m : Mnemonic} {s : Suffix} {ts : Toks} {a : Expr} {u : Token} {us : Toks}
    (hd : Derives .expr ts a) (hl : IsLine (u :: us)) (hu : isEndOrSuffix u = true) :
    bare m s (ts ++ u :: us) = create m s .dir a .null (u :: us) ∧
    bare m s (ts ++ tok ',' :: tok 'X' :: u :: us) = create m s .dir_x a .null (u :: us) ∧
    bare m s (ts ++ tok ',' :: tok 'Y' :: u :: us) = create m s .dir_y a .null (u :: us) ∧
    bare m s (ts ++ tok ',' :: tok 'S' :: u :: us) = create m s .stk a .null (u :: us) := by
  have hx : ∀ c : Char, IsLine (tok ',' :: tok c :: u :: us) := fun c => isLine_tok (by simp) (isLine_tok (by simp) hl)
  have hc : Follow (tok ',') := follow_tok (by decide)
  have he : isEndOrSuffix (tok ',') = false := by decide
  refine ⟨?_, ?_, ?_, ?_⟩
  · unfold bare
    rw [C35_accepts_grammar ts a u us hd hl (follow_of_end hu), Res.bind_ok]
    simp only [atEndOrSuffix_cons, hu, Res.bind_ok, if_true]
  · unfold bare
    rw [C35_accepts_grammar ts a _ _ hd (hx 'X') hc, Res.bind_ok]
    simp only [atEndOrSuffix_cons, he, Res.bind_ok, Bool.false_eq_true, if_false, consume_tok]
    rw [legal_tok (by decide)]
    simp only [Res.bind_ok, front, if_true, List.tail_cons, finish_end hu]
  · unfold bare
    rw [C35_accepts_grammar ts a _ _ hd (hx 'Y') hc, Res.bind_ok]
    simp only [atEndOrSuffix_cons, he, Res.bind_ok, Bool.false_eq_true, if_false, consume_tok]
    rw [legal_tok (by decide)]
    have : ¬ (tok 'Y' = pc 'X') := by decide
    simp only [Res.bind_ok, front, this, if_true, if_false, List.tail_cons, finish_end hu]
  · unfold bare
    rw [C35_accepts_grammar ts a _ _ hd (hx 'S') hc, Res.bind_ok]
    simp only [atEndOrSuffix_cons, he, Res.bind_ok, Bool.false_eq_true, if_false, consume_tok]
    rw [legal_tok (by decide)]
    have h1 : ¬ (tok 'S' = pc 'X') := by decide
    have h2 : ¬ (tok 'S' = pc 'Y') := by decide
    simp only [Res.bind_ok, front, h1, h2, if_false, consume_tok, finish_end hu]

/-- Operands that begin with neither a mark nor a parenthesis read as indirection are
read as bare expressions. -/
theorem operand_bare {m : Mnemonic} {s : Suffix} {ts q : Toks} {a : Expr} (hd : Derives .expr ts a)
    (hq : ts ++ q ≠ [] → IsLine (ts ++ q))
    (hn : ∀ vs e rest, Derives .expr vs e → ts = tok '(' :: vs ++ tok ')' :: rest →
      ∃ t r, rest = t :: r ∧ t ≠ tok ',') :
    operand m s (ts ++ q) = bare m s (ts ++ q) := by
  obtain ⟨t, r, rfl, hp⟩ := derives_paren hd
  obtain ⟨i1, i2, i3, i4, i5, i6⟩ := derives_inner hd t (by simp)
  unfold operand
  rw [List.cons_append, atEndOrSuffix_cons, i1, Res.bind_ok]
  simp only [Bool.false_eq_true, if_false]
  rw [legal_inner i2]
  have hA : ¬ (t = pc 'A') := by rintro rfl; simp [isRegister] at i2
  simp only [Res.bind_ok, front, hA, i4, i5, if_false]
  by_cases ht : t = pc '('
  · rw [if_pos ht]
    obtain ⟨vs, f, rest, hv, he⟩ := hp ht
    have he' : t :: r ++ q = tok '(' :: vs ++ tok ')' :: (rest ++ q) := by rw [he]; simp
    obtain ⟨t', r', h1, h2⟩ := hn vs f rest hv he
    have h3 := (derives_inner hd t' (by rw [he, h1]; simp)).1
    have hline : IsLine (tok ')' :: (rest ++ q)) := by
      have := hq (by simp)
      rw [he'] at this
      exact isLine_suffix (p := tok '(' :: vs) this (by simp)
    unfold parenthesized
    have e0 : t :: (r ++ q) = tok '(' :: (vs ++ tok ')' :: (rest ++ q)) := by
      rw [← List.cons_append, he']; simp
    rw [e0, List.tail_cons, C35_accepts_grammar vs f _ _ hv hline (follow_tok (by decide)), Res.bind_ok]
    have n1 : ¬ (tok ')' = pc ',') := by decide
    simp only [front, Res.bind_ok, n1, if_true, if_false, List.tail_cons]
    rw [h1, List.cons_append, atEndOrSuffix_cons, h3, Res.bind_ok]
    simp only [Bool.false_eq_true, if_false, front, Res.bind_ok]
    rw [if_neg h2]
  · rw [if_neg ht]

theorem operand_mark {m : Mnemonic} {s : Suffix} {c : Char} {q : Toks} (h1 : isEndOrSuffix (tok c) = false)
    (h2 : isRegister (tok c) = false) : operand m s (tok c :: q) =
      if tok c = pc '#' then immediate m s q
      else if tok c = pc '[' then bracketed m s q
      else if tok c = pc '(' then parenthesized m s (tok c :: q)
      else bare m s (tok c :: q) := by
  unfold operand
  rw [atEndOrSuffix_cons, h1, Res.bind_ok]
  simp only [Bool.false_eq_true, if_false]
  rw [legal_inner h2]
  have hA : ¬ (tok c = pc 'A') := by intro h; rw [h] at h2; simp [isRegister] at h2
  simp only [Res.bind_ok, front, hA, if_false, List.tail_cons]

/-- An operand of the grammar, followed by the end of the statement or a return
convention, is read as the grammar says. -/
theorem operand_accepts {m : Mnemonic} {s : Suffix} {ts : Toks} {sm : SMode} {a b : Expr} {u : Token} {us : Toks}
    (h : Operand ts sm a b) (hn : NotIndirect ts sm) (hl : IsLine (u :: us)) (hu : isEndOrSuffix u = true) :
    operand m s (ts ++ u :: us) = create m s sm a b (u :: us) := by
  have hF := follow_of_end hu
  have line : ∀ {c : Char} {ts : Toks}, IsLine ts → IsLine (tok c :: ts) := fun h => isLine_tok (by simp) h
  have dline : ∀ {l : Level} {ts q : Toks} {e : Expr}, Derives l ts e → IsLine q → IsLine (ts ++ q) := by
    rintro l ts q e hd ⟨b, rfl, hb⟩
    exact ⟨ts ++ b, by simp, by simp [hb, derives_no_eol hd]⟩
  have comma : isEndOrSuffix (tok ',') = false := by decide
  have indexed : ∀ {ts : Toks} {e : Expr} {c : Char}, Derives .expr ts e → (∀ vs e rest, Derives .expr vs e →
      ts ++ [tok ',', tok c] = tok '(' :: vs ++ tok ')' :: rest → ∃ t r, rest = t :: r ∧ t ≠ tok ',') →
      operand m s (ts ++ [tok ',', tok c] ++ u :: us) = bare m s (ts ++ tok ',' :: tok c :: u :: us) := by
    intro ts e c hd hn
    have e1 : ts ++ [tok ',', tok c] ++ u :: us = ts ++ tok ',' :: tok c :: u :: us := by simp
    rw [e1]
    refine operand_bare hd (fun _ => dline hd (line (line hl))) (fun vs f rest hv he => ?_)
    obtain ⟨t, r, h1, h2⟩ := hn vs f (rest ++ [tok ',', tok c]) hv (by rw [he]; simp)
    cases rest with
    | nil => cases h1; exact absurd rfl h2
    | cons x rest => cases h1; exact ⟨_, _, rfl, h2⟩
  cases h with
  | imp =>
    unfold operand
    rw [List.nil_append, atEndOrSuffix_cons, hu, Res.bind_ok, if_pos rfl]
  | acc =>
    unfold operand
    have h1 : isEndOrSuffix (tok 'A') = false := by decide
    rw [List.cons_append, List.nil_append, atEndOrSuffix_cons, h1, Res.bind_ok]
    simp only [Bool.false_eq_true, if_false]
    rw [legal_tok (by decide)]
    simp only [Res.bind_ok, front, if_true, List.tail_cons, finish_end hu]
  | imm hd =>
    rw [List.cons_append, operand_mark (by decide) (by decide), if_pos rfl]
    unfold immediate
    rw [C35_accepts_grammar _ _ u us hd hl hF, Res.bind_ok]
    simp only [atEndOrSuffix_cons, hu, Res.bind_ok, if_true]
  | @mov ts us' a b hd hd' =>
    have e : tok '#' :: ts ++ tok ',' :: tok '#' :: us' ++ u :: us =
        tok '#' :: (ts ++ tok ',' :: (tok '#' :: (us' ++ u :: us))) := by simp
    rw [e, operand_mark (by decide) (by decide), if_pos rfl]
    unfold immediate
    rw [C35_accepts_grammar _ _ _ _ hd (line (line (dline hd' hl))) (follow_tok (by decide)), Res.bind_ok]
    simp only [atEndOrSuffix_cons, comma, Res.bind_ok, Bool.false_eq_true, if_false, consume_tok]
    rw [C35_accepts_grammar _ _ u us hd' hl hF, Res.bind_ok]
    exact finish_end hu
  | @lng ts a hd =>
    have e : tok '[' :: ts ++ [tok ']'] ++ u :: us = tok '[' :: (ts ++ tok ']' :: (u :: us)) := by simp
    rw [e, operand_mark (by decide) (by decide), if_neg (by decide), if_pos rfl]
    unfold bracketed
    rw [C35_accepts_grammar _ _ _ _ hd (line hl) (follow_tok (by decide)), Res.bind_ok]
    simp only [consume_tok, atEndOrSuffix_cons, hu, Res.bind_ok, if_true]
  | @lng_y ts a hd =>
    have e : tok '[' :: ts ++ [tok ']', tok ',', tok 'Y'] ++ u :: us =
        tok '[' :: (ts ++ tok ']' :: (tok ',' :: (tok 'Y' :: u :: us))) := by simp
    rw [e, operand_mark (by decide) (by decide), if_neg (by decide), if_pos rfl]
    unfold bracketed
    rw [C35_accepts_grammar _ _ _ _ hd (line (line (line hl))) (follow_tok (by decide)), Res.bind_ok]
    simp only [consume_tok, atEndOrSuffix_cons, comma, Res.bind_ok, Bool.false_eq_true, if_false]
    rw [legal_tok (by decide)]
    simp only [Res.bind_ok, consume_tok, finish_end hu]
  | @ind ts a hd =>
    have e : tok '(' :: ts ++ [tok ')'] ++ u :: us = tok '(' :: (ts ++ tok ')' :: (u :: us)) := by simp
    rw [e, operand_mark (by decide) (by decide), if_neg (by decide), if_neg (by decide), if_pos rfl]
    unfold parenthesized
    rw [List.tail_cons, C35_accepts_grammar _ _ _ _ hd (line hl) (follow_tok (by decide)), Res.bind_ok]
    have n1 : ¬ (tok ')' = pc ',') := by decide
    simp only [front, Res.bind_ok, n1, if_true, if_false, List.tail_cons, atEndOrSuffix_cons, hu]
  | @ind_x ts a hd =>
    have e : tok '(' :: ts ++ [tok ',', tok 'X', tok ')'] ++ u :: us =
        tok '(' :: (ts ++ tok ',' :: (tok 'X' :: (tok ')' :: u :: us))) := by simp
    rw [e, operand_mark (by decide) (by decide), if_neg (by decide), if_neg (by decide), if_pos rfl]
    unfold parenthesized
    rw [List.tail_cons, C35_accepts_grammar _ _ _ _ hd (line (line (line hl))) (follow_tok (by decide)), Res.bind_ok]
    simp only [front, Res.bind_ok, if_true, List.tail_cons]
    unfold indirectComma
    rw [legal_tok (by decide)]
    simp only [front, Res.bind_ok, if_true, List.tail_cons, consume_tok, finish_end hu]
  | @ind_y ts a hd =>
    have e : tok '(' :: ts ++ [tok ')', tok ',', tok 'Y'] ++ u :: us =
        tok '(' :: (ts ++ tok ')' :: (tok ',' :: (tok 'Y' :: u :: us))) := by simp
    rw [e, operand_mark (by decide) (by decide), if_neg (by decide), if_neg (by decide), if_pos rfl]
    unfold parenthesized
    rw [List.tail_cons, C35_accepts_grammar _ _ _ _ hd (line (line (line hl))) (follow_tok (by decide)), Res.bind_ok]
    have n1 : ¬ (tok ')' = pc ',') := by decide
    simp only [front, Res.bind_ok, n1, if_true, if_false, List.tail_cons, atEndOrSuffix_cons, comma, Bool.false_eq_true]
    rw [legal_tok (by decide)]
    simp only [Res.bind_ok, consume_tok, finish_end hu]
  | @stk_y ts a hd =>
    have e : tok '(' :: ts ++ [tok ',', tok 'S', tok ')', tok ',', tok 'Y'] ++ u :: us =
        tok '(' :: (ts ++ tok ',' :: (tok 'S' :: (tok ')' :: (tok ',' :: (tok 'Y' :: u :: us))))) := by simp
    rw [e, operand_mark (by decide) (by decide), if_neg (by decide), if_neg (by decide), if_pos rfl]
    unfold parenthesized
    rw [List.tail_cons, C35_accepts_grammar _ _ _ _ hd (line (line (line (line (line hl))))) (follow_tok (by decide)), Res.bind_ok]
    simp only [front, Res.bind_ok, if_true, List.tail_cons]
    unfold indirectComma
    rw [legal_tok (by decide)]
    have n1 : ¬ (tok 'S' = pc 'X') := by decide
    simp only [front, Res.bind_ok, n1, if_false, consume_tok]
    rw [legal_tok (by decide)]
    simp only [Res.bind_ok, consume_tok, finish_end hu]
  | dir hd => rw [operand_bare hd (fun _ => dline hd hl) hn, (bare_form hd hl hu).1]
  | dir_x hd => rw [indexed hd hn, (bare_form hd hl hu).2.1]
  | dir_y hd => rw [indexed hd hn, (bare_form hd hl hu).2.2.1]
  | stk hd => rw [indexed hd hn, (bare_form hd hl hu).2.2.2]

/-- The first token of an operand, a return convention and what follows is no suffix. -/
theorem operand_head {ts : Toks} {sm : SMode} {a b : Expr} (h : Operand ts sm a b) :
    ts = [] ∨ ∃ t us, ts = t :: us ∧ ∀ s, t ≠ .suffix s := by
  have d : ∀ {l : Level} {ts q : Toks} {e : Expr}, Derives l ts e → ∃ t us, ts ++ q = t :: us ∧ ∀ s, t ≠ .suffix s := by
    intro l ts q e hd
    obtain ⟨t, us, rfl, -⟩ := derives_paren hd
    exact ⟨t, us ++ q, rfl, (derives_inner hd t (by simp)).2.2.2.2.2⟩
  cases h with
  | imp => exact .inl rfl
  | dir hd => exact .inr (by simpa using d (q := []) hd)
  | dir_x hd | dir_y hd | stk hd => exact .inr (d hd)
  | _ => exact .inr ⟨_, _, rfl, fun s h => by cases h⟩

theorem convention_accepts {ts : Toks} {rc : ReturnConvention} {u : Token} {us : Toks} (h : Convention ts rc)
    (hu : isEnd u = true) : returnConvention (ts ++ u :: us) = .ok (rc, u :: us) := by
  cases h with
  | absent =>
    rcases isEnd_cases hu with rfl | rfl <;> rfl
  | noreturn => rfl
  | yields hf => simp [returnConvention, front, mode, hf]

theorem convention_end {ts : Toks} {rc : ReturnConvention} {u : Token} {us : Toks} (h : Convention ts rc)
    (hu : isEnd u = true) (hl : IsLine (u :: us)) :
    ∃ t r, ts ++ u :: us = t :: r ∧ isEndOrSuffix t = true ∧ IsLine (t :: r) ∧ ∀ s, t ≠ .suffix s := by
  cases h with
  | absent =>
    refine ⟨u, us, rfl, by simp [isEndOrSuffix, hu], hl, ?_⟩
    rintro s rfl
    cases hu
  | noreturn => exact ⟨_, _, rfl, by decide, isLine_tok (by simp) hl, by simp⟩
  | yields hf => exact ⟨_, _, rfl, by decide, isLine_tok (by simp) (isLine_tok (by simp) hl), by simp⟩

theorem instruction_accepts {m : Mnemonic} {ss : Toks} {s : Suffix} {ts : Toks} {sm : SMode} {a b : Expr} {cs : Toks}
    {rc : ReturnConvention} {i : Instruction} {u : Token} {us : Toks} (h1 : SuffixForm ss s) (h2 : Operand ts sm a b)
    (h3 : NotIndirect ts sm) (h4 : Convention cs rc) (h5 : rc ≠ .default → m = .jsr ∨ m = .jsl)
    (h6 : Written m s sm a b rc i) (hu : isEnd u = true) (hl : IsLine (u :: us)) :
    instruction (.mnem m :: ss ++ ts ++ cs ++ u :: us) = .ok (i, u :: us) := by
  obtain ⟨t, r, e1, e2, e3, e4⟩ := convention_end h4 hu hl
  have hop : operand m s (ts ++ t :: r) = .ok ({ i with ret := .default }, t :: r) := by
    rw [operand_accepts h2 h3 e3 e2, create_written h6]
  have hcore : instructionCore (.mnem m :: ss ++ ts ++ cs ++ u :: us) = .ok ({ i with ret := .default }, t :: r) := by
    have e : Token.mnem m :: ss ++ ts ++ cs ++ u :: us = .mnem m :: (ss ++ (ts ++ t :: r)) := by
      rw [← e1]; simp
    rw [e]
    unfold instructionCore
    simp only [front, Res.bind_ok, List.tail_cons]
    cases h1 with
    | present => simp only [List.cons_append, List.nil_append, Res.bind_ok, List.tail_cons, hop]
    | absent =>
      have hh : ∃ x y, ts ++ t :: r = x :: y ∧ ∀ s, x ≠ .suffix s := by
        rcases operand_head h2 with rfl | ⟨x, y, rfl, hx⟩
        · exact ⟨t, r, rfl, e4⟩
        · exact ⟨x, y ++ t :: r, rfl, hx⟩
      obtain ⟨x, y, hxy, hx⟩ := hh
      rw [hxy] at hop
      rw [List.nil_append, hxy]
      simp only [Res.bind_ok]
      cases x with
      | suffix s => exact absurd rfl (hx s)
      | _ => exact hop
  unfold instruction
  rw [hcore, Res.bind_ok]
  simp only [← e1]
  rw [convention_accepts h4 hu, Res.bind_ok]
  obtain ⟨w1, w2, w3, w4, w5, w6, w7⟩ := h6
  simp only
  rw [if_neg, ← w6]
  rintro ⟨n1, n2, n3⟩
  rcases h5 n1 with h | h <;> rw [← w2] at h
  · exact n3 h
  · exact n2 h

theorem confirmAtEnd_end {u : Token} {us : Toks} (hu : isEnd u = true) : confirmAtEnd (u :: us) = .ok () := by
  simp [confirmAtEnd, atEnd, front, hu]

theorem atEnd_end {u : Token} {us : Toks} (hu : isEnd u = true) : atEnd (u :: us) = .ok true := by
  simp [atEnd, front, hu]

theorem follow_end {u : Token} (hu : isEnd u = true) : Follow u := follow_of_end (by simp [isEndOrSuffix, hu])

theorem exprList_no_eol {ts : Toks} {es : List Expr} (h : ExprList ts es) : Token.eol ∉ ts := by
  induction h with
  | one h => exact derives_no_eol h
  | cons h _ ih => simp [derives_no_eol h, ih]

theorem isLine_append {p q : Toks} (hp : Token.eol ∉ p) (h : IsLine q) : IsLine (p ++ q) := by
  obtain ⟨b, rfl, hb⟩ := h
  exact ⟨p ++ b, by simp, by simp [hb, hp]⟩

theorem exprList_accepts {ts : Toks} {es : List Expr} (h : ExprList ts es) {u : Token} {us : Toks}
    (hu : isEnd u = true) (hl : IsLine (u :: us)) : ∀ n, ts.length < n → exprList n (ts ++ u :: us) = .ok (es, u :: us) := by
  induction h with
  | one hd =>
    intro n hn
    cases n with
    | zero => omega
    | succ n =>
      rw [exprList, C35_accepts_grammar _ _ u us hd hl (follow_end hu), Res.bind_ok]
      simp only [atEnd_end hu, Res.bind_ok, if_true]
  | @cons ts us' a as hd hr ih =>
    intro n hn
    cases n with
    | zero => omega
    | succ n =>
      rw [List.append_assoc, List.cons_append, exprList,
        C35_accepts_grammar _ _ _ _ hd (isLine_tok (by simp) (isLine_append (exprList_no_eol hr) hl)) (follow_tok (by decide)),
        Res.bind_ok]
      have e : atEnd (tok ',' :: (us' ++ u :: us)) = .ok false := by simp [atEnd, front, isEnd]
      simp only [e, Res.bind_ok, Bool.false_eq_true, if_false, consume_tok]
      rw [ih n (by simp at hn; omega), Res.bind_ok]

theorem directiveFlags_accepts {d : DirectiveName} {a : Expr} {n : Str} {f : StatusFlags} {ts : Toks}
    {rc : ReturnConvention} {u : Token} {us : Toks} (hf : StatusFlags.fromName n = some f) (hc : Convention ts rc)
    (hd : d.type = .flag_arg → ts = []) (hu : isEnd u = true) :
    directiveFlags d a (.ident n :: ts ++ u :: us) = .ok (⟨d, a, f, rc, []⟩, u :: us) := by
  unfold directiveFlags
  have hm : mode (.ident n :: ts ++ u :: us) = .ok (f, ts ++ u :: us) := by simp [mode, front, hf]
  rw [hm, Res.bind_ok]
  simp only
  by_cases ht : d.type = .flag_arg
  · rw [if_pos ht, hd ht, List.nil_append, confirmAtEnd_end hu]
    have := hd ht
    subst this
    have hca := convention_accepts (us := us) hc hu
    rw [List.nil_append] at hca
    simp only [Res.bind_ok, hca, confirmAtEnd_end hu]
  · rw [if_neg ht, convention_accepts hc hu, Res.bind_ok]
    simp only [confirmAtEnd_end hu, Res.bind_ok]

theorem directive_accepts {d : DirectiveName} {ts : Toks} {st : Directive} {u : Token} {us : Toks}
    (h : DirectiveForm d ts st) (hu : isEnd u = true) (hl : IsLine (u :: us)) :
    directive d (ts ++ u :: us) = .ok (st, u :: us) := by
  cases h with
  | none hd =>
    unfold directive
    rw [hd]
    simp only [List.nil_append, confirmAtEnd_end hu, Res.bind_ok]
  | @expr _ a hd hx hc hn =>
    have key : directiveArg d (ts ++ u :: us) = .ok (⟨d, a, .default, .default, []⟩, u :: us) := by
      unfold directiveArg
      rw [C35_accepts_grammar _ _ u us hx hl (follow_end hu), Res.bind_ok]
      simp only
      rw [if_neg (by rintro ⟨h1, h2⟩; rw [hc h1] at h2; cases h2), if_neg (by rintro ⟨h1, h2⟩; exact hn h1 h2),
        confirmAtEnd_end hu, Res.bind_ok]
    unfold directive
    rcases hd with hd | hd | hd <;> rw [hd] <;> exact key
  | list hd hx =>
    unfold directive
    rw [hd]
    simp only
    rw [exprList_accepts hx hu hl _ (by simp; omega), Res.bind_ok]
  | flags hd hf =>
    unfold directive
    rw [hd]
    exact directiveFlags_accepts hf .absent (fun _ => rfl) hu
  | convention hd hf hc =>
    unfold directive
    rw [hd]
    exact directiveFlags_accepts hf hc (fun h => by rw [hd] at h; cases h) hu
  | @remote ts a n f us' rc hd hx hf hc =>
    unfold directive
    rw [hd]
    have hconv : Token.eol ∉ us' := by cases hc <;> simp
    simp only [List.append_assoc, List.cons_append]
    rw [C35_accepts_grammar _ _ (.ident n) (us' ++ u :: us) hx (isLine_tok (by simp) (isLine_append hconv hl)) (by simp [Follow]),
      Res.bind_ok]
    exact directiveFlags_accepts hf hc (fun h => by rw [hd] at h; cases h) hu

theorem statement_accepts {ts : Toks} {st : Statement} {u : Token} {us : Toks} (h : StatementForm ts st)
    (hu : isEnd u = true) (hl : IsLine (u :: us)) : lineStatement (ts ++ u :: us) = .ok (some (st, us)) := by
  cases h with
  | @instr m ss s ts sm a b cs rc i h1 h2 h3 h4 h5 h6 =>
    have hi := instruction_accepts h1 h2 h3 h4 h5 h6 hu hl
    unfold lineStatement
    simp only [List.cons_append, List.append_assoc, front, Res.bind_ok] at hi ⊢
    rw [if_neg (by simp [isEnd])]
    simp only [hi, Res.bind_ok, atEnd_end hu, Bool.not_true, Bool.false_eq_true, if_false, List.tail_cons]
  | @dir d ts st h =>
    have hi := directive_accepts h hu hl
    unfold lineStatement
    simp only [List.cons_append, front, Res.bind_ok, List.tail_cons]
    rw [if_neg (by simp [isEnd])]
    simp only [hi, Res.bind_ok, atEnd_end hu, Bool.not_true, Bool.false_eq_true, if_false, List.tail_cons]

theorem lineLabel_colon (l : ParsedLabel) (ts : Toks) :
    lineLabel (labelTokens l ++ tok ':' :: ts) = .ok (some l, true, ts) := by
  rcases l with ⟨n, _ | _⟩ <;> simp [labelTokens, lineLabel, labelAt, front]

theorem lineLabel_plain (l : ParsedLabel) {t : Token} {ts : Toks} (ht : t ≠ tok ':') :
    lineLabel (labelTokens l ++ t :: ts) = .ok (some l, false, t :: ts) := by
  rcases l with ⟨n, _ | _⟩ <;> simp [labelTokens, lineLabel, labelAt, front, ht]

theorem lineLabel_none {t : Token} {ts : Toks} (h1 : ∀ s, t ≠ .ident s) (h2 : t ≠ .punct .export_) :
    lineLabel (t :: ts) = .ok (none, false, t :: ts) := by
  unfold lineLabel
  simp only [front, Res.bind_ok, h2, if_false]
  unfold labelAt
  simp only [front, Res.bind_ok]
  cases t with
  | ident s => exact absurd rfl (h1 s)
  | _ => rfl

/-- A label, if there is one, before something that is neither a name nor a `:`. -/
theorem lineLabel_form {ls : Toks} {li : List Item} (h : LabelForm ls li) {t : Token} {ts : Toks}
    (h1 : ∀ s, t ≠ .ident s) (h2 : t ≠ .punct .export_) (h3 : t ≠ tok ':') :
    ∃ o, lineLabel (ls ++ t :: ts) = .ok (o, false, t :: ts) ∧ (o.map Item.label).toList = li := by
  cases h with
  | absent => exact ⟨none, lineLabel_none h1 h2, rfl⟩
  | present l => exact ⟨some l, lineLabel_plain l h3, rfl⟩

theorem labelForm_no_eol {ls : Toks} {li : List Item} (h : LabelForm ls li) : Token.eol ∉ ls := by
  cases h with
  | absent => simp
  | present l => rcases l with ⟨n, _ | _⟩ <;> simp [labelTokens]

theorem labelTokens_no_eol (l : ParsedLabel) : Token.eol ∉ labelTokens l := labelForm_no_eol (.present l)

theorem statementForm_head {ts : Toks} {st : Statement} (h : StatementForm ts st) :
    ∃ t us, ts = t :: us ∧ (∀ s, t ≠ .ident s) ∧ t ≠ .punct .export_ ∧ t ≠ tok ':' := by
  cases h with
  | instr => exact ⟨_, _, by simp only [List.cons_append]; rfl, by simp, by simp, by simp⟩
  | dir => exact ⟨_, _, rfl, by simp, by simp, by simp⟩

theorem statementForm_no_eol {ts : Toks} {st : Statement} (h : StatementForm ts st) : Token.eol ∉ ts := by
  have hc : ∀ {ts rc}, Convention ts rc → Token.eol ∉ ts := by intro ts rc h; cases h <;> simp
  cases h with
  | instr h1 h2 _ h4 _ _ =>
    have e1 : Token.eol ∉ (_ : Toks) := hc h4
    have e2 : ∀ {ss s}, SuffixForm ss s → Token.eol ∉ ss := by intro ss s h; cases h <;> simp
    have e3 : ∀ {ts sm a b}, Operand ts sm a b → Token.eol ∉ ts := by
      intro ts sm a b h
      cases h with
      | imp => simp
      | acc => simp
      | mov h h' => simp [derives_no_eol h, derives_no_eol h']
      | imm h | lng h | lng_y h | ind h | ind_x h | ind_y h | stk_y h | dir h | dir_x h | dir_y h | stk h =>
        simp [derives_no_eol h]
    simp [e1, e2 h1, e3 h2]
  | dir h =>
    cases h with
    | none => simp
    | expr _ h => simp [derives_no_eol h]
    | list _ h => simp [exprList_no_eol h]
    | flags => simp
    | convention _ _ h => simp [hc h]
    | remote _ h _ h' => simp [hc h', derives_no_eol h]

theorem lineForm_isLine {ts : Toks} {is : List Item} (h : LineForm ts is) : IsLine ts := by
  induction h with
  | done => exact ⟨[], rfl, by simp⟩
  | label _ ih => exact isLine_append (labelTokens_no_eol _) (isLine_tok (by simp) ih)
  | lastLabel l => exact ⟨labelTokens l, rfl, labelTokens_no_eol l⟩
  | stmt hl hs _ ih =>
    rw [List.append_assoc]
    exact isLine_append (labelForm_no_eol hl) (isLine_append (statementForm_no_eol hs) (isLine_tok (by simp) ih))
  | last hl hs => exact ⟨_, rfl, by simp [labelForm_no_eol hl, statementForm_no_eol hs]⟩
  | opening hl _ ih => exact isLine_append (labelForm_no_eol hl) (isLine_tok (by simp) ih)
  | closing hl _ ih => exact isLine_append (labelForm_no_eol hl) (isLine_tok (by simp) ih)

theorem parseLoop_stmt {ls : Toks} {li : List Item} (hl : LabelForm ls li) {t : Token} {r us : Toks} {st : Statement} {n : Nat}
    {is : List Item} (h1 : ∀ s, t ≠ .ident s) (h2 : t ≠ .punct .export_) (h3 : t ≠ tok ':')
    (hs : lineStatement (t :: r) = .ok (some (st, us))) (hr : parseLoop n us = .ok is) :
    parseLoop (n + 1) (ls ++ t :: r) = .ok (li ++ .stmt st :: is) := by
  obtain ⟨o, ho, hli⟩ := lineLabel_form hl (ts := r) h1 h2 h3
  rw [parseLoop, if_neg (by simp), ho, Res.bind_ok]
  simp only [Bool.false_eq_true, if_false, hs, Res.bind_ok, hr, hli]

/-- Every line of the grammar is accepted, with the items the grammar gives. -/
theorem parseLoop_accepts {ts : Toks} {is : List Item} (h : LineForm ts is) : ∀ n, ts.length < n →
    parseLoop n ts = .ok is := by
  induction h with
  | done =>
    intro n hn
    cases n with
    | zero => omega
    | succ n => rfl
  | @label l ts is hr ih =>
    intro n hn
    cases n with
    | zero => omega
    | succ n =>
      rw [parseLoop, if_neg (by simp), lineLabel_colon, Res.bind_ok]
      simp only [if_true]
      rw [ih n (by simp at hn; omega)]
      rfl
  | lastLabel l =>
    intro n hn
    cases n with
    | zero => omega
    | succ n =>
      rw [parseLoop, if_neg (by simp), lineLabel_plain l (by simp), Res.bind_ok]
      rfl
  | @stmt ls li ts st us is hl hs hr ih =>
    intro n hn
    cases n with
    | zero => omega
    | succ n =>
      have h1 := statement_accepts hs (u := tok ':') (us := us) (by decide) (isLine_tok (by simp) (lineForm_isLine hr))
      obtain ⟨t, r, rfl, e1, e2, e3⟩ := statementForm_head hs
      rw [List.append_assoc]
      exact parseLoop_stmt hl e1 e2 e3 h1 (ih n (by simp at hn; omega))
  | @last ls li ts st hl hs =>
    intro n hn
    cases n with
    | zero => omega
    | succ n =>
      have h1 := statement_accepts hs (u := .eol) (us := []) (by decide) ⟨[], rfl, by simp⟩
      obtain ⟨t, r, rfl, e1, e2, e3⟩ := statementForm_head hs
      rw [List.append_assoc]
      refine parseLoop_stmt hl e1 e2 e3 h1 ?_
      cases n with
      | zero => simp at hn
      | succ n => rfl
  | opening hl hr ih =>
    intro n hn
    cases n with
    | zero => omega
    | succ n => exact parseLoop_stmt hl (by simp) (by simp) (by simp) rfl (ih n (by simp at hn; omega))
  | closing hl hr ih =>
    intro n hn
    cases n with
    | zero => omega
    | succ n => exact parseLoop_stmt hl (by simp) (by simp) (by simp) rfl (ih n (by simp at hn; omega))

end Nsasm.Props
