import Verif.Lemmas.Parse
import Verif.Props.Token

/-! # C34–C36: the parser -/

namespace Nsasm.Props
open Nsasm Nsasm.Spec Nsasm.Parse

/-! ## C34 -/

/-- **C34.** Parsing the tokens of a line never looks at a token beyond
end-of-line, and finishes: no step bound of the model is ever reached. -/
theorem C34_stays_on_line (ts : List Token) (h : IsLine ts) :
    parse ts ≠ .ub .emptyAccess ∧ parse ts ≠ .err .steps := by
  have := parseLoop_safe (ts.length + 1) (.inr h) (Nat.lt_succ_self _)
  unfold parse
  cases hp : parseLoop (ts.length + 1) ts with
  | ok r => simp
  | err e => rw [hp] at this; simp; exact this
  | ub u => rw [hp] at this; simp; exact this

/-- **C34.** The same from source text. -/
theorem C34_source_line (s : Str) (ts : List Token) (h : tokenize s = .ok ts) :
    parse ts ≠ .ub .emptyAccess ∧ parse ts ≠ .err .steps :=
  C34_stays_on_line ts ((C32_one_end_of_line s).2 ts h)

/-- Why C34 speaks of end-of-line only: an operand whose constant value overflows
makes the parser itself execute undefined behaviour. -/
theorem C34_overflow_while_parsing :
    ∃ s ts, tokenize s = .ok ts ∧ parse ts = .ub .overflow :=
  ⟨cs!"rep #2147483647+1", _, rfl, by decide +kernel⟩

/-- A token list without end-of-line does run off its end, so the hypothesis of
`C34_stays_on_line` is needed. -/
example : parse [.mnem .lda] = .ub .emptyAccess := by decide +kernel

example : IsLine [.ident cs!"x", .mnem .nop, .eol] :=
  ⟨[.ident cs!"x", .mnem .nop], rfl, by decide⟩

/-! ## C35 -/

/-- The token can follow an expression: it is not an operator or `::`. -/
def Follow (t : Token) : Prop := t ∉ [tok '+', tok '-', tok '*', tok '/', .punct .scope]

theorem done_ok {α : Type} {a : α} {x : Res α} (h : x = .ok a) : Done x := by simp [h, Done]

theorem nameTokens_compIdent (id : FullId) (t : NumericType) {rest : Toks} {u : Token} {us : Toks}
    (hr : rest = u :: us) (hu : u ≠ .punct .scope) :
    compIdent t (nameTokens id ++ rest) = .ok (some (.ident id t, rest)) := by
  subst hr
  rcases id with ⟨_ | m, n⟩
  · simp [nameTokens, compIdent, front, hu]
  · cases m with
    | nil => simp [nameTokens, compIdent, front, identifier]
    | cons c m => simp [nameTokens, compIdent, front, identifier]

theorem nameTokens_cons (id : FullId) : ∃ t ts, nameTokens id = t :: ts ∧
    (t = .punct .scope ∨ ∃ s, t = .ident s) := by
  rcases id with ⟨_ | m, n⟩
  · exact ⟨_, _, rfl, .inr ⟨_, rfl⟩⟩
  · cases m with
    | nil => exact ⟨_, _, rfl, .inl rfl⟩
    | cons c m => exact ⟨_, _, rfl, .inr ⟨_, rfl⟩⟩

theorem comp_head {ts : Toks} {e : Expr} (h : Derives .comp ts e) :
    ∃ t us, ts = t :: us ∧ unaryOp t = none := by
  generalize hl : Level.comp = l at h
  cases h <;> try (cases hl; done)
  · exact ⟨_, _, rfl, rfl⟩
  · next id =>
    obtain ⟨t, ts, h1, h2⟩ := nameTokens_cons id
    refine ⟨t, ts, h1, ?_⟩
    rcases h2 with rfl | ⟨s, rfl⟩ <;> rfl
  · exact ⟨_, _, rfl, rfl⟩
  · exact ⟨_, _, rfl, rfl⟩

/-- What the parser does on a derivable token list followed by `rest`. -/
def Accepts : Level → Toks → Expr → Prop
  | .comp, ts, e => ∀ u us, u ≠ .punct .scope → ∃ n, comp n (ts ++ u :: us) = .ok (e, u :: us)
  | .factor, ts, e => ∀ u us, u ≠ .punct .scope → ∃ n, factor n (ts ++ u :: us) = .ok (e, u :: us)
  | .term, ts, e => ∀ u us r, u ≠ .punct .scope → (∃ n, termLoop n e (u :: us) = .ok r) →
      ∃ n, term n (ts ++ u :: us) = .ok r
  | .expr, ts, e => ∀ u us r, u ≠ .punct .scope → mulOp u = none →
      (∃ n, exprLoop n e (u :: us) = .ok r) → ∃ n, expr n (ts ++ u :: us) = .ok r

theorem termLoop_stop {e : Expr} {u : Token} {us : Toks} (h : mulOp u = none) :
    termLoop 1 e (u :: us) = .ok (e, u :: us) := by
  simp only [termLoop, front, Res.bind_ok, h]
  split <;> rfl

theorem exprLoop_stop {e : Expr} {u : Token} {us : Toks} (h : addOp u = none) :
    exprLoop 1 e (u :: us) = .ok (e, u :: us) := by
  simp only [exprLoop, front, Res.bind_ok, h]
  split <;> rfl

theorem accepts_unary {ts : Toks} {e : Expr} {c : Char} {op : UnOp}
    (hop : unaryOp (tok c) = some op) (ih : Accepts .factor ts e) :
    Accepts .factor (tok c :: ts) (.un op e) := by
  intro u us hu
  obtain ⟨n, hn⟩ := ih u us hu
  refine ⟨n + 1, ?_⟩
  have hop' : unaryOp (.punct (.ch c)) = some op := hop
  simp [factor, front, hop', hn]

theorem accepts_mul {ts us : Toks} {e f : Expr} {c : Char} {op : BinOp}
    (hop : mulOp (tok c) = some op) (hc : c ≠ ':')
    (ih1 : Accepts .term ts e) (ih2 : Accepts .factor us f) :
    Accepts .term (ts ++ tok c :: us) (.bin op e f) := by
  intro u vs r hu ⟨n, hn⟩
  rw [List.append_assoc]
  refine ih1 (tok c) (us ++ u :: vs) r (by simp) ?_
  obtain ⟨m, hm⟩ := ih2 u vs hu
  refine ⟨max n m + 1, ?_⟩
  have hop' : mulOp (.punct (.ch c)) = some op := hop
  have hend : isEnd (.punct (.ch c)) = false := by simp [isEnd, hc]
  simp only [termLoop, front, Res.bind_ok, hop', hend, List.tail_cons]
  rw [factor_mono (done_ok hm) (Nat.le_max_right n m), hm]
  simp only [Res.bind_ok]
  rw [termLoop_mono (done_ok hn) (Nat.le_max_left n m), hn]
  rfl

theorem accepts_add {ts us : Toks} {e f : Expr} {c : Char} {op : BinOp}
    (hop : addOp (tok c) = some op) (hmul : mulOp (tok c) = none) (hc : c ≠ ':')
    (ih1 : Accepts .expr ts e) (ih2 : Accepts .term us f) :
    Accepts .expr (ts ++ tok c :: us) (.bin op e f) := by
  intro u vs r hu hmu ⟨n, hn⟩
  rw [List.append_assoc]
  refine ih1 (tok c) (us ++ u :: vs) r (by simp) hmul ?_
  obtain ⟨m, hm⟩ := ih2 u vs (f, u :: vs) hu ⟨1, termLoop_stop hmu⟩
  refine ⟨max n m + 1, ?_⟩
  have hop' : addOp (.punct (.ch c)) = some op := hop
  have hend : isEnd (.punct (.ch c)) = false := by simp [isEnd, hc]
  simp only [exprLoop, front, Res.bind_ok, hop', hend, List.tail_cons]
  rw [term_mono (done_ok hm) (Nat.le_max_right n m), hm]
  simp only [Res.bind_ok]
  rw [exprLoop_mono (done_ok hn) (Nat.le_max_left n m), hn]
  rfl

theorem derives_accepts {l : Level} {ts : Toks} {e : Expr} (h : Derives l ts e) :
    Accepts l ts e := by
  induction h with
  | lit v t => intro u us _; exact ⟨1, by simp [comp, front]⟩
  | name id =>
    intro u us hu
    refine ⟨1, ?_⟩
    have hc := nameTokens_compIdent id .word rfl hu (us := us)
    obtain ⟨t, ts, h1, h2⟩ := nameTokens_cons id
    rw [h1] at hc ⊢
    rcases h2 with rfl | ⟨s, rfl⟩ <;> simp only [comp, front, List.cons_append, Res.bind_ok] <;>
      rw [List.cons_append] at hc <;> rw [hc] <;> rfl
  | longName id =>
    intro u us hu
    refine ⟨1, ?_⟩
    have hc := nameTokens_compIdent id .long rfl hu (us := us)
    simp [comp, front, hc]
  | @paren ts e _ ih =>
    intro u us hu
    obtain ⟨n, hn⟩ := ih (tok ')') (u :: us) (e, tok ')' :: u :: us) (by simp) rfl
      ⟨1, exprLoop_stop rfl⟩
    refine ⟨n + 1, ?_⟩
    simp [comp, front, compIdent, hn, consume]
  | @comp ts e hd ih =>
    intro u us hu
    obtain ⟨n, hn⟩ := ih u us hu
    obtain ⟨t, vs, rfl, hun⟩ := comp_head hd
    refine ⟨n + 1, ?_⟩
    simp only [factor, front, List.cons_append, Res.bind_ok, hun]
    exact hn
  | neg _ ih => exact accepts_unary rfl ih
  | lowbyte _ ih => exact accepts_unary rfl ih
  | highbyte _ ih => exact accepts_unary rfl ih
  | bankbyte _ ih => exact accepts_unary rfl ih
  | factor _ ih =>
    intro u us r hu ⟨n, hn⟩
    obtain ⟨m, hm⟩ := ih u us hu
    refine ⟨max n m + 1, ?_⟩
    rw [term, factor_mono (done_ok hm) (Nat.le_max_right n m), hm]
    simp only [Res.bind_ok]
    rw [termLoop_mono (done_ok hn) (Nat.le_max_left n m), hn]
  | mul _ _ ih1 ih2 => exact accepts_mul rfl (by decide) ih1 ih2
  | div _ _ ih1 ih2 => exact accepts_mul rfl (by decide) ih1 ih2
  | @term ts e _ ih =>
    intro u us r hu hmu ⟨n, hn⟩
    obtain ⟨m, hm⟩ := ih u us (e, u :: us) hu ⟨1, termLoop_stop hmu⟩
    refine ⟨max n m + 1, ?_⟩
    rw [expr, term_mono (done_ok hm) (Nat.le_max_right n m), hm]
    simp only [Res.bind_ok]
    rw [exprLoop_mono (done_ok hn) (Nat.le_max_left n m), hn]
  | plus _ _ ih1 ih2 => exact accepts_add rfl rfl (by decide) ih1 ih2
  | minus _ _ ih1 ih2 => exact accepts_add rfl rfl (by decide) ih1 ih2

theorem derives_no_eol {l : Level} {ts : Toks} {e : Expr} (h : Derives l ts e) :
    Token.eol ∉ ts := by
  have hname : ∀ id, Token.eol ∉ nameTokens id := by
    rintro ⟨_ | m, n⟩
    · simp [nameTokens]
    · cases m <;> simp [nameTokens]
  induction h <;> simp_all

/-- **C35 (completeness).** If the tokens `ts` form an expression with tree `e`
according to the grammar, and what follows on the line cannot continue it, the
parser returns `e` and leaves what follows untouched. -/
theorem C35_accepts_grammar (ts : List Token) (e : Expr) (u : Token) (us : List Token)
    (h : Derives .expr ts e) (hline : IsLine (u :: us)) (hu : Follow u) :
    expression (ts ++ u :: us) = .ok (e, u :: us) := by
  simp only [Follow, List.mem_cons, List.not_mem_nil, or_false, not_or] at hu
  obtain ⟨h1, h2, h3, h4, h5⟩ := hu
  have hmul : mulOp u = none := by simp [mulOp, h3, h4]
  have hadd : addOp u = none := by simp [addOp, h1, h2]
  obtain ⟨n, hn⟩ := derives_accepts h u us (e, u :: us) h5 hmul ⟨1, exprLoop_stop hadd⟩
  rw [← hn]
  symm
  apply expr_eq_expression _ (done_ok hn)
  obtain ⟨body, hb, hne⟩ := hline
  exact ⟨ts ++ body, by rw [hb]; simp, by
    simp only [List.mem_append, not_or]; exact ⟨derives_no_eol h, hne⟩⟩

theorem addOp_cases {t : Token} {op : BinOp} (h : addOp t = some op) :
    (t = tok '+' ∧ op = .plus) ∨ (t = tok '-' ∧ op = .minus) := by
  unfold addOp at h
  split at h
  · next ht => cases h; exact .inl ⟨ht, rfl⟩
  · split at h
    · next ht => cases h; exact .inr ⟨ht, rfl⟩
    · cases h

theorem mulOp_cases {t : Token} {op : BinOp} (h : mulOp t = some op) :
    (t = tok '*' ∧ op = .mul) ∨ (t = tok '/' ∧ op = .div) := by
  unfold mulOp at h
  split at h
  · next ht => cases h; exact .inl ⟨ht, rfl⟩
  · split at h
    · next ht => cases h; exact .inr ⟨ht, rfl⟩
    · cases h

theorem front_ok {ts : Toks} {t : Token} (h : front ts = .ok t) : ∃ us, ts = t :: us := by
  cases ts with
  | nil => cases h
  | cons a l => cases h; exact ⟨l, rfl⟩

theorem identifier_ok {ts rest : Toks} {s : Str} (h : identifier ts = .ok (s, rest)) :
    ts = .ident s :: rest := by
  unfold identifier at h
  obtain ⟨t, ht, h⟩ := Res.bind_eq_ok.mp h
  obtain ⟨us, rfl⟩ := front_ok ht
  split at h
  · cases h; rfl
  · cases h

/-- A name token never is the empty string, as the tokenizer guarantees. -/
def NamesNonempty (ts : Toks) : Prop := Token.ident [] ∉ ts

theorem compIdent_ok {ts rest : Toks} {t : NumericType} {e : Expr} (hne : NamesNonempty ts)
    (h : compIdent t ts = .ok (some (e, rest))) :
    ∃ id, e = .ident id t ∧ ts = nameTokens id ++ rest := by
  unfold compIdent at h
  obtain ⟨tk, ht, h⟩ := Res.bind_eq_ok.mp h
  obtain ⟨us, rfl⟩ := front_ok ht
  split at h
  · obtain ⟨⟨s, ts'⟩, hi, h⟩ := Res.bind_eq_ok.mp h
    have := identifier_ok hi
    simp only [List.tail_cons] at this
    cases h
    exact ⟨_, rfl, by simp [nameTokens, this]⟩
  · next s1 _ =>
    obtain ⟨t2, ht2, h⟩ := Res.bind_eq_ok.mp h
    obtain ⟨us2, hus2⟩ := front_ok ht2
    simp only [List.tail_cons] at hus2
    subst hus2
    split at h
    · next hsc =>
      subst hsc
      obtain ⟨⟨s, ts'⟩, hi, h⟩ := Res.bind_eq_ok.mp h
      have := identifier_ok hi
      simp only [List.tail_cons] at this
      cases h
      refine ⟨_, rfl, ?_⟩
      cases s1 with
      | nil => exact absurd (by simp) hne
      | cons c m => simp [nameTokens, this]
    · cases h
      exact ⟨_, rfl, by simp [nameTokens]⟩
  · cases h

/-- What success of each function says about the tokens it read. -/
theorem parse_derives (n : Nat) : ∀ ts e rest, NamesNonempty ts →
    (expr n ts = .ok (e, rest) → ∃ p, ts = p ++ rest ∧ Derives .expr p e) ∧
    (∀ acc, exprLoop n acc ts = .ok (e, rest) → ∃ p, ts = p ++ rest ∧
      ∀ q, Derives .expr q acc → Derives .expr (q ++ p) e) ∧
    (term n ts = .ok (e, rest) → ∃ p, ts = p ++ rest ∧ Derives .term p e) ∧
    (∀ acc, termLoop n acc ts = .ok (e, rest) → ∃ p, ts = p ++ rest ∧
      ∀ q, Derives .term q acc → Derives .term (q ++ p) e) ∧
    (factor n ts = .ok (e, rest) → ∃ p, ts = p ++ rest ∧ Derives .factor p e) ∧
    (comp n ts = .ok (e, rest) → ∃ p, ts = p ++ rest ∧ Derives .comp p e) := by
  have tailNe : ∀ {p q : Toks}, NamesNonempty (p ++ q) → NamesNonempty q :=
    fun h hm => h (by simp [hm])
  induction n with
  | zero =>
    intro ts e rest _
    refine ⟨?_, ?_, ?_, ?_, ?_, ?_⟩
    · intro h; cases h
    · intro acc h; cases h
    · intro h; cases h
    · intro acc h; cases h
    · intro h; cases h
    · intro h; cases h
  | succ n ih =>
    intro ts e rest hne
    refine ⟨fun h => ?_, fun acc h => ?_, fun h => ?_, fun acc h => ?_, fun h => ?_, fun h => ?_⟩
    · rw [expr] at h
      obtain ⟨⟨t, ts1⟩, h1, h2⟩ := Res.bind_eq_ok.mp h
      obtain ⟨p, rfl, hp⟩ := (ih ts t ts1 hne).2.2.1 h1
      obtain ⟨q, rfl, hq⟩ := (ih ts1 e rest (tailNe hne)).2.1 t h2
      exact ⟨p ++ q, by simp, hq p (.term hp)⟩
    · rw [exprLoop] at h
      obtain ⟨t, ht, h⟩ := Res.bind_eq_ok.mp h
      obtain ⟨us, rfl⟩ := front_ok ht
      split at h
      · cases h; exact ⟨[], rfl, fun q hq => by simpa using hq⟩
      · cases hop : addOp t with
        | none => rw [hop] at h; cases h; exact ⟨[], rfl, fun q hq => by simpa using hq⟩
        | some op =>
          rw [hop] at h
          obtain ⟨⟨r, ts1⟩, h1, h2⟩ := Res.bind_eq_ok.mp h
          have hne1 : NamesNonempty us := tailNe (p := [t]) hne
          obtain ⟨p, hp1, hp⟩ := (ih us r ts1 hne1).2.2.1 h1
          subst hp1
          obtain ⟨q, rfl, hq⟩ := (ih ts1 e rest (tailNe hne1)).2.1 _ h2
          refine ⟨t :: p ++ q, by simp, fun q' hq' => ?_⟩
          have := hq (q' ++ t :: p) (by
            rcases addOp_cases hop with ⟨rfl, rfl⟩ | ⟨rfl, rfl⟩
            · exact .plus hq' hp
            · exact .minus hq' hp)
          simpa using this
    · rw [term] at h
      obtain ⟨⟨t, ts1⟩, h1, h2⟩ := Res.bind_eq_ok.mp h
      obtain ⟨p, rfl, hp⟩ := (ih ts t ts1 hne).2.2.2.2.1 h1
      obtain ⟨q, rfl, hq⟩ := (ih ts1 e rest (tailNe hne)).2.2.2.1 t h2
      exact ⟨p ++ q, by simp, hq p (.factor hp)⟩
    · rw [termLoop] at h
      obtain ⟨t, ht, h⟩ := Res.bind_eq_ok.mp h
      obtain ⟨us, rfl⟩ := front_ok ht
      split at h
      · cases h; exact ⟨[], rfl, fun q hq => by simpa using hq⟩
      · cases hop : mulOp t with
        | none => rw [hop] at h; cases h; exact ⟨[], rfl, fun q hq => by simpa using hq⟩
        | some op =>
          rw [hop] at h
          obtain ⟨⟨r, ts1⟩, h1, h2⟩ := Res.bind_eq_ok.mp h
          have hne1 : NamesNonempty us := tailNe (p := [t]) hne
          obtain ⟨p, hp1, hp⟩ := (ih us r ts1 hne1).2.2.2.2.1 h1
          subst hp1
          obtain ⟨q, rfl, hq⟩ := (ih ts1 e rest (tailNe hne1)).2.2.2.1 _ h2
          refine ⟨t :: p ++ q, by simp, fun q' hq' => ?_⟩
          have := hq (q' ++ t :: p) (by
            rcases mulOp_cases hop with ⟨rfl, rfl⟩ | ⟨rfl, rfl⟩
            · exact .mul hq' hp
            · exact .div hq' hp)
          simpa using this
    · rw [factor] at h
      obtain ⟨t, ht, h⟩ := Res.bind_eq_ok.mp h
      obtain ⟨us, rfl⟩ := front_ok ht
      cases hop : unaryOp t with
      | none =>
        rw [hop] at h
        obtain ⟨p, hp1, hp⟩ := (ih _ e rest hne).2.2.2.2.2 h
        exact ⟨p, hp1, .comp hp⟩
      | some op =>
        rw [hop] at h
        obtain ⟨⟨a, ts1⟩, h1, h2⟩ := Res.bind_eq_ok.mp h
        have hne1 : NamesNonempty us := tailNe (p := [t]) hne
        obtain ⟨p, hp1, hp⟩ := (ih us a ts1 hne1).2.2.2.2.1 h1
        subst hp1
        cases h2
        refine ⟨t :: p, by simp, ?_⟩
        unfold unaryOp at hop
        split at hop
        · next ht => cases hop; subst ht; exact .neg hp
        split at hop
        · next ht => cases hop; subst ht; exact .lowbyte hp
        split at hop
        · next ht => cases hop; subst ht; exact .highbyte hp
        split at hop
        · next ht => cases hop; subst ht; exact .bankbyte hp
        · cases hop
    · rw [comp] at h
      obtain ⟨t, ht, h⟩ := Res.bind_eq_ok.mp h
      obtain ⟨us, rfl⟩ := front_ok ht
      split at h
      · cases h; exact ⟨_, rfl, .lit _ _⟩
      · obtain ⟨r, hr, h⟩ := Res.bind_eq_ok.mp h
        have hne1 : NamesNonempty us := tailNe (p := [_]) hne
        cases r with
        | none => cases h
        | some r =>
          cases h
          obtain ⟨id, rfl, hid⟩ := compIdent_ok hne1 hr
          subst hid
          exact ⟨_, rfl, .longName id⟩
      · obtain ⟨r, hr, h⟩ := Res.bind_eq_ok.mp h
        cases r with
        | some r =>
          cases h
          obtain ⟨id, rfl, hid⟩ := compIdent_ok hne hr
          exact ⟨_, hid, .name id⟩
        | none =>
          by_cases hp : t = tok '('
          · rw [if_pos hp] at h
            subst hp
            obtain ⟨⟨e', ts1⟩, h1, h⟩ := Res.bind_eq_ok.mp h
            obtain ⟨ts2, h2, h⟩ := Res.bind_eq_ok.mp h
            cases h
            have hne1 : NamesNonempty us := tailNe (p := [_]) hne
            obtain ⟨p, hp1, hp⟩ := (ih us _ ts1 hne1).1 h1
            subst hp1
            unfold consume at h2
            obtain ⟨t2, ht2, h2⟩ := Res.bind_eq_ok.mp h2
            obtain ⟨us2, rfl⟩ := front_ok ht2
            split at h2
            · cases h2
            · next hc =>
              cases h2
              simp only [ne_eq, not_not] at hc
              subst hc
              exact ⟨tok '(' :: p ++ [tok ')'], by simp, .paren hp⟩
          · rw [if_neg hp] at h; cases h

/-- **C35 (soundness).** Whenever the parser returns an expression, the tokens it
read form, according to the grammar, an expression with exactly that tree. -/
theorem C35_only_grammar (ts rest : List Token) (e : Expr) (hn : Token.ident [] ∉ ts)
    (h : expression ts = .ok (e, rest)) :
    ∃ read, ts = read ++ rest ∧ Derives .expr read e :=
  (parse_derives _ ts e rest hn).1 h

theorem render_derives {e : Expr} (h : Writable e) :
    Derives .expr (render 0 e) e ∧ Derives .term (render 1 e) e ∧
      Derives .factor (render 2 e) e := by
  have lift : ∀ {ts : List Token} {e : Expr}, Derives .comp ts e →
      Derives .expr ts e ∧ Derives .term ts e ∧ Derives .factor ts e :=
    fun h => ⟨.term (.factor (.comp h)), .factor (.comp h), .comp h⟩
  have liftF : ∀ {ts : List Token} {e : Expr}, Derives .factor ts e →
      Derives .expr ts e ∧ Derives .term ts e ∧ Derives .factor ts e :=
    fun h => ⟨.term (.factor h), .factor h, h⟩
  induction e with
  | null => exact h.elim
  | label n e => exact h.elim
  | lit v t =>
    have := Derives.lit v t
    rw [Expr.mkLit, show t.castTo v = v from h] at this
    exact lift this
  | ident id t =>
    rcases h with rfl | rfl
    · exact lift (.name id)
    · exact lift (.longName id)
  | un op a ih =>
    have ha := (ih h).2.2
    cases op
    · exact liftF (.neg ha)
    · exact liftF (.lowbyte ha)
    · exact liftF (.highbyte ha)
    · exact liftF (.bankbyte ha)
  | bin op l r ihl ihr =>
    have hl := ihl h.1
    have hr := ihr h.2
    have hadd : ∀ {b : List Token}, Derives .expr b (.bin op l r) →
        Derives .expr b (.bin op l r) ∧
          Derives .term (tok '(' :: b ++ [tok ')']) (.bin op l r) ∧
          Derives .factor (tok '(' :: b ++ [tok ')']) (.bin op l r) :=
      fun hb => ⟨hb, .factor (.comp (.paren hb)), .comp (.paren hb)⟩
    have hmul : ∀ {b : List Token}, Derives .term b (.bin op l r) →
        Derives .expr b (.bin op l r) ∧ Derives .term b (.bin op l r) ∧
          Derives .factor (tok '(' :: b ++ [tok ')']) (.bin op l r) :=
      fun hb => ⟨.term hb, hb, .comp (.paren (.term hb))⟩
    cases op
    · exact hadd (.plus hl.1 hr.2.1)
    · exact hadd (.minus hl.1 hr.2.1)
    · exact hmul (.mul hl.2.1 hr.2.2)
    · exact hmul (.div hl.2.1 hr.2.2)

/-- **C35.** Every expression tree, written with parentheses only where precedence
and left associativity require them, is parsed back to the same tree, and what
follows is left untouched. -/
theorem C35_round_trip (e : Expr) (u : Token) (us : List Token) (h : Writable e)
    (hline : IsLine (u :: us)) (hu : Follow u) :
    expression (render 0 e ++ u :: us) = .ok (e, u :: us) :=
  C35_accepts_grammar _ e u us (render_derives h).1 hline hu

/-- `1 - 2 - 3 * (4 + x)` and what follows it. -/
example : render 0 (.bin .minus (.bin .minus (.lit 1 .unknown) (.lit 2 .unknown))
      (.bin .mul (.lit 3 .unknown) (.bin .plus (.lit 4 .unknown) (.ident ⟨none, cs!"x"⟩ .word)))) =
    [.lit 1 .unknown, tok '-', .lit 2 .unknown, tok '-', .lit 3 .unknown, tok '*', tok '(',
      .lit 4 .unknown, tok '+', .ident cs!"x", tok ')'] ∧
    Follow (tok ',') ∧ IsLine [tok ',', tok 'X', .eol] := by
  refine ⟨rfl, by simp [Follow], [tok ',', tok 'X'], rfl, by simp⟩

/-- At the level of text adjacent minus signs are one token, so `1--1` is not an
expression although `1 - -1` is. -/
example : Parse.parseExpression cs!"1--1" = .err .parse ∧
    Parse.parseExpression cs!"1- -1" =
      .ok (.bin .minus (.lit 1 .unknown) (.un .neg (.lit 1 .unknown))) := by decide +kernel

end Nsasm.Props
