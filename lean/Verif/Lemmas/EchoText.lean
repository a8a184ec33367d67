import Verif.Lemmas.EchoParse

/-! # The text of an item, read again -/

namespace Nsasm.Echo
open Nsasm Spec Props Parse

/-- Text that does not continue a name or a number. -/
def Apart (s : Str) : Prop := ∀ d, s.head? = some d → isIdentifierChar d = false

theorem apart_nil : Apart [] := by simp [Apart]

theorem apart_cons {c : Char} {s : Str} (h : isIdentifierChar c = false) : Apart (c :: s) := by
  intro d hd; cases hd; exact h

/-- An expression and the tokens of its text. -/
structure Shown (e : Expr) (p : List Token) : Prop where
  derives : Derives .expr p e
  lex : ∀ s ts, Apart s → Lex s ts → Lex (e.toStr ++ s) (p ++ ts)
  clean : ';' ∉ e.toStr
  head : p.head? ≠ some (tok '(') ∧ p ≠ []

theorem Shown.whole {e : Expr} {p : List Token} (h : Shown e p) : Lex e.toStr p := by
  have := h.lex [] [] apart_nil lex_nil
  simpa using this

/-! ## Numbers -/

theorem decimalChar_value {d : Nat} (h : d < 10) :
    isDecimalDigit (digitChar d) = true ∧ digitValue (digitChar d) = d := by
  have : ∀ d : Fin 10, isDecimalDigit (digitChar d) = true ∧ digitValue (digitChar d) = d := by decide +kernel
  exact this ⟨d, h⟩

theorem digitsRev10 (k : Nat) : ∀ n, n < 10 ^ k → k ≠ 0 →
    numberValue 10 (digitsRev 10 k n).reverse = n ∧ (∀ c ∈ digitsRev 10 k n, isDecimalDigit c = true) ∧
      digitsRev 10 k n ≠ [] := by
  induction k with
  | zero => intro n _ h; exact absurd rfl h
  | succ k ih =>
    intro n hn _
    have hd := decimalChar_value (Nat.mod_lt n (by decide : 0 < 10))
    rw [digitsRev]
    by_cases h : n < 10
    · rw [if_pos h]
      refine ⟨?_, by simp [hd.1], by simp⟩
      rw [Nat.mod_eq_of_lt h] at hd ⊢
      simp [numberValue, hd.2]
    · rw [if_neg h]
      have hk : k ≠ 0 := by rintro rfl; simp at hn; omega
      obtain ⟨h1, h2, -⟩ := ih (n / 10) (by rw [Nat.pow_succ] at hn; omega) hk
      refine ⟨?_, ?_, by simp⟩
      · rw [List.reverse_cons, numberValue_snoc, h1, hd.2]; omega
      · intro c hc
        rcases List.mem_cons.mp hc with rfl | hc
        · exact hd.1
        · exact h2 c hc

theorem lt_pow10 (n : Nat) : n < 10 ^ (n + 1) := by
  induction n with
  | zero => decide
  | succ n ih => rw [Nat.pow_succ]; omega

theorem digits10 (n : Nat) : numberValue 10 (digits 10 n) = n ∧ (∀ c ∈ digits 10 n, isDecimalDigit c = true) ∧
    digits 10 n ≠ [] := by
  obtain ⟨h1, h2, h3⟩ := digitsRev10 (n + 1) n (lt_pow10 n) (by omega)
  exact ⟨h1, fun c hc => h2 c (by simpa [digits] using hc), by simpa [digits] using h3⟩

theorem decimal_apart {c : Char} (h : isIdentifierChar c = false) : isDecimalDigit c = false := by
  unfold isIdentifierChar at h
  rw [Bool.or_eq_false_iff] at h
  exact h.1

theorem hex_apart {c : Char} (h : isIdentifierChar c = false) : isHexDigit c = false := by
  cases hx : isHexDigit c with
  | false => rfl
  | true =>
    exfalso
    revert h hx
    unfold isIdentifierChar isIdentifierFirstChar isHexDigit isDecimalDigit
    simp only [Bool.or_eq_true, Bool.and_eq_true, decide_eq_true_eq, Bool.or_eq_false_iff, Bool.and_eq_false_iff, decide_eq_false_iff_not, Char.le_def, UInt32.le_iff_toNat_le]
    simp
    omega

theorem digit_facts {c : Char} (h : isDecimalDigit c = true) :
    isSpace c = false ∧ c ≠ ';' ∧ isPunctChar c = false ∧ c ≠ '$' ∧ c ≠ '%' ∧ c ≠ '+' ∧ c ≠ '-' ∧ c ≠ ':' := by
  have hc : 48 ≤ c.toNat ∧ c.toNat ≤ 57 := by
    unfold isDecimalDigit at h
    simp only [Bool.and_eq_true, decide_eq_true_eq, Char.le_def, UInt32.le_iff_toNat_le] at h
    exact h
  have he : c = Char.ofNat c.toNat := by simp
  obtain ⟨h1, h2⟩ := hc
  rw [he]
  have key : ∀ k : Fin 10, isSpace (Char.ofNat (48 + k)) = false ∧ Char.ofNat (48 + k) ≠ ';' ∧
      isPunctChar (Char.ofNat (48 + k)) = false ∧ Char.ofNat (48 + k) ≠ '$' ∧ Char.ofNat (48 + k) ≠ '%' ∧
      Char.ofNat (48 + k) ≠ '+' ∧ Char.ofNat (48 + k) ≠ '-' ∧ Char.ofNat (48 + k) ≠ ':' := by decide +kernel
  have := key ⟨c.toNat - 48, by omega⟩
  rwa [show 48 + (c.toNat - 48) = c.toNat by omega] at this

theorem lex_decimal {n : Nat} (hn : n < 2 ^ 31) {s : Str} {ts : List Token} (hs : Apart s) (h : Lex s ts) :
    Lex (decimal (n : Int) ++ s) (.lit n .unknown :: ts) := by
  obtain ⟨h1, h2, h3⟩ := digits10 n
  have e : decimal (n : Int) = digits 10 n := by
    unfold decimal
    rw [if_neg (by omega)]
    simp
  rw [e]
  obtain ⟨e1, e2⟩ := Props.takeWhile_all (t := s) h2 fun c hc => decimal_apart (hs c hc)
  cases hd : digits 10 n with
  | nil => exact absurd hd h3
  | cons d ds =>
    rw [hd] at h1 h2 e1 e2
    rw [List.cons_append] at e1 e2 ⊢
    have hdd := h2 d (by simp)
    obtain ⟨f1, f2, f3, f4, f5, f6, f7, f8⟩ := digit_facts hdd
    refine lex_scan f1 f2 ?_ h
    have hp : scanPunct (d :: (ds ++ s)) = none := by
      unfold scanPunct
      simp [f3, f6, f7, f8]
    have hx : hexPrefix (d :: (ds ++ s)) = none := by
      unfold hexPrefix
      split
      · rename_i heq; exact absurd (List.cons.inj heq).1 f4
      · rename_i x c rest heq
        rw [List.cons.injEq] at heq
        obtain ⟨-, heq⟩ := heq
        rw [if_neg]
        simp only [Bool.and_eq_true, Bool.or_eq_true, decide_eq_true_eq, not_and]
        intro hxx
        exfalso
        have : isDecimalDigit x = false := by rcases hxx with rfl | rfl <;> decide
        cases ds with
        | nil =>
          rw [List.nil_append] at heq
          have := hs x (by rw [heq]; rfl)
          rcases hxx with rfl | rfl <;> revert this <;> decide
        | cons d' ds =>
          rw [List.cons_append, List.cons.injEq] at heq
          have := h2 d' (by simp)
          rw [heq.1] at this
          simp_all
      · rfl
    have hb : binaryPrefix (d :: (ds ++ s)) = none := by
      unfold binaryPrefix
      split
      · rename_i heq; exact absurd (List.cons.inj heq).1 f5
      · rfl
    have hval : strtolInt 10 (d :: ds) = n := by
      unfold strtolInt
      rw [h1]
      simp only
      rw [if_pos (by omega)]
      omega
    rw [scanToken, hp]
    simp only [hx, hb, hdd, e1, e2, hval, if_true]

/-! ## Names -/

theorem lex_scope {s : Str} {ts : List Token} (h : Lex s ts) : Lex (cs!"::" ++ s) (.punct .scope :: ts) := by
  refine lex_scan (c := ':') (s := ':' :: s) (by decide) (by decide) ?_ h
  have : scanPunct (':' :: ':' :: s) = some (.scope, s) := by
    unfold scanPunct
    simp
  rw [scanToken, this]

theorem name_lex {id : FullId} (hg : ∀ t ∈ Spec.nameTokens id, Good t) {s : Str} {ts : List Token} (hs : Apart s) (h : Lex s ts) :
    Lex (id.toStr ++ s) (Spec.nameTokens id ++ ts) ∧ ';' ∉ id.toStr := by
  obtain ⟨md, n⟩ := id
  cases md with
  | none =>
    have hn : IsName n := hg (.ident n) (by simp [Spec.nameTokens])
    exact ⟨lex_name hn hs h, hn.clean⟩
  | some m =>
    cases m with
    | nil =>
      have hn : IsName n := hg (.ident n) (by simp [Spec.nameTokens])
      refine ⟨lex_scope (lex_name hn hs h), ?_⟩
      have := hn.clean
      simp [FullId.toStr, this]
    | cons c m =>
      have hn : IsName n := hg (.ident n) (by simp [Spec.nameTokens])
      have hm : IsName (c :: m) := hg (.ident (c :: m)) (by simp [Spec.nameTokens])
      have h1 := lex_name (s := cs!"::" ++ (n ++ s)) hm (apart_cons (by decide)) (lex_scope (lex_name hn hs h))
      refine ⟨by simpa [FullId.toStr, Spec.nameTokens] using h1, ?_⟩
      have h2 := hn.clean
      have h3 := hm.clean
      simp only [List.mem_cons, not_or] at h3
      simp [FullId.toStr, h2, h3]

/-! ## Expressions -/

theorem derives_comp {p : List Token} {e : Expr} (h : Derives .comp p e) : Derives .expr p e := .term (.factor (.comp h))

theorem shown_lit {v : Int} {t : NumericType} (hg : Good (.lit v t)) (ha : Atomic (.mkLit v t)) :
    ∃ p, Shown (.mkLit v t) p := by
  obtain ⟨ht, hv⟩ := hg
  have hex : ∀ (w : Nat) (M : Int), w ≠ 0 → w ≤ 6 → (16 : Int) ^ w = M → literalType 2 w = t → t.castTo v = v % M → 0 < M →
      (∀ x, t.castTo x = x % M) → (Expr.mkLit v t).toStr = '$' :: hexPadded w (v % M).toNat → ∃ p, Shown (.mkLit v t) p := by
    intro w M hw hw6 hM hty hc hM0 hcast hstr
    have h0 : 0 ≤ v % M := Int.emod_nonneg _ (by omega)
    have hlt : v % M < M := Int.emod_lt_of_pos _ hM0
    have hn : (v % M).toNat < 16 ^ w := by
      have : ((16 ^ w : Nat) : Int) = M := by rw [← hM]; push_cast; rfl
      omega
    refine ⟨[.lit (v % M) t], ?_, ?_, ?_, by simp⟩
    · have e : Expr.mkLit v t = .mkLit (v % M) t := by
        unfold Expr.mkLit
        rw [hcast, hcast, Int.emod_emod_of_dvd _ (Int.dvd_refl _)]
      rw [e]
      exact derives_comp (.lit _ _)
    · intro s ts hs h
      rw [hstr]
      have := lex_hex hw hw6 hn hty (fun c hc => hex_apart (hs c hc)) h
      rwa [Int.toNat_of_nonneg h0] at this
    · rw [hstr]
      have := hex_clean w (v % M).toNat
      simp [this]
  rcases ht with rfl | rfl | rfl | rfl
  · exact hex 2 0x100 (by decide) (by decide) (by decide) rfl rfl (by decide) (fun _ => rfl) (by simp [Expr.mkLit, Expr.toStr, NumericType.castTo])
  · exact hex 4 0x10000 (by decide) (by decide) (by decide) rfl rfl (by decide) (fun _ => rfl) (by simp [Expr.mkLit, Expr.toStr, NumericType.castTo])
  · exact hex 6 0x1000000 (by decide) (by decide) (by decide) rfl rfl (by decide) (fun _ => rfl) (by simp [Expr.mkLit, Expr.toStr, NumericType.castTo])
  · have h0 : 0 ≤ v := ha
    obtain ⟨n, rfl⟩ := Int.eq_ofNat_of_zero_le h0
    refine ⟨[.lit n .unknown], derives_comp (.lit _ _), ?_, ?_, by simp⟩
    · intro s ts hs h
      exact lex_decimal (by omega) hs h
    · show ';' ∉ decimal (n : Int)
      intro hm
      have := decimal_chars n ';' hm
      revert this; decide

theorem nameTokens_head (id : FullId) (c : Char) : (Spec.nameTokens id).head? ≠ some (tok c) := by
  unfold Spec.nameTokens
  split <;> simp

theorem nameTokens_ne (id : FullId) : Spec.nameTokens id ≠ [] := by
  unfold Spec.nameTokens
  split <;> simp

theorem shown {l : Level} {p : List Token} {e : Expr} (h : Derives l p e) (hg : ∀ t ∈ p, Good t) (ha : Atomic e) :
    ∃ q, Shown e q := by
  induction h with
  | lit v t => exact shown_lit (hg _ (by simp)) ha
  | name id =>
    exact ⟨Spec.nameTokens id, derives_comp (.name id), fun s ts hs h => (name_lex hg hs h).1,
      (name_lex hg apart_nil lex_nil).2, nameTokens_head id _, nameTokens_ne id⟩
  | longName id =>
    have hg' : ∀ t ∈ Spec.nameTokens id, Good t := fun t ht => hg t (by simp [ht])
    refine ⟨tok '@' :: Spec.nameTokens id, derives_comp (.longName id), fun s ts hs h => lex_at (name_lex hg' hs h).1, ?_, by simp⟩
    have := (name_lex hg' apart_nil lex_nil).2
    simp [Expr.toStr, this]
  | paren _ ih => exact ih (fun t ht => hg t (by simp [ht])) ha
  | comp _ ih | factor _ ih | term _ ih => exact ih hg ha
  | neg | lowbyte | highbyte | bankbyte | mul | div | plus | minus => exact absurd ha id

/-! ## Operands -/

/-- The tokens of an operand of this form. -/
def formTokens (sm : SMode) (p q : List Token) : List Token :=
  match sm with
  | .imp => []
  | .acc => [tok 'A']
  | .imm => tok '#' :: p
  | .mov => tok '#' :: p ++ tok ',' :: tok '#' :: q
  | .lng => tok '[' :: p ++ [tok ']']
  | .lng_y => tok '[' :: p ++ [tok ']', tok ',', tok 'Y']
  | .ind => tok '(' :: p ++ [tok ')']
  | .ind_x => tok '(' :: p ++ [tok ',', tok 'X', tok ')']
  | .ind_y => tok '(' :: p ++ [tok ')', tok ',', tok 'Y']
  | .stk_y => tok '(' :: p ++ [tok ',', tok 'S', tok ')', tok ',', tok 'Y']
  | .dir => p
  | .dir_x => p ++ [tok ',', tok 'X']
  | .dir_y => p ++ [tok ',', tok 'Y']
  | .stk => p ++ [tok ',', tok 'S']

theorem lex_operand {mode : Mode} {e1 e2 : Expr} {p q : List Token}
    (h1 : mode ≠ .imp → mode ≠ .acc → Shown e1 p) (h2 : mode = .mov → Shown e2 q) :
    Lex (argsToStr mode e1 e2) (formTokens (printedForm mode) p q) ∧ ';' ∉ argsToStr mode e1 e2 := by
  have ap : ∀ {c : Char} {t : Str}, c ∈ [',', ')', ']'] → Apart (c :: t) := by
    intro c t hc
    refine apart_cons ?_
    simp only [List.mem_cons, List.not_mem_nil, or_false] at hc
    rcases hc with rfl | rfl | rfl <;> decide
  have reg : ∀ {c : Char}, c ∈ ['X', 'Y', 'S'] → Lex [c] [tok c] := fun hc =>
    lex_register hc (by simp) lex_nil
  have regp : ∀ {c d : Char} {s : Str} {ts : List Token}, c ∈ ['X', 'Y', 'S'] → d = ')' →
      Lex s ts → Lex (c :: d :: s) (tok c :: tok d :: ts) := by
    rintro c d s ts hc rfl h
    exact lex_register hc (by simp; decide) (lex_punct (by simp) h)
  cases mode
  case imp => exact ⟨lex_nil, by simp [argsToStr]⟩
  case acc => exact ⟨lex_nil, by simp [argsToStr]⟩
  all_goals
    have h1 := h1 (by simp) (by simp)
    have hc := h1.clean
    refine ⟨?_, ?_⟩
    rotate_left
    · first
        | (have hc2 := (h2 rfl).clean; simp [argsToStr, hc, hc2]; done)
        | (simp [argsToStr, hc]; done)
    simp only [argsToStr, printedForm, formTokens, List.cons_append, List.nil_append, List.append_assoc]
    apply lex_space
  case imm_b | imm_w | imm_fm | imm_fx => exact lex_punct (by simp) h1.whole
  case dir_b | dir_w | dir_l | rel8 | rel16 => exact h1.whole
  case dir_bx | dir_wx | dir_lx | dir_by | dir_wy | stk =>
    exact h1.lex _ _ (ap (by simp)) (lex_punct (by simp) (lex_space (reg (by simp))))
  case ind_b | ind_w =>
    exact lex_punct (by simp) (h1.lex _ _ (ap (by simp)) (lex_punct (by simp) lex_nil))
  case lng_b | lng_w =>
    exact lex_punct (by simp) (h1.lex _ _ (ap (by simp)) (lex_punct (by simp) lex_nil))
  case ind_bx | ind_wx =>
    exact lex_punct (by simp) (h1.lex _ _ (ap (by simp)) (lex_punct (by simp)
      (lex_space (regp (by simp) rfl lex_nil))))
  case ind_by | lng_by =>
    exact lex_punct (by simp) (h1.lex _ _ (ap (by simp)) (lex_punct (by simp)
      (lex_punct (by simp) (lex_space (reg (by simp))))))
  case stk_y =>
    exact lex_punct (by simp) (h1.lex _ _ (ap (by simp)) (lex_punct (by simp)
      (lex_space (regp (by simp) rfl (lex_punct (by simp) (lex_space (reg (by simp))))))))
  case mov =>
    exact lex_punct (by simp) (h1.lex _ _ (ap (by simp)) (lex_punct (by simp)
      (lex_space (lex_punct (by simp) (h2 rfl).whole))))

theorem notIndirect_head {ts : List Token} (h : ts.head? ≠ some (tok '(')) (sm : SMode) : NotIndirect ts sm := by
  unfold NotIndirect
  split
  all_goals first
    | trivial
    | (intro us e rest _ he; rw [he] at h; exact absurd rfl h)

/-- An operand of the source can be written again. -/
theorem operand_shown {q : List Token} {sm : SMode} {a b : Expr} (h : Operand q sm a b) (hg : ∀ t ∈ q, Good t)
    (ha : Atomic a) (hb : Atomic b) : ∃ p p', (sm ≠ .imp → sm ≠ .acc → Shown a p) ∧ (sm = .mov → Shown b p') ∧
      Operand (formTokens sm p p') sm a b ∧ NotIndirect (formTokens sm p p') sm := by
  have one : ∀ {ts : List Token} {a : Expr}, Derives .expr ts a → (∀ t ∈ ts, Good t) → Atomic a → ∃ p, Shown a p :=
    fun h hg ha => shown h hg ha
  have nh : ∀ {p r : List Token} {a : Expr}, Shown a p → (p ++ r).head? ≠ some (tok '(') := by
    intro p r a h
    cases p with
    | nil => exact absurd rfl h.head.2
    | cons x p => exact h.head.1
  cases h with
  | imp => exact ⟨[], [], by simp, by simp, .imp, trivial⟩
  | acc => exact ⟨[], [], by simp, by simp, .acc, trivial⟩
  | imm h =>
    obtain ⟨p, hp⟩ := one h (fun t ht => hg t (by simp [ht])) ha
    exact ⟨p, [], fun _ _ => hp, by simp, .imm hp.derives, trivial⟩
  | mov h h' =>
    obtain ⟨p, hp⟩ := one h (fun t ht => hg t (by simp [ht])) ha
    obtain ⟨p', hp'⟩ := one h' (fun t ht => hg t (by simp [ht])) hb
    exact ⟨p, p', fun _ _ => hp, fun _ => hp', .mov hp.derives hp'.derives, trivial⟩
  | lng h =>
    obtain ⟨p, hp⟩ := one h (fun t ht => hg t (by simp [ht])) ha
    exact ⟨p, [], fun _ _ => hp, by simp, .lng hp.derives, trivial⟩
  | lng_y h =>
    obtain ⟨p, hp⟩ := one h (fun t ht => hg t (by simp [ht])) ha
    exact ⟨p, [], fun _ _ => hp, by simp, .lng_y hp.derives, trivial⟩
  | ind h =>
    obtain ⟨p, hp⟩ := one h (fun t ht => hg t (by simp [ht])) ha
    exact ⟨p, [], fun _ _ => hp, by simp, .ind hp.derives, trivial⟩
  | ind_x h =>
    obtain ⟨p, hp⟩ := one h (fun t ht => hg t (by simp [ht])) ha
    exact ⟨p, [], fun _ _ => hp, by simp, .ind_x hp.derives, trivial⟩
  | ind_y h =>
    obtain ⟨p, hp⟩ := one h (fun t ht => hg t (by simp [ht])) ha
    exact ⟨p, [], fun _ _ => hp, by simp, .ind_y hp.derives, trivial⟩
  | stk_y h =>
    obtain ⟨p, hp⟩ := one h (fun t ht => hg t (by simp [ht])) ha
    exact ⟨p, [], fun _ _ => hp, by simp, .stk_y hp.derives, trivial⟩
  | dir h =>
    obtain ⟨p, hp⟩ := one h hg ha
    exact ⟨p, [], fun _ _ => hp, by simp, .dir hp.derives, notIndirect_head hp.head.1 _⟩
  | dir_x h =>
    obtain ⟨p, hp⟩ := one h (fun t ht => hg t (by simp [ht])) ha
    exact ⟨p, [], fun _ _ => hp, by simp, .dir_x hp.derives, notIndirect_head (nh hp) _⟩
  | dir_y h =>
    obtain ⟨p, hp⟩ := one h (fun t ht => hg t (by simp [ht])) ha
    exact ⟨p, [], fun _ _ => hp, by simp, .dir_y hp.derives, notIndirect_head (nh hp) _⟩
  | stk h =>
    obtain ⟨p, hp⟩ := one h (fun t ht => hg t (by simp [ht])) ha
    exact ⟨p, [], fun _ _ => hp, by simp, .stk hp.derives, notIndirect_head (nh hp) _⟩

/-! ## Flags -/

theorem flags_again {n : Str} {f : StatusFlags} (h : StatusFlags.fromName n = some f) :
    StatusFlags.fromName f.toName = some f ∧ f.toStr = f.toName := by
  have : ∀ p ∈ documented, StatusFlags.fromName p.2.toName = some p.2 ∧ p.2.toStr = p.2.toName := by decide +kernel
  exact this _ ((C17_accepted_iff n f).1 h)

theorem convention_again {ts : List Token} {r : ReturnConvention} (h : Convention ts r) :
    RetWritten r ∧ Convention (retTokens r) r := by
  cases h with
  | absent => exact ⟨by simp [RetWritten], .absent⟩
  | noreturn => exact ⟨by simp [RetWritten], .noreturn⟩
  | yields h =>
    have := flags_again h
    exact ⟨fun f hf => by cases hf; exact this, .yields this.1⟩

/-! ## Statements -/

theorem suffixForm (s : Suffix) : SuffixForm (suffixTokens s) s := by
  cases s
  · exact .absent
  · exact .present _
  · exact .present _

theorem lex_directive {d : DirectiveName} (hd : d ≠ .remote) {s : Str} {ts : List Token} (hs : Apart s) (h : Lex s ts) :
    Lex (d.name ++ s) (.dir d :: ts) ∧ ';' ∉ d.name := by
  have key : ∀ d : DirectiveName, d ≠ .remote → d.name.head? = some '.' ∧ (∀ c ∈ d.name.tail, isIdentifierChar c = true) ∧
      dottedToken d.name = .ok (.dir d) ∧ ';' ∉ d.name := by
    intro d
    cases d <;> decide +kernel
  obtain ⟨h1, h2, h3, h4⟩ := key d hd
  refine ⟨?_, h4⟩
  have e : d.name = '.' :: d.name.tail := by
    revert h1
    cases d.name <;> simp
  rw [e] at h3 ⊢
  exact lex_dotted h2 hs h3 h

theorem list_shown {q : List Token} {es : List Expr} (h : ExprList q es) (hg : ∀ t ∈ q, Good t) (ha : ∀ e ∈ es, Atomic e) :
    ∃ p, ExprList p es ∧ Lex (joinExprs es) p := by
  induction h with
  | one h =>
    obtain ⟨p, hp⟩ := shown h hg (ha _ (by simp))
    exact ⟨p, .one hp.derives, hp.whole⟩
  | @cons ts us a as h hl ih =>
    obtain ⟨p, hp⟩ := shown h (fun t ht => hg t (by simp [ht])) (ha _ (by simp))
    obtain ⟨p', h1, h2⟩ := ih (fun t ht => hg t (by simp [ht])) (fun e he => ha e (by simp [he]))
    refine ⟨p ++ tok ',' :: p', .cons hp.derives h1, ?_⟩
    have e : joinExprs (a :: as) = a.toStr ++ cs!", " ++ joinExprs as := by
      cases hl <;> rfl
    rw [e, List.append_assoc]
    exact hp.lex _ _ (apart_cons (by decide)) (lex_punct (by simp) (lex_space h2))

theorem statement_shown {ts : List Token} {st : Statement} (h : Made ts st) (hg : ∀ t ∈ ts, Good t)
    (ha : AtomicItem (.stmt st)) : ∃ p, Lex st.toStr p ∧ StatementForm p st := by
  cases st with
  | instr i =>
    obtain ⟨⟨q, sm, hq, hop, hd⟩, hsuf, ⟨cs, hcs⟩, hret⟩ := h
    obtain ⟨hr, hconv⟩ := convention_again hcs
    have main : ∃ p p', (i.mode ≠ .imp → i.mode ≠ .acc → Shown i.arg1 p) ∧ (i.mode = .mov → Shown i.arg2 p') ∧
        Operand (formTokens (printedForm i.mode) p p') (printedForm i.mode) i.arg1 i.arg2 ∧
        NotIndirect (formTokens (printedForm i.mode) p p') (printedForm i.mode) := by
      rcases deduce_form hd with rfl | ⟨rfl, hm⟩
      · obtain ⟨p, p', h1, h2, h3, h4⟩ := operand_shown hop (fun t ht => hg t (hq t ht)) ha.1 ha.2
        refine ⟨p, p', fun hi hacc => h1 ?_ ?_, fun hm => h2 (by rw [hm]; rfl), h3, h4⟩
        · revert hi hacc; cases i.mode <;> simp [printedForm]
        · cases i.mode <;> simp [printedForm]
      · rw [hm]
        generalize ea : i.arg1 = a at hop
        generalize eb : i.arg2 = b at hop
        cases hop
        exact ⟨[], [], by simp, by simp, .imp, trivial⟩
    obtain ⟨p, p', h1, h2, h3, h4⟩ := main
    obtain ⟨l1, l2⟩ := lex_operand h1 h2
    have hhead : argsToStr i.mode i.arg1 i.arg2 = [] ∨ (argsToStr i.mode i.arg1 i.arg2).head? = some ' ' := by
      cases i.mode <;> simp [argsToStr]
    have l3 := lex_suffixed (m := i.mnemonic) (s := i.suffix) hhead l1
    have hcl : ';' ∉ i.mnemonic.name ++ (i.suffix.name ++ argsToStr i.mode i.arg1 i.arg2) := by
      simp [mnemonic_clean, suffix_clean, l2]
    have l4 := (lex_returned hr hcl l3).1
    refine ⟨.mnem i.mnemonic :: suffixTokens i.suffix ++ formTokens (printedForm i.mode) p p' ++ retTokens i.ret, ?_, ?_⟩
    · have e : Statement.toStr (.instr i) = i.mnemonic.name ++ (i.suffix.name ++ argsToStr i.mode i.arg1 i.arg2) ++ i.ret.toSuffixString := by
        simp [Statement.toStr, Instruction.toStr]
      rw [e]
      simpa using l4
    · exact .instr (suffixForm _) h3 h4 hconv hret ⟨deduce_again hd, rfl, rfl, rfl, rfl, rfl, hsuf⟩
  | dir d =>
    obtain ⟨q, hq, hf⟩ := h
    obtain ⟨hne, ha1, ha2⟩ := ha
    have hg' : ∀ t ∈ q, Good t := fun t ht => hg t (hq t ht)
    suffices hs : ∃ p, Lex d.toStr (.dir d.name :: p) ∧ DirectiveForm d.name p d by
      obtain ⟨p, h1, h2⟩ := hs
      exact ⟨_, h1, .dir h2⟩
    generalize hn : d.name = n at hf hne
    cases hf with
    | none ht =>
      refine ⟨[], ?_, .none ht⟩
      have := (lex_directive hne apart_nil lex_nil).1
      simpa [Directive.toStr, ht] using this
    | expr ht hd hc hnm =>
      obtain ⟨p, hp⟩ := shown hd hg' ha1
      refine ⟨p, ?_, .expr ht hp.derives hc hnm⟩
      have := (lex_directive hne (apart_cons (c := ' ') (by decide)) (lex_space hp.whole)).1
      rcases ht with ht | ht | ht <;> simpa [Directive.toStr, ht] using this
    | list ht hl =>
      obtain ⟨p, h1, h2⟩ := list_shown hl hg' ha2
      refine ⟨p, ?_, .list ht h1⟩
      have := (lex_directive hne (apart_cons (c := ' ') (by decide)) (lex_space h2)).1
      simpa [Directive.toStr, ht] using this
    | @flags _ f ht hfl =>
      have hf := flags_again hfl
      refine ⟨[.ident f.toName], ?_, .flags ht hf.1⟩
      have := (lex_directive hne (apart_cons (c := ' ') (by decide)) (lex_space (lex_whole (isName_mode f)))).1
      simpa [Directive.toStr, ht, ReturnConvention.toSuffixString] using this
    | @convention _ f _ rc ht hfl hcv =>
      have hf := flags_again hfl
      obtain ⟨hr, hconv⟩ := convention_again hcv
      refine ⟨.ident f.toName :: retTokens rc, ?_, .convention ht hf.1 hconv⟩
      have l := lex_directive hne (apart_cons (c := ' ') (by decide)) (lex_space (lex_whole (isName_mode f)))
      have hcl : ';' ∉ n.name ++ ' ' :: f.toName := by
        have := (isName_mode f).clean
        simp [l.2, this]
      have := (lex_returned hr hcl l.1).1
      simpa [Directive.toStr, ht] using this
    | remote ht =>
      exfalso
      apply hne
      revert ht
      cases n <;> simp [DirectiveName.type]

/-! ## Items -/

theorem item_again {x : Item} {ts : List Token} (hs : ∀ st, x = .stmt st → Made ts st) (hl : ∀ l, x = .label l → Token.ident l.name ∈ ts)
    (hg : ∀ t ∈ ts, Good t) (ha : AtomicItem x) : ParsesAs (Interactive.line x) [x] := by
  cases x with
  | label l =>
    have hn : IsName l.name := hg _ (hl l rfl)
    obtain ⟨n, ex⟩ := l
    have h1 : Lex (n ++ cs!":") [.ident n, tok ':'] :=
      lex_name hn (apart_cons (by decide)) (lex_colon (by simp) lex_nil)
    have hf : LineForm (labelTokens ⟨n, ex⟩ ++ tok ':' :: [.eol]) [.label ⟨n, ex⟩] := .label .done
    refine ⟨_, ?_, C73_accepts_grammar _ _ hf⟩
    cases ex with
    | false => exact h1
    | true =>
      have := lex_word (c := 'e') (w := cs!"xport") (s := ' ' :: (n ++ cs!":")) (by decide) (by decide)
        (apart_cons (by decide)) (lex_space h1)
      have e : wordToken cs!"export" = .punct .export_ := by decide +kernel
      rw [e] at this
      exact this
  | stmt st =>
    obtain ⟨p, h1, h2⟩ := statement_shown (hs st rfl) hg ha
    have h3 : Lex (cs!"    " ++ st.toStr) p := lex_blanks 4 h1
    exact ⟨_, h3, C73_accepts_grammar _ _ (by simpa using LineForm.last .absent h2)⟩

end Nsasm.Echo
