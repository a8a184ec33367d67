import Verif.Props.Syntax
import Verif.Props.Instruction
import Verif.Props.Deduce

/-! # C37: disassembled text parses back -/

namespace Nsasm.Props
open Nsasm Nsasm.Spec Nsasm.Parse

/-! ## Numbers as text -/

theorem digitChar_value {d : Nat} (h : d < 16) :
    isHexDigit (digitChar d) = true ∧ digitValue (digitChar d) = d := by
  have : ∀ d : Fin 16, isHexDigit (digitChar d) = true ∧ digitValue (digitChar d) = d := by
    decide +kernel
  exact this ⟨d, h⟩

theorem numberValue_append (b : Nat) (s t : Str) :
    numberValue b (s ++ t) = t.foldl (fun n c => n * b + digitValue c) (numberValue b s) := by
  simp [numberValue]

theorem numberValue_snoc (b : Nat) (s : Str) (c : Char) :
    numberValue b (s ++ [c]) = numberValue b s * b + digitValue c := by
  simp [numberValue]

theorem digitsRev_spec (k : Nat) : ∀ n, n < 16 ^ k → k ≠ 0 →
    numberValue 16 (digitsRev 16 k n).reverse = n ∧ (digitsRev 16 k n).length ≤ k ∧
      (∀ c ∈ digitsRev 16 k n, isHexDigit c = true) := by
  induction k with
  | zero => intro n _ h; exact absurd rfl h
  | succ k ih =>
    intro n hn _
    have hd := digitChar_value (Nat.mod_lt n (by decide : 0 < 16))
    rw [digitsRev]
    by_cases h : n < 16
    · rw [if_pos h]
      refine ⟨?_, by simp, by simp [hd.1]⟩
      rw [Nat.mod_eq_of_lt h] at hd ⊢
      simp [numberValue, hd.2]
    · rw [if_neg h]
      have hk : k ≠ 0 := by rintro rfl; simp at hn; omega
      obtain ⟨h1, h2, h3⟩ := ih (n / 16) (by rw [Nat.pow_succ] at hn; omega) hk
      refine ⟨?_, by simp only [List.length_cons]; omega, ?_⟩
      · rw [List.reverse_cons, numberValue_snoc, h1, hd.2]; omega
      · intro c hc
        rcases List.mem_cons.mp hc with rfl | hc
        · exact hd.1
        · exact h3 c hc

/-- The bound on the number of digits is immaterial. -/
theorem digitsRev_bound (k : Nat) : ∀ l n, n < 16 ^ k → k ≠ 0 → k ≤ l →
    digitsRev 16 l n = digitsRev 16 k n := by
  induction k with
  | zero => intro l n _ h; exact absurd rfl h
  | succ k ih =>
    intro l n hn _ hl
    obtain ⟨l, rfl⟩ := Nat.exists_eq_succ_of_ne_zero (by omega : l ≠ 0)
    rw [digitsRev, digitsRev]
    by_cases h : n < 16
    · rw [if_pos h, if_pos h]
    · rw [if_neg h, if_neg h]
      have hk : k ≠ 0 := by rintro rfl; simp at hn; omega
      rw [ih l (n / 16) (by rw [Nat.pow_succ] at hn; omega) hk (by omega)]

theorem lt_pow (n : Nat) : n < 16 ^ (n + 1) := by
  induction n with
  | zero => decide
  | succ n ih => rw [Nat.pow_succ]; omega

theorem digits_spec (n : Nat) : numberValue 16 (digits 16 n) = n ∧
    (∀ c ∈ digits 16 n, isHexDigit c = true) ∧
    (∀ w, w ≠ 0 → n < 16 ^ w → (digits 16 n).length ≤ w) := by
  obtain ⟨h1, _, h3⟩ := digitsRev_spec (n + 1) n (lt_pow n) (by omega)
  refine ⟨h1, fun c hc => h3 c (by simpa [digits] using hc), fun w hw hn => ?_⟩
  rw [digits, List.length_reverse]
  rcases Nat.le_total w (n + 1) with hle | hle
  · rw [digitsRev_bound w (n + 1) n hn hw hle]; exact (digitsRev_spec w n hn hw).2.1
  · have := (digitsRev_spec (n + 1) n (lt_pow n) (by omega)).2.1; omega

theorem numberValue_zeros (k : Nat) (s : Str) :
    numberValue 16 (List.replicate k '0' ++ s) = numberValue 16 s := by
  induction k with
  | zero => rfl
  | succ k ih =>
    rw [List.replicate_succ, List.cons_append]
    rw [← ih]
    simp [numberValue, digitValue]

theorem hexPadded_spec {w n : Nat} (hw : w ≠ 0) (hn : n < 16 ^ w) :
    (hexPadded w n).length = w ∧ (∀ c ∈ hexPadded w n, isHexDigit c = true) ∧
      numberValue 16 (hexPadded w n) = n := by
  obtain ⟨h1, h2, h3⟩ := digits_spec n
  have := h3 w hw hn
  refine ⟨by simp [hexPadded]; omega, ?_, by rw [hexPadded, numberValue_zeros, h1]⟩
  intro c hc
  rcases List.mem_append.mp hc with hc | hc
  · rw [(List.mem_replicate.mp hc).2]; rfl
  · exact h2 c hc

/-! ## Lexing -/

/-- `s` is the text of the tokens `ts`. -/
def Lex (s : Str) (ts : List Token) : Prop := tokenize s = .ok (ts ++ [.eol])

theorem lex_nil : Lex [] [] := rfl

theorem lex_space {s : Str} {ts : List Token} (h : Lex s ts) : Lex (' ' :: s) ts := by
  unfold Lex at *
  rw [← h]
  exact tokenize_strip (stripLeading_space rfl)

theorem lex_scan {c : Char} {s rest : Str} {t : Token} {ts : List Token}
    (hc : isSpace c = false) (hc' : c ≠ ';') (h : scanToken (c :: s) = .ok (t, rest))
    (hr : Lex rest ts) : Lex (c :: s) (t :: ts) := by
  unfold Lex at *
  rw [tokenize_eq]
  have hst : stripLeading (c :: s) = c :: s := by simp [stripLeading, hc]
  rw [hst, if_neg (by simp [hc']), h]
  simp [hr]

theorem lex_punct {c : Char} {s : Str} {ts : List Token}
    (hc : c ∈ ['(', ')', '[', ']', ',', '#']) (h : Lex s ts) : Lex (c :: s) (tok c :: ts) := by
  have hp : scanToken (c :: s) = .ok (tok c, s) := by
    have : isPunctChar c = true ∧ c ≠ '+' ∧ c ≠ '-' ∧ c ≠ ':' := by
      simp only [List.mem_cons, List.not_mem_nil, or_false] at hc
      rcases hc with rfl | rfl | rfl | rfl | rfl | rfl <;> decide
    obtain ⟨h1, h2, h3, h4⟩ := this
    have : scanPunct (c :: s) = some (.ch c, s) := by
      unfold scanPunct
      simp [h1, h2, h3, h4]
    rw [scanToken, this]
  have hcs : isSpace c = false ∧ c ≠ ';' := by
    simp only [List.mem_cons, List.not_mem_nil, or_false] at hc
    rcases hc with rfl | rfl | rfl | rfl | rfl | rfl <;> decide
  exact lex_scan hcs.1 hcs.2 hp h

theorem takeWhile_all {p : Char → Bool} {s t : Str} (hs : ∀ c ∈ s, p c = true)
    (ht : ∀ c, t.head? = some c → p c = false) :
    (s ++ t).takeWhile p = s ∧ (s ++ t).dropWhile p = t := by
  obtain ⟨h1, h2⟩ := takeWhile_append_stop (s := s) ht
  have h3 : s.takeWhile p = s ∧ s.dropWhile p = [] := by
    clear h1 h2
    induction s with
    | nil => simp
    | cons c s ih =>
      have hc := hs c (by simp)
      have := ih (fun d hd => hs d (by simp [hd]))
      simp [hc, this]
  rw [h1, h2, h3.1, h3.2]; simp

theorem lex_hex {w n : Nat} {t : NumericType} {s : Str} {ts : List Token}
    (hw : w ≠ 0) (hw6 : w ≤ 6) (hn : n < 16 ^ w) (ht : literalType 2 w = t)
    (hs : ∀ c, s.head? = some c → isHexDigit c = false) (h : Lex s ts) :
    Lex ('$' :: hexPadded w n ++ s) (.lit n t :: ts) := by
  obtain ⟨h1, h2, h3⟩ := hexPadded_spec hw hn
  obtain ⟨e1, e2⟩ := takeWhile_all h2 hs
  rw [List.cons_append]
  refine lex_scan (by decide) (by decide) ?_ h
  cases hh : hexPadded w n with
  | nil => rw [hh] at h1; exact absurd h1.symm hw
  | cons d ds =>
    rw [hh] at h1 h2 h3 e1 e2
    have hd := h2 d (by simp)
    have hp : scanPunct ('$' :: (d :: ds ++ s)) = none := by
      unfold scanPunct
      simp [isPunctChar]
    have hx : hexPrefix ('$' :: (d :: ds ++ s)) = some (d :: ds ++ s) := by
      simp [hexPrefix, hd]
    have hval : strtolInt 16 (d :: ds) = n := by
      have hlt : n < 16 ^ 6 := lt_of_lt_of_le hn (Nat.pow_le_pow_right (by decide) hw6)
      have : n < 16777216 := by simpa using hlt
      unfold strtolInt
      rw [h3]
      have e : min n 9223372036854775807 % 4294967296 = n := by omega
      simp only [e]
      rw [if_pos (by omega)]
    rw [scanToken, hp, hx]
    simp only [e1, e2, hval, h1, ht]

theorem isIdentifierFirstChar_facts {c : Char} (h : isIdentifierFirstChar c = true) :
    isPunctChar c = false ∧ isSpace c = false ∧ c ≠ ';' ∧ c ≠ '$' ∧ c ≠ '0' ∧ c ≠ '%' ∧ c ≠ '.' ∧
      isDecimalDigit c = false ∧ c ≠ '+' ∧ c ≠ '-' ∧ c ≠ ':' := by
  have hr : (97 ≤ c.toNat ∧ c.toNat ≤ 122) ∨ (65 ≤ c.toNat ∧ c.toNat ≤ 90) ∨ c.toNat = 95 := by
    simp only [isIdentifierFirstChar, Bool.or_eq_true, Bool.and_eq_true, decide_eq_true_eq] at h
    rcases h with (⟨h1, h2⟩ | ⟨h1, h2⟩) | h1
    · exact .inl ⟨(char_le_iff _ _).mp h1, (char_le_iff _ _).mp h2⟩
    · exact .inr (.inl ⟨(char_le_iff _ _).mp h1, (char_le_iff _ _).mp h2⟩)
    · subst h1; exact .inr (.inr rfl)
  have ne : ∀ d : Char, ¬ ((97 ≤ d.toNat ∧ d.toNat ≤ 122) ∨ (65 ≤ d.toNat ∧ d.toNat ≤ 90) ∨
      d.toNat = 95) → c ≠ d := by rintro d hd rfl; exact hd hr
  refine ⟨?_, ?_, ne _ (by decide), ne _ (by decide), ne _ (by decide), ne _ (by decide),
    ne _ (by decide), ?_, ne _ (by decide), ne _ (by decide), ne _ (by decide)⟩
  · simp only [isPunctChar, List.mem_cons, List.not_mem_nil, or_false, decide_eq_false_iff_not,
      not_or]
    exact ⟨ne _ (by decide), ne _ (by decide), ne _ (by decide), ne _ (by decide), ne _ (by decide),
      ne _ (by decide), ne _ (by decide), ne _ (by decide), ne _ (by decide), ne _ (by decide),
      ne _ (by decide), ne _ (by decide), ne _ (by decide), ne _ (by decide), ne _ (by decide),
      ne _ (by decide), ne _ (by decide)⟩
  · simp only [isSpace, Bool.or_eq_false_iff, decide_eq_false_iff_not, Bool.and_eq_false_iff]
    omega
  · cases hd : isDecimalDigit c with
    | false => rfl
    | true =>
      simp only [isDecimalDigit, Bool.and_eq_true, decide_eq_true_eq] at hd
      have h1 := (char_le_iff _ _).mp hd.1
      have h2 := (char_le_iff _ _).mp hd.2
      have : ('0' : Char).toNat = 48 ∧ ('9' : Char).toNat = 57 := by decide
      omega

theorem lex_word {c : Char} {w s : Str} {ts : List Token}
    (hc : isIdentifierFirstChar c = true) (hw : ∀ d ∈ w, isIdentifierChar d = true)
    (hs : ∀ d, s.head? = some d → isIdentifierChar d = false) (h : Lex s ts) :
    Lex (c :: w ++ s) (wordToken (c :: w) :: ts) := by
  obtain ⟨f1, f2, f3, f4, f5, f6, f7, f8, f9, f10, f11⟩ := isIdentifierFirstChar_facts hc
  obtain ⟨e1, e2⟩ := takeWhile_all hw hs
  rw [List.cons_append]
  refine lex_scan f2 f3 ?_ h
  have hp : scanPunct (c :: (w ++ s)) = none := by
    unfold scanPunct
    simp [f1, f9, f10, f11]
  have hx : hexPrefix (c :: (w ++ s)) = none := by
    unfold hexPrefix; split <;> simp_all
  have hb : binaryPrefix (c :: (w ++ s)) = none := by
    unfold binaryPrefix; split <;> simp_all
  rw [scanToken, hp]
  simp only [hx, hb, f8, f7, hc, e1, e2, if_true, if_false, Bool.false_eq_true]

theorem mnemonic_word (m : Mnemonic) : ∃ c w, m.name = c :: w ∧
    isIdentifierFirstChar c = true ∧ (∀ d ∈ w, isIdentifierChar d = true) ∧
    wordToken (c :: w) = .mnem m := by
  have h : m.name ≠ [] ∧ (∀ d ∈ m.name.take 1, isIdentifierFirstChar d = true) ∧
      (∀ d ∈ m.name.tail, isIdentifierChar d = true) ∧ wordToken m.name = .mnem m := by
    cases m <;> decide +kernel
  obtain ⟨h1, h2, h3, h4⟩ := h
  cases hn : m.name with
  | nil => exact absurd hn h1
  | cons c w =>
    rw [hn] at h2 h3 h4
    exact ⟨c, w, rfl, h2 c (by simp), h3, h4⟩

theorem lex_mnemonic {m : Mnemonic} {s : Str} {ts : List Token}
    (hs : s = [] ∨ s.head? = some ' ') (h : Lex s ts) : Lex (m.name ++ s) (.mnem m :: ts) := by
  obtain ⟨c, w, hn, h1, h2, h3⟩ := mnemonic_word m
  rw [hn, ← h3]
  refine lex_word h1 h2 ?_ h
  rcases hs with rfl | hs
  · simp
  · rw [hs]; intro d hd; cases hd; decide

/-! ## Operands -/

/-- The tokens of a printed operand. -/
def argTokens (mode : Mode) (a b : Token) : List Token :=
  match mode with
  | .imp | .acc => []
  | .imm_b | .imm_w | .imm_fm | .imm_fx => [tok '#', a]
  | .dir_b | .dir_w | .dir_l | .rel8 | .rel16 => [a]
  | .dir_bx | .dir_wx | .dir_lx => [a, tok ',', tok 'X']
  | .dir_by | .dir_wy => [a, tok ',', tok 'Y']
  | .ind_b | .ind_w => [tok '(', a, tok ')']
  | .ind_bx | .ind_wx => [tok '(', a, tok ',', tok 'X', tok ')']
  | .ind_by => [tok '(', a, tok ')', tok ',', tok 'Y']
  | .lng_b | .lng_w => [tok '[', a, tok ']']
  | .lng_by => [tok '[', a, tok ']', tok ',', tok 'Y']
  | .stk => [a, tok ',', tok 'S']
  | .stk_y => [tok '(', a, tok ',', tok 'S', tok ')', tok ',', tok 'Y']
  | .mov => [tok '#', a, tok ',', tok '#', b]

/-- The operand printed for a mode is a literal of `w` hexadecimal digits. -/
def Printed (e : Expr) (t : Token) : Prop :=
  ∀ s ts, (∀ c, s.head? = some c → isHexDigit c = false) → Lex s ts → Lex (e.toStr ++ s) (t :: ts)

theorem printed_lit {v : Nat} {t : NumericType} (h : (t = .byte ∧ v < 256) ∨
    (t = .word ∧ v < 65536) ∨ (t = .long ∧ v < 16777216)) : Printed (.lit v t) (.lit v t) := by
  intro s ts hs hl
  rcases h with ⟨rfl, hv⟩ | ⟨rfl, hv⟩ | ⟨rfl, hv⟩
  · have : (NumericType.castTo .byte (v : Int)).toNat = v := by simp only [NumericType.castTo]; omega
    simp only [Expr.toStr, this]
    exact lex_hex (by decide) (by decide) (by simpa using hv) rfl hs hl
  · have : (NumericType.castTo .word (v : Int)).toNat = v := by simp only [NumericType.castTo]; omega
    simp only [Expr.toStr, this]
    exact lex_hex (by decide) (by decide) (by simpa using hv) rfl hs hl
  · have : (NumericType.castTo .long (v : Int)).toNat = v := by simp only [NumericType.castTo]; omega
    simp only [Expr.toStr, this]
    exact lex_hex (by decide) (by decide) (by simpa using hv) rfl hs hl

theorem lex_register {c : Char} (hc : c ∈ ['X', 'Y', 'S']) {s : Str} {ts : List Token}
    (hs : ∀ d, s.head? = some d → isIdentifierChar d = false) (h : Lex s ts) :
    Lex (c :: s) (tok c :: ts) := by
  have : isIdentifierFirstChar c = true ∧ wordToken [c] = tok c := by
    simp only [List.mem_cons, List.not_mem_nil, or_false] at hc
    rcases hc with rfl | rfl | rfl <;> decide +kernel
  rw [← this.2]
  exact lex_word (w := []) this.1 (by simp) hs h

theorem lex_args {mode : Mode} {e1 e2 : Expr} {a b : Token}
    (h1 : mode ≠ .imp → mode ≠ .acc → Printed e1 a) (h2 : mode = .mov → Printed e2 b) :
    Lex (argsToStr mode e1 e2) (argTokens mode a b) := by
  have nohex : ∀ {l : Str}, (∃ c t, l = c :: t ∧ c ∈ [',', ')', ']']) →
      ∀ c, l.head? = some c → isHexDigit c = false := by
    rintro l ⟨c, t, rfl, hc⟩ d hd
    cases hd
    simp only [List.mem_cons, List.not_mem_nil, or_false] at hc
    rcases hc with rfl | rfl | rfl <;> decide
  have e : ∀ {x : Expr} {t : Token}, Printed x t → Lex x.toStr [t] := by
    intro x t h
    have := h [] [] (by simp) lex_nil
    simpa using this
  have reg : ∀ {c : Char}, c ∈ ['X', 'Y', 'S'] → Lex [c] [tok c] := fun hc =>
    lex_register hc (by simp) lex_nil
  have regp : ∀ {c d : Char} {s : Str} {ts : List Token}, c ∈ ['X', 'Y', 'S'] → d = ')' →
      Lex s ts → Lex (c :: d :: s) (tok c :: tok d :: ts) := by
    rintro c d s ts hc rfl h
    exact lex_register hc (by simp; decide) (lex_punct (by simp) h)
  cases mode
  case imp => exact lex_nil
  case acc => exact lex_nil
  all_goals
    have h1 := h1 (by simp) (by simp)
    simp only [argsToStr, argTokens, List.cons_append, List.nil_append, List.append_assoc]
    apply lex_space
  case imm_b | imm_w | imm_fm | imm_fx => exact lex_punct (by simp) (e h1)
  case dir_b | dir_w | dir_l | rel8 | rel16 => exact e h1
  case dir_bx | dir_wx | dir_lx | dir_by | dir_wy | stk =>
    exact h1 _ _ (nohex ⟨_, _, rfl, by simp⟩) (lex_punct (by simp) (lex_space (reg (by simp))))
  case ind_b | ind_w =>
    exact lex_punct (by simp) (h1 _ _ (nohex ⟨_, _, rfl, by simp⟩) (lex_punct (by simp) lex_nil))
  case lng_b | lng_w =>
    exact lex_punct (by simp) (h1 _ _ (nohex ⟨_, _, rfl, by simp⟩) (lex_punct (by simp) lex_nil))
  case ind_bx | ind_wx =>
    exact lex_punct (by simp) (h1 _ _ (nohex ⟨_, _, rfl, by simp⟩) (lex_punct (by simp)
      (lex_space (regp (by simp) rfl lex_nil))))
  case ind_by | lng_by =>
    exact lex_punct (by simp) (h1 _ _ (nohex ⟨_, _, rfl, by simp⟩) (lex_punct (by simp)
      (lex_punct (by simp) (lex_space (reg (by simp))))))
  case stk_y =>
    exact lex_punct (by simp) (h1 _ _ (nohex ⟨_, _, rfl, by simp⟩) (lex_punct (by simp)
      (lex_space (regp (by simp) rfl (lex_punct (by simp) (lex_space (reg (by simp))))))))
  case mov =>
    exact lex_punct (by simp) (h1 _ _ (nohex ⟨_, _, rfl, by simp⟩) (lex_punct (by simp)
      (lex_space (lex_punct (by simp) (e (h2 rfl))))))

/-- The syntactic form in which a mode is printed. -/
def printedForm : Mode → SMode
  | .imp | .acc => .imp
  | .imm_b | .imm_w | .imm_fm | .imm_fx => .imm
  | .dir_b | .dir_w | .dir_l | .rel8 | .rel16 => .dir
  | .dir_bx | .dir_wx | .dir_lx => .dir_x
  | .dir_by | .dir_wy => .dir_y
  | .ind_b | .ind_w => .ind
  | .ind_bx | .ind_wx => .ind_x
  | .ind_by => .ind_y
  | .lng_b | .lng_w => .lng
  | .lng_by => .lng_y
  | .stk => .stk
  | .stk_y => .stk_y
  | .mov => .mov

theorem expression_lit (v : Int) (t : NumericType) (u : Token) (us : Toks) (hu : Follow u) :
    expression (.lit v t :: u :: us) = .ok (.mkLit v t, u :: us) := by
  simp only [Follow, List.mem_cons, List.not_mem_nil, or_false, not_or] at hu
  obtain ⟨h1, h2, h3, h4, h5⟩ := hu
  have hmul : mulOp u = none := by simp [mulOp, h3, h4]
  have hadd : addOp u = none := by simp [addOp, h1, h2]
  have hb : ∃ n, bound (.lit v t :: u :: us) = n + 4 := ⟨_, rfl⟩
  obtain ⟨n, hn⟩ := hb
  rw [expression, hn]
  simp only [expr, term, factor, comp, front, Res.bind_ok, unaryOp, List.tail_cons]
  simp [termLoop, exprLoop, front, hmul, hadd]

/-- The parser on the tokens of a printed instruction. -/
theorem operand_printed {m : Mnemonic} {mode : Mode} {v1 v2 : Int} {t1 t2 : NumericType} {am : Mode}
    (e1 : Expr) (e2 : Expr)
    (he1 : e1 = if mode = .imp ∨ mode = .acc then .null else .mkLit v1 t1)
    (he2 : e2 = if mode = .mov then .mkLit v2 t2 else .null)
    (hd : deduceMode m (printedForm mode) e1 e2 = .ok am) :
    operand m .none (argTokens mode (.lit v1 t1) (.lit v2 t2) ++ [.eol]) =
      .ok (⟨m, .none, am, e1, e2, .default⟩, [.eol]) := by
  have fe : Follow .eol := by simp [Follow]
  have fc : Follow (tok ',') := by simp [Follow]
  have fp : Follow (tok ')') := by simp [Follow]
  have fb : Follow (tok ']') := by simp [Follow]
  cases mode <;> simp only [printedForm] at hd <;> simp at he1 he2 <;> subst he1 he2 <;>
    simp [argTokens, operand, atEndOrSuffix, front, isEndOrSuffix, isEnd, create, createInstruction,
      hd, immediate, bracketed, parenthesized, indirectComma, bare, finish, confirmAtEndOrSuffix,
      confirmLegalRegister, isRegister, consume, expression_lit, fe, fc, fp, fb]

/-- The type of the operand decoded for a mode. -/
def decodedType : Mode → NumericType
  | .dir_l | .dir_lx => .long
  | .imm_w | .dir_w | .dir_wx | .dir_wy | .ind_w | .ind_wx | .lng_w => .word
  | _ => .byte

/-- A decoded operand that is not relative is a literal of the mode's type. -/
theorem decodeArgs_lit {mode : Mode} {bytes : List UInt8} {a1 a2 : Expr}
    (h : decodeArgs mode bytes = .ok (a1, a2)) (hr : mode ≠ .rel8 ∧ mode ≠ .rel16)
    (hf : mode ≠ .imm_fm ∧ mode ≠ .imm_fx) :
    ∃ v1 v2 : Nat, a1 = (if mode = .imp ∨ mode = .acc then .null else .lit v1 (decodedType mode)) ∧
      a2 = (if mode = .mov then .lit v2 .byte else .null) ∧
      (v1 : Int) = (decodedType mode).castTo v1 ∧ v1 < 16777216 ∧
      (decodedType mode = .byte → v1 < 256) ∧ (decodedType mode = .word → v1 < 65536) ∧
      v2 < 256 := by
  have lt8 : ∀ b : UInt8, b.toNat < 256 := fun b => b.toNat_lt
  have m8 : ∀ b : UInt8, ((b.toNat : Int) % 256) = b.toNat := fun b => by have := lt8 b; omega
  unfold decodeArgs at h
  cases mode <;> simp only [ne_eq, not_true_eq_false, and_false, false_and, reduceCtorEq] at hr hf <;>
    simp only at h
  case imp | acc => cases h; exact ⟨0, 0, by simp, by simp, by simp [decodedType, NumericType.castTo], by simp, by simp, by simp, by simp⟩
  case mov =>
    split at h
    · next b0 b1 _ =>
      cases h
      refine ⟨b1.toNat, b0.toNat, ?_, ?_, ?_, ?_, fun _ => lt8 _, ?_, lt8 _⟩
      · simp [Expr.mkLit, decodedType, NumericType.castTo, m8]
      · simp [Expr.mkLit, NumericType.castTo, m8]
      · simp [decodedType, NumericType.castTo, m8]
      · have := lt8 b1; omega
      · simp [decodedType]
    · cases h
  case dir_l | dir_lx =>
    split at h
    · next b0 b1 b2 _ =>
      cases h
      have := lt8 b0
      have := lt8 b1
      have := lt8 b2
      refine ⟨b0.toNat + b1.toNat * 256 + b2.toNat * 256 * 256, 0, ?_, by simp, ?_, by omega, ?_, ?_,
        by simp⟩
      · simp only [Expr.mkLit, decodedType, NumericType.castTo, reduceCtorEq, or_self, if_false,
          Expr.lit.injEq, and_true]; omega
      · simp only [decodedType, NumericType.castTo]; omega
      · simp [decodedType]
      · simp [decodedType]
    · cases h
  case imm_w | dir_w | dir_wx | dir_wy | ind_w | ind_wx | lng_w =>
    split at h
    · next b0 b1 _ =>
      cases h
      have := lt8 b0
      have := lt8 b1
      refine ⟨b0.toNat + b1.toNat * 256, 0, ?_, by simp, ?_, by omega, ?_, fun _ => by omega, by simp⟩
      · simp only [Expr.mkLit, decodedType, NumericType.castTo, reduceCtorEq, or_self, if_false,
          Expr.lit.injEq, and_true]; omega
      · simp only [decodedType, NumericType.castTo]; omega
      · simp [decodedType]
    · cases h
  all_goals
    split at h
    · next b0 _ =>
      cases h
      have := lt8 b0
      refine ⟨b0.toNat, 0, ?_, by simp, ?_, by omega, fun _ => lt8 _, ?_, by simp⟩
      · simp [Expr.mkLit, decodedType, NumericType.castTo, m8]
      · simp [decodedType, NumericType.castTo, m8]
      · simp [decodedType]
    · cases h

/-- The mode in which the assembler reads the printed form of each opcode. -/
def reads (op : UInt8) (r : Mode) : Bool :=
  deduceMode (decodeOpcode op).1 (printedForm r)
    (if r = .imp ∨ r = .acc then .null else .lit 0 (decodedType r))
    (if r = .mov then .lit 0 .byte else .null) = .ok (decodeOpcode op).2

theorem reads_all : ∀ n : Fin 256,
    let a := (decodeOpcode (UInt8.ofNat n)).2
    if a = .rel8 ∨ a = .rel16 then True
    else if a = .imm_fm ∨ a = .imm_fx then
      reads (UInt8.ofNat n) .imm_b = true ∧ reads (UInt8.ofNat n) .imm_w = true
    else reads (UInt8.ofNat n) a = true := by
  decide +kernel

/-- **C37 (partial).** The text of any decoded instruction other than a relative
branch or PER tokenizes and parses to one instruction, which becomes the decoded
one when the flags in force resolve its operand size.  Missing: relative operands,
for which the property fails (`C37_violated`). -/
theorem C37_reparse_partial (bytes : List UInt8) (f : StatusFlags) (i : Instruction)
    (h : decode bytes f = .ok i) (hr : i.mode ≠ .rel8 ∧ i.mode ≠ .rel16) :
    ∃ ts i0, tokenize i.toStr = .ok ts ∧ parse ts = .ok [.stmt (.instr i0)] ∧
      i0.fixAddressingMode f = .ok i := by
  unfold decode at h
  split at h
  · cases h
  next op bytes =>
  generalize hdo : decodeOpcode op = d at h
  obtain ⟨m, a⟩ := d
  simp only at h
  replace h := Res.bind_eq_ok.mp h
  obtain ⟨r, hres, h⟩ := h
  replace h := Res.bind_eq_ok.mp h
  obtain ⟨⟨a1, a2⟩, hargs, h⟩ := h
  cases h
  simp only at hr
  -- the resolved mode
  have hra : (a = .imm_fm ∧ (r = .imm_b ∧ f.m = .on ∨ r = .imm_w ∧ f.m = .off)) ∨
      (a = .imm_fx ∧ (r = .imm_b ∧ f.x = .on ∨ r = .imm_w ∧ f.x = .off)) ∨
      (a ≠ .imm_fm ∧ a ≠ .imm_fx ∧ r = a) := by
    by_cases h1 : a = .imm_fm
    · subst h1
      simp only [true_or, if_true] at hres
      cases hm : f.m <;> rw [hm] at hres <;> cases hres <;> simp
    · by_cases h2 : a = .imm_fx
      · subst h2
        simp only [reduceCtorEq, false_or, if_true, if_false] at hres
        cases hm : f.x <;> rw [hm] at hres <;> cases hres <;> simp
      · rw [if_neg (by simp [h1, h2])] at hres
        cases hres
        exact .inr (.inr ⟨h1, h2, rfl⟩)
  have hrf : r ≠ .imm_fm ∧ r ≠ .imm_fx := by
    rcases hra with ⟨_, ⟨rfl, _⟩ | ⟨rfl, _⟩⟩ | ⟨_, ⟨rfl, _⟩ | ⟨rfl, _⟩⟩ | ⟨h1, h2, rfl⟩ <;>
      first | decide | exact ⟨h1, h2⟩
  have hreads : reads op r = true := by
    have := reads_all ⟨op.toNat, op.toNat_lt⟩
    simp only [UInt8.ofNat_toNat, hdo] at this
    rcases hra with ⟨rfl, hh⟩ | ⟨rfl, hh⟩ | ⟨h1, h2, rfl⟩
    · simp only [reduceCtorEq, or_self, true_or, if_true, if_false] at this
      rcases hh with ⟨rfl, _⟩ | ⟨rfl, _⟩
      · exact this.1
      · exact this.2
    · simp only [reduceCtorEq, or_self, or_true, if_true, if_false] at this
      rcases hh with ⟨rfl, _⟩ | ⟨rfl, _⟩
      · exact this.1
      · exact this.2
    · rw [if_neg (by simp [hr]), if_neg (by simp [h1, h2])] at this
      exact this
  obtain ⟨v1, v2, he1, he2, hcast, hb, hb1, hb2, hv2⟩ := decodeArgs_lit hargs hr hrf
  have hd : deduceMode m (printedForm r) a1 a2 = .ok a := by
    simp only [reads, hdo, decide_eq_true_eq] at hreads
    rw [← hreads, he1, he2]
    by_cases hi : r = .imp ∨ r = .acc
    · have hm : r ≠ .mov := by rintro rfl; simp at hi
      simp [hi, hm]
    · rw [if_neg hi, if_neg hi]
      apply C11_sized_operands
      · rfl
      · split <;> rfl
      · simp [Expr.simpleIdentifier]
      · cases r <;> simp [Expr.type, decodedType]
      · intro hm
        have : r = .mov := by cases r <;> simp [printedForm] at hm ⊢
        simp [this, Expr.type]
  have hlit1 : r ≠ .imp → r ≠ .acc → Printed a1 (.lit v1 (decodedType r)) := by
    intro h1 h2
    rw [he1, if_neg (by simp [h1, h2])]
    apply printed_lit
    cases hdt : decodedType r with
    | byte => exact .inl ⟨rfl, hb1 hdt⟩
    | word => exact .inr (.inl ⟨rfl, hb2 hdt⟩)
    | long => exact .inr (.inr ⟨rfl, hb⟩)
    | _ => cases r <;> simp [decodedType] at hdt
  have hlit2 : r = .mov → Printed a2 (.lit v2 .byte) := by
    intro h1
    rw [he2, if_pos h1]
    exact printed_lit (.inl ⟨rfl, hv2⟩)
  have hlex : Lex (Instruction.toStr ⟨m, .none, r, a1, a2, .default⟩)
      (.mnem m :: argTokens r (.lit v1 (decodedType r)) (.lit v2 .byte)) := by
    have hsp : argsToStr r a1 a2 = [] ∨ (argsToStr r a1 a2).head? = some ' ' := by
      cases r <;> simp [argsToStr]
    have := lex_mnemonic (m := m) hsp (lex_args (b := .lit v2 .byte) hlit1 hlit2)
    simpa [Instruction.toStr, Suffix.name, ReturnConvention.toSuffixString] using this
  have hop : operand m .none (argTokens r (.lit v1 (decodedType r)) (.lit v2 .byte) ++ [.eol]) =
      .ok (⟨m, .none, a, a1, a2, .default⟩, [.eol]) := by
    refine operand_printed a1 a2 ?_ ?_ hd
    · rw [he1]; split
      · rfl
      · rw [Expr.mkLit, ← hcast]
    · rw [he2]; split
      · simp only [Expr.mkLit, NumericType.castTo, Expr.lit.injEq, and_true]; omega
      · rfl
  have hns : ∀ s, (argTokens r (.lit v1 (decodedType r)) (.lit v2 .byte) ++ [Token.eol]).head? ≠
      some (.suffix s) := by
    intro s; cases r <;> simp [argTokens]
  refine ⟨_, ⟨m, .none, a, a1, a2, .default⟩, hlex, ?_, ?_⟩
  · generalize argTokens r (.lit v1 (decodedType r)) (.lit v2 .byte) = ats at hop hns
    have hcore : instructionCore (.mnem m :: (ats ++ [.eol])) =
        .ok (⟨m, .none, a, a1, a2, .default⟩, [.eol]) := by
      unfold instructionCore
      simp only [front, Res.bind_ok, List.tail_cons]
      cases hq : ats ++ [.eol] with
      | nil => simp at hq
      | cons t q =>
        rw [hq] at hop hns
        cases t with
        | suffix s => exact absurd rfl (hns s)
        | _ => simpa using hop
    have hi : instruction (.mnem m :: (ats ++ [.eol])) =
        .ok (⟨m, .none, a, a1, a2, .default⟩, [.eol]) := by
      simp [instruction, hcore, returnConvention, front]
    have hst : lineStatement (.mnem m :: (ats ++ [.eol])) =
        .ok (some (.instr ⟨m, .none, a, a1, a2, .default⟩, [])) := by
      simp [lineStatement, front, isEnd, hi, atEnd]
    have hll : lineLabel (.mnem m :: (ats ++ [.eol])) =
        .ok (none, false, .mnem m :: (ats ++ [.eol])) := by
      simp [lineLabel, labelAt, front]
    rw [List.cons_append, parse, parseLoop, if_neg (by simp), hll]
    simp [hst, parseLoop]
  · rcases hra with ⟨rfl, ⟨rfl, hm⟩ | ⟨rfl, hm⟩⟩ | ⟨rfl, ⟨rfl, hm⟩ | ⟨rfl, hm⟩⟩ | ⟨h1, h2, rfl⟩
    · simp [Instruction.fixAddressingMode, hm]
    · simp [Instruction.fixAddressingMode, hm]
    · simp [Instruction.fixAddressingMode, hm]
    · simp [Instruction.fixAddressingMode, hm]
    · simp [Instruction.fixAddressingMode, h1, h2]

/-- **C37 (partial).** Assembling the reparsed text, with the same flags in force,
emits the bytes that were decoded. -/
theorem C37_same_bytes_partial (bytes : List UInt8) (f : StatusFlags) (i : Instruction)
    (addr : Addr) (haddr : addr < 0x1000000) (ctx : Ctx)
    (h : decode bytes f = .ok i) (hr : i.mode ≠ .rel8 ∧ i.mode ≠ .rel16) :
    ∃ ts i0 i1, tokenize i.toStr = .ok ts ∧ parse ts = .ok [.stmt (.instr i0)] ∧
      i0.fixAddressingMode f = .ok i1 ∧
      i1.assemble addr ctx logSink [] = ([(addr, bytes.take i.serializedSize)], .ok ()) := by
  obtain ⟨ts, i0, h1, h2, h3⟩ := C37_reparse_partial bytes f i h hr
  refine ⟨ts, i0, i, h1, h2, h3, (C07_assemble_decoded bytes f i addr haddr ctx h).2.1 ?_⟩
  rintro (h | h)
  · exact hr.1 h
  · exact hr.2 h

/-- **C37 fails** for relative operands: they are printed as decimal offsets, which
the parser rejects. -/
theorem C37_violated : ∃ bytes f i, decode bytes f = .ok i ∧
    (∃ ts, tokenize i.toStr = .ok ts ∧ parse ts = .err .mode) :=
  ⟨[0x80, 0x05], .default, _, rfl, _, rfl, by decide +kernel⟩

/-- `lda #$1234` in 16-bit mode meets the hypotheses. -/
example : ∃ i, decode [0xa9, 0x34, 0x12] (.make .off .off .unknown .unknown) = .ok i ∧
    i.mode = .imm_w ∧ i.toStr = cs!"lda #$1234" :=
  ⟨⟨.lda, .none, .imm_w, .lit 0x1234 .word, .null, .default⟩, by decide +kernel, rfl,
    by decide +kernel⟩

end Nsasm.Props
