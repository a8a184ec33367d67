import Verif.Lemmas.Dump
import Verif.Lemmas.Lex
import Verif.Spec.Print

/-! # Reading the text of a listing -/

namespace Nsasm
open Spec Props Parse

/-! ## Tokens -/

theorem lex_blanks {s : Str} {ts : List Token} (n : Nat) (h : Lex s ts) : Lex (List.replicate n ' ' ++ s) ts := by
  induction n with
  | zero => exact h
  | succ n ih => exact lex_space ih

/-- Blanks and a comment at the end. -/
theorem lex_tail {s : Str} {ts : List Token} (n : Nat) (c : Str) (h : Lex s ts) :
    Lex (s ++ List.replicate n ' ' ++ cs!" ; " ++ c) ts := by
  have h1 : tokenize (s ++ List.replicate n ' ' ++ cs!" ; " ++ c) = tokenize (s ++ List.replicate (n + 1) ' ') := by
    have e : s ++ List.replicate n ' ' ++ cs!" ; " ++ c = (s ++ List.replicate (n + 1) ' ') ++ ';' :: (' ' :: c) := by
      rw [List.replicate_succ']
      simp
    rw [e, C33_comment]
  have h2 := C33_blanks [] s (List.replicate (n + 1) ' ') (by simp) (by
    intro c hc
    rw [(List.mem_replicate.1 hc).2]
    exact (isSpace_iff ' ').1 rfl)
  unfold Props.Lex at *
  rw [h1]
  rw [List.nil_append] at h2
  rw [h2, h]

/-- Text, a blank, and more text. -/
theorem lex_sep {s t : Str} {ts us : List Token} (hs : ';' ∉ s) (h : Lex s ts) (h' : Lex t us) :
    Lex (s ++ ' ' :: t) (ts ++ us) := by
  have := (C33_blank_separates s t ' ' ((isSpace_iff ' ').1 rfl) hs).1 ts (us ++ [Token.eol]) h h'
  unfold Props.Lex
  rw [this, List.append_assoc]

theorem lex_colon {s : Str} {ts : List Token} (hs : s.head? ≠ some ':') (h : Lex s ts) : Lex (':' :: s) (tok ':' :: ts) := by
  refine lex_scan (by decide) (by decide) ?_ h
  have : scanPunct (':' :: s) = some (.ch ':', s) := by
    unfold scanPunct
    cases s with
    | nil => rfl
    | cons c s =>
      have hc : c ≠ ':' := by simpa using hs
      simp [isPunctChar, hc]
  rw [scanToken, this]

theorem lex_at {s : Str} {ts : List Token} (h : Lex s ts) : Lex ('@' :: s) (tok '@' :: ts) := by
  refine lex_scan (by decide) (by decide) ?_ h
  have : scanPunct ('@' :: s) = some (.ch '@', s) := by
    unfold scanPunct
    simp [isPunctChar]
  rw [scanToken, this]

/-- A word that is not reserved. -/
structure IsName (w : Str) : Prop where
  first : ∃ c t, w = c :: t ∧ isIdentifierFirstChar c = true
  chars : ∀ c ∈ w, isIdentifierChar c = true
  free : wordToken w = .ident w

theorem lex_name {w s : Str} {ts : List Token} (hw : IsName w)
    (hs : ∀ d, s.head? = some d → isIdentifierChar d = false) (h : Lex s ts) : Lex (w ++ s) (.ident w :: ts) := by
  obtain ⟨c, t, rfl, hc⟩ := hw.first
  rw [← hw.free]
  exact lex_word hc (fun d hd => hw.chars d (by simp [hd])) hs h

theorem IsName.clean {w : Str} (h : IsName w) : ';' ∉ w := fun hm => by
  have := h.chars ';' hm
  revert this; decide

theorem decimal_chars (n : Nat) : ∀ c ∈ decimal (n : Int), isDecimalDigit c = true := by
  have hk : ∀ k n, ∀ c ∈ digitsRev 10 k n, isDecimalDigit c = true := by
    intro k
    induction k with
    | zero => intro n c h; simp [digitsRev] at h
    | succ k ih =>
      intro n c h
      rw [digitsRev, List.mem_cons] at h
      rcases h with rfl | h
      · have : ∀ d : Fin 10, isDecimalDigit (digitChar d) = true := by decide +kernel
        exact this ⟨n % 10, Nat.mod_lt _ (by decide)⟩
      · split at h
        · simp at h
        · exact ih _ c h
  intro c h
  unfold decimal at h
  rw [if_neg (by omega)] at h
  exact hk _ _ c (by simpa [digits] using h)

theorem isName_numbered {p : Str} (hp : p = cs!"entry" ∨ p = cs!"label") (n : Nat) : IsName (p ++ decimal (n : Int)) := by
  have hch : ∀ c ∈ p ++ decimal (n : Int), isIdentifierChar c = true := by
    intro c hc
    rcases List.mem_append.1 hc with hc | hc
    · rcases hp with rfl | rfl
      · have : ∀ c ∈ cs!"entry", isIdentifierChar c = true := by decide
        exact this c hc
      · have : ∀ c ∈ cs!"label", isIdentifierChar c = true := by decide
        exact this c hc
    · simp [isIdentifierChar, decimal_chars n c hc]
  refine ⟨?_, hch, ?_⟩
  · rcases hp with rfl | rfl <;> exact ⟨_, _, rfl, by decide⟩
  · apply wordToken_free
    intro t ht
    have htake : (lower (p ++ decimal (n : Int))).take 5 = p := by
      rcases hp with rfl | rfl <;> rfl
    have hall : ∀ x ∈ reservedWords, x.1.take 5 ≠ cs!"entry" ∧ x.1.take 5 ≠ cs!"label" := by decide +kernel
    have := hall _ ht
    simp only [htake] at this
    rcases hp with rfl | rfl
    · exact this.1 rfl
    · exact this.2 rfl

/-- The names of flag states. -/
def modeNames : List Str := [cs!"unk", cs!"emu", cs!"native", cs!"m8", cs!"m16", cs!"x8", cs!"x16", cs!"m8x8",
  cs!"m8x16", cs!"m16x8", cs!"m16x16"]

theorem toName_mem (f : StatusFlags) : f.toName ∈ modeNames := by
  obtain ⟨e, m, x, c⟩ := f
  have : ∀ e m x : BitState, StatusFlags.toName ⟨e, m, x, .unknown⟩ ∈ modeNames := by
    intro e m x; cases e <;> cases m <;> cases x <;> decide +kernel
  exact this e m x

theorem isName_mode (f : StatusFlags) : IsName f.toName := by
  have : ∀ w ∈ modeNames, w ≠ [] ∧ (∀ d ∈ w.take 1, isIdentifierFirstChar d = true) ∧
      (∀ d ∈ w, isIdentifierChar d = true) ∧ wordToken w = .ident w := by decide +kernel
  obtain ⟨h1, h2, h3, h4⟩ := this _ (toName_mem f)
  refine ⟨?_, h3, h4⟩
  cases hw : f.toName with
  | nil => exact absurd hw h1
  | cons c t => exact ⟨c, t, rfl, h2 c (by rw [hw]; simp)⟩

/-! ## Instructions -/

/-- A token after the operand. -/
def EndTok (u : Token) : Prop := u = .eol ∨ u = .punct .yields ∨ u = .punct .noreturn

theorem operand_listed {m : Mnemonic} {s : Suffix} {mode : Mode} {v1 v2 : Int} {t1 t2 : NumericType} {am : Mode}
    {u : Token} {us : List Token} (hu : EndTok u) (e1 : Expr) (e2 : Expr)
    (he1 : e1 = if mode = .imp ∨ mode = .acc then .null else .mkLit v1 t1)
    (he2 : e2 = if mode = .mov then .mkLit v2 t2 else .null)
    (hs : s ≠ .none → flagControllingInstructionSize m ≠ .notVariable)
    (hd : deduceMode m (printedForm mode) e1 e2 = .ok am) :
    operand m s (argTokens mode (.lit v1 t1) (.lit v2 t2) ++ u :: us) =
      .ok (⟨m, s, am, e1, e2, .default⟩, u :: us) := by
  have fc : Follow (tok ',') := by simp [Follow]
  have fp : Follow (tok ')') := by simp [Follow]
  have fb : Follow (tok ']') := by simp [Follow]
  have hs' : ¬ (s ≠ .none ∧ flagControllingInstructionSize m = .notVariable) := fun h => hs h.1 h.2
  have hcr : ∀ sm a b ts, deduceMode m sm a b = .ok am → create m s sm a b ts = .ok (⟨m, s, am, a, b, .default⟩, ts) := by
    intro sm a b ts h
    rw [create, createInstruction, h, Res.bind_ok, if_neg hs', Res.bind_ok]
  have hfo : Follow u ∧ isEndOrSuffix u = true := by
    rcases hu with rfl | rfl | rfl <;> exact ⟨by simp [Follow], rfl⟩
  obtain ⟨fu, hu⟩ := hfo
  have n1 : ∀ v t, isEndOrSuffix (.lit v t) = false := fun _ _ => rfl
  have n2 : isEndOrSuffix (tok '#') = false := rfl
  have n3 : isEndOrSuffix (tok '[') = false := rfl
  have n4 : isEndOrSuffix (tok '(') = false := rfl
  have n5 : isEndOrSuffix (tok ',') = false := rfl
  cases mode
  all_goals
    simp only [printedForm] at hd
    simp at he1 he2
    subst he1 he2
    simp [argTokens, operand, atEndOrSuffix, front, hu, hcr _ _ _ _ hd, immediate, bracketed, parenthesized, indirectComma,
      bare, finish, confirmAtEndOrSuffix, confirmLegalRegister, isRegister, consume, expression_lit, fu, fc, fp, fb,
      n1, n2, n3, n4, n5]

/-- The tokens of a name. -/
def nameTokens (ty : NumericType) (n : Str) : List Token := if ty = .long then [tok '@', .ident n] else [.ident n]

theorem expression_name {n : Str} {ty : NumericType} (ht : ty = .long ∨ ty = .word) {u : Token} {us : List Token}
    (hu : EndTok u) : expression (nameTokens ty n ++ u :: us) = .ok (.ident ⟨none, n⟩ ty, u :: us) := by
  rcases ht with rfl | rfl <;> rcases hu with rfl | rfl | rfl <;>
    simp [nameTokens, expression, bound, expr, term, factor, comp, compIdent, front, unaryOp, termLoop, exprLoop, mulOp,
      addOp, isEnd]

theorem operand_name {m : Mnemonic} {n : Str} {ty : NumericType} (ht : ty = .long ∨ ty = .word) {u : Token}
    {us : List Token} (hu : EndTok u) {am : Mode} (hd : deduceMode m .dir (.ident ⟨none, n⟩ ty) .null = .ok am) :
    operand m .none (nameTokens ty n ++ u :: us) = .ok (⟨m, .none, am, .ident ⟨none, n⟩ ty, .null, .default⟩, u :: us) := by
  have he := expression_name (n := n) ht (us := us) hu
  have hcr : create m .none .dir (.ident ⟨none, n⟩ ty) .null (u :: us) =
      .ok (⟨m, .none, am, .ident ⟨none, n⟩ ty, .null, .default⟩, u :: us) := by
    rw [create, createInstruction, hd, Res.bind_ok, if_neg (by simp), Res.bind_ok]
  have hend : isEndOrSuffix u = true := by rcases hu with rfl | rfl | rfl <;> rfl
  have hb : bare m .none (nameTokens ty n ++ u :: us) =
      .ok (⟨m, .none, am, .ident ⟨none, n⟩ ty, .null, .default⟩, u :: us) := by
    rw [bare, he]
    simp [atEndOrSuffix, front, hend, hcr]
  rw [operand]
  rcases ht with rfl | rfl <;> simp only [nameTokens, if_true, reduceCtorEq, if_false, List.cons_append, List.nil_append] at hb ⊢ <;>
    simp [atEndOrSuffix, front, isEndOrSuffix, isEnd, confirmLegalRegister, isRegister, hb]

/-- The tokens of a size suffix. -/
def suffixTokens : Suffix → List Token
  | .none => []
  | s => [.suffix s]

/-- The tokens of a return convention. -/
def retTokens : ReturnConvention → List Token
  | .default => []
  | .yields f => [.punct .yields, .ident f.toName]
  | .noreturn => [.punct .noreturn]

/-- A return convention that can be written down. -/
def RetWritten (r : ReturnConvention) : Prop := ∀ f, r = .yields f → StatusFlags.fromName f.toName = some f ∧ f.toStr = f.toName

theorem retTokens_end (r : ReturnConvention) : ∃ u us, retTokens r ++ [.eol] = u :: us ∧ EndTok u := by
  cases r
  · exact ⟨_, _, rfl, .inl rfl⟩
  · exact ⟨_, _, rfl, .inr (.inl rfl)⟩
  · exact ⟨_, _, rfl, .inr (.inr rfl)⟩

theorem returnConvention_reads {r : ReturnConvention} (h : RetWritten r) :
    returnConvention (retTokens r ++ [.eol]) = .ok (r, [.eol]) := by
  cases r with
  | default => rfl
  | yields f => simp [returnConvention, retTokens, front, mode, (h f rfl).1]
  | noreturn => rfl

theorem instruction_listed {m : Mnemonic} {s : Suffix} {ats : List Token} {r : ReturnConvention} {am : Mode} {e1 e2 : Expr}
    (hr : RetWritten r) (hrm : r ≠ .default → m = .jsl ∨ m = .jsr) (hats : ∀ s, ats.head? ≠ some (.suffix s))
    (hop : operand m s (ats ++ (retTokens r ++ [.eol])) = .ok (⟨m, s, am, e1, e2, .default⟩, retTokens r ++ [.eol])) :
    instruction (.mnem m :: (suffixTokens s ++ (ats ++ (retTokens r ++ [.eol])))) = .ok (⟨m, s, am, e1, e2, r⟩, [.eol]) := by
  obtain ⟨u, us, hu, hut⟩ := retTokens_end r
  have hcore : instructionCore (.mnem m :: (suffixTokens s ++ (ats ++ (retTokens r ++ [.eol])))) =
      .ok (⟨m, s, am, e1, e2, .default⟩, retTokens r ++ [.eol]) := by
    unfold instructionCore
    simp only [front, Res.bind_ok, List.tail_cons]
    cases s with
    | none =>
      simp only [suffixTokens, List.nil_append]
      cases hq : ats ++ (retTokens r ++ [.eol]) with
      | nil => rw [hu] at hq; simp at hq
      | cons t q =>
        have hns : ∀ s, t ≠ .suffix s := by
          rintro s rfl
          cases ats with
          | nil =>
            rw [hu, List.nil_append] at hq
            cases hq
            rcases hut with h | h | h <;> cases h
          | cons t' ts' =>
            simp at hq
            exact hats s (by simp [hq.1])
        rw [hq] at hop
        cases t with
        | suffix s => exact absurd rfl (hns s)
        | _ => simpa using hop
    | b => simpa [suffixTokens] using hop
    | w => simpa [suffixTokens] using hop
  unfold instruction
  rw [hcore, Res.bind_ok]
  simp only
  rw [returnConvention_reads hr, Res.bind_ok]
  simp only
  rw [if_neg]
  rintro ⟨h1, h2, h3⟩
  rcases hrm h1 with h | h
  · exact h2 h
  · exact h3 h

/-! ## Lines -/

/-- The tokens of one statement. -/
structure StmtReads (ts : List Token) (st : Statement) : Prop where
  statement : lineStatement (ts ++ [.eol]) = .ok (some (st, []))
  label : lineLabel (ts ++ [.eol]) = .ok (none, false, ts ++ [.eol])

theorem stmt_instruction {m : Mnemonic} {ts : List Token} {i : Instruction}
    (h : instruction (.mnem m :: (ts ++ [.eol])) = .ok (i, [.eol])) : StmtReads (.mnem m :: ts) (.instr i) := by
  refine ⟨?_, ?_⟩
  · rw [List.cons_append]
    simp [lineStatement, front, isEnd, h, atEnd]
  · rw [List.cons_append]
    simp [lineLabel, labelAt, front]

theorem stmt_directive {n : DirectiveName} {ts : List Token} {d : Directive}
    (h : directive n (ts ++ [.eol]) = .ok (d, [.eol])) : StmtReads (.dir n :: ts) (.dir d) := by
  refine ⟨?_, ?_⟩
  · rw [List.cons_append]
    simp [lineStatement, front, isEnd, h, atEnd]
  · rw [List.cons_append]
    simp [lineLabel, labelAt, front]

theorem parseLoop_stmt {ts : List Token} {st : Statement} (h : StmtReads ts st) (n : Nat) :
    parseLoop (n + 2) (ts ++ [.eol]) = .ok [.stmt st] := by
  rw [parseLoop, if_neg (by simp), h.label]
  simp [h.statement, parseLoop]

theorem parse_stmt {ts : List Token} {st : Statement} (h : StmtReads ts st) (hne : ts ≠ []) :
    parse (ts ++ [.eol]) = .ok [.stmt st] := by
  rw [parse]
  cases ts with
  | nil => exact absurd rfl hne
  | cons t ts =>
    have : ∃ n, ((t :: ts) ++ [Token.eol]).length + 1 = n + 2 := ⟨ts.length + 1, by simp⟩
    obtain ⟨n, hn⟩ := this
    rw [hn]
    exact parseLoop_stmt h n

theorem parse_labelled {ts : List Token} {st : Statement} (h : StmtReads ts st) (l : Str) :
    parse (.ident l :: tok ':' :: (ts ++ [.eol])) = .ok [.label ⟨l, false⟩, .stmt st] := by
  have : ∃ n, (Token.ident l :: tok ':' :: (ts ++ [Token.eol])).length + 1 = n + 3 := ⟨ts.length + 1, by simp⟩
  obtain ⟨n, hn⟩ := this
  rw [parse, hn, parseLoop, if_neg (by simp)]
  have hl : lineLabel (.ident l :: tok ':' :: (ts ++ [.eol])) = .ok (some ⟨l, false⟩, true, ts ++ [.eol]) := by
    simp [lineLabel, labelAt, front]
  rw [hl]
  simp [parseLoop_stmt h n]

/-! ## Decoded instructions -/

/-- What the assembler makes of the operand of a decoded instruction. -/
structure ReadsOperand (m : Mnemonic) (j : Instruction) (a : Mode) (v1 v2 : Nat) : Prop where
  arg1 : j.arg1 = if j.mode = .imp ∨ j.mode = .acc then .null else .mkLit v1 (decodedType j.mode)
  arg2 : j.arg2 = if j.mode = .mov then .mkLit v2 .byte else .null
  print1 : j.mode ≠ .imp → j.mode ≠ .acc → Printed j.arg1 (.lit v1 (decodedType j.mode))
  print2 : j.mode = .mov → Printed j.arg2 (.lit v2 .byte)
  clean : ';' ∉ argsToStr j.mode j.arg1 j.arg2
  deduced : deduceMode m (printedForm j.mode) j.arg1 j.arg2 = .ok a
  fixed : ∀ f s e1 e2 r, SizeAgrees m j.mode f →
    Instruction.fixAddressingMode ⟨m, s, a, e1, e2, r⟩ f = .ok ⟨m, s, j.mode, e1, e2, r⟩

theorem deduce_pseudo {m mn : Mnemonic} (h : (m = .adc ∧ mn = .padd) ∨ (m = .sbc ∧ mn = .psub)) (sm : SMode) (a b : Expr) :
    deduceMode mn sm a b = deduceMode m sm a b := by
  rcases h with ⟨rfl, rfl⟩ | ⟨rfl, rfl⟩ <;> unfold deduceMode <;> cases sm <;> rfl

theorem hex_clean (w n : Nat) : ';' ∉ hexPadded w n := by
  intro h
  unfold hexPadded at h
  rcases List.mem_append.1 h with h | h
  · exact absurd (List.mem_replicate.1 h).2 (by decide)
  · have := (digits_spec n).2.1 ';' h
    revert this; decide

theorem lit_clean (v : Nat) (t : NumericType) (ht : t = .byte ∨ t = .word ∨ t = .long) : ';' ∉ (Expr.lit v t).toStr := by
  rcases ht with rfl | rfl | rfl <;> simp [Expr.toStr, hex_clean]

theorem decoded_reads {bytes : List UInt8} {f : StatusFlags} {j : Instruction} (h : decode bytes f = .ok j)
    (hr : j.mode ≠ .rel8 ∧ j.mode ≠ .rel16) {mn : Mnemonic}
    (hmn : mn = j.mnemonic ∨ (j.mnemonic = .adc ∧ mn = .padd) ∨ (j.mnemonic = .sbc ∧ mn = .psub)) :
    ∃ a v1 v2, ReadsOperand mn j a v1 v2 := by
  unfold decode at h
  split at h
  · cases h
  next op bytes =>
  generalize hdo : decodeOpcode op = d at h
  obtain ⟨m, a⟩ := d
  simp only at h
  replace h := Res.bind_eq_ok.mp h
  obtain ⟨r, hres, h⟩ := h
  replace h := Res.bind_eq_ok.mp h
  obtain ⟨⟨a1, a2⟩, hargs, h⟩ := h
  cases h
  simp only at hr hmn
  -- the resolved mode
  have hra : (a = .imm_fm ∧ (r = .imm_b ∧ f.m = .on ∨ r = .imm_w ∧ f.m = .off)) ∨
      (a = .imm_fx ∧ (r = .imm_b ∧ f.x = .on ∨ r = .imm_w ∧ f.x = .off)) ∨
      (a ≠ .imm_fm ∧ a ≠ .imm_fx ∧ r = a) := by
    by_cases h1 : a = .imm_fm
    · subst h1
      simp only [true_or, if_true] at hres
      cases hm : f.m <;> rw [hm] at hres <;> cases hres <;> simp
    · by_cases h2 : a = .imm_fx
      · subst h2
        simp only [reduceCtorEq, false_or, if_true, if_false] at hres
        cases hm : f.x <;> rw [hm] at hres <;> cases hres <;> simp
      · rw [if_neg (by simp [h1, h2])] at hres
        cases hres
        exact .inr (.inr ⟨h1, h2, rfl⟩)
  have hrf : r ≠ .imm_fm ∧ r ≠ .imm_fx := by
    rcases hra with ⟨_, ⟨rfl, _⟩ | ⟨rfl, _⟩⟩ | ⟨_, ⟨rfl, _⟩ | ⟨rfl, _⟩⟩ | ⟨h1, h2, rfl⟩ <;>
      first | decide | exact ⟨h1, h2⟩
  have hreads : reads op r = true := by
    have := reads_all ⟨op.toNat, op.toNat_lt⟩
    simp only [UInt8.ofNat_toNat, hdo] at this
    rcases hra with ⟨rfl, hh⟩ | ⟨rfl, hh⟩ | ⟨h1, h2, rfl⟩
    · simp only [reduceCtorEq, or_self, true_or, if_true, if_false] at this
      rcases hh with ⟨rfl, _⟩ | ⟨rfl, _⟩
      · exact this.1
      · exact this.2
    · simp only [reduceCtorEq, or_self, or_true, if_true, if_false] at this
      rcases hh with ⟨rfl, _⟩ | ⟨rfl, _⟩
      · exact this.1
      · exact this.2
    · rw [if_neg (by simp [hr]), if_neg (by simp [h1, h2])] at this
      exact this
  obtain ⟨v1, v2, he1, he2, hcast, hb, hb1, hb2, hv2⟩ := decodeArgs_lit hargs hr hrf
  have hd : deduceMode m (printedForm r) a1 a2 = .ok a := by
    simp only [reads, hdo, decide_eq_true_eq] at hreads
    rw [← hreads, he1, he2]
    by_cases hi : r = .imp ∨ r = .acc
    · have hm : r ≠ .mov := by rintro rfl; simp at hi
      simp [hi, hm]
    · rw [if_neg hi, if_neg hi]
      apply C11_sized_operands
      · rfl
      · split <;> rfl
      · simp [Expr.simpleIdentifier]
      · cases r <;> simp [Expr.type, decodedType]
      · intro hm
        have : r = .mov := by cases r <;> simp [printedForm] at hm ⊢
        simp [this, Expr.type]
  have hty : decodedType r = .byte ∨ decodedType r = .word ∨ decodedType r = .long := by
    cases r <;> simp [decodedType]
  have hlit1 : r ≠ .imp → r ≠ .acc → Printed a1 (.lit v1 (decodedType r)) := by
    intro h1 h2
    rw [he1, if_neg (by simp [h1, h2])]
    apply printed_lit
    rcases hty with hdt | hdt | hdt
    · exact .inl ⟨hdt, hb1 hdt⟩
    · exact .inr (.inl ⟨hdt, hb2 hdt⟩)
    · exact .inr (.inr ⟨hdt, hb⟩)
  have hlit2 : r = .mov → Printed a2 (.lit v2 .byte) := by
    intro h1
    rw [he2, if_pos h1]
    exact printed_lit (.inl ⟨rfl, hv2⟩)
  refine ⟨a, v1, v2, ⟨?_, ?_, hlit1, hlit2, ?_, ?_, ?_⟩⟩
  · simp only
    rw [he1]; split
    · rfl
    · rw [Expr.mkLit, ← hcast]
  · simp only
    rw [he2]; split
    · simp only [Expr.mkLit, NumericType.castTo, Expr.lit.injEq, and_true]; omega
    · rfl
  · have c1 : r ≠ .imp → r ≠ .acc → ';' ∉ a1.toStr := by
      intro h1 h2
      rw [he1, if_neg (by simp [h1, h2])]
      exact lit_clean v1 _ hty
    have c2 : r = .mov → ';' ∉ a2.toStr := by
      intro h1
      rw [he2, if_pos h1]
      exact lit_clean v2 _ (.inl rfl)
    simp only
    cases r <;> simp [argsToStr] at c1 c2 ⊢ <;> first | exact c1 | exact ⟨c1, c2⟩
  · simp only
    rcases hmn with rfl | hmn
    · exact hd
    · rw [deduce_pseudo hmn]; exact hd
  · intro f' s e1 e2 rc hsz
    simp only at hsz ⊢
    have hflag := decode_flag_entries op
    rw [hdo] at hflag
    obtain ⟨g1, g2, -, -⟩ := hflag
    simp only at g1 g2
    rcases hra with ⟨rfl, hrr⟩ | ⟨rfl, hrr⟩ | ⟨h1, h2, rfl⟩
    · have hM : SizedByM mn := by
        rcases hmn with rfl | ⟨rfl, rfl⟩ | ⟨rfl, rfl⟩
        · exact (g1 rfl).1
        · decide
        · decide
      have := hsz.1 hM
      rcases hrr with ⟨rfl, -⟩ | ⟨rfl, -⟩
      · simp [Instruction.fixAddressingMode, this.1 rfl]
      · simp [Instruction.fixAddressingMode, this.2 rfl]
    · have hX : SizedByX mn := by
        rcases hmn with rfl | ⟨rfl, rfl⟩ | ⟨rfl, rfl⟩
        · exact (g2 rfl).1
        · exact absurd (g2 rfl).1 (by decide)
        · exact absurd (g2 rfl).1 (by decide)
      have := hsz.2 hX
      rcases hrr with ⟨rfl, -⟩ | ⟨rfl, -⟩
      · simp [Instruction.fixAddressingMode, this.1 rfl]
      · simp [Instruction.fixAddressingMode, this.2 rfl]
    · simp [Instruction.fixAddressingMode, h1, h2]

/-! ## The text of an instruction -/

theorem suffix_clean (s : Suffix) : ';' ∉ s.name := by cases s <;> decide

theorem mnemonic_clean (m : Mnemonic) : ';' ∉ m.name := by cases m <;> decide +kernel

theorem lex_suffixed {m : Mnemonic} {s : Suffix} {t : Str} {ts : List Token} (ht : t = [] ∨ t.head? = some ' ')
    (h : Lex t ts) : Lex (m.name ++ (s.name ++ t)) (.mnem m :: (suffixTokens s ++ ts)) := by
  have hh : ∀ d, t.head? = some d → isIdentifierChar d = false := by
    intro d hd
    rcases ht with rfl | ht
    · simp at hd
    · rw [ht] at hd; cases hd; decide
  have h2 : Lex (s.name ++ t) (suffixTokens s ++ ts) := by
    cases s with
    | none => exact h
    | b => exact lex_dotted (w := cs!"b") (by decide) hh (t := .suffix .b) (by decide) h
    | w => exact lex_dotted (w := cs!"w") (by decide) hh (t := .suffix .w) (by decide) h
  obtain ⟨c, w, hn, h3, h4, h5⟩ := mnemonic_word m
  rw [hn, ← h5]
  refine lex_word h3 h4 ?_ h2
  intro d hd
  cases s with
  | none => exact hh d hd
  | b => cases hd; decide
  | w => cases hd; decide

theorem lex_returned {s : Str} {ts : List Token} {r : ReturnConvention} (hr : RetWritten r) (hs : ';' ∉ s) (h : Lex s ts) :
    Lex (s ++ r.toSuffixString) (ts ++ retTokens r) ∧ ';' ∉ s ++ r.toSuffixString := by
  cases r with
  | default => simpa [ReturnConvention.toSuffixString, retTokens] using ⟨h, hs⟩
  | yields f =>
    have hm := isName_mode f
    have h1 : Lex (f.toName) [.ident f.toName] := by
      have := lex_name (s := []) hm (by simp) lex_nil
      simpa using this
    have h2 : Lex (cs!"yields " ++ f.toName) [.punct .yields, .ident f.toName] := by
      have := lex_word (c := 'y') (w := cs!"ields") (s := ' ' :: f.toName) (by decide) (by decide)
        (by intro d hd; cases hd; decide) (lex_space h1)
      have e : wordToken cs!"yields" = .punct .yields := by decide +kernel
      rw [e] at this
      exact this
    have e : (ReturnConvention.yields f).toSuffixString = ' ' :: (cs!"yields " ++ f.toName) := by
      rw [ReturnConvention.toSuffixString, (hr f rfl).2]; rfl
    rw [e]
    refine ⟨lex_sep hs h h2, ?_⟩
    have := hm.clean
    simp [hs, this]
  | noreturn =>
    have h2 : Lex cs!"noreturn" [.punct .noreturn] := by
      have := lex_word (c := 'n') (w := cs!"oreturn") (s := []) (by decide) (by decide) (by simp) lex_nil
      have e : wordToken cs!"noreturn" = .punct .noreturn := by decide +kernel
      rw [e] at this
      exact this
    refine ⟨lex_sep hs h h2, ?_⟩
    simp [ReturnConvention.toSuffixString, hs]

/-- The text of an instruction, and what the parser makes of it. -/
structure TextReads (i i0 : Instruction) : Prop where
  text : ∃ ts, Lex i.toStr ts ∧ StmtReads ts (.instr i0) ∧ ts ≠ []
  clean : ';' ∉ i.toStr
  back : ReadBack i i0

theorem text_reads {i : Instruction} {ats : List Token} {am : Mode} (hr : RetWritten i.ret)
    (hrm : i.ret ≠ .default → i.mnemonic = .jsl ∨ i.mnemonic = .jsr)
    (hargs : Lex (argsToStr i.mode i.arg1 i.arg2) ats) (hclean : ';' ∉ argsToStr i.mode i.arg1 i.arg2)
    (hats : ∀ s, ats.head? ≠ some (.suffix s))
    (hop : ∀ u us, EndTok u → operand i.mnemonic i.suffix (ats ++ u :: us) =
      .ok (⟨i.mnemonic, i.suffix, am, writtenOperand i.arg1, i.arg2, .default⟩, u :: us))
    (hfix : ∀ f, SizeAgrees i.mnemonic i.mode f →
      ({ asWritten i with mode := am } : Instruction).fixAddressingMode f = .ok (asWritten i)) :
    TextReads i { asWritten i with mode := am } := by
  obtain ⟨u, us, hu, hut⟩ := retTokens_end i.ret
  have hsp : argsToStr i.mode i.arg1 i.arg2 = [] ∨ (argsToStr i.mode i.arg1 i.arg2).head? = some ' ' := by
    cases i.mode <;> simp [argsToStr]
  have h1 := lex_suffixed (m := i.mnemonic) (s := i.suffix) hsp hargs
  have hcl : ';' ∉ i.mnemonic.name ++ (i.suffix.name ++ argsToStr i.mode i.arg1 i.arg2) := by
    simp only [List.mem_append, not_or]
    exact ⟨mnemonic_clean _, suffix_clean _, hclean⟩
  obtain ⟨h2, h3⟩ := lex_returned hr hcl h1
  have e : i.toStr = i.mnemonic.name ++ (i.suffix.name ++ argsToStr i.mode i.arg1 i.arg2) ++ i.ret.toSuffixString := by
    rw [Instruction.toStr]; simp
  refine ⟨⟨_, by rw [e]; exact h2, ?_, by simp⟩, by rw [e]; exact h3, rfl, hfix⟩
  rw [List.cons_append]
  apply stmt_instruction
  rw [List.append_assoc, List.append_assoc]
  have := hop u us hut
  rw [← hu] at this
  exact instruction_listed hr hrm hats this

end Nsasm
