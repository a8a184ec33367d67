import Verif.Lemmas.Lex

/-! # C59: lines are read as their longest lexemes -/

namespace Nsasm.Props
open Nsasm Nsasm.Spec

/-- **C59.** The tokenizer accepts exactly the texts that are blanks, lexemes and perhaps a comment,
where each lexeme is the longest one possible, and gives their tokens; of a number it keeps the low 32
bits. -/
theorem C59_accepts (s : Str) (us : List Token) :
    tokenize s = .ok us ↔ ∃ ts, Reads s ts ∧ us = ts.map keptToken := by
  constructor
  · exact reads_of_tokenize
  · rintro ⟨ts, h, rfl⟩
    exact tokenize_reads h

/-- **C59**, partial: the tokens are exactly those of the text.  Missing: numbers of 2^31 and more, which
come out as other numbers (`C59_violated`). -/
theorem C59_tokens_partial (s : Str) (ts : List Token) (h : Reads s ts) (small : Moderate ts) :
    tokenize s = .ok ts := by
  rw [tokenize_reads h]
  congr 1
  have hpos : ∀ {s ts}, Reads s ts → ∀ v t, Token.lit v t ∈ ts → 0 ≤ v := by
    intro s ts h
    induction h with
    | stop => simp
    | comment => simp
    | token blank lexeme longest after ih =>
      intro v t hm
      rcases List.mem_cons.mp hm with hm | hm
      · subst hm
        cases lexeme with
        | dollar => exact Int.natCast_nonneg _
        | hex => exact Int.natCast_nonneg _
        | binary => exact Int.natCast_nonneg _
        | decimal => exact Int.natCast_nonneg _
        | reserved first rest known =>
          have : ∀ x ∈ reservedWords, ∀ v t, x.2 ≠ .lit v t := by
            intro x hx v t he
            have : ∀ x ∈ reservedWords, (match x.2 with | .lit _ _ => false | _ => true) = true := by decide +kernel
            have := this x hx
            rw [he] at this; cases this
          exact absurd rfl (this _ known v t)
        | dotted rest known =>
          have : ∀ x ∈ dottedWords, (match x.2 with | .lit _ _ => false | _ => true) = true := by decide +kernel
          exact absurd (this _ known) (by simp)
      · exact ih v t hm
  have hp := hpos h
  clear h hpos
  induction ts with
  | nil => rfl
  | cons a ts ih =>
    rw [List.map_cons, ih (fun v t hm => small v t (List.mem_cons_of_mem _ hm))
      (fun v t hm => hp v t (List.mem_cons_of_mem _ hm))]
    congr 1
    cases a with
    | lit v t =>
      have h1 := small v t (by simp)
      have h2 := hp v t (by simp)
      simp only [keptToken, kept, Token.lit.injEq, and_true]
      rw [if_pos (by omega)]
      exact Int.bmod_eq_of_le (by omega) (by omega)
    | _ => rfl

/-- A text and its tokens: `  Lda $12,x ; load`. -/
example : Reads cs!"  Lda $12,x ; load"
    [.mnem .lda, .lit 0x12 .byte, .punct (.ch ','), .punct (.ch 'X'), .eol] ∧
    Moderate [.mnem .lda, .lit 0x12 .byte, .punct (.ch ','), .punct (.ch 'X'), .eol] := by
  have letter : ∀ c l, l ∈ cs!"abcdefghijklmnopqrstuvwxyz_" → c.toLower = l → Letter c := fun _ l hl hc => ⟨l, hl, hc⟩
  refine ⟨.token (b := cs!"  ") (w := cs!"Lda") (rest := cs!" $12,x ; load") (by simp [Blank]) ?_
    (longest_of_scan (t' := .mnem .lda) (by decide +kernel))
    (.token (b := cs!" ") (w := cs!"$12") (rest := cs!",x ; load") (by simp [Blank]) ?_
      (longest_of_scan (t' := .lit 0x12 .byte) (by decide +kernel))
      (.token (b := []) (w := cs!",") (rest := cs!"x ; load") (by simp) (.symbol (by decide +kernel))
        (longest_of_scan (t' := .punct (.ch ',')) (by decide +kernel))
        (.token (b := []) (w := cs!"x") (rest := cs!" ; load") (by simp) ?_
          (longest_of_scan (t' := .punct (.ch 'X')) (by decide +kernel))
          (.comment (b := cs!" ") (rest := cs!" load") (by simp [Blank]))))), ?_⟩
  · exact .reserved (letter 'L' 'l' (by decide) (by decide +kernel))
      (by simp only [List.mem_cons, List.not_mem_nil, or_false, forall_eq_or_imp, forall_eq]
          exact ⟨.inl (letter 'd' 'd' (by decide) (by decide +kernel)), .inl (letter 'a' 'a' (by decide) (by decide +kernel))⟩)
      (by decide +kernel)
  · exact .dollar (ds := cs!"12") (n := 1 * 16 + 2)
      (.more (ds := cs!"1") (.one (by decide) (by decide)) (by decide) (by decide))
  · exact .reserved (letter 'x' 'x' (by decide) (by decide +kernel)) (by simp) (by decide +kernel)
  · intro v t hm
    simp only [List.mem_cons, Token.lit.injEq, reduceCtorEq, List.not_mem_nil, or_false, false_or] at hm
    omega

/-- **C59** fails without the bound: `$100000000` is read as zero. -/
theorem C59_violated : ∃ s ts us, Reads s ts ∧ tokenize s = .ok us ∧ ts = [.lit 0x100000000 .long, .eol] ∧
    us = [.lit 0 .long, .eol] := by
  refine ⟨cs!"$100000000", _, _, ?_, ?_, rfl, rfl⟩
  · refine .token (b := []) (w := cs!"$100000000") (rest := []) (by simp) ?_
      (longest_of_scan (t' := .lit 0 .long) (by decide +kernel)) (.stop (by simp))
    have h : Digits 16 cs!"100000000" (numberValue 16 cs!"100000000") :=
      digits_hex.mpr ⟨by decide, by decide, rfl⟩
    have := Lexeme.dollar h
    rwa [show numberValue 16 cs!"100000000" = 0x100000000 by decide +kernel] at this
  · decide +kernel

end Nsasm.Props
