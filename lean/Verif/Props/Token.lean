import Verif.Lemmas.Token
import Verif.Spec.Text

/-! # C32–C33: the tokenizer -/

namespace Nsasm.Props
open Nsasm Nsasm.Spec

/-! ## C32 -/

/-- **C32.** On any text the tokenizer has no undefined behaviour, and when it
succeeds the last token, and no other, is end-of-line. -/
theorem C32_one_end_of_line (s : Str) :
    (tokenize s).noUb ∧ ∀ ts, tokenize s = .ok ts → IsLine ts := by
  rcases tokenize_spec s with ⟨body, h, hb⟩ | h
  · rw [h]
    refine ⟨trivial, fun ts hts => ?_⟩
    cases hts
    exact ⟨body, rfl, hb⟩
  · rw [h]; exact ⟨trivial, fun ts hts => by cases hts⟩

/-- **C32.** The loop ends: any bound on the number of rounds that exceeds the
length of the text gives the same result, and that result is not "out of
rounds". -/
theorem C32_terminates (s : Str) (k : Nat) (h : s.length < k) :
    tokenizeLoop k s = tokenize s ∧ tokenize s ≠ .err .steps := by
  refine ⟨tokenizeLoop_eq h, ?_⟩
  rcases tokenize_spec s with ⟨body, h, -⟩ | h <;> rw [h] <;> simp

example : tokenize cs!"loop: lda $1234, x ; comment" =
    .ok [.ident cs!"loop", .punct (.ch ':'), .mnem .lda, .lit 0x1234 .word,
      .punct (.ch ','), .punct (.ch 'X'), .eol] := by decide +kernel

example : tokenize cs!"lda ?" = .err .tokenize := by decide +kernel

/-! ## C33 -/

theorem isSpace_iff (c : Char) : isSpace c = true ↔ Blank c := by
  have key : ∀ d : Char, c = d ↔ c.toNat = d.toNat :=
    fun d => ⟨fun h => h ▸ rfl, fun h => Char.toNat_inj.mp h⟩
  simp only [isSpace, Blank, Bool.or_eq_true, Bool.and_eq_true, decide_eq_true_eq]
  rw [key ' ', key '\t', key '\n', key (Char.ofNat 11), key (Char.ofNat 12), key '\r']
  have e1 : (Char.ofNat 11).toNat = 11 := by decide
  have e2 : (Char.ofNat 12).toNat = 12 := by decide
  have e3 : ' '.toNat = 32 := by decide
  have e4 : '\t'.toNat = 9 := by decide
  have e5 : '\n'.toNat = 10 := by decide
  have e6 : '\r'.toNat = 13 := by decide
  rw [e1, e2, e3, e4, e5, e6]
  omega

/-- **C33.** A comment after any line leaves its tokens (or its error)
unchanged. -/
theorem C33_comment (s comment : Str) : tokenize (s ++ ';' :: comment) = tokenize s := by
  induction hn : s.length using Nat.strongRecOn generalizing s with
  | ind n ih =>
    subst hn
    by_cases h0 : stripLeading s = []
    · rw [tokenize_eq s, if_pos (.inl h0)]
      rw [tokenize_strip (stripLeading_append_nil h0), tokenize_eq, if_pos]
      right; rfl
    · rw [tokenize_eq s, tokenize_eq (s ++ _), stripLeading_append h0]
      have hhead : (stripLeading s ++ ';' :: comment).head? = (stripLeading s).head? := by
        cases hs : stripLeading s with
        | nil => exact absurd hs h0
        | cons a l => rfl
      rw [hhead]
      have hne : stripLeading s ++ ';' :: comment ≠ [] := by simp
      by_cases hc : (stripLeading s).head? = some ';'
      · rw [if_pos (.inr hc), if_pos (.inr hc)]
      · rw [if_neg (by simp [hc]), if_neg (by simp [hc, h0])]
        rw [scanToken_append h0 (by intro c hc; cases hc; rfl)]
        have hle := stripLeading_length s
        rcases scanToken_spec h0 with ⟨t, r, h, -, hlt⟩ | h
        · rw [h]
          simp only [Res.bind_ok]
          rw [ih r.length (by omega) r rfl]
        · rw [h]; rfl

theorem stripLeading_blank {b : Str} (hb : ∀ c ∈ b, Blank c) : stripLeading b = [] := by
  induction b with
  | nil => rfl
  | cons a l ih =>
    rw [stripLeading_space ((isSpace_iff a).mpr (hb a (by simp)))]
    exact ih fun c h => hb c (by simp [h])

/-- One round reads a prefix of the text. -/
theorem scanToken_suffix {s r : Str} {t : Token} (h : scanToken s = .ok (t, r)) : r <:+ s := by
  unfold scanToken at h
  cases hp : scanPunct s with
  | some pr =>
    rw [hp] at h; cases h
    unfold scanPunct at hp
    split at hp
    · cases hp; exact List.drop_suffix _ _
    split at hp
    · cases hp; exact List.drop_suffix _ _
    split at hp
    · cases hp; exact List.drop_suffix _ _
    split at hp
    · cases hp; exact List.drop_suffix _ _
    split at hp
    · cases hp; exact List.drop_suffix _ _
    split at hp
    · split at hp
      · cases hp; exact List.suffix_cons _ _
      · cases hp
    · cases hp
  | none =>
    rw [hp] at h
    cases hx : hexPrefix s with
    | some q =>
      rw [hx] at h; cases h
      refine (List.dropWhile_suffix _).trans ?_
      unfold hexPrefix at hx
      split at hx
      · split at hx
        · cases hx; exact List.suffix_cons _ _
        · cases hx
      · split at hx
        · cases hx; exact (List.suffix_cons _ _).trans (List.suffix_cons _ _)
        · cases hx
      · cases hx
    | none =>
      rw [hx] at h
      cases hb : binaryPrefix s with
      | some q =>
        rw [hb] at h; cases h
        refine (List.dropWhile_suffix _).trans ?_
        unfold binaryPrefix at hb
        split at hb
        · split at hb
          · cases hb; exact List.suffix_cons _ _
          · cases hb
        · cases hb
      | none =>
        rw [hb] at h
        cases s with
        | nil => cases h
        | cons c rest =>
          simp only at h
          split at h
          · cases h; exact List.dropWhile_suffix _
          split at h
          · obtain ⟨_, -, h⟩ := Res.bind_eq_ok.mp h
            cases h
            exact (List.dropWhile_suffix _).trans (List.suffix_cons _ _)
          split at h
          · cases h
            exact (List.dropWhile_suffix _).trans (List.suffix_cons _ _)
          · cases h

/-- **C33.** A blank separates: the tokens of `s c t`, where `c` is a blank and `s`
has no comment, are those of `s` followed by those of `t`; it is an error exactly
when one of the two parts is. -/
theorem C33_blank_separates (s t : Str) (c : Char) (hc : Blank c) (hs : ';' ∉ s) :
    (∀ a b, tokenize s = .ok (a ++ [.eol]) → tokenize t = .ok b →
      tokenize (s ++ c :: t) = .ok (a ++ b)) ∧
    ((tokenize (s ++ c :: t)).isOk = true ↔
      (tokenize s).isOk = true ∧ (tokenize t).isOk = true) := by
  have hsp : isSpace c = true := (isSpace_iff c).mpr hc
  induction hn : s.length using Nat.strongRecOn generalizing s with
  | ind n ih =>
    subst hn
    by_cases h0 : stripLeading s = []
    · have h1 : tokenize s = .ok [.eol] := by rw [tokenize_eq s, if_pos (.inl h0)]
      have h2 : tokenize (s ++ c :: t) = tokenize t :=
        tokenize_strip ((stripLeading_append_nil h0).trans (stripLeading_space hsp))
      rw [h1, h2]
      refine ⟨fun a b ha hb => ?_, by simp [Res.isOk]⟩
      have : a = [] := by
        cases a with
        | nil => rfl
        | cons x l => simp at ha
      rw [this, hb]; rfl
    · rw [tokenize_eq s, tokenize_eq (s ++ _), stripLeading_append h0]
      have hhead : (stripLeading s ++ c :: t).head? = (stripLeading s).head? := by
        cases hs : stripLeading s with
        | nil => exact absurd hs h0
        | cons a l => rfl
      have hsuf : stripLeading s <:+ s := List.dropWhile_suffix _
      have hc' : (stripLeading s).head? ≠ some ';' := by
        intro h
        apply hs
        apply hsuf.subset
        cases hl : stripLeading s with
        | nil => exact absurd hl h0
        | cons a l => rw [hl] at h; cases h; simp
      rw [hhead, if_neg (by simp [hc', h0]), if_neg (by simp [hc', h0])]
      rw [scanToken_append h0 (by intro d hd; cases hd; simp [isSep, hsp])]
      have hle := stripLeading_length s
      rcases scanToken_spec h0 with ⟨tk, r, h, hte, hlt⟩ | h
      · rw [h]
        simp only [Res.bind_ok]
        have hr : ';' ∉ r := fun hm => hs (hsuf.subset ((scanToken_suffix h).subset hm))
        obtain ⟨ih1, ih2⟩ := ih r.length (by omega) r hr rfl
        constructor
        · intro a b ha hb
          obtain ⟨ts, hts, ha⟩ := Res.bind_eq_ok.mp ha
          rcases tokenize_spec r with ⟨body, hbd, -⟩ | he
          · rw [hbd] at hts; cases hts
            rw [ih1 body b hbd hb]
            simp only [Res.bind_ok, Res.ok.injEq]
            have := Res.ok.inj ha
            rw [← List.cons_append] at this
            have := List.append_cancel_right this
            rw [← this]; rfl
          · rw [he] at hts; cases hts
        · have hcons : ∀ x : Res (List Token),
              Res.isOk (do let ts ← x; Res.ok (tk :: ts)) = x.isOk := by
            intro x; cases x <;> rfl
          rw [hcons, hcons]
          exact ih2
      · rw [h]
        simp [Res.isOk]

/-- **C33.** Blanks before and after any line leave its tokens (or its error)
unchanged. -/
theorem C33_blanks (b s b' : Str) (hb : ∀ c ∈ b, Blank c) (hb' : ∀ c ∈ b', Blank c) :
    tokenize (b ++ s ++ b') = tokenize s := by
  rw [List.append_assoc, tokenize_strip (stripLeading_append_nil (stripLeading_blank hb))]
  clear hb b
  induction hn : s.length using Nat.strongRecOn generalizing s with
  | ind n ih =>
    subst hn
    by_cases h0 : stripLeading s = []
    · apply tokenize_strip
      rw [stripLeading_append_nil h0, stripLeading_blank hb', h0]
    · rw [tokenize_eq s, tokenize_eq (s ++ _), stripLeading_append h0]
      have hhead : (stripLeading s ++ b').head? = (stripLeading s).head? := by
        cases hs : stripLeading s with
        | nil => exact absurd hs h0
        | cons a l => rfl
      rw [hhead]
      by_cases hc : (stripLeading s).head? = some ';'
      · rw [if_pos (.inr hc), if_pos (.inr hc)]
      · rw [if_neg (by simp [hc, h0]), if_neg (by simp [hc, h0])]
        rw [scanToken_append h0 (by
          intro c hc
          have : c ∈ b' := List.mem_of_mem_head? hc
          simp [isSep, (isSpace_iff c).mpr (hb' c this)])]
        have hle := stripLeading_length s
        rcases scanToken_spec h0 with ⟨t, r, h, -, hlt⟩ | h
        · rw [h]
          simp only [Res.bind_ok]
          rw [ih r.length (by omega) r rfl]
        · rw [h]; rfl

example : tokenize cs!"lda #1" = .ok [.mnem .lda, .punct (.ch '#'), .lit 1 .unknown, .eol] ∧
    tokenize cs!"  \tlda  #1   ; load" = tokenize cs!"lda #1" := by decide +kernel

end Nsasm.Props
