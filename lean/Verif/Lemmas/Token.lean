import Verif.Model.Token
import Mathlib.Tactic.Common

/-! # Lemmas about the tokenizer -/

namespace Nsasm

theorem takeWhile_append_stop {p : Char → Bool} {s t : Str}
    (ht : ∀ c, t.head? = some c → p c = false) :
    (s ++ t).takeWhile p = s.takeWhile p ∧ (s ++ t).dropWhile p = s.dropWhile p ++ t := by
  induction s with
  | nil =>
    cases t with
    | nil => simp
    | cons c t => simp [ht c rfl]
  | cons a s ih =>
    by_cases h : p a = true
    · simp [h, ih]
    · simp [h]

theorem dropWhile_length_le {p : Char → Bool} (s : Str) : (s.dropWhile p).length ≤ s.length :=
  (List.dropWhile_sublist p).length_le

theorem dropWhile_length_lt {p : Char → Bool} {c : Char} {s : Str} (h : p c = true) :
    ((c :: s).dropWhile p).length < (c :: s).length := by
  rw [List.dropWhile_cons_of_pos h]
  have := dropWhile_length_le (p := p) s
  simp only [List.length_cons]; omega

theorem hexPrefix_spec {s r : Str} (h : hexPrefix s = some r) :
    (∃ c t, r = c :: t ∧ isHexDigit c = true) ∧ r.length < s.length := by
  unfold hexPrefix at h
  split at h
  · split at h
    · next hc => cases h; exact ⟨⟨_, _, rfl, hc⟩, by simp⟩
    · cases h
  · split at h
    · next hc =>
        cases h
        simp only [Bool.and_eq_true] at hc
        exact ⟨⟨_, _, rfl, hc.2⟩, by simp only [List.length_cons]; omega⟩
    · cases h
  · cases h

theorem binaryPrefix_spec {s r : Str} (h : binaryPrefix s = some r) :
    (∃ c t, r = c :: t ∧ isBinaryDigit c = true) ∧ r.length < s.length := by
  unfold binaryPrefix at h
  split at h
  · split at h
    · next hc => cases h; exact ⟨⟨_, _, rfl, hc⟩, by simp⟩
    · cases h
  · cases h

theorem take_eq_length {n : Nat} {s w : Str} (h : s.take n = w) : w.length ≤ s.length := by
  rw [← h]; simp; omega

theorem scanPunct_length {s r : Str} {p : Punct} (h : scanPunct s = some (p, r)) :
    r.length < s.length := by
  unfold scanPunct at h
  split at h
  · next ht => have := take_eq_length ht; cases h; simp at this ⊢; omega
  split at h
  · next ht => have := take_eq_length ht; cases h; simp at this ⊢; omega
  split at h
  · next ht => have := take_eq_length ht; cases h; simp at this ⊢; omega
  split at h
  · next ht => have := take_eq_length ht; cases h; simp at this ⊢; omega
  split at h
  · next ht => have := take_eq_length ht; cases h; simp at this ⊢; omega
  split at h
  · split at h
    · cases h; simp
    · cases h
  · cases h

theorem wordToken_ne_eol (w : Str) : wordToken w ≠ .eol := by
  unfold wordToken
  split
  · simp
  · split
    · split <;> simp
    · split
      · simp
      · split
        · simp
        · split <;> simp

theorem dottedToken_spec (w : Str) :
    (∃ t, dottedToken w = .ok t ∧ t ≠ .eol) ∨ dottedToken w = .err .tokenize := by
  unfold dottedToken
  split
  · exact .inl ⟨_, rfl, by simp⟩
  · split
    · exact .inl ⟨_, rfl, by simp⟩
    · exact .inr rfl

/-- One round either fails with a tokenizer error or yields a token that is not
end-of-line and consumes something. -/
theorem scanToken_spec {s : Str} (hs : s ≠ []) :
    (∃ t r, scanToken s = .ok (t, r) ∧ t ≠ .eol ∧ r.length < s.length) ∨
      scanToken s = .err .tokenize := by
  unfold scanToken
  cases hp : scanPunct s with
  | some pr => exact .inl ⟨_, _, rfl, by simp, scanPunct_length hp⟩
  | none =>
    cases hx : hexPrefix s with
    | some r =>
      obtain ⟨_, hlen⟩ := hexPrefix_spec hx
      exact .inl ⟨_, _, rfl, by simp, Nat.lt_of_le_of_lt (dropWhile_length_le r) hlen⟩
    | none =>
      cases hb : binaryPrefix s with
      | some r =>
        obtain ⟨_, hlen⟩ := binaryPrefix_spec hb
        exact .inl ⟨_, _, rfl, by simp, Nat.lt_of_le_of_lt (dropWhile_length_le r) hlen⟩
      | none =>
        cases s with
        | nil => exact absurd rfl hs
        | cons c rest =>
          simp only
          split
          · next hd => exact .inl ⟨_, _, rfl, by simp, dropWhile_length_lt hd⟩
          split
          · rcases dottedToken_spec ('.' :: rest.takeWhile isIdentifierChar) with ⟨t, ht, hne⟩ | he
            · rw [ht]
              refine .inl ⟨t, _, rfl, hne, ?_⟩
              have := dropWhile_length_le (p := isIdentifierChar) rest
              simp only [List.length_cons]; omega
            · rw [he]; exact .inr rfl
          split
          · refine .inl ⟨_, _, rfl, wordToken_ne_eol _, ?_⟩
            have := dropWhile_length_le (p := isIdentifierChar) rest
            simp only [List.length_cons]; omega
          · exact .inr rfl

theorem stripLeading_length (s : Str) : (stripLeading s).length ≤ s.length := dropWhile_length_le s

/-- The step bound is immaterial once it exceeds the length. -/
theorem tokenizeLoop_mono : ∀ (k l : Nat) (s : Str), s.length < k → s.length < l →
    tokenizeLoop k s = tokenizeLoop l s
  | 0, _, _, h, _ => absurd h (Nat.not_lt_zero _)
  | _, 0, _, _, h => absurd h (Nat.not_lt_zero _)
  | k + 1, l + 1, s, hk, hl => by
      simp only [tokenizeLoop]
      have hle := stripLeading_length s
      split
      · rfl
      · next hn =>
        have hne : stripLeading s ≠ [] := fun h => hn (.inl h)
        rcases scanToken_spec hne with ⟨t, r, h, -, hlt⟩ | h
        · rw [h]
          simp only [Res.bind_ok]
          rw [tokenizeLoop_mono k l r (by omega) (by omega)]
        · rw [h]; rfl

theorem tokenizeLoop_eq {k : Nat} {s : Str} (h : s.length < k) : tokenizeLoop k s = tokenize s :=
  tokenizeLoop_mono k (s.length + 1) s h (Nat.lt_succ_self _)

/-- The recursion equation of `tokenize`. -/
theorem tokenize_eq (s : Str) :
    tokenize s = (if stripLeading s = [] ∨ (stripLeading s).head? = some ';' then .ok [.eol]
      else do
        let (t, rest) ← scanToken (stripLeading s)
        let ts ← tokenize rest
        .ok (t :: ts)) := by
  rw [tokenize, tokenizeLoop]
  simp only
  split
  · rfl
  · next hn =>
    have hne : stripLeading s ≠ [] := fun h => hn (.inl h)
    have hle := stripLeading_length s
    rcases scanToken_spec hne with ⟨t, r, h, -, hlt⟩ | h
    · rw [h]
      simp only [Res.bind_ok]
      rw [tokenizeLoop_eq (by omega)]
    · rw [h]; rfl

/-- Tokenizing succeeds with a list that ends in its only end-of-line token, or
fails with a tokenizer error. -/
theorem tokenize_spec (s : Str) :
    (∃ body, tokenize s = .ok (body ++ [.eol]) ∧ Token.eol ∉ body) ∨
      tokenize s = .err .tokenize := by
  induction hn : s.length using Nat.strongRecOn generalizing s with
  | ind n ih =>
    subst hn
    rw [tokenize_eq]
    split
    · exact .inl ⟨[], rfl, by simp⟩
    · next hn =>
      have hne : stripLeading s ≠ [] := fun h => hn (.inl h)
      have hle := stripLeading_length s
      rcases scanToken_spec hne with ⟨t, r, h, hte, hlt⟩ | h
      · rw [h]
        simp only [Res.bind_ok]
        rcases ih r.length (by omega) r rfl with ⟨body, hb, hnb⟩ | he
        · rw [hb]
          exact .inl ⟨t :: body, rfl, by simp [hnb]; exact fun h => hte h.symm⟩
        · rw [he]; exact .inr rfl
      · rw [h]; exact .inr rfl

/-- A character that ends every token before it. -/
def isSep (c : Char) : Bool := isSpace c || c = ';'

theorem char_le_iff (a b : Char) : a ≤ b ↔ a.toNat ≤ b.toNat := Iff.rfl

theorem sep_facts {c : Char} (h : isSep c = true) :
    isHexDigit c = false ∧ isBinaryDigit c = false ∧ isDecimalDigit c = false ∧
      isIdentifierFirstChar c = false ∧ isIdentifierChar c = false ∧ isPunctChar c = false ∧
      c ≠ '+' ∧ c ≠ '-' ∧ c ≠ ':' ∧ c ≠ 'x' ∧ c ≠ 'X' := by
  have hb : c.toNat = 59 ∨ c.toNat = 32 ∨ (9 ≤ c.toNat ∧ c.toNat ≤ 13) := by
    simp only [isSep, isSpace, Bool.or_eq_true, Bool.and_eq_true, decide_eq_true_eq] at h
    rcases h with (h | h) | h
    · omega
    · omega
    · subst h; left; rfl
  have hne : ∀ d : Char, (d.toNat ≠ 59 ∧ d.toNat ≠ 32 ∧ ¬(9 ≤ d.toNat ∧ d.toNat ≤ 13)) → c ≠ d := by
    intro d hd he; subst he; omega
  refine ⟨?_, ?_, ?_, ?_, ?_, ?_, ?_, ?_, ?_, ?_, ?_⟩
  all_goals first
    | (apply hne; decide)
    | skip
  all_goals try simp only [isHexDigit, isBinaryDigit, isDecimalDigit, isIdentifierFirstChar,
    isIdentifierChar, Bool.or_eq_false_iff, Bool.and_eq_false_iff, decide_eq_false_iff_not,
    char_le_iff]
  · refine ⟨⟨?_, ?_⟩, ?_⟩ <;> (simp only [Char.reduceToNat]; omega)
  · exact ⟨hne _ (by decide), hne _ (by decide)⟩
  · simp only [Char.reduceToNat]; omega
  · refine ⟨⟨?_, ?_⟩, hne _ (by decide)⟩ <;> (simp only [Char.reduceToNat]; omega)
  · refine ⟨?_, ⟨⟨?_, ?_⟩, hne _ (by decide)⟩⟩ <;> (simp only [Char.reduceToNat]; omega)
  · simp only [isPunctChar, decide_eq_false_iff_not, List.mem_cons, List.not_mem_nil, or_false,
      not_or]
    refine ⟨?_, ?_, ?_, ?_, ?_, ?_, ?_, ?_, ?_, ?_, ?_, ?_, ?_, ?_, ?_, ?_, ?_⟩ <;>
      (apply hne; decide)

/-- The text `t` is empty or starts with a separator. -/
def SepStart (t : Str) : Prop := ∀ c, t.head? = some c → isSep c = true

theorem scanPunct_append {s t : Str} (hs : s ≠ []) (ht : SepStart t) :
    scanPunct (s ++ t) = (scanPunct s).map fun p => (p.1, p.2 ++ t) := by
  have hd : ∀ d t', t = d :: t' → d ≠ '+' ∧ d ≠ '-' ∧ d ≠ ':' := by
    intro d t' h
    have := sep_facts (ht d (by simp [h]))
    exact ⟨this.2.2.2.2.2.2.1, this.2.2.2.2.2.2.2.1, this.2.2.2.2.2.2.2.2.1⟩
  match s, hs with
  | [a], _ =>
    cases t with
    | nil => simp
    | cons d t' =>
      obtain ⟨h1, h2, h3⟩ := hd d t' rfl
      simp [scanPunct, h1, h2, h3]
  | [a, b], _ =>
    cases t with
    | nil => simp
    | cons d t' =>
      obtain ⟨h1, h2, h3⟩ := hd d t' rfl
      simp [scanPunct, h1, h2]
      split
      · simp
      split
      · simp
      split
      · simp
      split <;> simp
  | a :: b :: c :: s', _ =>
    simp [scanPunct]
    split
    · simp
    split
    · simp
    split
    · simp
    split
    · simp
    split
    · simp
    split <;> simp

theorem hexPrefix_append {s t : Str} (hs : s ≠ []) (ht : SepStart t) :
    hexPrefix (s ++ t) = (hexPrefix s).map (· ++ t) := by
  have hd : ∀ d t', t = d :: t' → isHexDigit d = false ∧ d ≠ 'x' ∧ d ≠ 'X' := by
    intro d t' h
    have := sep_facts (ht d (by simp [h]))
    exact ⟨this.1, this.2.2.2.2.2.2.2.2.2⟩
  match s, hs with
  | [a], _ =>
    cases t with
    | nil => simp
    | cons d t' =>
      obtain ⟨h1, h2, h3⟩ := hd d t' rfl
      unfold hexPrefix
      by_cases ha : a = '$'
      · subst ha; simp [h1]
      · by_cases h0 : a = '0'
        · subst h0
          cases t' <;> simp [h2, h3]
        · split <;> simp_all
  | [a, b], _ =>
    cases t with
    | nil => simp
    | cons d t' =>
      obtain ⟨h1, h2, h3⟩ := hd d t' rfl
      unfold hexPrefix
      by_cases ha : a = '$'
      · subst ha; simp
      · by_cases h0 : a = '0'
        · subst h0; simp [h1]
        · split <;> simp_all
  | a :: b :: c :: s', _ =>
    unfold hexPrefix
    by_cases ha : a = '$'
    · subst ha; simp
    · by_cases h0 : a = '0'
      · subst h0; simp
      · split <;> simp_all

theorem binaryPrefix_append {s t : Str} (hs : s ≠ []) (ht : SepStart t) :
    binaryPrefix (s ++ t) = (binaryPrefix s).map (· ++ t) := by
  match s, hs with
  | [a], _ =>
    cases t with
    | nil => simp
    | cons d t' =>
      have h1 := (sep_facts (ht d rfl)).2.1
      unfold binaryPrefix
      by_cases ha : a = '%'
      · subst ha; simp [h1]
      · split <;> simp_all
  | a :: b :: s', _ =>
    unfold binaryPrefix
    by_cases ha : a = '%'
    · subst ha; simp
    · split <;> simp_all

/-- Appending text that starts with a separator does not affect a round. -/
theorem scanToken_append {s t : Str} (hs : s ≠ []) (ht : SepStart t) :
    scanToken (s ++ t) = (do let (tok, r) ← scanToken s; .ok (tok, r ++ t)) := by
  have hstop : ∀ (p : Char → Bool), (∀ c, isSep c = true → p c = false) →
      ∀ c, t.head? = some c → p c = false := fun p hp c hc => hp c (ht c hc)
  unfold scanToken
  rw [scanPunct_append hs ht, hexPrefix_append hs ht, binaryPrefix_append hs ht]
  cases hp : scanPunct s with
  | some pr => rfl
  | none =>
    cases hx : hexPrefix s with
    | some r =>
      have := takeWhile_append_stop (s := r) (hstop isHexDigit fun c h => (sep_facts h).1)
      simp [this.1, this.2]
    | none =>
      cases hb : binaryPrefix s with
      | some r =>
        have := takeWhile_append_stop (s := r) (hstop isBinaryDigit fun c h => (sep_facts h).2.1)
        simp [this.1, this.2]
      | none =>
        cases s with
        | nil => exact absurd rfl hs
        | cons c rest =>
          have h1 := takeWhile_append_stop (s := c :: rest)
            (hstop isDecimalDigit fun c h => (sep_facts h).2.2.1)
          have h2 := takeWhile_append_stop (s := rest)
            (hstop isIdentifierChar fun c h => (sep_facts h).2.2.2.2.1)
          simp only [Option.map_none, List.cons_append]
          rw [List.cons_append] at h1
          rw [h1.1, h1.2, h2.1, h2.2]
          split
          · rfl
          split
          · rcases dottedToken_spec ('.' :: rest.takeWhile isIdentifierChar) with ⟨t, ht, -⟩ | he
            · rw [ht]; rfl
            · rw [he]; rfl
          split
          · rfl
          · rfl

theorem stripLeading_append {s t : Str} (h : stripLeading s ≠ []) :
    stripLeading (s ++ t) = stripLeading s ++ t := by
  induction s with
  | nil => exact absurd rfl h
  | cons a s ih =>
    unfold stripLeading at *
    by_cases ha : isSpace a = true
    · simp only [List.cons_append, List.dropWhile_cons_of_pos ha] at h ⊢
      exact ih h
    · simp [List.dropWhile_cons_of_neg ha]

theorem stripLeading_append_nil {s t : Str} (h : stripLeading s = []) :
    stripLeading (s ++ t) = stripLeading t := by
  induction s with
  | nil => rfl
  | cons a s ih =>
    unfold stripLeading at *
    by_cases ha : isSpace a = true
    · simp only [List.cons_append, List.dropWhile_cons_of_pos ha] at h ⊢
      exact ih h
    · simp [List.dropWhile_cons_of_neg ha] at h

theorem stripLeading_space {c : Char} {t : Str} (h : isSpace c = true) :
    stripLeading (c :: t) = stripLeading t := by
  simp [stripLeading, List.dropWhile_cons_of_pos h]

/-- Only the text after leading blanks matters. -/
theorem tokenize_strip {s t : Str} (h : stripLeading s = stripLeading t) :
    tokenize s = tokenize t := by
  rw [tokenize_eq s, tokenize_eq t, h]

end Nsasm
