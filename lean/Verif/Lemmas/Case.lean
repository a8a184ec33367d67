import Verif.Lemmas.Lex
import Verif.Spec.Case

/-! # Upper and lower case -/

namespace Nsasm.Case
open Spec

/-- Two characters that are equal in lower case are the same or letters. -/
theorem same_cases {c d : Char} (h : toLowerC c = toLowerC d) : c = d ∨
    (∃ n, 65 ≤ n ∧ n ≤ 90 ∧ ((c = Char.ofNat n ∧ d = Char.ofNat (n + 32)) ∨ (d = Char.ofNat n ∧ c = Char.ofNat (n + 32)))) := by
  have hA : 'A'.toNat = 65 := rfl
  have hZ : 'Z'.toNat = 90 := rfl
  have hof : ∀ x : Char, x = Char.ofNat x.toNat := fun x => (Char.ofNat_toNat x).symm
  have hn : ∀ n, 65 ≤ n → n ≤ 90 → (Char.ofNat (n + 32)).toNat = n + 32 := by
    intro n h1 h2
    have : ∀ n ∈ List.range' 65 26, (Char.ofNat (n + 32)).toNat = n + 32 := by decide +kernel
    exact this n (by simp [List.mem_range']; exact ⟨n - 65, by omega⟩)
  unfold toLowerC at h
  rw [hA, hZ] at h
  split at h
  · rename_i hc
    split at h
    · rename_i hd
      left
      have := congrArg Char.toNat h
      rw [hn _ hc.1 hc.2, hn _ hd.1 hd.2] at this
      rw [hof c, hof d, show c.toNat = d.toNat by omega]
    · exact .inr ⟨c.toNat, hc.1, hc.2, .inl ⟨hof c, h.symm⟩⟩
  · split at h
    · rename_i hd
      exact .inr ⟨d.toNat, hd.1, hd.2, .inr ⟨hof d, h⟩⟩
    · exact .inl h

/-- A property of characters that is the same for both cases of every letter. -/
theorem same_prop {α : Type} {f : Char → α} (hf : ∀ n ∈ List.range' 65 26, f (Char.ofNat n) = f (Char.ofNat (n + 32))) {c d : Char}
    (h : toLowerC c = toLowerC d) : f c = f d := by
  have hm : ∀ n, 65 ≤ n → n ≤ 90 → n ∈ List.range' 65 26 := by
    intro n h1 h2; simp [List.mem_range']; exact ⟨n - 65, by omega⟩
  rcases same_cases h with rfl | ⟨n, h1, h2, ⟨rfl, rfl⟩ | ⟨rfl, rfl⟩⟩
  · rfl
  · exact hf n (hm n h1 h2)
  · exact (hf n (hm n h1 h2)).symm

/-- A character that is no letter has only one case. -/
theorem same_other {c d : Char} (h : toLowerC c = toLowerC d) (hd : (('a' ≤ d && d ≤ 'z') || ('A' ≤ d && d ≤ 'Z')) = false) : c = d := by
  rcases same_cases h with rfl | ⟨n, h1, h2, ⟨rfl, rfl⟩ | ⟨rfl, rfl⟩⟩
  · rfl
  · have : ∀ n ∈ List.range' 65 26, (('a' ≤ Char.ofNat (n + 32) && Char.ofNat (n + 32) ≤ 'z') ||
      ('A' ≤ Char.ofNat (n + 32) && Char.ofNat (n + 32) ≤ 'Z')) = true := by decide +kernel
    rw [this n (by simp [List.mem_range']; exact ⟨n - 65, by omega⟩)] at hd
    cases hd
  · have : ∀ n ∈ List.range' 65 26, (('a' ≤ Char.ofNat n && Char.ofNat n ≤ 'z') ||
      ('A' ≤ Char.ofNat n && Char.ofNat n ≤ 'Z')) = true := by decide +kernel
    rw [this n (by simp [List.mem_range']; exact ⟨n - 65, by omega⟩)] at hd
    cases hd

theorem same_hex {c d : Char} (h : toLowerC c = toLowerC d) : isHexDigit c = isHexDigit d := same_prop (by decide +kernel) h
theorem same_dec {c d : Char} (h : toLowerC c = toLowerC d) : isDecimalDigit c = isDecimalDigit d := same_prop (by decide +kernel) h
theorem same_bin {c d : Char} (h : toLowerC c = toLowerC d) : isBinaryDigit c = isBinaryDigit d := same_prop (by decide +kernel) h
theorem same_first {c d : Char} (h : toLowerC c = toLowerC d) : isIdentifierFirstChar c = isIdentifierFirstChar d :=
  same_prop (by decide +kernel) h
theorem same_ident {c d : Char} (h : toLowerC c = toLowerC d) : isIdentifierChar c = isIdentifierChar d :=
  same_prop (by decide +kernel) h
theorem same_space {c d : Char} (h : toLowerC c = toLowerC d) : isSpace c = isSpace d := same_prop (by decide +kernel) h
theorem same_punct {c d : Char} (h : toLowerC c = toLowerC d) : isPunctChar c = isPunctChar d := same_prop (by decide +kernel) h
theorem same_value {c d : Char} (h : toLowerC c = toLowerC d) : digitValue c = digitValue d := same_prop (by decide +kernel) h
theorem same_upper {c d : Char} (h : toLowerC c = toLowerC d) : toUpperC c = toUpperC d := same_prop (by decide +kernel) h
theorem same_x {c d : Char} (h : toLowerC c = toLowerC d) : (decide (c = 'x') || decide (c = 'X')) = (decide (d = 'x') || decide (d = 'X')) :=
  same_prop (f := fun c => decide (c = 'x') || decide (c = 'X')) (by decide +kernel) h

theorem lower_cons {c : Char} {s : Str} {s' : Str} (h : lower (c :: s) = lower s') :
    ∃ d t, s' = d :: t ∧ toLowerC c = toLowerC d ∧ lower s = lower t := by
  cases s' with
  | nil => cases h
  | cons d t =>
    simp only [lower, List.map_cons, List.cons.injEq] at h
    exact ⟨d, t, rfl, h.1, h.2⟩

theorem lower_nil {s' : Str} (h : lower [] = lower s') : s' = [] := by
  cases s' with
  | nil => rfl
  | cons d t => cases h

theorem same_while {p : Char → Bool} (hp : ∀ {c d}, toLowerC c = toLowerC d → p c = p d) : ∀ {s s' : Str}, lower s = lower s' →
    lower (s.takeWhile p) = lower (s'.takeWhile p) ∧ lower (s.dropWhile p) = lower (s'.dropWhile p) := by
  intro s
  induction s with
  | nil => intro s' h; rw [lower_nil h]; exact ⟨rfl, rfl⟩
  | cons c s ih =>
    intro s' h
    obtain ⟨d, t, rfl, h1, h2⟩ := lower_cons h
    rw [List.takeWhile_cons, List.takeWhile_cons, List.dropWhile_cons, List.dropWhile_cons, hp h1]
    obtain ⟨h3, h4⟩ := ih h2
    cases p d with
    | true =>
      refine ⟨?_, h4⟩
      simp only [if_true, lower, List.map_cons, List.cons.injEq]
      exact ⟨h1, h3⟩
    | false => exact ⟨rfl, h⟩

theorem same_length {s s' : Str} (h : lower s = lower s') : s.length = s'.length := by
  have := congrArg List.length h
  simpa [lower] using this

theorem same_number (b : Nat) {s s' : Str} (h : lower s = lower s') : numberValue b s = numberValue b s' := by
  unfold numberValue
  generalize (0 : Nat) = n
  induction s generalizing s' n with
  | nil => rw [lower_nil h]
  | cons c s ih =>
    obtain ⟨d, t, rfl, h1, h2⟩ := lower_cons h
    rw [List.foldl_cons, List.foldl_cons, same_value h1]
    exact ih h2 _

theorem same_strtol (b : Nat) {s s' : Str} (h : lower s = lower s') : strtolInt b s = strtolInt b s' := by
  unfold strtolInt; rw [same_number b h]

theorem same_take (n : Nat) {s s' : Str} (h : lower s = lower s') : lower (s.take n) = lower (s'.take n) := by
  simp only [lower, List.map_take] at h ⊢; rw [h]

theorem same_drop (n : Nat) {s s' : Str} (h : lower s = lower s') : lower (s.drop n) = lower (s'.drop n) := by
  simp only [lower, List.map_drop] at h ⊢; rw [h]

/-- A text without letters has only one case. -/
theorem same_plain : ∀ {s s' : Str}, lower s = lower s' → (∀ c ∈ s', (('a' ≤ c && c ≤ 'z') || ('A' ≤ c && c ≤ 'Z')) = false) → s = s' := by
  intro s
  induction s with
  | nil => intro s' h _; exact (lower_nil h).symm
  | cons c s ih =>
    intro s' h hs
    obtain ⟨d, t, rfl, h1, h2⟩ := lower_cons h
    rw [same_other h1 (hs d (by simp)), ih h2 fun c hc => hs c (by simp [hc])]

theorem take_iff (n : Nat) {s s' w : Str} (h : lower s = lower s') (hw : ∀ c ∈ w, (('a' ≤ c && c ≤ 'z') || ('A' ≤ c && c ≤ 'Z')) = false) :
    s.take n = w ↔ s'.take n = w := by
  constructor
  · intro e; subst e; exact same_plain (same_take n h.symm) hw
  · intro e; subst e; exact same_plain (same_take n h) hw

theorem punct_plain {d : Char} (hd : isPunctChar d = true) : (('a' ≤ d && d ≤ 'z') || ('A' ≤ d && d ≤ 'Z')) = false := by
  unfold isPunctChar at hd
  have := of_decide_eq_true hd
  have key : ∀ d ∈ ['(', ')', '[', ']', ',', ':', '#', '+', '-', '*', '/', '@', '{', '}', '>', '<', '^'],
    (('a' ≤ d && d ≤ 'z') || ('A' ≤ d && d ≤ 'Z')) = false := by decide +kernel
  exact key d this

/-- Two optional results, the same but for the case of the text that is left. -/
def Opt {α : Type} (x y : Option (α × Str)) : Prop :=
  (x = none ∧ y = none) ∨ ∃ a r r', x = some (a, r) ∧ y = some (a, r') ∧ lower r = lower r'

theorem scanPunct_same {s s' : Str} (h : lower s = lower s') : Opt (scanPunct s) (scanPunct s') := by
  unfold scanPunct
  simp only [take_iff 3 h (w := cs!"+++") (by decide), take_iff 3 h (w := cs!"---") (by decide), take_iff 2 h (w := cs!"::") (by decide),
    take_iff 2 h (w := cs!"++") (by decide), take_iff 2 h (w := cs!"--") (by decide)]
  by_cases h1 : s'.take 3 = cs!"+++"
  · rw [if_pos h1, if_pos h1]; exact .inr ⟨_, _, _, rfl, rfl, same_drop 3 h⟩
  rw [if_neg h1, if_neg h1]
  by_cases h2 : s'.take 3 = cs!"---"
  · rw [if_pos h2, if_pos h2]; exact .inr ⟨_, _, _, rfl, rfl, same_drop 3 h⟩
  rw [if_neg h2, if_neg h2]
  by_cases h3 : s'.take 2 = cs!"::"
  · rw [if_pos h3, if_pos h3]; exact .inr ⟨_, _, _, rfl, rfl, same_drop 2 h⟩
  rw [if_neg h3, if_neg h3]
  by_cases h4 : s'.take 2 = cs!"++"
  · rw [if_pos h4, if_pos h4]; exact .inr ⟨_, _, _, rfl, rfl, same_drop 2 h⟩
  rw [if_neg h4, if_neg h4]
  by_cases h5 : s'.take 2 = cs!"--"
  · rw [if_pos h5, if_pos h5]; exact .inr ⟨_, _, _, rfl, rfl, same_drop 2 h⟩
  rw [if_neg h5, if_neg h5]
  cases s with
  | nil => rw [lower_nil h]; exact .inl ⟨rfl, rfl⟩
  | cons c s =>
    obtain ⟨d, t, rfl, e1, e2⟩ := lower_cons h
    simp only [same_punct e1]
    cases hd : isPunctChar d with
    | true =>
      have := same_other e1 (punct_plain hd)
      subst this
      exact .inr ⟨_, _, _, rfl, rfl, e2⟩
    | false => exact .inl ⟨rfl, rfl⟩

/-- Two optional texts, the same but for case. -/
def Opt1 (x y : Option Str) : Prop := (x = none ∧ y = none) ∨ ∃ r r', x = some r ∧ y = some r' ∧ lower r = lower r'

theorem eq_plain {c d x : Char} (h : toLowerC c = toLowerC d) (hx : (('a' ≤ x && x ≤ 'z') || ('A' ≤ x && x ≤ 'Z')) = false) :
    c = x ↔ d = x := by
  constructor
  · rintro rfl; exact same_other h.symm hx
  · rintro rfl; exact same_other h hx

theorem hexPrefix_eq (c x : Char) (r : Str) : hexPrefix (c :: x :: r) =
    if c = '$' then (if isHexDigit x then some (x :: r) else none)
    else if c = '0' then (match r with
      | y :: r' => if (decide (x = 'x') || decide (x = 'X')) && isHexDigit y then some (y :: r') else none
      | [] => none)
    else none := by
  by_cases h1 : c = '$'
  · subst h1; rfl
  · by_cases h2 : c = '0'
    · subst h2
      cases r <;> rfl
    · rw [if_neg h1, if_neg h2]
      unfold hexPrefix
      split
      · rename_i heq; cases heq; exact absurd rfl h1
      · rename_i heq; cases heq; exact absurd rfl h2
      · rfl

theorem hexPrefix_same {s s' : Str} (h : lower s = lower s') : Opt1 (hexPrefix s) (hexPrefix s') := by
  match s, h with
  | [], h => rw [lower_nil h]; exact .inl ⟨rfl, rfl⟩
  | [c], h =>
    obtain ⟨d, t, rfl, e1, e2⟩ := lower_cons h
    rw [lower_nil e2]
    refine .inl ⟨?_, ?_⟩
    · unfold hexPrefix; split <;> first | rfl | (rename_i heq; cases heq)
    · unfold hexPrefix; split <;> first | rfl | (rename_i heq; cases heq)
  | c :: x :: r, h =>
    obtain ⟨d, t, rfl, e1, e2⟩ := lower_cons h
    obtain ⟨y, t, rfl, e3, e4⟩ := lower_cons e2
    rw [hexPrefix_eq, hexPrefix_eq, same_hex e3, same_x e3]
    simp only [eq_plain e1 (x := '$') (by decide), eq_plain e1 (x := '0') (by decide)]
    split
    · split
      · exact .inr ⟨_, _, rfl, rfl, e2⟩
      · exact .inl ⟨rfl, rfl⟩
    · split
      · cases r with
        | nil => rw [lower_nil e4]; exact .inl ⟨rfl, rfl⟩
        | cons z r =>
          obtain ⟨w, t, rfl, e5, e6⟩ := lower_cons e4
          simp only [same_hex e5]
          split
          · exact .inr ⟨_, _, rfl, rfl, e4⟩
          · exact .inl ⟨rfl, rfl⟩
      · exact .inl ⟨rfl, rfl⟩

theorem binaryPrefix_same {s s' : Str} (h : lower s = lower s') : Opt1 (binaryPrefix s) (binaryPrefix s') := by
  match s, h with
  | [], h => rw [lower_nil h]; exact .inl ⟨rfl, rfl⟩
  | [c], h =>
    obtain ⟨d, t, rfl, e1, e2⟩ := lower_cons h
    rw [lower_nil e2]
    refine .inl ⟨?_, ?_⟩
    · unfold binaryPrefix; split <;> first | rfl | (rename_i heq; cases heq)
    · unfold binaryPrefix; split <;> first | rfl | (rename_i heq; cases heq)
  | c :: x :: r, h =>
    have he : ∀ (c x : Char) (r : Str), binaryPrefix (c :: x :: r) =
        if c = '%' then (if isBinaryDigit x then some (x :: r) else none) else none := by
      intro c x r
      by_cases h1 : c = '%'
      · subst h1; rfl
      · rw [if_neg h1]
        unfold binaryPrefix
        split
        · rename_i heq; cases heq; exact absurd rfl h1
        · rfl
    obtain ⟨d, t, rfl, e1, e2⟩ := lower_cons h
    obtain ⟨y, t, rfl, e3, e4⟩ := lower_cons e2
    rw [he, he, same_bin e3]
    simp only [eq_plain e1 (x := '%') (by decide)]
    split
    · split
      · exact .inr ⟨_, _, rfl, rfl, e2⟩
      · exact .inl ⟨rfl, rfl⟩
    · exact .inl ⟨rfl, rfl⟩

theorem wordToken_same {w w' : Str} (h : lower w = lower w') : SameButCase (wordToken w) (wordToken w') := by
  by_cases hr : ∃ t, (lower w, t) ∈ reservedWords
  · obtain ⟨t, ht⟩ := hr
    rw [wordToken_reserved ht, wordToken_reserved (h ▸ ht)]
    exact .inl rfl
  · have hf : ∀ t, (lower w, t) ∉ reservedWords := fun t ht => hr ⟨t, ht⟩
    rw [wordToken_free hf, wordToken_free (h ▸ hf)]
    refine .inr ⟨w, w', rfl, rfl, ?_⟩
    unfold SameLetters
    rw [map_toLower, map_toLower, h]

theorem dottedToken_same {w w' : Str} (h : lower w = lower w') : dottedToken w = dottedToken w' := by
  by_cases hr : ∃ t, (lower w, t) ∈ dottedWords
  · obtain ⟨t, ht⟩ := hr
    rw [dottedToken_known ht, dottedToken_known (h ▸ ht)]
  · have hf : ∀ t, (lower w, t) ∉ dottedWords := fun t ht => hr ⟨t, ht⟩
    rw [dottedToken_unknown hf, dottedToken_unknown (h ▸ hf)]

/-- One round: the same failure, or the same token and rest but for case. -/
theorem scanToken_same {s s' : Str} (h : lower s = lower s') :
    (∃ t t' r r', scanToken s = .ok (t, r) ∧ scanToken s' = .ok (t', r') ∧ SameButCase t t' ∧ lower r = lower r') ∨
    (scanToken s = .err .tokenize ∧ scanToken s' = .err .tokenize) ∨ (s = [] ∧ s' = []) := by
  cases hs : s with
  | nil => subst hs; exact .inr (.inr ⟨rfl, lower_nil h⟩)
  | cons c rest =>
  rw [← hs]
  unfold scanToken
  rcases scanPunct_same h with ⟨h1, h2⟩ | ⟨a, r, r', h1, h2, h3⟩
  swap
  · rw [h1, h2]; exact .inl ⟨_, _, _, _, rfl, rfl, .inl rfl, h3⟩
  rw [h1, h2]
  simp only
  rcases hexPrefix_same h with ⟨h1, h2⟩ | ⟨r, r', h1, h2, h3⟩
  swap
  · rw [h1, h2]
    obtain ⟨h4, h5⟩ := same_while (p := isHexDigit) same_hex h3
    refine .inl ⟨_, _, _, _, rfl, rfl, .inl ?_, h5⟩
    rw [same_strtol 16 h4, same_length h4]
  rw [h1, h2]
  simp only
  rcases binaryPrefix_same h with ⟨h1, h2⟩ | ⟨r, r', h1, h2, h3⟩
  swap
  · rw [h1, h2]
    obtain ⟨h4, h5⟩ := same_while (p := isBinaryDigit) same_bin h3
    refine .inl ⟨_, _, _, _, rfl, rfl, .inl ?_, h5⟩
    rw [same_strtol 2 h4, same_length h4]
  rw [h1, h2]
  subst hs
  obtain ⟨d, t, rfl, e1, e2⟩ := lower_cons h
  simp only [same_dec e1, same_first e1]
  cases hd : isDecimalDigit d with
  | true =>
    obtain ⟨h4, h5⟩ := same_while (p := isDecimalDigit) same_dec h
    refine .inl ⟨_, _, _, _, rfl, rfl, .inl ?_, h5⟩
    rw [same_strtol 10 h4]
  | false =>
    simp only [Bool.false_eq_true, if_false]
    obtain ⟨h4, h5⟩ := same_while (p := isIdentifierChar) same_ident e2
    have hdot : c = '.' ↔ d = '.' := by
      constructor
      · rintro rfl; exact (same_other e1.symm (by decide)).symm ▸ rfl
      · rintro rfl; exact same_other e1 (by decide)
    by_cases hc : d = '.'
    · rw [if_pos (hdot.mpr hc), if_pos hc]
      have hw : lower ('.' :: rest.takeWhile isIdentifierChar) = lower ('.' :: t.takeWhile isIdentifierChar) := by
        simp only [lower, List.map_cons] at h4 ⊢; rw [h4]
      rw [dottedToken_same hw]
      cases hx : dottedToken ('.' :: t.takeWhile isIdentifierChar) with
      | ok x => exact .inl ⟨_, _, _, _, rfl, rfl, .inl rfl, h5⟩
      | err e =>
        right; left
        have : e = .tokenize := by
          unfold dottedToken at hx
          split at hx
          · cases hx
          · split at hx
            · cases hx
            · cases hx; rfl
        subst this
        exact ⟨rfl, rfl⟩
      | ub e =>
        unfold dottedToken at hx
        split at hx
        · cases hx
        · split at hx <;> cases hx
    · rw [if_neg (fun h => hc (hdot.mp h)), if_neg hc]
      cases isIdentifierFirstChar d with
      | true =>
        refine .inl ⟨_, _, _, _, rfl, rfl, wordToken_same ?_, h5⟩
        simp only [lower, List.map_cons] at h4 ⊢; rw [h4, e1]
      | false => exact .inr (.inl ⟨rfl, rfl⟩)

/-- The whole line. -/
theorem tokenize_same : ∀ (n : Nat) {s s' : Str}, s.length < n → lower s = lower s' →
    (∃ ts ts', tokenize s = .ok ts ∧ tokenize s' = .ok ts' ∧ List.Forall₂ SameButCase ts ts') ∨
    (tokenize s = .err .tokenize ∧ tokenize s' = .err .tokenize) := by
  intro n
  induction n with
  | zero => intro s s' h; omega
  | succ n ih =>
    intro s s' hn h
    rw [tokenize_eq s, tokenize_eq s']
    have hst := (same_while (p := isSpace) same_space h).2
    change lower (stripLeading s) = lower (stripLeading s') at hst
    have hlen : (stripLeading s).length ≤ s.length := (List.dropWhile_sublist _).length_le
    generalize stripLeading s = u at hst hlen
    generalize stripLeading s' = u' at hst
    cases u with
    | nil =>
      rw [lower_nil hst]
      exact .inl ⟨_, _, rfl, rfl, .cons (.inl rfl) .nil⟩
    | cons c u =>
      obtain ⟨d, t, rfl, e1, e2⟩ := lower_cons hst
      have hsemi : c = ';' ↔ d = ';' := eq_plain e1 (by decide)
      simp only [reduceCtorEq, false_or, List.head?_cons, Option.some.injEq, hsemi]
      split
      · exact .inl ⟨_, _, rfl, rfl, .cons (.inl rfl) .nil⟩
      · rcases scanToken_same hst with ⟨x, x', r, r', h1, h2, h3, h4⟩ | ⟨h1, h2⟩ | ⟨h1, -⟩
        · have hr : r.length < (c :: u).length := by
            rcases scanToken_spec (s := c :: u) (by simp) with ⟨_, _, h5, -, h6⟩ | h5
            · rw [h1] at h5; cases h5; exact h6
            · rw [h1] at h5; cases h5
          rw [h1, h2]
          simp only [Res.bind_ok]
          rcases ih (s := r) (s' := r') (by simp at hr hlen; omega) h4 with ⟨ts, ts', h5, h6, h7⟩ | ⟨h5, h6⟩
          · rw [h5, h6]; exact .inl ⟨_, _, rfl, rfl, .cons h3 h7⟩
          · rw [h5, h6]; exact .inr ⟨rfl, rfl⟩
        · rw [h1, h2]; exact .inr ⟨rfl, rfl⟩
        · cases h1

end Nsasm.Case
