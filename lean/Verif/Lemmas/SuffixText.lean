import Verif.Lemmas.Suffix
import Verif.Lemmas.Grammar

/-! # Leaving suffixes out of a line -/

namespace Nsasm.Sized
open Spec Nsasm Parse Nsasm.Props

theorem leftOut_refl : ∀ ts : List Token, LeftOut ts ts
  | [] => .nil
  | t :: ts => .keep t (leftOut_refl ts)

theorem leftOut_append {xs ys zs : List Token} (h : LeftOut (xs ++ ys) zs) :
    ∃ xs' ys', zs = xs' ++ ys' ∧ LeftOut xs xs' ∧ LeftOut ys ys' := by
  induction xs generalizing zs with
  | nil => exact ⟨[], zs, rfl, .nil, h⟩
  | cons x xs ih =>
    cases h with
    | keep t h =>
      obtain ⟨xs', ys', rfl, h1, h2⟩ := ih h
      exact ⟨x :: xs', ys', rfl, .keep x h1, h2⟩
    | leave s h =>
      obtain ⟨xs', ys', rfl, h1, h2⟩ := ih h
      exact ⟨xs', ys', rfl, .leave s h1, h2⟩

/-- Nothing is left out of tokens among which there is no suffix. -/
theorem leftOut_plain {xs xs' : List Token} (h : LeftOut xs xs') (hn : ∀ t ∈ xs, ∀ s, t ≠ .suffix s) : xs' = xs := by
  induction h with
  | nil => rfl
  | keep t _ ih => rw [ih fun u hu => hn u (List.mem_cons_of_mem _ hu)]
  | leave s _ _ => exact absurd rfl (hn _ List.mem_cons_self s)

theorem derives_plain {l : Level} {ts : Toks} {e : Expr} (h : Derives l ts e) : ∀ t ∈ ts, ∀ s, t ≠ .suffix s :=
  fun t ht => (derives_inner h t ht).2.2.2.2.2

theorem operand_plain {ts : Toks} {sm : SMode} {a b : Expr} (h : Operand ts sm a b) : ∀ t ∈ ts, ∀ s, t ≠ .suffix s := by
  intro t ht s hs
  subst hs
  cases h with
  | imp => simp at ht
  | acc => simp [tok] at ht
  | mov h1 h2 =>
    simp [tok] at ht
    rcases ht with ht | ht
    · exact derives_plain h1 _ ht s rfl
    · exact derives_plain h2 _ ht s rfl
  | dir h => exact derives_plain h _ ht s rfl
  | imm h => simp [tok] at ht; exact derives_plain h _ ht s rfl
  | lng h => simp [tok] at ht; exact derives_plain h _ ht s rfl
  | lng_y h => simp [tok] at ht; exact derives_plain h _ ht s rfl
  | ind h => simp [tok] at ht; exact derives_plain h _ ht s rfl
  | ind_x h => simp [tok] at ht; exact derives_plain h _ ht s rfl
  | ind_y h => simp [tok] at ht; exact derives_plain h _ ht s rfl
  | stk_y h => simp [tok] at ht; exact derives_plain h _ ht s rfl
  | dir_x h => simp [tok] at ht; exact derives_plain h _ ht s rfl
  | dir_y h => simp [tok] at ht; exact derives_plain h _ ht s rfl
  | stk h => simp [tok] at ht; exact derives_plain h _ ht s rfl

theorem convention_plain {ts : Toks} {rc : ReturnConvention} (h : Convention ts rc) : ∀ t ∈ ts, ∀ s, t ≠ .suffix s := by
  intro t ht s hs
  subst hs
  cases h <;> simp at ht

theorem exprList_plain {ts : Toks} {es : List Expr} (h : ExprList ts es) : ∀ t ∈ ts, ∀ s, t ≠ .suffix s := by
  induction h with
  | one h => exact derives_plain h
  | cons h _ ih =>
    intro t ht s hs
    subst hs
    simp [tok] at ht
    rcases ht with ht | ht
    · exact derives_plain h _ ht s rfl
    · exact ih _ ht s rfl

theorem directive_plain {d : DirectiveName} {ts : Toks} {st : Directive} (h : DirectiveForm d ts st) :
    ∀ t ∈ ts, ∀ s, t ≠ .suffix s := by
  intro t ht s hs
  subst hs
  cases h with
  | none => simp at ht
  | expr _ h => exact derives_plain h _ ht s rfl
  | list _ h => exact exprList_plain h _ ht s rfl
  | flags => simp at ht
  | convention _ _ h => simp at ht; exact convention_plain h _ ht s rfl
  | remote _ h1 _ h2 =>
    simp at ht
    rcases ht with ht | ht
    · exact derives_plain h1 _ ht s rfl
    · exact convention_plain h2 _ ht s rfl

theorem labelTokens_plain (l : ParsedLabel) : ∀ t ∈ Spec.labelTokens l, ∀ s, t ≠ .suffix s := by
  intro t ht s hs
  subst hs
  unfold Spec.labelTokens at ht
  cases l.exported <;> simp at ht

theorem labelForm_plain {ls : Toks} {li : List Item} (h : LabelForm ls li) : ∀ t ∈ ls, ∀ s, t ≠ .suffix s := by
  cases h with
  | absent => simp
  | present l => exact labelTokens_plain l

theorem statement_leftOut {ts ts' : Toks} {st : Statement} (h : StatementForm ts st) (hl : LeftOut ts ts') :
    ∃ st', StatementForm ts' st' ∧ Unsized (.stmt st) (.stmt st') := by
  cases h with
  | dir h =>
    have := leftOut_plain hl (by
      intro t ht s hs
      subst hs
      simp at ht
      exact directive_plain h _ ht s rfl)
    subst this
    exact ⟨_, .dir h, .same _⟩
  | @instr m ss s us sm a b cs rc i hs ho hn hc hr hw =>
    rw [List.append_assoc] at hl
    obtain ⟨xs, ys, rfl, h1, h2⟩ := leftOut_append hl
    obtain ⟨us', cs', rfl, h3, h4⟩ := leftOut_append h2
    have := leftOut_plain h3 (operand_plain ho)
    subst this
    have := leftOut_plain h4 (convention_plain hc)
    subst this
    have hx : xs = .mnem m :: ss ∨ xs = [.mnem m] := by
      cases h1 with
      | keep t h1 =>
        cases hs with
        | absent => cases h1; exact .inl rfl
        | present s =>
          cases h1 with
          | keep _ h1 => cases h1; exact .inl rfl
          | leave _ h1 => cases h1; exact .inr rfl
    rcases hx with rfl | rfl
    · exact ⟨.instr i, by rw [← List.append_assoc]; exact .instr hs ho hn hc hr hw, .same _⟩
    · refine ⟨.instr (unsized i), ?_, .removed i⟩
      obtain ⟨w1, w2, w3, w4, w5, w6, w7⟩ := hw
      have hw' : Written m .none sm a b rc (unsized i) := ⟨w1, w2, rfl, w4, w5, w6, fun h => absurd rfl h⟩
      have := StatementForm.instr (ss := []) .absent ho hn hc hr hw'
      rwa [List.append_assoc] at this

/-- **A line without some of its suffixes is read as the same items, without those suffixes.** -/
theorem line_leftOut {ts : Toks} {items : List Item} (h : LineForm ts items) : ∀ {ts' : Toks}, LeftOut ts ts' →
    ∃ items', LineForm ts' items' ∧ List.Forall₂ Unsized items items' := by
  have hrefl : ∀ li : List Item, List.Forall₂ Unsized li li := fun li => List.forall₂_same.mpr fun x _ => .same x
  induction h with
  | done =>
    intro ts' hl
    cases hl with
    | keep _ hl => cases hl; exact ⟨[], .done, .nil⟩
  | @label l ts is _ ih =>
    intro ts' hl
    obtain ⟨xs, ys, rfl, h1, h2⟩ := leftOut_append hl
    rw [leftOut_plain h1 (labelTokens_plain l)]
    cases h2 with
    | keep _ h2 =>
      obtain ⟨is', h3, h4⟩ := ih h2
      exact ⟨_, .label h3, .cons (.same _) h4⟩
  | lastLabel l =>
    intro ts' hl
    obtain ⟨xs, ys, rfl, h1, h2⟩ := leftOut_append hl
    rw [leftOut_plain h1 (labelTokens_plain l)]
    cases h2 with
    | keep _ h2 => cases h2; exact ⟨_, .lastLabel l, .cons (.same _) .nil⟩
  | @stmt ls li ts st us is hL hS _ ih =>
    intro ts' hl
    rw [List.append_assoc] at hl
    obtain ⟨xs, ys, rfl, h1, h2⟩ := leftOut_append hl
    obtain ⟨zs, us', rfl, h3, h4⟩ := leftOut_append h2
    have := leftOut_plain h1 (labelForm_plain hL)
    subst this
    obtain ⟨st', h5, h6⟩ := statement_leftOut hS h3
    cases h4 with
    | keep _ h4 =>
      obtain ⟨is', h7, h8⟩ := ih h4
      refine ⟨_, by rw [← List.append_assoc]; exact .stmt hL h5 h7, ?_⟩
      exact List.rel_append (hrefl li) (.cons h6 h8)
  | @last ls li ts st hL hS =>
    intro ts' hl
    rw [List.append_assoc] at hl
    obtain ⟨xs, ys, rfl, h1, h2⟩ := leftOut_append hl
    obtain ⟨zs, us', rfl, h3, h4⟩ := leftOut_append h2
    have := leftOut_plain h1 (labelForm_plain hL)
    subst this
    obtain ⟨st', h5, h6⟩ := statement_leftOut hS h3
    cases h4 with
    | keep _ h4 =>
      cases h4
      refine ⟨_, by rw [← List.append_assoc]; exact .last hL h5, ?_⟩
      exact List.rel_append (hrefl li) (.cons h6 .nil)
  | @opening ls li ts is hL _ ih =>
    intro ts' hl
    obtain ⟨xs, ys, rfl, h1, h2⟩ := leftOut_append hl
    have := leftOut_plain h1 (labelForm_plain hL)
    subst this
    cases h2 with
    | keep _ h2 =>
      obtain ⟨is', h3, h4⟩ := ih h2
      exact ⟨_, .opening hL h3, List.rel_append (hrefl li) (.cons (.same _) h4)⟩
  | @closing ls li ts is hL _ ih =>
    intro ts' hl
    obtain ⟨xs, ys, rfl, h1, h2⟩ := leftOut_append hl
    have := leftOut_plain h1 (labelForm_plain hL)
    subst this
    cases h2 with
    | keep _ h2 =>
      obtain ⟨is', h3, h4⟩ := ih h2
      exact ⟨_, .closing hL h3, List.rel_append (hrefl li) (.cons (.same _) h4)⟩

theorem parse_of_form {ts : Toks} {items : List Item} (h : LineForm ts items) : parse ts = .ok items :=
  parseLoop_accepts h _ (Nat.lt_succ_self _)

/-- A file without some of its suffixes. -/
theorem file_leftOut {f f' : List Str} (h : List.Forall₂ SuffixesLeftOut f f') {items : List Item} (hf : FileItems f items) :
    SuffixesRemoved f f' := by
  have hrefl : ∀ li : List Item, List.Forall₂ Unsized li li := fun li => List.forall₂_same.mpr fun x _ => .same x
  obtain ⟨per, hper, rfl⟩ := hf
  suffices ∃ per', List.Forall₂ (fun line its => ∃ ts, tokenize line = .ok ts ∧ parse ts = .ok its) f' per' ∧
      List.Forall₂ Unsized per.flatten per'.flatten by
    obtain ⟨per', h1, h2⟩ := this
    exact ⟨_, _, ⟨per, hper, rfl⟩, ⟨per', h1, rfl⟩, h2⟩
  induction h generalizing per with
  | nil => cases hper; exact ⟨[], .nil, .nil⟩
  | cons hx _ ih =>
    cases hper with
    | @cons _ its _ per hl hper =>
      obtain ⟨per', h1, h2⟩ := ih per hper
      rcases hx with rfl | ⟨ts, ts', its', t1, t2, t3, t4⟩
      · exact ⟨its :: per', .cons hl h1, by rw [List.flatten_cons, List.flatten_cons]; exact List.rel_append (hrefl its) h2⟩
      · obtain ⟨ts₀, t5, t6⟩ := hl
        rw [t1] at t5; cases t5
        rw [parse_of_form t3] at t6; cases t6
        obtain ⟨is', t7, t8⟩ := line_leftOut t3 t4
        exact ⟨is' :: per', .cons ⟨ts', t2, parse_of_form t7⟩ h1, by
          rw [List.flatten_cons, List.flatten_cons]; exact List.rel_append t8 h2⟩

end Nsasm.Sized
