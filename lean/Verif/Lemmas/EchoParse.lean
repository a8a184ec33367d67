import Verif.Lemmas.ParseDefined
import Verif.Lemmas.Lex
import Verif.Lemmas.PrintText
import Verif.Lemmas.Neat
import Verif.Lemmas.Dump
import Verif.Props.Grammar
import Verif.Model.Interactive
import Verif.Spec.Interactive

/-! # What the items of a line are made of -/

namespace Nsasm.Echo
open Nsasm Spec Props Parse

/-- A token as the tokenizer makes it. -/
def Good : Token → Prop
  | .ident w => IsName w
  | .lit v t => (t = .byte ∨ t = .word ∨ t = .long ∨ t = .unknown) ∧ v < 2 ^ 31
  | _ => True

theorem kept_lt (n : Int) : kept n < 2 ^ 31 := by
  unfold kept
  simp only [Int.bmod]
  omega

theorem sizedBy_cases (k n : Nat) : sizedBy k n = .byte ∨ sizedBy k n = .word ∨ sizedBy k n = .long ∨ sizedBy k n = .unknown := by
  unfold sizedBy
  repeat' split
  all_goals simp

theorem good_lexeme {w : Str} {t : Token} (h : Lexeme w (some t)) : Good (keptToken t) := by
  generalize ho : some t = o at h
  cases h with
  | symbol known => cases ho; trivial
  | dollar | hex | binary => cases ho; exact ⟨sizedBy_cases _ _, kept_lt _⟩
  | decimal => cases ho; exact ⟨by simp, kept_lt _⟩
  | reserved first rest known =>
    cases ho
    have : ∀ p ∈ reservedWords, Good (keptToken p.2) := by
      intro p hp
      have : ∀ p ∈ reservedWords, (match p.2 with | .ident _ => false | .lit _ _ => false | _ => true) = true := by decide +kernel
      have := this p hp
      revert this
      cases p.2 <;> simp [keptToken, Good]
    exact this _ known
  | name first rest free =>
    cases ho
    refine ⟨⟨_, _, rfl, (letter_iff _).1 first⟩, ?_, wordToken_free fun t => by rw [← map_toLower]; exact free t⟩
    intro d hd
    rcases List.mem_cons.1 hd with rfl | hd
    · exact (wordChar_iff _).1 (.inl first)
    · exact (wordChar_iff _).1 (rest d hd)
  | dotted rest known =>
    cases ho
    have : ∀ p ∈ dottedWords, (match p.2 with | .ident _ => false | .lit _ _ => false | _ => true) = true := by decide +kernel
    have := this _ known
    revert this
    cases t <;> simp [keptToken, Good]
  | undefined => cases ho

theorem good_reads {s : Str} {ts : List Token} (h : Reads s ts) : ∀ t ∈ ts, Good (keptToken t) := by
  induction h with
  | stop => intro t ht; rw [List.mem_singleton.1 ht]; trivial
  | comment => intro t ht; rw [List.mem_singleton.1 ht]; trivial
  | token _ lexeme _ _ ih =>
    intro t ht
    rcases List.mem_cons.1 ht with rfl | ht
    · exact good_lexeme lexeme
    · exact ih t ht

theorem good_tokens {s : Str} {ts : List Token} (h : tokenize s = .ok ts) : ∀ t ∈ ts, Good t := by
  obtain ⟨us, hr, rfl⟩ := reads_of_tokenize h
  intro t ht
  obtain ⟨u, hu, rfl⟩ := List.mem_map.1 ht
  exact good_reads hr u hu

/-- What a statement read from these tokens is made of. -/
def Made (ts : Toks) : Statement → Prop
  | .instr i => (∃ q sm, (∀ t ∈ q, t ∈ ts) ∧ Operand q sm i.arg1 i.arg2 ∧
      deduceMode i.mnemonic sm i.arg1 i.arg2 = .ok i.mode) ∧
      (i.suffix ≠ .none → flagControllingInstructionSize i.mnemonic ≠ .notVariable) ∧
      (∃ cs, Convention cs i.ret) ∧ (i.ret ≠ .default → i.mnemonic = .jsr ∨ i.mnemonic = .jsl)
  | .dir d => ∃ q, (∀ t ∈ q, t ∈ ts) ∧ DirectiveForm d.name q d

theorem Made.sub {ts ts' : Toks} {st : Statement} (h : Made ts' st) (hs : ∀ t ∈ ts', t ∈ ts) : Made ts st := by
  cases st with
  | instr i =>
    obtain ⟨⟨q, sm, h1, h2⟩, h3⟩ := h
    exact ⟨⟨q, sm, fun t ht => hs t (h1 t ht), h2⟩, h3⟩
  | dir d =>
    obtain ⟨q, h1, h2⟩ := h
    exact ⟨q, fun t ht => hs t (h1 t ht), h2⟩

theorem operand_made {m : Mnemonic} {s : Suffix} {ts rest : Toks} {i : Instruction} (h : OperandLenient m s ts i rest)
    {rc : ReturnConvention} (hc : ∃ cs, Convention cs rc) (hm : rc ≠ .default → i.mnemonic = .jsr ∨ i.mnemonic = .jsl) :
    Made ts (.instr { i with ret := rc }) := by
  rcases h with ⟨p, sm, a, b, rfl, hp, -, w⟩ | ⟨q, a, p, sm, b, c, rfl, -, hp, w⟩ <;>
  · obtain ⟨w1, w2, w3, w4, w5, -, w6⟩ := w
    subst w2 w3 w4 w5
    exact ⟨⟨p, sm, fun t ht => by simp [ht], hp, w1⟩, w6, hc, hm⟩

theorem instruction_made {ts rest : Toks} {i : Instruction} (hn : NamesNonempty ts)
    (h : instruction ts = .ok (i, rest)) : Made ts (.instr i) := by
  unfold instruction at h
  obtain ⟨⟨i1, ts1⟩, h1, h⟩ := Res.bind_eq_ok.mp h
  obtain ⟨⟨rc, ts2⟩, h2, h⟩ := Res.bind_eq_ok.mp h
  simp only at h
  split at h
  · cases h
  rename_i hc
  cases h
  obtain ⟨p, -, hp⟩ := returnConvention_ok h2
  have hm : rc ≠ .default → i1.mnemonic = .jsr ∨ i1.mnemonic = .jsl := by
    intro hr
    by_contra hx
    exact hc ⟨hr, fun h => hx (.inr h), fun h => hx (.inl h)⟩
  unfold instructionCore at h1
  obtain ⟨t, ht, h1⟩ := Res.bind_eq_ok.mp h1
  split at h1
  · obtain ⟨t2, ht2, h1⟩ := Res.bind_eq_ok.mp h1
    have h2 : ts.tail.tail <:+ ts := tail_suffix.trans tail_suffix
    split at h1
    · exact (operand_made (operand_ok (names_suffix hn h2) h1) ⟨p, hp⟩ hm).sub h2.subset
    · exact (operand_made (operand_ok (names_suffix hn tail_suffix) h1) ⟨p, hp⟩ hm).sub tail_suffix.subset
  · cases h1

theorem directive_name {d : DirectiveName} {ts : Toks} {r : Directive} (h : DirectiveForm d ts r) : r.name = d := by
  cases h <;> rfl

theorem lineStatement_made {ts rest : Toks} {st : Statement} (hn : NamesNonempty ts)
    (h : lineStatement ts = .ok (some (st, rest))) : Made ts st := by
  unfold lineStatement at h
  obtain ⟨t, ht, h⟩ := Res.bind_eq_ok.mp h
  split at h
  · cases h
  split at h
  · cases h; exact ⟨[], by simp, .none rfl⟩
  · cases h; exact ⟨[], by simp, .none rfl⟩
  · obtain ⟨⟨d, ts1⟩, h1, h⟩ := Res.bind_eq_ok.mp h
    obtain ⟨b, -, h⟩ := Res.bind_eq_ok.mp h
    split at h
    · cases h
    · cases h
      obtain ⟨p, hp, hd⟩ := directive_ok (names_suffix hn tail_suffix) h1
      refine ⟨p, fun t ht => ?_, by rw [directive_name hd]; exact hd⟩
      refine (tail_suffix (ts := ts)).subset ?_
      rw [hp]
      simp [ht]
  · obtain ⟨⟨i, ts1⟩, h1, h⟩ := Res.bind_eq_ok.mp h
    obtain ⟨b, -, h⟩ := Res.bind_eq_ok.mp h
    split at h
    · cases h
    · cases h
      exact instruction_made hn h1
  · cases h

theorem lineLabel_made {ts rest : Toks} {l : Option ParsedLabel} {colon : Bool}
    (h : lineLabel ts = .ok (l, colon, rest)) {lab : ParsedLabel} (hl : l = some lab) : .ident lab.name ∈ ts := by
  rcases lineLabel_ok h with ⟨h1, -, -⟩ | ⟨lab', h1, -, rfl⟩ | ⟨lab', h1, -, rfl, -⟩ <;>
  · rw [h1] at hl
    cases hl
    try simp [labelTokens]

theorem parseLoop_made (n : Nat) : ∀ {ts : Toks}, NamesNonempty ts → ∀ items, parseLoop n ts = .ok items →
    (∀ st, .stmt st ∈ items → Made ts st) ∧ ∀ l, .label l ∈ items → Token.ident l.name ∈ ts := by
  induction n with
  | zero => intro ts _ items h; cases h
  | succ n ih =>
    intro ts hn items h
    rw [parseLoop] at h
    by_cases h0 : ts = []
    · rw [if_pos h0] at h
      cases h
      simp
    rw [if_neg h0] at h
    obtain ⟨⟨l, colon, r⟩, h1, h⟩ := Res.bind_eq_ok.mp h
    have hs := lineLabel_suffix h1
    have hr := names_suffix hn hs
    have hl : ∀ s, Item.stmt s ∉ (l.map Item.label).toList := by
      intro s hs; cases l <;> simp at hs
    have hl' : ∀ s, Item.label s ∈ (l.map Item.label).toList → Token.ident s.name ∈ ts := by
      intro s hs
      cases l with
      | none => simp at hs
      | some l =>
        simp at hs
        exact lineLabel_made h1 (by rw [hs])
    simp only at h
    split at h
    · obtain ⟨rest, h2, h⟩ := Res.bind_eq_ok.mp h
      cases h
      obtain ⟨i1, i2⟩ := ih hr _ h2
      refine ⟨fun st hst => ?_, fun s hst => ?_⟩
      · rcases List.mem_append.1 hst with hst | hst
        · exact absurd hst (hl _)
        · exact (i1 st hst).sub hs.subset
      · rcases List.mem_append.1 hst with hst | hst
        · exact hl' _ hst
        · exact hs.subset (i2 s hst)
    · obtain ⟨o, h2, h⟩ := Res.bind_eq_ok.mp h
      cases o with
      | none =>
        cases h
        exact ⟨fun st hst => absurd hst (hl _), hl'⟩
      | some q =>
        obtain ⟨st0, us⟩ := q
        obtain ⟨rest, h3, h⟩ := Res.bind_eq_ok.mp h
        cases h
        have h4 := lineStatement_suffix hr h2
        obtain ⟨i1, i2⟩ := ih (names_suffix hr h4) _ h3
        refine ⟨fun st hst => ?_, fun s hst => ?_⟩
        · rcases List.mem_append.1 hst with hst | hst
          · exact absurd hst (hl _)
          rcases List.mem_cons.1 hst with hst | hst
          · cases hst
            exact (lineStatement_made hr h2).sub hs.subset
          · exact (i1 st hst).sub (h4.trans hs).subset
        · rcases List.mem_append.1 hst with hst | hst
          · exact hl' _ hst
          rcases List.mem_cons.1 hst with hst | hst
          · cases hst
          · exact (h4.trans hs).subset (i2 s hst)

/-! ## The form of an operand -/

theorem deduce_form {m : Mnemonic} {sm : SMode} {a b : Expr} {md : Mode} (h : deduceMode m sm a b = .ok md) :
    sm = printedForm md ∨ (sm = .acc ∧ md = .acc) := by
  have err : ∀ (e : Err) (P : Mode → Prop) md, (Res.err e : Res Mode) = .ok md → P md := by intro e P u h; cases h
  have key : ∀ (P : Mode → Prop) (r : Res Mode), (∀ md, r = .ok md → P md) → r = .ok md → P md := fun P r h1 h2 => h1 _ h2
  have ok : ∀ (P : Mode → Prop) x, P x → ∀ md, (Res.ok x : Res Mode) = .ok md → P md := by
    intro P x hx u h; cases h; exact hx
  have e1 : ∀ (P : Mode → Prop) x y z, P x → P y → P z → ∀ md, switchByteWordLong a x y z = .ok md → P md := by
    intro P x y z hx hy hz u h; unfold switchByteWordLong at h; split at h <;> cases h <;> assumption
  have e2 : ∀ (P : Mode → Prop) x y, P x → P y → ∀ md, switchByteWord a x y = .ok md → P md := by
    intro P x y hx hy u h; unfold switchByteWord at h; split at h <;> cases h <;> assumption
  have e3 : ∀ (P : Mode → Prop) x y, P x → P y → ∀ md, switchWordLong a x y = .ok md → P md := by
    intro P x y hx hy u h; unfold switchWordLong at h; split at h <;> cases h <;> assumption
  have e4 : ∀ (P : Mode → Prop) x, P x → ∀ md, forceByte a x = .ok md → P md := by
    intro P x hx u h; unfold forceByte at h; split at h <;> cases h; assumption
  have e5 : ∀ (P : Mode → Prop) x, P x → ∀ md, forceWord a x = .ok md → P md := by
    intro P x hx u h; unfold forceWord at h; split at h <;> cases h; assumption
  have e6 : ∀ (P : Mode → Prop) x, P x → ∀ md, forceLong a x = .ok md → P md := by
    intro P x hx u h; unfold forceLong at h; split at h <;> cases h; assumption
  have e7 : ∀ (P : Mode → Prop) x, P x → ∀ md, coerceByte a x = .ok md → P md := by
    intro P x hx u h; unfold coerceByte at h
    repeat' split at h
    all_goals first | (cases h; done) | (cases h; assumption)
  have e8 : ∀ (P : Mode → Prop) x, P x → ∀ md, coerceWord a x = .ok md → P md := by
    intro P x hx u h; unfold coerceWord at h
    repeat' split at h
    all_goals first | (cases h; done) | (cases h; assumption)
  have e9 : ∀ (P : Mode → Prop) x, P x → ∀ md, coerceBytes a b x = .ok md → P md := by
    intro P x hx u h; unfold coerceBytes at h
    repeat' split at h
    all_goals first | (cases h; done) | (cases h; assumption)
  have ite : ∀ (P : Mode → Prop) (p : Prop) [Decidable p] (x y : Res Mode),
      (p → ∀ md, x = .ok md → P md) → (¬ p → ∀ md, y = .ok md → P md) →
      ∀ md, (if p then x else y) = .ok md → P md := by
    intro P p _ x y hx hy u h
    split at h
    · exact hx ‹_› u h
    · exact hy ‹_› u h
  revert h
  refine key (fun md => sm = printedForm md ∨ (sm = .acc ∧ md = .acc)) _ ?_
  unfold deduceMode
  refine ite _ _ _ _ (fun _ => ite _ _ _ _ (fun _ => err _ _) fun h => ?_) fun _ => ite _ _ _ _ (fun _ => err _ _) fun _ => ?_
  · have : sm = .dir := by
      by_contra hx
      exact h (.inl hx)
    subst this
    exact ite _ _ _ _ (fun _ => ok _ _ (.inl rfl)) fun _ => ok _ _ (.inl rfl)
  · cases sm <;> simp only <;>
      repeat first
        | exact err _ _ | exact ok _ _ (.inl rfl) | exact ok _ _ (.inr ⟨trivial, rfl⟩) | exact ok _ _ (.inr ⟨rfl, rfl⟩) | exact e1 _ _ _ _ (.inl rfl) (.inl rfl) (.inl rfl)
        | exact e2 _ _ _ (.inl rfl) (.inl rfl) | exact e3 _ _ _ (.inl rfl) (.inl rfl)
        | exact e4 _ _ (.inl rfl) | exact e5 _ _ (.inl rfl) | exact e6 _ _ (.inl rfl) | exact e7 _ _ (.inl rfl)
        | exact e8 _ _ (.inl rfl) | exact e9 _ _ (.inl rfl) | refine ite _ _ _ _ (fun _ => ?_) fun _ => ?_

theorem deduce_again {m : Mnemonic} {sm : SMode} {a b : Expr} {md : Mode} (h : deduceMode m sm a b = .ok md) :
    deduceMode m (printedForm md) a b = .ok md := by
  rcases deduce_form h with rfl | ⟨rfl, rfl⟩
  · exact h
  · have : isAccMnemonic m = true ∧ isRelativeMnemonic m = false := by
      revert m
      intro m h
      unfold deduceMode at h
      by_cases hr : isRelativeMnemonic m = true
      · simp [hr] at h
      · refine ⟨?_, by simpa using hr⟩
        by_contra ha
        simp [hr, ha] at h
    show deduceMode m .imp a b = _
    unfold deduceMode
    simp [this]

end Nsasm.Echo
