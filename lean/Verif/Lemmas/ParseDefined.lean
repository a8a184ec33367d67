import Verif.Props.Syntax

/-! # Parsing is undefined only if an expression overflows -/

namespace Nsasm
open Spec Props Parse

theorem Res.bind_eq_ub {α β : Type} {x : Res α} {f : α → Res β} {u : Ub} :
    (x >>= f) = Res.ub u ↔ x = Res.ub u ∨ ∃ a, x = Res.ok a ∧ f a = Res.ub u := by
  cases x <;> simp

/-- The only undefined behaviour is reading a token after the last. -/
def OnlyEmpty {α : Type} (r : Res α) : Prop := ∀ u, r = .ub u → u = .emptyAccess

theorem OnlyEmpty.bind {α β : Type} {x : Res α} {f : α → Res β} (hx : OnlyEmpty x)
    (hf : ∀ a, x = .ok a → OnlyEmpty (f a)) : OnlyEmpty (x >>= f) := by
  intro u h
  rcases Res.bind_eq_ub.1 h with h | ⟨a, ha, h⟩
  · exact hx u h
  · exact hf a ha u h

theorem onlyEmpty_ok {α : Type} (a : α) : OnlyEmpty (.ok a) := fun _ h => by cases h
theorem onlyEmpty_err {α : Type} (e : Err) : OnlyEmpty (.err e : Res α) := fun _ h => by cases h

theorem OnlyEmpty.ite {α : Type} {p : Prop} [Decidable p] {a b : Res α} (ha : p → OnlyEmpty a) (hb : ¬p → OnlyEmpty b) :
    OnlyEmpty (if p then a else b) := by
  split
  · exact ha ‹_›
  · exact hb ‹_›

theorem front_onlyEmpty (ts : Toks) : OnlyEmpty (front ts) := by
  cases ts with
  | nil => intro u h; cases h; rfl
  | cons t ts => exact onlyEmpty_ok _

theorem atEnd_onlyEmpty (ts : Toks) : OnlyEmpty (atEnd ts) := (front_onlyEmpty ts).bind fun _ _ => onlyEmpty_ok _

theorem atEndOrSuffix_onlyEmpty (ts : Toks) : OnlyEmpty (atEndOrSuffix ts) :=
  (front_onlyEmpty ts).bind fun _ _ => onlyEmpty_ok _

theorem consume_onlyEmpty (c : Char) (ts : Toks) : OnlyEmpty (consume c ts) :=
  (front_onlyEmpty ts).bind fun _ _ => .ite (fun _ => onlyEmpty_err _) fun _ => onlyEmpty_ok _

theorem confirmAtEnd_onlyEmpty (ts : Toks) : OnlyEmpty (confirmAtEnd ts) :=
  (atEnd_onlyEmpty ts).bind fun _ _ => .ite (fun _ => onlyEmpty_err _) fun _ => onlyEmpty_ok _

theorem confirmAtEndOrSuffix_onlyEmpty (ts : Toks) : OnlyEmpty (confirmAtEndOrSuffix ts) :=
  (atEndOrSuffix_onlyEmpty ts).bind fun _ _ => .ite (fun _ => onlyEmpty_err _) fun _ => onlyEmpty_ok _

theorem confirmLegalRegister_onlyEmpty (l : List Char) (ts : Toks) : OnlyEmpty (confirmLegalRegister l ts) :=
  (front_onlyEmpty ts).bind fun _ _ => .ite (fun _ => onlyEmpty_err _) fun _ => onlyEmpty_ok _

theorem mode_onlyEmpty (ts : Toks) : OnlyEmpty (mode ts) := by
  refine (front_onlyEmpty ts).bind fun t _ => ?_
  split
  · split
    · exact onlyEmpty_ok _
    · exact onlyEmpty_err _
  · exact onlyEmpty_err _

theorem identifier_onlyEmpty (ts : Toks) : OnlyEmpty (identifier ts) := by
  refine (front_onlyEmpty ts).bind fun t _ => ?_
  split
  · exact onlyEmpty_ok _
  · exact onlyEmpty_err _

theorem compIdent_onlyEmpty (t : NumericType) (ts : Toks) : OnlyEmpty (compIdent t ts) := by
  refine (front_onlyEmpty ts).bind fun t _ => ?_
  split
  · exact (identifier_onlyEmpty _).bind fun ⟨_, _⟩ _ => onlyEmpty_ok _
  · refine (front_onlyEmpty _).bind fun _ _ => ?_
    refine .ite (fun _ => ?_) fun _ => onlyEmpty_ok _
    exact (identifier_onlyEmpty _).bind fun ⟨_, _⟩ _ => onlyEmpty_ok _
  · exact onlyEmpty_ok _

theorem returnConvention_onlyEmpty (ts : Toks) : OnlyEmpty (returnConvention ts) := by
  refine (front_onlyEmpty ts).bind fun t _ => ?_
  split
  · exact onlyEmpty_ok _
  · exact (mode_onlyEmpty _).bind fun ⟨_, _⟩ _ => onlyEmpty_ok _
  · exact onlyEmpty_ok _

theorem expr_onlyEmpty (n : Nat) : ∀ ts : Toks, OnlyEmpty (expr n ts) ∧ (∀ acc, OnlyEmpty (exprLoop n acc ts)) ∧
    OnlyEmpty (term n ts) ∧ (∀ acc, OnlyEmpty (termLoop n acc ts)) ∧ OnlyEmpty (factor n ts) ∧
    OnlyEmpty (comp n ts) := by
  induction n with
  | zero =>
    intro ts
    refine ⟨?_, fun _ => ?_, ?_, fun _ => ?_, ?_, ?_⟩ <;>
      simp only [expr, exprLoop, term, termLoop, factor, comp] <;> exact onlyEmpty_err _
  | succ n ih =>
    intro ts
    refine ⟨?_, fun acc => ?_, ?_, fun acc => ?_, ?_, ?_⟩
    · rw [expr]
      exact (ih ts).2.2.1.bind fun ⟨e, r⟩ _ => (ih r).2.1 e
    · rw [exprLoop]
      refine (front_onlyEmpty ts).bind fun t _ => ?_
      refine .ite (fun _ => onlyEmpty_ok _) fun _ => ?_
      split
      · exact onlyEmpty_ok _
      · exact (ih _).2.2.1.bind fun ⟨e, r⟩ _ => (ih r).2.1 _
    · rw [term]
      exact (ih ts).2.2.2.2.1.bind fun ⟨e, r⟩ _ => (ih r).2.2.2.1 e
    · rw [termLoop]
      refine (front_onlyEmpty ts).bind fun t _ => ?_
      refine .ite (fun _ => onlyEmpty_ok _) fun _ => ?_
      split
      · exact onlyEmpty_ok _
      · exact (ih _).2.2.2.2.1.bind fun ⟨e, r⟩ _ => (ih r).2.2.2.1 _
    · rw [factor]
      refine (front_onlyEmpty ts).bind fun t _ => ?_
      split
      · exact (ih _).2.2.2.2.1.bind fun ⟨e, r⟩ _ => onlyEmpty_ok _
      · exact (ih _).2.2.2.2.2
    · rw [comp]
      refine (front_onlyEmpty ts).bind fun t _ => ?_
      split
      · exact onlyEmpty_ok _
      · refine (compIdent_onlyEmpty _ _).bind fun o _ => ?_
        split
        · exact onlyEmpty_ok _
        · exact onlyEmpty_err _
      · refine (compIdent_onlyEmpty _ _).bind fun o _ => ?_
        split
        · exact onlyEmpty_ok _
        · refine .ite (fun _ => ?_) fun _ => onlyEmpty_err _
          refine (ih _).1.bind fun ⟨e, r⟩ _ => ?_
          exact (consume_onlyEmpty _ _).bind fun _ _ => onlyEmpty_ok _

theorem expression_onlyEmpty (ts : Toks) : OnlyEmpty (expression ts) := (expr_onlyEmpty _ ts).1

/-! ## Where an expression is evaluated -/

/-- The expression is written somewhere in the tokens. -/
def Seg (ts : Toks) (e : Expr) : Prop := ∃ p q r, ts = p ++ q ++ r ∧ Derives .expr q e

theorem Seg.suffix {ts ts' : Toks} {e : Expr} (h : Seg ts' e) (hs : ts' <:+ ts) : Seg ts e := by
  obtain ⟨p, q, r, rfl, h⟩ := h
  obtain ⟨p', rfl⟩ := hs
  exact ⟨p' ++ p, q, r, by simp, h⟩

/-- An expression of the tokens is undefined in this way. -/
def SegUb (ts : Toks) (u : Ub) : Prop := ∃ e, Seg ts e ∧ e.eval nullCtx = .ub u

/-- Undefined behaviour is reading a token after the last, or that of an expression of `ts`. -/
def Blames {α : Type} (ts : Toks) (r : Res α) : Prop := ∀ u, r = .ub u → u = .emptyAccess ∨ SegUb ts u

theorem Blames.bindE {α β : Type} {ts : Toks} {x : Res α} {f : α → Res β} (hx : OnlyEmpty x)
    (hf : ∀ a, x = .ok a → Blames ts (f a)) : Blames ts (x >>= f) := by
  intro u h
  rcases Res.bind_eq_ub.1 h with h | ⟨a, ha, h⟩
  · exact .inl (hx u h)
  · exact hf a ha u h

theorem Blames.bind {α β : Type} {ts : Toks} {x : Res α} {f : α → Res β} (hx : Blames ts x)
    (hf : ∀ a, x = .ok a → Blames ts (f a)) : Blames ts (x >>= f) := by
  intro u h
  rcases Res.bind_eq_ub.1 h with h | ⟨a, ha, h⟩
  · exact hx u h
  · exact hf a ha u h

theorem OnlyEmpty.blames {α : Type} {ts : Toks} {r : Res α} (h : OnlyEmpty r) : Blames ts r := fun u hu => .inl (h u hu)

theorem Blames.ite {α : Type} {ts : Toks} {p : Prop} [Decidable p] {a b : Res α} (ha : p → Blames ts a)
    (hb : ¬p → Blames ts b) : Blames ts (if p then a else b) := by
  split
  · exact ha ‹_›
  · exact hb ‹_›

theorem Blames.suffix {α : Type} {ts ts' : Toks} {r : Res α} (h : Blames ts' r) (hs : ts' <:+ ts) : Blames ts r := by
  intro u hu
  rcases h u hu with h | ⟨e, he, h⟩
  · exact .inl h
  · exact .inr ⟨e, he.suffix hs, h⟩

theorem coerceByte_ub {a : Expr} {b : Mode} {u : Ub} (h : coerceByte a b = .ub u) : a.eval nullCtx = .ub u := by
  unfold coerceByte at h
  repeat' split at h
  all_goals first | (cases h; done) | (cases h; assumption)

theorem coerceWord_ub {a : Expr} {b : Mode} {u : Ub} (h : coerceWord a b = .ub u) : a.eval nullCtx = .ub u := by
  unfold coerceWord at h
  repeat' split at h
  all_goals first | (cases h; done) | (cases h; assumption)

theorem coerceBytes_ub {a b : Expr} {m : Mode} {u : Ub} (h : coerceBytes a b m = .ub u) :
    a.eval nullCtx = .ub u ∨ b.eval nullCtx = .ub u := by
  unfold coerceBytes at h
  split at h
  · rename_i hx; cases h; exact .inl (coerceByte_ub hx)
  · cases h; exact .inr (coerceByte_ub (by assumption))
  · cases h
  · cases h

theorem deduceMode_ub {m : Mnemonic} {sm : SMode} {a b : Expr} {u : Ub} (h : deduceMode m sm a b = .ub u) :
    a.eval nullCtx = .ub u ∨ b.eval nullCtx = .ub u := by
  have key : ∀ r : Res Mode, deduceMode m sm a b = r →
      (∀ u, r = .ub u → a.eval nullCtx = .ub u ∨ b.eval nullCtx = .ub u) := by
    intro r hr
    subst hr
    have err : ∀ u, (Res.err .mode : Res Mode) = .ub u → a.eval nullCtx = .ub u ∨ b.eval nullCtx = .ub u := by
      intro u h; cases h
    have ok : ∀ x u, (Res.ok x : Res Mode) = .ub u → a.eval nullCtx = .ub u ∨ b.eval nullCtx = .ub u := by
      intro x u h; cases h
    have e1 : ∀ x y z u, switchByteWordLong a x y z = .ub u → a.eval nullCtx = .ub u ∨ b.eval nullCtx = .ub u := by
      intro x y z u h; unfold switchByteWordLong at h; split at h <;> cases h
    have e2 : ∀ x y u, switchByteWord a x y = .ub u → a.eval nullCtx = .ub u ∨ b.eval nullCtx = .ub u := by
      intro x y u h; unfold switchByteWord at h; split at h <;> cases h
    have e3 : ∀ x y u, switchWordLong a x y = .ub u → a.eval nullCtx = .ub u ∨ b.eval nullCtx = .ub u := by
      intro x y u h; unfold switchWordLong at h; split at h <;> cases h
    have e4 : ∀ x u, forceByte a x = .ub u → a.eval nullCtx = .ub u ∨ b.eval nullCtx = .ub u := by
      intro x u h; unfold forceByte at h; split at h <;> cases h
    have e5 : ∀ x u, forceWord a x = .ub u → a.eval nullCtx = .ub u ∨ b.eval nullCtx = .ub u := by
      intro x u h; unfold forceWord at h; split at h <;> cases h
    have e6 : ∀ x u, forceLong a x = .ub u → a.eval nullCtx = .ub u ∨ b.eval nullCtx = .ub u := by
      intro x u h; unfold forceLong at h; split at h <;> cases h
    have e7 : ∀ x u, coerceByte a x = .ub u → a.eval nullCtx = .ub u ∨ b.eval nullCtx = .ub u :=
      fun x u h => .inl (coerceByte_ub h)
    have e8 : ∀ x u, coerceWord a x = .ub u → a.eval nullCtx = .ub u ∨ b.eval nullCtx = .ub u :=
      fun x u h => .inl (coerceWord_ub h)
    have e9 : ∀ x u, coerceBytes a b x = .ub u → a.eval nullCtx = .ub u ∨ b.eval nullCtx = .ub u :=
      fun x u h => coerceBytes_ub h
    have ite : ∀ (p : Prop) [Decidable p] (x y : Res Mode),
        (∀ u, x = .ub u → a.eval nullCtx = .ub u ∨ b.eval nullCtx = .ub u) →
        (∀ u, y = .ub u → a.eval nullCtx = .ub u ∨ b.eval nullCtx = .ub u) →
        ∀ u, (if p then x else y) = .ub u → a.eval nullCtx = .ub u ∨ b.eval nullCtx = .ub u := by
      intro p _ x y hx hy u h
      split at h
      · exact hx u h
      · exact hy u h
    unfold deduceMode
    refine ite _ _ _ (ite _ _ _ err (ite _ _ _ (ok _) (ok _))) (ite _ _ _ err ?_)
    cases sm <;> simp only <;>
      repeat first
        | exact err | exact ok _ | exact e1 _ _ _ | exact e2 _ _ | exact e3 _ _
        | exact e4 _ | exact e5 _ | exact e6 _ | exact e7 _ | exact e8 _ | exact e9 _ | refine ite _ _ _ ?_ ?_
  exact key _ rfl u h

/-- A written expression or none. -/
def SegOr (ts : Toks) (e : Expr) : Prop := e = .null ∨ Seg ts e

theorem create_blames {m : Mnemonic} {s : Suffix} {sm : SMode} {a b : Expr} {ts0 ts : Toks} (ha : SegOr ts0 a)
    (hb : SegOr ts0 b) : Blames ts0 (create m s sm a b ts) := by
  intro u h
  unfold create at h
  rcases Res.bind_eq_ub.1 h with h | ⟨_, _, h⟩
  · unfold createInstruction at h
    rcases Res.bind_eq_ub.1 h with h | ⟨_, _, h⟩
    · rcases deduceMode_ub h with h | h
      · rcases ha with rfl | ha
        · cases h
        · exact .inr ⟨a, ha, h⟩
      · rcases hb with rfl | hb
        · cases h
        · exact .inr ⟨b, hb, h⟩
    · split at h <;> cases h
  · cases h

theorem finish_blames {m : Mnemonic} {s : Suffix} {sm : SMode} {a b : Expr} {ts0 ts : Toks} (ha : SegOr ts0 a)
    (hb : SegOr ts0 b) : Blames ts0 (finish m s sm a b ts) :=
  .bindE (confirmAtEndOrSuffix_onlyEmpty _) fun _ _ => create_blames ha hb

theorem names_suffix {ts ts' : Toks} (h : NamesNonempty ts) (hs : ts' <:+ ts) : NamesNonempty ts' :=
  fun hm => h (hs.mem hm)

theorem expression_seg {ts rest : Toks} {e : Expr} (hn : NamesNonempty ts) (h : expression ts = .ok (e, rest)) :
    Seg ts e ∧ rest <:+ ts := by
  obtain ⟨q, rfl, hq⟩ := C35_only_grammar ts rest e hn h
  exact ⟨⟨[], q, rest, by simp, hq⟩, List.suffix_append _ _⟩

theorem tail_suffix {ts : Toks} : ts.tail <:+ ts := List.tail_suffix ts

theorem consume_suffix {c : Char} {ts ts' : Toks} (h : consume c ts = .ok ts') : ts' <:+ ts := by
  rw [consume_ok h]; exact List.suffix_cons _ _

theorem segOr_null (ts : Toks) : SegOr ts .null := .inl rfl

theorem immediate_blames {m : Mnemonic} {s : Suffix} {ts : Toks} (hn : NamesNonempty ts) : Blames ts (immediate m s ts) := by
  refine .bindE (expression_onlyEmpty _) fun ⟨a, r⟩ h => ?_
  obtain ⟨hs, hr⟩ := expression_seg hn h
  refine .bindE (atEndOrSuffix_onlyEmpty _) fun _ _ => .ite (fun _ => create_blames (.inr hs) (segOr_null _)) fun _ => ?_
  refine .bindE (consume_onlyEmpty _ _) fun r1 h1 => .bindE (consume_onlyEmpty _ _) fun r2 h2 => ?_
  have h2s : r2 <:+ ts := ((consume_suffix h2).trans (consume_suffix h1)).trans hr
  refine .bindE (expression_onlyEmpty _) fun ⟨b, r3⟩ h3 => ?_
  exact finish_blames (.inr hs) (.inr ((expression_seg (names_suffix hn h2s) h3).1.suffix h2s))

theorem bracketed_blames {m : Mnemonic} {s : Suffix} {ts : Toks} (hn : NamesNonempty ts) : Blames ts (bracketed m s ts) := by
  refine .bindE (expression_onlyEmpty _) fun ⟨a, r⟩ h => ?_
  obtain ⟨hs, hr⟩ := expression_seg hn h
  refine .bindE (consume_onlyEmpty _ _) fun r1 h1 => .bindE (atEndOrSuffix_onlyEmpty _) fun _ _ => ?_
  refine .ite (fun _ => create_blames (.inr hs) (segOr_null _)) fun _ => ?_
  refine .bindE (consume_onlyEmpty _ _) fun _ _ => .bindE (confirmLegalRegister_onlyEmpty _ _) fun _ _ => ?_
  exact .bindE (consume_onlyEmpty _ _) fun _ _ => finish_blames (.inr hs) (segOr_null _)

theorem indirectComma_blames {m : Mnemonic} {s : Suffix} {a : Expr} {ts0 ts : Toks} (ha : SegOr ts0 a) :
    Blames ts0 (indirectComma m s a ts) := by
  refine .bindE (confirmLegalRegister_onlyEmpty _ _) fun _ _ => .bindE (front_onlyEmpty _) fun _ _ => ?_
  refine .ite (fun _ => ?_) fun _ => ?_
  · exact .bindE (consume_onlyEmpty _ _) fun _ _ => finish_blames ha (segOr_null _)
  · refine .bindE (consume_onlyEmpty _ _) fun _ _ => .bindE (consume_onlyEmpty _ _) fun _ _ => ?_
    refine .bindE (consume_onlyEmpty _ _) fun _ _ => .bindE (confirmLegalRegister_onlyEmpty _ _) fun _ _ => ?_
    exact .bindE (consume_onlyEmpty _ _) fun _ _ => finish_blames ha (segOr_null _)

theorem bare_blames {m : Mnemonic} {s : Suffix} {ts : Toks} (hn : NamesNonempty ts) : Blames ts (bare m s ts) := by
  refine .bindE (expression_onlyEmpty _) fun ⟨a, r⟩ h => ?_
  obtain ⟨hs, hr⟩ := expression_seg hn h
  refine .bindE (atEndOrSuffix_onlyEmpty _) fun _ _ => .ite (fun _ => create_blames (.inr hs) (segOr_null _)) fun _ => ?_
  refine .bindE (consume_onlyEmpty _ _) fun _ _ => .bindE (confirmLegalRegister_onlyEmpty _ _) fun _ _ => ?_
  refine .bindE (front_onlyEmpty _) fun _ _ => ?_
  refine .ite (fun _ => finish_blames (.inr hs) (segOr_null _)) fun _ => ?_
  refine .ite (fun _ => finish_blames (.inr hs) (segOr_null _)) fun _ => ?_
  exact .bindE (consume_onlyEmpty _ _) fun _ _ => finish_blames (.inr hs) (segOr_null _)

theorem parenthesized_blames {m : Mnemonic} {s : Suffix} {ts : Toks} (hn : NamesNonempty ts) :
    Blames ts (parenthesized m s ts) := by
  refine .bindE (expression_onlyEmpty _) fun ⟨a, r⟩ h => ?_
  obtain ⟨hs, hr⟩ := expression_seg (names_suffix hn tail_suffix) h
  replace hs := hs.suffix (tail_suffix (ts := ts))
  replace hr := hr.trans (tail_suffix (ts := ts))
  refine .bindE (front_onlyEmpty _) fun _ _ => ?_
  refine .ite (fun _ => indirectComma_blames (.inr hs)) fun _ => ?_
  refine .ite (fun _ => ?_) fun _ => (bare_blames (names_suffix hn hr)).suffix hr
  refine .bindE (atEndOrSuffix_onlyEmpty _) fun _ _ => .ite (fun _ => create_blames (.inr hs) (segOr_null _)) fun _ => ?_
  refine .bindE (front_onlyEmpty _) fun _ _ => .ite (fun _ => ?_) fun _ => bare_blames hn
  refine .bindE (confirmLegalRegister_onlyEmpty _ _) fun _ _ => .bindE (consume_onlyEmpty _ _) fun _ _ => ?_
  exact finish_blames (.inr hs) (segOr_null _)

theorem operand_blames {m : Mnemonic} {s : Suffix} {ts : Toks} (hn : NamesNonempty ts) : Blames ts (operand m s ts) := by
  refine .bindE (atEndOrSuffix_onlyEmpty _) fun _ _ => ?_
  refine .ite (fun _ => create_blames (segOr_null _) (segOr_null _)) fun _ => ?_
  refine .bindE (confirmLegalRegister_onlyEmpty _ _) fun _ _ => .bindE (front_onlyEmpty _) fun _ _ => ?_
  refine .ite (fun _ => finish_blames (segOr_null _) (segOr_null _)) fun _ => ?_
  refine .ite (fun _ => (immediate_blames (names_suffix hn tail_suffix)).suffix tail_suffix) fun _ => ?_
  refine .ite (fun _ => (bracketed_blames (names_suffix hn tail_suffix)).suffix tail_suffix) fun _ => ?_
  exact .ite (fun _ => parenthesized_blames hn) fun _ => bare_blames hn

theorem instruction_blames {ts : Toks} (hn : NamesNonempty ts) : Blames ts (instruction ts) := by
  refine .bind ?_ fun ⟨i, r⟩ _ => ?_
  · refine .bindE (front_onlyEmpty _) fun t _ => ?_
    split
    · refine .bindE (front_onlyEmpty _) fun t _ => ?_
      have h2 : ts.tail.tail <:+ ts := tail_suffix.trans tail_suffix
      split
      · exact (operand_blames (names_suffix hn h2)).suffix h2
      · exact (operand_blames (names_suffix hn tail_suffix)).suffix tail_suffix
    · exact (onlyEmpty_err _).blames
  · refine .bindE (returnConvention_onlyEmpty _) fun ⟨_, _⟩ _ => ?_
    exact .ite (fun _ => (onlyEmpty_err _).blames) fun _ => (onlyEmpty_ok _).blames

theorem exprList_onlyEmpty (n : Nat) : ∀ ts : Toks, OnlyEmpty (exprList n ts) := by
  induction n with
  | zero => intro ts; exact onlyEmpty_err _
  | succ n ih =>
    intro ts
    rw [exprList]
    refine (expression_onlyEmpty _).bind fun ⟨_, _⟩ _ => (atEnd_onlyEmpty _).bind fun _ _ => ?_
    refine .ite (fun _ => onlyEmpty_ok _) fun _ => (consume_onlyEmpty _ _).bind fun r _ => ?_
    exact (ih r).bind fun ⟨_, _⟩ _ => onlyEmpty_ok _

theorem directiveFlags_onlyEmpty (d : DirectiveName) (a : Expr) (ts : Toks) : OnlyEmpty (directiveFlags d a ts) := by
  refine (mode_onlyEmpty _).bind fun ⟨_, _⟩ _ => ?_
  have hend : ∀ (f : StatusFlags) (r : Toks), OnlyEmpty (do
      let (rc, ts) ← returnConvention r
      confirmAtEnd ts
      Res.ok ((⟨d, a, f, rc, []⟩ : Directive), ts)) := fun f r =>
    (returnConvention_onlyEmpty _).bind fun ⟨_, _⟩ _ => (confirmAtEnd_onlyEmpty _).bind fun _ _ => onlyEmpty_ok _
  simp only
  split
  · exact (confirmAtEnd_onlyEmpty _).bind fun _ _ => hend _ _
  · exact hend _ _

theorem directive_onlyEmpty (d : DirectiveName) (ts : Toks) : OnlyEmpty (directive d ts) := by
  have harg : OnlyEmpty (directiveArg d ts) :=
    (expression_onlyEmpty _).bind fun ⟨_, _⟩ _ => .ite (fun _ => onlyEmpty_err _) fun _ =>
      .ite (fun _ => onlyEmpty_err _) fun _ => (confirmAtEnd_onlyEmpty _).bind fun _ _ => onlyEmpty_ok _
  unfold directive
  cases d.type <;> simp only
  · exact (confirmAtEnd_onlyEmpty _).bind fun _ _ => onlyEmpty_ok _
  · exact harg
  · exact harg
  · exact directiveFlags_onlyEmpty _ _ _
  · exact directiveFlags_onlyEmpty _ _ _
  · exact (exprList_onlyEmpty _ _).bind fun ⟨_, _⟩ _ => onlyEmpty_ok _
  · exact harg
  · exact (expression_onlyEmpty _).bind fun ⟨_, _⟩ _ => directiveFlags_onlyEmpty _ _ _

theorem labelAt_onlyEmpty (ex : Bool) (ts : Toks) : OnlyEmpty (labelAt ex ts) := by
  refine (front_onlyEmpty _).bind fun t _ => ?_
  split
  · exact .ite (fun _ => onlyEmpty_ok _) fun _ => onlyEmpty_ok _
  · split
    · exact onlyEmpty_err _
    · exact onlyEmpty_ok _

theorem lineLabel_onlyEmpty (ts : Toks) : OnlyEmpty (lineLabel ts) :=
  (front_onlyEmpty _).bind fun _ _ => .ite (fun _ => labelAt_onlyEmpty _ _) fun _ => labelAt_onlyEmpty _ _

theorem lineStatement_blames {ts : Toks} (hn : NamesNonempty ts) : Blames ts (lineStatement ts) := by
  refine .bindE (front_onlyEmpty _) fun t _ => .ite (fun _ => (onlyEmpty_ok _).blames) fun _ => ?_
  split
  · exact (onlyEmpty_ok _).blames
  · exact (onlyEmpty_ok _).blames
  · refine .bindE (directive_onlyEmpty _ _) fun ⟨_, _⟩ _ => .bindE (atEnd_onlyEmpty _) fun _ _ => ?_
    exact .ite (fun _ => (onlyEmpty_err _).blames) fun _ => (onlyEmpty_ok _).blames
  · refine .bind (instruction_blames hn) fun ⟨_, _⟩ _ => .bindE (atEnd_onlyEmpty _) fun _ _ => ?_
    exact .ite (fun _ => (onlyEmpty_err _).blames) fun _ => (onlyEmpty_ok _).blames
  · exact (onlyEmpty_err _).blames

/-! ## The expressions of the statements -/

/-- The expressions of a statement are written in the tokens, and a branch is to a name. -/
def StatementSeg (ts : Toks) : Statement → Prop
  | .instr i => SegOr ts i.arg1 ∧ SegOr ts i.arg2 ∧ (i.mode = .rel8 ∨ i.mode = .rel16 → i.arg1.simpleIdentifier ≠ none)
  | .dir d => SegOr ts d.argument ∧ ∀ e ∈ d.list, Seg ts e

theorem SegOr.suffix {ts ts' : Toks} {e : Expr} (h : SegOr ts' e) (hs : ts' <:+ ts) : SegOr ts e :=
  h.imp id (·.suffix hs)

theorem StatementSeg.suffix {ts ts' : Toks} {st : Statement} (h : StatementSeg ts' st) (hs : ts' <:+ ts) :
    StatementSeg ts st := by
  cases st with
  | instr i => exact ⟨h.1.suffix hs, h.2.1.suffix hs, h.2.2⟩
  | dir d => exact ⟨h.1.suffix hs, fun e he => (h.2 e he).suffix hs⟩

theorem Seg.prefix {p q : Toks} {e : Expr} (h : Seg p e) : Seg (p ++ q) e := by
  obtain ⟨a, b, c, rfl, h⟩ := h
  exact ⟨a, b, c ++ q, by simp, h⟩

theorem SegOr.prefix {p q : Toks} {e : Expr} (h : SegOr p e) : SegOr (p ++ q) e := h.imp id (·.prefix)

theorem operand_segs {ts : Toks} {sm : SMode} {a b : Expr} (h : Operand ts sm a b) : SegOr ts a ∧ SegOr ts b := by
  have seg : ∀ (p : Toks) {q : Toks} {e : Expr} (r : Toks), Derives .expr q e → SegOr (p ++ q ++ r) e :=
    fun p q e r h => .inr ⟨p, q, r, rfl, h⟩
  have nil : ∀ ts, SegOr ts .null := fun _ => .inl rfl
  cases h with
  | imp => exact ⟨nil _, nil _⟩
  | acc => exact ⟨nil _, nil _⟩
  | imm h => exact ⟨by simpa using seg [tok '#'] [] h, nil _⟩
  | @mov ts us a b h h' =>
    exact ⟨by simpa using seg [tok '#'] (tok ',' :: tok '#' :: us) h,
      by simpa using seg (tok '#' :: ts ++ [tok ',', tok '#']) [] h'⟩
  | lng h => exact ⟨by simpa using seg [tok '['] [tok ']'] h, nil _⟩
  | lng_y h => exact ⟨by simpa using seg [tok '['] [tok ']', tok ',', tok 'Y'] h, nil _⟩
  | ind h => exact ⟨by simpa using seg [tok '('] [tok ')'] h, nil _⟩
  | ind_x h => exact ⟨by simpa using seg [tok '('] [tok ',', tok 'X', tok ')'] h, nil _⟩
  | ind_y h => exact ⟨by simpa using seg [tok '('] [tok ')', tok ',', tok 'Y'] h, nil _⟩
  | stk_y h => exact ⟨by simpa using seg [tok '('] [tok ',', tok 'S', tok ')', tok ',', tok 'Y'] h, nil _⟩
  | dir h => exact ⟨by simpa using seg [] [] h, nil _⟩
  | dir_x h => exact ⟨by simpa using seg [] [tok ',', tok 'X'] h, nil _⟩
  | dir_y h => exact ⟨by simpa using seg [] [tok ',', tok 'Y'] h, nil _⟩
  | stk h => exact ⟨by simpa using seg [] [tok ',', tok 'S'] h, nil _⟩

theorem deduceMode_rel {m : Mnemonic} {sm : SMode} {a b : Expr} {md : Mode} (h : deduceMode m sm a b = .ok md)
    (hr : md = .rel8 ∨ md = .rel16) : a.simpleIdentifier ≠ none := by
  intro hs
  have key : ∀ r : Res Mode, deduceMode m sm a b = r → ∀ md, r = .ok md → ¬ (md = .rel8 ∨ md = .rel16) := by
    intro r hr
    subst hr
    have err : ∀ md, (Res.err .mode : Res Mode) = .ok md → ¬ (md = .rel8 ∨ md = .rel16) := by intro u h; cases h
    have ok : ∀ x, (x ≠ Mode.rel8 ∧ x ≠ .rel16) → ∀ md, (Res.ok x : Res Mode) = .ok md → ¬ (md = .rel8 ∨ md = .rel16) := by
      intro x hx u h; cases h; simp [hx]
    have e1 : ∀ x y z, (x ≠ Mode.rel8 ∧ x ≠ .rel16) → (y ≠ Mode.rel8 ∧ y ≠ .rel16) → (z ≠ Mode.rel8 ∧ z ≠ .rel16) →
        ∀ md, switchByteWordLong a x y z = .ok md → ¬ (md = .rel8 ∨ md = .rel16) := by
      intro x y z hx hy hz u h; unfold switchByteWordLong at h; split at h <;> cases h <;> simp [hx, hy, hz]
    have e2 : ∀ x y, (x ≠ Mode.rel8 ∧ x ≠ .rel16) → (y ≠ Mode.rel8 ∧ y ≠ .rel16) →
        ∀ md, switchByteWord a x y = .ok md → ¬ (md = .rel8 ∨ md = .rel16) := by
      intro x y hx hy u h; unfold switchByteWord at h; split at h <;> cases h <;> simp [hx, hy]
    have e3 : ∀ x y, (x ≠ Mode.rel8 ∧ x ≠ .rel16) → (y ≠ Mode.rel8 ∧ y ≠ .rel16) →
        ∀ md, switchWordLong a x y = .ok md → ¬ (md = .rel8 ∨ md = .rel16) := by
      intro x y hx hy u h; unfold switchWordLong at h; split at h <;> cases h <;> simp [hx, hy]
    have e4 : ∀ x, (x ≠ Mode.rel8 ∧ x ≠ .rel16) → ∀ md, forceByte a x = .ok md → ¬ (md = .rel8 ∨ md = .rel16) := by
      intro x hx u h; unfold forceByte at h; split at h <;> cases h; simp [hx]
    have e5 : ∀ x, (x ≠ Mode.rel8 ∧ x ≠ .rel16) → ∀ md, forceWord a x = .ok md → ¬ (md = .rel8 ∨ md = .rel16) := by
      intro x hx u h; unfold forceWord at h; split at h <;> cases h; simp [hx]
    have e6 : ∀ x, (x ≠ Mode.rel8 ∧ x ≠ .rel16) → ∀ md, forceLong a x = .ok md → ¬ (md = .rel8 ∨ md = .rel16) := by
      intro x hx u h; unfold forceLong at h; split at h <;> cases h; simp [hx]
    have e7 : ∀ x, (x ≠ Mode.rel8 ∧ x ≠ .rel16) → ∀ md, coerceByte a x = .ok md → ¬ (md = .rel8 ∨ md = .rel16) := by
      intro x hx u h; unfold coerceByte at h
      repeat' split at h
      all_goals first | (cases h; done) | (cases h; simp [hx])
    have e8 : ∀ x, (x ≠ Mode.rel8 ∧ x ≠ .rel16) → ∀ md, coerceWord a x = .ok md → ¬ (md = .rel8 ∨ md = .rel16) := by
      intro x hx u h; unfold coerceWord at h
      repeat' split at h
      all_goals first | (cases h; done) | (cases h; simp [hx])
    have e9 : ∀ x, (x ≠ Mode.rel8 ∧ x ≠ .rel16) → ∀ md, coerceBytes a b x = .ok md → ¬ (md = .rel8 ∨ md = .rel16) := by
      intro x hx u h; unfold coerceBytes at h
      repeat' split at h
      all_goals first | (cases h; done) | (cases h; simp [hx])
    have ite : ∀ (p : Prop) [Decidable p] (x y : Res Mode),
        (∀ md, x = .ok md → ¬ (md = .rel8 ∨ md = .rel16)) → (∀ md, y = .ok md → ¬ (md = .rel8 ∨ md = .rel16)) →
        ∀ md, (if p then x else y) = .ok md → ¬ (md = .rel8 ∨ md = .rel16) := by
      intro p _ x y hx hy u h
      split at h
      · exact hx u h
      · exact hy u h
    unfold deduceMode
    rw [if_pos (.inr hs : sm ≠ .dir ∨ a.simpleIdentifier = none)]
    refine ite _ _ _ err (ite _ _ _ err ?_)
    cases sm <;> simp only <;>
      repeat first
        | exact err | exact ok _ (by decide) | exact e1 _ _ _ (by decide) (by decide) (by decide)
        | exact e2 _ _ (by decide) (by decide) | exact e3 _ _ (by decide) (by decide)
        | exact e4 _ (by decide) | exact e5 _ (by decide) | exact e6 _ (by decide) | exact e7 _ (by decide)
        | exact e8 _ (by decide) | exact e9 _ (by decide) | refine ite _ _ _ ?_ ?_
  exact key _ rfl md h hr

theorem operandForm_segs {m : Mnemonic} {s : Suffix} {p rest : Toks} {sm : SMode} {a b : Expr} {i : Instruction}
    (hp : Operand p sm a b) (hw : Written m s sm a b .default i) : StatementSeg (p ++ rest) (.instr i) := by
  obtain ⟨h1, h2⟩ := operand_segs hp
  obtain ⟨w1, -, -, w4, w5, -⟩ := hw
  refine ⟨by rw [w4]; exact h1.prefix, by rw [w5]; exact h2.prefix, fun hr => ?_⟩
  rw [w4]
  exact deduceMode_rel w1 hr

theorem operandLenient_segs {m : Mnemonic} {s : Suffix} {ts rest : Toks} {i : Instruction}
    (h : OperandLenient m s ts i rest) : StatementSeg ts (.instr i) := by
  rcases h with ⟨p, sm, a, b, rfl, hp, -, hw⟩ | ⟨q, a, p, sm, b, c, rfl, -, hp, hw⟩
  · exact operandForm_segs hp hw
  · rw [List.append_assoc]
    exact (operandForm_segs hp hw).suffix (List.suffix_append _ _)

theorem instruction_segs {ts rest : Toks} {i : Instruction} (hn : NamesNonempty ts)
    (h : instruction ts = .ok (i, rest)) : StatementSeg ts (.instr i) := by
  unfold instruction at h
  obtain ⟨⟨i1, ts1⟩, h1, h⟩ := Res.bind_eq_ok.mp h
  obtain ⟨⟨rc, ts2⟩, h2, h⟩ := Res.bind_eq_ok.mp h
  simp only at h
  split at h
  · cases h
  cases h
  suffices hs : StatementSeg ts (.instr i1) from hs
  unfold instructionCore at h1
  obtain ⟨t, ht, h1⟩ := Res.bind_eq_ok.mp h1
  split at h1
  · obtain ⟨t2, ht2, h1⟩ := Res.bind_eq_ok.mp h1
    have h2 : ts.tail.tail <:+ ts := tail_suffix.trans tail_suffix
    split at h1
    · exact (operandLenient_segs (operand_ok (names_suffix hn h2) h1)).suffix h2
    · exact (operandLenient_segs (operand_ok (names_suffix hn tail_suffix) h1)).suffix tail_suffix
  · cases h1

theorem exprList_segs {ts : Toks} {es : List Expr} (h : ExprList ts es) : ∀ e ∈ es, Seg ts e := by
  induction h with
  | one h =>
    intro e he
    rw [List.mem_singleton] at he
    subst he
    exact ⟨[], _, [], by simp, h⟩
  | cons h _ ih =>
    intro e he
    rcases List.mem_cons.1 he with rfl | he
    · exact ⟨[], _, _, rfl, h⟩
    · exact (ih e he).suffix ⟨_ ++ [tok ','], List.append_assoc _ _ _⟩

theorem directiveForm_segs {d : DirectiveName} {ts : Toks} {r : Directive} (h : DirectiveForm d ts r) :
    StatementSeg ts (.dir r) := by
  cases h with
  | none => exact ⟨.inl rfl, by simp⟩
  | expr _ h _ _ => exact ⟨.inr ⟨[], _, [], by simp, h⟩, by simp⟩
  | list _ h => exact ⟨.inl rfl, exprList_segs h⟩
  | flags => exact ⟨.inl rfl, by simp⟩
  | convention => exact ⟨.inl rfl, by simp⟩
  | remote _ h => exact ⟨.inr ⟨[], _, _, rfl, h⟩, by simp⟩

theorem lineStatement_segs {ts rest : Toks} {st : Statement} (hn : NamesNonempty ts)
    (h : lineStatement ts = .ok (some (st, rest))) : StatementSeg ts st := by
  unfold lineStatement at h
  obtain ⟨t, ht, h⟩ := Res.bind_eq_ok.mp h
  split at h
  · cases h
  split at h
  · cases h; exact ⟨.inl rfl, by simp⟩
  · cases h; exact ⟨.inl rfl, by simp⟩
  · obtain ⟨⟨d, ts1⟩, h1, h⟩ := Res.bind_eq_ok.mp h
    obtain ⟨b, -, h⟩ := Res.bind_eq_ok.mp h
    split at h
    · cases h
    · cases h
      obtain ⟨p, hp, hd⟩ := directive_ok (names_suffix hn tail_suffix) h1
      have : StatementSeg ts.tail (.dir d) := by
        have := directiveForm_segs hd
        rw [hp]
        exact ⟨this.1.prefix, fun e he => (this.2 e he).prefix⟩
      exact this.suffix tail_suffix
  · obtain ⟨⟨i, ts1⟩, h1, h⟩ := Res.bind_eq_ok.mp h
    obtain ⟨b, -, h⟩ := Res.bind_eq_ok.mp h
    split at h
    · cases h
    · cases h
      exact instruction_segs hn h1
  · cases h

theorem lineLabel_suffix {ts rest : Toks} {l : Option ParsedLabel} {colon : Bool}
    (h : lineLabel ts = .ok (l, colon, rest)) : rest <:+ ts := by
  rcases lineLabel_ok h with ⟨-, -, rfl⟩ | ⟨lab, -, -, rfl⟩ | ⟨lab, -, -, rfl, -⟩
  · exact List.suffix_refl _
  · exact ⟨labelTokens lab ++ [tok ':'], by simp⟩
  · exact List.suffix_append _ _

theorem lineStatement_suffix {ts rest : Toks} {st : Statement} (hn : NamesNonempty ts)
    (h : lineStatement ts = .ok (some (st, rest))) : rest <:+ ts := by
  rcases lineStatement_ok hn h with ⟨h, -⟩ | ⟨us, h, rfl⟩ | ⟨us, h, rfl⟩ | ⟨st', t, us, h, -, p, hp, -⟩
  · cases h
  · cases h; exact List.suffix_cons _ _
  · cases h; exact List.suffix_cons _ _
  · cases h; exact ⟨p ++ [t], by rw [hp]; simp⟩

theorem parseLoop_blames (n : Nat) : ∀ {ts : Toks}, NamesNonempty ts → Blames ts (parseLoop n ts) ∧
    ∀ items, parseLoop n ts = .ok items → ∀ st, .stmt st ∈ items → StatementSeg ts st := by
  induction n with
  | zero => intro ts _; exact ⟨(onlyEmpty_err _).blames, fun _ h => by cases h⟩
  | succ n ih =>
    intro ts hn
    rw [parseLoop]
    by_cases h0 : ts = []
    · rw [if_pos h0]
      exact ⟨(onlyEmpty_ok _).blames, fun items h => by cases h; simp⟩
    rw [if_neg h0]
    refine ⟨.bindE (lineLabel_onlyEmpty _) fun ⟨l, colon, r⟩ h1 => ?_, fun items h => ?_⟩
    · have hs := lineLabel_suffix h1
      have hr := names_suffix hn hs
      refine .ite (fun _ => ?_) fun _ => ?_
      · exact .bind ((ih hr).1.suffix hs) fun _ _ => (onlyEmpty_ok _).blames
      · refine .bind ((lineStatement_blames hr).suffix hs) fun o ho => ?_
        cases o with
        | none => exact (onlyEmpty_ok _).blames
        | some q =>
          obtain ⟨st, us⟩ := q
          have h2 := lineStatement_suffix hr ho
          exact .bind (((ih (names_suffix hr h2)).1.suffix h2).suffix hs) fun _ _ => (onlyEmpty_ok _).blames
    · obtain ⟨⟨l, colon, r⟩, h1, h⟩ := Res.bind_eq_ok.mp h
      have hs := lineLabel_suffix h1
      have hr := names_suffix hn hs
      have hl : ∀ s, Item.stmt s ∉ (l.map Item.label).toList := by
        intro s hs; cases l <;> simp at hs
      intro st hst
      simp only at h
      split at h
      · obtain ⟨rest, h2, h⟩ := Res.bind_eq_ok.mp h
        cases h
        rcases List.mem_append.1 hst with h3 | h3
        · exact absurd h3 (hl _)
        · exact ((ih hr).2 _ h2 st h3).suffix hs
      · obtain ⟨o, ho, h⟩ := Res.bind_eq_ok.mp h
        cases o with
        | none => cases h; exact absurd hst (hl _)
        | some q =>
          obtain ⟨st', us⟩ := q
          have h2 := lineStatement_suffix hr ho
          simp only at h
          obtain ⟨rest, h3, h⟩ := Res.bind_eq_ok.mp h
          cases h
          rcases List.mem_append.1 hst with h4 | h4
          · exact absurd h4 (hl _)
          · rcases List.mem_cons.1 h4 with h4 | h4
            · cases h4; exact (lineStatement_segs hr ho).suffix hs
            · exact (((ih (names_suffix hr h2)).2 _ h3 st h4).suffix h2).suffix hs

end Nsasm
