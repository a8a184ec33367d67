import Verif.Spec.Text
import Mathlib.Tactic.Common

/-! # Lemmas about the parser: it stays on the line and its step bounds suffice -/

namespace Nsasm.Parse
open Nsasm Nsasm.Spec

theorem isLine_cons {ts : Toks} (h : IsLine ts) :
    ∃ t rest, ts = t :: rest ∧ (t ≠ .eol → IsLine rest) ∧ (t = .eol → rest = []) := by
  obtain ⟨body, rfl, hb⟩ := h
  cases body with
  | nil => exact ⟨.eol, [], rfl, by simp, fun _ => rfl⟩
  | cons a l =>
    refine ⟨a, l ++ [.eol], rfl, fun _ => ⟨l, rfl, fun hm => hb (by simp [hm])⟩, fun h => ?_⟩
    exact absurd (by simp [h]) hb

/-- The outcome of parsing something from the line `ts`: on success at least `k`
tokens were read and the rest is still a line; no token was read from an empty
span; the step bound was not reached. -/
def Fine {α : Type} (k : Nat) (ts : Toks) : Res (α × Toks) → Prop
  | .ok (_, ts') => IsLine ts' ∧ ts'.length + k ≤ ts.length
  | .err e => e ≠ .steps
  | .ub u => u ≠ .emptyAccess

/-- The same for a check that reads nothing. -/
def Safe {α : Type} : Res α → Prop
  | .ok _ => True
  | .err e => e ≠ .steps
  | .ub u => u ≠ .emptyAccess

/-- The same for a function that returns only the rest. -/
def FineT (k : Nat) (ts : Toks) : Res Toks → Prop
  | .ok ts' => IsLine ts' ∧ ts'.length + k ≤ ts.length
  | .err e => e ≠ .steps
  | .ub u => u ≠ .emptyAccess

theorem Fine.bind {α β : Type} {k j : Nat} {ts : Toks} {x : Res (α × Toks)}
    {f : α × Toks → Res (β × Toks)} (hx : Fine k ts x)
    (hf : ∀ a ts', IsLine ts' → ts'.length + k ≤ ts.length → Fine j ts (f (a, ts'))) :
    Fine j ts (x >>= f) := by
  rcases x with ⟨a, ts'⟩ | e | u
  · exact hf a ts' hx.1 hx.2
  · exact hx
  · exact hx

theorem Fine.bindT {β : Type} {k j : Nat} {ts ts0 : Toks} {x : Res Toks}
    {f : Toks → Res (β × Toks)} (hx : FineT k ts0 x)
    (hf : ∀ ts', IsLine ts' → ts'.length + k ≤ ts0.length → Fine j ts (f ts')) :
    Fine j ts (x >>= f) := by
  rcases x with ts' | e | u
  · exact hf ts' hx.1 hx.2
  · exact hx
  · exact hx

theorem Fine.bind' {α β : Type} {k j : Nat} {ts ts0 : Toks} {x : Res (α × Toks)}
    {f : α × Toks → Res (β × Toks)} (hx : Fine k ts0 x)
    (hf : ∀ a ts', IsLine ts' → ts'.length + k ≤ ts0.length → Fine j ts (f (a, ts'))) :
    Fine j ts (x >>= f) := by
  rcases x with ⟨a, ts'⟩ | e | u
  · exact hf a ts' hx.1 hx.2
  · exact hx
  · exact hx

theorem Fine.bindS {α β : Type} {j : Nat} {ts : Toks} {x : Res α}
    {f : α → Res (β × Toks)} (hx : Safe x) (hf : ∀ a, x = .ok a → Fine j ts (f a)) :
    Fine j ts (x >>= f) := by
  rcases x with a | e | u
  · exact hf a rfl
  · exact hx
  · exact hx

theorem Fine.ite {α : Type} {j : Nat} {ts : Toks} {p : Prop} [Decidable p] {a b : Res (α × Toks)}
    (ha : p → Fine j ts a) (hb : ¬p → Fine j ts b) : Fine j ts (if p then a else b) := by
  split
  · next h => exact ha h
  · next h => exact hb h

theorem Fine.err {α : Type} {j : Nat} {ts : Toks} : Fine j ts (Res.err .parse : Res (α × Toks)) := by
  simp [Fine]

theorem Fine.weaken {α : Type} {j k : Nat} {ts ts' : Toks} {x : Res (α × Toks)}
    (h : Fine j ts x) (hl : ts.length + k ≤ ts'.length + j) : Fine k ts' x := by
  rcases x with ⟨a, t⟩ | e | u
  · exact ⟨h.1, by have := h.2; omega⟩
  · exact h
  · exact h

theorem front_line {ts : Toks} (h : IsLine ts) : ∃ t, front ts = .ok t ∧
    (t ≠ .eol → IsLine ts.tail ∧ ts.tail.length + 1 ≤ ts.length) := by
  obtain ⟨t, rest, rfl, h1, -⟩ := isLine_cons h
  exact ⟨t, rfl, fun ht => ⟨h1 ht, by simp⟩⟩

theorem Fine.front {α : Type} {j : Nat} {ts0 ts : Toks} {f : Token → Res (α × Toks)}
    (h : IsLine ts)
    (hf : ∀ t, (t ≠ .eol → IsLine ts.tail ∧ ts.tail.length + 1 ≤ ts.length) → Fine j ts0 (f t)) :
    Fine j ts0 (front ts >>= f) := by
  obtain ⟨t, ht, hr⟩ := front_line h
  rw [ht]; exact hf t hr

theorem atEnd_safe {ts : Toks} (h : IsLine ts) : Safe (atEnd ts) := by
  obtain ⟨t, ht, -⟩ := front_line h
  simp [atEnd, ht, Safe]

theorem atEndOrSuffix_safe {ts : Toks} (h : IsLine ts) : Safe (atEndOrSuffix ts) := by
  obtain ⟨t, ht, -⟩ := front_line h
  simp [atEndOrSuffix, ht, Safe]

theorem confirmAtEnd_safe {ts : Toks} (h : IsLine ts) : Safe (confirmAtEnd ts) := by
  obtain ⟨t, ht, -⟩ := front_line h
  simp only [confirmAtEnd, atEnd, ht, Res.bind_ok]
  split <;> simp [Safe]

theorem confirmAtEndOrSuffix_safe {ts : Toks} (h : IsLine ts) :
    Safe (confirmAtEndOrSuffix ts) := by
  obtain ⟨t, ht, -⟩ := front_line h
  simp only [confirmAtEndOrSuffix, atEndOrSuffix, ht, Res.bind_ok]
  split <;> simp [Safe]

theorem confirmLegalRegister_safe {ts : Toks} (h : IsLine ts) (l : List Char) :
    Safe (confirmLegalRegister l ts) := by
  obtain ⟨t, ht, -⟩ := front_line h
  simp only [confirmLegalRegister, ht, Res.bind_ok]
  split <;> simp [Safe]

theorem consume_fine {ts : Toks} (h : IsLine ts) (c : Char) : FineT 1 ts (consume c ts) := by
  obtain ⟨t, ht, hr⟩ := front_line h
  simp only [consume, ht, Res.bind_ok]
  split
  · simp [FineT]
  · next hc =>
    apply hr
    intro he; subst he; simp at hc

theorem mode_fine {ts : Toks} (h : IsLine ts) : Fine 1 ts (mode ts) := by
  unfold mode
  apply Fine.front h
  intro t hr
  split
  · split
    · exact hr (by simp)
    · exact Fine.err
  · exact Fine.err

theorem identifier_fine {ts : Toks} (h : IsLine ts) : Fine 1 ts (identifier ts) := by
  unfold identifier
  apply Fine.front h
  intro t hr
  split
  · exact hr (by simp)
  · exact Fine.err

/-- `compIdent` finds an identifier, reading at least one token, or nothing. -/
theorem compIdent_fine {ts : Toks} (h : IsLine ts) (ty : NumericType) :
    match compIdent ty ts with
    | .ok (some (_, ts')) => IsLine ts' ∧ ts'.length + 1 ≤ ts.length
    | .ok none => True
    | .err e => e ≠ .steps
    | .ub u => u ≠ .emptyAccess := by
  obtain ⟨t, ht, hr⟩ := front_line h
  unfold compIdent
  rw [ht]
  simp only [Res.bind_ok]
  match t, hr with
  | .punct .scope, hr =>
    obtain ⟨h1, h2⟩ := hr (by simp)
    have := identifier_fine h1
    simp only
    rcases hx : identifier ts.tail with ⟨s, ts'⟩ | e | u
    · rw [hx] at this; simp only [Res.bind_ok]; exact ⟨this.1, by have := this.2; omega⟩
    · rw [hx] at this; exact this
    · rw [hx] at this; exact this
  | .ident s1, hr =>
    obtain ⟨h1, h2⟩ := hr (by simp)
    obtain ⟨t2, ht2, hr2⟩ := front_line h1
    simp only [ht2, Res.bind_ok]
    by_cases heq : t2 = .punct .scope
    · subst heq
      simp only [if_true]
      obtain ⟨h3, h4⟩ := hr2 (by simp)
      have := identifier_fine h3
      rcases hx : identifier ts.tail.tail with ⟨s, ts'⟩ | e | u
      · rw [hx] at this; simp only [Res.bind_ok]; exact ⟨this.1, by have := this.2; omega⟩
      · rw [hx] at this; exact this
      · rw [hx] at this; exact this
    · rw [if_neg heq]; exact ⟨h1, h2⟩
  | .lit _ _, _ => trivial
  | .mnem _, _ => trivial
  | .suffix _, _ => trivial
  | .dir _, _ => trivial
  | .eol, _ => trivial
  | .punct (.ch _), _ => trivial
  | .punct .export_, _ => trivial
  | .punct .noreturn, _ => trivial
  | .punct .yields, _ => trivial
  | .punct .plusplus, _ => trivial
  | .punct .plusplusplus, _ => trivial
  | .punct .minusminus, _ => trivial
  | .punct .minusminusminus, _ => trivial

theorem addOp_ne_eol {t : Token} {op : BinOp} (h : addOp t = some op) : t ≠ .eol := by
  rintro rfl; simp [addOp] at h

theorem mulOp_ne_eol {t : Token} {op : BinOp} (h : mulOp t = some op) : t ≠ .eol := by
  rintro rfl; simp [mulOp] at h

theorem unaryOp_ne_eol {t : Token} {op : UnOp} (h : unaryOp t = some op) : t ≠ .eol := by
  rintro rfl; simp [unaryOp] at h

/-- Enough steps for each of the six functions. -/
theorem expr_fine_all (n : Nat) : ∀ ts, IsLine ts →
    (4 * ts.length + 4 ≤ n → Fine 1 ts (expr n ts)) ∧
    (4 * ts.length + 1 ≤ n → ∀ acc, Fine 0 ts (exprLoop n acc ts)) ∧
    (4 * ts.length + 3 ≤ n → Fine 1 ts (term n ts)) ∧
    (4 * ts.length + 1 ≤ n → ∀ acc, Fine 0 ts (termLoop n acc ts)) ∧
    (4 * ts.length + 2 ≤ n → Fine 1 ts (factor n ts)) ∧
    (4 * ts.length + 1 ≤ n → Fine 1 ts (comp n ts)) := by
  induction n with
  | zero => intro ts _; refine ⟨?_, ?_, ?_, ?_, ?_, ?_⟩ <;> (intro h; omega)
  | succ n ih =>
    intro ts hl
    refine ⟨fun hn => ?_, fun hn acc => ?_, fun hn => ?_, fun hn acc => ?_, fun hn => ?_,
      fun hn => ?_⟩
    · simp only [expr]
      apply Fine.bind ((ih ts hl).2.2.1 (by omega))
      intro t ts' hl' hlen
      exact ((ih ts' hl').2.1 (by omega) t).weaken (by omega)
    · simp only [exprLoop]
      apply Fine.front hl
      intro t hr
      apply Fine.ite
      · intro _; exact ⟨hl, by omega⟩
      · intro _
        cases hop : addOp t with
        | none => exact ⟨hl, by omega⟩
        | some op =>
          obtain ⟨hl1, hlen1⟩ := hr (addOp_ne_eol hop)
          apply Fine.bind' ((ih _ hl1).2.2.1 (by omega))
          intro rhs ts' hl' hlen
          exact ((ih ts' hl').2.1 (by omega) _).weaken (by omega)
    · simp only [term]
      apply Fine.bind ((ih ts hl).2.2.2.2.1 (by omega))
      intro t ts' hl' hlen
      exact ((ih ts' hl').2.2.2.1 (by omega) t).weaken (by omega)
    · simp only [termLoop]
      apply Fine.front hl
      intro t hr
      apply Fine.ite
      · intro _; exact ⟨hl, by omega⟩
      · intro _
        cases hop : mulOp t with
        | none => exact ⟨hl, by omega⟩
        | some op =>
          obtain ⟨hl1, hlen1⟩ := hr (mulOp_ne_eol hop)
          apply Fine.bind' ((ih _ hl1).2.2.2.2.1 (by omega))
          intro rhs ts' hl' hlen
          exact ((ih ts' hl').2.2.2.1 (by omega) _).weaken (by omega)
    · simp only [factor]
      apply Fine.front hl
      intro t hr
      cases hop : unaryOp t with
      | none => exact (ih ts hl).2.2.2.2.2 (by omega)
      | some op =>
        obtain ⟨hl1, hlen1⟩ := hr (unaryOp_ne_eol hop)
        apply Fine.bind' ((ih _ hl1).2.2.2.2.1 (by omega))
        intro rhs ts' hl' hlen
        exact ⟨hl', by first | omega | (simp only; omega)⟩
    · simp only [comp]
      apply Fine.front hl
      intro t hr
      split
      · exact hr (by simp)
      · obtain ⟨hl1, hlen1⟩ := hr (by simp)
        have := compIdent_fine hl1 .long
        rcases hx : compIdent .long ts.tail with (_ | ⟨e, ts'⟩) | e | u
        · exact Fine.err
        · rw [hx] at this; exact ⟨this.1, by have := this.2; omega⟩
        · rw [hx] at this; exact this
        · rw [hx] at this; exact this
      · have := compIdent_fine hl .word
        rcases hx : compIdent .word ts with (_ | ⟨e, ts'⟩) | e | u
        · simp only [Res.bind_ok]
          apply Fine.ite
          · intro ht
            obtain ⟨hl1, hlen1⟩ := hr (by rw [ht]; simp)
            apply Fine.bind' ((ih _ hl1).1 (by omega))
            intro e ts' hl' hlen
            apply Fine.bindT (consume_fine hl' _)
            intro ts'' hl'' hlen''
            exact ⟨hl'', by omega⟩
          · intro _; exact Fine.err
        · rw [hx] at this; exact this
        · rw [hx] at this; exact this
        · rw [hx] at this; exact this

theorem expression_fine {ts : Toks} (h : IsLine ts) : Fine 1 ts (expression ts) :=
  (expr_fine_all _ ts h).1 (by simp [bound])

/-- Evaluation never reads a token. -/
theorem eval_ub {ctx : Ctx} {e : Expr} {u : Ub} (h : e.eval ctx = .ub u) : u ≠ .emptyAccess := by
  induction e generalizing u with
  | null => simp [Expr.eval] at h
  | lit v t => simp [Expr.eval] at h
  | ident id t =>
    simp only [Expr.eval] at h
    cases hx : ctx id <;> simp [hx] at h
  | bin op l r ihl ihr =>
    simp only [Expr.eval] at h
    have hop : ∀ a b u, op.apply a b = .ub u → u ≠ .emptyAccess := by
      intro a b u h
      cases op <;> simp only [BinOp.apply, i32] at h <;> repeat' split at h
      all_goals first | (cases h; done) | (cases h; simp)
    cases hl : l.eval ctx <;> cases hr : r.eval ctx <;> simp only [hl, hr] at h
    all_goals first
      | (cases h; done)
      | (cases h; exact ihl hl)
      | (cases h; exact ihr hr)
      | exact hop _ _ _ h
  | un op a ih =>
    simp only [Expr.eval] at h
    cases ha : a.eval ctx with
    | ok v =>
      rw [ha] at h
      cases op <;> simp only [Res.bind_ok, UnOp.apply, i32] at h <;> repeat' split at h
      all_goals first | (cases h; done) | (cases h; simp)
    | err e => rw [ha] at h; cases h
    | ub u' => rw [ha] at h; cases h; exact ih ha
  | label n e ih =>
    simp only [Expr.eval] at h
    split at h
    · cases h; simp
    · exact ih h

theorem coerceByte_safe (e : Expr) (b : Mode) : Safe (coerceByte e b) := by
  unfold coerceByte
  split
  · trivial
  · split
    · cases h : e.eval nullCtx with
      | ok v => simp only; split <;> simp [Safe]
      | err e => simp [Safe]
      | ub u => exact eval_ub h
    · simp [Safe]

theorem coerceWord_safe (e : Expr) (b : Mode) : Safe (coerceWord e b) := by
  unfold coerceWord
  split
  · trivial
  · split
    · cases h : e.eval nullCtx with
      | ok v => simp only; split <;> simp [Safe]
      | err e => simp [Safe]
      | ub u => exact eval_ub h
    · simp [Safe]

theorem coerceBytes_safe (e e' : Expr) (b : Mode) : Safe (coerceBytes e e' b) := by
  have h1 := coerceByte_safe e b
  have h2 := coerceByte_safe e' b
  unfold coerceBytes
  cases hx : coerceByte e b <;> cases hy : coerceByte e' b <;> rw [hx] at h1 <;> rw [hy] at h2 <;>
    first | exact h1 | exact h2 | simp [Safe]

theorem deduceMode_safe (m : Mnemonic) (sm : SMode) (a b : Expr) : Safe (deduceMode m sm a b) := by
  have e1 : ∀ x y z, Safe (switchByteWordLong a x y z) := by
    intros; unfold switchByteWordLong; split <;> simp [Safe]
  have e2 : ∀ x y, Safe (switchByteWord a x y) := by
    intros; unfold switchByteWord; split <;> simp [Safe]
  have e3 : ∀ x y, Safe (switchWordLong a x y) := by
    intros; unfold switchWordLong; split <;> simp [Safe]
  have e4 : ∀ x, Safe (forceByte a x) := by intros; unfold forceByte; split <;> simp [Safe]
  have e5 : ∀ x, Safe (forceWord a x) := by intros; unfold forceWord; split <;> simp [Safe]
  have e6 : ∀ x, Safe (forceLong a x) := by intros; unfold forceLong; split <;> simp [Safe]
  have err : Safe (Res.err .mode : Res Mode) := by simp [Safe]
  have ok : ∀ x, Safe (Res.ok x : Res Mode) := by intros; trivial
  have ite : ∀ (p : Prop) [Decidable p] (x y : Res Mode), Safe x → Safe y →
      Safe (if p then x else y) := by intro p _ x y hx hy; split <;> assumption
  unfold deduceMode
  refine ite _ _ _ (ite _ _ _ err (ite _ _ _ (ok _) (ok _))) (ite _ _ _ err ?_)
  cases sm <;> simp only <;>
    repeat first
      | exact err | exact ok _ | exact e1 _ _ _ | exact e2 _ _ | exact e3 _ _
      | exact e4 _ | exact e5 _ | exact e6 _ | exact coerceByte_safe _ _
      | exact coerceWord_safe _ _ | exact coerceBytes_safe _ _ _ | refine ite _ _ _ ?_ ?_

theorem create_fine {m : Mnemonic} {s : Suffix} {sm : SMode} {a b : Expr} {ts : Toks}
    (h : IsLine ts) : Fine 0 ts (create m s sm a b ts) := by
  unfold create createInstruction
  apply Fine.bindS (x := do
    let am ← deduceMode m sm a b
    if s ≠ .none ∧ flagControllingInstructionSize m = .notVariable then .err .parse
    else .ok (⟨m, s, am, a, b, .default⟩ : Instruction))
  · have := deduceMode_safe m sm a b
    cases hx : deduceMode m sm a b with
    | ok am => simp only [Res.bind_ok]; split <;> simp [Safe]
    | err e => rw [hx] at this; exact this
    | ub u => rw [hx] at this; exact this
  · intro i _; exact ⟨h, by simp⟩

theorem finish_fine {m : Mnemonic} {s : Suffix} {sm : SMode} {a b : Expr} {ts : Toks}
    (h : IsLine ts) : Fine 0 ts (finish m s sm a b ts) :=
  Fine.bindS (confirmAtEndOrSuffix_safe h) fun _ _ => create_fine h

theorem immediate_fine {m : Mnemonic} {s : Suffix} {ts : Toks} (h : IsLine ts) :
    Fine 1 ts (immediate m s ts) := by
  unfold immediate
  apply Fine.bind (expression_fine h)
  intro a1 ts1 h1 hlen1
  apply Fine.bindS (atEndOrSuffix_safe h1)
  intro b _
  apply Fine.ite
  · intro _; exact (create_fine h1).weaken (by omega)
  · intro _
    apply Fine.bindT (consume_fine h1 _)
    intro ts2 h2 hlen2
    apply Fine.bindT (consume_fine h2 _)
    intro ts3 h3 hlen3
    apply Fine.bind' (expression_fine h3)
    intro a2 ts4 h4 hlen4
    exact (finish_fine h4).weaken (by omega)

theorem bracketed_fine {m : Mnemonic} {s : Suffix} {ts : Toks} (h : IsLine ts) :
    Fine 1 ts (bracketed m s ts) := by
  unfold bracketed
  apply Fine.bind (expression_fine h)
  intro a1 ts1 h1 hlen1
  apply Fine.bindT (consume_fine h1 _)
  intro ts2 h2 hlen2
  apply Fine.bindS (atEndOrSuffix_safe h2)
  intro b _
  apply Fine.ite
  · intro _; exact (create_fine h2).weaken (by omega)
  · intro _
    apply Fine.bindT (consume_fine h2 _)
    intro ts3 h3 hlen3
    apply Fine.bindS (confirmLegalRegister_safe h3 _)
    intro _ _
    apply Fine.bindT (consume_fine h3 _)
    intro ts4 h4 hlen4
    exact (finish_fine h4).weaken (by omega)

theorem indirectComma_fine {m : Mnemonic} {s : Suffix} {a : Expr} {ts : Toks} (h : IsLine ts) :
    Fine 1 ts (indirectComma m s a ts) := by
  unfold indirectComma
  apply Fine.bindS (confirmLegalRegister_safe h _)
  intro _ _
  apply Fine.front h
  intro t hr
  apply Fine.ite
  · rintro rfl
    obtain ⟨h1, hlen1⟩ := hr (by simp)
    apply Fine.bindT (consume_fine h1 _)
    intro ts2 h2 hlen2
    exact (finish_fine h2).weaken (by omega)
  · intro _
    apply Fine.bindT (consume_fine h _)
    intro ts2 h2 hlen2
    apply Fine.bindT (consume_fine h2 _)
    intro ts3 h3 hlen3
    apply Fine.bindT (consume_fine h3 _)
    intro ts4 h4 hlen4
    apply Fine.bindS (confirmLegalRegister_safe h4 _)
    intro _ _
    apply Fine.bindT (consume_fine h4 _)
    intro ts5 h5 hlen5
    exact (finish_fine h5).weaken (by omega)

theorem bare_fine {m : Mnemonic} {s : Suffix} {ts : Toks} (h : IsLine ts) :
    Fine 1 ts (bare m s ts) := by
  unfold bare
  apply Fine.bind (expression_fine h)
  intro a1 ts1 h1 hlen1
  apply Fine.bindS (atEndOrSuffix_safe h1)
  intro b _
  apply Fine.ite
  · intro _; exact (create_fine h1).weaken (by omega)
  · intro _
    apply Fine.bindT (consume_fine h1 _)
    intro ts2 h2 hlen2
    apply Fine.bindS (confirmLegalRegister_safe h2 _)
    intro _ _
    apply Fine.front h2
    intro t hr
    apply Fine.ite
    · rintro rfl
      obtain ⟨h3, hlen3⟩ := hr (by simp)
      exact (finish_fine h3).weaken (by omega)
    intro _
    apply Fine.ite
    · rintro rfl
      obtain ⟨h3, hlen3⟩ := hr (by simp)
      exact (finish_fine h3).weaken (by omega)
    intro _
    apply Fine.bindT (consume_fine h2 _)
    intro ts3 h3 hlen3
    exact (finish_fine h3).weaken (by omega)

theorem parenthesized_fine {m : Mnemonic} {s : Suffix} {ts : Toks} (h : IsLine ts)
    (ht : IsLine ts.tail) (hlen : ts.tail.length + 1 ≤ ts.length) :
    Fine 1 ts (parenthesized m s ts) := by
  unfold parenthesized
  apply Fine.bind' (expression_fine ht)
  intro a1 ts1 h1 hlen1
  apply Fine.front h1
  intro t hr
  apply Fine.ite
  · rintro rfl
    obtain ⟨h2, hlen2⟩ := hr (by simp)
    exact (indirectComma_fine h2).weaken (by omega)
  intro _
  apply Fine.ite
  · rintro rfl
    obtain ⟨h2, hlen2⟩ := hr (by simp)
    simp only
    apply Fine.bindS (atEndOrSuffix_safe h2)
    intro b _
    apply Fine.ite
    · intro _; exact (create_fine h2).weaken (by omega)
    intro _
    apply Fine.front h2
    intro t hr2
    apply Fine.ite
    · rintro rfl
      obtain ⟨h3, hlen3⟩ := hr2 (by simp)
      apply Fine.bindS (confirmLegalRegister_safe h3 _)
      intro _ _
      apply Fine.bindT (consume_fine h3 _)
      intro ts4 h4 hlen4
      exact (finish_fine h4).weaken (by omega)
    · intro _; exact bare_fine h
  · intro _; exact (bare_fine h1).weaken (by omega)

theorem operand_fine {m : Mnemonic} {s : Suffix} {ts : Toks} (h : IsLine ts) :
    Fine 0 ts (operand m s ts) := by
  unfold operand
  apply Fine.bindS (atEndOrSuffix_safe h)
  intro b _
  apply Fine.ite
  · intro _; exact create_fine h
  intro _
  apply Fine.bindS (confirmLegalRegister_safe h _)
  intro _ _
  apply Fine.front h
  intro t hr
  apply Fine.ite
  · rintro rfl
    obtain ⟨h1, hlen1⟩ := hr (by simp)
    exact (finish_fine h1).weaken (by omega)
  intro _
  apply Fine.ite
  · rintro rfl
    obtain ⟨h1, hlen1⟩ := hr (by simp)
    exact (immediate_fine h1).weaken (by omega)
  intro _
  apply Fine.ite
  · rintro rfl
    obtain ⟨h1, hlen1⟩ := hr (by simp)
    exact (bracketed_fine h1).weaken (by omega)
  intro _
  apply Fine.ite
  · rintro rfl
    obtain ⟨h1, hlen1⟩ := hr (by simp)
    exact (parenthesized_fine h h1 hlen1).weaken (by omega)
  · intro _; exact (bare_fine h).weaken (by omega)

theorem instructionCore_fine {ts : Toks} (h : IsLine ts) : Fine 1 ts (instructionCore ts) := by
  unfold instructionCore
  apply Fine.front h
  intro t hr
  split
  · obtain ⟨h1, hlen1⟩ := hr (by simp)
    apply Fine.front h1
    intro t2 hr2
    split
    · obtain ⟨h2, hlen2⟩ := hr2 (by simp)
      exact (operand_fine h2).weaken (by omega)
    · exact (operand_fine h1).weaken (by omega)
  · simp [Fine]

theorem returnConvention_fine {ts : Toks} (h : IsLine ts) : Fine 0 ts (returnConvention ts) := by
  unfold returnConvention
  apply Fine.front h
  intro t hr
  split
  · obtain ⟨h1, hlen1⟩ := hr (by simp)
    exact ⟨h1, by omega⟩
  · obtain ⟨h1, hlen1⟩ := hr (by simp)
    apply Fine.bind' (mode_fine h1)
    intro f ts' h' hlen'
    exact ⟨h', by first | omega | (simp only; omega)⟩
  · exact ⟨h, by simp⟩

theorem instruction_fine {ts : Toks} (h : IsLine ts) : Fine 1 ts (instruction ts) := by
  unfold instruction
  apply Fine.bind (instructionCore_fine h)
  intro i ts1 h1 hlen1
  apply Fine.bind' (returnConvention_fine h1)
  intro rc ts2 h2 hlen2
  apply Fine.ite
  · intro _; simp [Fine]
  · intro _; exact ⟨h2, by first | omega | (simp only; omega)⟩

theorem exprList_fine (n : Nat) : ∀ {ts : Toks}, IsLine ts → ts.length < n →
    Fine 1 ts (exprList n ts) := by
  induction n with
  | zero => intro ts _ h; omega
  | succ n ih =>
    intro ts h hn
    simp only [exprList]
    apply Fine.bind (expression_fine h)
    intro e ts1 h1 hlen1
    apply Fine.bindS (atEnd_safe h1)
    intro b _
    apply Fine.ite
    · intro _; exact ⟨h1, by first | omega | (simp only; omega)⟩
    intro _
    apply Fine.bindT (consume_fine h1 _)
    intro ts2 h2 hlen2
    apply Fine.bind' (ih h2 (by omega))
    intro es ts3 h3 hlen3
    exact ⟨h3, by first | omega | (simp only; omega)⟩

theorem directiveFlags_fine {d : DirectiveName} {a : Expr} {ts : Toks} (h : IsLine ts) :
    Fine 1 ts (directiveFlags d a ts) := by
  unfold directiveFlags
  apply Fine.bind (mode_fine h)
  intro f ts1 h1 hlen1
  simp only
  split
  · apply Fine.bindS (confirmAtEnd_safe h1)
    intro _ _
    apply Fine.bind' (returnConvention_fine h1)
    intro rc ts2 h2 hlen2
    apply Fine.bindS (confirmAtEnd_safe h2)
    intro _ _
    exact ⟨h2, by first | omega | (simp only; omega)⟩
  · apply Fine.bind' (returnConvention_fine h1)
    intro rc ts2 h2 hlen2
    apply Fine.bindS (confirmAtEnd_safe h2)
    intro _ _
    exact ⟨h2, by first | omega | (simp only; omega)⟩

theorem directiveArg_fine {d : DirectiveName} {ts : Toks} (h : IsLine ts) :
    Fine 1 ts (directiveArg d ts) := by
  unfold directiveArg
  apply Fine.bind (expression_fine h)
  intro a ts1 h1 hlen1
  apply Fine.ite
  · intro _; exact Fine.err
  intro _
  apply Fine.ite
  · intro _; exact Fine.err
  intro _
  apply Fine.bindS (confirmAtEnd_safe h1)
  intro _ _
  exact ⟨h1, by first | omega | (simp only; omega)⟩

theorem directive_fine {d : DirectiveName} {ts : Toks} (h : IsLine ts) :
    Fine 0 ts (directive d ts) := by
  unfold directive
  split
  · apply Fine.bindS (confirmAtEnd_safe h)
    intro _ _
    exact ⟨h, by first | omega | (simp only; omega)⟩
  · exact (directiveArg_fine h).weaken (by omega)
  · exact (directiveArg_fine h).weaken (by omega)
  · exact (directiveArg_fine h).weaken (by omega)
  · apply Fine.bind' (exprList_fine _ h (by omega))
    intro es ts1 h1 hlen1
    exact ⟨h1, by first | omega | (simp only; omega)⟩
  · apply Fine.bind' (expression_fine h)
    intro a ts1 h1 hlen1
    exact (directiveFlags_fine h1).weaken (by omega)
  · exact (directiveFlags_fine h).weaken (by omega)
  · exact (directiveFlags_fine h).weaken (by omega)

/-- What `lineLabel` may do on the line `ts`. -/
def LabelFine (ts : Toks) : Res (Option ParsedLabel × Bool × Toks) → Prop
  | .ok (none, colon, ts') => ts' = ts ∧ colon = false
  | .ok (some _, _, ts') => IsLine ts' ∧ ts'.length + 1 ≤ ts.length
  | .err e => e ≠ .steps
  | .ub u => u ≠ .emptyAccess

theorem labelAt_fine {ts ts' : Toks} {ex : Bool} (hl : IsLine ts') (hlen : ts'.length ≤ ts.length)
    (hex : ex = false → ts' = ts) : LabelFine ts (labelAt ex ts') := by
  obtain ⟨t', ht', hr'⟩ := front_line hl
  unfold labelAt
  rw [ht']
  simp only [Res.bind_ok]
  split
  · obtain ⟨h1, hlen1⟩ := hr' (by simp)
    by_cases hcol : ts'.tail.head? = some (pc ':')
    · rw [if_pos hcol]
      obtain ⟨t2, rest, he, h2, -⟩ := isLine_cons h1
      rw [he] at hcol hlen1
      cases hcol
      rw [he]
      refine ⟨h2 (by simp), ?_⟩
      simp only [List.tail_cons, List.length_cons] at hlen1 ⊢
      omega
    · rw [if_neg hcol]; exact ⟨h1, by omega⟩
  · cases ex with
    | true => simp [LabelFine]
    | false => simp [LabelFine, hex]

theorem lineLabel_fine {ts : Toks} (h : IsLine ts) : LabelFine ts (lineLabel ts) := by
  obtain ⟨t, ht, hr⟩ := front_line h
  unfold lineLabel
  rw [ht]
  simp only [Res.bind_ok]
  split
  · next hx =>
    obtain ⟨h1, hlen1⟩ := hr (by rw [hx]; simp)
    exact labelAt_fine h1 (by omega) (by simp)
  · exact labelAt_fine h (Nat.le_refl _) (fun _ => rfl)

theorem atEnd_ok {ts : Toks} {b : Bool} (h : atEnd ts = .ok b) :
    ∃ t rest, ts = t :: rest ∧ b = isEnd t := by
  cases ts with
  | nil => cases h
  | cons t rest => exact ⟨t, rest, rfl, by simp only [atEnd, front, Res.bind_ok] at h; cases h; rfl⟩

/-- What `lineStatement` may do on the line `ts`: afterwards the rest is empty or a
line, and something was read. -/
def StmtFine (ts : Toks) : Res (Option (Statement × Toks)) → Prop
  | .ok none => True
  | .ok (some (_, ts')) => (ts' = [] ∨ IsLine ts') ∧ ts'.length + 1 ≤ ts.length
  | .err e => e ≠ .steps
  | .ub u => u ≠ .emptyAccess

theorem line_tail {ts : Toks} (hl : IsLine ts) :
    (ts.tail = [] ∨ IsLine ts.tail) ∧ ts.tail.length + 1 ≤ ts.length := by
  obtain ⟨t2, rest, rfl, h1, h2⟩ := isLine_cons hl
  refine ⟨?_, by simp⟩
  by_cases he : t2 = .eol
  · exact .inl (h2 he)
  · exact .inr (h1 he)

theorem statementEnd_fine {α : Type} {ts ts0 : Toks} {x : Res (α × Toks)} {k : Nat}
    (f : α → Statement) (hx : Fine k ts0 x) (hlen : ts0.length ≤ ts.length) :
    StmtFine ts (do
      let (i, ts) ← x
      if !(← atEnd ts) then Res.err .other
      else .ok (some (f i, ts.tail))) := by
  rcases x with ⟨i, ts'⟩ | e | u
  · simp only [Res.bind_ok]
    obtain ⟨h1, h2⟩ := hx
    have hs := atEnd_safe h1
    cases ha : atEnd ts' with
    | ok b =>
      simp only [Res.bind_ok]
      cases b with
      | true => exact ⟨(line_tail h1).1, by have := (line_tail h1).2; omega⟩
      | false => simp [StmtFine]
    | err e => rw [ha] at hs; exact hs
    | ub u => rw [ha] at hs; exact hs
  · exact hx
  · exact hx

theorem lineStatement_fine {ts : Toks} (h : IsLine ts) : StmtFine ts (lineStatement ts) := by
  obtain ⟨t, ht, hr⟩ := front_line h
  unfold lineStatement
  rw [ht]
  simp only [Res.bind_ok]
  by_cases hend : isEnd t = true
  · rw [if_pos hend]; trivial
  rw [if_neg hend]
  have hne : t ≠ .eol := by rintro rfl; simp [isEnd] at hend
  obtain ⟨hl1, hlen1⟩ := hr hne
  split
  · exact ⟨.inr hl1, hlen1⟩
  · exact ⟨.inr hl1, hlen1⟩
  · exact statementEnd_fine Statement.dir (directive_fine hl1) (by omega)
  · exact statementEnd_fine Statement.instr (instruction_fine h) (by omega)
  · simp [StmtFine]

theorem parseLoop_safe (n : Nat) : ∀ {ts : Toks}, ts = [] ∨ IsLine ts → ts.length < n →
    Safe (parseLoop n ts) := by
  induction n with
  | zero => intro ts _ h; omega
  | succ n ih =>
    intro ts hl hn
    simp only [parseLoop]
    by_cases h0 : ts = []
    · rw [if_pos h0]; trivial
    rw [if_neg h0]
    have hl : IsLine ts := hl.resolve_left h0
    have hlab := lineLabel_fine hl
    have hcons : ∀ {ts' : Toks} (f : List Item → List Item), ts' = [] ∨ IsLine ts' →
        ts'.length < n →
        Safe (do let rest ← parseLoop n ts'; Res.ok (f rest)) := by
      intro ts' f h1 h2
      have := ih h1 h2
      cases hp : parseLoop n ts' with
      | ok r => trivial
      | err e => rw [hp] at this; exact this
      | ub u => rw [hp] at this; exact this
    have hstmt : ∀ (ts' : Toks) (ls : List Item), IsLine ts' → ts'.length ≤ ts.length →
        Safe (do
          match ← lineStatement ts' with
          | none => Res.ok ls
          | some (s, ts) => do
              let rest ← parseLoop n ts
              .ok (ls ++ .stmt s :: rest)) := by
      intro ts' ls h1 h2
      have := lineStatement_fine h1
      rcases hx : lineStatement ts' with (_ | ⟨s, ts''⟩) | e | u
      · trivial
      · rw [hx] at this
        exact hcons _ this.1 (by have := this.2; omega)
      · rw [hx] at this; exact this
      · rw [hx] at this; exact this
    rcases hx : lineLabel ts with ⟨l, colon, ts'⟩ | e | u
    · rw [hx] at hlab
      simp only [Res.bind_ok]
      cases l with
      | none =>
        obtain ⟨rfl, rfl⟩ := hlab
        exact hstmt _ _ hl (Nat.le_refl _)
      | some l =>
        obtain ⟨h1, h2⟩ := hlab
        cases colon with
        | true => simp only [if_true]; exact hcons _ (.inr h1) (by omega)
        | false => exact hstmt _ _ h1 (by omega)
    · rw [hx] at hlab; exact hlab
    · rw [hx] at hlab; exact hlab

/-- A result other than "out of steps". -/
def Done {α : Type} (r : Res α) : Prop := r ≠ .err .steps

/-- More steps do not change a result. -/
theorem expr_mono_all (n : Nat) : ∀ ts,
    (Done (expr n ts) → expr (n + 1) ts = expr n ts) ∧
    (∀ acc, Done (exprLoop n acc ts) → exprLoop (n + 1) acc ts = exprLoop n acc ts) ∧
    (Done (term n ts) → term (n + 1) ts = term n ts) ∧
    (∀ acc, Done (termLoop n acc ts) → termLoop (n + 1) acc ts = termLoop n acc ts) ∧
    (Done (factor n ts) → factor (n + 1) ts = factor n ts) ∧
    (Done (comp n ts) → comp (n + 1) ts = comp n ts) := by
  have key : ∀ {α β : Type} {x y : Res α} {f g : α → Res β},
      Done (x >>= f) → (Done x → y = x) → (∀ a, x = .ok a → Done (f a) → g a = f a) →
      (y >>= g) = (x >>= f) := by
    intro α β x y f g hd hx hf
    rcases x with a | e | u
    · rw [hx (by simp [Done])]; exact hf a rfl hd
    · rw [hx (by simpa [Done] using hd)]; rfl
    · rw [hx (by simp [Done])]; rfl
  induction n with
  | zero =>
    intro ts
    refine ⟨?_, ?_, ?_, ?_, ?_, ?_⟩
    · intro h; exact absurd rfl h
    · intro acc h; exact absurd rfl h
    · intro h; exact absurd rfl h
    · intro acc h; exact absurd rfl h
    · intro h; exact absurd rfl h
    · intro h; exact absurd rfl h
  | succ n ih =>
    intro ts
    refine ⟨fun h => ?_, fun acc h => ?_, fun h => ?_, fun acc h => ?_, fun h => ?_, fun h => ?_⟩
    · rw [expr] at h; rw [expr, expr]
      exact key h (ih ts).2.2.1 fun a _ hd => (ih a.2).2.1 a.1 hd
    · rw [exprLoop] at h; rw [exprLoop, exprLoop]
      refine key h (fun _ => rfl) fun t _ hd => ?_
      split
      · rfl
      · next he =>
        rw [if_neg he] at hd
        cases hop : addOp t with
        | none => rfl
        | some op =>
          rw [hop] at hd
          exact key hd (ih _).2.2.1 fun a _ hd => (ih a.2).2.1 _ hd
    · rw [term] at h; rw [term, term]
      exact key h (ih ts).2.2.2.2.1 fun a _ hd => (ih a.2).2.2.2.1 a.1 hd
    · rw [termLoop] at h; rw [termLoop, termLoop]
      refine key h (fun _ => rfl) fun t _ hd => ?_
      split
      · rfl
      · next he =>
        rw [if_neg he] at hd
        cases hop : mulOp t with
        | none => rfl
        | some op =>
          rw [hop] at hd
          exact key hd (ih _).2.2.2.2.1 fun a _ hd => (ih a.2).2.2.2.1 _ hd
    · rw [factor] at h; rw [factor, factor]
      refine key h (fun _ => rfl) fun t _ hd => ?_
      cases hop : unaryOp t with
      | none => rw [hop] at hd; exact (ih ts).2.2.2.2.2 hd
      | some op =>
        rw [hop] at hd
        exact key hd (ih _).2.2.2.2.1 fun a _ _ => rfl
    · rw [comp] at h; rw [comp, comp]
      refine key h (fun _ => rfl) fun t _ hd => ?_
      split
      · rfl
      · rfl
      · next h1 h2 =>
        have hd' : Done (do
            match ← compIdent .word ts with
              | some r => Res.ok r
              | none =>
                if t = pc '(' then do
                  let (e, ts) ← expr n ts.tail
                  let ts ← consume ')' ts
                  .ok (e, ts)
                else .err .parse) := by
          split at hd
          · next heq => exact absurd rfl (h1 _ _)
          · exact absurd rfl h2
          · exact hd
        refine key hd' (fun _ => rfl) fun r _ hd => ?_
        cases r with
        | some r => rfl
        | none =>
          simp only at hd ⊢
          split
          · next hp =>
            rw [if_pos hp] at hd
            exact key hd (ih _).1 fun _ _ _ => rfl
          · rfl

theorem expr_mono {n m : Nat} {ts : Toks} (h : Done (expr n ts)) (hm : n ≤ m) :
    expr m ts = expr n ts := by
  induction hm with
  | refl => rfl
  | step hm ih => rw [((expr_mono_all _ ts).1 (ih ▸ h)), ih]

theorem term_mono {n m : Nat} {ts : Toks} (h : Done (term n ts)) (hm : n ≤ m) :
    term m ts = term n ts := by
  induction hm with
  | refl => rfl
  | step hm ih => rw [((expr_mono_all _ ts).2.2.1 (ih ▸ h)), ih]

theorem factor_mono {n m : Nat} {ts : Toks} (h : Done (factor n ts)) (hm : n ≤ m) :
    factor m ts = factor n ts := by
  induction hm with
  | refl => rfl
  | step hm ih => rw [((expr_mono_all _ ts).2.2.2.2.1 (ih ▸ h)), ih]

theorem comp_mono {n m : Nat} {ts : Toks} (h : Done (comp n ts)) (hm : n ≤ m) :
    comp m ts = comp n ts := by
  induction hm with
  | refl => rfl
  | step hm ih => rw [((expr_mono_all _ ts).2.2.2.2.2 (ih ▸ h)), ih]

theorem exprLoop_mono {n m : Nat} {ts : Toks} {acc : Expr} (h : Done (exprLoop n acc ts))
    (hm : n ≤ m) : exprLoop m acc ts = exprLoop n acc ts := by
  induction hm with
  | refl => rfl
  | step hm ih => rw [((expr_mono_all _ ts).2.1 acc (ih ▸ h)), ih]

theorem termLoop_mono {n m : Nat} {ts : Toks} {acc : Expr} (h : Done (termLoop n acc ts))
    (hm : n ≤ m) : termLoop m acc ts = termLoop n acc ts := by
  induction hm with
  | refl => rfl
  | step hm ih => rw [((expr_mono_all _ ts).2.2.2.1 acc (ih ▸ h)), ih]

/-- On a line, any sufficient number of steps gives the same expression. -/
theorem expr_eq_expression {n : Nat} {ts : Toks} (hl : IsLine ts) (hn : Done (expr n ts)) :
    expr n ts = expression ts := by
  have h2 : Done (expression ts) := by
    have := expression_fine hl
    intro h; rw [h] at this; exact this rfl
  unfold expression at h2 ⊢
  rcases Nat.le_total n (bound ts) with h | h
  · exact (expr_mono hn h).symm
  · exact expr_mono h2 h

end Nsasm.Parse
