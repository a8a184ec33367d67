import Verif.Spec.Rename

/-! # The parser treats all names alike -/

namespace Nsasm
open Spec

theorem Res.map_bind' {α β γ : Type} (x : Res α) (g : α → Res β) (f : β → γ) :
    (f <$> (x >>= g)) = x >>= fun a => f <$> g a := by cases x <;> rfl

theorem Res.bind_map' {α β γ : Type} (x : Res α) (f : α → β) (g : β → Res γ) :
    ((f <$> x) >>= g) = x >>= fun a => g (f a) := by cases x <;> rfl

theorem Res.map_id' {α : Type} (x : Res α) : (id <$> x) = x := by cases x <;> rfl

/-- An expression with its names renamed. -/
def Expr.ren (r : Str → Str) : Expr → Expr
  | .null => .null
  | .lit v t => .lit v t
  | .ident id t => .ident (renameId r id) t
  | .bin op a b => .bin op (a.ren r) (b.ren r)
  | .un op a => .un op (a.ren r)
  | .label n h => .label (r n) (h.ren r)

def Instruction.ren (r : Str → Str) (i : Instruction) : Instruction := { i with arg1 := i.arg1.ren r, arg2 := i.arg2.ren r }

def Directive.ren (r : Str → Str) (d : Directive) : Directive :=
  { d with argument := d.argument.ren r, list := d.list.map (·.ren r) }

def Statement.ren (r : Str → Str) : Statement → Statement
  | .instr i => .instr (i.ren r)
  | .dir d => .dir (d.ren r)

def ParsedLabel.ren (r : Str → Str) (l : ParsedLabel) : ParsedLabel := { l with name := r l.name }

def Item.ren (r : Str → Str) : Item → Item
  | .stmt s => .stmt (s.ren r)
  | .label l => .label (l.ren r)

variable {r : Str → Str}

/-! ## Expressions -/

theorem Expr.ren_null {e : Expr} : e.ren r = .null ↔ e = .null := by cases e <;> simp [Expr.ren]

theorem eval_ren {c c' : Ctx} (h : ∀ id, c' (renameId r id) = c id) (e : Expr) : (e.ren r).eval c' = e.eval c := by
  induction e with
  | null => rfl
  | lit v t => rfl
  | ident id t => simp only [Expr.ren, Expr.eval, h]
  | bin op a b iha ihb => simp only [Expr.ren, Expr.eval, iha, ihb]
  | un op a ih => simp only [Expr.ren, Expr.eval, ih]
  | label n e ih =>
    simp only [Expr.ren, Expr.eval, ih]
    by_cases he : e = .null
    · rw [if_pos he, if_pos (Expr.ren_null.mpr he)]
    · rw [if_neg he, if_neg (fun h => he (Expr.ren_null.mp h))]

@[simp] theorem eval_ren_null (e : Expr) : (e.ren r).eval nullCtx = e.eval nullCtx := eval_ren (fun _ => rfl) e

@[simp] theorem type_ren (e : Expr) : (e.ren r).type = e.type := by
  induction e <;> simp_all [Expr.ren, Expr.type]

@[simp] theorem requiresLookup_ren (e : Expr) : (e.ren r).requiresLookup = e.requiresLookup := by
  induction e <;> simp_all [Expr.ren, Expr.requiresLookup]

theorem simpleIdentifier_ren (e : Expr) : (e.ren r).simpleIdentifier = e.simpleIdentifier.map r := by
  cases e with
  | ident id t => obtain ⟨m, n⟩ := id; cases m <;> simp [Expr.ren, Expr.simpleIdentifier, renameId]
  | _ => rfl

@[simp] theorem simpleIdentifier_ren_none (e : Expr) : (e.ren r).simpleIdentifier = none ↔ e.simpleIdentifier = none := by
  rw [simpleIdentifier_ren]; simp

theorem externalNames_ren (he : r [] = []) {f f' : FullId → Bool} (h : ∀ id, f' (renameId r id) = f id) (e : Expr) :
    (e.ren r).externalNames f' = (e.externalNames f).map (renameId r) := by
  induction e with
  | null => rfl
  | lit v t => rfl
  | ident id t =>
    simp only [Expr.ren, Expr.externalNames, h]
    by_cases hf : f id = true
    · simp [hf]
    · obtain ⟨m, n⟩ := id
      cases m <;> simp [hf, renameId, he]
  | bin op a b iha ihb => simp only [Expr.ren, Expr.externalNames, iha, ihb, List.map_append]
  | un op a ih => simp only [Expr.ren, Expr.externalNames, ih]
  | label n e ih => rfl

theorem coerceByte_ren (e : Expr) (b : Mode) : coerceByte (e.ren r) b = coerceByte e b := by simp [coerceByte]

theorem coerceWord_ren (e : Expr) (b : Mode) : coerceWord (e.ren r) b = coerceWord e b := by simp [coerceWord]

theorem deduceMode_ren (m : Mnemonic) (s : SMode) (a b : Expr) : deduceMode m s (a.ren r) (b.ren r) = deduceMode m s a b := by
  simp only [deduceMode, switchByteWordLong, switchByteWord, switchWordLong, forceByte, forceWord, forceLong, coerceBytes,
    coerceByte_ren, coerceWord_ren, type_ren, simpleIdentifier_ren_none]

/-! ## Tokens -/

@[simp] theorem renameToken_punct {t : Token} {p : Punct} : renameToken r t = .punct p ↔ t = .punct p := by
  cases t <;> simp [renameToken]

@[simp] theorem renameToken_eol {t : Token} : renameToken r t = .eol ↔ t = .eol := by
  cases t <;> simp [renameToken]

namespace Parse

@[simp] theorem isEnd_ren (t : Token) : isEnd (renameToken r t) = isEnd t := by simp [isEnd]

@[simp] theorem isEndOrSuffix_ren (t : Token) : isEndOrSuffix (renameToken r t) = isEndOrSuffix t := by simp [isEndOrSuffix]

@[simp] theorem isRegister_ren (t : Token) : isRegister (renameToken r t) = isRegister t := by simp [isRegister]

@[simp] theorem addOp_ren (t : Token) : addOp (renameToken r t) = addOp t := by simp [addOp]

@[simp] theorem mulOp_ren (t : Token) : mulOp (renameToken r t) = mulOp t := by simp [mulOp]

@[simp] theorem unaryOp_ren (t : Token) : unaryOp (renameToken r t) = unaryOp t := by simp [unaryOp]

theorem front_ren (ts : Toks) : front (ts.map (renameToken r)) = renameToken r <$> front ts := by cases ts <;> rfl

theorem tail_ren (ts : Toks) : (ts.map (renameToken r)).tail = ts.tail.map (renameToken r) := by cases ts <;> rfl

theorem atEnd_ren (ts : Toks) : atEnd (ts.map (renameToken r)) = atEnd ts := by
  cases ts <;> simp [atEnd, front]

theorem atEndOrSuffix_ren (ts : Toks) : atEndOrSuffix (ts.map (renameToken r)) = atEndOrSuffix ts := by
  cases ts <;> simp [atEndOrSuffix, front]

theorem consume_ren (c : Char) (ts : Toks) : consume c (ts.map (renameToken r)) = List.map (renameToken r) <$> consume c ts := by
  cases ts with
  | nil => rfl
  | cons t ts =>
    simp only [consume, front, List.map_cons, Res.bind_ok, List.tail_cons, ne_eq, renameToken_punct]
    by_cases h : t = pc c
    · simp [h]
    · simp [h]

theorem confirmAtEnd_ren (ts : Toks) : confirmAtEnd (ts.map (renameToken r)) = confirmAtEnd ts := by
  simp only [confirmAtEnd, atEnd_ren]

theorem confirmAtEndOrSuffix_ren (ts : Toks) : confirmAtEndOrSuffix (ts.map (renameToken r)) = confirmAtEndOrSuffix ts := by
  simp only [confirmAtEndOrSuffix, atEndOrSuffix_ren]

theorem confirmLegalRegister_ren (cs : List Char) (ts : Toks) :
    confirmLegalRegister cs (ts.map (renameToken r)) = confirmLegalRegister cs ts := by
  cases ts with
  | nil => rfl
  | cons t ts =>
    have : (renameToken r t ∈ cs.map pc) ↔ t ∈ cs.map pc := by
      simp only [List.mem_map, pc]
      constructor
      · rintro ⟨c, hc, he⟩; exact ⟨c, hc, (renameToken_punct.mp he.symm).symm⟩
      · rintro ⟨c, hc, rfl⟩; exact ⟨c, hc, rfl⟩
    simp only [confirmLegalRegister, front, List.map_cons, Res.bind_ok, isRegister_ren, this]

/-- What has been read, renamed. -/
abbrev both {α β : Type} (r : Str → Str) (f : α → β) : α × Toks → β × Toks := Prod.map f (List.map (renameToken r))

theorem mode_ren (hr : Renaming r) (ts : Toks) : mode (ts.map (renameToken r)) = both r id <$> mode ts := by
  cases ts with
  | nil => rfl
  | cons t ts =>
    cases t with
    | ident s =>
      simp only [mode, front, List.map_cons, Res.bind_ok, renameToken, hr.modes, List.tail_cons]
      cases StatusFlags.fromName s <;> rfl
    | _ => rfl

theorem identifier_ren (ts : Toks) : identifier (ts.map (renameToken r)) = both r r <$> identifier ts := by
  cases ts with
  | nil => rfl
  | cons t ts => cases t <;> rfl

theorem compIdent_ren (hr : Renaming r) (ty : NumericType) (ts : Toks) :
    compIdent ty (ts.map (renameToken r)) = Option.map (both r (Expr.ren r)) <$> compIdent ty ts := by
  cases ts with
  | nil => rfl
  | cons t ts =>
    cases t with
    | ident s =>
      simp only [compIdent, front, List.map_cons, Res.bind_ok, renameToken, List.tail_cons]
      cases ts with
      | nil => rfl
      | cons u us =>
        simp only [List.map_cons, front, Res.bind_ok, renameToken_punct, List.tail_cons, identifier_ren]
        by_cases hu : u = .punct .scope
        · rw [if_pos hu, if_pos hu]
          cases identifier us <;> rfl
        · rw [if_neg hu, if_neg hu]; rfl
    | punct p =>
      cases p with
      | scope =>
        simp only [compIdent, front, List.map_cons, Res.bind_ok, renameToken, List.tail_cons, identifier_ren]
        cases identifier ts with
        | ok x => simp [renameId, Expr.ren, hr.empty]
        | err e => rfl
        | ub u => rfl
      | _ => rfl
    | _ => rfl

theorem expr_ren (hr : Renaming r) : ∀ n : Nat,
    (∀ ts, expr n (ts.map (renameToken r)) = both r (Expr.ren r) <$> expr n ts) ∧
    (∀ a ts, exprLoop n (Expr.ren r a) (ts.map (renameToken r)) = both r (Expr.ren r) <$> exprLoop n a ts) ∧
    (∀ ts, term n (ts.map (renameToken r)) = both r (Expr.ren r) <$> term n ts) ∧
    (∀ a ts, termLoop n (Expr.ren r a) (ts.map (renameToken r)) = both r (Expr.ren r) <$> termLoop n a ts) ∧
    (∀ ts, factor n (ts.map (renameToken r)) = both r (Expr.ren r) <$> factor n ts) ∧
    (∀ ts, comp n (ts.map (renameToken r)) = both r (Expr.ren r) <$> comp n ts) := by
  intro n
  induction n with
  | zero =>
    refine ⟨?_, ?_, ?_, ?_, ?_, ?_⟩ <;> intros <;>
      simp [expr, exprLoop, term, termLoop, factor, comp]
  | succ n ih =>
    obtain ⟨he, hel, ht, htl, hf, hc⟩ := ih
    refine ⟨?_, ?_, ?_, ?_, ?_, ?_⟩
    · intro ts
      simp only [expr, ht, Res.bind_map', Res.map_bind']
      cases term n ts with
      | ok x => exact hel _ _
      | err e => rfl
      | ub u => rfl
    · intro a ts
      cases ts with
      | nil => simp [exprLoop, front]
      | cons t ts =>
        simp only [exprLoop, front, List.map_cons, Res.bind_ok, isEnd_ren, addOp_ren, List.tail_cons]
        by_cases h : isEnd t = true
        · rw [if_pos h, if_pos h]; rfl
        rw [if_neg h, if_neg h]
        cases addOp t with
        | none => rfl
        | some op =>
          simp only [ht, Res.bind_map', Res.map_bind']
          cases term n ts with
          | ok x => exact hel (.bin op a x.1) _
          | err e => rfl
          | ub u => rfl
    · intro ts
      simp only [term, hf, Res.bind_map', Res.map_bind']
      cases factor n ts with
      | ok x => exact htl _ _
      | err e => rfl
      | ub u => rfl
    · intro a ts
      cases ts with
      | nil => simp [termLoop, front]
      | cons t ts =>
        simp only [termLoop, front, List.map_cons, Res.bind_ok, isEnd_ren, mulOp_ren, List.tail_cons]
        by_cases h : isEnd t = true
        · rw [if_pos h, if_pos h]; rfl
        rw [if_neg h, if_neg h]
        cases mulOp t with
        | none => rfl
        | some op =>
          simp only [hf, Res.bind_map', Res.map_bind']
          cases factor n ts with
          | ok x => exact htl (.bin op a x.1) _
          | err e => rfl
          | ub u => rfl
    · intro ts
      cases ts with
      | nil => simp [factor, front]
      | cons t ts =>
        simp only [factor, front, List.map_cons, Res.bind_ok, unaryOp_ren, List.tail_cons]
        cases unaryOp t with
        | none => exact hc (t :: ts)
        | some op =>
          simp only [hf, Res.bind_map', Res.map_bind']
          cases factor n ts <;> rfl
    · intro ts
      cases ts with
      | nil => simp [comp, front]
      | cons t ts =>
        have hcomp : ∀ t : Token, (∀ v ty, t ≠ .lit v ty) → t ≠ .punct (.ch '@') → ∀ ts, comp (n + 1) (t :: ts) =
            (do match ← compIdent .word (t :: ts) with
                | some r => .ok r
                | none =>
                    if t = pc '(' then do
                      let (e, ts) ← expr n ts
                      let ts ← consume ')' ts
                      .ok (e, ts)
                    else .err .parse) := by
          intro t h1 h2 ts
          rw [comp]
          simp only [front, Res.bind_ok]
          rfl
        by_cases h1 : ∃ v ty, t = .lit v ty
        · obtain ⟨v, ty, rfl⟩ := h1
          rfl
        by_cases h2 : t = .punct (.ch '@')
        · subst h2
          rw [List.map_cons, comp, comp]
          simp only [renameToken, front, Res.bind_ok, List.tail_cons, compIdent_ren hr, Res.bind_map', Res.map_bind']
          cases compIdent .long ts with
          | ok x => cases x <;> rfl
          | err e => rfl
          | ub u => rfl
        have h1' : ∀ v ty, t ≠ .lit v ty := fun v ty h => h1 ⟨v, ty, h⟩
        rw [List.map_cons, hcomp t h1' h2, hcomp (renameToken r t) (by cases t <;> simp_all [renameToken]) (by simpa using h2),
          ← List.map_cons, compIdent_ren hr]
        simp only [Res.bind_map', Res.map_bind', renameToken_punct]
        cases compIdent .word (t :: ts) with
        | err e => rfl
        | ub u => rfl
        | ok x =>
          cases x with
          | some x => rfl
          | none =>
            simp only [Res.bind_ok, Option.map_none]
            by_cases h : t = pc '('
            swap
            · rw [if_neg h, if_neg h]; rfl
            rw [if_pos h, if_pos h]
            simp only [he, Res.bind_map', Res.map_bind']
            cases expr n ts with
            | err e => rfl
            | ub u => rfl
            | ok x =>
              obtain ⟨e, us⟩ := x
              simp only [Res.bind_ok, Prod.map_apply, consume_ren, Res.bind_map']
              cases consume ')' us <;> rfl

theorem expression_ren (hr : Renaming r) (ts : Toks) :
    expression (ts.map (renameToken r)) = both r (Expr.ren r) <$> expression ts := by
  unfold expression bound
  rw [List.length_map]
  exact (expr_ren hr _).1 ts

/-! ## Instructions -/

theorem createInstruction_ren (m : Mnemonic) (s : Suffix) (sam : SMode) (a b : Expr) :
    createInstruction m s sam (a.ren r) (b.ren r) = Instruction.ren r <$> createInstruction m s sam a b := by
  unfold createInstruction
  rw [deduceMode_ren]
  cases deduceMode m sam a b with
  | ok am =>
    simp only [Res.bind_ok]
    by_cases h : s ≠ .none ∧ flagControllingInstructionSize m = .notVariable
    · rw [if_pos h, if_pos h]; rfl
    · rw [if_neg h, if_neg h]; rfl
  | err e => rfl
  | ub u => rfl

theorem create_ren (m : Mnemonic) (s : Suffix) (sam : SMode) (a b : Expr) (ts : Toks) :
    create m s sam (a.ren r) (b.ren r) (ts.map (renameToken r)) = both r (Instruction.ren r) <$> create m s sam a b ts := by
  unfold create
  rw [createInstruction_ren]
  cases createInstruction m s sam a b <;> rfl

theorem finish_ren (m : Mnemonic) (s : Suffix) (sam : SMode) (a b : Expr) (ts : Toks) :
    finish m s sam (a.ren r) (b.ren r) (ts.map (renameToken r)) = both r (Instruction.ren r) <$> finish m s sam a b ts := by
  unfold finish
  rw [confirmAtEndOrSuffix_ren, create_ren]
  cases confirmAtEndOrSuffix ts <;> rfl

/-- A step of the parser that reads tokens: both sides take it together. -/
theorem bind_ren {α β γ δ : Type} {x : Res α} {x' : Res β} {f : α → β} (h : x' = f <$> x) {k : α → Res γ} {k' : β → Res δ}
    {g : γ → δ} (hk : ∀ a, k' (f a) = g <$> k a) : (x' >>= k') = g <$> (x >>= k) := by
  subst h
  cases x with
  | ok a => exact hk a
  | err e => rfl
  | ub u => rfl

/-- A test that renaming does not change. -/
theorem test_ren {α γ δ : Type} {x x' : Res α} (h : x' = x) {k : α → Res γ} {k' : α → Res δ}
    {g : γ → δ} (hk : ∀ a, k' a = g <$> k a) : (x' >>= k') = g <$> (x >>= k) := by
  subst h
  cases x' with
  | ok a => exact hk a
  | err e => rfl
  | ub u => rfl

theorem ite_ren {p q : Prop} [Decidable p] [Decidable q] (h : q ↔ p) {γ δ : Type} {x y : Res γ} {x' y' : Res δ} {g : γ → δ}
    (hx : p → x' = g <$> x) (hy : ¬ p → y' = g <$> y) : (if q then x' else y') = g <$> (if p then x else y) := by
  by_cases hp : p
  · rw [if_pos hp, if_pos (h.mpr hp)]; exact hx hp
  · rw [if_neg hp, if_neg (fun hq => hp (h.mp hq))]; exact hy hp

theorem immediate_ren (hr : Renaming r) (m : Mnemonic) (s : Suffix) (ts : Toks) :
    immediate m s (ts.map (renameToken r)) = both r (Instruction.ren r) <$> immediate m s ts := by
  unfold immediate
  refine bind_ren (expression_ren hr ts) fun ⟨a, ts⟩ => ?_
  refine test_ren (atEndOrSuffix_ren ts) fun b => ?_
  refine ite_ren Iff.rfl (fun _ => create_ren m s .imm a .null ts) fun _ => ?_
  refine bind_ren (consume_ren ',' ts) fun ts => ?_
  refine bind_ren (consume_ren '#' ts) fun ts => ?_
  refine bind_ren (expression_ren hr ts) fun ⟨b, ts⟩ => ?_
  exact finish_ren m s .mov a b ts

theorem bracketed_ren (hr : Renaming r) (m : Mnemonic) (s : Suffix) (ts : Toks) :
    bracketed m s (ts.map (renameToken r)) = both r (Instruction.ren r) <$> bracketed m s ts := by
  unfold bracketed
  refine bind_ren (expression_ren hr ts) fun ⟨a, ts⟩ => ?_
  refine bind_ren (consume_ren ']' ts) fun ts => ?_
  refine test_ren (atEndOrSuffix_ren ts) fun b => ?_
  refine ite_ren Iff.rfl (fun _ => create_ren m s .lng a .null ts) fun _ => ?_
  refine bind_ren (consume_ren ',' ts) fun ts => ?_
  refine test_ren (confirmLegalRegister_ren ['Y'] ts) fun _ => ?_
  refine bind_ren (consume_ren 'Y' ts) fun ts => ?_
  exact finish_ren m s .lng_y a .null ts

theorem indirectComma_ren (m : Mnemonic) (s : Suffix) (a : Expr) (ts : Toks) :
    indirectComma m s (a.ren r) (ts.map (renameToken r)) = both r (Instruction.ren r) <$> indirectComma m s a ts := by
  unfold indirectComma
  refine test_ren (confirmLegalRegister_ren ['X', 'S'] ts) fun _ => ?_
  refine bind_ren (front_ren ts) fun t => ?_
  refine ite_ren renameToken_punct (fun _ => ?_) fun _ => ?_
  · rw [tail_ren]
    refine bind_ren (consume_ren ')' _) fun ts => ?_
    exact finish_ren m s .ind_x a .null ts
  · refine bind_ren (consume_ren 'S' ts) fun ts => ?_
    refine bind_ren (consume_ren ')' ts) fun ts => ?_
    refine bind_ren (consume_ren ',' ts) fun ts => ?_
    refine test_ren (confirmLegalRegister_ren ['Y'] ts) fun _ => ?_
    refine bind_ren (consume_ren 'Y' ts) fun ts => ?_
    exact finish_ren m s .stk_y a .null ts

theorem bare_ren (hr : Renaming r) (m : Mnemonic) (s : Suffix) (ts : Toks) :
    bare m s (ts.map (renameToken r)) = both r (Instruction.ren r) <$> bare m s ts := by
  unfold bare
  refine bind_ren (expression_ren hr ts) fun ⟨a, ts⟩ => ?_
  refine test_ren (atEndOrSuffix_ren ts) fun b => ?_
  refine ite_ren Iff.rfl (fun _ => create_ren m s .dir a .null ts) fun _ => ?_
  refine bind_ren (consume_ren ',' ts) fun ts => ?_
  refine test_ren (confirmLegalRegister_ren ['X', 'Y', 'S'] ts) fun _ => ?_
  refine bind_ren (front_ren ts) fun t => ?_
  refine ite_ren renameToken_punct (fun _ => ?_) fun _ => ?_
  · rw [tail_ren]; exact finish_ren m s .dir_x a .null _
  refine ite_ren renameToken_punct (fun _ => ?_) fun _ => ?_
  · rw [tail_ren]; exact finish_ren m s .dir_y a .null _
  refine bind_ren (consume_ren 'S' ts) fun ts => ?_
  exact finish_ren m s .stk a .null ts

theorem parenthesized_ren (hr : Renaming r) (m : Mnemonic) (s : Suffix) (ts : Toks) :
    parenthesized m s (ts.map (renameToken r)) = both r (Instruction.ren r) <$> parenthesized m s ts := by
  unfold parenthesized
  rw [tail_ren]
  refine bind_ren (expression_ren hr _) fun ⟨a, ts1⟩ => ?_
  refine bind_ren (front_ren ts1) fun t => ?_
  refine ite_ren renameToken_punct (fun _ => ?_) fun _ => ?_
  · rw [tail_ren]; exact indirectComma_ren m s a _
  refine ite_ren renameToken_punct (fun _ => ?_) fun _ => bare_ren hr m s ts1
  simp only [tail_ren]
  refine test_ren (atEndOrSuffix_ren _) fun b => ?_
  refine ite_ren Iff.rfl (fun _ => create_ren m s .ind a .null _) fun _ => ?_
  refine bind_ren (front_ren _) fun u => ?_
  refine ite_ren renameToken_punct (fun _ => ?_) fun _ => bare_ren hr m s ts
  refine test_ren (confirmLegalRegister_ren ['Y'] _) fun _ => ?_
  refine bind_ren (consume_ren 'Y' _) fun ts => ?_
  exact finish_ren m s .ind_y a .null ts

theorem operand_ren (hr : Renaming r) (m : Mnemonic) (s : Suffix) (ts : Toks) :
    operand m s (ts.map (renameToken r)) = both r (Instruction.ren r) <$> operand m s ts := by
  unfold operand
  refine test_ren (atEndOrSuffix_ren ts) fun b => ?_
  refine ite_ren Iff.rfl (fun _ => create_ren m s .imp .null .null ts) fun _ => ?_
  refine test_ren (confirmLegalRegister_ren ['A'] ts) fun _ => ?_
  refine bind_ren (front_ren ts) fun t => ?_
  simp only [tail_ren]
  refine ite_ren renameToken_punct (fun _ => finish_ren m s .acc .null .null _) fun _ => ?_
  refine ite_ren renameToken_punct (fun _ => immediate_ren hr m s _) fun _ => ?_
  refine ite_ren renameToken_punct (fun _ => bracketed_ren hr m s _) fun _ => ?_
  exact ite_ren renameToken_punct (fun _ => parenthesized_ren hr m s _) fun _ => bare_ren hr m s _

theorem instructionCore_ren (hr : Renaming r) (ts : Toks) :
    instructionCore (ts.map (renameToken r)) = both r (Instruction.ren r) <$> instructionCore ts := by
  cases ts with
  | nil => rfl
  | cons t ts =>
    cases t with
    | mnem m =>
      cases ts with
      | nil => rfl
      | cons u us =>
        cases u with
        | suffix s => exact operand_ren hr m s us
        | ident w => exact operand_ren hr m .none (.ident w :: us)
        | lit v ty => exact operand_ren hr m .none (.lit v ty :: us)
        | mnem m' => exact operand_ren hr m .none (.mnem m' :: us)
        | dir d => exact operand_ren hr m .none (.dir d :: us)
        | punct p => exact operand_ren hr m .none (.punct p :: us)
        | eol => exact operand_ren hr m .none (.eol :: us)
    | _ => rfl

theorem returnConvention_ren (hr : Renaming r) (ts : Toks) :
    returnConvention (ts.map (renameToken r)) = both r id <$> returnConvention ts := by
  cases ts with
  | nil => rfl
  | cons t ts =>
    cases t with
    | punct p =>
      cases p with
      | yields =>
        simp only [returnConvention, front, List.map_cons, Res.bind_ok, renameToken, List.tail_cons]
        exact bind_ren (mode_ren hr ts) fun _ => rfl
      | _ => rfl
    | _ => rfl

theorem instruction_ren (hr : Renaming r) (ts : Toks) :
    instruction (ts.map (renameToken r)) = both r (Instruction.ren r) <$> instruction ts := by
  unfold instruction
  refine bind_ren (instructionCore_ren hr ts) fun ⟨i, ts⟩ => ?_
  refine bind_ren (returnConvention_ren hr ts) fun ⟨rc, ts⟩ => ?_
  exact ite_ren Iff.rfl (fun _ => rfl) fun _ => rfl

/-! ## Directives -/

theorem exprList_ren (hr : Renaming r) : ∀ (n : Nat) (ts : Toks),
    exprList n (ts.map (renameToken r)) = both r (List.map (Expr.ren r)) <$> exprList n ts := by
  intro n
  induction n with
  | zero => intro ts; rfl
  | succ n ih =>
    intro ts
    unfold exprList
    refine bind_ren (expression_ren hr ts) fun ⟨e, ts⟩ => ?_
    refine test_ren (atEnd_ren ts) fun b => ?_
    refine ite_ren Iff.rfl (fun _ => rfl) fun _ => ?_
    refine bind_ren (consume_ren ',' ts) fun ts => ?_
    exact bind_ren (ih ts) fun _ => rfl

theorem directiveFlags_ren (hr : Renaming r) (d : DirectiveName) (a : Expr) (ts : Toks) :
    directiveFlags d (a.ren r) (ts.map (renameToken r)) = both r (Directive.ren r) <$> directiveFlags d a ts := by
  unfold directiveFlags
  refine bind_ren (mode_ren hr ts) fun ⟨f, ts⟩ => ?_
  have h2 : ∀ ts : Toks, (do
      let (rc, ts) ← returnConvention (ts.map (renameToken r))
      confirmAtEnd ts
      Res.ok ((⟨d, a.ren r, f, rc, []⟩ : Directive), ts)) = both r (Directive.ren r) <$> (do
      let (rc, ts) ← returnConvention ts
      confirmAtEnd ts
      Res.ok ((⟨d, a, f, rc, []⟩ : Directive), ts)) := by
    intro ts
    refine bind_ren (returnConvention_ren hr ts) fun ⟨rc, ts⟩ => ?_
    exact test_ren (confirmAtEnd_ren ts) fun _ => rfl
  by_cases h : d.type = .flag_arg
  · simp only [h, if_pos]
    exact test_ren (confirmAtEnd_ren ts) fun _ => h2 ts
  · simp only [h, if_neg, not_false_eq_true]
    exact h2 ts

theorem directiveArg_ren (hr : Renaming r) (d : DirectiveName) (ts : Toks) :
    directiveArg d (ts.map (renameToken r)) = both r (Directive.ren r) <$> directiveArg d ts := by
  unfold directiveArg
  refine bind_ren (expression_ren hr ts) fun ⟨a, ts⟩ => ?_
  refine ite_ren (by simp) (fun _ => rfl) fun _ => ?_
  refine ite_ren (by simp) (fun _ => rfl) fun _ => ?_
  exact test_ren (confirmAtEnd_ren ts) fun _ => rfl

theorem directive_ren (hr : Renaming r) (d : DirectiveName) (ts : Toks) :
    directive d (ts.map (renameToken r)) = both r (Directive.ren r) <$> directive d ts := by
  unfold directive
  rw [List.length_map]
  have h0 := test_ren (g := both r (Directive.ren r)) (confirmAtEnd_ren (r := r) ts)
    (k := fun _ => Res.ok ((⟨d, .null, .default, .default, []⟩ : Directive), ts))
    (k' := fun _ => Res.ok ((⟨d, .null, .default, .default, []⟩ : Directive), ts.map (renameToken r))) fun _ => rfl
  have h1 := bind_ren (g := both r (Directive.ren r)) (exprList_ren hr (ts.length + 1) ts)
    (k := fun (es, ts) => Res.ok ((⟨d, .null, .default, .default, es⟩ : Directive), ts))
    (k' := fun (es, ts) => Res.ok ((⟨d, .null, .default, .default, es⟩ : Directive), ts)) fun _ => rfl
  have h2 := bind_ren (g := both r (Directive.ren r)) (expression_ren hr ts)
    (k := fun (a, ts) => directiveFlags d a ts)
    (k' := fun (a, ts) => directiveFlags d a ts) fun x => directiveFlags_ren hr d x.1 x.2
  cases d.type
  · exact h0
  · exact directiveArg_ren hr d ts
  · exact directiveArg_ren hr d ts
  · exact directiveFlags_ren hr d .null ts
  · exact directiveFlags_ren hr d .null ts
  · exact h1
  · exact directiveArg_ren hr d ts
  · exact h2

/-! ## Lines -/

/-- A label that has been read, renamed. -/
abbrev labelled (r : Str → Str) : Option ParsedLabel × Bool × Toks → Option ParsedLabel × Bool × Toks :=
  fun x => (x.1.map (ParsedLabel.ren r), x.2.1, x.2.2.map (renameToken r))

theorem labelAt_ren (ex : Bool) (ts : Toks) : labelAt ex (ts.map (renameToken r)) = labelled r <$> labelAt ex ts := by
  cases ts with
  | nil => rfl
  | cons t ts =>
    cases t with
    | ident s =>
      have hh : ((ts.map (renameToken r)).head? = some (pc ':')) ↔ ts.head? = some (pc ':') := by
        cases ts <;> simp
      simp only [labelAt, front, List.map_cons, Res.bind_ok, renameToken, List.tail_cons]
      refine ite_ren hh (fun _ => ?_) fun _ => rfl
      rw [tail_ren]; rfl
    | _ => simp only [labelAt, front, List.map_cons, Res.bind_ok, renameToken]; cases ex <;> rfl

theorem lineLabel_ren (ts : Toks) : lineLabel (ts.map (renameToken r)) = labelled r <$> lineLabel ts := by
  unfold lineLabel
  refine bind_ren (front_ren ts) fun t => ?_
  refine ite_ren renameToken_punct (fun _ => ?_) fun _ => labelAt_ren _ _
  rw [tail_ren]; exact labelAt_ren _ _

/-- A statement that has been read, renamed. -/
abbrev stated (r : Str → Str) : Option (Statement × Toks) → Option (Statement × Toks) := Option.map (both r (Statement.ren r))

theorem lineStatement_ren (hr : Renaming r) (ts : Toks) :
    lineStatement (ts.map (renameToken r)) = stated r <$> lineStatement ts := by
  cases ts with
  | nil => rfl
  | cons t ts =>
    simp only [lineStatement, front, List.map_cons, Res.bind_ok]
    refine ite_ren (by simp) (fun _ => rfl) fun _ => ?_
    cases t with
    | punct p => simp only [renameToken]; split <;> simp_all <;> rfl
    | dir d =>
      simp only [renameToken, List.tail_cons]
      refine bind_ren (directive_ren hr d ts) fun ⟨d, ts⟩ => ?_
      refine test_ren (atEnd_ren ts) fun b => ?_
      refine ite_ren Iff.rfl (fun _ => rfl) fun _ => ?_
      simp only [Prod.map_apply, tail_ren]; rfl
    | mnem m =>
      refine bind_ren (instruction_ren hr (.mnem m :: ts)) fun ⟨d, ts⟩ => ?_
      refine test_ren (atEnd_ren ts) fun b => ?_
      refine ite_ren Iff.rfl (fun _ => rfl) fun _ => ?_
      simp only [Prod.map_apply, tail_ren]; rfl
    | _ => rfl

theorem parseLoop_ren (hr : Renaming r) : ∀ (n : Nat) (ts : Toks),
    parseLoop n (ts.map (renameToken r)) = List.map (Item.ren r) <$> parseLoop n ts := by
  intro n
  induction n with
  | zero => intro ts; rfl
  | succ n ih =>
    intro ts
    unfold parseLoop
    refine ite_ren (by simp) (fun _ => rfl) fun _ => ?_
    refine bind_ren (lineLabel_ren ts) fun ⟨l, colon, ts⟩ => ?_
    refine ite_ren Iff.rfl (fun _ => ?_) fun _ => ?_
    · refine bind_ren (ih ts) fun items => ?_
      cases l <;> rfl
    · refine bind_ren (lineStatement_ren hr ts) fun st => ?_
      cases st with
      | none => cases l <;> rfl
      | some x =>
        refine bind_ren (ih x.2) fun items => ?_
        cases l <;> rfl

theorem parse_ren (hr : Renaming r) (ts : Toks) :
    parse (ts.map (renameToken r)) = List.map (Item.ren r) <$> parse ts := by
  unfold parse
  rw [List.length_map]
  exact parseLoop_ren hr _ ts

end Parse
end Nsasm
