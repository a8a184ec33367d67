import Verif.Lemmas.SecondPass
import Verif.Spec.Bindings

/-! # Only what the names stand for matters: the passes and the assembler -/

namespace Nsasm.Bindings
open Spec

/-- Both succeed with related results, or both fail in the same way. -/
inductive Twin {α β : Type} (R : α → β → Prop) : Res α → Res β → Prop
  | ok {a : α} {b : β} : R a b → Twin R (.ok a) (.ok b)
  | err (e : Err) : Twin R (.err e) (.err e)
  | ub (u : Ub) : Twin R (.ub u) (.ub u)

theorem Twin.bind {α β γ δ : Type} {R : α → β → Prop} {S : γ → δ → Prop} {x : Res α} {y : Res β} {f : α → Res γ} {g : β → Res δ}
    (h : Twin R x y) (hf : ∀ a b, R a b → x = .ok a → y = .ok b → Twin S (f a) (g b)) : Twin S (x >>= f) (y >>= g) := by
  cases h with
  | ok h => exact hf _ _ h rfl rfl
  | err e => exact .err e
  | ub u => exact .ub u

theorem Twin.test {α γ δ : Type} {S : γ → δ → Prop} {x y : Res α} {f : α → Res γ} {g : α → Res δ}
    (h : y = x) (hf : ∀ a, x = .ok a → Twin S (f a) (g a)) : Twin S (x >>= f) (y >>= g) := by
  subst h
  cases y with
  | ok a => exact hf a rfl
  | err e => exact .err e
  | ub u => exact .ub u

theorem Twin.mono {α β : Type} {R S : α → β → Prop} {x : Res α} {y : Res β} (h : Twin R x y)
    (hs : ∀ a b, x = .ok a → y = .ok b → R a b → S a b) : Twin S x y := by
  cases h with
  | ok h => exact .ok (hs _ _ rfl rfl h)
  | err e => exact .err e
  | ub u => exact .ub u

theorem Twin.eq {α : Type} {x y : Res α} (h : Twin (fun a b => b = a) x y) : y = x := by
  cases h with
  | ok h => rw [h]
  | err e => rfl
  | ub u => rfl

/-! ## Expressions -/

section
variable {R : FullId → FullId → Prop} {e e' : Expr}

theorem eval_alike {c c' : Ctx} (h : AlikeExpr R e e') (hc : ∀ id id', R id id' → c' id' = c id) : e'.eval c' = e.eval c := by
  induction h with
  | nothing => rfl
  | number v t => rfl
  | name t hr => simp only [Expr.eval, hc _ _ hr]
  | binary op _ _ iha ihb => simp only [Expr.eval, iha, ihb]
  | unary op _ ih => simp only [Expr.eval, ih]
  | @label n a a' ha ih =>
    have : a' = .null ↔ a = .null := by cases ha <;> simp
    simp only [Expr.eval, this, ih]

theorem eval_null (h : AlikeExpr R e e') : e'.eval nullCtx = e.eval nullCtx := eval_alike h fun _ _ _ => rfl

theorem externalNames_alike {f f' : FullId → Bool} (h : AlikeExpr R e e') (hf : ∀ id id', R id id' → f' id' = f id)
    (hn : ∀ id id', R id id' → f id = false → id' = id) : e'.externalNames f' = e.externalNames f := by
  induction h with
  | nothing => rfl
  | number v t => rfl
  | @name id id' t hr =>
    simp only [Expr.externalNames, hf _ _ hr]
    cases hi : f id with
    | true => rfl
    | false => rw [hn _ _ hr hi]
  | binary op _ _ iha ihb => simp only [Expr.externalNames, iha, ihb]
  | unary op _ ih => simp only [Expr.externalNames, ih]
  | label n _ ih => rfl

theorem simpleIdentifier_alike (h : AlikeExpr R e e') :
    (e.simpleIdentifier = none ∧ e'.simpleIdentifier = none) ∨ (∃ id id', R id id' ∧
      e.simpleIdentifier = (if id.module.isSome then none else some id.name) ∧
      e'.simpleIdentifier = (if id'.module.isSome then none else some id'.name)) := by
  cases h with
  | name t hr => exact .inr ⟨_, _, hr, rfl, rfl⟩
  | _ => exact .inl ⟨rfl, rfl⟩

end

/-! ## Instructions -/

section
variable {R : FullId → FullId → Prop} {i : Instruction} {e f : Expr}

theorem instr_execute (h1 : AlikeExpr R i.arg1 e) (h2 : AlikeExpr R i.arg2 f) (es : ExecutionState) :
    ({ i with arg1 := e, arg2 := f } : Instruction).execute es nullCtx = i.execute es nullCtx := by
  have a1 : Instruction.maybeArg e nullCtx = Instruction.maybeArg i.arg1 nullCtx := by simp only [Instruction.maybeArg, eval_null h1]
  have a2 : Instruction.maybeArg f nullCtx = Instruction.maybeArg i.arg2 nullCtx := by simp only [Instruction.maybeArg, eval_null h2]
  simp only [Instruction.execute, Instruction.executeIncDec, Instruction.executeLoad, Instruction.executeMove,
    Instruction.checkConsistency, Instruction.checkSuffix, Instruction.checkImmediate, a1, a2]

theorem instr_executeBranch (h1 : AlikeExpr R i.arg1 e) (h2 : AlikeExpr R i.arg2 f) (es : ExecutionState) :
    ({ i with arg1 := e, arg2 := f } : Instruction).executeBranch es = i.executeBranch es := by
  simp only [Instruction.executeBranch, instr_execute h1 h2]

theorem instr_bytes {c c' : Ctx} (hc : ∀ id id', R id id' → c' id' = c id) (h1 : AlikeExpr R i.arg1 e) (h2 : AlikeExpr R i.arg2 f)
    (a : Addr) : ({ i with arg1 := e, arg2 := f } : Instruction).assembleBytes a c' = i.assembleBytes a c := by
  simp only [Instruction.assembleBytes, eval_alike h1 hc, eval_alike h2 hc]

theorem instr_farBranchTarget (h1 : AlikeExpr R i.arg1 e) (a : Addr) :
    ({ i with arg1 := e, arg2 := f } : Instruction).farBranchTarget a = i.farBranchTarget a := by
  simp only [Instruction.farBranchTarget, eval_null h1]

theorem instr_fix (h1 : AlikeExpr R i.arg1 e) (h2 : AlikeExpr R i.arg2 f) (fl : StatusFlags) :
    Twin (fun j j' => AlikeStatement R (.instr j) (.instr j')) (i.fixAddressingMode fl)
      (({ i with arg1 := e, arg2 := f } : Instruction).fixAddressingMode fl) := by
  unfold Instruction.fixAddressingMode
  show Twin _ _ (if i.mode = .imm_fm ∨ i.mode = .imm_fx then
    (match (if i.mode = .imm_fm then fl.m else fl.x) with
    | .on => Res.ok { ({ i with arg1 := e, arg2 := f } : Instruction) with mode := .imm_b }
    | .off => Res.ok { ({ i with arg1 := e, arg2 := f } : Instruction) with mode := .imm_w }
    | _ => Res.err .flagUnknown) else _)
  by_cases h : i.mode = .imm_fm ∨ i.mode = .imm_fx
  · rw [if_pos h, if_pos h]
    generalize (if i.mode = .imm_fm then fl.m else fl.x) = b
    cases b with
    | on => exact .ok (.instr (i := { i with mode := .imm_b }) h1 h2)
    | off => exact .ok (.instr (i := { i with mode := .imm_w }) h1 h2)
    | original => exact .err _
    | unknown => exact .err _
  · rw [if_neg h, if_neg h]
    exact .ok (.instr h1 h2)

end

/-! ## Statements -/

section
variable {R : FullId → FullId → Prop} {st st' : Statement}

theorem execute_alike (h : AlikeStatement R st st') (es : ExecutionState) : st'.execute es = st.execute es := by
  cases h with
  | instr h1 h2 => exact instr_execute h1 h2 es
  | dir _ _ _ => rfl
  | module_ _ => rfl

theorem serializedSize_alike (h : AlikeStatement R st st') : st'.serializedSize = st.serializedSize := by
  cases h with
  | instr h1 h2 => rfl
  | dir _ _ hl => simp only [Statement.serializedSize, Directive.serializedSize, hl.length_eq]
  | module_ _ => rfl

theorem encodeList_alike {c c' : Ctx} (hc : ∀ id id', R id id' → c' id' = c id) (n : DirectiveName) {es es' : List Expr}
    (h : List.Forall₂ (AlikeExpr R) es es') : Directive.encodeList n c' es' = Directive.encodeList n c es := by
  induction h with
  | nil => rfl
  | cons h _ ih => simp only [Directive.encodeList, eval_alike h hc, ih]

theorem assembleBytes_alike {c c' : Ctx} (hc : ∀ id id', R id id' → c' id' = c id) (h : AlikeStatement R st st') (a : Addr) :
    st'.assembleBytes a c' = st.assembleBytes a c := by
  cases h with
  | instr h1 h2 => simp only [Statement.assembleBytes, instr_bytes hc h1 h2]
  | dir _ _ hl => simp only [Statement.assembleBytes, Directive.assembleBytes, encodeList_alike hc _ hl]
  | module_ hm => simp [Statement.assembleBytes, Directive.assembleBytes, hm]

theorem assemble_alike {σ : Type} {c c' : Ctx} (hc : ∀ id id', R id id' → c' id' = c id) (h : AlikeStatement R st st') (a : Addr)
    (sink : Sink σ) (s : σ) : st'.assemble a c' sink s = st.assemble a c sink s := by
  simp only [Statement.assemble, assembleBytes_alike hc h]

theorem isExit_alike (h : AlikeStatement R st st') : st'.isExitInstruction = st.isExitInstruction := by cases h <;> rfl

theorem isDir_alike (h : AlikeStatement R st st') (n : DirectiveName) : st'.isDir n = st.isDir n := by cases h <;> rfl

theorem originAt_alike (h : AlikeStatement R st st') (pc : Option Addr) : Module.originAt pc st' = Module.originAt pc st := by
  cases h with
  | instr h1 h2 => rfl
  | dir _ he _ => simp only [Module.originAt, eval_null he]
  | module_ _ => rfl

theorem alikeExpr_mono {S : FullId → FullId → Prop} (hs : ∀ a b, R a b → S a b) {e e' : Expr} (h : AlikeExpr R e e') :
    AlikeExpr S e e' := by
  induction h with
  | nothing => exact .nothing
  | number v t => exact .number v t
  | name t hr => exact .name t (hs _ _ hr)
  | binary op _ _ iha ihb => exact .binary op iha ihb
  | unary op _ ih => exact .unary op ih
  | label n _ ih => exact .label n ih

theorem alike_mono {S : FullId → FullId → Prop} (hs : ∀ a b, R a b → S a b) (h : AlikeStatement R st st') : AlikeStatement S st st' := by
  cases h with
  | instr h1 h2 => exact .instr (alikeExpr_mono hs h1) (alikeExpr_mono hs h2)
  | dir hn he hl => exact .dir hn (alikeExpr_mono hs he) (hl.imp fun _ _ => alikeExpr_mono hs)
  | module_ hm => exact .module_ hm

theorem alikeExpr_refl (hR : ∀ id, R id id) : ∀ e : Expr, AlikeExpr R e e := by
  intro e
  induction e with
  | null => exact .nothing
  | lit v t => exact .number v t
  | ident id t => exact .name t (hR id)
  | bin op _ _ iha ihb => exact .binary op iha ihb
  | un op _ ih => exact .unary op ih
  | label n _ ih => exact .label n ih

theorem alike_refl (hR : ∀ id, R id id) (st : Statement) : AlikeStatement R st st := by
  cases st with
  | instr i => exact .instr (i := i) (alikeExpr_refl hR _) (alikeExpr_refl hR _)
  | dir d =>
    by_cases h : d.name = .module_
    · exact .module_ h
    · exact .dir (d := d) h (alikeExpr_refl hR _) (List.forall₂_same.mpr fun e _ => alikeExpr_refl hR e)

end

/-! ## Lines and modules -/

/-- A way to find the statement a name stands for, seen from a list of scopes. -/
abbrev Finder := Str → List Nat → Option Nat

/-- Two names that are found to be the same. -/
inductive Tied (f f' : Finder) (sc sc' : List Nat) : FullId → FullId → Prop
  | own {n n' : Str} : f' n' sc' = f n sc → (f n sc = none → n' = n) → Tied f f' sc sc' ⟨none, n⟩ ⟨none, n'⟩
  | qualified (q n : Str) : Tied f f' sc sc' ⟨some q, n⟩ ⟨some q, n⟩

structure LineTwin (f f' : Finder) (l l' : Line) : Prop where
  reached : l'.reached = l.reached
  incoming : l'.incoming = l.incoming
  value : l'.value = l.value
  statement : AlikeStatement (Tied f f' l.scopes l'.scopes) l.statement l'.statement

structure ModuleTwin (m m' : Module) : Prop where
  name : m'.name = m.name
  lines : List.Forall₂ (LineTwin m.localIndex m'.localIndex) m.lines m'.lines
  deps : m'.deps = m.deps
  globals : m'.globals = m.globals
  owned : m'.owned = m.owned
  addrNames : m'.addrNames = m.addrNames
  targets : m'.targets = m.targets
  conventions : m'.conventions = m.conventions

theorem forall2_get {α β : Type} {R : α → β → Prop} {xs : List α} {ys : List β} (h : List.Forall₂ R xs ys) (k : Nat) :
    (xs[k]? = none ∧ ys[k]? = none) ∨ ∃ x y, xs[k]? = some x ∧ ys[k]? = some y ∧ R x y := by
  induction h generalizing k with
  | nil => exact .inl ⟨rfl, rfl⟩
  | cons h _ ih =>
    cases k with
    | zero => exact .inr ⟨_, _, rfl, rfl, h⟩
    | succ k => simpa using ih k

theorem forall2_set {α β : Type} {R : α → β → Prop} {xs : List α} {ys : List β} (h : List.Forall₂ R xs ys) (k : Nat) {x : α} {y : β}
    (hxy : R x y) : List.Forall₂ R (xs.set k x) (ys.set k y) := by
  induction h generalizing k with
  | nil => exact .nil
  | cons h hs ih =>
    cases k with
    | zero => exact .cons hxy hs
    | succ k => exact .cons h (ih k)

theorem forall2_modify {α β : Type} {R : α → β → Prop} {xs : List α} {ys : List β} (h : List.Forall₂ R xs ys) (k : Nat)
    {f : α → α} {g : β → β} (hfg : ∀ x y, R x y → R (f x) (g y)) : List.Forall₂ R (xs.modify k f) (ys.modify k g) := by
  induction h generalizing k with
  | nil => simp
  | cons h hs ih =>
    cases k with
    | zero => simpa using ⟨hfg _ _ h, hs⟩
    | succ k => simpa using ⟨h, ih k⟩

section
variable {m m' : Module}

theorem localLookup_twin (h : ModuleTwin m m') (t : Nat) : m'.localLookup t = m.localLookup t := by
  unfold Module.localLookup
  rcases forall2_get h.lines t with ⟨h1, h2⟩ | ⟨l, l', h1, h2, h3⟩
  · rw [h1, h2]
  · simp only [h1, h2, h3.value]

theorem lookup_twin (h : ModuleTwin m m') (E : Ctx) {sc sc' : List Nat} {id id' : FullId}
    (hi : Tied m.localIndex m'.localIndex sc sc' id id') : m'.lookup sc' E id' = m.lookup sc E id := by
  cases hi with
  | @own n n' h1 h2 =>
    simp only [Module.lookup]
    rw [h1]
    cases hn : m.localIndex n sc with
    | none => simp only [h2 hn]
    | some t => exact localLookup_twin h t
  | qualified q n =>
    simp only [Module.lookup, h.name, Module.localIndex, h.globals, localLookup_twin h]

/-! ### First pass -/

theorem seeds_twin {f f' : Finder} {ls ls' : List Line} (h : List.Forall₂ (LineTwin f f') ls ls') (w : OMap ExecutionState) (i : Nat) :
    Module.seeds w i ls' = Module.seeds w i ls := by
  induction h generalizing w i with
  | nil => rfl
  | @cons l l' ls ls' hl _ ih =>
    obtain ⟨st, lb, re, inc, v, sc, lo⟩ := l
    obtain ⟨st', lb', re', inc', v', sc', lo'⟩ := l'
    have ha : AlikeStatement _ st st' := hl.statement
    simp only [Module.seeds]
    cases ha with
    | instr h1 h2 => exact ih _ _
    | dir _ _ _ => simp only [ih]
    | module_ _ => simp only [ih]

theorem branchWork_twin {l l' : Line} (hl : LineTwin m.localIndex m'.localIndex l l') (st : ExecutionState) (w : OMap ExecutionState) :
    m'.branchWork l' st w = m.branchWork l st w := by
  obtain ⟨sm, lb, re, inc, v, sc, lo⟩ := l
  obtain ⟨sm', lb', re', inc', v', sc', lo'⟩ := l'
  have ha : AlikeStatement (Tied m.localIndex m'.localIndex sc sc') sm sm' := hl.statement
  simp only [Module.branchWork]
  cases ha with
  | dir _ _ _ => rfl
  | module_ _ => rfl
  | @instr i e f h1 h2 =>
    simp only [instr_executeBranch h1 h2]
    have hb : ({ i with arg1 := e, arg2 := f } : Instruction).isLocalBranch = i.isLocalBranch := rfl
    rw [hb]
    split
    · rfl
    · rcases simpleIdentifier_alike h1 with ⟨e1, e2⟩ | ⟨id, id', hr, e1, e2⟩
      · simp only [e1, e2]
      · rw [e1, e2]
        cases hr with
        | own h3 h4 => simp [h3]
        | qualified q n => simp

structure PassTwin (f f' : Finder) (p p' : Module.Pass) : Prop where
  lines : List.Forall₂ (LineTwin f f') p.lines p'.lines
  work : p'.work = p.work

theorem visit_twin {p p' : Module.Pass} (hp : PassTwin m.localIndex m'.localIndex p p') (k : Nat) {l l' : Line}
    (hl : LineTwin m.localIndex m'.localIndex l l') (st : ExecutionState) :
    Twin (PassTwin m.localIndex m'.localIndex) (m.visit p k l st) (m'.visit p' k l' st) := by
  unfold Module.visit
  refine Twin.test (execute_alike hl.statement st) fun next _ => ?_
  simp only [isExit_alike hl.statement, hp.work]
  refine Twin.test (branchWork_twin hl st _) fun w _ => ?_
  exact .ok ⟨forall2_set hp.lines k ⟨rfl, rfl, hl.value, hl.statement⟩, rfl⟩

theorem step_twin {p p' : Module.Pass} (hp : PassTwin m.localIndex m'.localIndex p p') :
    Twin (fun q q' => (q = none ∧ q' = none) ∨ ∃ r r', q = some r ∧ q' = some r' ∧ PassTwin m.localIndex m'.localIndex r r')
      (m.step p) (m'.step p') := by
  unfold Module.step
  rw [hp.work]
  cases hw : p.work with
  | nil => exact .ok (.inl ⟨rfl, rfl⟩)
  | cons x rest =>
    simp only [hp.lines.length_eq]
    split
    · exact .err _
    · rcases forall2_get hp.lines x.1 with ⟨h1, h2⟩ | ⟨l, l', h1, h2, h3⟩
      · rw [h1, h2]; exact .ub _
      · rw [h1, h2]
        simp only [h3.reached, h3.incoming]
        split
        · exact .ok (.inr ⟨_, _, rfl, rfl, hp.lines, rfl⟩)
        · exact (visit_twin hp x.1 h3 x.2).bind fun a b hab _ _ => .ok (.inr ⟨_, _, rfl, rfl, hab⟩)

theorem explore_twin (n : Nat) {p p' : Module.Pass} (hp : PassTwin m.localIndex m'.localIndex p p') :
    Twin (PassTwin m.localIndex m'.localIndex) (m.explore n p) (m'.explore n p') := by
  induction n generalizing p p' with
  | zero => exact .err _
  | succ n ih =>
    rw [Module.explore, Module.explore]
    refine (step_twin hp).bind fun q q' hq _ _ => ?_
    rcases hq with ⟨rfl, rfl⟩ | ⟨r, r', rfl, rfl, hr⟩
    · exact .ok hp
    · exact ih hr

theorem fixLines_twin {f f' : Finder} {ls ls' : List Line} (h : List.Forall₂ (LineTwin f f') ls ls') :
    Twin (List.Forall₂ (LineTwin f f')) (Module.fixLines ls) (Module.fixLines ls') := by
  induction h with
  | nil => exact .ok .nil
  | @cons l l' ls ls' hl _ ih =>
    obtain ⟨st, lb, re, inc, v, sc, lo⟩ := l
    obtain ⟨st', lb', re', inc', v', sc', lo'⟩ := l'
    have ha : AlikeStatement _ st st' := hl.statement
    have hr : re' = re := hl.reached
    have hi : inc' = inc := hl.incoming
    have hv : v' = v := hl.value
    subst hr hi hv
    simp only [Module.fixLines]
    cases ha with
    | dir h1 h2 h3 => exact ih.bind fun _ _ h _ _ => .ok (.cons hl h)
    | module_ h1 => exact ih.bind fun _ _ h _ _ => .ok (.cons hl h)
    | instr h1 h2 =>
      simp only
      split
      · exact .err _
      · exact (instr_fix h1 h2 _).bind fun _ _ hj _ _ => ih.bind fun _ _ h _ _ => .ok (.cons ⟨rfl, rfl, rfl, hj⟩ h)

theorem layout_twin {f f' : Finder} {ls ls' : List Line} (h : List.Forall₂ (LineTwin f f') ls ls') (pc : Option Addr) :
    Twin (List.Forall₂ (LineTwin f f')) (Module.layout pc ls) (Module.layout pc ls') := by
  induction h generalizing pc with
  | nil => exact .ok .nil
  | @cons l l' ls ls' hl _ ih =>
    rw [Module.layout, Module.layout]
    refine Twin.test (originAt_alike hl.statement pc) fun o _ => ?_
    cases o with
    | none =>
      simp only [serializedSize_alike hl.statement]
      split
      · exact .err _
      · exact (ih _).bind fun _ _ h _ _ => .ok (.cons hl h)
    | some a =>
      simp only [serializedSize_alike hl.statement, isDir_alike hl.statement]
      refine (ih _).bind fun _ _ h _ _ => .ok (.cons ?_ h)
      split
      · exact hl
      · exact ⟨hl.reached, hl.incoming, rfl, hl.statement⟩

theorem firstPass_twin (h : ModuleTwin m m') (fuel : Nat) : Twin ModuleTwin (m.runFirstPass fuel) (m'.runFirstPass fuel) := by
  have : Twin (fun x x' => List.Forall₂ (LineTwin m.localIndex m'.localIndex) x.lines x'.lines) (m.runFirstPass fuel) (m'.runFirstPass fuel) := by
    unfold Module.runFirstPass
    refine (explore_twin fuel ⟨h.lines, seeds_twin h.lines _ _⟩).bind fun p p' hp _ _ => ?_
    refine (fixLines_twin hp.lines).bind fun ls ls' hls _ _ => ?_
    exact (layout_twin hls none).bind fun _ _ h _ _ => .ok h
  refine this.mono fun a b ha hb hab => ?_
  obtain ⟨a1, a2, a3, a4, a5, a6, a7⟩ := firstPass_name ha
  obtain ⟨b1, b2, b3, b4, b5, b6, b7⟩ := firstPass_name hb
  have ea : a.localIndex = m.localIndex := funext fun n => funext fun s => firstPass_localIndex ha n s
  have eb : b.localIndex = m'.localIndex := funext fun n => funext fun s => firstPass_localIndex hb n s
  exact ⟨by rw [a1, b1, h.name], by rw [ea, eb]; exact hab, by rw [a3, b3, h.deps], by rw [a2, b2, h.globals],
    by rw [a4, b4, h.owned], by rw [a5, b5, h.addrNames], by rw [a6, b6, h.targets], by rw [a7, b7, h.conventions]⟩

/-! ### Second pass -/

theorem setValue_localIndex (m : Module) (i : Nat) (v : Int) : (m.setValue i v).localIndex = m.localIndex := by
  funext n s
  refine localIndex_congr (m := m.setValue i v) (m' := m) rfl (fun j => ?_) n s
  simp only [Module.localsAt, Module.setValue, List.getElem?_modify]
  cases m.lines[j]? with
  | none => simp
  | some l => by_cases h : i = j <;> simp [h]

theorem setValue_twin (h : ModuleTwin m m') (i : Nat) (v : Int) : ModuleTwin (m.setValue i v) (m'.setValue i v) where
  name := h.name
  lines := by
    rw [setValue_localIndex, setValue_localIndex]
    exact forall2_modify h.lines i fun x y hxy => ⟨hxy.reached, hxy.incoming, rfl, hxy.statement⟩
  deps := h.deps
  globals := h.globals
  owned := h.owned
  addrNames := h.addrNames
  targets := h.targets
  conventions := h.conventions

theorem evalEqu_twin (h : ModuleTwin m m') (E : Ctx) (i : Nat) {l l' : Line} (hl : LineTwin m.localIndex m'.localIndex l l') :
    Twin ModuleTwin (Module.evalEqu E m i l) (Module.evalEqu E m' i l') := by
  obtain ⟨st, lb, re, inc, v, sc, lo⟩ := l
  obtain ⟨st', lb', re', inc', v', sc', lo'⟩ := l'
  have ha : AlikeStatement (Tied m.localIndex m'.localIndex sc sc') st st' := hl.statement
  have hv : v' = v := hl.value
  subst hv
  simp only [Module.evalEqu]
  cases ha with
  | instr h1 h2 => exact .ok h
  | dir h1 h2 h3 =>
    simp only
    split
    · exact Twin.test (eval_alike h2 fun _ _ hi => lookup_twin h E hi) fun v _ => .ok (setValue_twin h i v)
    · exact .ok h
  | module_ hm =>
    simp only [hm]
    rw [if_neg (by simp), if_neg (by simp)]
    exact .ok h

theorem secondLoop_twin (E : Ctx) (n i : Nat) (h : ModuleTwin m m') :
    Twin ModuleTwin (Module.secondLoop E n i m) (Module.secondLoop E n i m') := by
  induction n generalizing i m m' with
  | zero => exact .ok h
  | succ n ih =>
    rw [Module.secondLoop, Module.secondLoop]
    rcases forall2_get h.lines i with ⟨h1, h2⟩ | ⟨l, l', h1, h2, h3⟩
    · rw [h1, h2]; exact .ub _
    · rw [h1, h2]
      exact (evalEqu_twin h E i h3).bind fun _ _ hab _ _ => ih (i + 1) hab

theorem secondPass_twin (E : Ctx) (h : ModuleTwin m m') : Twin ModuleTwin (m.runSecondPass E) (m'.runSecondPass E) := by
  unfold Module.runSecondPass
  rw [← h.lines.length_eq]
  exact secondLoop_twin E _ _ h

/-! ### Assembly -/

theorem assembleLine_twin {σ : Type} (h : ModuleTwin m m') (E : Ctx) (sink : Sink σ) {l l' : Line}
    (hl : LineTwin m.localIndex m'.localIndex l l') (s : σ) (o : Module.Out) :
    m'.assembleLine E sink l' s o = m.assembleLine E sink l s o := by
  obtain ⟨st, lb, re, inc, v, sc, lo⟩ := l
  obtain ⟨st', lb', re', inc', v', sc', lo'⟩ := l'
  have ha : AlikeStatement (Tied m.localIndex m'.localIndex sc sc') st st' := hl.statement
  have hi : inc' = inc := hl.incoming
  have hv : v' = v := hl.value
  subst hi hv
  have hc : ∀ id id', Tied m.localIndex m'.localIndex sc sc' id id' → m'.lookup sc' E id' = m.lookup sc E id :=
    fun _ _ hi => lookup_twin h E hi
  have hw : Module.writeLine ⟨st', lb', re', inc', v', sc', lo'⟩ (m'.lookup sc' E) sink s o =
      Module.writeLine ⟨st, lb, re, inc', v', sc, lo⟩ (m.lookup sc E) sink s o := by
    simp only [Module.writeLine, assemble_alike hc ha, serializedSize_alike ha]
  have hn : Module.noteTarget ⟨st', lb', re', inc', v', sc', lo'⟩ = Module.noteTarget ⟨st, lb, re, inc', v', sc, lo⟩ := by
    funext o
    simp only [Module.noteTarget]
    cases ha with
    | instr h1 h2 => simp only [instr_farBranchTarget h1]
    | dir _ _ _ => rfl
    | module_ _ => rfl
  simp only [Module.assembleLine, serializedSize_alike ha, hw, hn]
  cases ha with
  | instr h1 h2 => rfl
  | dir h1 h2 h3 =>
    simp only [Module.assembleNote, eval_alike h2 hc]
  | module_ hm => simp only [Module.assembleNote, hm]; simp

theorem assembleLines_twin {σ : Type} (h : ModuleTwin m m') (E : Ctx) (sink : Sink σ) {ls ls' : List Line}
    (hls : List.Forall₂ (LineTwin m.localIndex m'.localIndex) ls ls') (s : σ) (o : Module.Out) :
    m'.assembleLines E sink ls' s o = m.assembleLines E sink ls s o := by
  induction hls generalizing s o with
  | nil => rfl
  | cons hl _ ih =>
    rw [Module.assembleLines, Module.assembleLines, assembleLine_twin h E sink hl]
    rcases m.assembleLine E sink _ s o with ⟨s', x⟩
    cases x with
    | ok o' => exact ih s' o'
    | err _ => rfl
    | ub _ => rfl

theorem nameAddresses_twin (h : ModuleTwin m m') (names : HMap Nat Str) (gs : List (Str × Nat)) :
    m'.nameAddresses names gs = m.nameAddresses names gs := by
  induction gs generalizing names with
  | nil => rfl
  | cons g gs ih =>
    obtain ⟨n, i⟩ := g
    rw [Module.nameAddresses, Module.nameAddresses]
    rcases forall2_get h.lines i with ⟨h1, h2⟩ | ⟨l, l', h1, h2, h3⟩
    · rw [h1, h2]
    · simp only [h1, h2, h3.value, ih]

theorem moduleAssemble_twin {σ : Type} (h : ModuleTwin m m') (E : Ctx) (sink : Sink σ) (s : σ) :
    (m'.assemble E sink s).1 = (m.assemble E sink s).1 ∧ Twin ModuleTwin (m.assemble E sink s).2 (m'.assemble E sink s).2 := by
  unfold Module.assemble
  rw [h.owned, h.targets, h.conventions, assembleLines_twin h E sink h.lines, h.addrNames, h.globals]
  rcases m.assembleLines E sink m.lines s ⟨m.owned, m.targets, m.conventions⟩ with ⟨s', x⟩
  refine ⟨rfl, ?_⟩
  refine Twin.test (x := x) rfl fun o _ => ?_
  refine Twin.test (nameAddresses_twin h _ _) fun names _ => .ok ?_
  refine ⟨h.name, ?_, h.deps, rfl, rfl, rfl, rfl, rfl⟩
  have e : ∀ (x y : Module), x.globals = y.globals → x.lines = y.lines → x.localIndex = y.localIndex := fun x y hg hl =>
    funext fun n => funext fun sc => localIndex_congr hg (fun j => by rw [Module.localsAt, Module.localsAt, hl]) n sc
  have e1 := e (Module.mk m.name m.lines m.deps m.globals o.owned names o.targets o.conventions) m rfl rfl
  have e2 := e (Module.mk m'.name m'.lines m'.deps m.globals o.owned names o.targets o.conventions) m' h.globals.symm rfl
  rw [e1, e2]
  exact h.lines

end

/-! ## The assembler -/

section
variable {ms ms' : List Module}

theorem valueForName_twin {m m' : Module} (h : ModuleTwin m m') (id : FullId) : m'.valueForName id = m.valueForName id := by
  simp only [Module.valueForName, h.name, h.globals, localLookup_twin h]

theorem asmLookup_twin (h : List.Forall₂ ModuleTwin ms ms') (names : HMap FullId Nat) :
    Assembler.lookup ms' names = Assembler.lookup ms names := by
  funext id
  unfold Assembler.lookup
  split
  · rfl
  · cases names.find id with
    | none => rfl
    | some i =>
      rcases forall2_get h i with ⟨h1, h2⟩ | ⟨m, m', h1, h2, h3⟩
      · simp only [h1, h2]
      · simp only [h1, h2, valueForName_twin h3]

theorem consider_twin {m m' : Module} (h : ModuleTwin m m') (o : Assembler.Ordering) (i : Nat) :
    Assembler.consider o i m' = Assembler.consider o i m := by
  simp only [Assembler.consider, h.deps, Module.exportedNames, h.name, h.globals]

theorem round_twin (h : List.Forall₂ ModuleTwin ms ms') (o : Assembler.Ordering) (i : Nat) :
    Assembler.round o i ms' = Assembler.round o i ms := by
  induction h generalizing o i with
  | nil => rfl
  | cons hm _ ih => simp only [Assembler.round, consider_twin hm, ih]

theorem order_twin (h : List.Forall₂ ModuleTwin ms ms') : Assembler.findAssemblyOrder ms' = Assembler.findAssemblyOrder ms := by
  unfold Assembler.findAssemblyOrder
  rw [← h.length_eq]
  generalize (⟨[], []⟩ : Assembler.Ordering) = o
  generalize ms.length + 1 = n
  induction n generalizing o with
  | zero => rfl
  | succ n ih => simp only [Assembler.orderLoop, round_twin h, h.length_eq, ih]

theorem firstPasses_twin (fuel : Nat) (is : List Nat) (h : List.Forall₂ ModuleTwin ms ms') :
    Twin (List.Forall₂ ModuleTwin) (Assembler.firstPasses fuel ms is) (Assembler.firstPasses fuel ms' is) := by
  induction is generalizing ms ms' with
  | nil => exact .ok h
  | cons i is ih =>
    rw [Assembler.firstPasses, Assembler.firstPasses]
    rcases forall2_get h i with ⟨h1, h2⟩ | ⟨m, m', h1, h2, h3⟩
    · rw [h1, h2]; exact .ub _
    · rw [h1, h2]
      exact (firstPass_twin h3 fuel).bind fun _ _ hab _ _ => ih (forall2_set h i hab)

theorem secondPasses_twin (names : HMap FullId Nat) (is : List Nat) (h : List.Forall₂ ModuleTwin ms ms') :
    Twin (List.Forall₂ ModuleTwin) (Assembler.secondPasses names ms is) (Assembler.secondPasses names ms' is) := by
  induction is generalizing ms ms' with
  | nil => exact .ok h
  | cons i is ih =>
    rw [Assembler.secondPasses, Assembler.secondPasses, asmLookup_twin h]
    rcases forall2_get h i with ⟨h1, h2⟩ | ⟨m, m', h1, h2, h3⟩
    · rw [h1, h2]; exact .ub _
    · rw [h1, h2]
      exact (secondPass_twin _ h3).bind fun _ _ hab _ _ => ih (forall2_set h i hab)

structure AsmTwin (a a' : Assembler) : Prop where
  modules : List.Forall₂ ModuleTwin a.modules a'.modules
  names : a'.names = a.names
  memory : a'.memory = a.memory

theorem finalPasses_twin {σ : Type} (sink : Sink σ) (is : List Nat) {a a' : Assembler} (h : AsmTwin a a') (s : σ) :
    (Assembler.finalPasses sink a' is s).1 = (Assembler.finalPasses sink a is s).1 ∧
    Twin AsmTwin (Assembler.finalPasses sink a is s).2 (Assembler.finalPasses sink a' is s).2 := by
  induction is generalizing a a' s with
  | nil => exact ⟨rfl, .ok h⟩
  | cons i is ih =>
    rw [Assembler.finalPasses, Assembler.finalPasses, h.names, asmLookup_twin h.modules, h.memory]
    rcases forall2_get h.modules i with ⟨h1, h2⟩ | ⟨m, m', h1, h2, h3⟩
    · rw [h1, h2]; exact ⟨rfl, .ub _⟩
    · rw [h1, h2]
      simp only
      obtain ⟨k1, k2⟩ := moduleAssemble_twin h3 (Assembler.lookup a.modules a.names) sink s
      revert k1 k2
      rcases m.assemble (Assembler.lookup a.modules a.names) sink s with ⟨s1, x⟩
      rcases m'.assemble (Assembler.lookup a.modules a.names) sink s with ⟨s2, y⟩
      intro k1 k2
      simp only at k1 k2
      subst k1
      cases k2 with
      | err e => exact ⟨rfl, .err e⟩
      | ub u => exact ⟨rfl, .ub u⟩
      | ok hab =>
        simp only [hab.owned]
        split
        · exact ⟨rfl, .err _⟩
        · next memory _ =>
          exact ih (a := ⟨a.modules.set i _, a.names, memory⟩) (a' := ⟨a'.modules.set i _, a.names, memory⟩)
            ⟨forall2_set h.modules i hab, rfl, rfl⟩ _

theorem assemble_twin {σ : Type} (fuel : Nat) (h : List.Forall₂ ModuleTwin ms ms') (sink : Sink σ) (s : σ) :
    (Assembler.assemble fuel ms' sink s).1 = (Assembler.assemble fuel ms sink s).1 ∧
    Twin AsmTwin (Assembler.assemble fuel ms sink s).2 (Assembler.assemble fuel ms' sink s).2 := by
  have hp : Twin (fun x y => AsmTwin x.1 y.1 ∧ y.2 = x.2) (Assembler.prepare fuel ms) (Assembler.prepare fuel ms') := by
    unfold Assembler.prepare
    refine Twin.test (order_twin h) fun o _ => ?_
    refine (firstPasses_twin fuel _ h).bind fun _ _ h1 _ _ => ?_
    refine (secondPasses_twin _ _ h1).bind fun _ _ h2 _ _ => ?_
    exact .ok ⟨⟨h2, rfl, rfl⟩, rfl⟩
  unfold Assembler.assemble
  revert hp
  generalize Assembler.prepare fuel ms = x
  generalize Assembler.prepare fuel ms' = y
  intro hp
  cases hp with
  | err e => exact ⟨rfl, .err e⟩
  | ub u => exact ⟨rfl, .ub u⟩
  | @ok a b hab =>
    obtain ⟨a, is⟩ := a
    obtain ⟨b, js⟩ := b
    obtain ⟨h1, h2⟩ := hab
    simp only at h1 h2 ⊢
    subst h2
    exact finalPasses_twin sink _ h1 s

theorem answers_twin {a a' : Assembler} (h : AsmTwin a a') : EqualAnswers a a' where
  memory := h.memory
  lookup := by rw [h.names]; exact asmLookup_twin h.modules a.names
  jumpTargets := by
    have hc : a'.contains = a.contains := by funext x; simp only [Assembler.contains, h.memory]
    have ha : ∀ ret l, a'.addTargets ret l = a.addTargets ret l := by
      intro ret l
      induction l generalizing ret with
      | nil => rfl
      | cons x l ih => simp only [Assembler.addTargets, hc, ih]
    unfold Assembler.jumpTargets
    generalize ([] : OMap StatusFlags) = ret
    have hm := h.modules
    revert hm
    generalize a.modules = ms
    generalize a'.modules = ms'
    intro hm
    induction hm generalizing ret with
    | nil => rfl
    | cons hx _ ih =>
      rw [List.foldl_cons, List.foldl_cons, hx.targets, ha]
      exact ih _
  conventions := by
    unfold Assembler.jumpTargetReturnConventions
    generalize ([] : OMap ReturnConvention) = ret
    have hm := h.modules
    revert hm
    generalize a.modules = ms
    generalize a'.modules = ms'
    intro hm
    induction hm generalizing ret with
    | nil => rfl
    | cons hx _ ih => simp only [List.foldl_cons, hx.conventions, ih]
  names := by
    intro x
    unfold Assembler.nameForAddress
    have hm := h.modules
    revert hm
    generalize a.modules = ms
    generalize a'.modules = ms'
    intro hm
    induction hm with
    | nil => rfl
    | cons hx _ ih => simp only [List.findSome?_cons, Module.nameForAddress, hx.name, hx.addrNames] at ih ⊢; rw [ih]

theorem assembleFiles_twin {σ : Type} (fuel : Nat) {files files' : List (List Str)}
    (h : List.Forall₂ (fun f f' => Twin ModuleTwin (Module.loadAsmFile f) (Module.loadAsmFile f')) files files') (sink : Sink σ) (s : σ) :
    (Assembler.assembleFiles fuel files' sink s).1 = (Assembler.assembleFiles fuel files sink s).1 ∧
    SameOutcome (Assembler.assembleFiles fuel files sink s).2 (Assembler.assembleFiles fuel files' sink s).2 := by
  have hl : Twin (List.Forall₂ ModuleTwin) (Assembler.loadAll files) (Assembler.loadAll files') := by
    induction h with
    | nil => exact .ok .nil
    | cons hf _ ih =>
      rw [Assembler.loadAll, Assembler.loadAll]
      exact hf.bind fun _ _ hm _ _ => ih.bind fun _ _ hms _ _ => .ok (.cons hm hms)
  unfold Assembler.assembleFiles
  revert hl
  generalize Assembler.loadAll files = x
  generalize Assembler.loadAll files' = y
  intro hl
  cases hl with
  | err e => exact ⟨rfl, .err e⟩
  | ub u => exact ⟨rfl, .ub u⟩
  | ok hms =>
    obtain ⟨h1, h2⟩ := assemble_twin fuel hms sink s
    refine ⟨h1, ?_⟩
    simp only
    generalize (Assembler.assemble fuel _ sink s).2 = x at h2
    generalize (Assembler.assemble fuel _ sink s).2 = y at h2
    cases h2 with
    | ok h => exact .ok (answers_twin h)
    | err e => exact .err e
    | ub u => exact .ub u

end

end Nsasm.Bindings
