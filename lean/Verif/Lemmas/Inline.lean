import Verif.Spec.Inline
import Verif.Lemmas.Relocate

/-! # Expressions that stand for the same value -/

namespace Nsasm.Values
open Spec Props

/-- The modules of an assembled program, with what is known about each. -/
structure Whole (fuel : Nat) (files : List (List Str)) (a : Assembler) : Prop where
  side : ∀ (i : Nat) (m : Module), a.modules[i]? = some m → ∃ f items m₁, files[i]? = some f ∧
    Side fuel f items (Assembler.lookup a.modules a.names) m m₁
  publishes : Publishes a.modules (Assembler.lookup a.modules a.names)
  unique : UniqueExports a.modules

/-- What expressions are evaluated with in a line. -/
abbrev ctxAt (a : Assembler) (m : Module) (l : Line) : Ctx := m.lookup l.scopes (Assembler.lookup a.modules a.names)

theorem unique_export {ms : List Module} (h : UniqueExports ms) {i j : Nat} {m n : Module} {id : FullId} (hm : ms[i]? = some m)
    (hn : ms[j]? = some n) (h1 : Exports m id) (h2 : Exports n id) : i = j := by
  obtain ⟨hi, rfl⟩ := List.getElem?_eq_some_iff.mp hm
  obtain ⟨hj, rfl⟩ := List.getElem?_eq_some_iff.mp hn
  have hp := List.pairwise_iff_getElem.mp h
  rcases Nat.lt_trichotomy i j with hc | hc | hc
  · exact absurd h2 (hp i j hi hj hc id h1)
  · exact hc
  · exact absurd h1 (hp j i hj hi hc id h2)

theorem extern_value {fuel : Nat} {files : List (List Str)} {a : Assembler} (hW : Whole fuel files a) {j t : Nat} {id : FullId}
    {v : Int} {other : Str} {Q : Program} (hid : id.module = some other) (hQ : (programsOf files a)[j]? = some (other, Q))
    (hd : Defines Q none id.name t) (h : Assembler.lookup a.modules a.names id = .ok v) :
    ∃ mj, a.modules[j]? = some mj ∧ valueAt mj t = some v := by
  obtain ⟨mj, f, hmj, hf⟩ := module_of hQ
  obtain ⟨f', items, m₁, hf', hS⟩ := hW.side j mj hmj
  rw [hf] at hf'; cases hf'
  rw [programsOf_get hmj hf] at hQ
  cases hQ
  have hg := (defines_iff hS _ _).2 hd
  obtain ⟨m', hm', t', h1, h2, h3⟩ := (hW.publishes id v).1 h
  obtain ⟨j', hj'⟩ := List.mem_iff_getElem?.1 hm'
  have : j' = j := unique_export hW.unique hj' hmj ⟨h1, t', h2⟩ ⟨hid, t, hg⟩
  subst this
  rw [hmj] at hj'; cases hj'
  have e1 := find_of_mem hS.nodup hg
  rw [find_of_mem hS.nodup h2] at e1
  cases e1
  exact ⟨mj, hmj, h3⟩

/-- The value of a name is that of the line it points to. -/
theorem points_value {fuel : Nat} {files : List (List Str)} {a : Assembler} (hW : Whole fuel files a) {i k j t : Nat} {id : FullId}
    {m : Module} {l : Line} {v : Int} (hm : a.modules[i]? = some m) (hl : m.lines[k]? = some l)
    (hp : PointsTo (programsOf files a) i k id j t) (h : ctxAt a m l id = .ok v) :
    ∃ mj, a.modules[j]? = some mj ∧ valueAt mj t = some v := by
  obtain ⟨f, items, m₁, hf, hS⟩ := hW.side i m hm
  have hP := programsOf_get hm hf
  unfold ctxAt Module.lookup at h
  unfold PointsTo at hp
  cases hmod : id.module with
  | some other =>
    simp only [hmod] at h hp
    obtain ⟨Q, hQ, hd⟩ := hp
    split at h
    · rename_i hn
      cases hix : m.localIndex id.name [] with
      | none => rw [hix] at h; exact extern_value hW hmod hQ hd h
      | some t' =>
        rw [hix] at h
        have hv' : valueAt m t' = some v := (localLookup_ok ..).1 h
        have hd' : Defines (fileProgram f) none id.name t' := by
          rw [fileProgram_of hS.read]; exact (hS.names.globals _ _).1 hix
        refine extern_value hW hmod hQ hd ((hW.publishes id v).2 ⟨m, List.mem_of_getElem? hm, t', ?_, (defines_iff hS _ _).2 hd', hv'⟩)
        rw [hmod, hn]
    · exact extern_value hW hmod hQ hd h
  | none =>
    simp only [hmod] at h hp
    obtain ⟨name, P, hP', hp⟩ := hp
    rw [hP] at hP'; cases hP'
    rw [fileProgram_of hS.read] at hp
    rcases hp with ⟨rfl, hr⟩ | ⟨hno, Q, hQ, hd⟩
    · rw [(hS.names.locals k l hl _ _).2 hr] at h
      exact ⟨m, hm, (localLookup_ok ..).1 h⟩
    · cases hix : m.localIndex id.name l.scopes with
      | some t' => exact absurd ((hS.names.locals k l hl _ _).1 hix) (hno t')
      | none =>
        rw [hix] at h
        exact extern_value hW (id := ⟨some [], id.name⟩) rfl hQ hd h

theorem line_of {fuel : Nat} {files : List (List Str)} {a : Assembler} (hW : Whole fuel files a) {j t : Nat} {st : Statement}
    (h : HasStatement (programsOf files a) j t st) : ∃ m l, a.modules[j]? = some m ∧ m.lines[t]? = some l ∧
      match st with
      | .dir d => l.statement = .dir d
      | .instr i => ∃ mode, l.statement = .instr { i with mode := mode } := by
  obtain ⟨name, P, ls, hP, hk⟩ := id h
  obtain ⟨m, f, hm, hf⟩ := module_of hP
  obtain ⟨f', items, m₁, hf', hS⟩ := hW.side j m hm
  rw [hf] at hf'; cases hf'
  rw [programsOf_get hm hf] at hP; cases hP
  obtain ⟨l, hl⟩ := line_at hS hk
  exact ⟨m, l, hm, hl, hasStatement_iff hm hf hS hl h⟩

/-- The value of the name of a constant is that of its definition. -/
theorem constant_value {fuel : Nat} {files : List (List Str)} {a : Assembler} (hW : Whole fuel files a) {i k j t : Nat} {id : FullId}
    {m : Module} {l : Line} {v : Int} {d : Directive} (hm : a.modules[i]? = some m) (hl : m.lines[k]? = some l)
    (hp : PointsTo (programsOf files a) i k id j t) (hd : HasStatement (programsOf files a) j t (.dir d)) (hq : d.name = .equ)
    (h : ctxAt a m l id = .ok v) :
    ∃ mj lj, a.modules[j]? = some mj ∧ mj.lines[t]? = some lj ∧ d.argument.eval (ctxAt a mj lj) = .ok v := by
  obtain ⟨mj, lj, hmj, hlj, hst⟩ := line_of hW hd
  obtain ⟨f, items, m₁, hf, hS⟩ := hW.side j mj hmj
  obtain ⟨w, hw, he⟩ := hS.constants t lj d hlj hst hq
  obtain ⟨mj', hmj', hv⟩ := points_value hW hm hl hp h
  rw [hmj] at hmj'; cases hmj'
  unfold valueAt at hv
  rw [hlj] at hv
  change lj.value = some v at hv
  rw [hw] at hv
  cases hv
  exact ⟨mj, lj, hmj, hlj, he⟩

theorem eval_ident {ctx : Ctx} {id : FullId} {t : NumericType} {v : Int} (h : (Expr.ident id t).eval ctx = .ok v) :
    ctx id = .ok v := by
  simp only [Expr.eval] at h
  cases hc : ctx id with
  | error e => rw [hc] at h; cases h
  | ok w => rw [hc] at h; cases h; rfl

theorem eval_bin {ctx : Ctx} {op : BinOp} {l r : Expr} {v : Int} (h : (Expr.bin op l r).eval ctx = .ok v) :
    ∃ x y, l.eval ctx = .ok x ∧ r.eval ctx = .ok y ∧ op.apply x y = .ok v := by
  simp only [Expr.eval] at h
  cases hl : l.eval ctx with
  | ok x =>
    cases hr : r.eval ctx with
    | ok y => rw [hl, hr] at h; exact ⟨x, y, rfl, rfl, h⟩
    | err e => rw [hl, hr] at h; cases h
    | ub u => rw [hl, hr] at h; cases h
  | err e => cases hr : r.eval ctx <;> rw [hl, hr] at h <;> cases h
  | ub u => rw [hl] at h; cases h

theorem eval_un {ctx : Ctx} {op : UnOp} {e : Expr} {v : Int} (h : (Expr.un op e).eval ctx = .ok v) :
    ∃ x, e.eval ctx = .ok x ∧ op.apply x = .ok v := by
  simp only [Expr.eval] at h
  exact Res.bind_eq_ok.mp h

theorem i32_eq {x v : Int} (h : i32 x = .ok v) : v = x := by
  unfold i32 at h
  split at h
  · cases h; rfl
  · cases h

theorem computes_value {fuel : Nat} {files : List (List Str)} {a : Assembler} (hW : Whole fuel files a) {i k : Nat} {e : Expr} {x : Int}
    (h : Computes (programsOf files a) i k e x) : ∀ (m : Module) (l : Line), a.modules[i]? = some m → m.lines[k]? = some l →
      ∀ v, e.eval (ctxAt a m l) = .ok v → v = x := by
  induction h with
  | number n ty => intro m l hm hl v hv; cases hv; rfl
  | constant ty hp hd hq _ ih =>
    intro m l hm hl v hv
    obtain ⟨mj, lj, hmj, hlj, he⟩ := constant_value hW hm hl hp hd hq (eval_ident hv)
    exact ih mj lj hmj hlj v he
  | plus _ _ ih1 ih2 | minus _ _ ih1 ih2 | times _ _ ih1 ih2 =>
    intro m l hm hl v hv
    obtain ⟨x, y, hx, hy, hv⟩ := eval_bin hv
    rw [← ih1 m l hm hl x hx, ← ih2 m l hm hl y hy]
    exact i32_eq hv
  | over h0 _ _ ih1 ih2 =>
    intro m l hm hl v hv
    obtain ⟨x, y, hx, hy, hv⟩ := eval_bin hv
    have e2 := ih2 m l hm hl y hy
    subst e2
    rw [← ih1 m l hm hl x hx]
    unfold BinOp.apply at hv
    simp only [if_neg h0] at hv
    exact i32_eq hv
  | negative _ ih =>
    intro m l hm hl v hv
    obtain ⟨x, hx, hv⟩ := eval_un hv
    rw [← ih m l hm hl x hx]
    exact i32_eq hv
  | low _ ih | high _ ih | bank _ ih =>
    intro m l hm hl v hv
    obtain ⟨x, hx, hv⟩ := eval_un hv
    rw [← ih m l hm hl x hx]
    cases hv; rfl

theorem agrees_value {fuel : Nat} {files files' : List (List Str)} {a a' : Assembler} (hB : Both false fuel files files' a a')
    (hW : Whole fuel files a) (hW' : Whole fuel files' a') {i k i' k' : Nat} {e e' : Expr}
    (h : Agrees (programsOf files a) (programsOf files' a') i k e i' k' e') :
    ∀ (m m' : Module) (l l' : Line), a.modules[i]? = some m → a'.modules[i']? = some m' → m.lines[k]? = some l →
      m'.lines[k']? = some l' → ∀ v v', e.eval (ctxAt a m l) = .ok v → e'.eval (ctxAt a' m' l') = .ok v' → v' = v := by
  induction h with
  | nothing => intro m m' l l' hm hm' hl hl' v v' hv hv'; cases hv
  | number h1 h2 =>
    intro m m' l l' hm hm' hl hl' v v' hv hv'
    rw [computes_value hW h1 m l hm hl v hv, computes_value hW' h2 m' l' hm' hl' v' hv']
  | place ty ty' h1 h2 hst hne =>
    intro m m' l l' hm hm' hl hl' v v' hv hv'
    obtain ⟨mj, hmj, e1⟩ := points_value hW hm hl h1 (eval_ident hv)
    obtain ⟨mj', hmj', e2⟩ := points_value hW' hm' hl' h2 (eval_ident hv')
    have := steady_value hB (.place hst hne) mj mj' hmj hmj'
    rw [e1, e2] at this
    cases this; rfl
  | inline ty hp hd hq _ ih =>
    intro m m' l l' hm hm' hl hl' v v' hv hv'
    obtain ⟨mj, lj, hmj, hlj, he⟩ := constant_value hW hm hl hp hd hq (eval_ident hv)
    exact ih mj m' lj l' hmj hm' hlj hl' v v' he hv'
  | outline ty hp hd hq _ ih =>
    intro m m' l l' hm hm' hl hl' v v' hv hv'
    obtain ⟨mj, lj, hmj, hlj, he⟩ := constant_value hW' hm' hl' hp hd hq (eval_ident hv')
    exact ih m mj l lj hm hmj hl hlj v v' hv he
  | binary op _ _ ih1 ih2 =>
    intro m m' l l' hm hm' hl hl' v v' hv hv'
    obtain ⟨x, y, hx, hy, hv⟩ := eval_bin hv
    obtain ⟨x', y', hx', hy', hv'⟩ := eval_bin hv'
    rw [ih1 m m' l l' hm hm' hl hl' x x' hx hx', ih2 m m' l l' hm hm' hl hl' y y' hy hy', hv] at hv'
    cases hv'; rfl
  | unary op _ ih =>
    intro m m' l l' hm hm' hl hl' v v' hv hv'
    obtain ⟨x, hx, hv⟩ := eval_un hv
    obtain ⟨x', hx', hv'⟩ := eval_un hv'
    rw [ih m m' l l' hm hm' hl hl' x x' hx hx', hv] at hv'
    cases hv'; rfl

/-- Two expressions that have the same value if they have one. -/
def Match (ctx ctx' : Ctx) (e e' : Expr) : Prop := ∀ v v', e.eval ctx = .ok v → e'.eval ctx' = .ok v' → v' = v

theorem instr_match {i : Instruction} {e e' : Expr} {x : Addr} {ctx ctx' : Ctx} {bs bs' : List UInt8}
    (h : i.assembleBytes x ctx = .ok bs) (h' : { i with arg1 := e, arg2 := e' }.assembleBytes x ctx' = .ok bs')
    (h1 : Match ctx ctx' i.arg1 e) (h2 : Match ctx ctx' i.arg2 e') : bs' = bs := by
  unfold Instruction.assembleBytes at h h'
  simp only at h h'
  split at h
  · cases h
  rename_i op hop
  rw [hop] at h'
  cases hm : i.mode <;> rw [hm] at h h' <;> simp only at h h' <;> try (cases h; done)
  case imp | acc => cases h; cases h'; rfl
  case mov =>
    obtain ⟨v, hv, h⟩ := Res.bind_eq_ok.mp h
    obtain ⟨v', hv', h'⟩ := Res.bind_eq_ok.mp h'
    obtain ⟨w, hw, h⟩ := Res.bind_eq_ok.mp h
    obtain ⟨w', hw', h'⟩ := Res.bind_eq_ok.mp h'
    rw [h1 v v' hv hv', h2 w w' hw hw', h] at h'
    cases h'; rfl
  all_goals
    obtain ⟨v, hv, h⟩ := Res.bind_eq_ok.mp h
    obtain ⟨v', hv', h'⟩ := Res.bind_eq_ok.mp h'
    rw [h1 v v' hv hv', h] at h'
    cases h'; rfl

theorem list_match {n : DirectiveName} {ctx ctx' : Ctx} {es es' : List Expr} (hall : List.Forall₂ (Match ctx ctx') es es') :
    ∀ {bs bs' : List UInt8}, Directive.encodeList n ctx es = .ok bs → Directive.encodeList n ctx' es' = .ok bs' → bs' = bs := by
  induction hall with
  | nil => intro bs bs' h h'; cases h; cases h'; rfl
  | cons h1 _ ih =>
    intro bs bs' h h'
    rw [Directive.encodeList] at h h'
    obtain ⟨v, hv, h⟩ := Res.bind_eq_ok.mp h
    obtain ⟨v', hv', h'⟩ := Res.bind_eq_ok.mp h'
    obtain ⟨r, hr, h⟩ := Res.bind_eq_ok.mp h
    obtain ⟨r', hr', h'⟩ := Res.bind_eq_ok.mp h'
    rw [h1 v v' hv hv', ih hr hr', h] at h'
    cases h'; rfl

theorem bytes_match {st st' : Statement} (hb : blank false st' = blank false st) {x : Addr} {ctx ctx' : Ctx}
    {r r' : Option (List UInt8)} (h : st.assembleBytes x ctx = .ok r) (h' : st'.assembleBytes x ctx' = .ok r')
    (hall : List.Forall₂ (Match ctx ctx') (parts st) (parts st')) : r' = r := by
  cases st with
  | instr i =>
    cases st' with
    | dir d =>
      obtain ⟨e1, e2, hi, -⟩ := blank_instr (o := false) i
      rw [hi] at hb
      unfold blank at hb
      simp only at hb
      split at hb
      · cases hb
      split at hb <;> cases hb
    | instr i' =>
      have : i' = { i with arg1 := i'.arg1, arg2 := i'.arg2 } := by
        obtain ⟨e1, e2, hi, -⟩ := blank_instr (o := false) i
        obtain ⟨e1', e2', hi', -⟩ := blank_instr (o := false) i'
        rw [hi, hi'] at hb
        obtain ⟨a1, a2, a3, a4, a5, a6⟩ := i
        obtain ⟨b1, b2, b3, b4, b5, b6⟩ := i'
        simp only [Statement.instr.injEq, Instruction.mk.injEq] at hb ⊢
        tauto
      change (do .ok (some (← i.assembleBytes x ctx)) : Res _) = .ok r at h
      change (do .ok (some (← i'.assembleBytes x ctx')) : Res _) = .ok r' at h'
      obtain ⟨bs, hbs, h⟩ := Res.bind_eq_ok.mp h
      obtain ⟨bs', hbs', h'⟩ := Res.bind_eq_ok.mp h'
      rw [this] at hbs'
      cases hall with
      | cons m1 hall =>
        cases hall with
        | cons m2 _ =>
          rw [instr_match hbs hbs' m1 m2, h] at h'
          cases h'; rfl
  | dir d =>
    cases st' with
    | instr i =>
      obtain ⟨e1, e2, hi, -⟩ := blank_instr (o := false) i
      rw [hi] at hb
      unfold blank at hb
      simp only at hb
      split at hb
      · cases hb
      split at hb <;> cases hb
    | dir d' =>
      have hn : d'.name = d.name := by
        have key : ∀ d : Directive, ∃ q, blank false (.dir d) = .dir q ∧ q.name = d.name := by
          intro d
          unfold blank
          simp only
          split
          · exact ⟨_, rfl, rfl⟩
          split
          · exact ⟨_, rfl, rfl⟩
          · exact ⟨_, rfl, rfl⟩
        obtain ⟨q, hq, e⟩ := key d
        obtain ⟨q', hq', e'⟩ := key d'
        rw [hq, hq'] at hb
        cases hb
        rw [← e, ← e']
      change d.assembleBytes ctx = .ok r at h
      change d'.assembleBytes ctx' = .ok r' at h'
      unfold Directive.assembleBytes at h h'
      rw [hn] at h'
      split at h
      · rename_i hc; rw [if_pos hc, h] at h'; cases h'; rfl
      · rename_i hc
        rw [if_neg hc] at h'
        obtain ⟨bs, hb, h⟩ := Res.bind_eq_ok.mp h
        obtain ⟨bs', hb', h'⟩ := Res.bind_eq_ok.mp h'
        rw [list_match hall hb hb', h] at h'
        cases h'; rfl

theorem agrees_out {fuel : Nat} {files files' : List (List Str)} {a a' : Assembler} (hB : Both false fuel files files' a a')
    (hW : Whole fuel files a) (hW' : Whole fuel files' a')
    {i k : Nat} {m m' : Module} {l l' : Line} {w w' : Writes} (hm : a.modules[i]? = some m) (hm' : a'.modules[i]? = some m')
    (hl : m.lines[k]? = some l) (hl' : m'.lines[k]? = some l')
    (hw : LineWrites (ctxAt a m l) l w) (hw' : LineWrites (ctxAt a' m' l') l' w')
    (hag : AgreesAt (programsOf files a) (programsOf files' a') i k) : w' = w := by
  obtain ⟨f, f', items, items', m₁, m₁', m'', hf, hf', hm'', hS, hS', hT⟩ := hB.pair i m hm
  rw [hm'] at hm''; cases hm''
  obtain ⟨l'', hl'', hbl, hsc, hval⟩ := hT.line k l hl
  rw [hl'] at hl''; cases hl''
  have hsize : l'.statement.serializedSize = l.statement.serializedSize := by rw [← size_blank, hbl, size_blank]
  have hpl := (same_out hB hm hm' hl hl' hw hw').1
  rcases hw with ⟨hz, rfl⟩ | ⟨x, bs, hv, hb, hlen, hne, rfl⟩ <;>
    rcases hw' with ⟨hz', rfl⟩ | ⟨x', bs', hv', hb', hlen', hne', rfl⟩
  · rfl
  · cases hpl
  · cases hpl
  · have hx : x' = x := by
      simp only [places, List.map_cons, List.map_nil, List.cons.injEq, Prod.mk.injEq] at hpl
      exact hpl.1.1
    subst hx
    obtain ⟨st, st', hst, hst', hall⟩ := hag
    have hs := hasStatement_iff hm hf hS hl hst
    have hs' := hasStatement_iff hm' hf' hS' hl' hst'
    have p1 : parts l.statement = parts st := by
      cases st with
      | dir d => simp only at hs; rw [hs]
      | instr j => obtain ⟨mode, hs⟩ := hs; rw [hs]; rfl
    have p2 : parts l'.statement = parts st' := by
      cases st' with
      | dir d => simp only at hs'; rw [hs']
      | instr j => obtain ⟨mode, hs'⟩ := hs'; rw [hs']; rfl
    have := bytes_match hbl hb hb' (by
      rw [p1, p2]
      exact hall.imp fun e e' he v v' hv hv' => agrees_value hB hW hW' he m m' l l' hm hm' hl hl' v v' hv hv')
    cases this; rfl

end Nsasm.Values
