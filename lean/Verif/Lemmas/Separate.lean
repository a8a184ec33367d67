import Verif.Lemmas.Defined
import Verif.Props.Tools

/-! # What assembling a module takes from the other modules -/

namespace Nsasm
open Spec Props Parse

/-! ## The names an expression depends on -/

theorem eval_within {ctx ctx' : Ctx} {e : Expr} (hs : Spec.Source e)
    (h : ∀ id, Uses id e → ∀ v, ctx id = .ok v → ctx' id = .ok v) :
    ∀ v, e.eval ctx = .ok v → e.eval ctx' = .ok v := by
  induction e with
  | null => intro v hv; exact hv
  | lit n t => intro v hv; exact hv
  | ident id t =>
    intro v hv
    simp only [Expr.eval] at hv ⊢
    cases hc : ctx id with
    | error e => rw [hc] at hv; cases hv
    | ok w => rw [h id (.name t) w hc]; rw [hc] at hv; exact hv
  | bin op l r ihl ihr =>
    intro v hv
    replace ihl := ihl hs.1 fun id hu => h id (.left hu)
    replace ihr := ihr hs.2 fun id hu => h id (.right hu)
    simp only [Expr.eval] at hv ⊢
    cases hl : l.eval ctx with
    | ok a =>
      cases hr : r.eval ctx with
      | ok b => rw [hl, hr] at hv; rw [ihl a hl, ihr b hr]; exact hv
      | err e => rw [hl, hr] at hv; cases hv
      | ub u => rw [hl, hr] at hv; cases hv
    | err e => cases hr : r.eval ctx <;> rw [hl, hr] at hv <;> cases hv
    | ub u => rw [hl] at hv; cases hv
  | un op a ih =>
    intro v hv
    simp only [Expr.eval] at hv ⊢
    obtain ⟨w, hw, hv⟩ := Res.bind_eq_ok.mp hv
    rw [ih hs (fun id hu => h id (.arg hu)) w hw]
    exact hv
  | label n a ih => exact hs.elim

/-- The expressions of a statement; the operand of `.module` is only a name. -/
def statementExprs : Statement → List Expr
  | .instr i => [i.arg1, i.arg2]
  | .dir d => if d.name = .module_ then [] else d.argument :: d.list

theorem loaded_source {file : List Str} {m : Module} (h : Module.loadAsmFile file = .ok m) :
    ∀ l ∈ m.lines, ∀ e ∈ statementExprs l.statement, Spec.Source e := by
  obtain ⟨items, hF, hI, -, -⟩ := loadAsmFile_ok h
  have hor : ∀ {ts : Toks} {e : Expr}, SegOr ts e → Spec.Source e := by
    rintro ts e (rfl | ⟨p, q, r, -, hd⟩)
    · trivial
    · exact derives_source hd
  have hst : ∀ st, Item.stmt st ∈ items → ∀ e ∈ statementExprs st, Spec.Source e := by
    obtain ⟨per, h1, rfl⟩ := hF
    intro st hst
    obtain ⟨its, h2, h3⟩ := List.mem_flatten.1 hst
    obtain ⟨ts, ht, hp⟩ : ∃ ts, NamesNonempty ts ∧ parse ts = .ok its := by
      clear h3 hst hI h
      induction h1 with
      | nil => simp at h2
      | cons hx _ ih =>
        rcases List.mem_cons.1 h2 with rfl | h2
        · obtain ⟨ts, ht, hp⟩ := hx; exact ⟨ts, tokenize_names _ ts ht, hp⟩
        · exact ih h2
    have := (parseLoop_blames (ts.length + 1) ht).2 its hp st h3
    cases st with
    | instr i =>
      intro e he
      simp only [statementExprs, List.mem_cons, List.not_mem_nil, or_false] at he
      rcases he with rfl | rfl
      · exact hor this.1
      · exact hor this.2.1
    | dir d =>
      intro e he
      simp only [statementExprs] at he
      split at he
      · cases he
      rcases List.mem_cons.1 he with rfl | he
      · exact hor this.1
      · exact hor (.inr (this.2 e he))
  intro l hl
  obtain ⟨i, hi⟩ := List.mem_iff_getElem?.1 hl
  obtain ⟨⟨pl, hp, he⟩, -⟩ := hI.line i l hi
  rw [he]
  exact program_items (R := fun st => ∀ e ∈ statementExprs st, Spec.Source e) hst [] pl
    (List.mem_of_getElem? hp)

/-- What a line of the module takes from elsewhere. -/
def Wants (m : Module) (l : Line) (e : Expr) (id : FullId) : Prop :=
  ∃ x, Uses x e ∧ m.isLocal l.scopes x = false ∧ id = qualified x

/-- `ctx'` has the values that `ctx` gives the names in `D`. -/
def KeepsOn (D : FullId → Prop) (ctx ctx' : Ctx) : Prop := ∀ id, D id → ∀ v, ctx id = .ok v → ctx' id = .ok v

theorem lookup_nonlocal {m : Module} {scopes : List Nat} {x : FullId} (h : m.isLocal scopes x = false) (E : Ctx) :
    m.lookup scopes E x = E (qualified x) := by
  obtain ⟨mod, n⟩ := x
  unfold Module.isLocal at h
  unfold Module.lookup qualified
  cases mod with
  | none =>
    simp only at h ⊢
    cases hi : m.localIndex n scopes with
    | none => rfl
    | some t => rw [hi] at h; cases h
  | some mod =>
    simp only at h ⊢
    by_cases hm : mod = m.name
    · rw [if_pos hm]
      rw [if_neg (by simpa using hm)] at h
      cases hi : m.localIndex n [] with
      | none => rfl
      | some t => rw [hi] at h; cases h
    · rw [if_neg hm]; rfl

theorem lookup_local {m : Module} {scopes : List Nat} {x : FullId} (h : m.isLocal scopes x = true) (E E' : Ctx) :
    m.lookup scopes E x = m.lookup scopes E' x := by
  obtain ⟨mod, n⟩ := x
  unfold Module.isLocal at h
  unfold Module.lookup
  cases mod with
  | none =>
    simp only at h ⊢
    cases hi : m.localIndex n scopes with
    | none => rw [hi] at h; cases h
    | some t => rfl
  | some mod =>
    simp only at h ⊢
    by_cases hm : mod = m.name
    · rw [if_pos hm, if_pos hm]
      rw [if_neg (by simpa using hm)] at h
      cases hi : m.localIndex n [] with
      | none => rw [hi] at h; cases h
      | some t => rfl
    · rw [if_pos hm] at h; cases h

theorem line_eval {m : Module} {l : Line} {e : Expr} (hs : Spec.Source e) {E E' : Ctx}
    (h : KeepsOn (Wants m l e) E E') {v : Int} (hv : e.eval (m.lookup l.scopes E) = .ok v) :
    e.eval (m.lookup l.scopes E') = .ok v := by
  refine eval_within hs (fun id hu w hw => ?_) v hv
  cases hl : m.isLocal l.scopes id with
  | true => rw [← lookup_local hl E]; exact hw
  | false => rw [lookup_nonlocal hl] at hw ⊢; exact h _ ⟨id, hu, hl, rfl⟩ w hw

/-! ## The second pass -/

/-- The constants of the module are written with its own names and those in `D`. -/
def NeedsOnly (m : Module) (D : FullId → Prop) : Prop :=
  ∀ l ∈ m.lines, ∀ d, l.statement = .dir d → d.name = .equ →
    Spec.Source d.argument ∧ ∀ id, Wants m l d.argument id → D id

theorem isLocal_same {m m' : Module} (hn : m'.name = m.name)
    (hi : ∀ name scopes, m'.localIndex name scopes = m.localIndex name scopes) (scopes : List Nat) (id : FullId) :
    m'.isLocal scopes id = m.isLocal scopes id := by
  unfold Module.isLocal
  simp only [hn, hi]

theorem setValue_lines {m : Module} {i : Nat} {v : Int} {l : Line} (hl : l ∈ (m.setValue i v).lines) :
    ∃ l₀ ∈ m.lines, l.statement = l₀.statement ∧ l.scopes = l₀.scopes := by
  obtain ⟨k, hk⟩ := List.mem_iff_getElem?.1 hl
  simp only [Module.setValue, List.getElem?_modify] at hk
  cases h0 : m.lines[k]? with
  | none => rw [h0] at hk; cases hk
  | some l₀ =>
    refine ⟨l₀, List.mem_of_getElem? h0, ?_⟩
    rw [h0] at hk
    split at hk <;> (simp at hk; subst hk; exact ⟨rfl, rfl⟩)

theorem setValue_localIndex (m : Module) (i : Nat) (v : Int) (name : Str) (scopes : List Nat) :
    (m.setValue i v).localIndex name scopes = m.localIndex name scopes := by
  refine localIndex_congr (m := m.setValue i v) (m' := m) rfl (fun j => ?_) name scopes
  unfold Module.localsAt Module.setValue
  simp only [List.getElem?_modify]
  cases m.lines[j]? with
  | none => by_cases h : i = j <;> simp [h]
  | some l => by_cases h : i = j <;> simp [h]

theorem setValue_needs {m : Module} {D : FullId → Prop} (h : NeedsOnly m D) (i : Nat) (v : Int) :
    NeedsOnly (m.setValue i v) D := by
  intro l hl d hd hq
  obtain ⟨l₀, h0, e1, e2⟩ := setValue_lines hl
  rw [e1] at hd
  obtain ⟨h1, h2⟩ := h l₀ h0 d hd hq
  refine ⟨h1, fun id ⟨x, hx, hloc, he⟩ => h2 id ⟨x, hx, ?_, he⟩⟩
  rw [← e2, ← isLocal_same (m := m) (m' := m.setValue i v) rfl (setValue_localIndex m i v)]
  exact hloc

theorem secondLoop_within {D : FullId → Prop} {E E' : Ctx} (hE : KeepsOn D E E') : ∀ (n i : Nat) (m m' : Module),
    NeedsOnly m D → Module.secondLoop E n i m = .ok m' → Module.secondLoop E' n i m = .ok m' := by
  intro n
  induction n with
  | zero => intro i m m' _ h; exact h
  | succ n ih =>
    intro i m m' hD h
    rw [Module.secondLoop] at h ⊢
    cases hl : m.lines[i]? with
    | none => rw [hl] at h; cases h
    | some l =>
      rw [hl] at h
      simp only at h ⊢
      obtain ⟨m1, h1, h⟩ := Res.bind_eq_ok.mp h
      have key : Module.evalEqu E' m i l = .ok m1 ∧ NeedsOnly m1 D := by
        unfold Module.evalEqu at h1 ⊢
        split at h1
        · cases h1; exact ⟨rfl, hD⟩
        · next d hd =>
          split at h1
          · next hc =>
            rw [if_pos hc]
            obtain ⟨v, hv, h1⟩ := Res.bind_eq_ok.mp h1
            cases h1
            obtain ⟨hs, hw⟩ := hD l (List.mem_of_getElem? hl) d hd hc.1
            rw [line_eval hs (fun id hid => hE id (hw id hid)) hv]
            exact ⟨rfl, setValue_needs hD i v⟩
          · next hc => rw [if_neg hc]; cases h1; exact ⟨rfl, hD⟩
      rw [key.1, Res.bind_ok]
      exact ih (i + 1) m1 m' key.2 h

theorem secondPass_within {D : FullId → Prop} {E E' : Ctx} (hE : KeepsOn D E E') {m m' : Module} (hD : NeedsOnly m D)
    (h : m.runSecondPass E = .ok m') : m.runSecondPass E' = .ok m' :=
  secondLoop_within hE _ _ _ _ hD h

theorem needs_first {file : List Str} {fuel : Nat} {m m₁ : Module} (hm : Module.loadAsmFile file = .ok m)
    (h1 : m.runFirstPass fuel = .ok m₁) : NeedsOnly m₁ (· ∈ m.deps) := by
  obtain ⟨items, -, -, -, hd⟩ := loadAsmFile_ok hm
  intro l hl d hs hq
  obtain ⟨k, hk⟩ := List.mem_iff_getElem?.1 hl
  obtain ⟨l₀, h0, -, e2, -, e4, -⟩ := firstPass_line h1 hk
  have h0m := List.mem_of_getElem? h0
  have hs0 := (e4 d).1 hs
  refine ⟨loaded_source hm l₀ h0m _ (by rw [hs0]; simp [statementExprs, hq]), ?_⟩
  rintro id ⟨x, hx, hloc, rfl⟩
  rw [hd]
  unfold Module.dependencies
  refine List.mem_flatMap.2 ⟨l₀, h0m, ?_⟩
  rw [hs0]
  simp only [if_pos hq]
  refine mem_externalNames.2 ⟨x, hx, ?_, rfl⟩
  rw [← e2, ← isLocal_same (firstPass_name h1).1 (firstPass_localIndex h1)]
  exact hloc

/-! ## The final pass -/

theorem encodeList_within {ctx ctx' : Ctx} {n : DirectiveName} : ∀ {es : List Expr} {bs : List UInt8},
    (∀ e ∈ es, ∀ v, e.eval ctx = .ok v → e.eval ctx' = .ok v) →
    Directive.encodeList n ctx es = .ok bs → Directive.encodeList n ctx' es = .ok bs := by
  intro es
  induction es with
  | nil => intro bs _ h; exact h
  | cons e es ih =>
    intro bs he h
    rw [Directive.encodeList] at h ⊢
    obtain ⟨v, hv, h⟩ := Res.bind_eq_ok.mp h
    obtain ⟨rest, hr, h⟩ := Res.bind_eq_ok.mp h
    rw [he e (by simp) v hv, Res.bind_ok, ih (fun e h => he e (by simp [h])) hr, Res.bind_ok]
    exact h

theorem bytes_within {ctx ctx' : Ctx} {st : Statement}
    (h : ∀ e ∈ statementExprs st, ∀ v, e.eval ctx = .ok v → e.eval ctx' = .ok v) {a : Addr} {r : Option (List UInt8)}
    (hb : st.assembleBytes a ctx = .ok r) : st.assembleBytes a ctx' = .ok r := by
  cases st with
  | dir d =>
    simp only [Statement.assembleBytes, Directive.assembleBytes] at hb ⊢
    split at hb
    · next hc => rw [if_pos hc]; exact hb
    · next hc =>
      rw [if_neg hc]
      obtain ⟨bs, h1, h2⟩ := Res.bind_eq_ok.mp hb
      have hne : d.name ≠ .module_ := by intro hm; rw [hm] at hc; exact hc (by decide)
      rw [encodeList_within (fun e he => h e (by simp [statementExprs, he, hne])) h1]
      exact h2
  | instr i =>
    simp only [Statement.assembleBytes] at hb ⊢
    obtain ⟨bs, h1, h2⟩ := Res.bind_eq_ok.mp hb
    have ha1 := h i.arg1 (by simp [statementExprs])
    have ha2 := h i.arg2 (by simp [statementExprs])
    suffices i.assembleBytes a ctx' = .ok bs by rw [this]; exact h2
    unfold Instruction.assembleBytes at h1 ⊢
    simp only at h1 ⊢
    split at h1
    · cases h1
    · next op hop =>
      cases hmode : i.mode <;> rw [hmode] at h1 <;> simp only at h1 ⊢ <;> first
        | exact h1
        | (obtain ⟨v, hv, h1⟩ := Res.bind_eq_ok.mp h1
           rw [ha1 v hv, Res.bind_ok]
           first
             | exact h1
             | (obtain ⟨w, hw, h1⟩ := Res.bind_eq_ok.mp h1
                rw [ha2 w hw, Res.bind_ok]
                exact h1))

/-- The line's expressions, if they have values, have the same ones. -/
def LineKeeps (m : Module) (E E' : Ctx) (l : Line) : Prop :=
  ∀ e ∈ statementExprs l.statement, ∀ v, e.eval (m.lookup l.scopes E) = .ok v →
    e.eval (m.lookup l.scopes E') = .ok v

theorem assembleLine_within {m : Module} {E E' : Ctx} {l : Line} (h : LineKeeps m E E' l) {s s' : Writes}
    {o o' : Module.Out} (ha : m.assembleLine E recorder l s o = (s', .ok o')) :
    m.assembleLine E' recorder l s o = (s', .ok o') := by
  unfold Module.assembleLine at ha ⊢
  simp only at ha ⊢
  by_cases hz : l.statement.serializedSize > 0
  · rw [if_pos hz] at ha ⊢
    have key : ∀ s1 o1, Module.writeLine l (m.lookup l.scopes E) recorder s o = (s1, .ok o1) →
        Module.writeLine l (m.lookup l.scopes E') recorder s o = (s1, .ok o1) := by
      intro s1 o1 hw
      unfold Module.writeLine Statement.assemble at hw ⊢
      cases hv : l.value with
      | none => rw [hv] at hw; cases hw
      | some v =>
        rw [hv] at hw
        simp only at hw ⊢
        cases hA : Address.ofInt v with
        | err e => rw [hA] at hw; cases hw
        | ub u => rw [hA] at hw; cases hw
        | ok x =>
          rw [hA] at hw
          simp only at hw ⊢
          cases hb : l.statement.assembleBytes x (m.lookup l.scopes E) with
          | err e => rw [hb] at hw; cases hw
          | ub u => rw [hb] at hw; cases hw
          | ok r => rw [hb] at hw; rw [bytes_within h hb]; exact hw
    rcases hw : Module.writeLine l (m.lookup l.scopes E) recorder s o with ⟨s1, r1⟩
    rw [hw] at ha
    cases r1 with
    | err e => cases ha
    | ub u => cases ha
    | ok o1 => rw [key s1 o1 hw]; exact ha
  · rw [if_neg hz] at ha ⊢
    cases hs : l.statement with
    | instr i => rw [hs] at ha; exact ha
    | dir d =>
      rw [hs] at ha
      simp only at ha ⊢
      suffices ∀ o1, Module.assembleNote d l.value (m.lookup l.scopes E) o = .ok o1 →
          Module.assembleNote d l.value (m.lookup l.scopes E') o = .ok o1 by
        cases hn : Module.assembleNote d l.value (m.lookup l.scopes E) o with
        | err e => rw [hn] at ha; cases ha
        | ub u => rw [hn] at ha; cases ha
        | ok o1 => rw [this o1 hn]; rw [hn] at ha; exact ha
      intro o1 hn
      unfold Module.assembleNote at hn ⊢
      split at hn
      · next hc => rw [if_pos hc]; exact hn
      · next hc =>
        rw [if_neg hc]
        split at hn
        · next hr =>
          rw [if_pos hr]
          obtain ⟨v, hv, hn⟩ := Res.bind_eq_ok.mp hn
          rw [h d.argument (by rw [hs]; simp [statementExprs, hr]) v hv, Res.bind_ok]
          exact hn
        · next hr => rw [if_neg hr]; exact hn

theorem assembleLines_within {m : Module} {E E' : Ctx} : ∀ {ls : List Line} {s s' : Writes} {o o' : Module.Out},
    (∀ l ∈ ls, LineKeeps m E E' l) → m.assembleLines E recorder ls s o = (s', .ok o') →
    m.assembleLines E' recorder ls s o = (s', .ok o') := by
  intro ls
  induction ls with
  | nil => intro s s' o o' _ h; exact h
  | cons l ls ih =>
    intro s s' o o' hk h
    rw [Module.assembleLines] at h ⊢
    rcases h1 : m.assembleLine E recorder l s o with ⟨s1, r1⟩
    rw [h1] at h
    cases r1 with
    | err e => cases h
    | ub u => cases h
    | ok o1 =>
      rw [assembleLine_within (hk l (by simp)) h1]
      exact ih (fun l hl => hk l (by simp [hl])) h

theorem assemble_within {m m' : Module} {E E' : Ctx} (hk : ∀ l ∈ m.lines, LineKeeps m E E' l) {s s' : Writes}
    (h : m.assemble E recorder s = (s', .ok m')) : m.assemble E' recorder s = (s', .ok m') := by
  obtain ⟨o, names, h1, h2, h3⟩ := assemble_parts h
  unfold Module.assemble
  rw [assembleLines_within hk h1]
  simp only [Prod.mk.injEq, true_and]
  rw [Res.bind_ok, h2, Res.bind_ok, h3]

/-! ## The recorder only adds -/

theorem assembleLine_frame {m : Module} {E : Ctx} {l : Line} {s : Writes} {o : Module.Out} :
    m.assembleLine E recorder l s o =
      (s ++ (m.assembleLine E recorder l [] o).1, (m.assembleLine E recorder l [] o).2) := by
  unfold Module.assembleLine
  simp only
  split
  · unfold Module.writeLine Statement.assemble
    cases l.value with
    | none => simp
    | some v =>
      simp only
      cases Address.ofInt v with
      | err e => simp
      | ub u => simp
      | ok x =>
        simp only
        cases l.statement.assembleBytes x (m.lookup l.scopes E) with
        | err e => simp
        | ub u => simp
        | ok r => cases r <;> simp [recorder]
  · cases l.statement <;> simp

theorem assembleLines_frame {m : Module} {E : Ctx} : ∀ {ls : List Line} {s s' : Writes} {o o' : Module.Out},
    m.assembleLines E recorder ls s o = (s', .ok o') →
    ∃ ws, s' = s ++ ws ∧ ∀ t, m.assembleLines E recorder ls t o = (t ++ ws, .ok o') := by
  intro ls
  induction ls with
  | nil =>
    intro s s' o o' h
    simp only [Module.assembleLines, Prod.mk.injEq, Res.ok.injEq] at h
    obtain ⟨rfl, rfl⟩ := h
    exact ⟨[], by simp, fun t => by simp [Module.assembleLines]⟩
  | cons l ls ih =>
    intro s s' o o' h
    rw [Module.assembleLines, assembleLine_frame] at h
    rcases h1 : m.assembleLine E recorder l [] o with ⟨w, r1⟩
    rw [h1] at h
    cases r1 with
    | err e => cases h
    | ub u => cases h
    | ok o1 =>
      obtain ⟨ws, rfl, ht⟩ := ih h
      refine ⟨w ++ ws, by simp, fun t => ?_⟩
      rw [Module.assembleLines, assembleLine_frame, h1]
      simp only
      rw [ht]
      simp

theorem assemble_frame {m m' : Module} {E : Ctx} {s s' : Writes} (h : m.assemble E recorder s = (s', .ok m')) :
    ∃ ws, s' = s ++ ws ∧ ∀ t, m.assemble E recorder t = (t ++ ws, .ok m') := by
  obtain ⟨o, names, h1, h2, h3⟩ := assemble_parts h
  obtain ⟨ws, e, ht⟩ := assembleLines_frame h1
  refine ⟨ws, e, fun t => ?_⟩
  unfold Module.assemble
  rw [ht]
  simp only [Prod.mk.injEq, true_and]
  rw [Res.bind_ok, h2, Res.bind_ok, h3]

end Nsasm
