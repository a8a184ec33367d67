import Verif.Spec.Unused
import Verif.Lemmas.RenameParse
import Verif.Lemmas.ParseDefined
import Verif.Lemmas.AnyOrder
import Mathlib.Data.List.Forall2

/-! # A label that nothing refers to -/

namespace Nsasm.Unused
open Spec Parse

variable {n : Str}

/-- As `bind_ren`, when the result of the first step is known. -/
theorem bind_on {α β γ δ : Type} {x : Res α} {x' : Res β} {f : α → β} (h : x' = f <$> x) {k : α → Res γ} {k' : β → Res δ}
    {g : γ → δ} (hk : ∀ a, x = .ok a → k' (f a) = g <$> k a) : (x' >>= k') = g <$> (x >>= k) := by
  subst h
  cases x with
  | ok a => exact hk a rfl
  | err e => rfl
  | ub u => rfl

/-! ## Expressions and statements that do not contain a name -/

/-- The name does not occur in the expression. -/
def Free (n : Str) : Expr → Prop
  | .null => True
  | .lit _ _ => True
  | .ident id _ => id.name ≠ n
  | .bin _ a b => Free n a ∧ Free n b
  | .un _ a => Free n a
  | .label _ h => Free n h

def FreeSt (n : Str) : Statement → Prop
  | .instr i => Free n i.arg1 ∧ Free n i.arg2
  | .dir d => Free n d.argument ∧ ∀ e ∈ d.list, Free n e

/-- Two contexts agree on all other names. -/
def Agree (n : Str) (c c' : Ctx) : Prop := ∀ id, id.name ≠ n → c id = c' id

theorem derives_free {lv : Level} {ts : List Token} {e : Expr} (h : Derives lv ts e) (hn : Token.ident n ∉ ts) : Free n e := by
  have hname : ∀ id : FullId, Token.ident n ∉ nameTokens id → id.name ≠ n := by
    rintro ⟨m, k⟩ h rfl
    apply h
    unfold nameTokens
    cases m with
    | none => simp
    | some m => cases m <;> simp
  induction h with
  | lit v t => exact trivial
  | name id => exact hname id hn
  | longName id => exact hname id (fun h => hn (by simp [h]))
  | paren _ ih => exact ih (fun h => hn (by simp [h]))
  | comp _ ih => exact ih hn
  | factor _ ih => exact ih hn
  | term _ ih => exact ih hn
  | neg _ ih => exact ih (fun h => hn (by simp [h]))
  | lowbyte _ ih => exact ih (fun h => hn (by simp [h]))
  | highbyte _ ih => exact ih (fun h => hn (by simp [h]))
  | bankbyte _ ih => exact ih (fun h => hn (by simp [h]))
  | mul _ _ ih ih' => exact ⟨ih (fun h => hn (by simp [h])), ih' (fun h => hn (by simp [h]))⟩
  | div _ _ ih ih' => exact ⟨ih (fun h => hn (by simp [h])), ih' (fun h => hn (by simp [h]))⟩
  | plus _ _ ih ih' => exact ⟨ih (fun h => hn (by simp [h])), ih' (fun h => hn (by simp [h]))⟩
  | minus _ _ ih ih' => exact ⟨ih (fun h => hn (by simp [h])), ih' (fun h => hn (by simp [h]))⟩

theorem seg_free {ts : Toks} {e : Expr} (h : Seg ts e) (hn : Token.ident n ∉ ts) : Free n e := by
  obtain ⟨p, q, r, rfl, hd⟩ := h
  exact derives_free hd (fun h => hn (by simp [h]))

theorem segOr_free {ts : Toks} {e : Expr} (h : SegOr ts e) (hn : Token.ident n ∉ ts) : Free n e := by
  rcases h with rfl | h
  · trivial
  · exact seg_free h hn

theorem eval_free {c c' : Ctx} (h : Agree n c c') {e : Expr} (he : Free n e) : e.eval c = e.eval c' := by
  induction e with
  | null => rfl
  | lit v t => rfl
  | ident id t => simp only [Expr.eval, h id he]
  | bin op a b iha ihb => simp only [Expr.eval, iha he.1, ihb he.2]
  | un op a ih => simp only [Expr.eval, ih he]
  | label m e ih => simp only [Expr.eval, ih he]

theorem instr_free {c c' : Ctx} (h : Agree n c c') {i : Instruction} (hi : FreeSt n (.instr i)) (a : Addr) :
    i.assembleBytes a c = i.assembleBytes a c' := by
  simp only [Instruction.assembleBytes, eval_free h hi.1, eval_free h hi.2]

theorem encodeList_free {c c' : Ctx} (h : Agree n c c') (d : DirectiveName) : ∀ {es : List Expr}, (∀ e ∈ es, Free n e) →
    Directive.encodeList d c es = Directive.encodeList d c' es := by
  intro es
  induction es with
  | nil => intro _; rfl
  | cons e es ih =>
    intro hf
    simp only [Directive.encodeList, eval_free h (hf e (by simp)), ih fun e he => hf e (by simp [he])]

theorem bytes_free {c c' : Ctx} (h : Agree n c c') {st : Statement} (hs : FreeSt n st) (a : Addr) :
    st.assembleBytes a c = st.assembleBytes a c' := by
  cases st with
  | instr i => simp only [Statement.assembleBytes, instr_free h hs]
  | dir d => simp only [Statement.assembleBytes, Directive.assembleBytes, encodeList_free h _ hs.2]

theorem assemble_free {σ : Type} {c c' : Ctx} (h : Agree n c c') {st : Statement} (hs : FreeSt n st) (a : Addr) (sink : Sink σ)
    (s : σ) : st.assemble a c sink s = st.assemble a c' sink s := by
  simp only [Statement.assemble, bytes_free h hs]

theorem externalNames_free {f g : FullId → Bool} (h : ∀ id, id.name ≠ n → f id = g id) {e : Expr} (he : Free n e) :
    e.externalNames f = e.externalNames g := by
  induction e with
  | null => rfl
  | lit v t => rfl
  | ident id t => simp only [Expr.externalNames, h id he]
  | bin op a b iha ihb => simp only [Expr.externalNames, iha he.1, ihb he.2]
  | un op a ih => simp only [Expr.externalNames, ih he]
  | label m e ih => rfl

theorem mem_externalNames_free {f : FullId → Bool} {e : Expr} (he : Free n e) {d : FullId} (hd : d ∈ e.externalNames f) :
    d.name ≠ n := by
  induction e with
  | null => simp [Expr.externalNames] at hd
  | lit v t => simp [Expr.externalNames] at hd
  | ident id t =>
    unfold Expr.externalNames at hd
    split at hd
    · simp at hd
    · split at hd <;> (simp at hd; subst hd; exact he)
  | bin op a b iha ihb =>
    rcases List.mem_append.mp hd with h | h
    · exact iha he.1 h
    · exact ihb he.2 h
  | un op a ih => exact ih he hd
  | label m e ih => simp [Expr.externalNames] at hd

theorem simpleIdentifier_free {e : Expr} (he : Free n e) {t : Str} (h : e.simpleIdentifier = some t) : t ≠ n := by
  cases e with
  | ident id ty =>
    simp only [Expr.simpleIdentifier] at h
    by_cases hm : id.module.isSome = true
    · rw [if_pos hm] at h; cases h
    · rw [if_neg hm] at h; cases h; exact he
  | _ => cases h

/-! ## Tables without a name -/

/-- A table without one of its names. -/
def drop {ν : Type} (n : Str) (m : HMap Str ν) : HMap Str ν := m.filter fun p => p.1 ≠ n

theorem find_drop {ν : Type} (m : HMap Str ν) {k : Str} (hk : k ≠ n) : HMap.find (drop n m) k = HMap.find m k := by
  induction m with
  | nil => rfl
  | cons p m ih =>
    unfold drop at ih ⊢
    by_cases hp : p.1 = n
    · rw [List.filter_cons_of_neg (by simp [hp]), ih]
      show _ = if p.1 = k then some p.2 else HMap.find m k
      rw [if_neg (fun e => hk (e.symm.trans hp))]
    · rw [List.filter_cons_of_pos (by simp [hp])]
      show (if p.1 = k then some p.2 else HMap.find (m.filter _) k) = if p.1 = k then some p.2 else HMap.find m k
      rw [ih]

theorem find_drop_self {ν : Type} (m : HMap Str ν) : HMap.find (drop n m) n = none := by
  induction m with
  | nil => rfl
  | cons p m ih =>
    unfold drop at ih ⊢
    by_cases hp : p.1 = n
    · rw [List.filter_cons_of_neg (by simp [hp]), ih]
    · rw [List.filter_cons_of_pos (by simp [hp])]
      show (if p.1 = n then some p.2 else HMap.find (m.filter _) n) = none
      rw [if_neg hp, ih]

theorem has_drop {ν : Type} (m : HMap Str ν) {k : Str} (hk : k ≠ n) : HMap.has (drop n m) k = HMap.has m k := by
  rw [HMap.has, find_drop m hk, HMap.has]

theorem drop_insertNew {ν : Type} (m : HMap Str ν) {k : Str} (hk : k ≠ n) (v : ν) :
    drop n (HMap.insertNew m k v) = HMap.insertNew (drop n m) k v := by
  simp [drop, HMap.insertNew, List.filter_append, hk]

theorem drop_insertNew_self {ν : Type} (m : HMap Str ν) (v : ν) : drop n (HMap.insertNew m n v) = drop n m := by
  simp [drop, HMap.insertNew, List.filter_append]

/-! ## Modules without a name -/

def dropLine (n : Str) (l : Line) : Line := { l with labels := l.labels.filter (· ≠ n), locals := drop n l.locals }

def dropName (n : Str) (m : Module) : Module := { m with lines := m.lines.map (dropLine n), globals := drop n m.globals }

def FreeLines (n : Str) (ls : List Line) : Prop := ∀ l ∈ ls, FreeSt n l.statement

theorem line_drop (m : Module) (i : Nat) : (dropName n m).lines[i]? = m.lines[i]?.map (dropLine n) := by simp [dropName]

theorem localsAt_drop (m : Module) (i : Nat) : (dropName n m).localsAt i = drop n (m.localsAt i) := by
  unfold Module.localsAt
  rw [line_drop]
  cases m.lines[i]? <;> rfl

theorem localIndex_drop (m : Module) {name : Str} (hn : name ≠ n) (scopes : List Nat) :
    (dropName n m).localIndex name scopes = m.localIndex name scopes := by
  induction scopes with
  | nil => exact find_drop m.globals hn
  | cons s rest ih => rw [Module.localIndex, Module.localIndex, localsAt_drop, find_drop _ hn, ih]

theorem localLookup_drop (m : Module) (i : Nat) : (dropName n m).localLookup i = m.localLookup i := by
  unfold Module.localLookup
  rw [line_drop]
  cases m.lines[i]? <;> rfl

theorem lookup_drop {e e' : Ctx} (h : Agree n e e') (m : Module) (scopes : List Nat) :
    Agree n ((dropName n m).lookup scopes e) (m.lookup scopes e') := by
  rintro ⟨mod, name⟩ hn
  simp only at hn
  unfold Module.lookup
  cases mod with
  | some mod =>
    simp only [localIndex_drop m hn, localLookup_drop, h ⟨some mod, name⟩ hn]
    rfl
  | none => simp only [localIndex_drop m hn, localLookup_drop, h ⟨some [], name⟩ hn]

theorem isLocal_drop (m : Module) (scopes : List Nat) (id : FullId) (hn : id.name ≠ n) :
    (dropName n m).isLocal scopes id = m.isLocal scopes id := by
  unfold Module.isLocal
  simp only [localIndex_drop m hn]
  rfl

/-! ## Loading -/

theorem addLocal_drop (ls : List Line) (i : Nat) {name : Str} (hn : name ≠ n) (t : Nat) :
    (Module.addLocal ls i name t).map (dropLine n) = Module.addLocal (ls.map (dropLine n)) i name t := by
  unfold Module.addLocal
  induction ls generalizing i with
  | nil => simp
  | cons l ls ih =>
    cases i with
    | zero => simp [dropLine, drop_insertNew _ hn]
    | succ i => simp [ih]

theorem addLocal_drop_self (ls : List Line) (i : Nat) (t : Nat) :
    (Module.addLocal ls i n t).map (dropLine n) = ls.map (dropLine n) := by
  unfold Module.addLocal
  induction ls generalizing i with
  | nil => simp
  | cons l ls ih =>
    cases i with
    | zero => simp [dropLine, drop_insertNew_self]
    | succ i => simp [ih]

theorem addLabel_drop (m : Module) (scopes : List Nat) {l : ParsedLabel} (hl : l.name ≠ n) (t : Nat) :
    (dropName n m).addLabel scopes l t = dropName n <$> m.addLabel scopes l t := by
  unfold Module.addLabel
  generalize (if l.exported then [] else scopes) = sc
  cases sc with
  | nil =>
    simp only
    show (if HMap.has (drop n m.globals) l.name then Res.err .duplicateLabel else
      .ok { dropName n m with globals := HMap.insertNew (drop n m.globals) l.name t }) = _
    rw [has_drop _ hl, ← drop_insertNew _ hl]
    exact ite_ren Iff.rfl (fun _ => rfl) fun _ => rfl
  | cons s rest =>
    simp only
    rw [localsAt_drop, has_drop _ hl]
    refine ite_ren Iff.rfl (fun _ => rfl) fun _ => ?_
    show Res.ok { dropName n m with lines := Module.addLocal (m.lines.map (dropLine n)) s l.name t } = _
    rw [← addLocal_drop _ _ hl]
    rfl

/-- Nothing in the module has the name. -/
def NoName (n : Str) (m : Module) : Prop := HMap.find m.globals n = none ∧ ∀ i, HMap.find (m.localsAt i) n = none

theorem localsAt_addLocal (m : Module) (s : Nat) (name : Str) (t i : Nat) :
    ({ m with lines := Module.addLocal m.lines s name t } : Module).localsAt i =
      m.localsAt i ∨ ({ m with lines := Module.addLocal m.lines s name t } : Module).localsAt i =
      HMap.insertNew (m.localsAt i) name t := by
  unfold Module.localsAt Module.addLocal
  simp only [List.getElem?_modify]
  by_cases h : s = i
  · cases hl : m.lines[i]? with
    | none => simp
    | some l => simp [h]
  · cases hl : m.lines[i]? with
    | none => simp
    | some l => simp [h]

theorem find_insertNew_none {ν : Type} {m : HMap Str ν} (h : HMap.find m n = none) {k : Str} (hk : k ≠ n) (v : ν) :
    HMap.find (HMap.insertNew m k v) n = none := by
  unfold HMap.insertNew
  rw [find_append, h]
  simp [HMap.find, hk]

theorem addLabel_noName {m m' : Module} {scopes : List Nat} {l : ParsedLabel} (hl : l.name ≠ n) {t : Nat} (hm : NoName n m)
    (h : m.addLabel scopes l t = .ok m') : NoName n m' := by
  unfold Module.addLabel at h
  generalize (if l.exported then [] else scopes) = sc at h
  cases sc with
  | nil =>
    simp only at h
    split at h
    · cases h
    · cases h; exact ⟨find_insertNew_none hm.1 hl t, hm.2⟩
  | cons s rest =>
    simp only at h
    split at h
    · cases h
    · cases h
      refine ⟨hm.1, fun i => ?_⟩
      rcases localsAt_addLocal m s l.name t i with h | h
      · rw [h]; exact hm.2 i
      · rw [h]; exact find_insertNew_none (hm.2 i) hl t

theorem addLabel_self {m : Module} (hm : NoName n m) (scopes : List Nat) {l : ParsedLabel} (hl : l.name = n) (t : Nat) :
    ∃ m', m.addLabel scopes l t = .ok m' ∧ dropName n m' = dropName n m := by
  unfold Module.addLabel
  generalize (if l.exported then [] else scopes) = sc
  cases sc with
  | nil =>
    simp only
    rw [if_neg (by rw [HMap.has, hl, hm.1]; simp)]
    refine ⟨_, rfl, ?_⟩
    rw [hl]
    unfold dropName
    simp only [drop_insertNew_self]
  | cons s rest =>
    simp only
    rw [if_neg (by rw [HMap.has, hl, hm.2 s]; simp)]
    refine ⟨_, rfl, ?_⟩
    rw [hl]
    unfold dropName
    simp only [addLocal_drop_self]

/-- The labels with another name. -/
def others (n : Str) (ps : List ParsedLabel) : List ParsedLabel := ps.filter fun l => l.name ≠ n

theorem others_none {ps : List ParsedLabel} (h : ∀ l ∈ ps, l.name ≠ n) : others n ps = ps :=
  List.filter_eq_self.mpr fun l hl => by simpa using h l hl

/-- The name is among the labels at most once. -/
def AtMostOnce (n : Str) (ps : List ParsedLabel) : Prop := (ps.filter fun l => l.name = n).length ≤ 1

theorem addLabels_drop (scopes : List Nat) (t : Nat) : ∀ (ps : List ParsedLabel) (m : Module), AtMostOnce n ps →
    ((∃ l ∈ ps, l.name = n) → NoName n m) →
    (dropName n m).addLabels scopes t (others n ps) = dropName n <$> m.addLabels scopes t ps := by
  intro ps
  induction ps with
  | nil => intro m _ _; rfl
  | cons l ps ih =>
    intro m h1 h2
    by_cases hl : l.name = n
    · have hno : ∀ q ∈ ps, q.name ≠ n := by
        intro q hq e
        unfold AtMostOnce at h1
        rw [List.filter_cons_of_pos (by simpa using hl), List.length_cons] at h1
        have : q ∈ ps.filter fun l => l.name = n := List.mem_filter.mpr ⟨hq, by simpa using e⟩
        have := List.length_pos_of_mem this
        omega
      obtain ⟨m', hm', hd⟩ := addLabel_self (h2 ⟨l, by simp, hl⟩) scopes hl t
      have e : others n (l :: ps) = others n ps := by
        unfold others; rw [List.filter_cons_of_neg (by simpa using hl)]
      rw [e, Module.addLabels, hm', Res.bind_ok, ← hd]
      refine ih m' ?_ fun ⟨q, hq, e⟩ => absurd e (hno q hq)
      unfold AtMostOnce
      rw [List.filter_eq_nil_iff.mpr fun q hq => by simpa using hno q hq]
      simp
    · have e : others n (l :: ps) = l :: others n ps := by
        unfold others; rw [List.filter_cons_of_pos (by simpa using hl)]
      rw [e, Module.addLabels, Module.addLabels]
      refine bind_on (addLabel_drop m scopes hl t) fun m' hm' => ih m' ?_ fun ⟨q, hq, e⟩ =>
        addLabel_noName hl (h2 ⟨q, by simp [hq], e⟩) hm'
      unfold AtMostOnce at h1 ⊢
      rw [List.filter_cons_of_neg (by simpa using hl)] at h1
      exact h1

/-- What the loader holds, without the name. -/
def dropLoading (n : Str) (ld : Module.Loading) : Module.Loading :=
  { ld with m := dropName n ld.m, pending := others n ld.pending }

/-- The loader can still take the label. -/
structure Ready (n : Str) (ld : Module.Loading) : Prop where
  once : AtMostOnce n ld.pending
  fresh : (∃ l ∈ ld.pending, l.name = n) → NoName n ld.m
  free : FreeLines n ld.m.lines

theorem newLine_drop (st : Statement) (ps : List ParsedLabel) (scopes : List Nat) :
    Module.newLine st (others n ps) scopes = dropLine n (Module.newLine st ps scopes) := by
  simp [Module.newLine, dropLine, others, drop, List.filter_map]
  rfl

theorem loadDirective_drop (m : Module) (scopes : List Nat) (i : Nat) (d : Directive) :
    Module.loadDirective ⟨dropName n m, [], scopes⟩ i d = dropLoading n <$> Module.loadDirective ⟨m, [], scopes⟩ i d := by
  unfold Module.loadDirective
  refine ite_ren Iff.rfl (fun _ => ?_) fun _ => ?_
  · refine ite_ren Iff.rfl (fun _ => rfl) fun _ => ?_
    cases d.argument.simpleIdentifier <;> rfl
  refine ite_ren Iff.rfl (fun _ => rfl) fun _ => ?_
  refine ite_ren Iff.rfl (fun _ => ?_) fun _ => rfl
  cases scopes <;> rfl

theorem loadStatement_drop {ld : Module.Loading} (hr : Ready n ld) (st : Statement) :
    Module.loadStatement (dropLoading n ld) st = dropLoading n <$> Module.loadStatement ld st := by
  unfold Module.loadStatement
  have h1 : (dropLoading n ld).m.lines.length = ld.m.lines.length := List.length_map ..
  have h2 : ({ (dropLoading n ld).m with
      lines := (dropLoading n ld).m.lines ++ [Module.newLine st (dropLoading n ld).pending (dropLoading n ld).scopes] } : Module) =
      dropName n { ld.m with lines := ld.m.lines ++ [Module.newLine st ld.pending ld.scopes] } := by
    simp [dropLoading, dropName, newLine_drop]
  simp only [h1, h2]
  have hfresh : (∃ l ∈ ld.pending, l.name = n) →
      NoName n { ld.m with lines := ld.m.lines ++ [Module.newLine st ld.pending ld.scopes] } := by
    intro h
    refine ⟨(hr.fresh h).1, fun i => ?_⟩
    have := (hr.fresh h).2 i
    unfold Module.localsAt at this ⊢
    rw [List.getElem?_append]
    split
    · rename_i l hl
      split at hl
      · rw [hl] at this; exact this
      · rename_i hlt
        rw [List.getElem?_singleton] at hl
        split at hl
        · cases hl; rfl
        · cases hl
    · rfl
  refine bind_on (addLabels_drop ld.scopes _ ld.pending _ hr.once hfresh) fun m _ => ?_
  cases st with
  | instr i => rfl
  | dir d => exact loadDirective_drop m ld.scopes _ d

theorem addLabels_lines {scopes : List Nat} {t : Nat} : ∀ {ps : List ParsedLabel} {m m' : Module},
    m.addLabels scopes t ps = .ok m' → FreeLines n m.lines → FreeLines n m'.lines := by
  intro ps
  induction ps with
  | nil => intro m m' h hf; cases h; exact hf
  | cons l ps ih =>
    intro m m' h hf
    obtain ⟨m1, h1, h⟩ := Res.bind_eq_ok.mp h
    refine ih h ?_
    unfold Module.addLabel at h1
    generalize (if l.exported then [] else scopes) = sc at h1
    cases sc with
    | nil =>
      simp only at h1
      split at h1
      · cases h1
      · cases h1; exact hf
    | cons s rest =>
      simp only at h1
      split at h1
      · cases h1
      · cases h1
        intro q hq
        unfold Module.addLocal at hq
        obtain ⟨j, hj, rfl⟩ := List.mem_iff_getElem.mp hq
        have hj' : j < m.lines.length := by simpa using hj
        have := hf m.lines[j] (List.getElem_mem hj')
        rw [List.getElem_modify]
        split <;> exact this

theorem loadStatement_ready {ld ld' : Module.Loading} (hr : Ready n ld) {st : Statement} (hs : FreeSt n st)
    (h : Module.loadStatement ld st = .ok ld') : Ready n ld' ∧ ld'.pending = [] := by
  unfold Module.loadStatement at h
  obtain ⟨m, hm, h⟩ := Res.bind_eq_ok.mp h
  have hf : FreeLines n m.lines := by
    refine addLabels_lines hm ?_
    intro l hl
    rcases List.mem_append.mp hl with hl | hl
    · exact hr.free l hl
    · simp at hl; subst hl; exact hs
  have : ld'.m.lines = m.lines ∧ ld'.pending = [] := by
    cases st with
    | instr i => cases h; exact ⟨rfl, rfl⟩
    | dir d =>
      simp only at h
      unfold Module.loadDirective at h
      split at h
      · split at h
        · cases h
        · split at h
          · cases h
          · cases h; exact ⟨rfl, rfl⟩
      · split at h
        · cases h; exact ⟨rfl, rfl⟩
        · split at h
          · simp only at h
            split at h
            · cases h
            · cases h; exact ⟨rfl, rfl⟩
          · cases h; exact ⟨rfl, rfl⟩
  refine ⟨⟨?_, ?_, ?_⟩, this.2⟩
  · rw [this.2]; simp [AtMostOnce]
  · rw [this.2]; simp
  · rw [this.1]; exact hf

/-- Items without the name. -/
def FreeItem (n : Str) : Item → Prop
  | .label l => l.name ≠ n
  | .stmt st => FreeSt n st

theorem loadItems_drop : ∀ (items : List Item) {ld : Module.Loading}, Ready n ld → (∀ it ∈ items, FreeItem n it) →
    Module.loadItems (dropLoading n ld) items = dropLoading n <$> Module.loadItems ld items ∧
      ∀ ld', Module.loadItems ld items = .ok ld' → Ready n ld' := by
  intro items
  induction items with
  | nil => intro ld hr _; exact ⟨rfl, fun ld' h => by cases h; exact hr⟩
  | cons it items ih =>
    intro ld hr hf
    cases it with
    | label l =>
      have hl : l.name ≠ n := hf (.label l) (by simp)
      have e : dropLoading n { ld with pending := ld.pending ++ [l] } =
          { dropLoading n ld with pending := (dropLoading n ld).pending ++ [l] } := by
        simp [dropLoading, others, List.filter_append, hl]
      have hr' : Ready n { ld with pending := ld.pending ++ [l] } := by
        refine ⟨?_, ?_, hr.free⟩
        · have := hr.once
          unfold AtMostOnce at this ⊢
          simpa [List.filter_append, hl] using this
        · rintro ⟨q, hq, hqn⟩
          rcases List.mem_append.mp hq with hq | hq
          · exact hr.fresh ⟨q, hq, hqn⟩
          · simp at hq; subst hq; exact absurd hqn hl
      rw [Module.loadItems, Module.loadItems, ← e]
      exact ih hr' fun it h => hf it (by simp [h])
    | stmt st =>
      have hs : FreeSt n st := hf (.stmt st) (by simp)
      rw [Module.loadItems, Module.loadItems]
      constructor
      · exact bind_on (loadStatement_drop hr st) fun ld' h =>
          (ih (loadStatement_ready hr hs h).1 fun it h => hf it (by simp [h])).1
      · intro ld' h
        obtain ⟨ld1, h1, h⟩ := Res.bind_eq_ok.mp h
        exact (ih (loadStatement_ready hr hs h1).1 fun it h => hf it (by simp [h])).2 ld' h

end Nsasm.Unused
