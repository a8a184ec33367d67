import Verif.Spec.Defined
import Verif.Lemmas.ParseDefined
import Verif.Lemmas.DisDefined
import Verif.Props.Order
import Verif.Props.Expr
import Verif.Lemmas.Link

/-! # Assembling a program within bounds is defined -/

namespace Nsasm
open Spec Props Parse

/-! ## Expressions -/

theorem derives_source {lv : Level} {ts : Toks} {e : Expr} (h : Derives lv ts e) : Spec.Source e := by
  induction h <;> first | assumption | trivial | exact ⟨by assumption, by assumption⟩

theorem source_proper {A : Str → Int → Prop} {e : Expr} (hs : Spec.Source e) (ht : Tame A e) : Spec.Proper e := by
  induction e with
  | null => trivial
  | lit v t =>
    exact ht _ (.refl _) (fun _ => none) (fun _ _ h => by cases h) v rfl
  | ident => trivial
  | bin op l r ihl ihr =>
    exact ⟨ihl hs.1 fun s h => ht s (.left h), ihr hs.2 fun s h => ht s (.right h)⟩
  | un op a ih => exact ih hs fun s h => ht s (.arg h)
  | label => exact hs.elim

/-- An expression as the assembler uses it: none, or a written one. -/
def Good (A : Str → Int → Prop) (e : Expr) : Prop := Spec.Source e ∧ Tame A e

theorem good_null (A : Str → Int → Prop) : Good A .null := by
  refine ⟨trivial, fun s hs => ?_⟩
  cases hs
  intro env _ v hv
  cases hv

theorem values_some {ctx : Ctx} {id : FullId} {v : Int} : values ctx id = some v ↔ ctx id = .ok v := by
  unfold values
  cases ctx id <;> simp [Except.toOption]

theorem good_eval {A : Str → Int → Prop} {ctx : Ctx} (hc : Respects A (values ctx)) {e : Expr} (he : Good A e) :
    (e.eval ctx).noUb ∧ ∀ v, e.eval ctx = .ok v → InInt v ∧ ∀ B, Yields A e B → B v := by
  have h := C12_eval_is_integer_arithmetic ctx (fun id v h => (hc id v (values_some.2 h)).2) e (source_proper he.1 he.2)
  cases hr : e.eval ctx with
  | ok v =>
    rw [hr] at h
    refine ⟨trivial, ?_⟩
    intro w hw
    cases hw
    exact ⟨h.2, fun B hB => hB _ hc v h.1⟩
  | err r => exact ⟨trivial, fun v hv => by cases hv⟩
  | ub u =>
    rw [hr] at h
    obtain ⟨-, s, w, h1, h2, h3⟩ := h
    exact absurd (he.2 s h1 _ hc w h2) h3

theorem eval_alone {A : Str → Int → Prop} {e : Expr} (he : Good A e) {v : Int} (hv : e.eval nullCtx = .ok v) {B : Int → Prop}
    (hB : YieldsAlone e B) : B v := by
  have h := C12_eval_is_integer_arithmetic nullCtx (fun id v h => by cases h) e (source_proper he.1 he.2)
  rw [hv] at h
  exact hB v h.1

theorem respects_null (A : Str → Int → Prop) : Respects A (values nullCtx) := by
  intro id v h
  rw [values_some] at h
  cases h

/-! ## Statements -/

/-- The expressions of a statement are good, and a branch is to a name. -/
def GoodStatement (A : Str → Int → Prop) : Statement → Prop
  | .instr i => Good A i.arg1 ∧ Good A i.arg2
  | .dir d => Good A d.argument ∧ ∀ e ∈ d.list, Good A e

theorem seg_good {A : Str → Int → Prop} {file : List Str} (hb : ∀ e, WrittenIn file e → Tame A e) {line : Str}
    (hl : line ∈ file) {ts : Toks} (ht : tokenize line = .ok ts) {e : Expr} (h : Seg ts e) : Good A e := by
  obtain ⟨p, q, r, hq, hd⟩ := h
  exact ⟨derives_source hd, hb e ⟨line, hl, ts, p, q, r, ht, hq, hd⟩⟩

theorem segOr_good {A : Str → Int → Prop} {file : List Str} (hb : ∀ e, WrittenIn file e → Tame A e) {line : Str}
    (hl : line ∈ file) {ts : Toks} (ht : tokenize line = .ok ts) {e : Expr} (h : SegOr ts e) : Good A e := by
  rcases h with rfl | h
  · exact good_null A
  · exact seg_good hb hl ht h

theorem parse_good {A : Str → Int → Prop} {file : List Str} (hb : ∀ e, WrittenIn file e → Tame A e) {line : Str}
    (hl : line ∈ file) {ts : Toks} (ht : tokenize line = .ok ts) : (parse ts).noUb ∧
      ∀ items, parse ts = .ok items → ∀ st, .stmt st ∈ items → GoodStatement A st := by
  have hn := tokenize_names line ts ht
  obtain ⟨h1, h2⟩ := parseLoop_blames (ts.length + 1) hn
  constructor
  · apply noUb_of_ne
    intro u hu
    rcases h1 u hu with rfl | ⟨e, he, hev⟩
    · exact (C34_source_line line ts ht).1 hu
    · have := (good_eval (respects_null A) (seg_good hb hl ht he)).1
      rw [hev] at this
      exact this
  · intro items hi st hst
    have := h2 items hi st hst
    cases st with
    | instr i => exact ⟨segOr_good hb hl ht this.1, segOr_good hb hl ht this.2.1⟩
    | dir d => exact ⟨segOr_good hb hl ht this.1, fun e he => seg_good hb hl ht (this.2 e he)⟩

/-! ## Loading -/

theorem loadStatement_noUb {P : Program} {ld : Module.Loading} (h : LoadState P ld) (st : Statement) :
    (Module.loadStatement ld st).noUb := by
  rcases loadStatement_spec h st with ⟨_, h, -⟩ | ⟨_, h, -⟩ <;> rw [h] <;> trivial

theorem loadLines_noUb {A : Str → Int → Prop} {file : List Str} (hb : ∀ e, WrittenIn file e → Tame A e) :
    ∀ (rest : List Str), (∀ l ∈ rest, l ∈ file) → ∀ (P : Program) (ld : Module.Loading), LoadState P ld →
      (Module.loadLines ld rest).noUb := by
  intro rest
  induction rest with
  | nil => intro _ P ld _; trivial
  | cons line rest ih =>
    intro hm P ld hld
    rw [Module.loadLines]
    refine Res.noUb_bind (C32_one_end_of_line line).1 fun ts ht => ?_
    refine Res.noUb_bind (parse_good hb (hm line (by simp)) ht).1 fun items hi => ?_
    rcases loadItems_spec items P ld hld with ⟨ld', h1, h2⟩ | ⟨e, h1, -⟩
    · rw [h1, Res.bind_ok]
      exact ih (fun l hl => hm l (List.mem_cons_of_mem _ hl)) _ ld' h2
    · rw [h1]; trivial

theorem loadAsmFile_noUb {A : Str → Int → Prop} {file : List Str} (hb : ∀ e, WrittenIn file e → Tame A e) :
    (Module.loadAsmFile file).noUb := by
  unfold Module.loadAsmFile
  refine Res.noUb_bind (loadLines_noUb hb file (fun _ h => h) [] _ loadState_empty) fun ld _ => ?_
  unfold Module.finishLoad
  split <;> trivial

theorem fileItems_good {A : Str → Int → Prop} {file : List Str} (hb : ∀ e, WrittenIn file e → Tame A e)
    {items : List Item} (h : FileItems file items) : ∀ st, .stmt st ∈ items → GoodStatement A st := by
  obtain ⟨per, h1, rfl⟩ := h
  intro st hst
  rw [List.mem_flatten] at hst
  obtain ⟨its, h2, h3⟩ := hst
  obtain ⟨line, hl, ts, ht, hp⟩ : ∃ line ∈ file, ∃ ts, tokenize line = .ok ts ∧ parse ts = .ok its := by
    clear hb h3
    induction h1 with
    | nil => simp at h2
    | cons hx _ ih =>
      rcases List.mem_cons.1 h2 with rfl | h2
      · obtain ⟨ts, ht⟩ := hx; exact ⟨_, by simp, ts, ht⟩
      · obtain ⟨l, hl, r⟩ := ih h2; exact ⟨l, List.mem_cons_of_mem _ hl, r⟩
  exact (parse_good hb hl ht).2 its hp st h3

theorem program_items {R : Statement → Prop} {items : List Item} (h : ∀ st, Item.stmt st ∈ items → R st) :
    ∀ (ls : List ParsedLabel) (l : ProgLine), l ∈ program ls items → R l.statement := by
  induction items with
  | nil => intro ls l hl; simp [program] at hl
  | cons it items ih =>
    intro ls l hl
    cases it with
    | label x => exact ih (fun st hst => h st (List.mem_cons_of_mem _ hst)) _ l hl
    | stmt s =>
      simp only [program, List.mem_cons] at hl
      rcases hl with rfl | hl
      · exact h s (by simp)
      · exact ih (fun st hst => h st (List.mem_cons_of_mem _ hst)) _ l hl

/-! ## Modules -/

/-- The program is within the bounds and its statements are as the parser makes them. -/
structure GoodProgram (A : Str → Int → Prop) (P : Program) : Prop where
  bounded : BoundedProgram A P
  good : ∀ l ∈ P, GoodStatement A l.statement
  written : ∀ l ∈ P, StatementWritten l.statement

/-- An instruction as written, or with its immediate's size chosen. -/
def Refined : Statement → Statement → Prop
  | .dir d, st => st = .dir d
  | .instr j, st => ∃ i, st = .instr i ∧ j.mnemonic = i.mnemonic ∧ j.arg1 = i.arg1 ∧ j.arg2 = i.arg2 ∧ j.ret = i.ret ∧
      (j.mode = i.mode ∨ j.mode = .imm_b ∨ j.mode = .imm_w)

theorem Refined.refl (st : Statement) : Refined st st := by
  cases st with
  | dir d => rfl
  | instr i => exact ⟨i, rfl, rfl, rfl, rfl, rfl, .inl rfl⟩

/-- The address of a byte. -/
def OfByte (v : Int) : Prop := 0 ≤ v ∧ v < 0x1000000

/-- What is known of the value of statement `i`. -/
def GoodValue (A : Str → Int → Prop) (P : Program) (i : Nat) (pl : ProgLine) (v : Int) : Prop :=
  InInt v ∧ (∀ lab ∈ pl.labels, A lab.name v) ∧ (IsDirective .equ pl = false → IsAddress v) ∧
    (IsDirective .equ pl = false → IsDirective .org pl = false → OfByte v) ∧
    ∀ name, Defines P none name i → IsAddress v

/-- The module is one of the program, in any stage of assembling. -/
structure Stage (A : Str → Int → Prop) (P : Program) (m : Module) : Prop where
  length : m.lines.length = P.length
  line : ∀ i l, m.lines[i]? = some l → ∃ pl, P[i]? = some pl ∧ Refined l.statement pl.statement ∧
    ∀ v, l.value = some v → GoodValue A P i pl v
  globals : m.globals = tableOf none (defs P)
  locals : ∀ j, m.localsAt j = tableOf (some j) (defs P)
  nodup : (keys P).Nodup

theorem loadInv_stage {A : Str → Int → Prop} {P : Program} {m : Module} (h : LoadInv P m) : Stage A P m where
  length := h.length
  line := by
    intro i l hl
    obtain ⟨⟨pl, h1, h2⟩, -, -, h3⟩ := h.line i l hl
    exact ⟨pl, h1, by rw [h2]; exact .refl _, fun v hv => by rw [h3] at hv; cases hv⟩
  globals := h.globals
  locals := h.locals
  nodup := h.nodup

theorem stage_localIndex {A : Str → Int → Prop} {P : Program} {m : Module} (h : Stage A P m) {name : Str}
    {scopes : List Nat} {t : Nat} (ht : m.localIndex name scopes = some t) : ∃ s, Defines P s name t := by
  induction scopes with
  | nil =>
    rw [Module.localIndex, h.globals, find_tableOf h.nodup] at ht
    exact ⟨none, ht⟩
  | cons s r ih =>
    rw [Module.localIndex, h.locals] at ht
    split at ht
    · rename_i i hi
      cases ht
      rw [find_tableOf h.nodup] at hi
      exact ⟨some s, hi⟩
    · exact ih ht

theorem stage_value {A : Str → Int → Prop} {P : Program} {m : Module} (h : Stage A P m) {name : Str} {s : Option Nat}
    {t : Nat} (hd : Defines P s name t) {v : Int} (hv : m.localLookup t = .ok v) :
    A name v ∧ InInt v ∧ (s = none → IsAddress v) := by
  unfold Module.localLookup at hv
  cases hl : m.lines[t]? with
  | none => rw [hl] at hv; cases hv
  | some l =>
    rw [hl] at hv
    simp only at hv
    split at hv
    · rename_i w hw
      cases hv
      obtain ⟨pl, h1, -, h2⟩ := h.line t l hl
      obtain ⟨g1, g2, -, -, g4⟩ := h2 v hw
      refine ⟨?_, g1, fun hs => g4 name (hs ▸ hd)⟩
      obtain ⟨n, line, lab, e1, e2, rfl, -⟩ := hd
      rw [h1] at e1
      cases e1
      exact g2 lab (List.mem_of_getElem? e2)
    · cases hv

theorem stage_lt {A : Str → Int → Prop} {P : Program} {m : Module} (h : Stage A P m) {name : Str} {s : Option Nat}
    {t : Nat} (hd : Defines P s name t) : t < m.lines.length := by
  obtain ⟨n, line, lab, e1, -⟩ := hd
  rw [h.length]
  exact (List.getElem?_eq_some_iff.1 e1).1

/-- What the names of other modules are known to be. -/
def Externs (A : Str → Int → Prop) (externs : Ctx) : Prop := ∀ id v, externs id = .ok v → A id.name v ∧ InInt v

theorem stage_lookup {A : Str → Int → Prop} {P : Program} {m : Module} (h : Stage A P m) {externs : Ctx}
    (he : Externs A externs) (scopes : List Nat) : Respects A (values (m.lookup scopes externs)) := by
  intro id v hv
  rw [values_some] at hv
  unfold Module.lookup at hv
  have loc : ∀ {sc t}, m.localIndex id.name sc = some t → m.localLookup t = .ok v → A id.name v ∧ InInt v := by
    intro sc t ht hl
    obtain ⟨s, hd⟩ := stage_localIndex h ht
    obtain ⟨h1, h2, -⟩ := stage_value h hd hl
    exact ⟨h1, h2⟩
  split at hv
  · split at hv
    · split at hv
      · rename_i i hi; exact loc hi hv
      · exact he _ _ hv
    · exact he _ _ hv
  · split at hv
    · rename_i i hi; exact loc hi hv
    · exact he ⟨some [], id.name⟩ _ hv

theorem stage_valueForName {A : Str → Int → Prop} {P : Program} {m : Module} (h : Stage A P m) {id : FullId} {v : Int}
    (hv : m.valueForName id = .ok v) : A id.name v ∧ InInt v := by
  unfold Module.valueForName at hv
  split at hv
  · cases hv
  · split at hv
    · cases hv
    · rename_i i hi
      rw [h.globals, find_tableOf h.nodup] at hi
      obtain ⟨h1, h2, -⟩ := stage_value h hi hv
      exact ⟨h1, h2⟩

/-! ## The first pass -/

theorem stage_statement {A : Str → Int → Prop} {P : Program} {m : Module} (h : Stage A P m) (hg : GoodProgram A P)
    {i : Nat} {l : Line} (hl : m.lines[i]? = some l) : ∃ pl ∈ P, P[i]? = some pl ∧ Refined l.statement pl.statement ∧
      GoodStatement A l.statement ∧ StatementWritten l.statement := by
  obtain ⟨pl, h1, h2, -⟩ := h.line i l hl
  have hm := List.mem_of_getElem? h1
  refine ⟨pl, hm, h1, h2, ?_⟩
  have g := hg.good pl hm
  have w := hg.written pl hm
  cases hs : l.statement with
  | dir d =>
    rw [hs] at h2
    change pl.statement = _ at h2
    rw [h2] at g w
    exact ⟨g, w⟩
  | instr j =>
    rw [hs] at h2
    obtain ⟨i, e, e1, e2, e3, e4, -⟩ := h2
    rw [e] at g w
    refine ⟨?_, ?_⟩
    · change Good A j.arg1 ∧ Good A j.arg2
      rw [e2, e3]; exact g
    · change ∀ f, j.ret = .yields f → FlagsWritten f
      rw [e4]; exact w

/-- Every `.entry` gives the sizes. -/
def EntriesSized (P : Program) : Prop := ∀ l ∈ P, ∀ d, l.statement = .dir d → d.name = .entry → GivesSizes d.flags

theorem statement_execute {A : Str → Int → Prop} {P : Program} (hg : GoodProgram A P) {pl : ProgLine} (hp : pl ∈ P)
    {st : Statement} (hr : Refined st pl.statement) {s : ExecutionState} (hs : Fine (EntriesSized P) s) :
    (st.execute s).noUb ∧ (∀ i, st = .instr i → (i.execute s nullCtx).noUb) ∧
      ∀ nx, st.execute s = .ok nx → Fine (EntriesSized P) nx := by
  cases st with
  | dir d =>
    refine ⟨?_, by simp, ?_⟩
    · show (d.execute s).noUb
      unfold Directive.execute
      split
      · trivial
      · split <;> trivial
    · intro nx hx
      change d.execute s = _ at hx
      unfold Directive.execute at hx
      split at hx
      · cases hx
      · split at hx
        · rename_i hd
          cases hx
          have hw := hg.written pl hp
          change pl.statement = _ at hr
          rw [hr] at hw
          have := written_sizes (hw (by rw [hd]; simp))
          exact ⟨hs.1, fun q => ⟨this, (hs.2 q).2⟩⟩
        · cases hx; exact hs
  | instr j =>
    obtain ⟨i, e, e1, e2, e3, e4, -⟩ := hr
    have hgd := hg.good pl hp
    rw [e] at hgd
    have ev1 := good_eval (respects_null A) hgd.1
    have ev2 := good_eval (respects_null A) hgd.2
    have hx : (j.execute s nullCtx).noUb := by
      have hpull : j.mnemonic ∈ [Mnemonic.pla, .plx, .ply] → SizesNotOriginal s.flags := by
        intro hm
        rcases hg.bounded.sizes with hq | hn
        · exact (hs.2 hq).1
        · rw [e1] at hm
          exact absurd hm (hn pl hp i e)
      refine execute_noUb hs.1 ⟨by rw [e2]; exact ev1.1, by rw [e3]; exact ev2.1, ?_, ?_, ?_, ?_⟩
      · intro hm v hv
        rw [e2] at hv
        rw [e1] at hm
        exact eval_alone hgd.1 hv (hg.bounded.moves pl hp i e hm)
      · intro hm hb; exact (hpull (by simp [hm])).1 hb.1
      · intro hm hb; exact (hpull (by simp [hm])).2 hb.1
      · intro hm hb; exact (hpull (by simp [hm])).2 hb.1
    refine ⟨hx, fun i hi => by cases hi; exact hx, fun nx hnx => ?_⟩
    refine fine_execute ?_ hnx hs
    have hw := hg.written pl hp
    rw [e] at hw
    rw [e4]; exact hw

theorem upsert_states {ν : Type} {R : ν → Prop} {f : ν → ν} {m : OMap ν} {k : Nat} {v : ν} (hm : ∀ k w, (k, w) ∈ m → R w)
    (hv : R v) (hf : ∀ w, R w → R (f w)) : ∀ k' w, (k', w) ∈ m.upsert f k v → R w := by
  induction m with
  | nil => intro k' w h; simp [OMap.upsert] at h; rw [h.2]; exact hv
  | cons a m ih =>
    obtain ⟨ka, va⟩ := a
    have ha : R va := hm ka va (by simp)
    have ih := ih fun k w h => hm k w (List.mem_cons_of_mem _ h)
    intro k' w h
    rw [OMap.upsert] at h
    split at h
    · rcases List.mem_cons.1 h with h | h
      · cases h; exact ha
      · exact ih _ _ h
    · split at h
      · rcases List.mem_cons.1 h with h | h
        · cases h; exact hf _ ha
        · exact hm _ _ (List.mem_cons_of_mem _ h)
      · rcases List.mem_cons.1 h with h | h
        · cases h; exact hv
        · exact hm _ _ h

/-- The states on the stack are fine. -/
def WorkFine (Q : Prop) (work : OMap ExecutionState) : Prop := ∀ k s, (k, s) ∈ work → Fine Q s

theorem workFine_add {Q : Prop} {work : OMap ExecutionState} (h : WorkFine Q work) {k : Nat} {s : ExecutionState}
    (hs : Fine Q s) : WorkFine Q (Module.addWork work k s) :=
  upsert_states h hs fun _ hw => fine_merge hw

theorem seeds_fine {Q : Prop} (ls : List Line) : ∀ (i : Nat) (work : OMap ExecutionState), WorkFine Q work →
    (∀ l ∈ ls, ∀ d, l.statement = .dir d → d.name = .entry → Q → GivesSizes d.flags) →
    WorkFine Q (Module.seeds work i ls) := by
  induction ls with
  | nil => intro i work h _; exact h
  | cons l ls ih =>
    intro i work h hd
    have ht := fun l hl => hd l (List.mem_cons_of_mem _ hl)
    rw [Module.seeds]
    cases hs : l.statement with
    | instr => exact ih _ _ h ht
    | dir d =>
      simp only
      split
      · rename_i he
        exact ih _ _ (workFine_add h (fine_init fun q => hd l (by simp) d hs he q)) ht
      · exact ih _ _ h ht

/-- What holds during the analysis. -/
structure PassInv (Q : Prop) (m : Module) (p : Module.Pass) : Prop where
  same : SameLines m p
  keys : KeysSat (· ≤ m.lines.length) p.work
  fine : WorkFine Q p.work

theorem branch_fine {Q : Prop} {i : Instruction} {s nx : ExecutionState}
    (hw : ∀ f, i.ret = .yields f → FlagsWritten f) (h : i.executeBranch s = .ok nx) (hs : Fine Q s) : Fine Q nx := by
  unfold Instruction.executeBranch at h
  obtain ⟨es, h1, h⟩ := Res.bind_eq_ok.mp h
  have hf := fine_execute hw h1 hs
  split at h
  · cases h; exact ⟨hf.1, fun q => ⟨(hf.2 q).1, (hf.2 q).2⟩⟩
  · split at h
    · cases h; exact ⟨hf.1, fun q => ⟨(hf.2 q).1, (hf.2 q).2⟩⟩
    · cases h; exact hf

theorem sameLines_length {m : Module} {p : Module.Pass} (h : SameLines m p) : p.lines.length = m.lines.length := by
  have := congrArg List.length h
  simpa using this

theorem pass_inv {A : Str → Int → Prop} {P : Program} {m : Module} (hm : Stage A P m) (hg : GoodProgram A P)
    {p : Module.Pass} (hI : PassInv (EntriesSized P) m p) :
    (m.step p).noUb ∧ ∀ p', m.step p = .ok (some p') → PassInv (EntriesSized P) m p' := by
  have hlen := sameLines_length hI.same
  have line : ∀ {k line}, p.lines[k]? = some line → ∃ pl ∈ P, Refined line.statement pl.statement ∧
      StatementWritten line.statement ∧ k < m.lines.length := by
    intro k line hl
    obtain ⟨l0, h0, hb⟩ := getElem?_bare hI.same hl
    obtain ⟨pl, h1, -, h3, -, h5⟩ := stage_statement hm hg h0
    rw [← (bare_fields hb).1] at h3 h5
    exact ⟨pl, h1, h3, h5, (List.getElem?_eq_some_iff.1 h0).1⟩
  constructor
  · unfold Module.step
    split
    · trivial
    · rename_i k state rest hw
      have hk : k ≤ m.lines.length := hI.keys k state (by rw [hw]; simp)
      have hf : Fine (EntriesSized P) state := hI.fine k state (by rw [hw]; simp)
      split
      · trivial
      · rename_i hne
        split
        · rename_i hnone
          rw [List.getElem?_eq_none_iff] at hnone
          omega
        · rename_i l hl
          obtain ⟨pl, h1, h2, h3, -⟩ := line hl
          obtain ⟨x1, x2, x3⟩ := statement_execute hg h1 h2 hf
          split
          · trivial
          · refine Res.noUb_bind (Res.noUb_bind x1 fun nx hnx => Res.noUb_bind ?_ fun _ _ => trivial) fun _ _ => trivial
            unfold Module.branchWork
            split
            · trivial
            · rename_i i hi
              split
              · trivial
              · split
                · trivial
                · split
                  · trivial
                  · refine Res.noUb_bind ?_ fun _ _ => trivial
                    unfold Instruction.executeBranch
                    refine Res.noUb_bind (x2 i hi) fun _ _ => ?_
                    split
                    · trivial
                    · split <;> trivial
  · intro p' hp
    have hsame := sameLines_step hI.same hp
    obtain ⟨k, state, rest, l, hw, hl, h1 | ⟨-, next, h1, h2, h3⟩⟩ := step_cases hp
    · rw [h1.2.2]
      refine ⟨hI.same, fun k s hks => hI.keys k s ?_, fun k s hks => hI.fine k s ?_⟩ <;>
        (rw [hw]; exact List.mem_cons_of_mem _ hks)
    · have hf : Fine (EntriesSized P) state := hI.fine k state (by rw [hw]; simp)
      obtain ⟨pl, q1, q2, q3, q4⟩ := line hl
      obtain ⟨x1, x2, x3⟩ := statement_execute hg q1 q2 hf
      have hbase : KeysSat (· ≤ m.lines.length)
          (if l.statement.isExitInstruction then p.work else Module.addWork p.work (k + 1) next) ∧
          WorkFine (EntriesSized P) (if l.statement.isExitInstruction then p.work else Module.addWork p.work (k + 1) next) := by
        split
        · exact ⟨hI.keys, hI.fine⟩
        · exact ⟨keysSat_add hI.keys q4 _, workFine_add hI.fine (x3 _ h1)⟩
      rcases branchWork_cases h2 with ⟨-, hw'⟩ | ⟨i, name, t, nx, hi, -, -, ht, hx, hw'⟩
      · exact ⟨hsame, by rw [hw']; exact hbase.1, by rw [hw']; exact hbase.2⟩
      · obtain ⟨s, hd⟩ := stage_localIndex hm ht
        rw [hi] at q3
        refine ⟨hsame, ?_, ?_⟩ <;> rw [hw']
        · exact keysSat_add hbase.1 (le_of_lt (stage_lt hm hd)) _
        · exact workFine_add hbase.2 (branch_fine q3 hx hf)

theorem explore_noUb {m : Module} {I : Module.Pass → Prop}
    (hstep : ∀ p, I p → (m.step p).noUb ∧ ∀ p', m.step p = .ok (some p') → I p') :
    ∀ (n : Nat) (p : Module.Pass), I p → (m.explore n p).noUb := by
  intro n
  induction n with
  | zero => intro p _; trivial
  | succ n ih =>
    intro p hI
    rw [Module.explore]
    refine Res.noUb_bind (hstep p hI).1 fun o ho => ?_
    cases o with
    | none => trivial
    | some q => exact ih q ((hstep p hI).2 q ho)

theorem fixAddressingMode_noUb (i : Instruction) (f : StatusFlags) : (i.fixAddressingMode f).noUb := by
  unfold Instruction.fixAddressingMode
  split
  · split <;> trivial
  · trivial

theorem fixLines_noUb : ∀ ls : List Line, (Module.fixLines ls).noUb := by
  intro ls
  induction ls with
  | nil => trivial
  | cons l ls ih =>
    rw [Module.fixLines]
    split
    · exact Res.noUb_bind ih fun _ _ => trivial
    · split
      · trivial
      · exact Res.noUb_bind (fixAddressingMode_noUb _ _) fun _ _ => Res.noUb_bind ih fun _ _ => trivial

theorem ofInt_ok {v : Int} (h : IsAddress v) : Address.ofInt v = .ok v.toNat := by
  unfold Address.ofInt
  rw [if_pos ⟨h.1, h.2⟩]

theorem isAddress_of {v : Int} (h : OfByte v) : IsAddress v := ⟨h.1, h.2.le⟩

/-- What the layout loop does to a line. -/
def Laid (l l' : Line) : Prop :=
  l' = { l with value := l'.value } ∧
    (l'.value = l.value ∨ (l.statement.isDir .equ = false ∧ ∃ v, l'.value = some v ∧ IsAddress v ∧
      (l.statement.isDir .org = false → OfByte v)))

theorem layout_good {A : Str → Int → Prop} : ∀ (ls : List Line) (pc : Option Addr), (∀ a, pc = some a → a < 0x1000000) →
    (∀ l ∈ ls, ∀ d, l.statement = .dir d → d.name = .org → Good A d.argument ∧ YieldsAlone d.argument IsAddress) →
    (Module.layout pc ls).noUb ∧ ∀ ls', Module.layout pc ls = .ok ls' → List.Forall₂ Laid ls ls' := by
  intro ls
  induction ls with
  | nil =>
    intro pc _ _
    exact ⟨trivial, fun ls' h => by cases h; exact .nil⟩
  | cons l ls ih =>
    intro pc hpc hd
    have ht := fun l hl => hd l (List.mem_cons_of_mem _ hl)
    have horg : (Module.originAt pc l.statement).noUb ∧ ∀ o, Module.originAt pc l.statement = .ok o →
        ∀ a, o = some a → a ≤ 0x1000000 ∧ (l.statement.isDir .org = false → a < 0x1000000) := by
      unfold Module.originAt
      cases hs : l.statement with
      | instr => exact ⟨trivial, fun o h => by cases h; exact fun a ha => ⟨(hpc a ha).le, fun _ => hpc a ha⟩⟩
      | dir d =>
        simp only
        by_cases ho : d.name = .org
        · rw [if_pos ho]
          obtain ⟨g1, g2⟩ := hd l (by simp) d hs ho
          obtain ⟨e1, e2⟩ := good_eval (respects_null A) g1
          refine ⟨Res.noUb_bind e1 fun v hv => ?_, fun o h => ?_⟩
          · rw [ofInt_ok (eval_alone g1 hv g2)]; trivial
          · obtain ⟨v, hv, h⟩ := Res.bind_eq_ok.mp h
            have hb := eval_alone g1 hv g2
            rw [ofInt_ok hb] at h
            cases h
            intro a ha
            cases ha
            have := hb.1; have := hb.2
            exact ⟨by omega, fun hn => by simp [Statement.isDir, ho] at hn⟩
        · rw [if_neg ho]
          exact ⟨trivial, fun o h => by cases h; exact fun a ha => ⟨(hpc a ha).le, fun _ => hpc a ha⟩⟩
    rw [Module.layout]
    constructor
    · refine Res.noUb_bind horg.1 fun o ho => ?_
      cases o with
      | none =>
        simp only
        split
        · trivial
        · exact Res.noUb_bind (ih none (by simp) ht).1 fun _ _ => trivial
      | some a =>
        exact Res.noUb_bind (ih _ (fun b hb => by cases hb; exact addWrapped_lt _ _) ht).1 fun _ _ => trivial
    · intro ls' h
      obtain ⟨o, ho, h⟩ := Res.bind_eq_ok.mp h
      cases o with
      | none =>
        simp only at h
        split at h
        · cases h
        · obtain ⟨r, hr, h⟩ := Res.bind_eq_ok.mp h
          cases h
          exact .cons ⟨rfl, .inl rfl⟩ ((ih none (by simp) ht).2 r hr)
      | some a =>
        obtain ⟨r, hr, h⟩ := Res.bind_eq_ok.mp h
        cases h
        refine .cons ?_ ((ih _ (fun b hb => by cases hb; exact addWrapped_lt _ _) ht).2 r hr)
        have ha := horg.2 _ ho a rfl
        by_cases he : l.statement.isDir .equ = true
        · rw [if_pos he]; exact ⟨rfl, .inl rfl⟩
        · rw [if_neg he]
          refine ⟨rfl, .inr ⟨by simpa using he, _, rfl, ?_, fun hn => ?_⟩⟩
          · have := ha.1
            unfold labelOfAddress Address.bank Address.bankAddress IsAddress
            omega
          · have := ha.2 hn
            unfold labelOfAddress Address.bank Address.bankAddress OfByte
            omega

theorem fix_refined {i j : Instruction} {f : StatusFlags} (h : i.fixAddressingMode f = .ok j) {st : Statement}
    (hr : Refined (.instr i) st) : Refined (.instr j) st := by
  obtain ⟨i0, e, e1, e2, e3, e4, e5⟩ := hr
  unfold Instruction.fixAddressingMode at h
  split at h
  · split at h
    · cases h; exact ⟨i0, e, e1, e2, e3, e4, .inr (.inl rfl)⟩
    · cases h; exact ⟨i0, e, e1, e2, e3, e4, .inr (.inr rfl)⟩
    · cases h
  · cases h; exact ⟨i0, e, e1, e2, e3, e4, e5⟩

theorem refined_equ {st : Statement} {pl : ProgLine} (h : Refined st pl.statement) (n : DirectiveName) :
    IsDirective n pl = st.isDir n := by
  unfold IsDirective Statement.isDir
  cases st with
  | dir d => change pl.statement = _ at h; rw [h]
  | instr j => obtain ⟨i, e, -⟩ := h; rw [e]

theorem inInt_address {v : Int} (h : IsAddress v) : InInt v := by
  have := h.1; have := h.2
  exact ⟨by omega, by omega⟩

theorem firstPass_stage {A : Str → Int → Prop} {P : Program} {m : Module} (hm : Stage A P m) (hg : GoodProgram A P)
    (fuel : Nat) : (m.runFirstPass fuel).noUb ∧ ∀ m', m.runFirstPass fuel = .ok m' → Stage A P m' := by
  have hI : PassInv (EntriesSized P) m ⟨m.lines, Module.seeds [] 0 m.lines⟩ := by
    refine ⟨rfl, ?_, ?_⟩
    · refine seeds_keys m.lines 0 [] (fun _ _ h => by simp at h) ?_
      intro k l d hl _ _
      have := (List.getElem?_eq_some_iff.1 hl).1
      omega
    · refine seeds_fine m.lines 0 [] (fun _ _ h => by simp at h) ?_
      intro l hl d hd he q
      obtain ⟨i, hi⟩ := List.getElem?_of_mem hl
      obtain ⟨pl, h1, -, h3, -⟩ := stage_statement hm hg hi
      rw [hd] at h3
      exact q pl h1 d h3 he
  have fixed : ∀ {p lines}, m.explore fuel ⟨m.lines, Module.seeds [] 0 m.lines⟩ = .ok p → Module.fixLines p.lines = .ok lines →
      ∀ {k : Nat} {l : Line}, lines[k]? = some l → ∃ (l0 : Line) (pl : ProgLine), m.lines[k]? = some l0 ∧ P[k]? = some pl ∧ Refined l.statement pl.statement ∧
        l.value = l0.value ∧ l.locals = l0.locals := by
    intro p lines hp hf k l hl
    obtain ⟨c, hc, hfr⟩ := forall2_getElem? (fixLines_rel hf) hl
    obtain ⟨l0, h0, hbare⟩ := getElem?_bare (explored_same hp) hc
    obtain ⟨e1, -, e3, -, e5⟩ := bare_fields hbare
    obtain ⟨pl, -, h1, h2, -⟩ := stage_statement hm hg h0
    rw [← e1] at h2
    refine ⟨l0, pl, h0, h1, ?_⟩
    unfold FixRel at hfr
    split at hfr
    · rw [hfr]; exact ⟨h2, e3, e5⟩
    · rename_i i hi
      obtain ⟨-, j, hj, rfl⟩ := hfr
      rw [hi] at h2
      exact ⟨fix_refined hj h2, e3, e5⟩
  have lay : ∀ {p lines}, m.explore fuel ⟨m.lines, Module.seeds [] 0 m.lines⟩ = .ok p → Module.fixLines p.lines = .ok lines →
      (Module.layout none lines).noUb ∧ ∀ ls', Module.layout none lines = .ok ls' → List.Forall₂ Laid lines ls' := by
    intro p lines hp hf
    refine layout_good (A := A) lines none (by simp) ?_
    intro l hl d hd ho
    obtain ⟨k, hk⟩ := List.getElem?_of_mem hl
    obtain ⟨l0, pl, -, h1, h2, -⟩ := fixed hp hf hk
    rw [hd] at h2
    have hmem := List.mem_of_getElem? h1
    have hgd := hg.good pl hmem
    change pl.statement = _ at h2
    rw [h2] at hgd
    exact ⟨hgd.1, hg.bounded.origins pl hmem d h2 ho⟩
  constructor
  · unfold Module.runFirstPass
    refine Res.noUb_bind (explore_noUb (I := PassInv (EntriesSized P) m) (fun p hp => pass_inv hm hg hp) fuel _ hI) fun p hp => ?_
    refine Res.noUb_bind (fixLines_noUb _) fun lines hf => ?_
    exact Res.noUb_bind (lay hp hf).1 fun _ _ => trivial
  · intro m' h
    have hidx := firstPass_localIndex h
    obtain ⟨p, lines, ls', hp, hf, hl, rfl⟩ := firstPass_parts h
    have hlaid := (lay hp hf).2 ls' hl
    refine ⟨?_, ?_, hm.globals, ?_, hm.nodup⟩
    · have := firstPass_length h
      rw [this, hm.length]
    · intro k l' hl'
      obtain ⟨l, h0, h1, h2⟩ := forall2_getElem? hlaid hl'
      obtain ⟨l0, pl, q0, q1, q2, q3, q4⟩ := fixed hp hf h0
      have hst : l'.statement = l.statement := by rw [h1]
      refine ⟨pl, q1, by rw [hst]; exact q2, ?_⟩
      intro v hv
      rcases h2 with h2 | ⟨h2, w, h3, h4, h5⟩
      · obtain ⟨pl', q1', -, q5⟩ := hm.line k l0 q0
        rw [q1] at q1'
        cases q1'
        exact q5 v (by rw [← q3, ← h2]; exact hv)
      · rw [h3] at hv
        cases hv
        have heq : IsDirective .equ pl = false := by rw [refined_equ q2]; exact h2
        exact ⟨inInt_address h4, fun lab hlab => hg.bounded.labels pl (List.mem_of_getElem? q1) heq lab hlab v h4,
          fun _ => h4, fun _ hn => h5 (by rw [← refined_equ q2]; exact hn), fun _ _ => h4⟩
    · intro j
      rw [← hm.locals j]
      unfold Module.localsAt
      cases hl' : ls'[j]? with
      | some l' =>
        obtain ⟨l, h0, h1, -⟩ := forall2_getElem? hlaid hl'
        obtain ⟨l0, pl, q0, -, -, -, q4⟩ := fixed hp hf h0
        simp only [hl', q0]
        rw [h1]; exact q4
      | none =>
        have : m.lines[j]? = none := by
          have hlen := firstPass_length h
          simp only at hlen
          rw [List.getElem?_eq_none_iff] at hl' ⊢
          rw [← hlen]; exact hl'
        simp only [hl', this]

/-! ## The second pass -/

theorem setValue_stage {A : Str → Int → Prop} {P : Program} {m : Module} (hm : Stage A P m) {i : Nat} {l : Line}
    (hl : m.lines[i]? = some l) {v : Int} (hv : ∀ pl, P[i]? = some pl → GoodValue A P i pl v) : Stage A P (m.setValue i v) := by
  have get : ∀ j : Nat, (m.setValue i v).lines[j]? =
      if i = j then some { l with value := some v } else m.lines[j]? := by
    intro j
    unfold Module.setValue
    rw [List.getElem?_modify]
    by_cases hij : i = j
    · subst hij; rw [hl]; simp
    · simp [hij]
  refine ⟨?_, ?_, hm.globals, ?_, hm.nodup⟩
  · rw [← hm.length]; simp [Module.setValue]
  · intro j k hk
    rw [get] at hk
    split at hk
    · rename_i hij
      subst hij
      cases hk
      obtain ⟨pl, h1, h2, -⟩ := hm.line i l hl
      exact ⟨pl, h1, h2, fun w hw => by cases hw; exact hv pl h1⟩
    · exact hm.line j k hk
  · intro j
    rw [← hm.locals j]
    unfold Module.localsAt
    rw [get]
    by_cases hij : i = j
    · subst hij; rw [if_pos rfl, hl]
    · rw [if_neg hij]

/-- The lengths of the instructions are known. -/
def Sized (m : Module) : Prop := ∀ l ∈ m.lines, ∀ i, l.statement = .instr i → 0 < i.serializedSize

theorem setValue_sized {m : Module} (h : Sized m) (i : Nat) (v : Int) : Sized (m.setValue i v) := by
  intro l hl j hj
  obtain ⟨k, hk⟩ := List.getElem?_of_mem hl
  unfold Module.setValue at hk
  rw [List.getElem?_modify] at hk
  cases hm : m.lines[k]? with
  | none => rw [hm] at hk; cases hk
  | some l0 =>
    rw [hm] at hk
    refine h l0 (List.mem_of_getElem? hm) j ?_
    by_cases hik : i = k
    · simp only [hik, if_true, Option.map_eq_map, Option.map_some, Option.some.injEq] at hk
      rw [← hj, ← hk]
    · simp only [hik, if_false, Option.map_eq_map, Option.map_some, Option.some.injEq] at hk
      rw [← hj, ← hk]

theorem fix_sized {i j : Instruction} {f : StatusFlags} (h : i.fixAddressingMode f = .ok j) : 0 < j.serializedSize := by
  have : ∀ k : Instruction, k.mode ≠ .imm_fm → k.mode ≠ .imm_fx → 0 < k.serializedSize := by
    intro k h1 h2
    unfold Instruction.serializedSize
    have : 0 < instructionLength k.mode := by
      cases hk : k.mode <;> first | decide | exact absurd hk h1 | exact absurd hk h2
    omega
  unfold Instruction.fixAddressingMode at h
  split at h
  · split at h
    · cases h; exact this _ (by simp) (by simp)
    · cases h; exact this _ (by simp) (by simp)
    · cases h
  · rename_i hn
    cases h
    exact this _ (fun e => hn (by simp [e])) (fun e => hn (by simp [e]))

theorem firstPass_sized {fuel : Nat} {m m' : Module} (h : m.runFirstPass fuel = .ok m') : Sized m' := by
  obtain ⟨p, lines, ls', hp, hf, hl, rfl⟩ := firstPass_parts h
  intro l hl' i hi
  obtain ⟨k, hk⟩ := List.getElem?_of_mem hl'
  obtain ⟨l1, h1, h2⟩ := forall2_getElem? (layout_rel hl) hk
  obtain ⟨l0, -, h4⟩ := forall2_getElem? (fixLines_rel hf) h1
  have e : l1.statement = .instr i := by
    rw [← hi, h2]
  unfold FixRel at h4
  split at h4
  · rename_i d hd; rw [h4, hd] at e; cases e
  · obtain ⟨-, j, hj, rfl⟩ := h4
    cases e
    exact fix_sized hj

theorem evalEqu_stage {A : Str → Int → Prop} {P : Program} {m : Module} (hm : Stage A P m) (hg : GoodProgram A P)
    {externs : Ctx} (he : Externs A externs) {i : Nat} {l : Line} (hl : m.lines[i]? = some l) :
    (m.evalEqu externs i l).noUb ∧ ∀ m', m.evalEqu externs i l = .ok m' → Stage A P m' ∧ m'.lines.length = m.lines.length ∧ (Sized m → Sized m') := by
  unfold Module.evalEqu
  obtain ⟨pl, hp, h1, h2, g, -⟩ := stage_statement hm hg hl
  cases hs : l.statement with
  | instr => exact ⟨trivial, fun m' h => by cases h; exact ⟨hm, rfl, id⟩⟩
  | dir d =>
    simp only
    rw [hs] at h2 g
    change pl.statement = _ at h2
    by_cases hd : d.name = .equ ∧ l.value.isNone
    · rw [if_pos hd]
      obtain ⟨e1, e2⟩ := good_eval (stage_lookup hm he l.scopes) g.1
      refine ⟨Res.noUb_bind e1 fun _ _ => trivial, fun m' h => ?_⟩
      obtain ⟨v, hv, h⟩ := Res.bind_eq_ok.mp h
      cases h
      refine ⟨setValue_stage hm hl ?_, by simp [Module.setValue], fun h => setValue_sized h _ _⟩
      intro pl' hpl'
      rw [h1] at hpl'
      cases hpl'
      obtain ⟨f1, f2⟩ := e2 v hv
      refine ⟨f1, fun lab hlab => f2 _ (hg.bounded.constants pl hp d h2 hd.1 lab hlab), ?_, ?_, fun name hdef =>
        f2 _ (hg.bounded.globals name i pl d hdef h1 h2 hd.1)⟩ <;>
      · intro hn
        unfold IsDirective at hn
        rw [h2] at hn
        simp [hd.1] at hn
    · rw [if_neg hd]
      exact ⟨trivial, fun m' h => by cases h; exact ⟨hm, rfl, id⟩⟩

theorem secondLoop_stage {A : Str → Int → Prop} {P : Program} (hg : GoodProgram A P) {externs : Ctx}
    (he : Externs A externs) : ∀ (n i : Nat) (m : Module), Stage A P m → i + n ≤ m.lines.length →
      (Module.secondLoop externs n i m).noUb ∧ ∀ m', Module.secondLoop externs n i m = .ok m' → Stage A P m' ∧ (Sized m → Sized m') := by
  intro n
  induction n with
  | zero => intro i m hm _; exact ⟨trivial, fun m' h => by cases h; exact ⟨hm, id⟩⟩
  | succ n ih =>
    intro i m hm hi
    have hl : m.lines[i]? = some m.lines[i] := List.getElem?_eq_getElem (by omega)
    obtain ⟨h1, h2⟩ := evalEqu_stage hm hg he hl
    rw [Module.secondLoop, hl]
    refine ⟨Res.noUb_bind h1 fun m1 hm1 => ?_, fun m' h => ?_⟩
    · obtain ⟨s1, s2, s3⟩ := h2 m1 hm1
      exact (ih _ m1 s1 (by omega)).1
    · obtain ⟨m1, hm1, h⟩ := Res.bind_eq_ok.mp h
      obtain ⟨s1, s2, s3⟩ := h2 m1 hm1
      obtain ⟨q1, q2⟩ := (ih _ m1 s1 (by omega)).2 m' h
      exact ⟨q1, fun q => q2 (s3 q)⟩

theorem secondPass_stage {A : Str → Int → Prop} {P : Program} {m : Module} (hm : Stage A P m) (hg : GoodProgram A P)
    {externs : Ctx} (he : Externs A externs) :
    (m.runSecondPass externs).noUb ∧ ∀ m', m.runSecondPass externs = .ok m' → Stage A P m' ∧ (Sized m → Sized m') :=
  secondLoop_stage hg he m.lines.length 0 m hm (by omega)

/-! ## Assembling -/

theorem claimBytes_noUb (r : DataRange) {location : Nat} (hl : location < 0x1000000) (length : Nat) :
    (r.claimBytes location length).noUb := by
  induction length using Nat.strongRecOn generalizing r location with
  | _ length ih =>
    rw [DataRange.claimBytes]
    by_cases hlen : length = 0
    · subst hlen; simp
    have hpos : ((length : Nat) : Int) > 0 := by omega
    rw [dif_pos hpos]
    obtain ⟨n, hn⟩ : ∃ n : Nat, min length (0x10000 - location % 0x10000) = n := ⟨_, rfl⟩
    have hnext : (min (length : Int) (0x10000 - (Address.bankAddress location : Int)) : Int) = (n : Nat) := by
      unfold Address.bankAddress; omega
    have hstop : Address.addUnwrapped location ((n : Nat) : Int) = .ok (location + n) := by
      unfold Address.addUnwrapped Address.ofInt
      rw [if_pos (by omega)]
      congr 1
    have hrest : (length : Int) - ((n : Nat) : Int) = ((length - n : Nat) : Int) := by omega
    have hbase : Address.ofBank (Address.bank location : Int) 0 = location / 0x10000 * 0x10000 := by
      unfold Address.ofBank Address.bank; omega
    simp only
    rw [hnext, hstop, hrest, hbase]
    simp only [Res.bind_ok]
    exact Res.noUb_bind (ih (length - n) (by omega) _ (by omega)) fun _ _ => trivial

theorem claim_noUb (o : Module.Out) {a : Nat} (ha : a < 0x1000000) (n : Nat) : (Module.claim o a n).noUb := by
  unfold Module.claim
  refine Res.noUb_bind (claimBytes_noUb _ ha n) fun p _ => ?_
  obtain ⟨r, ok⟩ := p
  simp only
  split <;> trivial

theorem subtractWrapped_noUb (a b : Nat) : (Address.subtractWrapped a b).noUb := by
  unfold Address.subtractWrapped
  split <;> trivial

theorem instr_assembleBytes_noUb {i : Instruction} {ctx : Ctx} {a : Nat}
    (h1 : (i.arg1.eval ctx).noUb) (h2 : (i.arg2.eval ctx).noUb)
    (hr : i.mode = .rel8 ∨ i.mode = .rel16 → ∀ v, i.arg1.eval ctx = .ok v → IsAddress v) :
    (i.assembleBytes a ctx).noUb := by
  unfold Instruction.assembleBytes
  simp only
  split
  · trivial
  · split
    all_goals first
      | trivial
      | exact Res.noUb_bind h1 fun _ _ => trivial
      | exact Res.noUb_bind h1 fun _ _ => Res.noUb_bind h2 fun _ _ => trivial
      | skip
    · rename_i hm
      refine Res.noUb_bind h1 fun v hv => ?_
      have hv := hr (.inl hm) v hv
      rw [ofInt_ok hv, Res.bind_ok]
      refine Res.noUb_bind (subtractWrapped_noUb _ _) fun _ _ => ?_
      split <;> trivial
    · rename_i hm
      refine Res.noUb_bind h1 fun v hv => ?_
      have hv := hr (.inr hm) v hv
      rw [ofInt_ok hv, Res.bind_ok]
      exact Res.noUb_bind (subtractWrapped_noUb _ _) fun _ _ => trivial

theorem encodeList_noUb {n : DirectiveName} {ctx : Ctx} {es : List Expr} (h : ∀ e ∈ es, (e.eval ctx).noUb) :
    (Directive.encodeList n ctx es).noUb := by
  induction es with
  | nil => trivial
  | cons e es ih =>
    rw [Directive.encodeList]
    exact Res.noUb_bind (h e (by simp)) fun _ _ =>
      Res.noUb_bind (ih fun e he => h e (List.mem_cons_of_mem _ he)) fun _ _ => trivial

theorem statement_assembleBytes {A : Str → Int → Prop} {P : Program} (hg : GoodProgram A P) {pl : ProgLine} (hp : pl ∈ P)
    {st : Statement} (hr : Refined st pl.statement) {ctx : Ctx} (hc : Respects A (values ctx)) (a : Nat) :
    (st.assembleBytes a ctx).noUb := by
  have g := hg.good pl hp
  cases st with
  | dir d =>
    change pl.statement = _ at hr
    rw [hr] at g
    show (d.assembleBytes ctx).noUb
    unfold Directive.assembleBytes
    split
    · trivial
    · exact Res.noUb_bind (encodeList_noUb fun e he => (good_eval hc (g.2 e he)).1) fun _ _ => trivial
  | instr j =>
    obtain ⟨i, e, e1, e2, e3, e4, e5⟩ := hr
    rw [e] at g
    refine Res.noUb_bind ?_ fun _ _ => trivial
    refine instr_assembleBytes_noUb (by rw [e2]; exact (good_eval hc g.1).1) (by rw [e3]; exact (good_eval hc g.2).1) ?_
    intro hm v hv
    rw [e2] at hv
    refine ((good_eval hc g.1).2 v hv).2 _ (hg.bounded.branches pl hp i e ?_)
    rcases e5 with e5 | e5 | e5
    · rw [← e5]; exact hm
    · rw [e5] at hm; rcases hm with hm | hm <;> cases hm
    · rw [e5] at hm; rcases hm with hm | hm <;> cases hm

/-- The sink never misbehaves. -/
def SinkDefined {σ : Type} (sink : Sink σ) : Prop := ∀ s a bs, (sink s a bs).2.noUb

theorem not_dir_of_size {st : Statement} (h : 0 < st.serializedSize) : st.isDir .equ = false ∧ st.isDir .org = false := by
  cases st with
  | instr => exact ⟨rfl, rfl⟩
  | dir d =>
    unfold Statement.isDir
    simp only [decide_eq_false_iff_not]
    change 0 < d.serializedSize at h
    unfold Directive.serializedSize at h
    constructor <;>
    · intro hd
      rw [hd] at h
      simp at h

theorem writeLine_noUb {A : Str → Int → Prop} {P : Program} {m : Module} (hm : Stage A P m) (hg : GoodProgram A P)
    {ctx : Ctx} (hc : Respects A (values ctx)) {σ : Type} {sink : Sink σ} (hsink : SinkDefined sink) {l : Line}
    (hl : l ∈ m.lines) (hs : 0 < l.statement.serializedSize) (s : σ) (o : Module.Out) :
    (Module.writeLine l ctx sink s o).2.noUb ∧ ∀ o', (Module.writeLine l ctx sink s o).2 = .ok o' → l.value.isSome := by
  unfold Module.writeLine
  cases hv : l.value with
  | none => exact ⟨trivial, fun o' h => by cases h⟩
  | some v =>
    refine ⟨?_, fun _ _ => rfl⟩
    obtain ⟨i, hi⟩ := List.getElem?_of_mem hl
    obtain ⟨pl, h1, h2, h3⟩ := hm.line i l hi
    have ha := (h3 v hv).2.2.2.1 (by rw [refined_equ h2]; exact (not_dir_of_size hs).1)
      (by rw [refined_equ h2]; exact (not_dir_of_size hs).2)
    have hlt : v.toNat < 0x1000000 := by have := ha.1; have := ha.2; omega
    simp only [ofInt_ok (isAddress_of ha)]
    have hb := statement_assembleBytes hg (List.mem_of_getElem? h1) h2 hc v.toNat
    have hw : (l.statement.assemble v.toNat ctx sink s).2.noUb := by
      unfold Statement.assemble
      split
      · exact hsink _ _ _
      · trivial
      · trivial
      · rename_i u hu; rw [hu] at hb; exact hb
    rcases hr : l.statement.assemble v.toNat ctx sink s with ⟨s', r⟩
    rw [hr] at hw
    cases r with
    | ok u => exact claim_noUb o hlt _
    | err => trivial
    | ub => exact hw

theorem assembleLine_noUb {A : Str → Int → Prop} {P : Program} {m : Module} (hm : Stage A P m) (hg : GoodProgram A P) (hz : Sized m)
    {externs : Ctx} (he : Externs A externs) {σ : Type} {sink : Sink σ} (hsink : SinkDefined sink) {l : Line}
    (hl : l ∈ m.lines) (s : σ) (o : Module.Out) : (m.assembleLine externs sink l s o).2.noUb := by
  have hc := stage_lookup hm he l.scopes
  obtain ⟨i, hi⟩ := List.getElem?_of_mem hl
  obtain ⟨pl, h0, h1, h2⟩ := hm.line i l hi
  have hp := List.mem_of_getElem? h0
  have g := hg.good pl hp
  unfold Module.assembleLine
  simp only
  cases hs : l.statement with
  | dir d =>
    have hn : ∀ o, (Module.noteTarget l o).noUb := by
      intro o; unfold Module.noteTarget; rw [hs]; trivial
    refine Res.noUb_bind ?_ fun o _ => hn o
    split
    · rename_i hsz
      rw [← hs] at hsz
      exact (writeLine_noUb hm hg hc hsink hl hsz s o).1
    · show (Module.assembleNote d l.value _ o).noUb
      rw [hs] at h1
      change pl.statement = _ at h1
      rw [h1] at g
      unfold Module.assembleNote
      split
      · rename_i hd
        split
        · trivial
        · rename_i v hv
          have ha := (h2 v hv).2.2.1 (by unfold IsDirective; rw [h1]; simp [hd])
          rw [ofInt_ok ha]; trivial
      · split
        · rename_i hd
          obtain ⟨e1, e2⟩ := good_eval hc g.1
          refine Res.noUb_bind e1 fun v hv => ?_
          rw [ofInt_ok ((e2 v hv).2 _ (hg.bounded.remotes pl hp d h1 hd))]; trivial
        · trivial
  | instr j =>
    have hsz : 0 < l.statement.serializedSize := by rw [hs]; exact hz l hl j hs
    rw [hs] at hsz
    rw [if_pos hsz]
    rw [← hs] at hsz
    obtain ⟨w1, w2⟩ := writeLine_noUb hm hg hc hsink hl hsz s o
    refine Res.noUb_bind w1 fun o' ho' => ?_
    have hv := w2 o' ho'
    unfold Module.noteTarget
    rw [hs]
    simp only
    obtain ⟨v, hv⟩ := Option.isSome_iff_exists.1 hv
    have ha := (h2 v hv).2.2.1 (by rw [refined_equ h1]; exact (not_dir_of_size hsz).1)
    rw [hv]
    simp only [Module.toAddress, ofInt_ok ha, Res.bind_ok]
    rw [hs] at h1
    obtain ⟨i0, e, e1, e2, e3, e4, e5⟩ := h1
    rw [e] at g
    have hfar : (j.farBranchTarget v.toNat).noUb := by
      unfold Instruction.farBranchTarget
      have ev := (good_eval (respects_null A) g.1).1
      rw [e2]
      split
      · rename_i hm
        split
        · rename_i t ht
          have hmode : i0.mode = .dir_l := by
            rcases e5 with e5 | e5 | e5
            · rw [← e5]; exact hm.1
            · rw [e5] at hm; cases hm.1
            · rw [e5] at hm; cases hm.1
          rw [ofInt_ok (eval_alone g.1 ht (hg.bounded.jumps pl hp i0 e hmode (by rw [← e1]; exact hm.2)))]
          trivial
        · trivial
        · rename_i u hu; rw [hu] at ev; exact ev
      · split
        · split
          · trivial
          · trivial
          · rename_i u hu; rw [hu] at ev; exact ev
        · trivial
    refine Res.noUb_bind hfar fun t _ => ?_
    cases t <;> trivial

theorem assembleLines_noUb {A : Str → Int → Prop} {P : Program} {m : Module} (hm : Stage A P m) (hg : GoodProgram A P) (hz : Sized m)
    {externs : Ctx} (he : Externs A externs) {σ : Type} {sink : Sink σ} (hsink : SinkDefined sink) :
    ∀ (ls : List Line), (∀ l ∈ ls, l ∈ m.lines) → ∀ (s : σ) (o : Module.Out),
      (m.assembleLines externs sink ls s o).2.noUb := by
  intro ls
  induction ls with
  | nil => intro _ s o; trivial
  | cons l ls ih =>
    intro hl s o
    rw [Module.assembleLines]
    have h1 := assembleLine_noUb hm hg hz he hsink (hl l (by simp)) s o
    rcases hr : m.assembleLine externs sink l s o with ⟨s', r⟩
    rw [hr] at h1
    cases r with
    | ok o' => exact ih (fun l h => hl l (List.mem_cons_of_mem _ h)) s' o'
    | err => trivial
    | ub => exact h1

theorem nameAddresses_noUb {A : Str → Int → Prop} {P : Program} {m : Module} (hm : Stage A P m) :
    ∀ (gs : List (Str × Nat)), (∀ g ∈ gs, g ∈ m.globals) → ∀ names, (m.nameAddresses names gs).noUb := by
  intro gs
  induction gs with
  | nil => intro _ _; trivial
  | cons g gs ih =>
    intro hgs names
    obtain ⟨name, i⟩ := g
    have hd : Defines P none name i := by
      have := hgs (name, i) (by simp)
      rw [hm.globals] at this
      exact mem_defs.1 (mem_tableOf.1 this)
    rw [Module.nameAddresses]
    rw [List.getElem?_eq_getElem (stage_lt hm hd)]
    simp only
    split
    · trivial
    · rename_i v hv
      obtain ⟨pl, -, -, h3⟩ := hm.line i _ (List.getElem?_eq_getElem (stage_lt hm hd))
      rw [ofInt_ok ((h3 v hv).2.2.2.2 name hd), Res.bind_ok]
      exact ih (fun g h => hgs g (List.mem_cons_of_mem _ h)) _

theorem assemble_stage {A : Str → Int → Prop} {P : Program} {m : Module} (hm : Stage A P m) (hg : GoodProgram A P) (hz : Sized m)
    {externs : Ctx} (he : Externs A externs) {σ : Type} {sink : Sink σ} (hsink : SinkDefined sink) (s : σ) :
    (m.assemble externs sink s).2.noUb ∧ ∀ m', (m.assemble externs sink s).2 = .ok m' → Stage A P m' ∧ Sized m' := by
  unfold Module.assemble
  have h1 := assembleLines_noUb hm hg hz he hsink m.lines (fun _ h => h) s ⟨m.owned, m.targets, m.conventions⟩
  rcases hr : m.assembleLines externs sink m.lines s ⟨m.owned, m.targets, m.conventions⟩ with ⟨s', r⟩
  rw [hr] at h1
  refine ⟨Res.noUb_bind h1 fun o _ => Res.noUb_bind (nameAddresses_noUb hm _ (fun _ h => h) _) fun _ _ => trivial, ?_⟩
  intro m' h
  obtain ⟨o, -, h⟩ := Res.bind_eq_ok.mp h
  obtain ⟨names, -, h⟩ := Res.bind_eq_ok.mp h
  cases h
  exact ⟨⟨hm.length, hm.line, hm.globals, hm.locals, hm.nodup⟩, hz⟩

/-! ## The assembler -/

/-- Every module is one of a good program. -/
def Stages (A : Str → Int → Prop) (F : Module → Prop) (ms : List Module) : Prop :=
  ∀ m ∈ ms, F m ∧ ∃ P, GoodProgram A P ∧ Stage A P m

theorem stages_set {A : Str → Int → Prop} {F : Module → Prop} {ms : List Module} (h : Stages A F ms) {m : Module}
    (hm : F m ∧ ∃ P, GoodProgram A P ∧ Stage A P m) (i : Nat) : Stages A F (ms.set i m) := by
  intro x hx
  rcases List.mem_or_eq_of_mem_set hx with hx | rfl
  · exact h x hx
  · exact hm

theorem stages_lookup {A : Str → Int → Prop} {F : Module → Prop} {ms : List Module} (h : Stages A F ms) (names : HMap FullId Nat) :
    Externs A (Assembler.lookup ms names) := by
  intro id v hv
  unfold Assembler.lookup at hv
  split at hv
  · cases hv
  · split at hv
    · cases hv
    · split at hv
      · cases hv
      · rename_i m hm
        obtain ⟨-, P, -, hs⟩ := h m (List.mem_of_getElem? hm)
        exact stage_valueForName hs hv

theorem firstPasses_stages {A : Str → Int → Prop} {fuel : Nat} : ∀ (is : List Nat) (ms : List Module), Stages A (fun _ => True) ms →
    (∀ i ∈ is, i < ms.length) → (Assembler.firstPasses fuel ms is).noUb ∧
      ∀ ms', Assembler.firstPasses fuel ms is = .ok ms' → Stages A (fun _ => True) ms' ∧ ms'.length = ms.length := by
  intro is
  induction is with
  | nil => intro ms h _; exact ⟨trivial, fun ms' e => by cases e; exact ⟨h, rfl⟩⟩
  | cons i is ih =>
    intro ms h hi
    rw [Assembler.firstPasses, List.getElem?_eq_getElem (hi i (by simp))]
    obtain ⟨-, P, hg, hs⟩ := h _ (List.getElem_mem (hi i (by simp)))
    obtain ⟨h1, h2⟩ := firstPass_stage hs hg fuel
    have next := fun m1 hm1 => ih (ms.set i m1) (stages_set h ⟨trivial, P, hg, h2 m1 hm1⟩ i)
      (by intro j hj; rw [List.length_set]; exact hi j (List.mem_cons_of_mem _ hj))
    refine ⟨Res.noUb_bind h1 fun m1 hm1 => (next m1 hm1).1, fun ms' e => ?_⟩
    obtain ⟨m1, hm1, e⟩ := Res.bind_eq_ok.mp e
    have := (next m1 hm1).2 ms' e
    rw [List.length_set] at this
    exact this

theorem secondPasses_stages {A : Str → Int → Prop} {names : HMap FullId Nat} : ∀ (is : List Nat) (ms : List Module),
    Stages A Sized ms → (∀ i ∈ is, i < ms.length) → (Assembler.secondPasses names ms is).noUb ∧
      ∀ ms', Assembler.secondPasses names ms is = .ok ms' → Stages A Sized ms' ∧ ms'.length = ms.length := by
  intro is
  induction is with
  | nil => intro ms h _; exact ⟨trivial, fun ms' e => by cases e; exact ⟨h, rfl⟩⟩
  | cons i is ih =>
    intro ms h hi
    rw [Assembler.secondPasses, List.getElem?_eq_getElem (hi i (by simp))]
    obtain ⟨hz, P, hg, hs⟩ := h _ (List.getElem_mem (hi i (by simp)))
    obtain ⟨h1, h2⟩ := secondPass_stage hs hg (stages_lookup h names)
    have next := fun m1 hm1 => ih (ms.set i m1) (stages_set h ⟨(h2 m1 hm1).2 hz, P, hg, (h2 m1 hm1).1⟩ i)
      (by intro j hj; rw [List.length_set]; exact hi j (List.mem_cons_of_mem _ hj))
    refine ⟨Res.noUb_bind h1 fun m1 hm1 => (next m1 hm1).1, fun ms' e => ?_⟩
    obtain ⟨m1, hm1, e⟩ := Res.bind_eq_ok.mp e
    have := (next m1 hm1).2 ms' e
    rw [List.length_set] at this
    exact this

theorem finalPasses_noUb {A : Str → Int → Prop} {σ : Type} {sink : Sink σ} (hsink : SinkDefined sink) :
    ∀ (is : List Nat) (a : Assembler) (s : σ), Stages A Sized a.modules → (∀ i ∈ is, i < a.modules.length) →
      (Assembler.finalPasses sink a is s).2.noUb := by
  intro is
  induction is with
  | nil => intro a s _ _; trivial
  | cons i is ih =>
    intro a s h hi
    rw [Assembler.finalPasses, List.getElem?_eq_getElem (hi i (by simp))]
    obtain ⟨hz, P, hg, hs⟩ := h _ (List.getElem_mem (hi i (by simp)))
    obtain ⟨h1, h2⟩ := assemble_stage hs hg hz (stages_lookup h a.names) hsink s
    simp only
    rcases hr : (a.modules[i]'(hi i (by simp))).assemble (Assembler.lookup a.modules a.names) sink s with ⟨s', r⟩
    rw [hr] at h1 h2
    cases r with
    | err => trivial
    | ub => exact h1
    | ok m =>
      simp only
      split
      · trivial
      · refine ih _ _ (stages_set h ⟨(h2 m rfl).2, P, hg, (h2 m rfl).1⟩ i) ?_
        intro j hj
        simp only [List.length_set]
        exact hi j (List.mem_cons_of_mem _ hj)

theorem assembler_noUb {A : Str → Int → Prop} {fuel : Nat} {ms : List Module} (h : Stages A (fun _ => True) ms) {σ : Type} {sink : Sink σ}
    (hsink : SinkDefined sink) (s : σ) : (Assembler.assemble fuel ms sink s).2.noUb := by
  unfold Assembler.assemble
  have hp : (Assembler.prepare fuel ms).noUb ∧ ∀ a order, Assembler.prepare fuel ms = .ok (a, order) →
      Stages A Sized a.modules ∧ ∀ i ∈ order, i < a.modules.length := by
    unfold Assembler.prepare
    rcases C45_bound_not_reached ms with ⟨o, ho⟩ | ho | ho
    · rw [ho, Res.bind_ok]
      have hord : ∀ i ∈ o.order, i < ms.length := by
        intro i hi
        have := (C45_order_sound ho).1.mem_iff.1 hi
        exact List.mem_range.1 this
      obtain ⟨f1, f2⟩ := firstPasses_stages (fuel := fuel) o.order ms h hord
      have sz : ∀ m1, Assembler.firstPasses fuel ms o.order = .ok m1 → Stages A Sized m1 := by
        intro m1 hm1 m hm
        refine ⟨?_, ((f2 m1 hm1).1 m hm).2⟩
        obtain ⟨i, hi⟩ := List.getElem?_of_mem hm
        have hperm := (C45_order_sound ho).1
        obtain ⟨e1, e2⟩ := firstPasses_each (hperm.nodup_iff.2 List.nodup_range) hm1
        obtain ⟨m0, h0, ⟨-, h⟩ | ⟨hn, -⟩⟩ := e2 i m hi
        · exact firstPass_sized h
        · exact absurd (hperm.mem_iff.2 (List.mem_range.2 (List.getElem?_eq_some_iff.1 h0).1)) hn
      have next := fun m1 hm1 => secondPasses_stages (names := o.exported) o.order m1 (sz m1 hm1)
        (fun i hi => by rw [(f2 m1 hm1).2]; exact hord i hi)
      refine ⟨Res.noUb_bind f1 fun m1 hm1 => Res.noUb_bind (next m1 hm1).1 fun _ _ => trivial, fun a order e => ?_⟩
      obtain ⟨m1, hm1, e⟩ := Res.bind_eq_ok.mp e
      obtain ⟨m2, hm2, e⟩ := Res.bind_eq_ok.mp e
      cases e
      obtain ⟨q1, q2⟩ := (next m1 hm1).2 m2 hm2
      exact ⟨q1, fun i hi => by simp only; rw [q2, (f2 m1 hm1).2]; exact hord i hi⟩
    · rw [ho]; exact ⟨trivial, fun _ _ e => by cases e⟩
    · rw [ho]; exact ⟨trivial, fun _ _ e => by cases e⟩
  obtain ⟨h1, h2⟩ := hp
  cases hr : Assembler.prepare fuel ms with
  | err => trivial
  | ub => rw [hr] at h1; exact h1
  | ok p =>
    obtain ⟨a, order⟩ := p
    obtain ⟨q1, q2⟩ := h2 a order hr
    exact finalPasses_noUb hsink order a s q1 q2

theorem loadAll_stages {A : Str → Int → Prop} : ∀ {files : List (List Str)}, (∀ f ∈ files, BoundedFile A f) →
    (Assembler.loadAll files).noUb ∧ ∀ ms, Assembler.loadAll files = .ok ms → Stages A (fun _ => True) ms := by
  intro files hb
  constructor
  · induction files with
    | nil => trivial
    | cons f fs ih =>
      rw [Assembler.loadAll]
      exact Res.noUb_bind (loadAsmFile_noUb (hb f (by simp)).expressions) fun _ _ =>
        Res.noUb_bind (ih fun f h => hb f (List.mem_cons_of_mem _ h)) fun _ _ => trivial
  · intro ms hms m hm
    obtain ⟨f, hf, hl⟩ := loadAll_mem hms m hm
    obtain ⟨items, h1, h2, -, -⟩ := loadAsmFile_ok hl
    refine ⟨trivial, program [] items, ⟨(hb f hf).statements items h1, ?_, ?_⟩, loadInv_stage h2⟩
    · exact program_items (fileItems_good (hb f hf).expressions h1) []
    · exact program_items (fileItems_written h1) []

/-! ## Plain files -/

/-- The bounds of plain files: every name is an address. -/
def AllAddresses : Str → Int → Prop := fun _ v => IsAddress v

theorem modest_values {M : Nat} (hM : 256 ≤ M) {env : FullId → Option Int}
    (henv : ∀ id v, env id = some v → -(M : Int) ≤ v ∧ v ≤ M) {lv : Level} {q : Toks} {e : Expr} (h : Derives lv q e)
    (hmul : tok '*' ∉ q) (hlit : ∀ (v : Int) (t : NumericType), .lit v t ∈ q → -(M : Int) ≤ t.castTo v ∧ t.castTo v ≤ M) :
    1 ≤ q.length ∧ ∀ s, Occurs s e → ∀ v, denote env s = some v → -((q.length * M : Nat) : Int) ≤ v ∧ v ≤ ((q.length * M : Nat) : Int) := by
  have grow : ∀ {a b : Nat}, a ≤ b → (a * M : Nat) ≤ b * M := fun h => Nat.mul_le_mul_right M h
  induction h with
  | lit v t =>
    refine ⟨by simp, fun s hs w hw => ?_⟩
    cases hs
    cases hw
    have := hlit v t (by simp)
    simp only [List.length_singleton, Nat.one_mul]
    exact this
  | name id =>
    have hl : 1 ≤ (Spec.nameTokens id).length := by unfold Spec.nameTokens; split <;> simp
    refine ⟨hl, fun s hs w hw => ?_⟩
    cases hs
    have := henv id w hw
    have := grow hl
    omega
  | longName id =>
    have hl : 1 ≤ (tok '@' :: Spec.nameTokens id).length := by simp
    refine ⟨hl, fun s hs w hw => ?_⟩
    cases hs
    have := henv id w hw
    have := grow hl
    omega
  | @paren ts e _ ih =>
    simp only [List.cons_append, List.mem_cons, List.mem_append, not_or] at hmul hlit
    obtain ⟨h1, h2⟩ := ih hmul.2.1 fun v t hv => hlit v t (.inr (.inl hv))
    refine ⟨by simp, fun s hs w hw => ?_⟩
    have := h2 s hs w hw
    have hg : (ts.length * M : Nat) ≤ (tok '(' :: ts ++ [tok ')']).length * M := grow (by simp; omega)
    omega
  | comp _ ih => exact ih hmul hlit
  | factor _ ih => exact ih hmul hlit
  | term _ ih => exact ih hmul hlit
  | @neg ts e _ ih =>
    simp only [List.mem_cons, not_or] at hmul hlit
    obtain ⟨h1, h2⟩ := ih hmul.2 fun v t hv => hlit v t (.inr hv)
    refine ⟨by simp, fun s hs w hw => ?_⟩
    have hg : (ts.length * M : Nat) ≤ (tok '-' :: ts).length * M := grow (by simp)
    cases hs with
    | refl =>
      simp only [denote, Option.map_eq_some_iff] at hw
      obtain ⟨v, hv, rfl⟩ := hw
      have := h2 e (.refl _) v hv
      omega
    | arg hs => have := h2 s hs w hw; omega
  | @lowbyte ts e _ ih =>
    simp only [List.mem_cons, not_or] at hmul hlit
    obtain ⟨h1, h2⟩ := ih hmul.2 fun v t hv => hlit v t (.inr hv)
    refine ⟨by simp, fun s hs w hw => ?_⟩
    have hg : (ts.length * M : Nat) ≤ (tok '<' :: ts).length * M := grow (by simp)
    have hg1 := grow h1
    cases hs with
    | refl =>
      simp only [denote, Option.map_eq_some_iff] at hw
      obtain ⟨v, hv, rfl⟩ := hw
      omega
    | arg hs => have := h2 s hs w hw; omega
  | @highbyte ts e _ ih =>
    simp only [List.mem_cons, not_or] at hmul hlit
    obtain ⟨h1, h2⟩ := ih hmul.2 fun v t hv => hlit v t (.inr hv)
    refine ⟨by simp, fun s hs w hw => ?_⟩
    have hg : (ts.length * M : Nat) ≤ (tok '>' :: ts).length * M := grow (by simp)
    have hg1 := grow h1
    cases hs with
    | refl =>
      simp only [denote, Option.map_eq_some_iff] at hw
      obtain ⟨v, hv, rfl⟩ := hw
      omega
    | arg hs => have := h2 s hs w hw; omega
  | @bankbyte ts e _ ih =>
    simp only [List.mem_cons, not_or] at hmul hlit
    obtain ⟨h1, h2⟩ := ih hmul.2 fun v t hv => hlit v t (.inr hv)
    refine ⟨by simp, fun s hs w hw => ?_⟩
    have hg : (ts.length * M : Nat) ≤ (tok '^' :: ts).length * M := grow (by simp)
    have hg1 := grow h1
    cases hs with
    | refl =>
      simp only [denote, Option.map_eq_some_iff] at hw
      obtain ⟨v, hv, rfl⟩ := hw
      omega
    | arg hs => have := h2 s hs w hw; omega
  | mul _ _ _ _ => exact absurd (by simp) hmul
  | @div ts us e f _ _ ih ih' =>
    simp only [List.mem_append, List.mem_cons, not_or] at hmul hlit
    obtain ⟨h1, h2⟩ := ih hmul.1 fun v t hv => hlit v t (.inl hv)
    obtain ⟨h1', h2'⟩ := ih' hmul.2.2 fun v t hv => hlit v t (.inr (.inr hv))
    refine ⟨by simp; omega, fun s hs w hw => ?_⟩
    have hg : (ts.length * M : Nat) ≤ (ts ++ tok '/' :: us).length * M := grow (by simp)
    have hg' : (us.length * M : Nat) ≤ (ts ++ tok '/' :: us).length * M := grow (by simp; omega)
    cases hs with
    | refl =>
      simp only [denote, Option.bind_eq_some_iff] at hw
      obtain ⟨a, ha, b, hb, hw⟩ := hw
      split at hw
      · cases hw
      · cases hw
        have := h2 e (.refl _) a ha
        have hq : (a.tdiv b).natAbs ≤ a.natAbs := by
          rw [Int.natAbs_tdiv]; exact Nat.div_le_self _ _
        omega
    | left hs => have := h2 s hs w hw; omega
    | right hs => have := h2' s hs w hw; omega
  | @plus ts us e f _ _ ih ih' =>
    simp only [List.mem_append, List.mem_cons, not_or] at hmul hlit
    obtain ⟨h1, h2⟩ := ih hmul.1 fun v t hv => hlit v t (.inl hv)
    obtain ⟨h1', h2'⟩ := ih' hmul.2.2 fun v t hv => hlit v t (.inr (.inr hv))
    refine ⟨by simp; omega, fun s hs w hw => ?_⟩
    have hg : ((ts.length + us.length) * M : Nat) ≤ (ts ++ tok '+' :: us).length * M := grow (by simp)
    rw [Nat.add_mul] at hg
    cases hs with
    | refl =>
      simp only [denote, Option.bind_eq_some_iff] at hw
      obtain ⟨a, ha, b, hb, hw⟩ := hw
      cases hw
      have := h2 e (.refl _) a ha
      have := h2' f (.refl _) b hb
      omega
    | left hs => have := h2 s hs w hw; omega
    | right hs => have := h2' s hs w hw; omega
  | @minus ts us e f _ _ ih ih' =>
    simp only [List.mem_append, List.mem_cons, not_or] at hmul hlit
    obtain ⟨h1, h2⟩ := ih hmul.1 fun v t hv => hlit v t (.inl hv)
    obtain ⟨h1', h2'⟩ := ih' hmul.2.2 fun v t hv => hlit v t (.inr (.inr hv))
    refine ⟨by simp; omega, fun s hs w hw => ?_⟩
    have hg : ((ts.length + us.length) * M : Nat) ≤ (ts ++ tok '-' :: us).length * M := grow (by simp)
    rw [Nat.add_mul] at hg
    cases hs with
    | refl =>
      simp only [denote, Option.bind_eq_some_iff] at hw
      obtain ⟨a, ha, b, hb, hw⟩ := hw
      cases hw
      have := h2 e (.refl _) a ha
      have := h2' f (.refl _) b hb
      omega
    | left hs => have := h2 s hs w hw; omega
    | right hs => have := h2' s hs w hw; omega

theorem modest_tame {A : Str → Int → Prop} (hA : ∀ n v, A n v → -0x1000000 ≤ v ∧ v ≤ 0x1000000) {file : List Str}
    (h : ∀ line ∈ file, ∀ ts, tokenize line = .ok ts → ModestLine ts) {e : Expr} (he : WrittenIn file e) : Tame A e := by
  obtain ⟨line, hl, ts, p, q, r, ht, rfl, hd⟩ := he
  obtain ⟨h1, h2, h3⟩ := h line hl _ ht
  intro s hs env henv v hv
  simp only [List.mem_append, List.length_append, not_or] at h1 h2 h3
  obtain ⟨-, hb⟩ := modest_values (M := 0x1000000) (by decide) (env := env)
    (fun id w hw => hA _ _ (henv id w hw).1) hd h2.1.2 fun v t hv => h3 v t (.inl (.inr hv))
  have := hb s hs v hv
  constructor <;> omega

theorem denote_mentions {e : Expr} {id : FullId} (h : Mentions id e) : denote (fun _ => none) e = none := by
  obtain ⟨t, h⟩ := h
  generalize hs : Expr.ident id t = s at h
  induction h with
  | refl => subst hs; rfl
  | left _ ih => simp [denote, ih]
  | right _ ih => simp [denote, ih]
  | arg _ ih => simp [denote, ih]
  | held _ ih => exact ih

theorem plain_yields {e : Expr} (h : PlainOperand e) : Yields AllAddresses e IsAddress ∧ YieldsAlone e IsAddress := by
  rcases h with ⟨id, t, rfl⟩ | ⟨v, t, rfl, hv⟩
  · exact ⟨fun env henv v hv => (henv id v hv).1, fun v hv => by cases hv⟩
  · exact ⟨fun env _ w hw => by cases hw; exact hv, fun w hw => by cases hw; exact hv⟩

theorem simpleIdentifier_ident {e : Expr} (h : e.simpleIdentifier ≠ none) : ∃ id t, e = .ident id t := by
  cases e with
  | ident id t => exact ⟨id, t, rfl⟩
  | _ => exact absurd rfl h

theorem items_branches {file : List Str} {items : List Item} (h : FileItems file items) : ∀ i, .stmt (.instr i) ∈ items →
    i.mode = .rel8 ∨ i.mode = .rel16 → ∃ id t, i.arg1 = .ident id t := by
  obtain ⟨per, h1, rfl⟩ := h
  intro i hi
  rw [List.mem_flatten] at hi
  obtain ⟨its, h2, h3⟩ := hi
  induction h1 with
  | nil => simp at h2
  | cons hx _ ih =>
    rcases List.mem_cons.1 h2 with rfl | h2
    · obtain ⟨ts, ht, hp⟩ := hx
      exact fun hr => simpleIdentifier_ident (((parseLoop_blames (ts.length + 1) (tokenize_names _ ts ht)).2 _ hp _ h3).2.2 hr)
    · exact ih h2

theorem mem_statementsOf {items : List Item} {st : Statement} : st ∈ statementsOf items ↔ .stmt st ∈ items := by
  unfold statementsOf
  rw [List.mem_filterMap]
  constructor
  · rintro ⟨x, hx, h⟩
    cases x with
    | label => cases h
    | stmt s => cases h; exact hx
  · intro h; exact ⟨_, h, rfl⟩

theorem plain_bounded {file : List Str} (h : PlainFile file) : BoundedFile AllAddresses file := by
  refine ⟨fun e he => modest_tame (fun n v hv => ⟨by have := hv.1; omega, hv.2⟩) h.lines he, fun items hi => ?_⟩
  have hmem : ∀ l ∈ program [] items, .stmt l.statement ∈ items := program_items (fun st hst => hst) []
  have hst : ∀ l ∈ program [] items, PlainStatement l.statement := fun l hl =>
    h.statements items hi _ (mem_statementsOf.2 (hmem l hl))
  have dir : ∀ l ∈ program [] items, ∀ d, l.statement = .dir d → d.name = .equ ∨ d.name = .org ∨ d.name = .remote →
      PlainOperand d.argument := fun l hl d hd hn => by
    have := hst l hl
    rw [hd] at this
    exact this hn
  have ins : ∀ l ∈ program [] items, ∀ i, l.statement = .instr i →
      (i.mode = .dir_l ∧ (i.mnemonic = .jmp ∨ i.mnemonic = .jsl)) ∨ i.mnemonic = .mvn ∨ i.mnemonic = .mvp →
      YieldsAlone i.arg1 IsAddress := fun l hl i hd hn => by
    have := hst l hl
    rw [hd] at this
    rcases this hn with hp | ⟨id, hm⟩
    · exact (plain_yields hp).2
    · intro v hv; rw [denote_mentions hm] at hv; cases hv
  exact {
    constants := fun l hl d hd hn _ _ => (plain_yields (dir l hl d hd (.inl hn))).1
    labels := fun _ _ _ _ _ _ h => h
    globals := fun name i l d _ hl hd hn => (plain_yields (dir l (List.mem_of_getElem? hl) d hd (.inl hn))).1
    origins := fun l hl d hd hn => (plain_yields (dir l hl d hd (.inr (.inl hn)))).2
    remotes := fun l hl d hd hn => (plain_yields (dir l hl d hd (.inr (.inr hn)))).1
    branches := fun l hl i hd hm => by
      have := hmem l hl
      rw [hd] at this
      exact (plain_yields (.inl (items_branches hi i this hm))).1
    jumps := fun l hl i hd hm hj v hv => ins l hl i hd (.inl ⟨hm, hj⟩) v hv
    moves := fun l hl i hd hm v hv => by
      have ha := ins l hl i hd (.inr hm) v hv
      have := ha.1; have := ha.2
      constructor <;> omega
    sizes := by
      refine (h.sizes items hi).imp (fun hs l hl d hd hn => hs d ?_ hn) (fun hs l hl i hd => hs i ?_) <;>
        (rw [mem_statementsOf, ← hd]; exact hmem l hl) }

end Nsasm
