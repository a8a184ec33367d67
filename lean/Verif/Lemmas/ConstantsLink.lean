import Verif.Lemmas.Constants
import Verif.Props.Link
import Verif.Props.Tools

/-! # Programs that differ in values only: linking -/

namespace Nsasm.Values
open Spec Props

variable {o : Bool}

/-- What an expression evaluates to depends on the names in it only. -/
theorem eval_used {ctx ctx' : Ctx} (e : Expr) (h : ∀ id, Mentions id e → ∀ v, ctx id = .ok v → ctx' id = .ok v) :
    ∀ v, e.eval ctx = .ok v → e.eval ctx' = .ok v := by
  induction e with
  | null => intro v hv; exact hv
  | lit n t => intro v hv; exact hv
  | ident id t =>
    intro v hv
    simp only [Expr.eval] at hv ⊢
    cases hc : ctx id with
    | error e => rw [hc] at hv; cases hv
    | ok w => rw [h id ⟨t, .refl _⟩ w hc]; rw [hc] at hv; exact hv
  | bin op l r ihl ihr =>
    intro v hv
    have ihl := ihl fun id ⟨t, hid⟩ => h id ⟨t, .left hid⟩
    have ihr := ihr fun id ⟨t, hid⟩ => h id ⟨t, .right hid⟩
    simp only [Expr.eval] at hv ⊢
    cases hl : l.eval ctx with
    | ok a =>
      cases hr : r.eval ctx with
      | ok b => rw [hl, hr] at hv; rw [ihl a hl, ihr b hr]; exact hv
      | err e => rw [hl, hr] at hv; cases hv
      | ub u => rw [hl, hr] at hv; cases hv
    | err e => cases hr : r.eval ctx <;> rw [hl, hr] at hv <;> cases hv
    | ub u => rw [hl] at hv; cases hv
  | un op a ih =>
    intro v hv
    simp only [Expr.eval] at hv ⊢
    obtain ⟨w, hw, hv⟩ := Res.bind_eq_ok.mp hv
    rw [ih (fun id ⟨t, hid⟩ => h id ⟨t, .arg hid⟩) w hw]
    exact hv
  | label n a ih =>
    intro v hv
    simp only [Expr.eval] at hv ⊢
    split at hv
    · cases hv
    · next hn => rw [if_neg hn]; exact ih (fun id ⟨t, hid⟩ => h id ⟨t, .held hid⟩) v hv

theorem encodeList_used {ctx ctx' : Ctx} (n : DirectiveName) : ∀ (es : List Expr),
    (∀ e ∈ es, ∀ v, e.eval ctx = .ok v → e.eval ctx' = .ok v) → ∀ bs, Directive.encodeList n ctx es = .ok bs →
    Directive.encodeList n ctx' es = .ok bs := by
  intro es
  induction es with
  | nil => intro _ bs h; exact h
  | cons e es ih =>
    intro he bs h
    rw [Directive.encodeList] at h ⊢
    obtain ⟨v, hv, h⟩ := Res.bind_eq_ok.mp h
    obtain ⟨r, hr, h⟩ := Res.bind_eq_ok.mp h
    rw [he e (by simp) v hv, Res.bind_ok, ih (fun e' h' => he e' (by simp [h'])) r hr]
    exact h

theorem bytes_used {ctx ctx' : Ctx} {st : Statement} (h : ∀ e, Contains st e → ∀ v, e.eval ctx = .ok v → e.eval ctx' = .ok v)
    {a : Addr} {r : Option (List UInt8)} (hb : st.assembleBytes a ctx = .ok r) : st.assembleBytes a ctx' = .ok r := by
  cases st with
  | dir d =>
    show d.assembleBytes ctx' = .ok r
    change d.assembleBytes ctx = .ok r at hb
    unfold Directive.assembleBytes at hb ⊢
    split at hb
    · rename_i hc; rw [if_pos hc]; exact hb
    · rename_i hc
      rw [if_neg hc]
      obtain ⟨bs, hbs, hb⟩ := Res.bind_eq_ok.mp hb
      rw [encodeList_used d.name d.list (fun e he => h e (.inr he)) bs hbs]
      exact hb
  | instr i =>
    change (do .ok (some (← i.assembleBytes a ctx)) : Res _) = .ok r at hb
    obtain ⟨bs, hbs, hb⟩ := Res.bind_eq_ok.mp hb
    show (do .ok (some (← i.assembleBytes a ctx')) : Res _) = .ok r
    have : i.assembleBytes a ctx' = .ok bs := by
      have h1 := h i.arg1 (.inl rfl)
      have h2 := h i.arg2 (.inr rfl)
      unfold Instruction.assembleBytes at hbs ⊢
      simp only at hbs ⊢
      split at hbs
      · cases hbs
      · rename_i op hop
        cases hm : i.mode <;> rw [hm] at hbs <;> simp only at hbs ⊢ <;> try exact hbs
        all_goals
          obtain ⟨v, hv, hbs⟩ := Res.bind_eq_ok.mp hbs
          rw [h1 v hv, Res.bind_ok]
          try exact hbs
        obtain ⟨w, hw, hbs⟩ := Res.bind_eq_ok.mp hbs
        rw [h2 w hw, Res.bind_ok]
        exact hbs
    rw [this]; exact hb

/-- Two modules that differ in values only, or in values and origins. -/
structure Twin (o : Bool) (m m' : Module) : Prop where
  name : m'.name = m.name
  globals : m'.globals = m.globals
  locals : ∀ name scopes, m'.localIndex name scopes = m.localIndex name scopes
  length : m'.lines.length = m.lines.length
  line : ∀ (k : Nat) (l : Line), m.lines[k]? = some l → ∃ l', m'.lines[k]? = some l' ∧
    blank o l'.statement = blank o l.statement ∧ l'.scopes = l.scopes ∧ (o = false → ¬ IsEqu l → l'.value = l.value)

theorem getElem?_of_map {α β : Type} {g : α → β} {xs ys : List α} (h : ys.map g = xs.map g) {k : Nat} {x : α}
    (hx : xs[k]? = some x) : ∃ y, ys[k]? = some y ∧ g y = g x := by
  have : (ys.map g)[k]? = (xs.map g)[k]? := by rw [h]
  rw [List.getElem?_map, List.getElem?_map, hx] at this
  cases hc : ys[k]? with
  | none => rw [hc] at this; cases this
  | some y => rw [hc] at this; exact ⟨y, rfl, Option.some.inj this⟩

/-- What is known about a module of an assembled program. -/
structure Side (fuel : Nat) (file : List Str) (items : List Item) (externs : Ctx) (m m₁ : Module) : Prop where
  read : FileItems file items
  first : (do let m ← Module.loadAsmFile file; m.runFirstPass fuel) = .ok m₁
  names : Names (program [] items) m
  name : m.name = m₁.name
  globals : m.globals = m₁.globals
  nodup : (m.globals.map (·.1)).Nodup
  locals : ∀ name scopes, m.localIndex name scopes = m₁.localIndex name scopes
  length : m.lines.length = (program [] items).length
  lines : m.lines.map valueless = m₁.lines.map valueless
  places : ∀ (k : Nat) (l : Line), m.lines[k]? = some l → ¬ IsEqu l → m₁.lines[k]? = some l
  constants : ∀ (k : Nat) (l : Line) (d : Directive), m.lines[k]? = some l → l.statement = .dir d → d.name = .equ →
    ∃ v, l.value = some v ∧ d.argument.eval (m.lookup l.scopes externs) = .ok v
  statements : ∀ (k : Nat) (l : Line), m.lines[k]? = some l → ∃ pl, (program [] items)[k]? = some pl ∧
    match pl.statement with
    | .dir d => l.statement = .dir d
    | .instr i => ∃ mode, l.statement = .instr { i with mode := mode }

theorem side {σ : Type} {fuel : Nat} {files : List (List Str)} {sink : Sink σ} {s s' : σ} {a : Assembler}
    (h : Assembler.assembleFiles fuel files sink s = (s', .ok a)) {order : List Nat} {wss : List (List Writes)}
    (hA : Assembled fuel files sink s s' a order wss) {i : Nat} {m : Module} (hm : a.modules[i]? = some m) :
    ∃ f items m₁, files[i]? = some f ∧ Side fuel f items (Assembler.lookup a.modules a.names) m m₁ := by
  obtain ⟨f, m₀, m₁, m₂, externs, hf, h0, h1, h2, hs, hext⟩ := hA.passes i m hm
  obtain ⟨items, hF, hI, -, -⟩ := loadAsmFile_ok h0
  obtain ⟨hmore, hright, hsame⟩ := secondLoop_spec _ 0 m₁ m₂ h2
    (fun j l d _ => unvalued_first h0 h1 j l d)
  have hN₂ := names_more (names_firstPass (names_loaded hI) h1) hmore
  have hN : Names (program [] items) m :=
    ⟨fun k l hl name t => by rw [hs.localIndex]; rw [hs.2.1] at hl; exact hN₂.locals k l hl name t,
     fun name t => by rw [hs.localIndex]; exact hN₂.globals name t⟩
  have hlen : m.lines.length = m₁.lines.length := by
    have := congrArg List.length hmore.lines
    simp at this
    rw [hs.2.1, this]
  have hlen1 : m₁.lines.length = m₀.lines.length := firstPass_length h1
  refine ⟨f, items, m₁, hf, hF, by rw [h0, Res.bind_ok, h1], hN, by rw [hs.1, hmore.name], by rw [hs.2.2.1, hmore.globals], ?_, ?_,
    by rw [hlen, hlen1, hI.length], by rw [hs.2.1, hmore.lines], ?_, ?_, ?_⟩
  · have hn := loaded_namesNodup h0
    unfold NamesNodup at hn
    rw [hs.2.2.1, hmore.globals, (firstPass_name h1).2.1]
    exact hn
  · intro name scopes; rw [hs.localIndex, hmore.localIndex]
  · intro k l hl hne
    rw [hs.2.1] at hl
    obtain ⟨l₁, hl₁, hvl⟩ := getElem?_valueless hmore.lines.symm hl
    have hst : l.statement = l₁.statement := (valueless_fields hvl.symm).1
    have hne₁ : ¬ IsEqu l₁ := by
      rintro ⟨d, hd, hn⟩; exact hne ⟨d, by rw [hst]; exact hd, hn⟩
    rw [hsame k l₁ l hl₁ hl (by rw [← Bool.not_eq_true, isDir_iff]; exact hne₁)]
    exact hl₁
  · intro k l d hl hd hq
    have hk : k < m.lines.length := (List.getElem?_eq_some_iff.mp hl).1
    rw [hs.2.1] at hl
    obtain ⟨v, hv, he⟩ := hright k l (Nat.zero_le _) (by omega) hl d hd hq
    refine ⟨v, hv, ?_⟩
    rw [hs.lookup]
    exact eval_mono (fun id w => lookup_mono m₂ l.scopes hext id w) _ v he
  · intro k l hl
    obtain ⟨_, -, -, hC⟩ := C57_values h
    obtain ⟨f', items', hf', hF', -, hC⟩ := hC i m hm
    rw [hf] at hf'; cases hf'
    rw [fileItems_unique hF' hF] at hC
    obtain ⟨-, -, pl, hpl, hC⟩ := hC k l hl
    refine ⟨pl, hpl, ?_⟩
    cases hp : pl.statement with
    | dir d => rw [hp] at hC; exact hC
    | instr j => rw [hp] at hC; obtain ⟨mode, he, -⟩ := hC; exact ⟨mode, he⟩

theorem isEqu_blank {l l' : Line} (h : blank o l'.statement = blank o l.statement) : IsEqu l' ↔ IsEqu l := by
  have e : ∀ l : Line, IsEqu l ↔ l.statement.isDir .equ = true := fun l => (isDir_iff _ _).symm
  rw [e, e, ← isDir_blank (o := o), h, isDir_blank]

theorem twins {fuel : Nat} {f f' : List Str} {items items' : List Item} {externs externs' : Ctx} {m m' m₁ m₁' : Module}
    (hS : Side fuel f items externs m m₁) (hS' : Side fuel f' items' externs' m' m₁') (h : LikeFile o f f') : Twin o m m' := by
  obtain ⟨hn, hg, hl⟩ := firstPass_like h hS.first hS'.first
  have e0 := congrArg List.length hl
  have e1 := congrArg List.length hS.lines
  have e2 := congrArg List.length hS'.lines
  simp only [List.length_map] at e0 e1 e2
  refine ⟨by rw [hS'.name, hS.name, hn], by rw [hS'.globals, hS.globals, hg], ?_, by rw [e2, e0, e1], ?_⟩
  · intro name scopes
    rw [hS'.locals, hS.locals]
    refine localIndex_congr hg (fun i => ?_) name scopes
    unfold Module.localsAt
    cases hc : m₁.lines[i]? with
    | none =>
      have : m₁'.lines[i]? = none := by rw [List.getElem?_eq_none_iff] at hc ⊢; omega
      rw [this]
    | some l =>
      obtain ⟨l', hl', hbl⟩ := getElem?_of_map hl hc
      rw [hl']
      exact (congrArg Line.locals hbl :)
  · intro k l hlk
    obtain ⟨l₁, hl₁, hv⟩ := getElem?_valueless hS.lines.symm hlk
    obtain ⟨l₁', hl₁', hbl⟩ := getElem?_of_map hl hl₁
    obtain ⟨l', hl', hv'⟩ := getElem?_valueless hS'.lines hl₁'
    have s1 : l₁.statement = l.statement := (congrArg Line.statement hv :)
    have s2 : l'.statement = l₁'.statement := (congrArg Line.statement hv' :)
    have s3 : blank o l₁'.statement = blank o l₁.statement := (congrArg Line.statement hbl :)
    have c1 : l₁.scopes = l.scopes := (congrArg Line.scopes hv :)
    have c2 : l'.scopes = l₁'.scopes := (congrArg Line.scopes hv' :)
    have c3 : l₁'.scopes = l₁.scopes := (congrArg Line.scopes hbl :)
    have hbs : blank o l'.statement = blank o l.statement := by rw [s2, s3, s1]
    refine ⟨l', hl', hbs, by rw [c2, c3, c1], fun ho hne => ?_⟩
    subst ho
    have h1 := hS.places k l hlk hne
    have h2 := hS'.places k l' hl' (mt (isEqu_blank hbs).mp hne)
    rw [hl₁] at h1; cases h1
    rw [hl₁'] at h2; cases h2
    have hb := firstPass_blank h fuel
    rw [hS.first, hS'.first] at hb
    have hb : blankModule false m₁' = blankModule false m₁ := (Res.ok.inj hb).symm
    obtain ⟨l'', hl'', hbl'⟩ := getElem?_of_map (congrArg Module.lines hb :) hl₁
    rw [hl₁'] at hl''; cases hl''
    exact (congrArg Line.value hbl' :)

/-- The writes of a line. -/
def lineOut (ctx : Ctx) (l : Line) : Writes :=
  if l.statement.serializedSize = 0 then []
  else match l.value with
    | none => []
    | some v =>
      match l.statement.assembleBytes v.toNat ctx with
      | .ok (some bs) => [(v.toNat, bs)]
      | _ => []

theorem lineOut_of {ctx : Ctx} {l : Line} {w : Writes} (h : LineWrites ctx l w) : w = lineOut ctx l := by
  unfold lineOut
  rcases h with ⟨h, rfl⟩ | ⟨x, bs, hv, hb, hl, hne, rfl⟩
  · rw [if_pos h]
  · rw [if_neg (by rw [← hl]; simpa using hne), hv]
    simp only [Int.toNat_natCast, hb]

/-- What is written for line `k` of file `i`. -/
def outOf (a : Assembler) (i k : Nat) : Writes :=
  match a.modules[i]? with
  | none => []
  | some m =>
    match m.lines[k]? with
    | none => []
    | some l => lineOut (m.lookup l.scopes (Assembler.lookup a.modules a.names)) l

theorem map_range {α β : Type} (f : α → β) (g : Nat → β) : ∀ (xs : List α), (∀ k x, xs[k]? = some x → g k = f x) →
    (List.range xs.length).map g = xs.map f := by
  intro xs h
  apply List.ext_getElem?
  intro k
  rw [List.getElem?_map, List.getElem?_map]
  by_cases hk : k < xs.length
  · rw [List.getElem?_range hk, List.getElem?_eq_getElem hk]
    simp only [Option.map_some]
    rw [h k _ (List.getElem?_eq_getElem hk)]
  · rw [List.getElem?_eq_none (by simpa using hk), List.getElem?_eq_none (by simpa using hk)]
    rfl

theorem forall2_map {α β : Type} {R : α → β → Prop} {f : α → β} {xs : List α} {ys : List β} (h : List.Forall₂ R xs ys)
    (hf : ∀ x y, R x y → y = f x) : ys = xs.map f := by
  induction h with
  | nil => rfl
  | cons h _ ih => rw [List.map_cons, ← hf _ _ h, ← ih]

theorem writes_out {σ : Type} {fuel : Nat} {files : List (List Str)} {sink : Sink σ} {s s' : σ} {a : Assembler}
    {order : List Nat} {wss : List (List Writes)} (hA : Assembled fuel files sink s s' a order wss) :
    wss.flatten.flatten =
      order.flatMap fun i => ((a.modules[i]?).elim [] fun m => (List.range m.lines.length).flatMap (outOf a i)) := by
  have : wss = order.map fun i => ((a.modules[i]?).elim [] fun m => (List.range m.lines.length).map (outOf a i)) := by
    refine forall2_map hA.writes ?_
    rintro i ws ⟨m, hm, hws⟩
    rw [hm]
    simp only [Option.elim]
    rw [map_range (fun l => lineOut (m.lookup l.scopes (Assembler.lookup a.modules a.names)) l) _ m.lines]
    · exact forall2_map hws fun l w hw => lineOut_of hw
    · intro k l hl
      simp only [outOf, hm, hl]
  rw [this, List.flatMap_def, List.flatten_flatten, List.map_map]
  congr 2
  funext i
  simp only [Function.comp]
  cases a.modules[i]? with
  | none => rfl
  | some m => simp [List.flatMap_def]

theorem line_out {σ : Type} {fuel : Nat} {files : List (List Str)} {sink : Sink σ} {s s' : σ} {a : Assembler}
    {order : List Nat} {wss : List (List Writes)} (hA : Assembled fuel files sink s s' a order wss)
    {i k : Nat} {m : Module} {l : Line} (hm : a.modules[i]? = some m) (hl : m.lines[k]? = some l) :
    LineWrites (m.lookup l.scopes (Assembler.lookup a.modules a.names)) l (outOf a i k) := by
  have hi : i ∈ order := by
    refine hA.perm.mem_iff.2 (List.mem_range.2 ?_)
    rw [← hA.length]; exact (List.getElem?_eq_some_iff.mp hm).1
  obtain ⟨n, hn⟩ := List.mem_iff_getElem?.1 hi
  have hw := hA.writes
  obtain ⟨hlen, -⟩ := List.forall₂_iff_get.mp hw
  have hnl : n < wss.length := by rw [← hlen]; exact (List.getElem?_eq_some_iff.mp hn).1
  obtain ⟨i', hi', m', hm', hws⟩ := forall2_getElem? hw (List.getElem?_eq_getElem hnl)
  rw [hn] at hi'; cases hi'
  rw [hm] at hm'; cases hm'
  have hk : k < (wss[n]).length := by rw [← hws.length_eq]; exact (List.getElem?_eq_some_iff.mp hl).1
  obtain ⟨l', hl', hlw⟩ := forall2_getElem? hws (List.getElem?_eq_getElem hk)
  rw [hl] at hl'; cases hl'
  have : outOf a i k = (wss[n])[k] := by
    simp only [outOf, hm, hl]
    exact (lineOut_of hlw).symm
  rw [this]; exact hlw

/-- The program of a file. -/
def fileProgram (file : List Str) : Program :=
  program [] (file.flatMap fun line =>
    match tokenize line with
    | .ok ts => (match Parse.parse ts with | .ok its => its | _ => [])
    | _ => [])

theorem fileProgram_of {file : List Str} {items : List Item} (h : FileItems file items) : fileProgram file = program [] items := by
  obtain ⟨per, h, rfl⟩ := h
  unfold fileProgram
  congr 1
  induction h with
  | nil => rfl
  | cons h _ ih =>
    obtain ⟨ts, h1, h2⟩ := h
    rw [List.flatMap_cons, List.flatten_cons, ih, h1]
    simp only [h2]

/-- The programs of the files of an assembler. -/
def programsOf (files : List (List Str)) (a : Assembler) : Programs :=
  List.zipWith (fun m f => (m.name, fileProgram f)) a.modules files

theorem programsOf_get {files : List (List Str)} {a : Assembler} {i : Nat} {m : Module} {f : List Str} (hm : a.modules[i]? = some m)
    (hf : files[i]? = some f) : (programsOf files a)[i]? = some (m.name, fileProgram f) := by
  unfold programsOf
  rw [List.getElem?_zipWith, hm, hf]

/-- Two assemblies of files that differ in values only, or in values and origins. -/
structure Both (o : Bool) (fuel : Nat) (files files' : List (List Str)) (a a' : Assembler) : Prop where
  pair : ∀ (i : Nat) (m : Module), a.modules[i]? = some m → ∃ f f' items items' m₁ m₁' m',
    files[i]? = some f ∧ files'[i]? = some f' ∧ a'.modules[i]? = some m' ∧
    Side fuel f items (Assembler.lookup a.modules a.names) m m₁ ∧
    Side fuel f' items' (Assembler.lookup a'.modules a'.names) m' m₁' ∧ Twin o m m'
  publishes : Publishes a.modules (Assembler.lookup a.modules a.names)
  publishes' : Publishes a'.modules (Assembler.lookup a'.modules a'.names)

theorem both {σ : Type} {fuel : Nat} {files files' : List (List Str)} {sink : Sink σ} {s s' t t' : σ} {a a' : Assembler}
    (hr : List.Forall₂ (LikeFile o) files files')
    (h : Assembler.assembleFiles fuel files sink s = (s', .ok a)) (h' : Assembler.assembleFiles fuel files' sink t = (t', .ok a')) :
    Both o fuel files files' a a' := by
  obtain ⟨order, wss, hA⟩ := assembled h
  obtain ⟨order', wss', hA'⟩ := assembled h'
  refine ⟨fun i m hm => ?_, assembled_publishes hA, assembled_publishes hA'⟩
  obtain ⟨f, items, m₁, hf, hS⟩ := side h hA hm
  have hlt : i < a'.modules.length := by
    rw [hA'.length, ← hr.length_eq]; exact (List.getElem?_eq_some_iff.mp hf).1
  obtain ⟨f', items', m₁', hf', hS'⟩ := side h' hA' (List.getElem?_eq_getElem hlt)
  obtain ⟨f0, hf0, hrf⟩ := forall2_getElem? hr hf'
  rw [hf] at hf0; cases hf0
  exact ⟨f, f', items, items', m₁, m₁', _, hf, hf', List.getElem?_eq_getElem hlt, hS, hS', twins hS hS' hrf⟩

/-- Line `t` of file `j` has the same value. -/
def SameValue (a a' : Assembler) (j t : Nat) : Prop :=
  ∀ m m', a.modules[j]? = some m → a'.modules[j]? = some m' → valueAt m' t = valueAt m t

theorem defines_iff {fuel : Nat} {f : List Str} {items : List Item} {externs : Ctx} {m m₁ : Module}
    (hS : Side fuel f items externs m m₁) (name : Str) (t : Nat) : (name, t) ∈ m.globals ↔ Defines (fileProgram f) none name t := by
  rw [fileProgram_of hS.read, ← hS.names.globals]
  show _ ↔ m.globals.find name = some t
  exact ⟨find_of_mem hS.nodup, find_mem⟩

theorem lookup_points {fuel : Nat} {files files' : List (List Str)} {a a' : Assembler} (hB : Both o fuel files files' a a')
    {j : Nat} {id : FullId} {v : Int} {other : Str} (hid : id.module = some other)
    (h : Assembler.lookup a.modules a.names id = .ok v)
    (hp : ∀ j t Q, (programsOf files a)[j]? = some (other, Q) → Defines Q none id.name t → SameValue a a' j t) :
    Assembler.lookup a'.modules a'.names id = .ok v := by
  obtain ⟨m, hm, t, h1, h2, h3⟩ := (hB.publishes id v).1 h
  obtain ⟨j, hj⟩ := List.mem_iff_getElem?.1 hm
  obtain ⟨f, f', items, items', m₁, m₁', m', hf, hf', hm', hS, hS', hT⟩ := hB.pair j m hj
  have hn : m.name = other := by rw [hid] at h1; exact (Option.some.inj h1).symm
  have hs := hp j t (fileProgram f) (by rw [programsOf_get hj hf, hn]) ((defines_iff hS _ _).1 h2) m m' hj hm'
  refine (hB.publishes' id v).2 ⟨m', List.mem_of_getElem? hm', t, ?_, ?_, ?_⟩
  · rw [hT.name]; exact h1
  · rw [hT.globals]; exact h2
  · rw [hs]; exact h3

/-- A name that points to a line with the same value has the same value. -/
theorem seen_again {fuel : Nat} {files files' : List (List Str)} {a a' : Assembler} (hB : Both o fuel files files' a a')
    {i k : Nat} {m m' : Module} {l l' : Line} (hm : a.modules[i]? = some m) (hm' : a'.modules[i]? = some m')
    (hl : m.lines[k]? = some l) (hl' : m'.lines[k]? = some l') {id : FullId} {v : Int}
    (hp : ∀ j t, PointsTo (programsOf files a) i k id j t → SameValue a a' j t)
    (h : m.lookup l.scopes (Assembler.lookup a.modules a.names) id = .ok v) :
    m'.lookup l'.scopes (Assembler.lookup a'.modules a'.names) id = .ok v := by
  obtain ⟨f, f', items, items', m₁, m₁', m'', hf, hf', hm'', hS, hS', hT⟩ := hB.pair i m hm
  rw [hm'] at hm''; cases hm''
  obtain ⟨l'', hl'', -, hsc, -⟩ := hT.line k l hl
  rw [hl'] at hl''; cases hl''
  have hP := programsOf_get hm hf
  unfold Module.lookup at h ⊢
  unfold PointsTo at hp
  rw [hsc]
  simp only [hT.locals, hT.name]
  have hloc : ∀ t w, m.localLookup t = .ok w → SameValue a a' i t → m'.localLookup t = .ok w := by
    intro t w hw hs
    rw [localLookup_ok] at hw ⊢
    have := hs m m' hm hm'
    unfold valueAt at this
    change (m.lines[t]?).bind (·.value) = some w at hw
    change (m'.lines[t]?).bind (·.value) = some w
    rw [this, hw]
  cases hmod : id.module with
  | some other =>
    simp only [hmod] at h hp ⊢
    have hext : Assembler.lookup a.modules a.names id = .ok v → Assembler.lookup a'.modules a'.names id = .ok v :=
      fun h => lookup_points hB (j := 0) hmod h fun j t Q hQ hd => hp j t ⟨Q, hQ, hd⟩
    split at h
    · rename_i hn
      rw [if_pos hn]
      cases hx : m.localIndex id.name [] with
      | none => rw [hx] at h; exact hext h
      | some t =>
        rw [hx] at h
        refine hloc t v h (hp i t ⟨fileProgram f, by rw [hP, hn], ?_⟩)
        rw [fileProgram_of hS.read]
        exact (hS.names.globals _ _).1 hx
    · rename_i hn
      rw [if_neg hn]
      exact hext h
  | none =>
    simp only [hmod] at h hp ⊢
    cases hx : m.localIndex id.name l.scopes with
    | some t =>
      rw [hx] at h
      refine hloc t v h (hp i t ⟨_, _, hP, .inl ⟨rfl, ?_⟩⟩)
      rw [fileProgram_of hS.read]
      exact (hS.names.locals k l hl _ _).1 hx
    | none =>
      rw [hx] at h
      refine lookup_points hB (j := 0) (id := ⟨some [], id.name⟩) rfl h fun j t Q hQ hd => ?_
      refine hp j t ⟨_, _, hP, .inr ⟨fun t' ht' => ?_, Q, hQ, hd⟩⟩
      rw [fileProgram_of hS.read] at ht'
      rw [(hS.names.locals k l hl _ _).2 ht'] at hx; cases hx

theorem hasStatement_iff {fuel : Nat} {files : List (List Str)} {a : Assembler} {i k : Nat} {m : Module} {f : List Str}
    {items : List Item} {externs : Ctx} {m₁ : Module} (hm : a.modules[i]? = some m) (hf : files[i]? = some f)
    (hS : Side fuel f items externs m m₁) {l : Line} (hl : m.lines[k]? = some l) {st : Statement}
    (h : HasStatement (programsOf files a) i k st) :
    match st with
    | .dir d => l.statement = .dir d
    | .instr i => ∃ mode, l.statement = .instr { i with mode := mode } := by
  obtain ⟨name, P, ls, hP, hk⟩ := h
  rw [programsOf_get hm hf] at hP
  cases hP
  rw [fileProgram_of hS.read] at hk
  obtain ⟨pl, hpl, hst⟩ := hS.statements k l hl
  rw [hk] at hpl; cases hpl
  cases st <;> exact hst

theorem module_of {files : List (List Str)} {a : Assembler} {i : Nat} {x : Str × Program}
    (h : (programsOf files a)[i]? = some x) : ∃ m f, a.modules[i]? = some m ∧ files[i]? = some f := by
  unfold programsOf at h
  rw [List.getElem?_zipWith] at h
  cases hm : a.modules[i]? with
  | none => rw [hm] at h; cases h
  | some m =>
    cases hf : files[i]? with
    | none => rw [hm, hf] at h; cases h
    | some f => exact ⟨m, f, rfl, rfl⟩

theorem steady_value {fuel : Nat} {files files' : List (List Str)} {a a' : Assembler} (hB : Both false fuel files files' a a')
    {i k : Nat} (h : Steady (programsOf files a) (programsOf files' a') i k) : SameValue a a' i k := by
  induction h with
  | @place i k st hst hne =>
    intro m m' hm hm'
    obtain ⟨f, f', items, items', m₁, m₁', m'', hf, hf', hm'', hS, hS', hT⟩ := hB.pair i m hm
    rw [hm'] at hm''; cases hm''
    unfold valueAt
    cases hl : m.lines[k]? with
    | none =>
      have : m'.lines[k]? = none := by
        rw [List.getElem?_eq_none_iff] at hl ⊢
        rw [hT.length]; exact hl
      rw [this]
    | some l =>
      obtain ⟨l', hl', -, -, hv⟩ := hT.line k l hl
      rw [hl']
      have hs := hasStatement_iff hm hf hS hl hst
      refine hv rfl ?_
      rintro ⟨d, hd, hq⟩
      cases st with
      | dir d' =>
        simp only at hs
        rw [hs] at hd; cases hd
        exact hne d rfl hq
      | instr j =>
        obtain ⟨mode, hs⟩ := hs
        rw [hs] at hd; cases hd
  | @constant i k d hst hst' hq _ ih =>
    intro m m' hm hm'
    obtain ⟨f, f', items, items', m₁, m₁', m'', hf, hf', hm'', hS, hS', hT⟩ := hB.pair i m hm
    rw [hm'] at hm''; cases hm''
    unfold valueAt
    cases hl : m.lines[k]? with
    | none =>
      have : m'.lines[k]? = none := by
        rw [List.getElem?_eq_none_iff] at hl ⊢
        rw [hT.length]; exact hl
      rw [this]
    | some l =>
      obtain ⟨l', hl', -⟩ := hT.line k l hl
      rw [hl']
      have hs := hasStatement_iff hm hf hS hl hst
      have hs' := hasStatement_iff hm' hf' hS' hl' hst'
      simp only at hs hs'
      obtain ⟨v, hv, he⟩ := hS.constants k l d hl hs hq
      obtain ⟨v', hv', he'⟩ := hS'.constants k l' d hl' hs' hq
      have := eval_used d.argument (fun id hid w hw => seen_again hB hm hm' hl hl' (ih id hid) hw) v he
      rw [this] at he'
      cases he'
      show l'.value = l.value
      rw [hv, hv']

theorem same_out {fuel : Nat} {files files' : List (List Str)} {a a' : Assembler} (hB : Both false fuel files files' a a')
    {i k : Nat} {m m' : Module} {l l' : Line} {w w' : Writes} (hm : a.modules[i]? = some m) (hm' : a'.modules[i]? = some m')
    (hl : m.lines[k]? = some l) (hl' : m'.lines[k]? = some l')
    (hw : LineWrites (m.lookup l.scopes (Assembler.lookup a.modules a.names)) l w)
    (hw' : LineWrites (m'.lookup l'.scopes (Assembler.lookup a'.modules a'.names)) l' w') :
    places w' = places w ∧ (Unaffected (programsOf files a) (programsOf files' a') i k → w' = w) := by
  obtain ⟨f, f', items, items', m₁, m₁', m'', hf, hf', hm'', hS, hS', hT⟩ := hB.pair i m hm
  rw [hm'] at hm''; cases hm''
  obtain ⟨l'', hl'', hbl, hsc, hval⟩ := hT.line k l hl
  rw [hl'] at hl''; cases hl''
  have hsize : l'.statement.serializedSize = l.statement.serializedSize := by rw [← size_blank, hbl, size_blank]
  rcases hw with ⟨hz, rfl⟩ | ⟨x, bs, hv, hb, hlen, hne, rfl⟩ <;>
    rcases hw' with ⟨hz', rfl⟩ | ⟨x', bs', hv', hb', hlen', hne', rfl⟩
  · exact ⟨rfl, fun _ => rfl⟩
  · exact absurd (List.length_eq_zero_iff.mp (by rw [hlen', hsize, hz])) hne'
  · exact absurd (List.length_eq_zero_iff.mp (by rw [hlen, ← hsize, hz'])) hne
  · have hequ : ¬ IsEqu l := by
      rintro ⟨d, hd, hq⟩
      rw [hd] at hlen
      apply hne
      rw [← List.length_eq_zero_iff, hlen]
      show d.serializedSize = 0
      unfold Directive.serializedSize
      rw [hq]; simp
    have hx : x' = x := by
      have := hval rfl hequ
      rw [hv, hv'] at this
      exact Int.ofNat.inj (Option.some.inj this)
    subst hx
    refine ⟨by simp only [places, List.map_cons, List.map_nil, hlen, hlen', hsize], ?_⟩
    rintro ⟨st, hst, hst', hall⟩
    have hs := hasStatement_iff hm hf hS hl hst
    have hs' := hasStatement_iff hm' hf' hS' hl' hst'
    have hsame : l'.statement = l.statement ∧ ∀ e, Contains l.statement e → Contains st e := by
      cases st with
      | dir d =>
        simp only at hs hs'
        rw [hs, hs']; exact ⟨rfl, fun e he => he⟩
      | instr j =>
        obtain ⟨mode, hs⟩ := hs
        obtain ⟨mode', hs'⟩ := hs'
        rw [hs, hs'] at hbl
        obtain ⟨e1, e2, h1, -⟩ := blank_instr { j with mode := mode }
        obtain ⟨e1', e2', h1', -⟩ := blank_instr { j with mode := mode' }
        rw [h1, h1'] at hbl
        have hmode : mode' = mode := congrArg Instruction.mode (Statement.instr.inj hbl)
        rw [hs, hs', hmode]
        exact ⟨rfl, fun e he => he⟩
    have hb2 := bytes_used (ctx' := m'.lookup l'.scopes (Assembler.lookup a'.modules a'.names)) (fun e he v hev =>
      eval_used e (fun id hid w hw => seen_again hB hm hm' hl hl'
        (fun j t hp => steady_value hB (hall e (hsame.2 e he) id hid j t hp)) hw) v hev) hb
    rw [hsame.1, hb2] at hb'
    cases hb'
    rfl

end Nsasm.Values
