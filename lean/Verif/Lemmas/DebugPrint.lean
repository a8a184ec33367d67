import Verif.Model.DebugPrint
import Verif.Spec.DebugPrint
import Verif.Props.Interactive
import Verif.Props.Link
import Verif.Props.Place
import Verif.Lemmas.ShiftConstant

namespace Nsasm.Debug
open Nsasm Nsasm.Spec Nsasm.Props

/-- What a listing shows of a line. -/
def face (l : Line) : Statement × List Str := (l.statement, l.labels)

theorem face_addLabels {scopes : List Nat} {t : Nat} : ∀ {ls : List ParsedLabel} {m m' : Module},
    m.addLabels scopes t ls = .ok m' → m'.lines.map face = m.lines.map face := by
  intro ls
  induction ls with
  | nil => intro m m' h; cases h; rfl
  | cons l ls ih =>
    intro m m' h
    rw [Module.addLabels] at h
    obtain ⟨m1, h1, h⟩ := Res.bind_eq_ok.mp h
    rw [ih h]
    unfold Module.addLabel at h1
    split at h1
    · split at h1
      · cases h1
      · cases h1; rfl
    · split at h1
      · cases h1
      · cases h1
        simp only [Module.addLocal]
        apply List.ext_getElem?
        intro k
        simp only [List.getElem?_map, List.getElem?_modify]
        split
        · cases m.lines[k]? <;> rfl
        · cases m.lines[k]? <;> rfl

theorem loadStatement_face {ld ld' : Module.Loading} {st : Statement} (h : Module.loadStatement ld st = .ok ld') :
    ld'.m.lines.map face = ld.m.lines.map face ++ [(st, ld.pending.map (·.name))] ∧ ld'.pending = [] := by
  unfold Module.loadStatement at h
  obtain ⟨m, h1, h⟩ := Res.bind_eq_ok.mp h
  have hf := face_addLabels h1
  have hf' : m.lines.map face = ld.m.lines.map face ++ [(st, ld.pending.map (·.name))] := by
    rw [hf]; simp [face, Module.newLine]
  cases st with
  | instr i => cases h; exact ⟨hf', rfl⟩
  | dir d =>
    replace h : Module.loadDirective ⟨m, [], ld.scopes⟩ ld.m.lines.length d = .ok ld' := h
    unfold Module.loadDirective at h
    split at h
    · split at h
      · cases h
      · split at h
        · cases h
        · cases h; exact ⟨hf', rfl⟩
    · split at h
      · cases h; exact ⟨hf', rfl⟩
      · split at h
        · split at h
          · cases h
          · cases h; exact ⟨hf', rfl⟩
        · cases h; exact ⟨hf', rfl⟩

theorem loadItems_face : ∀ {items : List Item} {ld ld' : Module.Loading}, Module.loadItems ld items = .ok ld' →
    ld'.m.lines.map face = ld.m.lines.map face ++
      (program ld.pending items).map (fun pl => (pl.statement, pl.labels.map (·.name))) := by
  intro items
  induction items with
  | nil => intro ld ld' h; cases h; simp [program]
  | cons x items ih =>
    intro ld ld' h
    cases x with
    | label l => rw [Module.loadItems] at h; rw [ih h]; rfl
    | stmt st =>
      rw [Module.loadItems] at h
      obtain ⟨ld1, h1, h⟩ := Res.bind_eq_ok.mp h
      obtain ⟨e1, e2⟩ := loadStatement_face h1
      rw [ih h, e1, e2, program]
      simp

theorem loaded_face {file : List Str} {items : List Item} {m : Module} (hF : FileItems file items)
    (h : Module.loadAsmFile file = .ok m) :
    m.lines.map face = (program [] items).map (fun pl => (pl.statement, pl.labels.map (·.name))) := by
  unfold Module.loadAsmFile at h
  obtain ⟨ld, h1, h⟩ := Res.bind_eq_ok.mp h
  rw [Shift.loadLines_items hF] at h1
  have := loadItems_face h1
  unfold Module.finishLoad at h
  split at h
  · cases h
  · cases h
    simpa [Module.empty] using this

/-! ## Loading depends on the program only -/

def loadProgram (ld : Module.Loading) : Program → Res Module.Loading
  | [] => .ok ld
  | pl :: P => do
      let ld ← Module.loadStatement { ld with pending := pl.labels } pl.statement
      loadProgram ld P

theorem finish_pending (ld : Module.Loading) (ls : List ParsedLabel) :
    Module.finishLoad { ld with pending := ls } = Module.finishLoad ld := rfl

theorem loadItems_program : ∀ (items : List Item) (ld : Module.Loading),
    (Module.loadItems ld items >>= Module.finishLoad) = (loadProgram ld (program ld.pending items) >>= Module.finishLoad) := by
  intro items
  induction items with
  | nil => intro ld; rfl
  | cons x items ih =>
    intro ld
    cases x with
    | label l =>
      rw [Module.loadItems, ih, program]
      have : ∀ (P : Program) (ls : List ParsedLabel),
          (loadProgram { ld with pending := ls } P >>= Module.finishLoad) = (loadProgram ld P >>= Module.finishLoad) := by
        intro P ls
        cases P <;> rfl
      exact this _ _
    | stmt st =>
      rw [Module.loadItems, program, loadProgram]
      cases hs : Module.loadStatement ld st with
      | err e => rfl
      | ub u => rfl
      | ok ld1 =>
        have := ih ld1
        rw [(loadStatement_face hs).2] at this
        exact this

theorem load_of_program {f g : List Str} {is js : List Item} (hf : FileItems f is) (hg : FileItems g js)
    (h : program [] is = program [] js) : Module.loadAsmFile f = Module.loadAsmFile g := by
  unfold Module.loadAsmFile
  rw [Shift.loadLines_items hf, Shift.loadLines_items hg]
  exact (loadItems_program is _).trans (by rw [h]; exact (loadItems_program js _).symm)

theorem program_labels (ls : List ParsedLabel) : ∀ (done : List ParsedLabel) (rest : List Item),
    program done (ls.map Item.label ++ rest) = program (done ++ ls) rest := by
  induction ls with
  | nil => intro done rest; simp
  | cons l ls ih => intro done rest; simp [program, ih]

/-- The program of the plain items. -/
theorem program_plain (P : Program) : program [] (plainItems P) =
    P.map fun pl => { pl with labels := pl.labels.map fun l => { l with exported := false } } := by
  induction P with
  | nil => rfl
  | cons pl P ih =>
    have e : plainItems (pl :: P) =
        (pl.labels.map fun l => ({ l with exported := false } : ParsedLabel)).map Item.label ++ .stmt pl.statement :: plainItems P := by
      simp [plainItems]
    rw [e, program_labels, program, ih]
    simp

/-- Where the parts of a program are written. -/
theorem program_mem : ∀ {items : List Item} {done : List ParsedLabel} {pl : ProgLine}, pl ∈ program done items →
    .stmt pl.statement ∈ items ∧ ∀ l ∈ pl.labels, l ∈ done ∨ .label l ∈ items := by
  intro items
  induction items with
  | nil => intro done pl h; simp [program] at h
  | cons x items ih =>
    intro done pl h
    cases x with
    | label l =>
      obtain ⟨h1, h2⟩ := ih h
      refine ⟨List.mem_cons_of_mem _ h1, fun l' hl' => ?_⟩
      rcases h2 l' hl' with h3 | h3
      · rcases List.mem_append.1 h3 with h3 | h3
        · exact .inl h3
        · rw [List.mem_singleton] at h3; subst h3; exact .inr (by simp)
      · exact .inr (List.mem_cons_of_mem _ h3)
    | stmt st =>
      rw [program] at h
      rcases List.mem_cons.1 h with rfl | h
      · exact ⟨by simp, fun l hl => .inl hl⟩
      · obtain ⟨h1, h2⟩ := ih h
        refine ⟨List.mem_cons_of_mem _ h1, fun l' hl' => ?_⟩
        rcases h2 l' hl' with h3 | h3
        · cases h3
        · exact .inr (List.mem_cons_of_mem _ h3)

/-! ## The rows -/

theorem fixed_text {i j : Instruction} {f : StatusFlags} (h : i.fixAddressingMode f = .ok j) : j.toStr = i.toStr := by
  unfold Instruction.fixAddressingMode at h
  split at h
  · next hm =>
    split at h <;> cases h <;> rcases hm with hm | hm <;> simp [Instruction.toStr, argsToStr, hm]
  · cases h; rfl

/-- The passes change nothing of what a listing shows but the values. -/
theorem firstPass_shows {fuel : Nat} {m m' : Module} (h : m.runFirstPass fuel = .ok m')
    {k : Nat} {l : Line} (hl : m'.lines[k]? = some l) :
    ∃ l₀, m.lines[k]? = some l₀ ∧ l.labels = l₀.labels ∧ l.statement.toStr = l₀.statement.toStr := by
  obtain ⟨p, l1, l2, he, hfix, hlay, rfl⟩ := firstPass_parts h
  have hS : SameLines m p := explored_same he
  obtain ⟨b, hb, hlr⟩ := forall2_getElem? (layout_rel hlay) hl
  obtain ⟨c, hc, hfr⟩ := forall2_getElem? (fixLines_rel hfix) hb
  obtain ⟨l₀, h0, hbare⟩ := getElem?_bare hS hc
  obtain ⟨e1, e2, -⟩ := bare_fields hbare
  refine ⟨l₀, h0, ?_⟩
  have hlb : l.labels = b.labels ∧ l.statement = b.statement := by
    unfold LayRel at hlr
    rw [hlr]
    exact ⟨rfl, rfl⟩
  rw [hlb.1, hlb.2, ← e1, ← e2]
  unfold FixRel at hfr
  split at hfr
  · rw [hfr]; exact ⟨rfl, rfl⟩
  · next i hi =>
    obtain ⟨-, j, hj, rfl⟩ := hfr
    exact ⟨rfl, by rw [hi]; exact fixed_text hj⟩

theorem column_eq (v : Option Int) : debugColumn v = column v ++ cs!"     " := by
  cases v <;> rfl

/-- The line shows the statement and the labels. -/
def Shows (l : Line) (pl : ProgLine) : Prop := l.labels = pl.labels.map (·.name) ∧ l.statement.toStr = pl.statement.toStr

theorem rows_of_shows {ls : List Line} {P : Program} (h : List.Forall₂ Shows ls P) :
    ls.flatMap Line.debugPrint = rows P (ls.map (·.value)) := by
  induction h with
  | nil => rfl
  | @cons l pl ls P h _ ih =>
    have e : l.debugPrint = rowsOf pl l.value := by
      unfold Line.debugPrint rowsOf
      rw [h.1, h.2, column_eq, List.map_map]
      rfl
    simp only [List.flatMap_cons, List.map_cons]
    rw [ih, e]
    simp [rows]

theorem assembled_shows {σ : Type} {fuel : Nat} {files : List (List Str)} {sink : Sink σ} {s s' : σ} {a : Assembler}
    (h : Assembler.assembleFiles fuel files sink s = (s', .ok a)) {i : Nat} {m : Module} (hm : a.modules[i]? = some m) :
    ∃ file items, files[i]? = some file ∧ FileItems file items ∧ List.Forall₂ Shows m.lines (program [] items) := by
  obtain ⟨order, wss, hA⟩ := assembled h
  obtain ⟨f, m₀, m₁, m₂, externs, hf, h0, h1, h2, hs, -⟩ := hA.passes i m hm
  obtain ⟨items, hF, hI, -, -⟩ := loadAsmFile_ok h0
  obtain ⟨hmore, -, -⟩ := secondLoop_spec _ 0 m₁ m₂ h2 (fun j l d _ => unvalued_first h0 h1 j l d)
  have hface := loaded_face hF h0
  refine ⟨f, items, hf, hF, ?_⟩
  have hlen : m.lines.length = (program [] items).length := by
    have e1 := congrArg List.length hmore.lines
    simp at e1
    rw [hs.2.1, e1, firstPass_length h1, hI.length]
  apply List.forall₂_iff_get.mpr
  refine ⟨hlen, fun k hk hk' => ?_⟩
  have hl₂ : m₂.lines[k]? = some (m.lines.get ⟨k, hk⟩) := by
    rw [← hs.2.1]; exact List.getElem?_eq_getElem hk
  obtain ⟨l₁, hl₁, hvl⟩ := getElem?_valueless hmore.lines.symm hl₂
  obtain ⟨l₀, hl₀, g1, g2⟩ := firstPass_shows h1 hl₁
  have hv := valueless_fields hvl.symm
  have h3 : (m₀.lines.map face)[k]? = some (face l₀) := by rw [List.getElem?_map, hl₀]; rfl
  rw [hface, List.getElem?_map, List.getElem?_eq_getElem hk'] at h3
  simp only [Option.map_some, Option.some.injEq, face, Prod.mk.injEq] at h3
  exact ⟨by rw [hv.2.1, g1, ← h3.2]; rfl, by rw [hv.1, g2, ← h3.1]; rfl⟩

/-! ## Reading a listing -/

theorem column_length (v : Option Int) : (column v).length = 6 := by
  cases v with
  | none => rfl
  | some v => exact (hexPadded_spec (by decide) (by omega)).1

theorem parses_blanks {b s : Str} {items : List Item} (hb : ∀ c ∈ b, Blank c) (h : ParsesAs s items) : ParsesAs (b ++ s) items := by
  obtain ⟨ts, h1, h2⟩ := h
  refine ⟨ts, ?_, h2⟩
  have := C33_blanks b s [] hb (by simp)
  rw [List.append_nil] at this
  rw [this, h1]

theorem parses_without {b s : Str} {items : List Item} (hb : ∀ c ∈ b, Blank c) (h : ParsesAs (b ++ s) items) : ParsesAs s items := by
  obtain ⟨ts, h1, h2⟩ := h
  refine ⟨ts, ?_, h2⟩
  have := C33_blanks b s [] hb (by simp)
  rw [List.append_nil] at this
  rw [← this, h1]

theorem item_parses {file : List Str} {items : List Item} (hF : FileItems file items) {x : Item} (hx : x ∈ items) :
    ∃ text its, ParsesAs text its ∧ x ∈ its := by
  obtain ⟨per, h, rfl⟩ := hF
  obtain ⟨its, hi, hm⟩ := List.mem_flatten.1 hx
  clear hx
  induction h with
  | nil => cases hi
  | @cons line i file per h _ ih =>
    rcases List.mem_cons.1 hi with rfl | hi
    · exact ⟨line, its, h, hm⟩
    · exact ih hi

/-- A label of a file is read from its name alone. -/
theorem label_parses {file : List Str} {items : List Item} (hF : FileItems file items) {l : ParsedLabel} (hx : .label l ∈ items) :
    ParsesAs (l.name ++ cs!":") [.label { l with exported := false }] := by
  obtain ⟨text, its, ⟨ts, h1, h2⟩, hx⟩ := item_parses hF hx
  obtain ⟨i1, i2⟩ := Echo.parseLoop_made _ (fun hm => by
    obtain ⟨c, t, he, -⟩ := (Echo.good_tokens h1 _ hm : IsName []).first
    cases he) its h2
  exact Echo.item_again (x := .label { l with exported := false }) (fun st hs => by cases hs)
    (fun l' hl => by cases hl; exact i2 l hx) (Echo.good_tokens h1) trivial

theorem fileItems_append {f g : List Str} {is js : List Item} (hf : FileItems f is) (hg : FileItems g js) :
    FileItems (f ++ g) (is ++ js) := by
  obtain ⟨p, hp, rfl⟩ := hf
  obtain ⟨q, hq, rfl⟩ := hg
  exact ⟨p ++ q, List.rel_append hp hq, by simp⟩

theorem fileItems_one {line : Str} {x : Item} (h : ParsesAs line [x]) : FileItems [line] [x] := ⟨[[x]], .cons h .nil, rfl⟩

theorem rowsOf_items {pl : ProgLine} {v : Option Int} (hl : ∀ l ∈ pl.labels, ParsesAs (l.name ++ cs!":") [.label { l with exported := false }])
    (hs : ParsesAs pl.statement.toStr [.stmt pl.statement]) :
    FileItems (withoutColumn (rowsOf pl v)) (pl.labels.map (fun l => Item.label { l with exported := false }) ++ [.stmt pl.statement]) := by
  unfold withoutColumn rowsOf
  rw [List.map_append]
  refine fileItems_append ?_ ?_
  · obtain ⟨ls, st⟩ := pl
    simp only at hl ⊢
    clear hs
    induction ls with
    | nil => exact ⟨[], .nil, rfl⟩
    | cons l ls ih =>
      have h1 : FileItems [(cs!"       " ++ l.name ++ cs!":").drop 6] [Item.label { l with exported := false }] := by
        apply fileItems_one
        exact parses_blanks (b := cs!" ") (by simp [Blank]) (hl l (by simp))
      exact fileItems_append h1 (ih fun l' hl' => hl l' (List.mem_cons_of_mem _ hl'))
  · apply fileItems_one
    have : (column v ++ cs!"     " ++ pl.statement.toStr).drop 6 = cs!"     " ++ pl.statement.toStr := by
      rw [List.append_assoc, List.drop_left' (column_length v)]
    show ParsesAs ((column v ++ cs!"     " ++ pl.statement.toStr).drop 6) _
    rw [this]
    exact parses_blanks (by simp [Blank]) hs

theorem rows_items : ∀ {P : Program} {vs : List (Option Int)}, vs.length = P.length →
    (∀ pl ∈ P, (∀ l ∈ pl.labels, ParsesAs (l.name ++ cs!":") [.label { l with exported := false }]) ∧
      ParsesAs pl.statement.toStr [.stmt pl.statement]) →
    FileItems (withoutColumn (rows P vs)) (plainItems P) := by
  intro P
  induction P with
  | nil => intro vs _ _; exact ⟨[], .nil, rfl⟩
  | cons pl P ih =>
    intro vs hv h
    cases vs with
    | nil => cases hv
    | cons v vs =>
      have h1 := rowsOf_items (v := v) (h pl (by simp)).1 (h pl (by simp)).2
      have h2 := ih (vs := vs) (by simpa using hv) fun q hq => h q (List.mem_cons_of_mem _ hq)
      have := fileItems_append h1 h2
      simpa [withoutColumn, rows, plainItems] using this

theorem listing_items {file : List Str} {items : List Item} (hF : FileItems file items) (ha : ∀ x ∈ items, AtomicItem x)
    {vs : List (Option Int)} (hv : vs.length = (program [] items).length) :
    FileItems (withoutColumn (rows (program [] items) vs)) (plainItems (program [] items)) := by
  refine rows_items hv fun pl hpl => ?_
  obtain ⟨h1, h2⟩ := program_mem hpl
  refine ⟨fun l hl => ?_, ?_⟩
  · rcases h2 l hl with h | h
    · cases h
    · exact label_parses hF h
  · obtain ⟨text, its, hp, hx⟩ := item_parses hF h1
    exact parses_without (b := cs!"    ") (by simp [Blank]) (C88_reads_back_partial text its hp _ hx (ha _ h1))

end Nsasm.Debug
