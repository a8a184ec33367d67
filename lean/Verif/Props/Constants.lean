import Verif.Lemmas.ConstantsLink

/-!
# Values move nothing

C89: when the value of a constant, a value in a data directive, or an operand is replaced by another one of the same form,
everything stays where it was, and nothing changes but the bytes that depend on it.
-/

namespace Nsasm.Props
open Nsasm Nsasm.Spec Nsasm.Values

/-- C89: the first pass.  The same lines are reached in the same states, and every line that has a place has the same one; or
there is the same error. -/
theorem C89_same_layout {f f' : List Str} (hr : RevaluedFile f f') (fuel : Nat) :
    (∀ m, (do let m ← Module.loadAsmFile f; m.runFirstPass fuel) = .ok m →
      ∃ m', (do let m ← Module.loadAsmFile f'; m.runFirstPass fuel) = .ok m' ∧ m'.name = m.name ∧ m'.globals = m.globals ∧
        List.Forall₂ (fun l l' => l'.labels = l.labels ∧ l'.reached = l.reached ∧ l'.incoming = l.incoming ∧
          l'.value = l.value ∧ l'.statement.serializedSize = l.statement.serializedSize) m.lines m'.lines) ∧
    (∀ e, (do let m ← Module.loadAsmFile f; m.runFirstPass fuel) = .err e →
      (do let m ← Module.loadAsmFile f'; m.runFirstPass fuel) = .err e) := by
  have hb := firstPass_blank (like_of_revalued hr) fuel
  constructor
  · intro m hm
    rw [hm] at hb
    cases hx : (do let m ← Module.loadAsmFile f'; m.runFirstPass fuel) with
    | err e => rw [hx] at hb; cases hb
    | ub u => rw [hx] at hb; cases hb
    | ok m' =>
      rw [hx] at hb
      have hb : blankModule false m = blankModule false m' := Res.ok.inj hb
      refine ⟨m', rfl, (congrArg Module.name hb :).symm, (congrArg Module.globals hb :).symm, ?_⟩
      have hl : m.lines.map (blankLine false) = m'.lines.map (blankLine false) := (congrArg Module.lines hb :)
      have : ∀ ls ls' : List Line, ls.map (blankLine false) = ls'.map (blankLine false) →
          List.Forall₂ (fun l l' : Line => l'.labels = l.labels ∧ l'.reached = l.reached ∧ l'.incoming = l.incoming ∧
            l'.value = l.value ∧ l'.statement.serializedSize = l.statement.serializedSize) ls ls' := by
        intro ls
        induction ls with
        | nil =>
          intro ls' h
          cases ls' with
          | nil => exact .nil
          | cons => cases h
        | cons l ls ih =>
          intro ls' h
          cases ls' with
          | nil => cases h
          | cons l' ls' =>
            rw [List.map_cons, List.map_cons] at h
            obtain ⟨h1, h2⟩ := List.cons.inj h
            refine .cons ⟨(congrArg Line.labels h1 :).symm, (congrArg Line.reached h1 :).symm, (congrArg Line.incoming h1 :).symm,
              (congrArg Line.value h1 :).symm, ?_⟩ (ih ls' h2)
            have h3 : blank false l.statement = blank false l'.statement := (congrArg Line.statement h1 :)
            rw [← size_blank (o := false), ← h3, size_blank]
      exact this _ _ hl
  · intro e he
    rw [he] at hb
    cases hx : (do let m ← Module.loadAsmFile f'; m.runFirstPass fuel) with
    | err e' => rw [hx] at hb; cases hb; rfl
    | ub u => rw [hx] at hb; cases hb
    | ok m' => rw [hx] at hb; cases hb

/-- What is written for each line: `out i k` for line `k` of file `i`. -/
structure WrittenLines (files : List (List Str)) (a : Assembler) (ws : Writes) (Ps : Programs) (out : Nat → Nat → Writes) :
    Prop where
  programs : ProgramsOf files a.modules Ps
  whole : ∃ order : List Nat, order.Perm (List.range files.length) ∧
    ws = order.flatMap fun i => ((a.modules[i]?).elim [] fun m => (List.range m.lines.length).flatMap (out i))
  line : ∀ (i k : Nat) (m : Module) (l : Line), a.modules[i]? = some m → m.lines[k]? = some l →
    ∃ externs ctx name P, Publishes a.modules externs ∧ Ps[i]? = some (name, P) ∧ Sees P m externs k ctx ∧
      LineWrites ctx l (out i k)

theorem writtenLines {fuel : Nat} {files : List (List Str)} {ws : Writes} {a : Assembler}
    (h : Assembler.assembleFiles fuel files recorder [] = (ws, .ok a)) :
    WrittenLines files a ws (programsOf files a) (outOf a) := by
  obtain ⟨order, wss, hA⟩ := assembled h
  refine ⟨⟨?_, hA.length, ?_⟩, ⟨order, hA.perm, ?_⟩, ?_⟩
  · simp [programsOf, hA.length]
  · intro i name P hP
    obtain ⟨m, f, hm, hf⟩ := module_of hP
    obtain ⟨f', items, m₁, hf', hS⟩ := side h hA hm
    rw [hf] at hf'; cases hf'
    rw [programsOf_get hm hf] at hP
    cases hP
    exact ⟨f, items, m, hf, hS.read, fileProgram_of hS.read, hm, rfl⟩
  · have := feeds_recorder_eq hA.feeds
    rw [this, List.nil_append]
    exact writes_out hA
  · intro i k m l hm hl
    obtain ⟨f, items, m₁, hf, hS⟩ := side h hA hm
    refine ⟨_, _, _, _, assembled_publishes hA, programsOf_get hm hf, ?_, line_out hA hm hl⟩
    rw [fileProgram_of hS.read]
    exact fun id v => lookup_means hS.names _ hl id v

/-- **Values move nothing.**  When two sets of files that differ in values only are assembled, a line of the one is written to
where the corresponding line of the other is written, with as many bytes; and with the same bytes if neither the statement nor
anything it depends on was changed. -/
theorem C89_image {fuel : Nat} {files files' : List (List Str)} (hr : List.Forall₂ RevaluedFile files files') {ws ws' : Writes}
    {a a' : Assembler} (h : Assembler.assembleFiles fuel files recorder [] = (ws, .ok a))
    (h' : Assembler.assembleFiles fuel files' recorder [] = (ws', .ok a')) :
    ∃ (Ps Ps' : Programs) (out out' : Nat → Nat → Writes), WrittenLines files a ws Ps out ∧ WrittenLines files' a' ws' Ps' out' ∧
      ∀ i k, places (out' i k) = places (out i k) ∧ (Unaffected Ps Ps' i k → out' i k = out i k) := by
  refine ⟨_, _, _, _, writtenLines h, writtenLines h', fun i k => ?_⟩
  have hB := both (o := false) (hr.imp fun _ _ => like_of_revalued) h h'
  obtain ⟨order, wss, hA⟩ := assembled h
  obtain ⟨order', wss', hA'⟩ := assembled h'
  cases hm : a.modules[i]? with
  | none =>
    have hm' : a'.modules[i]? = none := by
      rw [List.getElem?_eq_none_iff] at hm ⊢
      rw [hA'.length, ← hr.length_eq, ← hA.length]; exact hm
    simp [outOf, hm, hm']
  | some m =>
    obtain ⟨-, -, -, -, -, -, m', -, -, hm', -, -, hT⟩ := hB.pair i m hm
    cases hl : m.lines[k]? with
    | none =>
      have hl' : m'.lines[k]? = none := by
        rw [List.getElem?_eq_none_iff] at hl ⊢
        rw [hT.length]; exact hl
      simp [outOf, hm, hm', hl, hl']
    | some l =>
      obtain ⟨l', hl', -⟩ := hT.line k l hl
      exact same_out hB hm hm' hl hl' (line_out hA hm hl) (line_out hA' hm' hl')

theorem filled_places (ws : Writes) : allFilled ws = (places ws).flatMap fun p => (List.range p.2).map (wrapped p.1) := by
  unfold allFilled places
  rw [List.flatMap_map]
  rfl

/-- C89: the writes go to the same places, in some order, and the assembler contains the same addresses. -/
theorem C89_same_places {fuel : Nat} {files files' : List (List Str)} (hr : List.Forall₂ RevaluedFile files files')
    {ws ws' : Writes} {a a' : Assembler} (h : Assembler.assembleFiles fuel files recorder [] = (ws, .ok a))
    (h' : Assembler.assembleFiles fuel files' recorder [] = (ws', .ok a')) :
    (places ws').Perm (places ws) ∧ ∀ x, a'.contains x = a.contains x := by
  have hp : (places ws').Perm (places ws) := by
    obtain ⟨Ps, Ps', out, out', hW, hW', hall⟩ := C89_image hr h h'
    obtain ⟨o, ho, rfl⟩ := hW.whole
    obtain ⟨o', ho', rfl⟩ := hW'.whole
    have hB := both (o := false) (hr.imp fun _ _ => like_of_revalued) h h'
    unfold places
    rw [List.map_flatMap, List.map_flatMap]
    have hoo : o'.Perm o := by rw [← hr.length_eq] at ho'; exact ho'.trans ho.symm
    refine (hoo.flatMap_right _).trans (List.Perm.of_eq ?_)
    refine List.flatMap_congr fun i hi => ?_
    have hlt : i < a.modules.length := by rw [hW.programs.2.1]; exact List.mem_range.1 (ho.mem_iff.1 hi)
    obtain ⟨-, -, -, -, -, -, m', -, -, hm', -, -, hT⟩ := hB.pair i _ (List.getElem?_eq_getElem hlt)
    rw [hm', List.getElem?_eq_getElem hlt]
    simp only [Option.elim]
    rw [hT.length, List.map_flatMap, List.map_flatMap]
    exact List.flatMap_congr fun k _ => (hall i k).1
  refine ⟨hp, fun x => ?_⟩
  obtain ⟨vs, hf, -, hc⟩ := C44_written_once h
  obtain ⟨vs', hf', -, hc'⟩ := C44_written_once h'
  have e := feeds_recorder_eq hf
  have e' := feeds_recorder_eq hf'
  rw [List.nil_append] at e e'
  subst e e'
  rw [Bool.eq_iff_iff, hc, hc', filled_places, filled_places]
  exact (hp.flatMap_right _).mem_iff

/-- C89: a label keeps its value, and so does a constant that was not changed and depends on nothing that was. -/
theorem C89_same_values {fuel : Nat} {files files' : List (List Str)} (hr : List.Forall₂ RevaluedFile files files')
    {ws ws' : Writes} {a a' : Assembler} (h : Assembler.assembleFiles fuel files recorder [] = (ws, .ok a))
    (h' : Assembler.assembleFiles fuel files' recorder [] = (ws', .ok a')) :
    ∃ (Ps Ps' : Programs), ProgramsOf files a.modules Ps ∧ ProgramsOf files' a'.modules Ps' ∧
      ∀ (i k : Nat) (m m' : Module), a.modules[i]? = some m → a'.modules[i]? = some m' → Steady Ps Ps' i k →
        valueAt m' k = valueAt m k :=
  ⟨_, _, (writtenLines h).programs, (writtenLines h').programs,
    fun _ _ m m' hm hm' hs => steady_value (both (o := false) (hr.imp fun _ _ => like_of_revalued) h h') hs m m' hm hm'⟩

/-- C89: a name that is not the name of a constant, in none of the files, stands for a line that has the same value. -/
theorem C89_labels_steady {Ps Ps' : Programs} {id : FullId}
    (hno : ∀ q ∈ Ps, ∀ pl ∈ q.2, (∃ l ∈ pl.labels, l.name = id.name) → IsDirective .equ pl = false) {i k j t : Nat}
    (h : PointsTo Ps i k id j t) : Steady Ps Ps' j t := by
  have key : ∀ (name : Str) (Q : Program) (scope : Option Nat), Ps[j]? = some (name, Q) → Defines Q scope id.name t →
      Steady Ps Ps' j t := by
    rintro name Q scope hQ ⟨n, line, l, hl, hn, he, -⟩
    refine .place ⟨name, Q, line.labels, hQ, hl⟩ fun d hd hq => ?_
    have := hno _ (List.mem_of_getElem? hQ) line (List.mem_of_getElem? hl) ⟨l, List.mem_of_getElem? hn, he⟩
    unfold IsDirective at this
    rw [hd] at this
    simp [hq] at this
  unfold PointsTo at h
  cases hm : id.module with
  | some other =>
    rw [hm] at h
    obtain ⟨Q, hQ, hd⟩ := h
    exact key _ Q none hQ hd
  | none =>
    rw [hm] at h
    obtain ⟨name, P, hP, ⟨rfl, hd⟩ | ⟨-, Q, hQ, hd⟩⟩ := h
    · rcases hd with ⟨s, -, hd, -⟩ | ⟨-, hd⟩
      · exact key name P (some s) hP hd
      · exact key name P none hP hd
    · exact key _ Q none hQ hd

/-- A call in a program with a constant depends on nothing that changes, whatever happens to the constant. -/
example (e : Expr) : Unaffected
    [(cs!"main", [⟨[], .instr ⟨.jsr, .none, .dir_w, .ident ⟨none, cs!"go"⟩ .unknown, .null, .default⟩⟩,
      ⟨[⟨cs!"go", false⟩], .instr ⟨.rts, .none, .imp, .null, .null, .default⟩⟩,
      ⟨[⟨cs!"size", false⟩], .dir ⟨.equ, .mkLit 3 .word, ⟨.off, .off, .off, .off⟩, .default, []⟩⟩])]
    [(cs!"main", [⟨[], .instr ⟨.jsr, .none, .dir_w, .ident ⟨none, cs!"go"⟩ .unknown, .null, .default⟩⟩,
      ⟨[⟨cs!"go", false⟩], .instr ⟨.rts, .none, .imp, .null, .null, .default⟩⟩,
      ⟨[⟨cs!"size", false⟩], .dir ⟨.equ, e, ⟨.off, .off, .off, .off⟩, .default, []⟩⟩])] 0 0 := by
  refine ⟨_, ⟨_, _, _, rfl, rfl⟩, ⟨_, _, _, rfl, rfl⟩, ?_⟩
  rintro x (rfl | rfl) id ⟨t, ht⟩ j k hp
  · cases ht
    refine C89_labels_steady ?_ hp
    decide +kernel
  · cases ht

/-- The hypotheses can be met.  A constant, an operand, and two values of a table are changed, in two files.  All stays where it
was; the constant needs three bytes now, but the instructions that it stands in do not get longer. -/
example : ∃ (files files' : List (List Str)) (ws ws' : Writes) (a a' : Assembler), List.Forall₂ RevaluedFile files files' ∧
    Assembler.assembleFiles 100 files recorder [] = (ws, .ok a) ∧ Assembler.assembleFiles 100 files' recorder [] = (ws', .ok a') ∧
    ws = [(0x8000, [0x8d, 0x03, 0x00]), (0x8003, [0x69, 0x01]), (0x8005, [0x20, 0x09, 0x80]), (0x8008, [0x60]),
      (0x8009, [0xae, 0x00, 0x90]), (0x800c, [0x60]), (0x9000, [0x01, 0x02, 0x03])] ∧
    ws' = [(0x8000, [0x8d, 0x56, 0x34]), (0x8003, [0x69, 0x07]), (0x8005, [0x20, 0x09, 0x80]), (0x8008, [0x60]),
      (0x8009, [0xae, 0x00, 0x90]), (0x800c, [0x60]), (0x9000, [0x01, 0x56, 0x09])] := by
  obtain ⟨ws, a, h, hc⟩ := assembles_of_check (fuel := 100) (files :=
      [[cs!".module main", cs!" .org $8000", cs!"start .entry m8x8", cs!" sta size", cs!" adc #1", cs!" jsr go", cs!" rts",
        cs!"go .entry m8x8", cs!" ldx other::table", cs!" rts", cs!"size .equ 3"],
       [cs!".module other", cs!" .org $9000", cs!"table .db 1, 2, 3"]])
    (fun ws _ => decide (
      ws = [(0x8000, [0x8d, 0x03, 0x00]), (0x8003, [0x69, 0x01]), (0x8005, [0x20, 0x09, 0x80]), (0x8008, [0x60]),
        (0x8009, [0xae, 0x00, 0x90]), (0x800c, [0x60]), (0x9000, [0x01, 0x02, 0x03])]))
    (by decide +kernel)
  obtain ⟨ws', a', h', hc'⟩ := assembles_of_check (fuel := 100) (files :=
      [[cs!".module main", cs!" .org $8000", cs!"start .entry m8x8", cs!" sta size", cs!" adc #7", cs!" jsr go", cs!" rts",
        cs!"go .entry m8x8", cs!" ldx other::table", cs!" rts", cs!"size .equ $123456"],
       [cs!".module other", cs!" .org $9000", cs!"table .db 1, main::size, 9"]])
    (fun ws _ => decide (
      ws = [(0x8000, [0x8d, 0x56, 0x34]), (0x8003, [0x69, 0x07]), (0x8005, [0x20, 0x09, 0x80]), (0x8008, [0x60]),
        (0x8009, [0xae, 0x00, 0x90]), (0x800c, [0x60]), (0x9000, [0x01, 0x56, 0x09])]))
    (by decide +kernel)
  exact ⟨_, _, ws, ws', a, a', revalued_of_test (by decide +kernel), h, h', of_decide_eq_true hc, of_decide_eq_true hc'⟩

end Nsasm.Props
