import Verif.Lemmas.Inline
import Verif.Props.Constants

/-!
# An expression stands for its value

C93: when a constant's name is replaced by its definition, a sum by its result, or an operand by another expression of the same
form that stands for the same value, what is assembled does not change.
-/

namespace Nsasm.Props
open Nsasm Nsasm.Spec Nsasm.Values

theorem whole {fuel : Nat} {files : List (List Str)} {ws : Writes} {a : Assembler}
    (h : Assembler.assembleFiles fuel files recorder [] = (ws, .ok a)) : Whole fuel files a := by
  obtain ⟨order, wss, hA⟩ := assembled h
  exact ⟨fun i m hm => side h hA hm, assembled_publishes hA, hA.unique⟩

/-- **An expression stands for its value.**  When two sets of files that differ in values only are assembled, the same bytes are
written to the same place for a line whose expressions stand for the same values in both.

The full property would allow every operand to be replaced; `RevaluedFile` leaves out those that the analysis of the code looks
at (see `C93_violated`). -/
theorem C93_line_partial {fuel : Nat} {files files' : List (List Str)} (hr : List.Forall₂ RevaluedFile files files') {ws ws' : Writes}
    {a a' : Assembler} (h : Assembler.assembleFiles fuel files recorder [] = (ws, .ok a))
    (h' : Assembler.assembleFiles fuel files' recorder [] = (ws', .ok a')) :
    ∃ (Ps Ps' : Programs) (out out' : Nat → Nat → Writes), WrittenLines files a ws Ps out ∧ WrittenLines files' a' ws' Ps' out' ∧
      ∀ i k, AgreesAt Ps Ps' i k → out' i k = out i k := by
  refine ⟨_, _, _, _, writtenLines h, writtenLines h', fun i k hag => ?_⟩
  have hB := both (o := false) (hr.imp fun _ _ => like_of_revalued) h h'
  obtain ⟨order, wss, hA⟩ := assembled h
  obtain ⟨order', wss', hA'⟩ := assembled h'
  cases hm : a.modules[i]? with
  | none =>
    have hm' : a'.modules[i]? = none := by
      rw [List.getElem?_eq_none_iff] at hm ⊢
      rw [hA'.length, ← hr.length_eq, ← hA.length]; exact hm
    simp [outOf, hm, hm']
  | some m =>
    obtain ⟨-, -, -, -, -, -, m', -, -, hm', -, -, hT⟩ := hB.pair i m hm
    cases hl : m.lines[k]? with
    | none =>
      have hl' : m'.lines[k]? = none := by
        rw [List.getElem?_eq_none_iff] at hl ⊢
        rw [hT.length]; exact hl
      simp [outOf, hm, hm', hl, hl']
    | some l =>
      obtain ⟨l', hl', -⟩ := hT.line k l hl
      exact agrees_out hB (whole h) (whole h') hm hm' hl hl' (line_out hA hm hl) (line_out hA' hm' hl') hag

/-- C93: if the expressions stand for the same values in every line, the writes are the same, in some order. -/
theorem C93_image_partial {fuel : Nat} {files files' : List (List Str)} (hr : List.Forall₂ RevaluedFile files files') {ws ws' : Writes}
    {a a' : Assembler} (h : Assembler.assembleFiles fuel files recorder [] = (ws, .ok a))
    (h' : Assembler.assembleFiles fuel files' recorder [] = (ws', .ok a'))
    (hag : ∀ Ps Ps', ProgramsOf files a.modules Ps → ProgramsOf files' a'.modules Ps' →
      ∀ i k st, HasStatement Ps i k st → AgreesAt Ps Ps' i k) : ws'.Perm ws := by
  obtain ⟨Ps, Ps', out, out', hW, hW', hall⟩ := C93_line_partial hr h h'
  obtain ⟨o, ho, rfl⟩ := hW.whole
  obtain ⟨o', ho', rfl⟩ := hW'.whole
  have hB := both (o := false) (hr.imp fun _ _ => like_of_revalued) h h'
  have hoo : o'.Perm o := by rw [← hr.length_eq] at ho'; exact ho'.trans ho.symm
  refine (hoo.flatMap_right _).trans (List.Perm.of_eq ?_)
  refine List.flatMap_congr fun i hi => ?_
  have hlt : i < a.modules.length := by rw [hW.programs.2.1]; exact List.mem_range.1 (ho.mem_iff.1 hi)
  obtain ⟨-, -, -, -, -, -, m', -, -, hm', -, -, hT⟩ := hB.pair i _ (List.getElem?_eq_getElem hlt)
  rw [hm', List.getElem?_eq_getElem hlt]
  simp only [Option.elim]
  rw [hT.length]
  refine List.flatMap_congr fun k hk => hall i k ?_
  have hP : i < Ps.length := by rw [hW.programs.1, ← hW.programs.2.1]; exact hlt
  obtain ⟨file, items, m, hf, hF, hPe, hm, -⟩ := hW.programs.2.2 i _ _ (List.getElem?_eq_getElem hP)
  obtain ⟨f, items', m₁, hf', hS⟩ := (whole h).side i m hm
  rw [hf] at hf'; cases hf'
  rw [fileItems_unique hF hS.read] at hPe
  rw [List.getElem?_eq_getElem hlt] at hm
  cases hm
  have hPe : Ps[i].2 = program [] items' := hPe
  have hk' : k < (Ps[i].2).length := by
    rw [hPe, ← hS.length]; exact List.mem_range.1 hk
  exact hag Ps Ps' hW.programs hW'.programs i k _ ⟨_, _, _, List.getElem?_eq_getElem hP, List.getElem?_eq_getElem hk'⟩

/-- C93: constants whose definitions stand for the same value have the same value. -/
theorem C93_constants {fuel : Nat} {files files' : List (List Str)} (hr : List.Forall₂ RevaluedFile files files')
    {ws ws' : Writes} {a a' : Assembler} (h : Assembler.assembleFiles fuel files recorder [] = (ws, .ok a))
    (h' : Assembler.assembleFiles fuel files' recorder [] = (ws', .ok a')) :
    ∃ (Ps Ps' : Programs), ProgramsOf files a.modules Ps ∧ ProgramsOf files' a'.modules Ps' ∧
      ∀ (i k i' k' : Nat) (d d' : Directive) (m m' : Module), HasStatement Ps i k (.dir d) → HasStatement Ps' i' k' (.dir d') →
        d.name = .equ → d'.name = .equ → Agrees Ps Ps' i k d.argument i' k' d'.argument →
        a.modules[i]? = some m → a'.modules[i']? = some m' → valueAt m' k' = valueAt m k ∧ (valueAt m k).isSome := by
  refine ⟨_, _, (writtenLines h).programs, (writtenLines h').programs, fun i k i' k' d d' m m' hd hd' hq hq' hag hm hm' => ?_⟩
  have hW := whole h
  have hW' := whole h'
  obtain ⟨n, l, hn, hl, hst⟩ := line_of hW hd
  obtain ⟨n', l', hn', hl', hst'⟩ := line_of hW' hd'
  rw [hm] at hn; cases hn
  rw [hm'] at hn'; cases hn'
  obtain ⟨f, items, m₁, hf, hS⟩ := hW.side i m hm
  obtain ⟨f', items', m₁', hf', hS'⟩ := hW'.side i' m' hm'
  obtain ⟨v, hv, he⟩ := hS.constants k l d hl hst hq
  obtain ⟨v', hv', he'⟩ := hS'.constants k' l' d' hl' hst' hq'
  have := agrees_value (both (o := false) (hr.imp fun _ _ => like_of_revalued) h h') hW hW' hag m m' l l' hm hm' hl hl' v v' he he'
  subst this
  unfold valueAt
  rw [hl, hl']
  simp [hv, hv']

/-- C93: a constant that comes to a number by arithmetic has that number as its value. -/
theorem C93_computed {fuel : Nat} {files : List (List Str)} {ws : Writes} {a : Assembler}
    (h : Assembler.assembleFiles fuel files recorder [] = (ws, .ok a)) :
    ∃ Ps : Programs, ProgramsOf files a.modules Ps ∧
      ∀ (i k : Nat) (d : Directive) (m : Module) (v : Int), HasStatement Ps i k (.dir d) → d.name = .equ →
        Computes Ps i k d.argument v → a.modules[i]? = some m → valueAt m k = some v := by
  refine ⟨_, (writtenLines h).programs, fun i k d m v hd hq hc hm => ?_⟩
  have hW := whole h
  obtain ⟨n, l, hn, hl, hst⟩ := line_of hW hd
  rw [hm] at hn; cases hn
  obtain ⟨f, items, m₁, hf, hS⟩ := hW.side i m hm
  obtain ⟨w, hw, he⟩ := hS.constants k l d hl hst hq
  rw [← computes_value hW hc m l hm hl w he]
  unfold valueAt
  rw [hl]
  exact hw

/-- C93 fails for the operands that the analysis of the code looks at: `rep #$30` says which flags are cleared, and `rep #<flags`
does not, although `flags` is $30. -/
theorem C93_violated : ∃ (files files' : List (List Str)) (ws : Writes) (a : Assembler),
    files = [[cs!" .org $8000", cs!"start .entry m8x8", cs!" rep #$30", cs!" lda #$1234", cs!" rts", cs!"flags .equ $30"]] ∧
    files' = [[cs!" .org $8000", cs!"start .entry m8x8", cs!" rep #<flags", cs!" lda #$1234", cs!" rts", cs!"flags .equ $30"]] ∧
    Assembler.assembleFiles 100 files recorder [] = (ws, .ok a) ∧
    (Assembler.assembleFiles 100 files' recorder []).2 = .err .flagUnknown := by
  obtain ⟨ws, a, h, -⟩ := assembles_of_check (fuel := 100) (files :=
      [[cs!" .org $8000", cs!"start .entry m8x8", cs!" rep #$30", cs!" lda #$1234", cs!" rts", cs!"flags .equ $30"]])
    (fun _ _ => true) (by decide +kernel)
  refine ⟨_, _, ws, a, rfl, rfl, h, ?_⟩
  have key : ∀ r : Res Assembler, (match r with | .err e => decide (e = .flagUnknown) | _ => false) = true →
      r = .err .flagUnknown := by
    intro r hr
    cases r with
    | err e => rw [of_decide_eq_true hr]
    | ok a => cases hr
    | ub u => cases hr
  exact key _ (by decide +kernel)

/-- A program without scopes: a name means the line that it is the label of. -/
theorem points_flat {Ps : Programs} {i k t n : Nat} {name x : Str} {P : Program} {line : ProgLine} {l : ParsedLabel}
    (hP : Ps[i]? = some (name, P)) (hno : ∀ l ∈ P, IsDirective .begin_ l = false) (ht : P[t]? = some line)
    (hl : line.labels[n]? = some l) (hn : l.name = x) : PointsTo Ps i k ⟨none, x⟩ i t := by
  have hne : ∀ a b, ¬ Encloses P a b := by
    rintro a b ⟨-, -, ⟨l, hl, hb⟩, -⟩
    rw [hno l (List.mem_of_getElem? hl)] at hb; cases hb
  exact ⟨name, P, hP, .inl ⟨rfl, .inr ⟨fun a h => absurd h (hne _ _), n, line, l, ht, hl, hn, .inr fun a => hne _ _⟩⟩⟩

/-- `sta size + 1` and `sta $0004` agree where `size` is 3; and so do `.dw here, 2` and `.dw go, two`, where `here` is a constant
for the label `go`, and `two` is `size - 1`. -/
example : ∃ Ps Ps' : Programs,
    Ps = [(cs!"", [⟨[], .instr ⟨.sta, .none, .dir_w, .bin .plus (.ident ⟨none, cs!"size"⟩ .unknown) (.lit 1 .word), .null, .default⟩⟩,
      ⟨[⟨cs!"size", false⟩], .dir ⟨.equ, .lit 3 .word, ⟨.off, .off, .off, .off⟩, .default, []⟩⟩,
      ⟨[], .dir ⟨.dw, .null, ⟨.off, .off, .off, .off⟩, .default, [.ident ⟨none, cs!"here"⟩ .unknown, .lit 2 .word]⟩⟩,
      ⟨[⟨cs!"go", false⟩], .instr ⟨.rts, .none, .imp, .null, .null, .default⟩⟩,
      ⟨[⟨cs!"here", false⟩], .dir ⟨.equ, .ident ⟨none, cs!"go"⟩ .unknown, ⟨.off, .off, .off, .off⟩, .default, []⟩⟩,
      ⟨[⟨cs!"two", false⟩], .dir ⟨.equ, .bin .minus (.ident ⟨none, cs!"size"⟩ .unknown) (.lit 1 .word), ⟨.off, .off, .off, .off⟩,
        .default, []⟩⟩])] ∧
    Ps' = [(cs!"", [⟨[], .instr ⟨.sta, .none, .dir_w, .lit 4 .word, .null, .default⟩⟩,
      ⟨[⟨cs!"size", false⟩], .dir ⟨.equ, .lit 3 .word, ⟨.off, .off, .off, .off⟩, .default, []⟩⟩,
      ⟨[], .dir ⟨.dw, .null, ⟨.off, .off, .off, .off⟩, .default, [.ident ⟨none, cs!"go"⟩ .unknown, .ident ⟨none, cs!"two"⟩ .unknown]⟩⟩,
      ⟨[⟨cs!"go", false⟩], .instr ⟨.rts, .none, .imp, .null, .null, .default⟩⟩,
      ⟨[⟨cs!"here", false⟩], .dir ⟨.equ, .ident ⟨none, cs!"go"⟩ .unknown, ⟨.off, .off, .off, .off⟩, .default, []⟩⟩,
      ⟨[⟨cs!"two", false⟩], .dir ⟨.equ, .bin .minus (.ident ⟨none, cs!"size"⟩ .unknown) (.lit 1 .word), ⟨.off, .off, .off, .off⟩,
        .default, []⟩⟩])] ∧
    AgreesAt Ps Ps' 0 0 ∧ AgreesAt Ps Ps' 0 2 := by
  refine ⟨_, _, rfl, rfl, ⟨_, _, ⟨_, _, _, rfl, rfl⟩, ⟨_, _, _, rfl, rfl⟩, .cons ?_ (.cons .nothing .nil)⟩,
    ⟨_, _, ⟨_, _, _, rfl, rfl⟩, ⟨_, _, _, rfl, rfl⟩, .cons ?_ (.cons ?_ .nil)⟩⟩
  · refine .number (.plus (.constant _ (points_flat (t := 1) (n := 0) rfl (by decide +kernel) rfl rfl rfl)
      ⟨_, _, _, rfl, rfl⟩ rfl (.number ..)) (.number ..)) (.number ..)
  · refine .inline _ (points_flat (t := 4) (n := 0) rfl (by decide +kernel) rfl rfl rfl) ⟨_, _, _, rfl, rfl⟩ rfl
      (.place (t := 3) _ _ (points_flat (n := 0) rfl (by decide +kernel) rfl rfl rfl)
        (points_flat (n := 0) rfl (by decide +kernel) rfl rfl rfl) ⟨_, _, _, rfl, rfl⟩ (fun _ h => nomatch h))
  · refine .number (.number ..) (.constant _ (points_flat (t := 5) (n := 0) rfl (by decide +kernel) rfl rfl rfl)
      ⟨_, _, _, rfl, rfl⟩ rfl (.minus (x := 3) (y := 1) (.constant _ (points_flat (t := 1) (n := 0) rfl (by decide +kernel) rfl rfl rfl)
        ⟨_, _, _, rfl, rfl⟩ rfl (.number ..)) (.number ..)))

/-- The hypotheses can be met, and the two sets of files assemble to the same. -/
example : ∃ (files files' : List (List Str)) (ws ws' : Writes) (a a' : Assembler), List.Forall₂ RevaluedFile files files' ∧
    Assembler.assembleFiles 100 files recorder [] = (ws, .ok a) ∧ Assembler.assembleFiles 100 files' recorder [] = (ws', .ok a') ∧
    ws = [(0x8000, [0x8d, 0x04, 0x00]), (0x8003, [0x60]), (0x8004, [0x03, 0x80, 0x02, 0x00])] ∧
    ws' = [(0x8000, [0x8d, 0x04, 0x00]), (0x8003, [0x60]), (0x8004, [0x03, 0x80, 0x02, 0x00])] := by
  obtain ⟨ws, a, h, hc⟩ := assembles_of_check (fuel := 100) (files :=
      [[cs!" .org $8000", cs!"start .entry m8x8", cs!" sta size + 1", cs!"size .equ 3", cs!"go rts", cs!" .dw here, 2",
        cs!"here .equ go", cs!"two .equ size - 1"]])
    (fun ws _ => decide (ws = [(0x8000, [0x8d, 0x04, 0x00]), (0x8003, [0x60]), (0x8004, [0x03, 0x80, 0x02, 0x00])]))
    (by decide +kernel)
  obtain ⟨ws', a', h', hc'⟩ := assembles_of_check (fuel := 100) (files :=
      [[cs!" .org $8000", cs!"start .entry m8x8", cs!" sta $0004", cs!"size .equ 3", cs!"go rts", cs!" .dw go, two",
        cs!"here .equ go", cs!"two .equ size - 1"]])
    (fun ws _ => decide (ws = [(0x8000, [0x8d, 0x04, 0x00]), (0x8003, [0x60]), (0x8004, [0x03, 0x80, 0x02, 0x00])]))
    (by decide +kernel)
  exact ⟨_, _, ws, ws', a, a', revalued_of_test (by decide +kernel), h, h', of_decide_eq_true hc, of_decide_eq_true hc'⟩

end Nsasm.Props
