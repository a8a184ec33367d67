import Verif.Lemmas.Layout
import Verif.Props.Defined

/-! # C74: the layout of a source file does not matter -/

namespace Nsasm.Props
open Nsasm Nsasm.Spec Nsasm.Parse

/-- **C74.** Two files that differ only in layout load as the same module, or fail in the
same way. -/
theorem C74_layout (f g : List Str) (h : SameLayout f g) : Module.loadAsmFile f = Module.loadAsmFile g := by
  unfold Module.loadAsmFile
  rw [sameLayout_load h]

/-- **C74.** Programs whose files differ only in layout assemble alike: the same bytes
reach the output in the same order, and the result is the same. -/
theorem C74_same_output {σ : Type} (fuel : Nat) (fs gs : List (List Str)) (h : List.Forall₂ SameLayout fs gs)
    (sink : Sink σ) (s : σ) :
    Assembler.assembleFiles fuel fs sink s = Assembler.assembleFiles fuel gs sink s := by
  have : Assembler.loadAll fs = Assembler.loadAll gs := by
    induction h with
    | nil => rfl
    | cons h1 _ ih => rw [Assembler.loadAll, Assembler.loadAll, C74_layout _ _ h1, ih]
  unfold Assembler.assembleFiles
  rw [this]

/-- **C74.** Reading a file gives the lines that were written to it. -/
theorem C74_read_back (lines : List Str) (h : ∀ l ∈ lines, '\n' ∉ l) : openFile (fileText lines) = lines :=
  getLines_text lines h

/-- **C74.** A missing newline at the end of a file changes nothing. -/
theorem C74_last_newline (text line : Str) (h : '\n' ∉ line) (hne : line ≠ []) :
    openFile (text ++ '\n' :: line) = openFile (text ++ '\n' :: (line ++ ['\n'])) := by
  have key : ∀ (l cur : Str), '\n' ∉ l → cur ++ l ≠ [] → getLines cur l = getLines cur (l ++ ['\n']) := by
    intro l
    induction l with
    | nil =>
      intro cur _ hc
      rw [List.append_nil] at hc
      simp [getLines, hc]
    | cons c l ih =>
      intro cur hl hc
      simp only [List.mem_cons, not_or] at hl
      rw [List.cons_append, getLines, getLines, if_neg (Ne.symm hl.1), if_neg (Ne.symm hl.1)]
      exact ih _ hl.2 (by simp)
  have outer : ∀ (t cur : Str), getLines cur (t ++ '\n' :: line) = getLines cur (t ++ '\n' :: (line ++ ['\n'])) := by
    intro t
    induction t with
    | nil =>
      intro cur
      simp only [List.nil_append, getLines, if_true]
      rw [key line [] h (by simpa using hne)]
    | cons c t ih =>
      intro cur
      simp only [List.cons_append, getLines]
      rw [ih, ih]
  exact outer text []

/-- **C74.** A file with DOS line ends differs from the one with Unix line ends only in
layout. -/
theorem C74_line_ends (text : Str) : SameLayout (openFile text) (openFile (dosText text)) :=
  sameLayout_dos text []

/-- **C74.** A file made from a string differs from the one read from disk with the same
text only in layout. -/
theorem C74_fake_file (text : Str) : SameLayout (openFile text) (makeFakeFile text) :=
  sameLayout_fake text []

/-- A program on four lines. -/
def tallFile : List Str := [cs!"  .org $8000", cs!"go", cs!"  .entry m8x8", cs!"  rts"]

/-- The same on one line, with a comment. -/
def wideFile : List Str := [cs!"  .org $8000 : go   .entry m8x8 :   rts; done"]

/-- The two differ only in layout. -/
theorem tall_wide : SameLayout tallFile wideFile := by
  have f1 : StatementForm [.dir .org, .lit 0x8000 .word] (.dir ⟨.org, .mkLit 0x8000 .word, .default, .default, []⟩) :=
    .dir (.expr (by decide) (.term (.factor (.comp (.lit 0x8000 .word)))) (by decide) (by decide))
  have f2 : StatementForm [.dir .entry, .ident cs!"m8x8"] (.dir ⟨.entry, .null, (StatusFlags.fromName cs!"m8x8").getD .default, .default, []⟩) :=
    .dir (.convention (by decide) (by decide +kernel) .absent)
  have f3 : StatementForm [.mnem .rts] (.instr ⟨.rts, .none, .imp, .null, .null, .default⟩) :=
    .instr .absent .imp trivial .absent (fun h => absurd rfl h) ⟨by decide +kernel, rfl, rfl, rfl, rfl, rfl, by decide⟩
  have r1 : LineMeans cs!"  .org $8000" _ _ := ⟨rfl, .last .absent f1⟩
  have r2 : LineMeans cs!"go" _ _ := ⟨rfl, .lastLabel ⟨cs!"go", false⟩⟩
  have r3 : LineMeans cs!"  .entry m8x8" _ _ := ⟨rfl, .last .absent f2⟩
  have r4 : LineMeans cs!"  rts" _ _ := ⟨rfl, .last .absent f3⟩
  have r34 : LineMeans cs!"  .entry m8x8 :   rts" [.dir .entry, .ident cs!"m8x8", tok ':', .mnem .rts] _ :=
    ⟨rfl, .stmt .absent f2 (.last .absent f3)⟩
  have r234 : LineMeans cs!"go   .entry m8x8 :   rts" [.ident cs!"go", .dir .entry, .ident cs!"m8x8", tok ':', .mnem .rts] _ :=
    ⟨rfl, .stmt (.present ⟨cs!"go", false⟩) f2 (.last .absent f3)⟩
  refine .trans (.cons _ (.cons _ (.symm (.colon [] (by decide) r3 r4 ?_)))) ?_
  · exact statementForm_open f2
  refine .trans (.cons _ (.symm (.label [] (by decide) r2 r34 ⟨_, rfl⟩ ⟨_, rfl, rfl⟩))) ?_
  refine .trans (.symm (.colon [] (by decide) r1 r234 ?_)) ?_
  · exact statementForm_open f1
  exact .comment cs!"  .org $8000 : go   .entry m8x8 :   rts" cs!" done" []

example : ∃ ws a, Assembler.assembleFiles 40 [tallFile] recorder [] = (ws, .ok a) ∧ ws.length = 1 := by
  obtain ⟨ws, a, h, hc⟩ := assembles_of_check (fuel := 40) (files := [tallFile])
    (fun ws _ => decide (ws.length = 1)) (by decide +kernel)
  exact ⟨ws, a, h, by simpa using hc⟩

end Nsasm.Props
