import Verif.Lemmas.SuffixText
import Verif.Props.Split
import Verif.Props.Unused

/-!
# A size suffix only asserts

C104: a size suffix never decides what is assembled.  It says what size the programmer expects, and is checked against the flags:
files with the suffix are assembled exactly as the files without it, or rejected with an error about the suffix before anything is
written.
-/

namespace Nsasm.Props
open Nsasm Nsasm.Spec Nsasm.Sized

/-- C104: files are assembled exactly as they are without some of their size suffixes, with the same writes and the same answers,
and fail exactly as they do without them, unless they are rejected because of a suffix, before anything is written. -/
theorem C104_same_outcome {σ : Type} (fuel : Nat) {files files' : List (List Str)}
    (h : List.Forall₂ (fun f f' => f' = f ∨ SuffixesRemoved f f') files files') (sink : Sink σ) (s : σ) :
    (∃ e, IsSuffixError e ∧ Assembler.assembleFiles fuel files sink s = (s, .err e)) ∨
    ((Assembler.assembleFiles fuel files' sink s).1 = (Assembler.assembleFiles fuel files sink s).1 ∧
      SameOutcome (Assembler.assembleFiles fuel files sink s).2 (Assembler.assembleFiles fuel files' sink s).2) :=
  assembleFiles_u fuel h sink s

/-- C104: leaving size suffixes out of files that are assembled changes nothing. -/
theorem C104_removed {fuel : Nat} {files files' : List (List Str)}
    (h : List.Forall₂ (fun f f' => f' = f ∨ SuffixesRemoved f f') files files') {ws : Writes} {a : Assembler}
    (ha : Assembler.assembleFiles fuel files recorder [] = (ws, .ok a)) :
    ∃ a', Assembler.assembleFiles fuel files' recorder [] = (ws, .ok a') ∧ EqualAnswers a a' := by
  rcases C104_same_outcome fuel h recorder [] with ⟨e, -, he⟩ | ⟨h1, h2⟩
  · rw [ha] at he; cases he
  · rw [ha] at h1 h2
    generalize Assembler.assembleFiles fuel files' recorder [] = x at h1 h2
    obtain ⟨ws', r⟩ := x
    cases h1
    cases h2 with
    | ok h => exact ⟨_, rfl, h⟩

/-- C104: adding size suffixes to files that are assembled changes nothing, or the files are rejected because of a suffix and
nothing is written. -/
theorem C104_added {fuel : Nat} {files files' : List (List Str)}
    (h : List.Forall₂ (fun f f' => f' = f ∨ SuffixesRemoved f f') files files') {ws : Writes} {a' : Assembler}
    (ha : Assembler.assembleFiles fuel files' recorder [] = (ws, .ok a')) :
    (∃ a, Assembler.assembleFiles fuel files recorder [] = (ws, .ok a) ∧ EqualAnswers a a') ∨
    (∃ e, IsSuffixError e ∧ Assembler.assembleFiles fuel files recorder [] = ([], .err e)) := by
  rcases C104_same_outcome fuel h recorder [] with he | ⟨h1, h2⟩
  · exact .inr he
  · rw [ha] at h1 h2
    generalize Assembler.assembleFiles fuel files recorder [] = x at h1 h2
    obtain ⟨ws', r⟩ := x
    cases h1
    cases h2 with
    | ok h => exact .inl ⟨_, rfl, h⟩

/-- C104, on the text: files in which suffixes are left out of some of the lines are read, and assembled to the same writes with
the same answers, if the files with the suffixes are. -/
theorem C104_text {fuel : Nat} {files files' : List (List Str)}
    (h : List.Forall₂ (List.Forall₂ SuffixesLeftOut) files files') {ws : Writes} {a : Assembler}
    (ha : Assembler.assembleFiles fuel files recorder [] = (ws, .ok a)) :
    ∃ a', Assembler.assembleFiles fuel files' recorder [] = (ws, .ok a') ∧ EqualAnswers a a' := by
  refine C104_removed ?_ ha
  have hl : ∃ ms, Assembler.loadAll files = .ok ms := by
    unfold Assembler.assembleFiles at ha
    cases hl : Assembler.loadAll files with
    | ok ms => exact ⟨ms, rfl⟩
    | err e => rw [hl] at ha; cases ha
    | ub u => rw [hl] at ha; cases ha
  obtain ⟨ms, hl⟩ := hl
  clear ha
  induction h generalizing ms with
  | nil => exact .nil
  | cons hx _ ih =>
    rw [Assembler.loadAll] at hl
    obtain ⟨m, h1, hl⟩ := Res.bind_eq_ok.mp hl
    obtain ⟨ms', h2, -⟩ := Res.bind_eq_ok.mp hl
    obtain ⟨items, h3, -⟩ := loadAsmFile_ok h1
    exact .cons (.inr (file_leftOut hx h3)) (ih ms' h2)

/-! ## The hypotheses can be met -/

/-- Code with suffixes. -/
def sizedSource : List Str := [cs!" .org $8000", cs!"go .entry m8x16", cs!" lda.b #1", cs!" ldx.w #go", cs!" sta.b $12", cs!" rts"]

/-- The same with one suffix. -/
def plainSource : List Str := [cs!" .org $8000", cs!"go .entry m8x16", cs!" lda #1", cs!" ldx.w #go", cs!" sta $12", cs!" rts"]

/-- The same with a wrong suffix. -/
def wrongSource : List Str := [cs!" .org $8000", cs!"go .entry m8x16", cs!" lda.w #1", cs!" ldx.w #go", cs!" sta $12", cs!" rts"]

instance (it it' : Item) : Decidable (Unsized it it') :=
  if h : it' = it then .isTrue (h ▸ .same it)
  else match it, it' with
    | .stmt (.instr i), .stmt (.instr j) =>
      if hj : j = unsized i then .isTrue (hj ▸ .removed i)
      else .isFalse fun hu => by
        cases hu with
        | same => exact h rfl
        | removed => exact hj rfl
    | .label l, it' => .isFalse fun hu => by cases hu; exact h rfl
    | .stmt (.dir d), it' => .isFalse fun hu => by cases hu; exact h rfl
    | .stmt (.instr i), .label l => .isFalse fun hu => by cases hu
    | .stmt (.instr i), .stmt (.dir d) => .isFalse fun hu => by cases hu

/-- Checks that the items of the second file are those of the first without some suffixes. -/
def unsizedTest (file file' : List Str) : Bool :=
  match readItems file, readItems file' with
  | some xs, some ys => decide (xs.length = ys.length) && (xs.zip ys).all fun p => decide (Unsized p.1 p.2)
  | _, _ => false

theorem removed_of_test {file file' : List Str} (h : unsizedTest file file' = true) : SuffixesRemoved file file' := by
  unfold unsizedTest at h
  split at h
  · rename_i xs ys hx hy
    rw [Bool.and_eq_true] at h
    refine ⟨xs, ys, fileItems_of_read hx, fileItems_of_read hy, List.forall₂_iff_zip.mpr ⟨of_decide_eq_true h.1, fun {a b} hab => ?_⟩⟩
    exact of_decide_eq_true (List.all_eq_true.mp h.2 _ hab)
  · cases h

example : SuffixesRemoved sizedSource plainSource ∧ SuffixesRemoved wrongSource plainSource :=
  ⟨removed_of_test (by decide +kernel), removed_of_test (by decide +kernel)⟩

/-- With the right suffixes and with fewer of them the same is written; the wrong suffix is complained about. -/
example : ∃ a a', Assembler.assembleFiles 40 [sizedSource] recorder [] = ([(0x8000, [0xa9, 0x01]), (0x8002, [0xa2, 0x00, 0x80]),
      (0x8005, [0x85, 0x12]), (0x8007, [0x60])], .ok a) ∧
    Assembler.assembleFiles 40 [plainSource] recorder [] = ([(0x8000, [0xa9, 0x01]), (0x8002, [0xa2, 0x00, 0x80]),
      (0x8005, [0x85, 0x12]), (0x8007, [0x60])], .ok a') ∧
    failure [wrongSource] = some (.inl .suffixContradiction) := by
  obtain ⟨ws, a, h, hc⟩ := assembles_of_check (fuel := 40) (files := [sizedSource]) (fun ws _ => decide (
    ws = [(0x8000, [0xa9, 0x01]), (0x8002, [0xa2, 0x00, 0x80]), (0x8005, [0x85, 0x12]), (0x8007, [0x60])])) (by decide +kernel)
  have hw := of_decide_eq_true hc
  subst hw
  obtain ⟨a', h', -⟩ := C104_removed (files' := [plainSource]) (.cons (.inr (removed_of_test (by decide +kernel))) .nil) h
  exact ⟨a, a', h, h', by decide +kernel⟩

/-- A line, and the line without its suffix. -/
example : SuffixesLeftOut cs!" lda.b #$01 ; one" cs!" lda #$01" := by
  refine .inr ⟨_, _, _, rfl, rfl, .last .absent (.instr (m := .lda) (.present .b) (.imm (.term (.factor (.comp (.lit 1 .byte)))))
    trivial .absent (fun h => absurd rfl h) (i := ⟨.lda, .b, .imm_fm, .mkLit 1 .byte, .null, .default⟩)
    ⟨by decide +kernel, rfl, rfl, rfl, rfl, rfl, by decide⟩), ?_⟩
  exact .keep _ (.leave _ (leftOut_refl _))

end Nsasm.Props
