import Verif.Lemmas.Defined
import Verif.Props.Link

/-! # C72: assembling does not crash -/

namespace Nsasm.Props
open Nsasm Nsasm.Spec

/-- **Assembling is defined** for files that keep within some bounds for the values of names: it returns, with success
or an error, whatever the files, their order and the sink. -/
theorem C72_defined_partial {A : Str → Int → Prop} {files : List (List Str)} (hb : ∀ f ∈ files, BoundedFile A f)
    {σ : Type} {sink : Sink σ} (hsink : ∀ s a bs u, (sink s a bs).2 ≠ .ub u) (fuel : Nat) (s : σ) (u : Ub) :
    (Assembler.assembleFiles fuel files sink s).2 ≠ .ub u := by
  have hs : SinkDefined sink := fun s a bs => noUb_of_ne (hsink s a bs)
  obtain ⟨h1, h2⟩ := loadAll_stages hb
  refine ne_of_noUb ?_ u
  unfold Assembler.assembleFiles
  cases hl : Assembler.loadAll files with
  | err => trivial
  | ub => rw [hl] at h1; exact h1
  | ok ms => exact assembler_noUb (h2 ms hl) hs s

/-- **Plain files are assembled without a crash.** -/
theorem C72_plain_partial {files : List (List Str)} (h : ∀ f ∈ files, PlainFile f) {σ : Type} {sink : Sink σ}
    (hsink : ∀ s a bs u, (sink s a bs).2 ≠ .ub u) (fuel : Nat) (s : σ) (u : Ub) :
    (Assembler.assembleFiles fuel files sink s).2 ≠ .ub u :=
  C72_defined_partial (fun f hf => plain_bounded (h f hf)) hsink fuel s u

/-- **Loading is defined** if no expression on a line can overflow, whatever the statements are. -/
theorem C72_loading {A : Str → Int → Prop} {file : List Str} (h : ∀ e, WrittenIn file e → Spec.Tame A e) (u : Ub) :
    Module.loadAsmFile file ≠ .ub u := ne_of_noUb (loadAsmFile_noUb h) u

/-- **Loading plain lines is defined.** -/
theorem C72_loading_lines {file : List Str} (h : ∀ line ∈ file, ∀ ts, tokenize line = .ok ts → ModestLine ts) (u : Ub) :
    Module.loadAsmFile file ≠ .ub u :=
  C72_loading (A := AllAddresses)
    (fun _ he => modest_tame (fun n v hv => ⟨by have := hv.1; omega, hv.2⟩) h he) u

/-! ## The conditions can be met -/

/-- A program with a constant, a subroutine in another module, a loop and a block move. -/
def plainMain : List Str :=
  [cs!".module main", cs!"count .equ $10", cs!" .org $8000", cs!"start .entry m8x8", cs!" lda #count", cs!"loop: pha",
    cs!" jsl @other::work", cs!" pla", cs!" dec a", cs!" bne loop", cs!" mvn #$7e,#$7f", cs!" rts"]

/-- The other module. -/
def plainOther : List Str :=
  [cs!".module other", cs!" .org $12ff00", cs!" .remote $128000 m8x8", cs!"work .entry m8x8", cs!" jsl $128000",
    cs!" lda #<table+1-(2/1)", cs!" rtl", cs!"table .dw table, -1"]

/-- Checks the lines of a file. -/
def checkLines (file : List Str) : Bool :=
  file.all fun line => match tokenize line with
    | .ok ts => decide (ts.length ≤ 127) && decide (tok '*' ∉ ts) && ts.all fun
      | .lit v t => decide (-0x1000000 ≤ t.castTo v ∧ t.castTo v ≤ 0x1000000)
      | _ => true
    | _ => true

theorem lines_of_check {file : List Str} (h : checkLines file = true) :
    ∀ line ∈ file, ∀ ts, tokenize line = .ok ts → ModestLine ts := by
  intro line hl ts ht
  have := List.all_eq_true.1 h line hl
  rw [ht] at this
  simp only [Bool.and_eq_true, decide_eq_true_eq, List.all_eq_true] at this
  refine ⟨this.1.1, this.1.2, fun v t hv => ?_⟩
  simpa using this.2 _ hv

/-- The items of the lines. -/
def readItems : List Str → Option (List Item)
  | [] => some []
  | line :: rest => match tokenize line with
    | .ok ts => match Parse.parse ts with
      | .ok its => (readItems rest).map (its ++ ·)
      | _ => none
    | _ => none

theorem items_of_read {file : List Str} : ∀ {items items' : List Item}, readItems file = some items → FileItems file items' →
    items' = items := by
  induction file with
  | nil =>
    intro items items' h h'
    obtain ⟨per, h1, rfl⟩ := h'
    cases h1
    cases h
    rfl
  | cons line rest ih =>
    intro items items' h h'
    obtain ⟨per, h1, rfl⟩ := h'
    cases h1 with
    | cons hx hr =>
      obtain ⟨ts, ht, hp⟩ := hx
      rw [readItems, ht] at h
      simp only [hp, Option.map_eq_some_iff] at h
      obtain ⟨is, h1, rfl⟩ := h
      rw [List.flatten_cons, ih h1 ⟨_, hr, rfl⟩]

/-- Checks a statement of a plain file. -/
def checkStatement : Statement → Bool
  | .dir d => !(decide (d.name = .equ ∨ d.name = .org ∨ d.name = .remote)) || operand d.argument
  | .instr i => !(decide ((i.mode = .dir_l ∧ (i.mnemonic = .jmp ∨ i.mnemonic = .jsl)) ∨ i.mnemonic = .mvn ∨ i.mnemonic = .mvp)) ||
      operand i.arg1
where operand : Expr → Bool
  | .ident _ _ => true
  | .lit v _ => decide (0 ≤ v ∧ v ≤ 0x1000000)
  | _ => false

theorem operand_of_check {e : Expr} (h : checkStatement.operand e = true) : PlainOperand e := by
  cases e with
  | ident id t => exact .inl ⟨id, t, rfl⟩
  | lit v t => exact .inr ⟨v, t, rfl, by simpa [checkStatement.operand, IsAddress] using h⟩
  | _ => cases h

theorem statement_of_check {st : Statement} (h : checkStatement st = true) : PlainStatement st := by
  cases st with
  | dir d =>
    intro hd
    simp only [checkStatement, Bool.or_eq_true, Bool.not_eq_true', decide_eq_false_iff_not] at h
    exact operand_of_check (h.resolve_left (fun hn => hn hd))
  | instr i =>
    intro hd
    simp only [checkStatement, Bool.or_eq_true, Bool.not_eq_true', decide_eq_false_iff_not] at h
    exact .inl (operand_of_check (h.resolve_left (fun hn => hn hd)))

/-- Checks a file whose `.entry` directives give the sizes. -/
def checkPlain (file : List Str) : Bool :=
  checkLines file && match readItems file with
    | some items => (statementsOf items).all fun st => checkStatement st && match st with
      | .dir d => !(decide (d.name = .entry)) || decide ((d.flags.m = .on ∨ d.flags.m = .off) ∧ (d.flags.x = .on ∨ d.flags.x = .off))
      | .instr _ => true
    | none => true

theorem plain_of_check {file : List Str} {items : List Item} (hr : readItems file = some items)
    (h : checkPlain file = true) : PlainFile file := by
  simp only [checkPlain, Bool.and_eq_true, hr, List.all_eq_true] at h
  obtain ⟨h1, h2⟩ := h
  refine ⟨lines_of_check h1, fun items' hi st hst => ?_, fun items' hi => .inl fun d hd hn => ?_⟩
  · rw [items_of_read hr hi] at hst
    exact statement_of_check (h2 st hst).1
  · rw [items_of_read hr hi] at hd
    have := (h2 _ hd).2
    simpa [hn, GivesSizes] using this

theorem plainMain_plain : PlainFile plainMain := by
  obtain ⟨items, h⟩ : ∃ items, readItems plainMain = some items := by
    have : (readItems plainMain).isSome = true := by decide +kernel
    exact Option.isSome_iff_exists.1 this
  exact plain_of_check h (by decide +kernel)

theorem plainOther_plain : PlainFile plainOther := by
  obtain ⟨items, h⟩ : ∃ items, readItems plainOther = some items := by
    have : (readItems plainOther).isSome = true := by decide +kernel
    exact Option.isSome_iff_exists.1 this
  exact plain_of_check h (by decide +kernel)

/-- Both files are plain, so they assemble without a crash; indeed they assemble. -/
example : (∀ f ∈ [plainMain, plainOther], PlainFile f) ∧
    ∃ ws a, Assembler.assembleFiles 60 [plainMain, plainOther] recorder [] = (ws, .ok a) ∧ ws.length = 12 := by
  refine ⟨by simp [plainMain_plain, plainOther_plain], ?_⟩
  obtain ⟨ws, a, h, hc⟩ := assembles_of_check (fuel := 60) (files := [plainMain, plainOther])
    (fun ws _ => decide (ws.length = 12)) (by decide +kernel)
  exact ⟨ws, a, h, by simpa using hc⟩

/-! ## What crashes -/

/-- For counterexamples: assembling the file ends in this way. -/
def crashes (u : Ub) (file : List Str) : Bool :=
  match Assembler.assembleFiles 40 [file] recorder [] with
  | (_, .ub v) => decide (v = u)
  | _ => false

theorem crash_of_check {u : Ub} {file : List Str} (h : crashes u file = true) :
    (Assembler.assembleFiles 40 [file] recorder []).2 = .ub u := by
  unfold crashes at h
  split at h
  · rename_i ws v he
    rw [he]
    simp only [decide_eq_true_eq] at h
    rw [h]
  · cases h

/-- Each of these files crashes the assembler: an origin that is not an address, a constant visible in the module that
is not an address, a branch to a constant that is not an address, a long jump to a number that is not an address, and
`.remote` of a number that is not an address. -/
theorem C72_violated : ∀ file ∈
    [[cs!" .org -1", cs!" .db 1"], [cs!"size .equ -1"],
      [cs!" .org $8000", cs!" .entry m8x8", cs!" {", cs!"off .equ -1", cs!" bra off", cs!" }"],
      [cs!" .org $8000", cs!" .entry m8x8", cs!" jmp $ffffff+2"],
      [cs!" .remote -1 m8x8"]],
    (Assembler.assembleFiles 40 [file] recorder []).2 = .ub .assertFail := by
  intro file hf
  have : ∀ file ∈ [[cs!" .org -1", cs!" .db 1"], [cs!"size .equ -1"],
      [cs!" .org $8000", cs!" .entry m8x8", cs!" {", cs!"off .equ -1", cs!" bra off", cs!" }"],
      [cs!" .org $8000", cs!" .entry m8x8", cs!" jmp $ffffff+2"],
      [cs!" .remote -1 m8x8"]], crashes .assertFail file = true := by decide +kernel
  exact crash_of_check (this file hf)

/-- Pulling a register at an entry point that does not give the sizes reads from an empty stack. -/
theorem C72_violated_pull :
    (Assembler.assembleFiles 40 [[cs!" .org $8000", cs!" .entry unk", cs!" pla", cs!" rts"]] recorder []).2 = .ub .emptyAccess :=
  crash_of_check (by decide +kernel)

/-- Arithmetic beyond the range of `int` is undefined behaviour: in an operand, and where MVN counts on from a tracked
index register. -/
theorem C72_violated_overflow : ∀ file ∈
    [[cs!" .org $8000", cs!" .dw $ffff*$ffff"],
      [cs!" .org $8000", cs!" .entry m16x16", cs!" ldx #$ffff",
        cs!" mvn #$80*$ff*$ff*$ff+$ff*$ff*$ff+$ff*$ff*$82,#1", cs!" rts"]],
    (Assembler.assembleFiles 40 [file] recorder []).2 = .ub .overflow := by
  intro file hf
  have : ∀ file ∈
    [[cs!" .org $8000", cs!" .dw $ffff*$ffff"],
      [cs!" .org $8000", cs!" .entry m16x16", cs!" ldx #$ffff",
        cs!" mvn #$80*$ff*$ff*$ff+$ff*$ff*$ff+$ff*$ff*$82,#1", cs!" rts"]], crashes .overflow file = true := by
    decide +kernel
  exact crash_of_check (this file hf)

end Nsasm.Props
