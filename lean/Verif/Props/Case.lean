import Verif.Lemmas.Case
import Verif.Props.Unused

/-!
# Upper and lower case

C96: the case of letters matters only in names.  Mnemonics, suffixes, directives, registers, keywords and digits may be written
in any case.
-/

namespace Nsasm.Props
open Nsasm Nsasm.Spec

/-- **The case of letters matters only in names.**  Two lines that differ only in case are both rejected, or they have the same
tokens, but for names that differ only in case. -/
theorem C96_tokens (s s' : Str) (h : SameLetters s s') :
    (∃ ts ts', tokenize s = .ok ts ∧ tokenize s' = .ok ts' ∧ List.Forall₂ SameButCase ts ts') ∨
    (tokenize s = .err .tokenize ∧ tokenize s' = .err .tokenize) := by
  unfold SameLetters at h
  rw [map_toLower, map_toLower] at h
  exact Case.tokenize_same _ (Nat.lt_succ_self _) h

/-- C96: lines that also have the same names mean the same. -/
theorem C96_line {l l' : Str} (h : SameNames l l') : tokenize l = tokenize l' := by
  obtain ⟨h1, h2⟩ := h
  rcases C96_tokens l l' h1 with ⟨ts, ts', h3, h4, h5⟩ | ⟨h3, h4⟩
  · unfold namesOf at h2
    rw [h3, h4] at h2 ⊢
    simp only at h2
    congr 1
    clear h3 h4 h1
    induction h5 with
    | nil => rfl
    | cons ht _ ih =>
      rcases ht with rfl | ⟨w, w', rfl, rfl, -⟩
      · rename_i a _ _ _
        cases a <;> simp only [List.filterMap_cons] at h2 <;> first | rw [ih h2] | (rw [List.cons.injEq] at h2; rw [ih h2.2])
      · simp only [List.filterMap_cons, List.cons.injEq] at h2
        rw [ih h2.2, h2.1]
  · rw [h3, h4]

theorem loadLines_case {f g : List Str} (h : List.Forall₂ SameNames f g) : ∀ ld, Module.loadLines ld f = Module.loadLines ld g := by
  induction h with
  | nil => intro ld; rfl
  | cons hl _ ih =>
    intro ld
    rw [Module.loadLines, Module.loadLines, C96_line hl]
    simp only [ih]

/-- **C96 for programs.**  Files that differ only in the case of letters that are not in names are assembled in the same way: the
same is written, and the result or the failure is the same. -/
theorem C96_program {σ : Type} (fuel : Nat) {files files' : List (List Str)}
    (h : List.Forall₂ (List.Forall₂ SameNames) files files') (sink : Sink σ) (s : σ) :
    Assembler.assembleFiles fuel files sink s = Assembler.assembleFiles fuel files' sink s := by
  have : Assembler.loadAll files = Assembler.loadAll files' := by
    induction h with
    | nil => rfl
    | cons h1 _ ih => rw [Assembler.loadAll, Assembler.loadAll, ih, Module.loadAsmFile, Module.loadAsmFile, loadLines_case h1]
  unfold Assembler.assembleFiles
  rw [this]

/-! ## The hypotheses can be met -/

/-- A program, and the same with other letters. -/
def caseBefore : List Str := [cs!" .org $80ab", cs!"Go .entry m8x8", cs!" lda.b #0xFf", cs!" sta Table,x", cs!" rts", cs!"Table .db 1"]
def caseAfter : List Str := [cs!" .ORG $80aB", cs!"Go .Entry m8x8", cs!" LDA.B #0XfF", cs!" Sta Table,X", cs!" RTS", cs!"Table .dB 1"]

example : List.Forall₂ (List.Forall₂ SameNames) [caseBefore] [caseAfter] ∧ caseBefore ≠ caseAfter ∧
    writtenBy [caseBefore] = some [(0x80ab, [0xa9, 0xff]), (0x80ad, [0x9d, 0xb1, 0x80]), (0x80b0, [0x60]), (0x80b1, [0x01])] ∧
    writtenBy [caseAfter] = writtenBy [caseBefore] := by
  have h : ∀ l l', ((l.map Char.toLower == l'.map Char.toLower) && (namesOf l == namesOf l')) = true → SameNames l l' := by
    intro l l' h
    rw [Bool.and_eq_true] at h
    exact ⟨eq_of_beq h.1, eq_of_beq h.2⟩
  refine ⟨.cons ?_ .nil, by decide +kernel, by decide +kernel, by decide +kernel⟩
  exact .cons (h _ _ (by decide +kernel)) (.cons (h _ _ (by decide +kernel)) (.cons (h _ _ (by decide +kernel))
    (.cons (h _ _ (by decide +kernel)) (.cons (h _ _ (by decide +kernel)) (.cons (h _ _ (by decide +kernel)) .nil)))))

/-- In names case does matter: `go` is not `Go`. -/
example : (writtenBy [[cs!" .org $8000", cs!"Go .entry m8x8", cs!" bra Go"]]).isSome = true ∧
    writtenBy [[cs!" .org $8000", cs!"Go .entry m8x8", cs!" bra go"]] = none := by decide +kernel

end Nsasm.Props
