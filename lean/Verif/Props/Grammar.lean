import Verif.Lemmas.Grammar

/-! # C73: the statement grammar -/

namespace Nsasm.Props
open Nsasm Nsasm.Spec Nsasm.Parse

/-- **C73.** A line written according to the grammar is accepted and means what the
grammar says. -/
theorem C73_accepts_grammar (ts : List Token) (items : List Item) (h : LineForm ts items) :
    parse ts = .ok items :=
  parseLoop_accepts h _ (Nat.lt_succ_self _)

/-- **C73.** The grammar is unambiguous: no line has two meanings. -/
theorem C73_unambiguous (ts : List Token) (items items' : List Item) (h : LineForm ts items)
    (h' : LineForm ts items') : items = items' := by
  have h1 := C73_accepts_grammar ts items h
  rw [C73_accepts_grammar ts items' h'] at h1
  injection h1 with h1
  exact h1.symm

/-- **C73.** Among the lines without an empty statement and with as many `(` as `)`, the
accepted ones are exactly those of the grammar. -/
theorem C73_exact (s : Str) (ts : List Token) (items : List Item) (ht : tokenize s = .ok ts)
    (hb : ParensBalanced ts) (he : NoEmptyStatement ts) : parse ts = .ok items ↔ LineForm ts items :=
  ⟨C36_source_line_partial s ts items ht hb he, C73_accepts_grammar ts items⟩

/-- `export go: { jsr far yields m16x8 : here lda #$12 : }`, whose tokens follow the grammar. -/
example : ∃ ts items, tokenize cs!"export go: { jsr far yields m16x8 : here lda #$12 : }" = .ok ts ∧
    LineForm ts items ∧ items.length = 6 := by
  refine ⟨_, _, rfl, .label (l := ⟨cs!"go", true⟩) (.opening .absent (.stmt .absent
    (.instr (m := .jsr) .absent (.dir (.term (.factor (.comp (.name ⟨none, cs!"far"⟩))))) ?_
      (.yields (n := cs!"m16x8") (f := (StatusFlags.fromName cs!"m16x8").getD .default) (by decide +kernel)) (fun _ => .inl rfl)
      (i := ⟨.jsr, .none, .dir_w, .ident ⟨none, cs!"far"⟩ .word, .null, .yields _⟩) ⟨by decide +kernel, rfl, rfl, rfl, rfl, rfl, by decide⟩)
    (.stmt (.present ⟨cs!"here", false⟩)
      (.instr (m := .lda) .absent (.imm (.term (.factor (.comp (.lit 0x12 .byte))))) trivial .absent (fun h => absurd rfl h)
        (i := ⟨.lda, .none, .imm_fm, .mkLit 0x12 .byte, .null, .default⟩) ⟨by decide +kernel, rfl, rfl, rfl, rfl, rfl, by decide⟩)
      (.closing .absent .done)))), by decide +kernel⟩
  intro us e rest _ h
  cases h

/-- The direct reading of `lda ($12)` is not one of the grammar's: it is indirect. -/
example : ∃ ts, tokenize cs!"lda ($12)" = .ok ts ∧
    parse ts = .ok [.stmt (.instr ⟨.lda, .none, .ind_b, .lit 0x12 .byte, .null, .default⟩)] :=
  ⟨_, rfl, by decide +kernel⟩

end Nsasm.Props
