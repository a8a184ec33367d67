import Verif.Lemmas.PrintLines
import Verif.Props.Listing

/-! # C63: the printed listing -/

namespace Nsasm.Props
open Nsasm Nsasm.Spec

/-- **The assembler reads a printed listing as what was listed.**  The file that the command line tools
print after `Cleanup` is accepted line by line, and says this, in order: the origin of the first entry;
and for every entry, in the order of the addresses, the origin if it does not follow the entry before,
its label, `.entry` with the name of its flags if it is an entry point, and the instruction, with the
same mnemonic, suffix, operands and return convention and an addressing mode that becomes the listed one
when the flags agree with the listed size.

Partial: not for PER, nor for an entry point at which the carry is known; see `C63_violated`. -/
theorem C63_reads_back_partial {src : Source} {d d' : Disassembler} (h : Session HasName src d) (hcl : d.cleanup = .ok d')
    (hok : ∀ a it, Lists d'.disassembly a it → a < 0x1000000 ∧ it.instruction.mnemonic ≠ .per ∧
      (it.isEntry = true → it.current.flags.c ≠ .on ∧ it.current.flags.c ≠ .off)) :
    ∃ items, FileItems (Print.listing d'.disassembly) items ∧ ListingFile d'.disassembly items := by
  have hp := cleanup_proper (session_closed h).proper hcl
  refine listing_reads _ fun p hm => ?_
  obtain ⟨a, it⟩ := p
  have hl : d'.disassembly.find a = some it := OMap.find_of_mem hp.sorted hm
  obtain ⟨h1, h2, h3⟩ := hok a it hl
  obtain ⟨h4, h5⟩ := cleanup_listed h hcl hl h2
  exact ⟨h1, h5.imp_right isName_new, h3, listed_reads h4⟩

/-- The demonstration meets the hypotheses; this is its listing. -/
example : Session HasName demoRom.read demoCall.1 ∧ demoCall.1.cleanup = .ok demoClean ∧
    (∀ a it, Lists demoClean.disassembly a it → a < 0x1000000 ∧ it.instruction.mnemonic ≠ .per ∧
      (it.isEntry = true → it.current.flags.c ≠ .on ∧ it.current.flags.c ≠ .off)) ∧
    Print.listing demoClean.disassembly =
      [cs!"; Disassembled 7 instructions.",
       cs!"         .org $008000",
       cs!"entry1:  .entry m8x8",
       cs!"         rep #$30                   ; $008000 m16x16",
       cs!"         ldx.w #$0002               ; $008002 m16x16",
       cs!"label1:  add.w #$1234               ; $008005 m16x16",
       cs!"         dex.w                      ; $008009 m16x16",
       cs!"         bne label1                 ; $00800a m16x16",
       cs!"         jsr $8010                  ; $00800c m16x16",
       cs!"         rts                        ; $00800f m16x16"] := by
  refine ⟨session_call .new 20 0x8000 (by decide) m8x8_ok (by decide +kernel), demo_clean, ?_, by decide +kernel⟩
  intro a it hl
  have h : (demoClean.disassembly.all fun n => decide (n.1 < 0x1000000 ∧ n.2.instruction.mnemonic ≠ .per ∧
      (n.2.isEntry = true → n.2.current.flags.c ≠ .on ∧ n.2.current.flags.c ≠ .off))) = true := by
    decide +kernel
  exact of_decide_eq_true (List.all_eq_true.mp h (a, it) (OMap.mem_of_find hl))

/-- `rts` at $8000. -/
def rtsRom : Rom := ⟨.loRom, [0x60, 0, 0, 0]⟩

/-- A listing that the assembler does not accept: flags with a known carry are printed with `, c=1`, and
there is no such punctuation. -/
theorem C63_violated : ∃ d d' line, Session HasName rtsRom.read d ∧ d.cleanup = .ok d' ∧
    line ∈ Print.listing d'.disassembly ∧ tokenize line = .err .tokenize := by
  refine ⟨(Disassembler.empty.disassemble 20 rtsRom.read 0x8000 ⟨.off, .on, .on, .on⟩).1, _,
    cs!"entry1:  .entry m8x8, c=1",
    session_call .new 20 0x8000 (by decide) ⟨.off, .on, .on, .on, rfl⟩ (by decide +kernel),
    cleaned_ok (by decide +kernel), by decide +kernel, by decide +kernel⟩

end Nsasm.Props
