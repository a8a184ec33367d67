import Verif.Lemmas.Entries
import Verif.Props.Relist

/-! # C65: the printed listing assembles -/

namespace Nsasm.Props
open Nsasm Nsasm.Spec

/-- **The printed listing assembles.**  Disassemble from any entry points, clean up, and print the listing.
The assembler accepts the text, whatever it assembles to, given enough rounds.

Partial: the instructions must lie apart from one another, none of them PER; where a size is shown or a
register pulled, the flag must be known (`C65_violated`); and the entry points must be ones that `.entry` can
declare (`C63_violated`). -/
theorem C65_listing_accepted_partial {src : Source} {d d' : Disassembler} (h : Session HasName src d)
    (hcl : d.cleanup = .ok d') (hlaid : LaidOut d.disassembly)
    (hok : ∀ a it, Lists d.disassembly a it → it.instruction.mnemonic ≠ .per ∧ SizeSettled it)
    (hentry : ∀ a it, Lists d'.disassembly a it → it.isEntry = true → Declarable it.current) :
    ∃ N, ∀ fuel ≥ N, ∀ {σ : Type} (sink : Sink σ), TakesAll sink → ∀ s, ∃ s' as,
      Assembler.assembleFiles fuel [Print.listing d'.disassembly] sink s = (s', .ok as) := by
  have hc := session_closed h
  have hfit := fitting_of h hcl hlaid hok hentry
  obtain ⟨items, hF, hI⟩ := C63_reads_back_partial h hcl (by
    intro a it hl
    obtain ⟨jt, h1, h2⟩ := cleanup_origin h hcl hl
    refine ⟨hlaid.low a jt h1, ?_, fun he => ?_⟩
    · rcases h2 with h2 | h2 | h2 <;> rw [h2]
      · exact (hok a jt h1).1
      · decide
      · decide
    · have := (hentry a it hl he).1
      unfold Decided at this
      tauto)
  exact runs_assembles hfit.runs (hfit.fits (listingNames_ok hc.proper.sorted hc.proper.distinct)) hF hI

/-- **The printed listing of a ROM assembles to the ROM.**  Everything together: the assembler accepts the
text, every byte it stores is the byte that the ROM has at that address, every byte of every disassembled
instruction is stored, and no address is written twice.

Partial: as `C65_listing_accepted_partial`. -/
theorem C65_rom_round_trip_partial (rom : Rom) {d d' : Disassembler} (h : Session HasName rom.read d)
    (hcl : d.cleanup = .ok d') (hlaid : LaidOut d.disassembly)
    (hok : ∀ a it, Lists d.disassembly a it → it.instruction.mnemonic ≠ .per ∧ SizeSettled it)
    (hentry : ∀ a it, Lists d'.disassembly a it → it.isEntry = true → Declarable it.current) :
    ∃ N, ∀ fuel ≥ N, ∀ {σ : Type} (sink : Sink σ), TakesAll sink → ∀ s, ∃ s' as,
      Assembler.assembleFiles fuel [Print.listing d'.disassembly] sink s = (s', .ok as) ∧
      ∃ ws : Writes, Feeds sink s ws s' ∧ (allFilled ws).Nodup ∧
        (∀ x b, (x, b) ∈ Spec.stored ws → ∃ off, snesToRom x rom.mapping = .ok off ∧ rom.data[off]? = some b) ∧
        (∀ a it, Lists d.disassembly a it → ∀ k < instructionLength it.instruction.mode,
          ∃ b, (wrapped a k, b) ∈ Spec.stored ws) := by
  obtain ⟨N, hN⟩ := C65_listing_accepted_partial h hcl hlaid hok hentry
  refine ⟨N, fun fuel hf σ sink hs s => ?_⟩
  obtain ⟨s', as, ha⟩ := hN fuel hf sink hs s
  exact ⟨s', as, ha, C64_listing_reassembles rom h hcl ha⟩

/-- **Entry points can be declared.**  When all calls succeeded and were given flags that say nothing about the carry, then
at every entry point of the listing nothing is recorded about the carry or the stack; so only the mode and
sizes matter. -/
theorem C65_entries {src : Source} {d d' : Disassembler} (h : Explored src d) (hcl : d.cleanup = .ok d')
    {a : Addr} {it : DisItem} (hl : Lists d'.disassembly a it) (he : it.isEntry = true) :
    Declarable it.current ↔
      Decided it.current.flags.e ∨ ¬ Decided it.current.flags.m ∧ ¬ Decided it.current.flags.x := by
  refine ⟨fun hd => hd.2.1, fun hd => ?_⟩
  have hs := explored_session h
  have hc := session_closed hs
  have hent := cleanup_marks hc.proper.sorted hc.proper.distinct (session_unmarked hs) hcl hl he
  obtain ⟨jt, hj, hcur⟩ := cleanup_current hs hcl hl
  obtain ⟨kt, f, h1, h2, h3⟩ := explored_entries h a hent
  rw [show d.disassembly.find a = some jt from hj] at h1
  cases h1
  have hst := h3.state (closed_normal hc hj).1 (normal_init (constructible_normal h2.1))
  rw [← hcur] at hst
  refine ⟨?_, hd, ?_⟩
  · have hcy : f.c = .unknown := h2.2
    have := hst.flags.c
    simp only [ExecutionState.init, StatusFlags.setIncoming, hcy] at this
    rcases this with e | e <;> rw [e] <;> decide
  · have := hst.stack
    cases hq : it.current.stack with
    | abandoned => exact .inr rfl
    | live l =>
      rw [hq] at this
      cases this with
      | live hh => cases hh; exact .inl rfl

/-- Disassembling the demonstration, in calls that all succeed. -/
theorem demo_explored : Explored demoRom.read demoCall.1 := by
  obtain ⟨far, h⟩ := demo_ok
  exact .call (d := .empty) (d' := demoCall.1) (fuel := 20) (start := 0x8000) (flags := ⟨.off, .on, .on, .unknown⟩)
    (far := far) .new (by decide) m8x8_ok rfl (by rw [← h]; rfl)

/-- It meets the hypotheses. -/
example : Explored demoRom.read demoCall.1 ∧ demoCall.1.cleanup = .ok demoClean ∧ LaidOut demoCall.1.disassembly ∧
    (∀ a it, Lists demoCall.1.disassembly a it → it.instruction.mnemonic ≠ .per ∧ SizeSettled it) ∧
    (∀ a it, Lists demoClean.disassembly a it → it.isEntry = true → Declarable it.current) := by
  have hall : ∀ {m : OMap DisItem} (p : Nat × DisItem → Prop) [DecidablePred p], (m.all fun n => decide (p n)) = true →
      ∀ {a it}, Lists m a it → p (a, it) :=
    fun p _ h a it hl => of_decide_eq_true (List.all_eq_true.mp h _ (OMap.mem_of_find hl))
  refine ⟨demo_explored, demo_clean, ⟨fun a it hl => ?_, fun a b it jt hl hl' => ?_, fun a it hl => ?_, fun a it hl => ?_⟩,
    fun a it hl => ?_, fun a it hl => ?_⟩
  · exact hall (m := demoCall.1.disassembly) (fun n => n.1 < 0x1000000) (by decide +kernel) hl
  · exact hall (m := demoCall.1.disassembly) (fun n => ∀ k ∈ demoCall.1.disassembly, n.1 < k.1 →
      n.1 + instructionLength n.2.instruction.mode ≤ k.1) (by decide +kernel) hl (b, jt) (OMap.mem_of_find hl')
  · exact hall (m := demoCall.1.disassembly) (fun n => n.1 % 0x10000 + instructionLength n.2.instruction.mode ≤ 0x10000)
      (by decide +kernel) hl
  · exact hall (m := demoCall.1.disassembly) (fun n => n.2.instruction.isExitInstruction = false →
      n.1 % 0x10000 + instructionLength n.2.instruction.mode < 0x10000) (by decide +kernel) hl
  · exact hall (m := demoCall.1.disassembly) (fun n => n.2.instruction.mnemonic ≠ .per ∧ SizeSettled n.2)
      (by decide +kernel) hl
  · exact hall (m := demoClean.disassembly) (fun n => n.2.isEntry = true → Declarable n.2.current) (by decide +kernel) hl

/-! ## A size that is shown though it is no longer known -/

/-- ```
8000  ea           nop
8001  85 10        sta $10      <- shared
8003  60           rts
8004  80 fb        bra shared
``` -/
def sharedRom : Rom := ⟨.loRom, [0xea, 0x85, 0x10, 0x60, 0x80, 0xfb, 0, 0, 0, 0]⟩

/-- The routine at $8004 is disassembled first, with an 8-bit accumulator. -/
def sharedOnce : Disassembler :=
  (Disassembler.empty.disassemble 20 sharedRom.read 0x8004 ⟨.off, .on, .on, .unknown⟩).1

/-- Then the one at $8000, with a 16-bit accumulator; they share their end. -/
def sharedTwice : Disassembler := (sharedOnce.disassemble 20 sharedRom.read 0x8000 ⟨.off, .off, .off, .unknown⟩).1

/-- The two together, cleaned up. -/
def sharedClean : Disassembler :=
  match cleanupEval sharedTwice with
  | .ok d => d
  | _ => .empty

theorem shared_explored : Explored sharedRom.read sharedTwice := by
  have h1 : ∃ far, Disassembler.empty.disassemble 20 sharedRom.read 0x8004 ⟨.off, .on, .on, .unknown⟩ =
      (sharedOnce, .ok far) := ⟨[], by decide +kernel⟩
  have h2 : ∃ far, sharedOnce.disassemble 20 sharedRom.read 0x8000 ⟨.off, .off, .off, .unknown⟩ =
      (sharedTwice, .ok far) := ⟨[], by decide +kernel⟩
  obtain ⟨far1, h1⟩ := h1
  obtain ⟨far2, h2⟩ := h2
  exact .call (.call .new (by decide) m8x8_ok rfl h1) (by decide) ⟨.off, .off, .off, .unknown, rfl⟩ rfl h2

theorem refuses_of_check {fuel : Nat} {files : List (List Str)} {e : Err}
    (h : (match Assembler.assembleFiles fuel files recorder [] with
      | (_, .err e') => decide (e' = e)
      | _ => false) = true) :
    ∃ ws, Assembler.assembleFiles fuel files recorder [] = (ws, .err e) := by
  split at h
  · next ws e' he => exact ⟨ws, by rw [he, of_decide_eq_true h]⟩
  · cases h

/-- A listing that the assembler does not accept.  The store was given the suffix `.b` in the first call.
The second call finds that the size is not known after all, and the suffix stays; then the assembler, coming from
the 16-bit routine, refuses it. -/
theorem C65_violated : ∃ d d', Explored sharedRom.read d ∧ d.cleanup = .ok d' ∧
    cs!"label1:  sta.b $10                  ; $008001 native" ∈ Print.listing d'.disassembly ∧
    ∃ ws, Assembler.assembleFiles 30 [Print.listing d'.disassembly] recorder [] = (ws, .err .suffixContradiction) := by
  refine ⟨sharedTwice, sharedClean, shared_explored, ?_, by decide +kernel, refuses_of_check (by decide +kernel)⟩
  rw [cleanup_eval]; decide +kernel

end Nsasm.Props
