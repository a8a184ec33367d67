import Verif.Lemmas.Refused
import Verif.Props.Print

/-! # C63, C64: reading and assembling the printed listing -/

namespace Nsasm.Props
open Nsasm Nsasm.Spec

/-! ## C63 -/

theorem cleaned_low (rom : Rom) {d d' : Disassembler} (h : Session HasName rom.read d) (hcl : d.cleanup = .ok d')
    {a : Addr} {it : DisItem} (hl : Lists d'.disassembly a it) : a < 0x1000000 := by
  obtain ⟨jt, h1, -⟩ := cleanup_origin h hcl hl
  exact Shown.listed_low h h1

/-- **Exactly which printed listings of a ROM can be read**: those without PER whose entry points have no known
carry.  Every other one has a line that the assembler rejects. -/
theorem C63_read_iff (rom : Rom) {d d' : Disassembler} (h : Session HasName rom.read d) (hcl : d.cleanup = .ok d') :
    (∃ items, FileItems (Print.listing d'.disassembly) items) ↔
      ∀ a it, Lists d'.disassembly a it → it.instruction.mnemonic ≠ .per ∧
        (it.isEntry = true → it.current.flags.c ≠ .on ∧ it.current.flags.c ≠ .off) := by
  constructor
  · rintro ⟨items, hF⟩ a it hl
    exact read_listing h hcl hF hl
  · intro hok
    obtain ⟨items, hF, -⟩ := C63_reads_back_partial h hcl (fun a it hl => ⟨cleaned_low rom h hcl hl, hok a it hl⟩)
    exact ⟨items, hF⟩

/-- Both happen: the demonstration can be read, the listing of `C63_violated` cannot. -/
example : (∃ d', demoCall.1.cleanup = .ok d' ∧ ∃ items, FileItems (Print.listing d'.disassembly) items) ∧
    ∃ d d', Session HasName rtsRom.read d ∧ d.cleanup = .ok d' ∧
      ¬ ∃ items, FileItems (Print.listing d'.disassembly) items := by
  constructor
  · refine ⟨_, demo_clean, (C63_read_iff demoRom
      (session_call .new 20 0x8000 (by decide) m8x8_ok (by decide +kernel)) demo_clean).mpr fun a it hl => ?_⟩
    have h : (demoClean.disassembly.all fun n => decide (n.2.instruction.mnemonic ≠ .per ∧
      (n.2.isEntry = true → n.2.current.flags.c ≠ .on ∧ n.2.current.flags.c ≠ .off))) = true := by decide +kernel
    exact of_decide_eq_true (List.all_eq_true.mp h (a, it) (OMap.mem_of_find hl))
  · obtain ⟨d, d', line, h1, h2, h3, h4⟩ := C63_violated
    refine ⟨d, d', h1, h2, ?_⟩
    rintro ⟨items, hF⟩
    obtain ⟨its, ts, hr, -⟩ := items_lines hF h3
    rw [h4] at hr
    cases hr

/-! ## C64 -/

/-- Before it is cleaned up, the listing of a ROM without PER puts the bytes of the ROM. -/
theorem listed_bytes (rom : Rom) {d : Disassembler} (h : Session HasName rom.read d) {ctx : Ctx}
    (hn : LabelsAt ctx d.disassembly) (hper : ∀ a it, Lists d.disassembly a it → it.instruction.mnemonic ≠ .per)
    {x : Addr} {b : UInt8} (hp : Puts ctx d.disassembly x b) :
    ∃ off, snesToRom x rom.mapping = .ok off ∧ rom.data[off]? = some b := by
  obtain ⟨a, it, bs, k, hl, he, hk, rfl⟩ := hp
  have ha := Shown.listed_low h hl
  obtain ⟨bytes, hr, hlen, he'⟩ := C58_entry_reassembles_partial h hn hl ha (hper a it hl)
  unfold Emits at he he'
  rw [he'] at he
  simp only [Prod.mk.injEq, List.cons.injEq, true_and, and_true] at he
  subst he
  obtain ⟨h1, h2⟩ := (C29_read_partial rom ha (n := 4) (by omega) bytes).1 hr
  obtain ⟨hkl, hkb⟩ := List.getElem?_eq_some_iff.1 hk
  rw [List.getElem_take] at hkb
  obtain ⟨off, ho1, ho2⟩ := h2 k (by simp at hkl; omega)
  refine ⟨off, ?_, by rw [ho2, hkb]⟩
  have hx : Address.addWrapped a (k : Nat) = a / 0x10000 * 0x10000 + (a + k) % 0x10000 := by
    unfold Address.addWrapped
    omega
  rw [hx]
  exact ho1

/-- **The printed listing of a ROM assembles to the ROM.**  Disassemble from any entry points, clean up,
print the listing, and give the text to the assembler.  If it assembles, then every byte it stores is the
byte that the ROM has at that address, every byte of every disassembled instruction is stored, and no
address is written twice.

Listings that would assemble to something else (`C58_violated`, `C52_violated`) or that are not what the
assembler reads (`C63_violated`) do not assemble. -/
theorem C64_listing_reassembles (rom : Rom) {d d' : Disassembler} (h : Session HasName rom.read d)
    (hcl : d.cleanup = .ok d') {σ : Type} {fuel : Nat} {sink : Sink σ} {s s' : σ} {as : Assembler}
    (hasm : Assembler.assembleFiles fuel [Print.listing d'.disassembly] sink s = (s', .ok as)) :
    ∃ ws : Writes, Feeds sink s ws s' ∧ (allFilled ws).Nodup ∧
      (∀ x b, (x, b) ∈ Spec.stored ws → ∃ off, snesToRom x rom.mapping = .ok off ∧ rom.data[off]? = some b) ∧
      (∀ a it, Lists d.disassembly a it → ∀ k < instructionLength it.instruction.mode,
        ∃ b, (wrapped a k, b) ∈ Spec.stored ws) := by
  have hcd := session_closed h
  have hp := cleanup_proper hcd.proper hcl
  have hlow := fun a it => Shown.listed_low (a := a) (it := it) h
  obtain ⟨items₀, hF₀⟩ := assembled_items hasm
  have hread := fun a it => read_listing (a := a) (it := it) h hcl hF₀
  have hper : ∀ a it, Lists d.disassembly a it → it.instruction.mnemonic ≠ .per := by
    intro a it hl hm
    obtain ⟨jt, h1, h2⟩ := cleanup_per h hcl hl hm
    exact (hread a jt h1).1 h2
  have hlow' : ∀ a it, Lists d'.disassembly a it → a < 0x1000000 := fun a it => cleaned_low rom h hcl
  obtain ⟨items, hF, hI⟩ := C63_reads_back_partial h hcl
    (fun a it hl => ⟨hlow' a it hl, (hread a it hl).1, (hread a it hl).2⟩)
  have hfind : ∀ p ∈ d'.disassembly, Lists d'.disassembly p.1 p.2 := fun p hm => OMap.find_of_mem hp.sorted hm
  obtain ⟨ctx, ws, hfeeds, hlab, hnd, hws, hput⟩ := assembled_listing hp.sorted (fun p hm => hlow' _ _ (hfind p hm))
    (fun p hm => cleanup_sizeShown h hcl (hfind p hm)) hF hI hasm
  have hputs : ∀ x b, (x, b) ∈ Spec.stored ws ↔ Puts ctx d'.disassembly x b := by
    intro x b
    rw [mem_stored]
    constructor
    · rintro ⟨a, bs, k, h1, h2, h3⟩
      obtain ⟨a', it, bs', g1, g2, g3⟩ := (hws _).1 h1
      cases g3
      exact ⟨a, it, bs, k, g1, g2, h2, by rw [h3, wrapped_eq (hlow' _ _ g1)]⟩
    · rintro ⟨a, it, bs, k, h1, h2, h3, h4⟩
      exact ⟨a, bs, k, (hws _).2 ⟨a, it, bs, h1, h2, rfl⟩, h3, by rw [h4, wrapped_eq (hlow' _ _ h1)]⟩
  have hfold := folded_inside h hcl hlow hnd (fun a it hl => by
    obtain ⟨bs, -, h1, h2⟩ := hput a it hl
    exact ⟨bs, h1, h2⟩)
  have hn := listingNames_ok hcd.proper.sorted hcd.proper.distinct
  have hsame := cleanup_puts hcd hcl (fun a _ jt _ _ hl hm => hfold a jt hl hm) hn hlab
  refine ⟨ws, hfeeds, hnd, ?_, ?_⟩
  · intro x b hx
    rw [hputs, ← hsame] at hx
    exact listed_bytes rom h hn hper hx
  · intro a it hl k hk
    obtain ⟨bytes, hr, hlen, he⟩ := C58_entry_reassembles_partial h hn hl (hlow a it hl) (hper a it hl)
    refine ⟨bytes[k]'(by omega), ?_⟩
    rw [hputs, ← wrapped_eq (hlow a it hl), ← hsame]
    exact ⟨a, it, _, k, hl, he, by rw [List.getElem?_eq_some_iff]; exact ⟨by simp; omega, by simp⟩, rfl⟩

/-- The demonstration meets the hypotheses: its listing (see above) assembles, to the bytes it was read
from. -/
example : Session HasName demoRom.read demoCall.1 ∧ demoCall.1.cleanup = .ok demoClean ∧
    ∃ ws as, Assembler.assembleFiles 30 [Print.listing demoClean.disassembly] recorder [] = (ws, .ok as) ∧
      ws.flatMap (·.2) = demoRom.data.take 16 := by
  refine ⟨session_call .new 20 0x8000 (by decide) m8x8_ok (by decide +kernel), demo_clean, ?_⟩
  obtain ⟨ws, as, h1, h2⟩ := assembles_of_check (fuel := 30) (files := [Print.listing demoClean.disassembly])
    (fun ws _ => decide (ws.flatMap (·.2) = demoRom.data.take 16)) (by decide +kernel)
  exact ⟨ws, as, h1, of_decide_eq_true h2⟩

end Nsasm.Props
