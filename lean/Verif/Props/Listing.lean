import Verif.Lemmas.Emission
import Verif.Props.Disassemble
import Verif.Props.Rom

/-! # C52, C58: what a listing assembles to -/

namespace Nsasm.Props
open Nsasm Nsasm.Spec

/-! ## Evaluating `fold` on examples -/

/-- `fold` of a non-empty list, by recursion on the tail. -/
def foldGo (a : Nat) (first : DisItem) : OMap DisItem → OMap DisItem
  | [] => [(a, first)]
  | (b, second) :: rest =>
    match Disassembler.foldPair first second with
    | some m => foldGo a { first with
        instruction := { second.instruction with mnemonic := m }, next := second.next } rest
    | none => (a, first) :: foldGo b second rest

theorem fold_go : ∀ (m : OMap DisItem) (a : Nat) (it : DisItem), Disassembler.fold ((a, it) :: m) = foldGo a it m := by
  intro m
  induction m with
  | nil => intro a it; simp [Disassembler.fold, foldGo]
  | cons x m ih =>
    intro a it
    obtain ⟨b, jt⟩ := x
    rw [Disassembler.fold, foldGo]
    cases Disassembler.foldPair it jt with
    | none => simp only; rw [ih]
    | some mn => simp only; rw [ih]

/-- `fold` by recursion. -/
def foldAll : OMap DisItem → OMap DisItem
  | [] => []
  | (a, it) :: m => foldGo a it m

theorem fold_all (m : OMap DisItem) : Disassembler.fold m = foldAll m := by
  cases m with
  | nil => simp [Disassembler.fold, foldAll]
  | cons x m => exact fold_go m x.1 x.2

/-- `Cleanup` for evaluation. -/
def cleanupEval (d : Disassembler) : Res Disassembler := do
  let (named, r) := Disassembler.renameLabels d.entryPoints 0 0 [] d.disassembly
  let operands := named.map fun n =>
    (n.1, { n.2 with
      instruction := { n.2.instruction with arg1 := Disassembler.rewriteOperand r n.2.instruction.arg1 } })
  let fars ← Disassembler.nameFars { d with disassembly := operands } operands
  .ok { d with disassembly := foldAll fars }

theorem cleanup_eval (d : Disassembler) : d.cleanup = cleanupEval d := by
  unfold Disassembler.cleanup cleanupEval
  simp only [fold_all]

/-- Names for which a listing's labels stand for their addresses. -/
def listingNames (m : OMap DisItem) : Ctx := fun id =>
  match m.find? fun n => n.2.label = id.name with
  | some n => .ok (n.1 : Int)
  | none => .error .other

theorem listingNames_ok {m : OMap DisItem} (hs : OMap.Sorted m) (hd : DistinctLabels m) : LabelsAt (listingNames m) m := by
  intro a it ha hl
  unfold listingNames
  simp only
  have hmem := OMap.mem_of_find ha
  cases hf : m.find? fun n => n.2.label = it.label with
  | none =>
    have := List.find?_eq_none.1 hf (a, it) hmem
    simp at this
  | some n =>
    have h1 := List.find?_some hf
    have h2 := List.mem_of_find?_eq_some hf
    simp only [decide_eq_true_eq] at h1
    have := hd n.1 a n.2 it (OMap.find_of_mem hs h2) ha (by rw [h1]; exact hl) h1
    simp only [this]

/-! ## C58 -/

/-- **A listing reassembles to the bytes it was disassembled from.**  If the labels of the listing
stand for the addresses of their entries, assembling any entry at its address emits exactly the bytes
that were read from there.

Partial: for an entry other than PER.  A PER is listed with the offset as its operand, where the
assembler takes the target; see `C58_violated`. -/
theorem C58_entry_reassembles_partial {src : Source} {d : Disassembler} (h : Session HasName src d) {ctx : Ctx}
    (hc : LabelsAt ctx d.disassembly) {a : Addr} {it : DisItem} (hl : Lists d.disassembly a it) (ha : a < 0x1000000)
    (hper : it.instruction.mnemonic ≠ .per) :
    ∃ bytes, src a 4 = .ok bytes ∧ instructionLength it.instruction.mode ≤ bytes.length ∧
      Emits ctx a it (bytes.take (instructionLength it.instruction.mode)) :=
  entry_emits (session_closed h) hc hl ha hper

/-! ## C52 -/

/-- **Cleanup preserves the machine code**: a listing puts the same bytes at the same addresses before
and after.

Partial: no CLC or SEC may be the last byte of a bank.  `Cleanup` folds neighbours in the listing; at
the end of a bank the neighbour is not the next instruction.  See `C52_violated`. -/
theorem C52_cleanup_preserves_bytes_partial {src : Source} {d d' : Disassembler} (h : Session HasName src d)
    (hcl : d.cleanup = .ok d')
    (hend : ∀ a it, Lists d.disassembly a it → it.instruction.mnemonic = .clc ∨ it.instruction.mnemonic = .sec →
      a < 0x1000000 ∧ a % 0x10000 ≠ 0xFFFF)
    {ctx ctx' : Ctx} (hc : LabelsAt ctx d.disassembly) (hc' : LabelsAt ctx' d'.disassembly) (x : Addr) (b : UInt8) :
    Puts ctx d.disassembly x b ↔ Puts ctx' d'.disassembly x b :=
  cleanup_puts (session_closed h) hcl (fun a it _ hl hm _ _ => hend a it hl hm) hc hc' x b

/-- **The cleaned-up listing of a ROM assembles to the ROM**: whatever byte it puts at an address is the
byte of the image there.

Partial: as `C52_cleanup_preserves_bytes_partial` and `C58_entry_reassembles_partial`. -/
theorem C58_rom_reassembles_partial (rom : Rom) {d d' : Disassembler} (h : Session HasName rom.read d)
    (hcl : d.cleanup = .ok d')
    (hok : ∀ a it, Lists d.disassembly a it → a < 0x1000000 ∧ it.instruction.mnemonic ≠ .per ∧
      (it.instruction.mnemonic = .clc ∨ it.instruction.mnemonic = .sec → a % 0x10000 ≠ 0xFFFF))
    {ctx : Ctx} (hc : LabelsAt ctx d'.disassembly) {x : Addr} {b : UInt8} (hp : Puts ctx d'.disassembly x b) :
    ∃ off, snesToRom x rom.mapping = .ok off ∧ rom.data[off]? = some b := by
  have hcd := session_closed h
  have hn := listingNames_ok hcd.proper.sorted hcd.proper.distinct
  rw [← C52_cleanup_preserves_bytes_partial h hcl (fun a it hl hm => ⟨(hok a it hl).1, (hok a it hl).2.2 hm⟩) hn hc]
    at hp
  obtain ⟨a, it, bs, k, hl, he, hk, rfl⟩ := hp
  obtain ⟨ha, hper, -⟩ := hok a it hl
  obtain ⟨bytes, hr, hlen, he'⟩ := C58_entry_reassembles_partial h hn hl ha hper
  unfold Emits at he he'
  rw [he'] at he
  simp only [Prod.mk.injEq, List.cons.injEq, true_and, and_true] at he
  subst he
  obtain ⟨h1, h2⟩ := (C29_read_partial rom ha (n := 4) (by omega) bytes).1 hr
  obtain ⟨hkl, hkb⟩ := List.getElem?_eq_some_iff.1 hk
  rw [List.getElem_take] at hkb
  obtain ⟨off, ho1, ho2⟩ := h2 k (by simp at hkl; omega)
  refine ⟨off, ?_, by rw [ho2, hkb]⟩
  have hx : Address.addWrapped a (k : Nat) = a / 0x10000 * 0x10000 + (a + k) % 0x10000 := by
    unfold Address.addWrapped
    omega
  rw [hx]
  exact ho1

/-- And every byte of an instruction that was disassembled is put where it was. -/
theorem C58_rom_covered_partial (rom : Rom) {d d' : Disassembler} (h : Session HasName rom.read d)
    (hcl : d.cleanup = .ok d')
    (hok : ∀ a it, Lists d.disassembly a it → a < 0x1000000 ∧ it.instruction.mnemonic ≠ .per ∧
      (it.instruction.mnemonic = .clc ∨ it.instruction.mnemonic = .sec → a % 0x10000 ≠ 0xFFFF))
    {ctx : Ctx} (hc : LabelsAt ctx d'.disassembly) {a : Addr} {it : DisItem} (hl : Lists d.disassembly a it) {k : Nat}
    (hk : k < instructionLength it.instruction.mode) :
    ∃ b, Puts ctx d'.disassembly (Address.addWrapped a k) b := by
  have hcd := session_closed h
  have hn := listingNames_ok hcd.proper.sorted hcd.proper.distinct
  obtain ⟨ha, hper, -⟩ := hok a it hl
  obtain ⟨bytes, hr, hlen, he⟩ := C58_entry_reassembles_partial h hn hl ha hper
  refine ⟨bytes[k]'(by omega), ?_⟩
  rw [← C52_cleanup_preserves_bytes_partial h hcl (fun a it hl hm => ⟨(hok a it hl).1, (hok a it hl).2.2 hm⟩) hn hc]
  exact ⟨a, it, _, k, hl, he, by rw [List.getElem?_eq_some_iff]; exact ⟨by simp; omega, by simp⟩, rfl⟩

/-- The demonstration, cleaned up. -/
def demoClean : Disassembler :=
  match cleanupEval demoCall.1 with
  | .ok d => d
  | _ => .empty

theorem demo_clean : demoCall.1.cleanup = .ok demoClean := by
  rw [cleanup_eval]; decide +kernel

/-- It meets the hypotheses, and Cleanup has folded the pair at $8005. -/
example : (∀ a it, Lists demoCall.1.disassembly a it → a < 0x1000000 ∧ it.instruction.mnemonic ≠ .per ∧
      (it.instruction.mnemonic = .clc ∨ it.instruction.mnemonic = .sec → a % 0x10000 ≠ 0xFFFF)) ∧
    LabelsAt (listingNames demoClean.disassembly) demoClean.disassembly ∧
    ∃ it, Lists demoClean.disassembly 0x8005 it ∧ it.instruction.mnemonic = .padd ∧
      Emits (listingNames demoClean.disassembly) 0x8005 it [0x18, 0x69, 0x34, 0x12] := by
  refine ⟨?_, ?_, _, rfl, by decide +kernel, by unfold Emits; decide +kernel⟩
  · intro a it hl
    have h : (demoCall.1.disassembly.all fun n => decide (n.1 < 0x1000000 ∧ n.2.instruction.mnemonic ≠ .per ∧
      (n.2.instruction.mnemonic = .clc ∨ n.2.instruction.mnemonic = .sec → n.1 % 0x10000 ≠ 0xFFFF))) = true := by
      decide +kernel
    exact of_decide_eq_true (List.all_eq_true.mp h (a, it) (OMap.mem_of_find hl))
  · have hp := history_proper (fun _ hf => constructible_normal hf) (History.cleanup
      (session_history (P := Constructible) (src := demoRom.read) (d := demoCall.1)
        (.call (d := .empty) (d' := demoCall.1) (fuel := 20) (start := 0x8000)
          (flags := ⟨.off, .on, .on, .unknown⟩) (r := demoCall.2) .new (by decide)
          ⟨.off, .on, .on, .unknown, by decide⟩ rfl
          (by obtain ⟨far, h⟩ := demo_ok; rw [h]; trivial))) demo_clean)
    exact listingNames_ok hp.sorted hp.distinct

/-! ## Counterexamples -/

theorem history_call {P : StatusFlags → Prop} {src : Source} {d : Disassembler} (h : History P src d) (fuel start : Nat)
    {flags : StatusFlags} (hs : start ≤ 0x1000000) (hf : Constructible flags)
    (hr : (d.disassemble fuel src start flags).2.isOk) :
    History P src (d.disassemble fuel src start flags).1 := by
  refine .call h hs hf rfl ?_
  show Ended (d.disassemble fuel src start flags).2
  cases hx : (d.disassemble fuel src start flags).2 with
  | ok r => trivial
  | err e => rw [hx] at hr; cases hr
  | ub u => rw [hx] at hr; cases hr

theorem session_call {P : StatusFlags → Prop} {src : Source} {d : Disassembler} (h : Session P src d) (fuel start : Nat)
    {flags : StatusFlags} (hs : start ≤ 0x1000000) (hf : Constructible flags)
    (hr : (d.disassemble fuel src start flags).2.isOk) :
    Session P src (d.disassemble fuel src start flags).1 := by
  refine .call h hs hf rfl ?_
  show Ended (d.disassemble fuel src start flags).2
  cases hx : (d.disassemble fuel src start flags).2 with
  | ok r => trivial
  | err e => rw [hx] at hr; cases hr
  | ub u => rw [hx] at hr; cases hr

/-- The flags used in the examples: native mode, 8-bit registers. -/
def m8x8 : StatusFlags := ⟨.off, .on, .on, .unknown⟩

theorem m8x8_ok : Constructible m8x8 := ⟨.off, .on, .on, .unknown, rfl⟩

/-- `per $8005; rts` at $8000. -/
def perRom : Rom := ⟨.loRom, [0x62, 0x02, 0x00, 0x60, 0, 0, 0]⟩

/-- A listing that does not reassemble: `per $8005` at $8000 is listed as `per` with the operand 2, the
offset; the assembler takes 2 for the target. -/
theorem C58_violated : ∃ (d : Disassembler) (it : DisItem) (bytes bs : List UInt8),
    Session HasName perRom.read d ∧ Lists d.disassembly 0x8000 it ∧ perRom.read 0x8000 4 = .ok bytes ∧
    (∀ ctx, Emits ctx 0x8000 it bs) ∧ bs.length = 3 ∧ bs ≠ bytes.take 3 := by
  obtain ⟨it, h1, h2⟩ : ∃ it, Lists (Disassembler.empty.disassemble 20 perRom.read 0x8000 m8x8).1.disassembly 0x8000 it ∧
      it.instruction = ⟨.per, .none, .rel16, .lit 2 .sword, .null, .default⟩ := ⟨_, rfl, by decide +kernel⟩
  refine ⟨_, it, [0x62, 0x02, 0x00, 0x60], [0x62, 0xff, 0x7f],
    session_call .new 20 0x8000 (by decide) m8x8_ok (by decide +kernel), h1, by decide +kernel, ?_, rfl, by decide⟩
  intro ctx
  unfold Emits
  rw [h2]
  rfl

/-- `jsr $8010; rts` at $8000, `rts` at $8008 and at $8010. -/
def farRom : Rom :=
  ⟨.loRom, [0x20, 0x10, 0x80, 0x60, 0, 0, 0, 0, 0x60, 0, 0, 0, 0, 0, 0, 0, 0x60, 0, 0, 0]⟩

/-- Disassembling $8000 and $8010. -/
def farFirst : Disassembler :=
  ((Disassembler.empty.disassemble 20 farRom.read 0x8000 m8x8).1.disassemble 20 farRom.read 0x8010 m8x8).1

/-- The result of an evaluation of `Cleanup`. -/
def cleaned (d : Disassembler) : Disassembler :=
  match cleanupEval d with
  | .ok d => d
  | _ => .empty

/-- Cleaning up, disassembling $8008 and cleaning up again. -/
def farSecond : Disassembler := cleaned ((cleaned farFirst).disassemble 20 farRom.read 0x8008 m8x8).1

theorem cleaned_ok {d : Disassembler} (h : (cleanupEval d).isOk) : d.cleanup = .ok (cleaned d) := by
  rw [cleanup_eval]
  unfold cleaned
  cases hx : cleanupEval d with
  | ok d => rfl
  | err e => rw [hx] at h; cases h
  | ub u => rw [hx] at h; cases h

/-- A second `Cleanup` renames the entry points but not the operands of far jumps that the first one
has named: `jsr entry2` then calls $8008 instead of $8010. -/
theorem C58_violated_second_cleanup : ∃ (d : Disassembler) (ctx : Ctx) (it : DisItem) (bytes bs : List UInt8),
    History HasName farRom.read d ∧ LabelsAt ctx d.disassembly ∧ Lists d.disassembly 0x8000 it ∧
    farRom.read 0x8000 4 = .ok bytes ∧ Emits ctx 0x8000 it bs ∧ bs.length = 3 ∧ bs ≠ bytes.take 3 := by
  have hh : History HasName farRom.read farSecond := by
    refine .cleanup (history_call (.cleanup (history_call (history_call .new 20 0x8000 (by decide) m8x8_ok
      (by decide +kernel)) 20 0x8010 (by decide) m8x8_ok (by decide +kernel)) (cleaned_ok (by decide +kernel))) 20 0x8008
      (by decide) m8x8_ok (by decide +kernel)) (cleaned_ok (by decide +kernel))
  have hp := history_proper (fun _ hf => normal_written hf) hh
  refine ⟨farSecond, listingNames farSecond.disassembly, _, [0x20, 0x10, 0x80, 0x60], [0x20, 0x08, 0x80], hh,
    listingNames_ok hp.sorted hp.distinct, rfl, by decide +kernel, ?_, rfl, by decide⟩
  unfold Emits
  decide +kernel

/-- Bytes around the end of a bank: CLC at $C0FFFF, which goes on at $C00000 with RTS; NOP at $C1FFFF,
which goes on at $C10000 with `adc #5; rts`. -/
def bankSource : Source := fun a _ =>
  if a = 0xc0ffff then .ok [0x18, 0x60, 0, 0]
  else if a = 0xc1ffff then .ok [0xea, 0x69, 0x05, 0x60]
  else if a = 0xc10000 then .ok [0x69, 0x05, 0x60, 0]
  else .ok [0x60, 0, 0, 0]

/-- Disassembling $C0FFFF and $C1FFFF. -/
def bankFirst : Disassembler :=
  ((Disassembler.empty.disassemble 20 bankSource 0xc0ffff m8x8).1.disassemble 20 bankSource 0xc1ffff m8x8).1

/-- `Cleanup` folds the CLC at the end of the bank with the ADC at the beginning of the next bank, which
is not the instruction that follows it.  The ADC disappears from $C10000. -/
theorem C52_violated : ∃ (d d' : Disassembler) (x : Addr) (b : UInt8), Session HasName bankSource d ∧
    d.cleanup = .ok d' ∧ (∀ ctx, Puts ctx d.disassembly x b) ∧ ∀ ctx, ¬ Puts ctx d'.disassembly x b := by
  refine ⟨bankFirst, cleaned bankFirst, 0xc10000, 0x69, ?_, cleaned_ok (by decide +kernel), ?_, ?_⟩
  · exact session_call (session_call .new 20 0xc0ffff (by decide) m8x8_ok (by decide +kernel)) 20 0xc1ffff (by decide)
      m8x8_ok (by decide +kernel)
  · intro ctx
    obtain ⟨it, h1, h2⟩ : ∃ it, Lists bankFirst.disassembly 0xc10000 it ∧
        it.instruction = ⟨.adc, .b, .imm_b, .lit 5 .byte, .null, .default⟩ := ⟨_, rfl, by decide +kernel⟩
    refine ⟨0xc10000, it, [0x69, 0x05], 0, h1, ?_, rfl, by decide⟩
    unfold Emits
    rw [h2]
    rfl
  · rintro ctx ⟨a, it, bs, k, hl, he, hk, hx⟩
    have hm : (cleaned bankFirst).disassembly.map (fun n => (n.1, n.2.instruction)) =
        [(0xc00000, ⟨.rts, .none, .imp, .null, .null, .default⟩),
         (0xc0ffff, ⟨.padd, .b, .imm_b, .lit 5 .byte, .null, .default⟩),
         (0xc10002, ⟨.rts, .none, .imp, .null, .null, .default⟩),
         (0xc1ffff, ⟨.nop, .none, .imp, .null, .null, .default⟩)] := by decide +kernel
    have hmem : (a, it.instruction) ∈ (cleaned bankFirst).disassembly.map (fun n => (n.1, n.2.instruction)) :=
      List.mem_map.2 ⟨(a, it), OMap.mem_of_find hl, rfl⟩
    rw [hm] at hmem
    rw [emits_iff] at he
    simp only [List.mem_cons, Prod.mk.injEq, List.not_mem_nil, or_false] at hmem
    rcases hmem with ⟨rfl, h⟩ | ⟨rfl, h⟩ | ⟨rfl, h⟩ | ⟨rfl, h⟩ <;> rw [h] at he
    · obtain rfl : bs = [0x60] := by cases he; rfl
      match k, hk, hx with
      | 0, hk, hx => cases hk
      | k + 1, hk, hx => cases hk
    · obtain rfl : bs = [0x18, 0x69, 0x05] := by cases he; rfl
      match k, hk, hx with
      | 0, hk, hx => cases hk
      | 1, hk, hx => revert hx; decide
      | 2, hk, hx => cases hk
      | k + 3, hk, hx => cases hk
    · obtain rfl : bs = [0x60] := by cases he; rfl
      match k, hk, hx with
      | 0, hk, hx => cases hk
      | k + 1, hk, hx => cases hk
    · obtain rfl : bs = [0xea] := by cases he; rfl
      match k, hk, hx with
      | 0, hk, hx => cases hk
      | k + 1, hk, hx => cases hk

end Nsasm.Props
