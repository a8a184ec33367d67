import Verif.Model.OpcodeTable
import Verif.Spec.OpcodeTable
import Verif.Props.Opcode

/-! # C112: the printed opcode table -/

namespace Nsasm.Props
open Nsasm Nsasm.Spec

/-- Every opcode is shown with the mnemonic and the notation of the data sheet. -/
theorem opcodeText_sheet (op : UInt8) : ∃ m mode, instructionAt op = some (m, mode) ∧
    opcodeText op = m.name ++ notationOf cs!"6636321" cs!"67" mode := by
  have h : ∀ op : UInt8, opcodeText op =
      (decodeOpcode op).1.name ++ notationOf cs!"6636321" cs!"67" (decodeOpcode op).2 := by
    apply forall_byte
    decide +kernel
  exact ⟨_, _, C55_opcode_table_is_data_sheet op, h op⟩

/-- **The table has one row for each opcode, in order.**  Each starts with the number of its opcode and shows the
mnemonic that the data sheet gives it, and its addressing mode. -/
theorem C112_rows : opcodeTable.length = 256 ∧ ∀ op : UInt8, ∃ row m mode, opcodeTable[op.toNat]? = some row ∧
    instructionAt op = some (m, mode) ∧ RowFor op (m.name ++ notationOf cs!"6636321" cs!"67" mode) row := by
  refine ⟨by simp [opcodeTable], fun op => ?_⟩
  obtain ⟨m, mode, hi, ht⟩ := opcodeText_sheet op
  have hd : ∀ k < 16, cs!"0123456789ABCDEF"[k]? = some (upperHexDigit k) := by decide +kernel
  have hlt := op.toNat_lt
  refine ⟨opcodeLine op.toNat, m, mode, ?_, hi, upperHexDigit (op.toNat / 16), upperHexDigit (op.toNat % 16),
    hd _ (by omega), hd _ (by omega), ?_⟩
  · unfold opcodeTable
    rw [List.getElem?_map, List.getElem?_range (by omega)]
    rfl
  · rw [← ht]
    simp [opcodeLine]

/-- **Rows can be told apart by their texts, but for the width of the operand.**  Two opcodes are shown by the same
text exactly if they have the same mnemonic, and modes that differ only in the width of the operand.

Partial: opcodes that differ only in the width of the operand should be told apart too (`C112_violated`). -/
theorem C112_distinguishes_partial (op op' : UInt8) {m m' : Mnemonic} {mode mode' : Mode}
    (h : instructionAt op = some (m, mode)) (h' : instructionAt op' = some (m', mode')) {row row' text text' : Str}
    (hr : opcodeTable[op.toNat]? = some row) (hr' : opcodeTable[op'.toNat]? = some row')
    (ht : RowFor op text row) (ht' : RowFor op' text' row') :
    text = text' ↔ m = m' ∧ SameButWidth mode mode' := by
  have key : ∀ {op : UInt8} {m mode row text}, instructionAt op = some (m, mode) → opcodeTable[op.toNat]? = some row →
      RowFor op text row → text = m.name ++ notationOf cs!"6636321" cs!"67" mode := by
    intro op m mode row text h hr ht
    obtain ⟨row₁, m₁, mode₁, h1, h2, hi, lo, -, -, h3⟩ := C112_rows.2 op
    rw [h] at h2
    cases h2
    rw [hr] at h1
    cases h1
    obtain ⟨hi', lo', -, -, h4⟩ := ht
    rw [h3] at h4
    simp only [List.cons_append, List.nil_append, List.cons.injEq] at h4
    exact h4.2.2.2.2.symm
  rw [key h hr ht, key h' hr' ht']
  have hlen : ∀ m : Mnemonic, m.name.length = 3 := by decide +kernel
  have hinj : ∀ m m' : Mnemonic, m.name = m'.name → m = m' := by decide +kernel
  have hnot : ∀ a b : Mode, notationOf cs!"6636321" cs!"67" a = notationOf cs!"6636321" cs!"67" b ↔
      SameButWidth a b ∨ (a = .imp ∧ b = .acc) ∨ (a = .acc ∧ b = .imp) := by decide +kernel
  -- no mnemonic stands both without an operand and for the accumulator
  have hacc : ∀ op op' : UInt8, (decodeOpcode op).2 = .imp → (decodeOpcode op').2 = .acc →
      (decodeOpcode op).1 ≠ (decodeOpcode op').1 := by
    have hset : ∀ op : UInt8, (decodeOpcode op).2 = .acc →
        (decodeOpcode op).1 ∈ [Mnemonic.asl, .lsr, .rol, .ror, .inc, .dec] := by
      apply forall_byte; decide +kernel
    have hset' : ∀ op : UInt8, (decodeOpcode op).2 = .imp →
        (decodeOpcode op).1 ∉ [Mnemonic.asl, .lsr, .rol, .ror, .inc, .dec] := by
      apply forall_byte; decide +kernel
    intro op op' h1 h2 he
    exact hset' op h1 (he ▸ hset op' h2)
  rw [C55_opcode_table_is_data_sheet] at h h'
  have e1 := Option.some.inj h
  have e2 := Option.some.inj h'
  constructor
  · intro he
    obtain ⟨g1, g2⟩ := List.append_inj he (by rw [hlen, hlen])
    have hm := hinj _ _ g1
    refine ⟨hm, ?_⟩
    rcases (hnot _ _).mp g2 with g | ⟨ga, gb⟩ | ⟨ga, gb⟩
    · exact g
    · refine absurd ?_ (hacc op op' (by rw [e1]; exact ga) (by rw [e2]; exact gb))
      rw [e1, e2]; exact hm
    · refine absurd ?_ (hacc op' op (by rw [e2]; exact gb) (by rw [e1]; exact ga))
      rw [e1, e2]; exact hm.symm
  · rintro ⟨rfl, hw⟩
    rw [(hnot _ _).mpr (.inl hw)]

/-- The table does not show how wide an operand is: loading from the direct page, from the bank and from anywhere
are three opcodes and one text. -/
theorem C112_violated : ∃ text, ∀ op ∈ [(0xa5 : UInt8), 0xad, 0xaf], ∃ row, opcodeTable[op.toNat]? = some row ∧
    RowFor op text row := by
  refine ⟨cs!"lda 6636321", fun op hop => ?_⟩
  obtain ⟨row, m, mode, h1, h2, h3⟩ := C112_rows.2 op
  refine ⟨row, h1, ?_⟩
  have ht : m.name ++ notationOf cs!"6636321" cs!"67" mode = cs!"lda 6636321" := by
    rw [C55_opcode_table_is_data_sheet] at h2
    have e := Option.some.inj h2
    have ha : ∀ op ∈ [(0xa5 : UInt8), 0xad, 0xaf], (decodeOpcode op).1.name ++
        notationOf cs!"6636321" cs!"67" (decodeOpcode op).2 = cs!"lda 6636321" := by decide +kernel
    have := ha op hop
    rwa [e] at this
  rwa [ht] at h3

/-- Two rows of the table. -/
example : opcodeTable[0x29]? = some cs!"29  and.b #6636321" ∧ opcodeTable[0xb7]? = some cs!"B7  lda [6636321], Y" ∧
    RowFor 0xb7 cs!"lda [6636321], Y" cs!"B7  lda [6636321], Y" := by
  refine ⟨by decide +kernel, by decide +kernel, 'B', '7', by decide +kernel, by decide +kernel, rfl⟩

end Nsasm.Props
