import Verif.Spec.Opcodes

/-! # C04, C55: the opcode table -/

namespace Nsasm.Props

open Nsasm.Spec

/-- A statement about all bytes follows from the 256 numerals. -/
theorem forall_byte {p : UInt8 → Prop} (h : ∀ n : Fin 256, p (UInt8.ofNat n)) (b : UInt8) : p b := by
  have := h ⟨b.toNat, b.toNat_lt⟩
  simpa using this

/-- The table has an entry for every byte, so `DecodeOpcode` never indexes past it. -/
theorem decodeMap_length : decodeMap.length = 256 := by decide +kernel

/-- C55.  The opcode table is the one of the 65816 data sheet. -/
theorem C55_opcode_table_is_data_sheet (op : UInt8) :
    instructionAt op = some (decodeOpcode op) := by
  revert op
  apply forall_byte
  decide +kernel

/-- The pairs that an opcode stands for: the decoded one, and, for an immediate of
flag-dependent size, its two sized forms. -/
def StandsFor (op : UInt8) (m : Mnemonic) (a : Mode) : Prop :=
  decodeOpcode op = (m, a) ∨
  ((decodeOpcode op = (m, .imm_fm) ∨ decodeOpcode op = (m, .imm_fx)) ∧ (a = .imm_b ∨ a = .imm_w))

instance (op : UInt8) (m : Mnemonic) (a : Mode) : Decidable (StandsFor op m a) := by
  unfold StandsFor; infer_instance

/-- What `MakeReverseOpcodeMap` assigns: every key of every table entry, to its index. -/
theorem mem_reverseAssignments (l : List DecodeMapEntry) (s : Nat) (k : Mnemonic × Mode) (i : Nat) :
    (k, i) ∈ reverseAssignments l s ↔ ∃ j e, l[j]? = some e ∧ k ∈ e.keys ∧ i = s + j := by
  induction l generalizing s with
  | nil => simp [reverseAssignments]
  | cons e es ih =>
    simp only [reverseAssignments, List.mem_append, List.mem_map, Prod.mk.injEq, ih]
    constructor
    · rintro (⟨k', hk', rfl, rfl⟩ | ⟨j, e', h1, h2, rfl⟩)
      · exact ⟨0, e, by simp, hk', by simp⟩
      · exact ⟨j + 1, e', by simpa using h1, h2, by omega⟩
    · rintro ⟨j, e', h1, h2, rfl⟩
      cases j with
      | zero => simp only [List.getElem?_cons_zero, Option.some.injEq] at h1; subst h1
                exact Or.inl ⟨k, h2, rfl, rfl⟩
      | succ j => exact Or.inr ⟨j, e', by simpa using h1, h2, by omega⟩

/-- No two entries of the table share a key, so no assignment is overwritten. -/
theorem lastAssigned_all :
    ∀ p ∈ reverseOpcodeMap, lastAssigned p.1 reverseOpcodeMap = some p.2 := by
  decide +kernel

theorem mem_of_lastAssigned {k : Mnemonic × Mode} {l : List ((Mnemonic × Mode) × Nat)} {n : Nat}
    (h : lastAssigned k l = some n) : (k, n) ∈ l := by
  simp only [lastAssigned, Option.map_eq_some_iff] at h
  obtain ⟨p, hp, rfl⟩ := h
  have h1 := List.mem_of_find?_eq_some hp
  have h2 := List.find?_some hp
  simp only [beq_iff_eq] at h2
  subst h2
  simpa using h1

theorem decodeOpcode_eq {op : UInt8} {e : DecodeMapEntry} (h : decodeMap[op.toNat]? = some e) :
    decodeOpcode op = (e.mnemonic, e.mode) := by
  simp [decodeOpcode, h]

theorem encode_iff_keys (m : Mnemonic) (a : Mode) (op : UInt8) :
    encodeOpcode m a = some op ↔ ∃ e, decodeMap[op.toNat]? = some e ∧ (m, a) ∈ e.keys := by
  constructor
  · intro h
    simp only [encodeOpcode, Option.map_eq_some_iff] at h
    obtain ⟨n, hn, rfl⟩ := h
    obtain ⟨j, e, h1, h2, h3⟩ := (mem_reverseAssignments _ _ _ _).1 (mem_of_lastAssigned hn)
    have hj : j < 256 := by
      have := (List.getElem?_eq_some_iff.1 h1).1
      rwa [decodeMap_length] at this
    refine ⟨e, ?_, h2⟩
    rw [UInt8.toNat_ofNat', h3, Nat.zero_add, Nat.mod_eq_of_lt hj, h1]
  · rintro ⟨e, h1, h2⟩
    have : ((m, a), op.toNat) ∈ reverseOpcodeMap :=
      (mem_reverseAssignments _ _ _ _).2 ⟨op.toNat, e, h1, h2, by simp⟩
    have := lastAssigned_all _ this
    simp only [encodeOpcode, this, Option.map_some, UInt8.ofNat_toNat]

theorem mem_keys (m : Mnemonic) (a : Mode) (e : DecodeMapEntry) :
    (m, a) ∈ e.keys ↔ (e.mnemonic, e.mode) = (m, a) ∨
      (((e.mnemonic, e.mode) = (m, .imm_fm) ∨ (e.mnemonic, e.mode) = (m, .imm_fx)) ∧
        (a = .imm_b ∨ a = .imm_w)) := by
  obtain ⟨m', a', f⟩ := e
  cases a' <;> cases a <;> simp [DecodeMapEntry.keys, eq_comm]

/-- C04.  A byte is the encoding of a pair exactly when the byte stands for the
pair; in particular a pair has at most one encoding, an encoded pair decodes back
to itself up to the size of a flag-dependent immediate, and both sizes of such an
immediate share their opcode. -/
theorem C04_encode_iff (m : Mnemonic) (a : Mode) (op : UInt8) :
    encodeOpcode m a = some op ↔ StandsFor op m a := by
  rw [encode_iff_keys]
  have hlt : op.toNat < decodeMap.length := by rw [decodeMap_length]; exact op.toNat_lt
  have hget : decodeMap[op.toNat]? = some decodeMap[op.toNat] := List.getElem?_eq_getElem hlt
  rw [StandsFor, decodeOpcode_eq hget, hget]
  simp only [Option.some.injEq, exists_eq_left', mem_keys]

/-- C04, one direction: encoding what a byte decodes to gives the byte back. -/
theorem C04_encode_decode (op : UInt8) :
    encodeOpcode (decodeOpcode op).1 (decodeOpcode op).2 = some op :=
  (C04_encode_iff _ _ _).2 (Or.inl rfl)

/-- C04, corollary: two pairs with the same encoding have the same mnemonic. -/
theorem C04_same_byte_same_mnemonic (m m' : Mnemonic) (a a' : Mode) (op : UInt8)
    (h : encodeOpcode m a = some op) (h' : encodeOpcode m' a' = some op) : m = m' := by
  rw [C04_encode_iff] at h h'
  rcases h with h | ⟨h | h, -⟩ <;> rcases h' with h' | ⟨h' | h', -⟩ <;>
    (rw [h] at h'; exact (Prod.mk.inj h').1)

/-- C04, pseudo-mnemonics have no opcode of their own. -/
theorem C04_pseudo_not_encodable (a : Mode) :
    encodeOpcode .padd a = none ∧ encodeOpcode .psub a = none := by
  have h : ∀ e ∈ decodeMap, e.mnemonic ≠ .padd ∧ e.mnemonic ≠ .psub := by decide +kernel
  constructor <;> apply Option.eq_none_iff_forall_ne_some.2 <;> intro op hop <;>
    obtain ⟨e, he, hk⟩ := (encode_iff_keys _ _ _).1 hop <;>
    have := h e (List.mem_of_getElem? he) <;>
    rcases (mem_keys _ _ _).1 hk with hk | ⟨hk | hk, -⟩ <;> simp_all

example : encodeOpcode .lda .imm_w = some 0xa9 ∧ encodeOpcode .lda .imm_b = some 0xa9 := by
  decide +kernel
example : encodeOpcode .jsr .dir_l = none := by decide +kernel

/-- C55, lengths: the instruction length is one opcode byte plus the data sheet's
operand bytes. -/
theorem C55_instruction_lengths (a : Mode) (h : a ≠ .imm_fm) (h' : a ≠ .imm_fx) :
    instructionLength a = 1 + operandBytes a := by
  revert a; decide

end Nsasm.Props
