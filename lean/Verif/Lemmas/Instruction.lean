import Verif.Props.Opcode
import Verif.Spec.Instruction
import Mathlib.Tactic.Common

/-! Helper lemmas about encoding and decoding. -/

namespace Nsasm

open Nsasm.Props Nsasm.Spec

theorem byteOf_toNat' (v : Int) : (byteOf v).toNat = (v % 256).toNat := by
  have := byteOf_toNat v; omega

theorem byteOf_ofNat (b : UInt8) : byteOf (b.toNat : Int) = b := by
  apply UInt8.toNat.inj
  rw [byteOf_toNat']
  have := b.toNat_lt
  omega

theorem byteOf_congr {v : Int} {b : UInt8} (h : v % 256 = b.toNat) : byteOf v = b := by
  apply UInt8.toNat.inj
  rw [byteOf_toNat', h]; simp

/-- Which table entries have a flag-sized immediate. -/
theorem decode_flag_entries (op : UInt8) :
    ((decodeOpcode op).2 = .imm_fm → SizedByM (decodeOpcode op).1 ∧ ¬ SizedByX (decodeOpcode op).1) ∧
    ((decodeOpcode op).2 = .imm_fx → SizedByX (decodeOpcode op).1 ∧ ¬ SizedByM (decodeOpcode op).1) ∧
    ((decodeOpcode op).2 = .imm_b ∨ (decodeOpcode op).2 = .imm_w →
      ¬ SizedByX (decodeOpcode op).1 ∧ ¬ SizedByM (decodeOpcode op).1) ∧
    (decodeOpcode op).1 ≠ .padd ∧ (decodeOpcode op).1 ≠ .psub := by
  revert op
  apply forall_byte
  decide +kernel

/-- Decoding an encoded opcode finds the mnemonic and mode again. -/
theorem decode_of_encode {m : Mnemonic} {a : Mode} {op : UInt8} (l : List UInt8) {f : StatusFlags}
    (h : encodeOpcode m a = some op) (hm : a ≠ .imm_fm) (hx : a ≠ .imm_fx)
    (hf : SizeAgrees m a f) :
    decode (op :: l) f = (do
      let (a1, a2) ← decodeArgs a l
      .ok ⟨m, .none, a, a1, a2, .default⟩) := by
  rw [C04_encode_iff] at h
  have hent := decode_flag_entries op
  rcases h with h | ⟨h | h, ha⟩
  · simp [decode, h, hm, hx]
  · rw [h] at hent
    have hM := hent.1 rfl
    have := hf.1 hM.1
    rcases ha with rfl | rfl
    · simp [decode, h, this.1]
    · simp [decode, h, this.2]
  · rw [h] at hent
    have hX := hent.2.1 rfl
    have := hf.2 hX.1
    rcases ha with rfl | rfl
    · simp [decode, h, this.1]
    · simp [decode, h, this.2]

/-- What a successful decoding looks like. -/
theorem decode_ok_iff (bytes : List UInt8) (f : StatusFlags) (i : Instruction) :
    decode bytes f = .ok i ↔ ∃ op l a a1 a2, bytes = op :: l ∧
      a ≠ .imm_fm ∧ a ≠ .imm_fx ∧
      (((decodeOpcode op).2 = a) ∨
        ((decodeOpcode op).2 = .imm_fm ∧ ((a = .imm_b ∧ f.m = .on) ∨ (a = .imm_w ∧ f.m = .off))) ∨
        ((decodeOpcode op).2 = .imm_fx ∧ ((a = .imm_b ∧ f.x = .on) ∨ (a = .imm_w ∧ f.x = .off)))) ∧
      decodeArgs a l = .ok (a1, a2) ∧ i = ⟨(decodeOpcode op).1, .none, a, a1, a2, .default⟩ := by
  cases bytes with
  | nil => simp [decode]
  | cons op l =>
    simp only [decode]
    cases hd : decodeOpcode op with
    | mk m a =>
      by_cases h1 : a = .imm_fm
      · subst h1
        cases hfm : f.m <;> simp [Res.bind_eq_ok] <;> aesop
      by_cases h2 : a = .imm_fx
      · subst h2
        cases hfm : f.x <;> simp [Res.bind_eq_ok] <;> aesop
      · simp [h1, h2, Res.bind_eq_ok]; aesop

theorem encode_of_decode {op : UInt8} {a : Mode}
    (ha : ((decodeOpcode op).2 = a) ∨
        ((decodeOpcode op).2 = .imm_fm ∧ (a = .imm_b ∨ a = .imm_w)) ∨
        ((decodeOpcode op).2 = .imm_fx ∧ (a = .imm_b ∨ a = .imm_w))) :
    encodeOpcode (decodeOpcode op).1 a = some op := by
  rw [C04_encode_iff, StandsFor]
  cases hd : decodeOpcode op with
  | mk m b =>
    simp only [hd, Prod.mk.injEq, true_and] at *
    rcases ha with rfl | ⟨rfl, h⟩ | ⟨rfl, h⟩
    · simp
    · simp [h]
    · simp [h]

/-- The offset of a relative operand leads to its target. -/
theorem branch_offset {addr t : Addr} {v o : Int} {n : Int} (haddr : addr < 0x1000000)
    (ht : Address.ofInt v = .ok t)
    (ho : Address.subtractWrapped t (Address.addWrapped addr n) = .ok o) :
    (-32768 ≤ o ∧ o ≤ 32767) ∧
      (addr / 0x10000 * 0x10000 + (addr + n + o) % 0x10000 : Int) = v := by
  have h1 : Address.bank t = t / 65536 := rfl
  have h2 : Address.bankAddress t = t % 65536 := rfl
  have h3 : Address.bank (Address.addWrapped addr n) = Address.addWrapped addr n / 65536 := rfl
  have h4 : Address.bankAddress (Address.addWrapped addr n) = Address.addWrapped addr n % 65536 := rfl
  have h5 : Address.addWrapped addr n = addr / 65536 % 256 * 65536 + ((addr + n) % 65536).toNat := rfl
  unfold Address.ofInt at ht
  unfold Address.subtractWrapped at ho
  split at ht
  · split at ho
    · cases ho
    · rename_i hv hb
      simp only [Res.ok.injEq] at ht ho
      simp only [ne_eq, not_not] at hb
      split at ho <;> omega
  · cases ht

/-- The target an offset denotes is an address, and leads back to the offset. -/
theorem offset_subtract {addr : Addr} {o : Int} {n : Int} (haddr : addr < 0x1000000)
    (h1 : -32768 ≤ o) (h2 : o ≤ 32767) :
    Address.ofInt (addr / 0x10000 * 0x10000 + (addr + n + o) % 0x10000 : Int) =
      .ok (addr / 0x10000 * 0x10000 + (addr + n + o) % 0x10000 : Int).toNat ∧
    Address.subtractWrapped (addr / 0x10000 * 0x10000 + (addr + n + o) % 0x10000 : Int).toNat
      (Address.addWrapped addr n) = .ok o := by
  constructor
  · unfold Address.ofInt
    rw [if_pos (by omega)]
  · generalize ht : (addr / 0x10000 * 0x10000 + (addr + n + o) % 0x10000 : Int).toNat = t
    have h3 : Address.bank t = t / 65536 := rfl
    have h4 : Address.bankAddress t = t % 65536 := rfl
    have h5 : Address.bank (Address.addWrapped addr n) = Address.addWrapped addr n / 65536 := rfl
    have h6 : Address.bankAddress (Address.addWrapped addr n) = Address.addWrapped addr n % 65536 := rfl
    have h7 : Address.addWrapped addr n = addr / 65536 % 256 * 65536 + ((addr + n) % 65536).toNat := rfl
    unfold Address.subtractWrapped
    rw [if_neg (by omega)]
    simp only [Res.ok.injEq]
    split <;> omega

end Nsasm
