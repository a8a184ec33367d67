import Verif.Spec.Branch
import Verif.Props.Instruction

set_option linter.unusedSimpArgs false

/-! # C111: which instructions are accepted -/

namespace Nsasm.Props
open Nsasm Nsasm.Spec

/-- Subtracting addresses finds the displacement if there is one. -/
theorem displacement_of {addr t : Addr} {n : Nat} {d : Int} (haddr : addr < 0x1000000)
    (hd : -32768 ≤ d ∧ d ≤ 32767)
    (ht : (t : Int) = addr / 0x10000 * 0x10000 + ((addr : Int) + n + d) % 0x10000) :
    Address.subtractWrapped t (Address.addWrapped addr n) = .ok d := by
  have h1 : Address.bank t = t / 65536 := rfl
  have h2 : Address.bankAddress t = t % 65536 := rfl
  have h3 : Address.bank (Address.addWrapped addr n) = Address.addWrapped addr n / 65536 := rfl
  have h4 : Address.bankAddress (Address.addWrapped addr n) = Address.addWrapped addr n % 65536 := rfl
  have h5 : Address.addWrapped addr n = addr / 65536 % 256 * 65536 + (((addr : Int) + n) % 65536).toNat := rfl
  unfold Address.subtractWrapped
  rw [h1, h2, h3, h4, h5]
  rw [if_neg (by omega)]
  simp only [Res.ok.injEq]
  split <;> omega

/-- The displacement is found exactly if there is one. -/
theorem displacement_iff {addr : Addr} {n : Nat} {v d : Int} (haddr : addr < 0x1000000) :
    (∃ t, Address.ofInt v = .ok t ∧ Address.subtractWrapped t (Address.addWrapped addr n) = .ok d) ↔
      (-32768 ≤ d ∧ d ≤ 32767) ∧ v = addr / 0x10000 * 0x10000 + ((addr : Int) + n + d) % 0x10000 := by
  constructor
  · rintro ⟨t, ht, hd⟩
    obtain ⟨h1, h2⟩ := branch_offset haddr ht hd
    exact ⟨h1, h2.symm⟩
  · rintro ⟨hd, hv⟩
    have h0 : 0 ≤ v ∧ v ≤ 0x1000000 := by omega
    refine ⟨v.toNat, by rw [Address.ofInt, if_pos h0], displacement_of haddr hd ?_⟩
    omega

/-- **An instruction is accepted exactly if it has an encoding.**  Assembling at an address succeeds exactly if the
processor has the instruction in this addressing mode, the size of an immediate operand is settled, its operands
have values, and a relative branch reaches its target from there. -/
theorem C111_accepted (i : Instruction) (addr : Addr) (haddr : addr < 0x1000000) (ctx : Ctx) :
    (∃ bs, i.assemble addr ctx logSink [] = ([(addr, bs)], .ok ())) ↔
      (∃ op, StandsFor op (realMnemonic i.mnemonic) i.mode) ∧ i.mode ≠ .imm_fm ∧ i.mode ≠ .imm_fx ∧
        Supplied i ctx ∧
        (Relative i.mode → ∃ target, i.arg1.eval ctx = .ok target ∧ Reaches i.mode addr target) := by
  simp only [assemble_log]
  have hreal : (if i.mnemonic = .padd then .adc else if i.mnemonic = .psub then .sbc else i.mnemonic) =
      realMnemonic i.mnemonic := by
    cases i.mnemonic <;> rfl
  simp only [Instruction.assembleBytes, hreal]
  have henc : (∃ op, StandsFor op (realMnemonic i.mnemonic) i.mode) ↔
      ∃ op, encodeOpcode (realMnemonic i.mnemonic) i.mode = some op := by simp only [C04_encode_iff]
  rw [henc]
  cases hop : encodeOpcode (realMnemonic i.mnemonic) i.mode with
  | none => simp
  | some op =>
    obtain ⟨m, suf, mode, e1, e2, r⟩ := i
    have hx := fun (n : Nat) (v d : Int) => displacement_iff (n := n) (v := v) (d := d) haddr
    cases mode <;>
      simp only [Supplied, operandBytes, Relative, Reaches, Displacement, Res.bind_eq_ok, Res.ok.injEq, reduceCtorEq,
        ne_eq, not_true_eq_false, not_false_eq_true, false_and, and_false, exists_false, true_and, and_true, or_self,
        or_false, false_or, forall_const, IsEmpty.forall_iff, Option.some.injEq, exists_eq', false_implies,
        Nat.reduceEqDiff, exists_const, true_or, or_true]
    case rel8 =>
      constructor
      · rintro ⟨bs, v, hv, t, ht, d, hd, h⟩
        split at h
        · cases h
        · obtain ⟨h1, h2⟩ := (hx 2 v d).mp ⟨t, ht, hd⟩
          exact ⟨⟨v, hv⟩, v, hv, d, by omega, by simpa using h2⟩
      · rintro ⟨-, v, hv, d, h1, h2⟩
        obtain ⟨t, ht, hd⟩ := (hx 2 v d).mpr ⟨by omega, by simpa using h2⟩
        exact ⟨_, v, hv, t, ht, d, hd, by rw [if_neg (by omega)]⟩
    case rel16 =>
      constructor
      · rintro ⟨bs, v, hv, t, ht, d, hd, h⟩
        obtain ⟨h1, h2⟩ := (hx 3 v d).mp ⟨t, ht, hd⟩
        exact ⟨⟨v, hv⟩, v, hv, d, h1, by simpa using h2⟩
      · rintro ⟨-, v, hv, d, h1, h2⟩
        obtain ⟨t, ht, hd⟩ := (hx 3 v d).mpr ⟨h1, by simpa using h2⟩
        exact ⟨_, v, hv, t, ht, d, hd, rfl⟩
    all_goals
      constructor
      · rintro ⟨bs, h⟩
        first
          | (obtain ⟨v, hv, w, hw, -⟩ := h; exact ⟨⟨v, hv⟩, w, hw⟩)
          | (obtain ⟨v, hv, -⟩ := h; exact ⟨v, hv⟩)
      · intro h
        first
          | (obtain ⟨⟨v, hv⟩, w, hw⟩ := h; exact ⟨_, v, hv, w, hw, rfl⟩)
          | (obtain ⟨v, hv⟩ := h; exact ⟨_, v, hv, rfl⟩)

/-- **A branch out of reach is refused.**  With a target in the address space, the result is an error, and nothing is
written, into whatever sink. -/
theorem C111_refused (i : Instruction) (addr : Addr) (haddr : addr < 0x1000000) (ctx : Ctx)
    (hrel : Relative i.mode) {target : Int} (hv : i.arg1.eval ctx = .ok target)
    (hspace : 0 ≤ target ∧ target < 0x1000000) (hout : ¬ Reaches i.mode addr target) :
    ∃ e, ∀ (σ : Type) (sink : Sink σ) (s : σ), i.assemble addr ctx sink s = (s, .err e) := by
  have hno : ∀ bs, i.assembleBytes addr ctx ≠ .ok bs := by
    intro bs hbs
    obtain ⟨-, -, -, -, h⟩ := (C111_accepted i addr haddr ctx).mp ⟨bs, assemble_log.mpr hbs⟩
    obtain ⟨t, ht, hr⟩ := h hrel
    rw [hv] at ht
    cases ht
    exact hout hr
  have hsub : ∀ t u x, Address.subtractWrapped t u ≠ .ub x := by
    intro t u x
    unfold Address.subtractWrapped
    split <;> simp
  have hofs : Address.ofInt target = .ok target.toNat := by rw [Address.ofInt, if_pos (by omega)]
  cases h : i.assembleBytes addr ctx with
  | ok bs => exact absurd h (hno bs)
  | err e => exact ⟨e, fun σ sink s => by simp [Instruction.assemble, h]⟩
  | ub u =>
    exfalso
    simp only [Instruction.assembleBytes] at h
    split at h
    · cases h
    · rcases hrel with hm | hm <;> rw [hm] at h <;> simp only [hv, hofs, Res.bind_ok] at h
      · cases hs : Address.subtractWrapped target.toNat (Address.addWrapped addr 2) with
        | ok d => rw [hs] at h; simp only [Res.bind_ok] at h; split at h <;> cases h
        | err e => rw [hs] at h; cases h
        | ub x => exact hsub _ _ _ hs
      · cases hs : Address.subtractWrapped target.toNat (Address.addWrapped addr 3) with
        | ok d => rw [hs] at h; cases h
        | err e => rw [hs] at h; cases h
        | ub x => exact hsub _ _ _ hs

/-- **A long branch reaches exactly its bank.** -/
theorem C111_long_reach (addr : Addr) (target : Addr) :
    Reaches .rel16 addr target ↔ target / 0x10000 = addr / 0x10000 := by
  constructor
  · rintro ⟨d, -, h⟩
    omega
  · intro h
    have hr := Int.emod_nonneg ((target : Int) - addr - 3) (b := 65536) (by omega)
    have hl := Int.emod_lt_of_pos ((target : Int) - addr - 3) (b := 65536) (by omega)
    by_cases hc : ((target : Int) - addr - 3) % 65536 ≤ 32767
    · refine ⟨((target : Int) - addr - 3) % 65536, ⟨by omega, hc⟩, ?_⟩
      simp only [operandBytes]
      omega
    · refine ⟨((target : Int) - addr - 3) % 65536 - 65536, ⟨by omega, by omega⟩, ?_⟩
      simp only [operandBytes]
      omega

/-- **A long branch will always do.**  Wherever a short branch is accepted, the long branch to the same target is. -/
theorem C111_long_will_do (i : Instruction) (addr : Addr) (haddr : addr < 0x1000000) (ctx : Ctx) (hi : i.mode = .rel8)
    (h : ∃ bs, i.assemble addr ctx logSink [] = ([(addr, bs)], .ok ())) :
    ∃ bs, { i with mnemonic := .brl, mode := .rel16 }.assemble addr ctx logSink [] = ([(addr, bs)], .ok ()) := by
  obtain ⟨-, -, -, -, hr⟩ := (C111_accepted i addr haddr ctx).mp h
  obtain ⟨target, hv, hr⟩ := hr (.inl hi)
  rw [hi] at hr
  refine (C111_accepted _ addr haddr ctx).mpr ⟨⟨0x82, show StandsFor 0x82 .brl .rel16 by decide +kernel⟩, by simp, by simp,
    ⟨fun _ => ⟨target, hv⟩, fun hm => by cases hm⟩, fun _ => ⟨target, hv, ?_⟩⟩
  obtain ⟨d, -, hd⟩ := hr
  obtain ⟨t, rfl⟩ := Int.eq_ofNat_of_zero_le (show 0 ≤ target by omega)
  exact (C111_long_reach addr t).mpr (by omega)

/-- The farthest branches, forward and back, and around the end of a bank; one further is not in reach. -/
example : Reaches .rel8 0x18000 0x18081 ∧ Reaches .rel8 0x18000 0x17f82 ∧ Reaches .rel8 0x1fff0 0x10071 ∧
    ¬ Reaches .rel8 0x18000 0x18082 ∧ ¬ Reaches .rel8 0x18000 0x17f81 ∧ ¬ Reaches .rel8 0x18000 0x28002 := by
  refine ⟨⟨127, ⟨by omega, by omega⟩, by decide⟩, ⟨-128, ⟨by omega, by omega⟩, by decide⟩,
    ⟨127, ⟨by omega, by omega⟩, by decide⟩, ?_, ?_, ?_⟩ <;>
    · rintro ⟨d, ⟨h1, h2⟩, h⟩
      simp only [operandBytes] at h
      omega

/-- The two theorems apply to both sides of the boundary. -/
example : (∃ bs, (⟨.bra, .none, .rel8, .mkLit 0x18081 .long, .null, .default⟩ : Instruction).assemble 0x18000 nullCtx
      logSink [] = ([(0x18000, bs)], .ok ())) ∧
    (⟨.bra, .none, .rel8, .mkLit 0x18082 .long, .null, .default⟩ : Instruction).assemble 0x18000 nullCtx
      logSink [] = ([], .err .branchTooFar) := ⟨⟨[0x80, 0x7f], by decide +kernel⟩, by decide +kernel⟩

end Nsasm.Props
