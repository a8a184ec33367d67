import Verif.Spec.Rom
import Mathlib.Tactic.Common

/-!
# Properties of ROM images (C27–C31)

The specification is `Verif/Spec/Rom.lean`.
-/

namespace Nsasm.Props

open Nsasm Nsasm.Spec

/-- Exactly the addresses outside the system areas (and, for LoROM, in the upper half
of a bank) map to ROM. -/
theorem C27_mapped_iff {a : Nat} (ha : a < 0x1000000) (mode : Mapping) :
    (∃ off, snesToRom a mode = .ok off) ↔ Mapped mode a := by
  unfold snesToRom Mapped SystemArea Address.bank Address.bankAddress
  cases mode <;> simp only
  all_goals
    constructor
    · rintro ⟨off, h⟩
      split_ifs at h <;> simp <;> omega
    · intro h
      simp at h
      rw [if_neg (by omega), if_neg (by omega)]
      first
        | (rw [if_neg (by omega)]; exact ⟨_, rfl⟩)
        | exact ⟨_, rfl⟩

/-- LoROM and HiROM: a mapped address selects the documented offset, below the
capacity of the mode. -/
theorem C27_offset {a : Nat} (ha : a < 0x1000000) {mode : Mapping} (hmode : mode ≠ .exHiRom)
    {off : Nat} (h : snesToRom a mode = .ok off) :
    off = romOffset mode a ∧ off < capacity mode := by
  unfold snesToRom Address.bank Address.bankAddress at h
  cases mode <;> simp only [ne_eq, not_true_eq_false] at hmode <;> simp only at h <;>
    unfold romOffset capacity <;> simp only <;> split_ifs at h <;>
    simp only [Res.ok.injEq] at h <;> omega

/-- LoROM and HiROM: two mapped addresses select the same offset exactly when they are
mirrors of each other. -/
theorem C27_injective_up_to_mirrors {a b : Nat} (ha : a < 0x1000000) (hb : b < 0x1000000)
    {mode : Mapping} (hmode : mode ≠ .exHiRom) {offa offb : Nat}
    (h : snesToRom a mode = .ok offa) (h' : snesToRom b mode = .ok offb) :
    offa = offb ↔ Mirror mode a b := by
  have ma := (C27_mapped_iff ha mode).1 ⟨_, h⟩
  have mb := (C27_mapped_iff hb mode).1 ⟨_, h'⟩
  rw [(C27_offset ha hmode h).1, (C27_offset hb hmode h').1]
  unfold Mapped SystemArea at ma mb
  unfold romOffset Mirror
  cases mode <;> simp at hmode ma mb ⊢ <;> omega

/-- ROM is never reported at work-RAM or system addresses, in any mode. -/
theorem C27_never_system {a : Nat} (ha : a < 0x1000000) {mode : Mapping} (h : SystemArea a) :
    snesToRom a mode = .err .unmappedAddress := by
  unfold SystemArea at h
  unfold snesToRom Address.bank Address.bankAddress
  simp only
  split_ifs <;> first | rfl | omega

example : snesToRom 0x808000 .loRom = .ok 0 ∧ snesToRom 0x008000 .loRom = .ok 0 ∧
    snesToRom 0xc12345 .hiRom = .ok 0x12345 ∧ SystemArea 0x7e1234 ∧
    Mirror .loRom 0x808000 0x008000 := by
  refine ⟨by decide, by decide, by decide, ?_, ?_⟩
  · unfold SystemArea; decide
  · exact ⟨by decide, by decide⟩

/-- What ExHiROM actually does: the offset always has bit 22 set. -/
theorem exHiRom_offset {a : Nat} (ha : a < 0x1000000) {off : Nat}
    (h : snesToRom a .exHiRom = .ok off) : off = a % 0x400000 + 0x400000 := by
  unfold snesToRom Address.bank Address.bankAddress at h
  simp only at h
  split_ifs at h <;> simp only [Res.ok.injEq] at h <;> omega

/-- ExHiROM, two mapped addresses in the same half of the address space: they select the
same offset exactly when they are mirrors, and it is below the capacity.  Missing:
addresses in different halves (see `C28_violated`). -/
theorem C27_exhirom_same_half_partial {a b : Nat} (ha : a < 0x1000000) (hb : b < 0x1000000)
    (hh : a / 0x800000 = b / 0x800000) {offa offb : Nat}
    (h : snesToRom a .exHiRom = .ok offa) (h' : snesToRom b .exHiRom = .ok offb) :
    (offa = offb ↔ Mirror .exHiRom a b) ∧ offa < capacity .exHiRom := by
  rw [exHiRom_offset ha h, exHiRom_offset hb h']
  unfold Mirror capacity
  simp only
  omega

/-- C28 and C27 fail for ExHiROM: address bit 23 is lost before it is tested, so banks
$80-$ff select the second half of the image instead of the first, and addresses that
are not mirrors select the same offset. -/
theorem C28_violated :
    (∃ a off, a < 0x1000000 ∧ snesToRom a .exHiRom = .ok off ∧ off ≠ romOffset .exHiRom a) ∧
    (∃ a b off, a < 0x1000000 ∧ b < 0x1000000 ∧ snesToRom a .exHiRom = .ok off ∧
      snesToRom b .exHiRom = .ok off ∧ ¬ Mirror .exHiRom a b) :=
  ⟨⟨0xc00000, 0x400000, by decide, by decide, by decide⟩,
   ⟨0xc00000, 0x400000, 0x400000, by decide, by decide, by decide, by decide,
     by unfold Mirror; decide⟩⟩

/-- It fails for every mapped address in banks $80-$ff. -/
theorem C28_violated_everywhere {a : Nat} (ha : a < 0x1000000) (hb : 0x800000 ≤ a) {off : Nat}
    (h : snesToRom a .exHiRom = .ok off) : off ≠ romOffset .exHiRom a := by
  rw [exHiRom_offset ha h]
  unfold romOffset
  simp only
  rw [if_neg (by omega)]
  omega

/-- The part of C28 that holds: banks $00-$7f select the documented offset, in the
second half of the image.  Missing: banks $80-$ff (see `C28_violated`). -/
theorem C28_low_banks_partial {a : Nat} (ha : a < 0x800000) {off : Nat}
    (h : snesToRom a .exHiRom = .ok off) :
    off = romOffset .exHiRom a ∧ 0x400000 ≤ off ∧ off < capacity .exHiRom := by
  rw [exHiRom_offset (by omega) h]
  unfold romOffset capacity
  simp only
  rw [if_pos (by omega)]
  omega

example : snesToRom 0x412345 .exHiRom = .ok 0x412345 ∧ 0x412345 < 0x800000 := by decide

/-! ## Reading -/

theorem wrappedStep {a : Nat} (ha : a < 0x1000000) (i : Nat) :
    Address.addWrapped a i = a / 0x10000 * 0x10000 + (a + i) % 0x10000 := by
  unfold Address.addWrapped
  omega

theorem readLoop_iff (rom : Rom) {a : Nat} (ha : a < 0x1000000) (n i : Nat) (bs : List UInt8) :
    rom.readLoop a i n = .ok bs ↔
      bs.length = n ∧ ∀ j (h : j < bs.length), ByteAt rom a (i + j) bs[j] := by
  induction n generalizing i bs with
  | zero =>
    simp only [Rom.readLoop, Res.ok.injEq]
    constructor
    · rintro rfl; simp
    · rintro ⟨h, -⟩; exact (List.length_eq_zero_iff.1 h).symm
  | succ n ih =>
    rw [Rom.readLoop, wrappedStep ha]
    constructor
    · intro h
      obtain ⟨off, h1, h2⟩ := Res.bind_eq_ok.1 h
      cases hd : rom.data[off]? with
      | none => rw [hd] at h2; simp at h2
      | some b =>
        rw [hd] at h2
        simp only at h2
        obtain ⟨rest, h3, h4⟩ := Res.bind_eq_ok.1 h2
        simp only [Res.ok.injEq] at h4
        subst h4
        obtain ⟨h5, h6⟩ := (ih (i + 1) rest).1 h3
        refine ⟨by simp [h5], ?_⟩
        intro j hj
        cases j with
        | zero => exact ⟨off, h1, by simpa using hd⟩
        | succ j =>
          have := h6 j (by simpa using hj)
          rw [show i + (j + 1) = i + 1 + j by omega]
          simpa using this
    · rintro ⟨hlen, hall⟩
      cases bs with
      | nil => simp at hlen
      | cons b rest =>
        obtain ⟨off, h1, h2⟩ := hall 0 (by simp)
        simp only [Nat.add_zero] at h1
        rw [h1]
        simp only [Res.bind_ok]
        simp only [List.getElem_cons_zero] at h2
        rw [h2]
        simp only
        rw [(ih (i + 1) rest).2 ⟨by simpa using hlen, ?_⟩]
        · simp
        · intro j hj
          have := hall (j + 1) (by simpa using hj)
          rw [show i + (j + 1) = i + 1 + j by omega] at this
          simpa using this

/-- Inside one bank, two mapped addresses differ by as much as their offsets, and
everything between them is mapped. -/
theorem same_bank {mode : Mapping} {bank p q : Nat} (hb : bank < 0x100) (hp : p < 0x10000)
    (hq : q < 0x10000) {f l : Nat} (hf : snesToRom (bank * 0x10000 + p) mode = .ok f)
    (hl : snesToRom (bank * 0x10000 + q) mode = .ok l) :
    f + q = l + p ∧ ∀ k, p ≤ k → k ≤ q → snesToRom (bank * 0x10000 + k) mode = .ok (f + (k - p)) := by
  have e1 : ∀ k < 0x10000, Address.bank (bank * 0x10000 + k) = bank := by
    intro k hk; unfold Address.bank; omega
  have e2 : ∀ k < 0x10000, Address.bankAddress (bank * 0x10000 + k) = k := by
    intro k hk; unfold Address.bankAddress; omega
  unfold snesToRom at *
  simp only [e1 p hp, e2 p hp] at hf
  simp only [e1 q hq, e2 q hq] at hl
  have key : ∀ k, p ≤ k → k ≤ q → k < 0x10000 := by omega
  cases mode <;> simp only at hf hl ⊢
  · split_ifs at hf hl <;> simp only [Res.ok.injEq] at hf hl
    refine ⟨by omega, ?_⟩
    intro k h1 h2
    simp only [e1 k (key k h1 h2), e2 k (key k h1 h2)]
    split_ifs <;> first | omega | (simp only [Res.ok.injEq]; omega)
  · split_ifs at hf hl <;> simp only [Res.ok.injEq] at hf hl
    refine ⟨by omega, ?_⟩
    intro k h1 h2
    simp only [e1 k (key k h1 h2), e2 k (key k h1 h2)]
    split_ifs <;> first | omega | (simp only [Res.ok.injEq]; omega)
  · split_ifs at hf hl <;> simp only [Res.ok.injEq] at hf hl
    all_goals
      refine ⟨by omega, ?_⟩
      intro k h1 h2
      simp only [e1 k (key k h1 h2), e2 k (key k h1 h2)]
      split_ifs <;> first | omega | (simp only [Res.ok.injEq]; omega)

/-- A read of at most one bank (64 KiB) succeeds exactly when every byte addressed is
mapped and inside the image, and then returns exactly those bytes. -/
theorem C29_read_partial (rom : Rom) {a : Nat} (ha : a < 0x1000000) {n : Nat} (hn : n ≤ 0x10000)
    (bs : List UInt8) :
    rom.read a n = .ok bs ↔ bs.length = n ∧ ∀ i (h : i < bs.length), ByteAt rom a i bs[i] := by
  unfold Rom.read
  by_cases h0 : n = 0
  · subst h0
    simp only [Int.natCast_zero, ite_true, Res.ok.injEq]
    constructor
    · rintro rfl; simp
    · rintro ⟨h, -⟩; exact (List.length_eq_zero_iff.1 h).symm
  rw [if_neg (by omega), if_neg (by omega)]
  rw [show ((n : Int) - 1) = ((n - 1 : Nat) : Int) by omega, wrappedStep ha]
  have hbank : a = a / 0x10000 * 0x10000 + a % 0x10000 := by omega
  have hByte0 : snesToRom a rom.mapping = snesToRom (a / 0x10000 * 0x10000 + (a + 0) % 0x10000) rom.mapping := by
    rw [Nat.add_zero, ← hbank]
  -- first and last byte must be mapped in either reading
  cases hf : snesToRom a rom.mapping with
  | err e =>
    simp only [Res.bind_err, reduceCtorEq, false_iff]
    rintro ⟨hlen, hall⟩
    obtain ⟨off, h1, -⟩ := hall 0 (by omega)
    rw [← hByte0, hf] at h1; simp at h1
  | ub u =>
    simp only [Res.bind_ub, reduceCtorEq, false_iff]
    rintro ⟨hlen, hall⟩
    obtain ⟨off, h1, -⟩ := hall 0 (by omega)
    rw [← hByte0, hf] at h1; simp at h1
  | ok f =>
    simp only [Res.bind_ok]
    cases hl : snesToRom (a / 0x10000 * 0x10000 + (a + (n - 1)) % 0x10000) rom.mapping with
    | err e =>
      simp only [Res.bind_err, reduceCtorEq, false_iff]
      rintro ⟨hlen, hall⟩
      obtain ⟨off, h1, -⟩ := hall (n - 1) (by omega)
      rw [hl] at h1; simp at h1
    | ub u =>
      simp only [Res.bind_ub, reduceCtorEq, false_iff]
      rintro ⟨hlen, hall⟩
      obtain ⟨off, h1, -⟩ := hall (n - 1) (by omega)
      rw [hl] at h1; simp at h1
    | ok l =>
      simp only [Res.bind_ok, Int.toNat_natCast]
      split
      · rename_i hlf
        -- no wrap
        have hsb := same_bank (bank := a / 0x10000) (p := a % 0x10000) (q := (a + (n - 1)) % 0x10000)
          (by omega) (by omega) (by omega) (by rw [← hbank]; exact hf) hl
        obtain ⟨hd, hmid⟩ := hsb
        have hnw : (a + (n - 1)) % 0x10000 = a % 0x10000 + (n - 1) := by omega
        have hlf' : l = f + (n - 1) := by omega
        have hoff : ∀ i < n, snesToRom (a / 0x10000 * 0x10000 + (a + i) % 0x10000) rom.mapping =
            .ok (f + i) := by
          intro i hi
          have h1 : (a + i) % 0x10000 = a % 0x10000 + i := by omega
          rw [h1, hmid _ (by omega) (by omega)]
          congr 2; omega
        split
        · rename_i hge
          simp only [reduceCtorEq, false_iff]
          rintro ⟨hlen, hall⟩
          obtain ⟨off, h1, h2⟩ := hall (n - 1) (by omega)
          rw [hl] at h1
          simp only [Res.ok.injEq] at h1
          subst h1
          rw [List.getElem?_eq_none (by omega)] at h2
          simp at h2
        · rename_i hge
          simp only [Res.ok.injEq]
          constructor
          · intro h
            have hlen : bs.length = n := by
              rw [← h]; simp only [List.length_take, List.length_drop]; omega
            refine ⟨hlen, ?_⟩
            intro i hi
            refine ⟨f + i, hoff i (by omega), ?_⟩
            subst h
            simp only [List.getElem_take, List.getElem_drop]
            exact List.getElem?_eq_getElem (by omega)
          · rintro ⟨hlen, hall⟩
            apply List.ext_getElem
            · simp only [List.length_take, List.length_drop]; omega
            · intro i h1 h2
              obtain ⟨off, h3, h4⟩ := hall i h2
              rw [hoff i (by omega)] at h3
              simp only [Res.ok.injEq] at h3
              subst h3
              simp only [List.getElem_take, List.getElem_drop]
              rw [List.getElem?_eq_getElem (by omega)] at h4
              exact Option.some.inj h4
      · rw [readLoop_iff rom ha]
        simp

/-- A read has no undefined behaviour; a negative length is an error. -/
theorem C29_read_defined (rom : Rom) (a : Nat) (n : Int) :
    (rom.read a n).noUb ∧ (n < 0 → rom.read a n = .err .other) := by
  have hs : ∀ a mode, (snesToRom a mode).noUb := by
    intro a mode
    unfold snesToRom
    simp only
    cases mode <;> simp only <;> split_ifs <;> simp
  have hloop : ∀ n i, (rom.readLoop a i n).noUb := by
    intro n
    induction n with
    | zero => intro i; simp [Rom.readLoop]
    | succ n ih =>
      intro i
      rw [Rom.readLoop]
      refine Res.noUb_bind (hs _ _) ?_
      intro off _
      split
      · simp
      · exact Res.noUb_bind (ih _) (fun _ _ => by simp)
  refine ⟨?_, ?_⟩
  · unfold Rom.read
    split_ifs
    · simp
    · simp
    · refine Res.noUb_bind (hs _ _) (fun f _ => Res.noUb_bind (hs _ _) (fun l _ => ?_))
      split_ifs
      · simp
      · simp
      · exact hloop _ _
  · intro h
    unfold Rom.read
    rw [if_neg (by omega), if_pos h]

/-- Beyond 64 KiB the property fails: a read of 65538 bytes can succeed and return
two. -/
theorem C29_violated : ∃ (rom : Rom) (a n : Nat) (bs : List UInt8),
    a < 0x1000000 ∧ rom.read a n = .ok bs ∧ bs.length ≠ n := by
  refine ⟨⟨.hiRom, List.replicate 2 0⟩, 0xc00000, 0x10002, [0, 0], by decide, ?_, by decide⟩
  decide

example : (Rom.mk .loRom (List.replicate 0x8000 7)).mapping = .loRom ∧
    Rom.read ⟨.hiRom, [1, 2, 3, 4, 5]⟩ 0xc00001 3 = .ok [2, 3, 4] ∧
    Rom.read ⟨.hiRom, [1, 2, 3, 4, 5]⟩ 0xc00004 2 = .err .pastEndOfRom := by
  refine ⟨rfl, by decide, by decide⟩

theorem compareLoop_not_ok (d a : List UInt8) : Rom.compareLoop d a ≠ .ok () := by
  induction d generalizing a with
  | nil => simp [Rom.compareLoop]
  | cons x xs ih =>
    cases a with
    | nil => simp [Rom.compareLoop]
    | cons y ys =>
      rw [Rom.compareLoop]
      split
      · simp
      · exact ih ys

theorem compareLoop_noUb {d a : List UInt8} (h : d.length ≤ a.length) : (Rom.compareLoop d a).noUb := by
  induction d generalizing a with
  | nil => simp [Rom.compareLoop]
  | cons x xs ih =>
    cases a with
    | nil => simp at h
    | cons y ys =>
      rw [Rom.compareLoop]
      split
      · simp
      · exact ih (by simpa using h)

/-- The identity sink accepts a write (of at most 64 KiB) exactly when every byte of it
equals the ROM byte it would overwrite. -/
theorem C30_identity_sink_partial (rom : Rom) {a : Nat} (ha : a < 0x1000000) {data : List UInt8}
    (hn : data.length ≤ 0x10000) :
    (rom.identityWrite a data = .ok () ↔
      ∀ i (h : i < data.length), ByteAt rom a i data[i]) ∧
    (rom.identityWrite a data).noUb := by
  have hread := C29_read_partial rom ha hn data
  have hread' : rom.identityWrite a data = .ok () ↔ rom.read a data.length = .ok data := by
    unfold Rom.identityWrite
    cases h : rom.read a data.length with
    | err e => simp
    | ub u => simp
    | ok bs =>
      simp only [Res.bind_ok, Res.ok.injEq]
      constructor
      · intro h1
        by_contra h2
        rw [if_neg h2] at h1
        exact compareLoop_not_ok _ _ h1
      · intro h1; rw [if_pos h1]
  refine ⟨?_, ?_⟩
  · rw [hread', hread]; simp
  · unfold Rom.identityWrite
    refine Res.noUb_bind (C29_read_defined rom a data.length).1 ?_
    intro bs hbs
    split
    · simp
    · apply compareLoop_noUb
      have := ((C29_read_partial rom ha hn bs).1 hbs).1
      omega

/-- Beyond 64 KiB the identity sink reads past the end of a vector. -/
theorem C30_violated : ∃ (rom : Rom) (a : Nat) (data : List UInt8),
    a < 0x1000000 ∧ rom.identityWrite a data = .ub .outOfBounds := by
  refine ⟨⟨.hiRom, List.replicate 2 0⟩, 0xc00000, List.replicate 0x10002 0, by decide, ?_⟩
  have h1 : Rom.read ⟨.hiRom, List.replicate 2 0⟩ 0xc00000 0x10002 = .ok [0, 0] := by decide
  unfold Rom.identityWrite
  rw [List.length_replicate, show ((0x10002 : Nat) : Int) = 0x10002 from rfl, h1]
  simp only [Res.bind_ok]
  rw [if_neg]
  · have h3 : List.replicate 0x10002 (0 : UInt8) = 0 :: 0 :: 0 :: List.replicate 0xffff 0 := rfl
    rw [h3]
    rfl
  · intro h
    have := congrArg List.length h
    rw [List.length_replicate] at this
    simp at this

example : Rom.identityWrite ⟨.hiRom, [1, 2, 3, 4, 5]⟩ 0xc00001 [2, 3] = .ok () ∧
    Rom.identityWrite ⟨.hiRom, [1, 2, 3, 4, 5]⟩ 0xc00001 [2, 4] = .err .romMismatch := by decide

/-! ## Overwriting -/

/-- No overwriting sink can be built: its constructor dereferences the pointer it has
just moved from. -/
theorem C31_violated_constructor (rom : Rom) : Rom.overwriterInit rom = .ub .nullDeref := rfl

/-- The bound check is off by one: a write just past the image is undefined behaviour
instead of an error. -/
theorem C31_violated_bound : ∃ (buf data : List UInt8) (a : Nat), a < 0x1000000 ∧
    (Rom.overwriterWrite .hiRom buf a data).2 = .ub .outOfBounds :=
  ⟨[1, 2], [9], 0xc00002, by decide, by decide⟩

theorem overwriteLoop_spec (mode : Mapping) {a : Nat} (ha : a < 0x1000000) (data : List UInt8)
    (i : Nat) (buf : List UInt8) (hn : i + data.length ≤ 0x10000) :
    (Rom.overwriteLoop mode a i buf data).1.length = buf.length ∧
    ((Rom.overwriteLoop mode a i buf data).2 = .ok () ↔
      ∀ j < data.length, ∃ off < buf.length,
        snesToRom (a / 0x10000 * 0x10000 + (a + (i + j)) % 0x10000) mode = .ok off) ∧
    ((Rom.overwriteLoop mode a i buf data).2 = .ok () →
      (∀ j (h : j < data.length), ∀ off,
        snesToRom (a / 0x10000 * 0x10000 + (a + (i + j)) % 0x10000) mode = .ok off →
        (Rom.overwriteLoop mode a i buf data).1[off]? = some data[j]) ∧
      ∀ off, (∀ j < data.length,
          snesToRom (a / 0x10000 * 0x10000 + (a + (i + j)) % 0x10000) mode ≠ .ok off) →
        (Rom.overwriteLoop mode a i buf data).1[off]? = buf[off]?) := by
  induction data generalizing i buf with
  | nil => simp [Rom.overwriteLoop]
  | cons d ds ih =>
    rw [Rom.overwriteLoop, wrappedStep ha]
    cases hs : snesToRom (a / 0x10000 * 0x10000 + (a + i) % 0x10000) mode with
    | err e =>
      simp only [true_and]
      refine ⟨?_, by simp⟩
      simp only [reduceCtorEq, false_iff]
      intro h
      obtain ⟨off, -, h1⟩ := h 0 (by simp)
      simp only [Nat.add_zero] at h1
      rw [hs] at h1; simp at h1
    | ub u =>
      simp only [true_and]
      refine ⟨?_, by simp⟩
      simp only [reduceCtorEq, false_iff]
      intro h
      obtain ⟨off, -, h1⟩ := h 0 (by simp)
      simp only [Nat.add_zero] at h1
      rw [hs] at h1; simp at h1
    | ok idx =>
      simp only
      have hno : ¬ idx < buf.length → ¬ ∀ j < (d :: ds).length, ∃ off < buf.length,
          snesToRom (a / 0x10000 * 0x10000 + (a + (i + j)) % 0x10000) mode = .ok off := by
        intro hi h
        obtain ⟨off, h1, h2⟩ := h 0 (by simp)
        simp only [Nat.add_zero] at h2
        rw [hs] at h2
        simp only [Res.ok.injEq] at h2
        omega
      split
      · simp only [true_and]
        refine ⟨?_, by simp⟩
        simp only [reduceCtorEq, false_iff]
        exact hno (by omega)
      · split
        · simp only [true_and]
          refine ⟨?_, by simp⟩
          simp only [reduceCtorEq, false_iff]
          exact hno (by omega)
        · have hlt : idx < buf.length := by omega
          simp only [List.length_cons] at hn
          obtain ⟨i1, i2, i3⟩ := ih (i + 1) (buf.set idx d) (by omega)
          rw [List.length_set] at i1 i2
          refine ⟨i1, ?_, ?_⟩
          · rw [i2]
            constructor
            · intro h j hj
              cases j with
              | zero => exact ⟨idx, hlt, hs⟩
              | succ j =>
                rw [show i + (j + 1) = i + 1 + j by omega]
                exact h j (by simpa using hj)
            · intro h j hj
              rw [show i + 1 + j = i + (j + 1) by omega]
              exact h (j + 1) (by simpa using hj)
          · intro hok
            obtain ⟨k1, k2⟩ := i3 hok
            refine ⟨?_, ?_⟩
            · intro j hj off hoff
              cases j with
              | zero =>
                simp only [Nat.add_zero] at hoff
                rw [hs] at hoff
                simp only [Res.ok.injEq] at hoff
                subst hoff
                rw [k2 idx ?_, List.getElem?_set_self hlt]
                · simp
                · intro j hj hj'
                  -- two different bytes of one bank select different offsets
                  have hsb := same_bank (bank := a / 0x10000) (p := (a + i) % 0x10000)
                    (q := (a + (i + 1 + j)) % 0x10000) (by omega) (by omega) (by omega) hs hj'
                  have := hsb.1
                  omega
              | succ j =>
                rw [show i + (j + 1) = i + 1 + j by omega] at hoff
                have := k1 j (by simpa using hj) off hoff
                simpa using this
            · intro off hoff
              rw [k2 off ?_]
              · rw [List.getElem?_set_ne]
                intro heq
                subst heq
                exact hoff 0 (by simp) hs
              · intro j hj
                have := hoff (j + 1) (by simpa using hj)
                rwa [show i + (j + 1) = i + 1 + j by omega] at this

/-- What holds of a write (of at most 64 KiB) to an overwriting sink, once it exists: it
never changes the size; it succeeds exactly when every byte is mapped inside the image;
and then it has changed exactly the addressed bytes.  Missing: construction of the sink
and the error, instead of undefined behaviour, just past the end. -/
theorem C31_write_partial (mode : Mapping) {a : Nat} (ha : a < 0x1000000) (buf data : List UInt8)
    (hn : data.length ≤ 0x10000) :
    (Rom.overwriterWrite mode buf a data).1.length = buf.length ∧
    ((Rom.overwriterWrite mode buf a data).2 = .ok () ↔
      ∀ j < data.length, ∃ off < buf.length,
        snesToRom (a / 0x10000 * 0x10000 + (a + j) % 0x10000) mode = .ok off) ∧
    ((Rom.overwriterWrite mode buf a data).2 = .ok () →
      (∀ j (h : j < data.length), ByteAt ⟨mode, (Rom.overwriterWrite mode buf a data).1⟩ a j data[j]) ∧
      ∀ off, (∀ j < data.length,
          snesToRom (a / 0x10000 * 0x10000 + (a + j) % 0x10000) mode ≠ .ok off) →
        (Rom.overwriterWrite mode buf a data).1[off]? = buf[off]?) := by
  have h := overwriteLoop_spec mode ha data 0 buf (by omega)
  simp only [Nat.zero_add] at h
  refine ⟨h.1, h.2.1, ?_⟩
  intro hok
  refine ⟨?_, (h.2.2 hok).2⟩
  intro j hj
  obtain ⟨off, h1, h2⟩ := (h.2.1.1 hok) j hj
  exact ⟨off, h2, (h.2.2 hok).1 j hj off h2⟩

example : Rom.overwriterWrite .hiRom [1, 2, 3, 4] 0xc00001 [8, 9] = ([1, 8, 9, 4], .ok ()) ∧
    (Rom.overwriterWrite .hiRom [1, 2, 3, 4] 0xc00001 [8, 9, 10, 11, 12]).2 = .ub .outOfBounds := by
  decide

end Nsasm.Props
