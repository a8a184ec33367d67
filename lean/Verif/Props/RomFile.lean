import Verif.Spec.RomFile
import Verif.Props.Rom

/-!
# Properties of ROM files (C60, C61)

The specification is `Verif/Spec/RomFile.lean`.
-/

namespace Nsasm.Props

open Nsasm Nsasm.Spec

theorem complement_iff (c s : UInt8) : (c ^^^ s == 0xff) = true ↔ c.toNat + s.toNat = 255 := by
  have h1 : ∀ c : UInt8, (c ^^^ 0xff).toNat + c.toNat = 255 := by
    have h : ∀ n < 256, (n ^^^ 255) + n = 255 := by decide +kernel
    intro c
    rw [UInt8.toNat_xor]
    exact h _ c.toNat_lt
  have h2 : c ^^^ s = 0xff ↔ s = c ^^^ 0xff := by
    constructor
    · intro h; rw [← h, ← UInt8.xor_assoc, UInt8.xor_self, UInt8.zero_xor]
    · intro h; rw [h, ← UInt8.xor_assoc, UInt8.xor_self, UInt8.zero_xor]
  rw [beq_iff_eq, h2]
  have h3 := h1 c
  constructor
  · rintro rfl; omega
  · intro h; apply UInt8.toNat_inj.1; omega

theorem checkSnesHeader_iff {data : List UInt8} {start : Nat} (h : start + 0x30 ≤ data.length) :
    RomFile.checkSnesHeader data start = true ↔ Checksum data (start + 0x2c) := by
  have g : ∀ k (hk : k < 0x30), ((data.drop start).take 0x30).getD k 0 = data[start + k]'(by omega) := by
    intro k hk
    rw [List.getD_eq_getElem?_getD, List.getElem?_take_of_lt hk, List.getElem?_drop,
      List.getElem?_eq_getElem (by omega), Option.getD_some]
  unfold RomFile.checkSnesHeader
  simp only
  rw [g 0x2c (by omega), g 0x2d (by omega), g 0x2e (by omega), g 0x2f (by omega), Bool.and_eq_true,
    complement_iff, complement_iff]
  unfold Checksum
  constructor
  · rintro ⟨h1, h2⟩
    exact ⟨_, _, _, _, List.getElem?_eq_getElem (by omega), List.getElem?_eq_getElem (by omega),
      List.getElem?_eq_getElem (by omega), List.getElem?_eq_getElem (by omega), h1, h2⟩
  · rintro ⟨c0, c1, s0, s1, e1, e2, e3, e4, h1, h2⟩
    rw [List.getElem?_eq_getElem (by omega)] at e1 e2 e3 e4
    simp only [Option.some.injEq] at e1 e2 e3 e4
    simp only [show start + 0x2d = start + 0x2c + 1 by omega, show start + 0x2e = start + 0x2c + 2 by omega,
      show start + 0x2f = start + 0x2c + 3 by omega, e1, e2, e3, e4]
    exact ⟨h1, h2⟩

/-- The header and image of a file. -/
theorem splits_of_size {file : List UInt8}
    (h : file.length % 0x1000 = 0 ∨ file.length % 0x1000 = 0x200) :
    Splits file (if file.length % 0x1000 = 0x200 then file.take 0x200 else [])
      (if file.length % 0x1000 = 0x200 then file.drop 0x200 else file) := by
  by_cases h2 : file.length % 0x1000 = 0x200
  · rw [if_pos h2, if_pos h2]
    have hd : file = file.take 0x200 ++ file.drop 0x200 := (List.take_append_drop _ _).symm
    have := Splits.headed (header := file.take 0x200) (image := file.drop 0x200)
      (by rw [List.length_take]; omega) (by rw [List.length_drop]; omega)
    rwa [← hd] at this
  · rw [if_neg h2, if_neg h2]
    exact .bare (by omega)

/-- There is one way to split a file. -/
theorem splits_unique {file h i : List UInt8} (hs : Splits file h i) :
    (file.length % 0x1000 = 0 ∨ file.length % 0x1000 = 0x200) ∧
    h = (if file.length % 0x1000 = 0x200 then file.take 0x200 else []) ∧
    i = (if file.length % 0x1000 = 0x200 then file.drop 0x200 else file) := by
  cases hs with
  | bare pages => rw [if_neg (by omega), if_neg (by omega)]; exact ⟨.inl pages, rfl, rfl⟩
  | headed size pages =>
    have hl : (h ++ i).length % 0x1000 = 0x200 := by rw [List.length_append]; omega
    rw [if_pos hl, if_pos hl]
    exact ⟨.inr hl, by rw [List.take_left' size], by rw [List.drop_left' size]⟩

/-- Exactly the files that are an image of at least 64 KiB, with or without a header, and that have
one checksum, are loaded; the header, the image and the kind are the file's. -/
theorem C60_load (file : List UInt8) (f : RomFile) :
    RomFile.load file = .ok f ↔
      Splits file f.header f.rom.data ∧ 65536 ≤ f.rom.data.length ∧ KindOf f.rom.data f.rom.mapping := by
  have key : ∀ (header data : List UInt8), 65536 ≤ data.length →
      ((if RomFile.checkSnesHeader data 0x7fb0 = RomFile.checkSnesHeader data 0xffb0 then Res.err .other
      else if RomFile.checkSnesHeader data 0x7fb0 then .ok ⟨header, ⟨.loRom, data⟩⟩
      else if data.length < 0x400000 then .ok ⟨header, ⟨.hiRom, data⟩⟩
      else .ok ⟨header, ⟨.exHiRom, data⟩⟩) = Res.ok f ↔
        f.header = header ∧ f.rom.data = data ∧ KindOf f.rom.data f.rom.mapping) := by
    intro header data hlen
    have hl := checkSnesHeader_iff (data := data) (start := 0x7fb0) (by omega)
    have hh := checkSnesHeader_iff (data := data) (start := 0xffb0) (by omega)
    simp only [Nat.reduceAdd] at hl hh
    obtain ⟨fh, ⟨fm, fd⟩⟩ := f
    cases e1 : RomFile.checkSnesHeader data 0x7fb0 <;> cases e2 : RomFile.checkSnesHeader data 0xffb0 <;>
      simp only [e1, e2, Bool.false_eq_true, false_iff, true_iff] at hl hh <;>
      simp only [reduceIte, reduceCtorEq, Bool.false_eq_true, Bool.true_eq_false, false_iff]
    · rintro ⟨-, rfl, hk⟩
      cases fm <;> simp only [KindOf] at hk <;> tauto
    · by_cases hlt : data.length < 0x400000
      · rw [if_pos hlt]
        simp only [Res.ok.injEq, RomFile.mk.injEq, Rom.mk.injEq]
        constructor
        · rintro ⟨rfl, rfl, rfl⟩; exact ⟨rfl, rfl, hh, hl, by omega⟩
        · rintro ⟨rfl, rfl, hk⟩
          cases fm <;> simp only [KindOf] at hk
          · tauto
          · exact ⟨rfl, rfl, rfl⟩
          · omega
      · rw [if_neg hlt]
        simp only [Res.ok.injEq, RomFile.mk.injEq, Rom.mk.injEq]
        constructor
        · rintro ⟨rfl, rfl, rfl⟩; exact ⟨rfl, rfl, hh, hl, by omega⟩
        · rintro ⟨rfl, rfl, hk⟩
          cases fm <;> simp only [KindOf] at hk
          · tauto
          · omega
          · exact ⟨rfl, rfl, rfl⟩
    · simp only [Res.ok.injEq, RomFile.mk.injEq, Rom.mk.injEq]
      constructor
      · rintro ⟨rfl, rfl, rfl⟩; exact ⟨rfl, rfl, hl, hh⟩
      · rintro ⟨rfl, rfl, hk⟩
        cases fm <;> simp only [KindOf] at hk
        · exact ⟨rfl, rfl, rfl⟩
        · tauto
        · tauto
    · rintro ⟨-, rfl, hk⟩
      cases fm <;> simp only [KindOf] at hk <;> tauto
  unfold RomFile.load
  simp only
  by_cases h0 : file.length = 0
  · rw [if_pos h0]
    simp only [reduceCtorEq, false_iff]
    rintro ⟨hs, hl, -⟩
    have h1 := (splits_unique hs).2.2
    rw [if_neg (by omega)] at h1
    rw [h1] at hl
    omega
  rw [if_neg h0]
  by_cases hm : file.length % 0x1000 ≠ 0 ∧ file.length % 0x1000 ≠ 0x200
  · rw [if_pos hm]
    simp only [reduceCtorEq, false_iff]
    rintro ⟨hs, -⟩
    have := (splits_unique hs).1
    omega
  rw [if_neg hm]
  have hsp := splits_of_size (file := file) (by omega)
  generalize hH : (if file.length % 0x1000 = 0x200 then file.take 0x200 else []) = H at hsp ⊢
  generalize hD : (if file.length % 0x1000 = 0x200 then file.drop 0x200 else file) = D at hsp ⊢
  have hu : ∀ h i, Splits file h i → h = H ∧ i = D := by
    intro h i hs
    rw [← hH, ← hD]
    exact (splits_unique hs).2
  by_cases he : D = []
  · rw [if_pos he]
    simp only [reduceCtorEq, false_iff]
    rintro ⟨hs, hl, -⟩
    rw [(hu _ _ hs).2, he] at hl
    simp at hl
  rw [if_neg he]
  by_cases hl : D.length < 0x10000
  · rw [if_pos hl]
    simp only [reduceCtorEq, false_iff]
    rintro ⟨hs, hl', -⟩
    rw [(hu _ _ hs).2] at hl'
    omega
  rw [if_neg hl, key H D (by omega)]
  constructor
  · rintro ⟨h1, h2, h3⟩
    rw [h1, h2] at *
    exact ⟨hsp, by omega, h3⟩
  · rintro ⟨hs, -, hk⟩
    exact ⟨(hu _ _ hs).1, (hu _ _ hs).2, hk⟩

/-- Loading is defined for every file but one of 512 bytes. -/
theorem C60_defined_partial {file : List UInt8} (h : file.length ≠ 512) : (RomFile.load file).noUb := by
  unfold RomFile.load
  simp only
  by_cases h0 : file.length = 0
  · rw [if_pos h0]; trivial
  by_cases hm : file.length % 0x1000 ≠ 0 ∧ file.length % 0x1000 ≠ 0x200
  · rw [if_neg h0, if_pos hm]; trivial
  have he : ¬ (if file.length % 0x1000 = 0x200 then file.drop 0x200 else file) = [] := by
    intro he
    by_cases h2 : file.length % 0x1000 = 0x200
    · rw [if_pos h2, List.drop_eq_nil_iff] at he
      omega
    · rw [if_neg h2] at he
      simp [he] at h0
  rw [if_neg h0, if_neg hm, if_neg he]
  generalize (if file.length % 0x1000 = 0x200 then file.drop 0x200 else file) = D
  generalize (if file.length % 0x1000 = 0x200 then file.take 0x200 else []) = H
  split_ifs <;> trivial

/-- An image of zeros but for a checksum of zero, with its complement, at `at_`. -/
def plainImage (at_ size : Nat) : List UInt8 :=
  List.replicate at_ 0 ++ ([0xff, 0xff, 0, 0] ++ List.replicate (size - at_ - 4) 0)

theorem plainImage_length {at_ size : Nat} (h : at_ + 4 ≤ size) : (plainImage at_ size).length = size := by
  simp only [plainImage, List.length_append, List.length_replicate, List.length_cons, List.length_nil]
  omega

theorem plainImage_checksum (at_ size : Nat) : Checksum (plainImage at_ size) at_ := by
  refine ⟨0xff, 0xff, 0, 0, ?_, ?_, ?_, ?_, by decide, by decide⟩ <;> unfold plainImage <;>
    rw [List.getElem?_append_right (by simp)] <;> simp

theorem plainImage_no_checksum {at_ size k : Nat} (h : k + 4 ≤ at_ ∨ at_ + 4 ≤ k) :
    ¬ Checksum (plainImage at_ size) k := by
  rintro ⟨c0, c1, s0, s1, h0, -, h2, -, hs, -⟩
  have z : ∀ i b, (i < at_ ∨ at_ + 4 ≤ i) → (plainImage at_ size)[i]? = some b → b = 0 := by
    intro i b hi hb
    unfold plainImage at hb
    rcases hi with hi | hi
    · rw [List.getElem?_append_left (by simpa using hi), List.getElem?_replicate, if_pos hi] at hb
      simpa using hb.symm
    · rw [List.getElem?_append_right (by simp; omega), List.getElem?_append_right (by simp; omega),
        List.getElem?_replicate] at hb
      split at hb
      · simpa using hb.symm
      · simp at hb
  rw [z k c0 (by omega) h0, z (k + 2) s0 (by omega) h2] at hs
  simp at hs

/-- A LoROM file with a header, a HiROM file and an extended one. -/
example : RomFile.load (List.replicate 512 7 ++ plainImage 0x7fdc 0x10000) =
      .ok ⟨List.replicate 512 7, ⟨.loRom, plainImage 0x7fdc 0x10000⟩⟩ ∧
    RomFile.load (plainImage 0xffdc 0x80000) = .ok ⟨[], ⟨.hiRom, plainImage 0xffdc 0x80000⟩⟩ ∧
    RomFile.load (plainImage 0xffdc 0x600000) = .ok ⟨[], ⟨.exHiRom, plainImage 0xffdc 0x600000⟩⟩ := by
  refine ⟨(C60_load _ _).2 ⟨.headed (List.length_replicate ..) ?_, ?_, plainImage_checksum .., ?_⟩,
    (C60_load _ _).2 ⟨.bare ?_, ?_, plainImage_checksum .., ?_, ?_⟩,
    (C60_load _ _).2 ⟨.bare ?_, ?_, plainImage_checksum .., ?_, ?_⟩⟩ <;>
    first
      | exact plainImage_no_checksum (by omega)
      | (simp only; rw [plainImage_length (by omega)]; omega)
      | rw [plainImage_length (by omega)]

/-- A file of 512 bytes, which is only a header, makes the loader index an empty vector. -/
theorem C60_violated_short {file : List UInt8} (h : file.length = 512) :
    RomFile.load file = .ub .emptyAccess := by
  unfold RomFile.load
  have hd : file.drop 512 = [] := by rw [List.drop_eq_nil_iff]; omega
  simp [h, hd]

/-- Saving a loaded file with its own image, as an overwriter without writes should do, gives the
file back byte for byte; saving it with another image of the same size changes only the image, and
the result loads as that image if its checksum is that of the same kind of image.  Missing: an
overwriter cannot be built (`C31_violated_constructor`). -/
theorem C60_save_partial {file : List UInt8} {f : RomFile} (h : RomFile.load file = .ok f) :
    f.contents f.rom.data = file ∧
    ∀ image : List UInt8, image.length = f.rom.data.length →
      (f.contents image).length = file.length ∧ Splits (f.contents image) f.header image ∧
      (KindOf image f.rom.mapping →
        RomFile.load (f.contents image) = .ok ⟨f.header, ⟨f.rom.mapping, image⟩⟩) := by
  obtain ⟨hs, hl, hk⟩ := (C60_load file f).1 h
  have hc : ∀ image : List UInt8, f.contents image = f.header ++ image := by
    intro image
    unfold RomFile.contents
    split
    · rename_i hne
      rw [List.take_of_length_le]
      generalize f.header = H, f.rom.data = D at *
      cases hs with
      | bare => simp at hne
      | headed size => omega
    · rename_i hne
      rw [not_not.1 hne]
  have hfile : file = f.header ++ f.rom.data := by
    generalize f.header = H, f.rom.data = D at *
    cases hs <;> rfl
  refine ⟨by rw [hc, ← hfile], fun image hi => ?_⟩
  have hsp : Splits (f.contents image) f.header image := by
    rw [hc]
    generalize f.header = H, f.rom.data = D at *
    cases hs with
    | bare pages => rw [List.nil_append]; exact .bare (by omega)
    | headed size pages => exact .headed size (by omega)
  refine ⟨by rw [hc, hfile, List.length_append, List.length_append, hi], hsp, fun hk' => ?_⟩
  exact (C60_load _ _).2 ⟨hsp, by simpa [hi] using hl, hk'⟩

/-- In a LoROM or HiROM image of at most 4 MiB every byte can be read at some address. -/
theorem C61_all_readable_partial {rom : Rom} (hm : rom.mapping ≠ .exHiRom)
    (hl : rom.data.length ≤ 4194304) {off : Nat} (h : off < rom.data.length) : Readable rom off := by
  have hread : ∀ a, a < 0x1000000 → snesToRom a rom.mapping = .ok off → Readable rom off := by
    intro a ha hs
    refine ⟨a, rom.data[off], ha, hs, List.getElem?_eq_getElem h, ?_⟩
    have := (C29_read_partial rom ha (n := 1) (by omega) [rom.data[off]]).2
    refine this ⟨rfl, ?_⟩
    intro i hi
    simp only [List.length_singleton] at hi
    obtain rfl : i = 0 := by omega
    refine ⟨off, ?_, List.getElem?_eq_getElem h⟩
    rw [Nat.add_zero, ← hs]
    congr 1
    omega
  cases hmode : rom.mapping with
  | exHiRom => exact absurd hmode hm
  | loRom =>
    refine hread ((0x80 + off / 0x8000) * 0x10000 + 0x8000 + off % 0x8000) (by omega) ?_
    rw [hmode]
    unfold snesToRom Address.bank Address.bankAddress
    simp only
    rw [if_neg (by omega), if_neg (by omega), if_neg (by omega)]
    congr 1
    omega
  | hiRom =>
    refine hread (0xc00000 + off) (by omega) ?_
    rw [hmode]
    unfold snesToRom Address.bank Address.bankAddress
    simp only
    rw [if_neg (by omega), if_neg (by omega)]
    congr 1
    omega

/-- A HiROM file of exactly 4 MiB is taken for an extended one: it loads, and then nothing of it can
be read. -/
theorem C61_violated {file : List UInt8} {f : RomFile} (h : RomFile.load file = .ok f)
    (hsize : f.rom.data.length = 4194304) (hk : Checksum f.rom.data 0xffdc) :
    ∀ a n, a < 0x1000000 → 0 < n → n ≤ 65536 → ¬ (f.rom.read a n).isOk := by
  obtain ⟨-, -, hk'⟩ := (C60_load file f).1 h
  have hm : f.rom.mapping = .exHiRom := by
    cases hm : f.rom.mapping <;> rw [hm] at hk' <;> simp only [KindOf] at hk'
    · tauto
    · omega
  intro a n ha hn hn' hok
  obtain ⟨m, rfl⟩ : ∃ m : Nat, n = m := ⟨n.toNat, by omega⟩
  cases hr : f.rom.read a m with
  | err e => rw [hr] at hok; simp [Res.isOk] at hok
  | ub u => rw [hr] at hok; simp [Res.isOk] at hok
  | ok bs =>
    obtain ⟨h1, h2⟩ := (C29_read_partial f.rom ha (by omega) bs).1 hr
    obtain ⟨off, h3, h4⟩ := h2 0 (by omega)
    rw [hm] at h3
    have := exHiRom_offset (by omega) h3
    rw [List.getElem?_eq_none (by omega)] at h4
    simp at h4

example : ∃ file f, RomFile.load file = .ok f ∧ f.rom.data.length = 4194304 ∧
    Checksum f.rom.data 0xffdc := by
  refine ⟨plainImage 0xffdc 4194304, ⟨[], ⟨.exHiRom, plainImage 0xffdc 4194304⟩⟩,
    (C60_load _ _).2 ⟨.bare ?_, ?_, plainImage_checksum .., plainImage_no_checksum (by omega), ?_⟩,
    plainImage_length (by omega), plainImage_checksum ..⟩ <;> try simp only
  all_goals rw [plainImage_length (by omega)]
  all_goals omega

/-- In an extended image of any size no byte of the first 4 MiB can be read. -/
theorem C61_violated_extended {rom : Rom} (hm : rom.mapping = .exHiRom) {off : Nat}
    (h : off < 4194304) : ¬ Readable rom off := by
  rintro ⟨a, b, ha, hs, -⟩
  rw [hm] at hs
  have := exHiRom_offset ha hs
  omega

end Nsasm.Props
