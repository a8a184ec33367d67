import Verif.Lemmas.Patch
import Verif.Props.Separate
import Verif.Props.RomFile

/-! # C100: a program that was assembled into a ROM -/

namespace Nsasm.Props
open Nsasm Nsasm.Spec Nsasm.Patch Nsasm.Tools

theorem assembles_low {fuel : Nat} {files : List (List Str)} {ws : Writes} {a : Assembler} (h : Assembles fuel files ws a) :
    (∀ w ∈ ws, w.1 < 0x1000000) ∧ ∀ (σ : Type) (sink : Sink σ) (s s' : σ), Feeds sink s ws s' →
      Assembler.assembleFiles fuel files sink s = (s', .ok a) := by
  obtain ⟨vs, hv, hlow, hall⟩ := assembleFiles_oblivious fuel files Writes recorder [] ws a h
  have e := feeds_recorder_eq hv
  simp only [List.nil_append] at e
  subst e
  exact ⟨hlow, hall⟩

theorem assembles_unique {fuel : Nat} {files : List (List Str)} {ws vs : Writes} {a b : Assembler}
    (h : Assembles fuel files ws a) (h' : Assembles fuel files vs b) : ws = vs ∧ a = b := by
  unfold Assembles at h h'
  rw [h] at h'
  simpa using h'

/-- **Assembling into a ROM** succeeds exactly if the files assemble and every byte of them has a place in the image; the
result is the image with just these bytes put into it. -/
theorem C100_image {mode : Mapping} {fuel : Nat} {files : List (List Str)} {buf buf' : List UInt8} {a : Assembler} :
    Assembler.assembleFiles fuel files (patcher mode) buf = (buf', .ok a) ↔
      ∃ ws, Assembles fuel files ws a ∧ FitsInto mode buf.length (Spec.stored ws) ∧
        Patched mode (Spec.stored ws) buf buf' := by
  constructor
  · intro h
    obtain ⟨ws, hf, hlow, hall⟩ := assembleFiles_oblivious fuel files _ (patcher mode) buf buf' a h
    have hrec := hall Writes recorder [] _ (feeds_recorder ws [])
    obtain ⟨h1, rfl⟩ := (feeds_patcher hlow).mp hf
    exact ⟨ws, by simpa [Assembles] using hrec, h1, put_patched h1⟩
  · rintro ⟨ws, h, h1, h2⟩
    obtain ⟨hlow, hall⟩ := assembles_low h
    exact hall _ _ _ _ ((feeds_patcher hlow).mpr ⟨h1, patched_unique h2 (put_patched h1)⟩)

/-- **Assembling into the result again** changes nothing. -/
theorem C100_again {mode : Mapping} {fuel : Nat} {files : List (List Str)} {buf buf' : List UInt8} {a : Assembler}
    (h : Assembler.assembleFiles fuel files (patcher mode) buf = (buf', .ok a)) :
    Assembler.assembleFiles fuel files (patcher mode) buf' = (buf', .ok a) := by
  obtain ⟨ws, h1, h2, h3⟩ := C100_image.mp h
  exact C100_image.mpr ⟨ws, h1, by rwa [h3.size], ⟨rfl, fun _ _ => rfl, h3.last⟩⟩

/-- **Checking the result against the same files** succeeds exactly if the bytes that the files put into the same place of the
image agree. -/
theorem C100_check_iff {mode : Mapping} {fuel : Nat} {files : List (List Str)} {buf buf' : List UInt8} {a : Assembler}
    {ws : Writes} (hw : Assembles fuel files ws a)
    (h : Assembler.assembleFiles fuel files (patcher mode) buf = (buf', .ok a)) :
    (Assembler.assembleFiles fuel files (checker ⟨mode, buf'⟩) ()).2 = .ok a ↔ SharedAgree mode (Spec.stored ws) := by
  obtain ⟨ws', h1, h2, h3⟩ := C100_image.mp h
  obtain ⟨rfl, -⟩ := assembles_unique hw h1
  rw [assembles_checked]
  constructor
  · rintro ⟨vs, hv, hin⟩ x b y c off hx hy hxo hyo
    obtain ⟨rfl, -⟩ := assembles_unique hw hv
    obtain ⟨o1, e1, g1⟩ := hin x b hx
    obtain ⟨o2, e2, g2⟩ := hin y c hy
    simp only [hxo, hyo, Res.ok.injEq] at e1 e2
    subst e1 e2
    rw [g1] at g2
    simpa using g2
  · intro hag
    refine ⟨ws, hw, fun x b hx => ?_⟩
    obtain ⟨off, -, ho⟩ := h2 x b hx
    refine ⟨off, ho, ?_⟩
    obtain ⟨former, y, c, later, e, hy, hl⟩ := exists_last ⟨x, b, hx, ho⟩
    rw [hag x b y c off hx (by rw [e]; simp) ho hy]
    exact h3.last former y c later off e hy hl

/-- In particular if no byte of the cartridge is written through two of its addresses, in a LoROM or HiROM.

Partial: it need not succeed otherwise (`C100_violated`). -/
theorem C100_check_partial {mode : Mapping} (hmode : mode ≠ .exHiRom) {fuel : Nat} {files : List (List Str)}
    {buf buf' : List UInt8} {a : Assembler} {ws : Writes} (hw : Assembles fuel files ws a)
    (hm : ∀ x ∈ allFilled ws, ∀ y ∈ allFilled ws, Mirror mode x y → x = y)
    (h : Assembler.assembleFiles fuel files (patcher mode) buf = (buf', .ok a)) :
    (Assembler.assembleFiles fuel files (checker ⟨mode, buf'⟩) ()).2 = .ok a := by
  refine (C100_check_iff hw h).mpr ?_
  intro x b y c off hx hy hxo hyo
  obtain ⟨vs, hv, hnd, -⟩ := C44_written_once hw
  have e := feeds_recorder_eq hv
  simp only [List.nil_append] at e
  subst e
  have low : ∀ {x b}, (x, b) ∈ Spec.stored ws → x < 0x1000000 := by
    intro x b hx
    obtain ⟨w, hw', hx⟩ := List.mem_flatMap.mp hx
    obtain ⟨p, -, e⟩ := List.mem_map.mp hx
    have := (assembles_low hw).1 w hw'
    simp only [Prod.mk.injEq, wrapped] at e
    omega
  have hxy : x = y := hm x (mem_stored_filled hx) y (mem_stored_filled hy)
    ((C27_injective_up_to_mirrors (low hx) (low hy) hmode hxo hyo).mp rfl)
  subst hxy
  rw [← stored_map_fst] at hnd
  exact congrArg Prod.snd (List.inj_on_of_nodup_map hnd hx hy rfl)

theorem getElem?_checksum {d e : List UInt8} {n : Nat} (h : ∀ i < 4, d[n + i]? = e[n + i]?) :
    Checksum d n ↔ Checksum e n := by
  unfold Checksum
  have h0 := h 0 (by omega)
  simp only [Nat.add_zero] at h0
  rw [h0, h 1 (by omega), h 2 (by omega), h 3 (by omega)]

/-- **A patched ROM file**: when the files are assembled into the image of a ROM file without touching the places of the
checksums, saving the image gives a file of the same length which is loaded as that image, of the same kind and with the same
header; and checking it against the files with `quick_assemble` ends with status 0.

Partial: bytes that have the same place must agree (`C100_violated`). -/
theorem C100_saved_partial {file : List UInt8} {f : RomFile} (hl : RomFile.load file = .ok f) {fuel : Nat}
    {files : List (List Str)} {image : List UInt8} {a : Assembler} {ws : Writes} (hw : Assembles fuel files ws a)
    (h : Assembler.assembleFiles fuel files (patcher f.rom.mapping) f.rom.data = (image, .ok a))
    (hc : ClearOfChecksums f.rom.mapping (Spec.stored ws)) :
    (f.contents image).length = file.length ∧
    RomFile.load (f.contents image) = .ok ⟨f.header, ⟨f.rom.mapping, image⟩⟩ ∧
    (SharedAgree f.rom.mapping (Spec.stored ws) → ∀ msg, quickAssemble msg fuel (f.contents image) cs!"-" files =
      .ok { lines := targetLines a.jumpTargets, status := 0 }) := by
  obtain ⟨ws', h1, h2, h3⟩ := C100_image.mp h
  obtain ⟨rfl, -⟩ := assembles_unique hw h1
  obtain ⟨hs1, -, hs3⟩ := (C60_save_partial hl).2 image h3.size
  have hk := ((C60_load file f).mp hl).2.2
  have hload : RomFile.load (f.contents image) = .ok ⟨f.header, ⟨f.rom.mapping, image⟩⟩ := by
    refine hs3 ?_
    have c1 := getElem?_checksum (d := image) (e := f.rom.data) (n := 0x7fdc) fun i hi =>
      h3.kept _ fun x b hx ho => (hc x b _ hx ho).1 (by omega)
    have c2 := getElem?_checksum (d := image) (e := f.rom.data) (n := 0xffdc) fun i hi =>
      h3.kept _ fun x b hx ho => (hc x b _ hx ho).2 (by omega)
    generalize f.rom.mapping = mode at hk
    cases mode <;> simp only [KindOf] at hk ⊢ <;> rw [c1, c2]
    · exact hk
    · rw [h3.size]; exact hk
    · rw [h3.size]; exact hk
  refine ⟨hs1, hload, fun hag msg => ?_⟩
  unfold quickAssemble
  rw [hload]
  obtain ⟨vs, hv, hin⟩ := assembles_checked.mp ((C100_check_iff hw h).mpr hag)
  exact ((C66_identity_check (r := ⟨f.header, ⟨f.rom.mapping, image⟩⟩) _).mpr ⟨vs, a, hv, hin, rfl⟩).1

theorem patched_perm {mode : Mapping} {bs cs : List (Nat × UInt8)} {buf d : List UInt8} (hp : bs.Perm cs)
    (hag : SharedAgree mode bs) (h : Patched mode bs buf d) : Patched mode cs buf d where
  size := h.size
  kept := fun off hoff => h.kept off fun x b hx => hoff x b (hp.mem_iff.mp hx)
  last := by
    intro former x b later off e hx _
    have hm : (x, b) ∈ bs := hp.mem_iff.mpr (by rw [e]; simp)
    obtain ⟨former', y, c, later', e', hy, hl'⟩ := exists_last ⟨x, b, hm, hx⟩
    rw [hag x b y c off hm (by rw [e']; simp) hx hy]
    exact h.last former' y c later' off e' hy hl'

/-- **The order of the files** does not matter for the image.

Partial: bytes that have the same place must agree (`C100_violated_order`). -/
theorem C100_order_partial {mode : Mapping} {fuel : Nat} {fs gs : List (List Str)} {buf buf' : List UInt8} {a : Assembler}
    {ws : Writes} (hp : fs.Perm gs) (hw : Assembles fuel fs ws a) (hag : SharedAgree mode (Spec.stored ws))
    (h : Assembler.assembleFiles fuel fs (patcher mode) buf = (buf', .ok a)) :
    ∃ a', Assembler.assembleFiles fuel gs (patcher mode) buf = (buf', .ok a') := by
  obtain ⟨ws', h1, h2, h3⟩ := C100_image.mp h
  obtain ⟨rfl, -⟩ := assembles_unique hw h1
  obtain ⟨vs, a', hv, hpw⟩ := C79_permuted hp hw
  have hps : (Spec.stored ws).Perm (Spec.stored vs) := hpw.flatMap_right _
  exact ⟨a', C100_image.mpr ⟨vs, hv, fun x b hx => h2 x b (hps.mem_iff.mpr hx), patched_perm hps hag h3⟩⟩

/-! ## Examples -/

/-- What assembling into an image gives. -/
def patchedBy (fuel : Nat) (files : List (List Str)) (mode : Mapping) (buf : List UInt8) : Option (List UInt8) :=
  match Assembler.assembleFiles fuel files (patcher mode) buf with
  | (buf', .ok _) => some buf'
  | _ => none

theorem patched_of_test {fuel : Nat} {files : List (List Str)} {mode : Mapping} {buf buf' : List UInt8}
    (h : patchedBy fuel files mode buf = some buf') :
    ∃ a, Assembler.assembleFiles fuel files (patcher mode) buf = (buf', .ok a) := by
  unfold patchedBy at h
  split at h
  · rename_i b a he
    simp only [Option.some.injEq] at h
    exact ⟨a, h ▸ he⟩
  · cases h

/-- A byte is put at an address and, by another file, at its mirror in bank $80. -/
def lowFile : List Str := [cs!" .org $8001", cs!" .db 1"]
def highFile : List Str := [cs!" .org $808001", cs!" .db 2"]

/-- **The check of a ROM against the files just assembled into it can fail**: files that write one byte of the cartridge through
two addresses are accepted, and the last byte stays. -/
theorem C100_violated : ∃ (buf buf' : List UInt8) (a : Assembler),
    Assembler.assembleFiles 30 [lowFile, highFile] (patcher .loRom) buf = (buf', .ok a) ∧
    ∀ a', (Assembler.assembleFiles 30 [lowFile, highFile] (checker ⟨.loRom, buf'⟩) ()).2 ≠ .ok a' := by
  have hp : patchedBy 30 [lowFile, highFile] .loRom [7, 7, 7] = some [7, 2, 7] := by decide +kernel
  obtain ⟨a, h⟩ := patched_of_test hp
  refine ⟨_, _, a, h, fun a' h' => ?_⟩
  obtain ⟨ws, hw, hin⟩ := assembles_checked.mp h'
  obtain ⟨ws', a'', hx, hc⟩ := assembles_of_check (fuel := 30) (files := [lowFile, highFile])
    (fun ws _ => decide (ws = [(0x8001, [1]), (0x808001, [2])])) (by decide +kernel)
  have he : ws = [(0x8001, [1]), (0x808001, [2])] := (assembles_unique hw hx).1.trans (of_decide_eq_true hc)
  subst he
  obtain ⟨off, h1, h2⟩ := hin 0x8001 1 (by decide)
  have : off = 1 := by
    have : snesToRom 0x8001 .loRom = .ok 1 := by decide
    simp only [this, Res.ok.injEq] at h1
    exact h1.symm
  subst this
  exact absurd h2 (by decide)

/-- **The order of files can decide what the image is.** -/
theorem C100_violated_order : ∃ (buf d e : List UInt8) (a b : Assembler), d ≠ e ∧
    Assembler.assembleFiles 30 [lowFile, highFile] (patcher .loRom) buf = (d, .ok a) ∧
    Assembler.assembleFiles 30 [highFile, lowFile] (patcher .loRom) buf = (e, .ok b) := by
  obtain ⟨a, h⟩ := patched_of_test (show patchedBy 30 [lowFile, highFile] .loRom [7, 7, 7] = some [7, 2, 7] by decide +kernel)
  obtain ⟨b, h'⟩ := patched_of_test (show patchedBy 30 [highFile, lowFile] .loRom [7, 7, 7] = some [7, 1, 7] by decide +kernel)
  exact ⟨_, _, _, a, b, by decide, h, h'⟩

/-- A program of two routines, one of which calls the other, and the bytes it has. -/
def patchFile : List Str :=
  [cs!" .org $8001", cs!" .entry m8x8", cs!"main jsr work", cs!" rts", cs!" .org $8100",
    cs!" .entry m8x8", cs!"work lda #1", cs!" rts"]

def patchWrites : Writes := [(0x8001, [0x20, 0, 0x81]), (0x8004, [0x60]), (0x8100, [0xa9, 1]), (0x8102, [0x60])]

/-- The hypotheses of all these theorems are met by a program that is assembled into a ROM file, from end to end. -/
example : ∃ (f : RomFile) (image : List UInt8) (a : Assembler),
    RomFile.load (plainImage 0x7fdc 0x10000) = .ok f ∧ Assembles 30 [patchFile] patchWrites a ∧
    Assembler.assembleFiles 30 [patchFile] (patcher f.rom.mapping) f.rom.data = (image, .ok a) ∧
    ClearOfChecksums f.rom.mapping (Spec.stored patchWrites) ∧ SharedAgree f.rom.mapping (Spec.stored patchWrites) ∧
    (∀ x ∈ allFilled patchWrites, ∀ y ∈ allFilled patchWrites, Mirror .loRom x y → x = y) ∧
    image[0x101]? = some 1 := by
  obtain ⟨ws, a, h, hc⟩ := assembles_of_check (fuel := 30) (files := [patchFile])
    (fun ws _ => decide (ws = patchWrites)) (by decide +kernel)
  have hc := of_decide_eq_true hc
  subst hc
  have hst : Spec.stored patchWrites = [(0x8001, 0x20), (0x8002, 0), (0x8003, 0x81), (0x8004, 0x60), (0x8100, 0xa9),
      (0x8101, 1), (0x8102, 0x60)] := by decide
  have hoff : ∀ x b, (x, b) ∈ Spec.stored patchWrites → snesToRom x .loRom = .ok (x - 0x8000) ∧ 0x8000 ≤ x ∧ x < 0x8200 := by
    rw [hst]
    intro x b hx
    simp only [List.mem_cons, Prod.mk.injEq, List.not_mem_nil, or_false] at hx
    rcases hx with ⟨rfl, -⟩ | ⟨rfl, -⟩ | ⟨rfl, -⟩ | ⟨rfl, -⟩ | ⟨rfl, -⟩ | ⟨rfl, -⟩ | ⟨rfl, -⟩ <;> decide
  have hok : RomFile.load (plainImage 0x7fdc 0x10000) = .ok ⟨[], ⟨.loRom, plainImage 0x7fdc 0x10000⟩⟩ := by
    refine (C60_load _ _).2 ⟨.bare ?_, ?_, plainImage_checksum .., plainImage_no_checksum (by omega)⟩ <;>
      simp only [plainImage_length (at_ := 0x7fdc) (size := 0x10000) (by omega)] <;> omega
  have hfit : FitsInto .loRom (plainImage 0x7fdc 0x10000).length (Spec.stored patchWrites) := by
    intro x b hx
    have := hoff x b hx
    refine ⟨_, ?_, this.1⟩
    rw [plainImage_length (by omega)]
    omega
  have hag : SharedAgree .loRom (Spec.stored patchWrites) := by
    intro x b y c off hx hy hxo hyo
    have h1 := hoff x b hx
    have h2 := hoff y c hy
    rw [h1.1] at hxo
    rw [h2.1] at hyo
    simp only [Res.ok.injEq] at hxo hyo
    have : x = y := by omega
    subst this
    have hn : ((Spec.stored patchWrites).map Prod.fst).Nodup := by rw [hst]; decide
    exact congrArg Prod.snd (List.inj_on_of_nodup_map hn hx hy rfl)
  refine ⟨_, put .loRom (plainImage 0x7fdc 0x10000) (Spec.stored patchWrites), a, hok, h,
    C100_image.mpr ⟨_, h, hfit, put_patched hfit⟩, ?_, hag, ?_, ?_⟩
  · intro x b off hx ho
    have := hoff x b hx
    simp only [this.1, Res.ok.injEq] at ho
    omega
  · rw [← stored_map_fst]
    intro x hx y hy hm
    obtain ⟨⟨x', b⟩, hx', rfl⟩ := List.mem_map.mp hx
    obtain ⟨⟨y', c⟩, hy', rfl⟩ := List.mem_map.mp hy
    have := hoff _ _ hx'
    have := hoff _ _ hy'
    simp only [Mirror] at hm
    simp only
    omega
  · exact (put_patched hfit).last [(0x8001, 0x20), (0x8002, 0), (0x8003, 0x81), (0x8004, 0x60), (0x8100, 0xa9)] 0x8101 1
      [(0x8102, 0x60)] 0x101 hst (by decide)
      (by
        intro y c hy
        simp only [List.mem_cons, Prod.mk.injEq, List.not_mem_nil, or_false] at hy
        obtain ⟨rfl, -⟩ := hy
        decide)

end Nsasm.Props
