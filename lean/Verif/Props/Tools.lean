import Verif.Lemmas.Sinks
import Verif.Lemmas.Dump
import Verif.Props.Link
import Verif.Props.Rom
import Verif.Spec.Tools

/-! # C66: the assembling tool -/

namespace Nsasm.Props
open Nsasm Nsasm.Spec Tools

theorem nodup_short {w : Addr × List UInt8} (h : (filled w).Nodup) : w.2.length ≤ 0x10000 := by
  by_contra hc
  unfold filled at h
  have := List.inj_on_of_nodup_map h (x := 0) (List.mem_range.mpr (by omega)) (y := 0x10000)
    (List.mem_range.mpr (by omega)) (by simp [wrapped])
  cases this

theorem feeds_recorder_eq {vs s s' : Writes} (h : Feeds recorder s vs s') : s' = s ++ vs := by
  induction h with
  | nil s => simp
  | cons h1 _ ih => simp only [recorder, Prod.mk.injEq, and_true] at h1; subst h1; simp [ih]

theorem feeds_checker_iff {rom : Rom} : ∀ {ws : Writes}, (∀ w ∈ ws, w.1 < 0x1000000) →
    (∀ w ∈ ws, w.2.length ≤ 0x10000) → (Feeds (checker rom) () ws () ↔ InRom rom ws) := by
  intro ws
  induction ws with
  | nil => intro _ _; exact ⟨fun _ x b h => by simp [Spec.stored] at h, fun _ => .nil _⟩
  | cons w ws ih =>
    obtain ⟨a, bs⟩ := w
    intro hlow hlen
    have hhead : (checker rom () a bs = ((), .ok ())) ↔
        ∀ x b, (x, b) ∈ Spec.stored [(a, bs)] → ∃ off, snesToRom x rom.mapping = .ok off ∧ rom.data[off]? = some b := by
      simp only [checker, Prod.mk.injEq, true_and]
      rw [(C30_identity_sink_partial rom (hlow (a, bs) (by simp)) (hlen (a, bs) (by simp))).1]
      constructor
      · intro h x b hx
        simp only [Spec.stored, List.flatMap_cons, List.flatMap_nil, List.append_nil, List.mem_map] at hx
        obtain ⟨⟨c, i⟩, hm, he⟩ := hx
        simp only [Prod.mk.injEq] at he
        obtain ⟨rfl, rfl⟩ := he
        obtain ⟨hi, he⟩ := List.getElem?_eq_some_iff.mp (List.mem_zipIdx_iff_getElem?.mp hm)
        have := h i hi
        rwa [show (a, bs).2[i] = c from he] at this
      · intro h i hi
        refine h (wrapped a i) bs[i] ?_
        simp only [Spec.stored, List.flatMap_cons, List.flatMap_nil, List.append_nil, List.mem_map]
        exact ⟨(bs[i], i), List.mem_zipIdx_iff_getElem?.mpr (List.getElem?_eq_getElem hi), rfl⟩
    have hsplit : ∀ p, p ∈ Spec.stored ((a, bs) :: ws) ↔ p ∈ Spec.stored [(a, bs)] ∨ p ∈ Spec.stored ws := by
      intro p; simp [Spec.stored]
    rw [show InRom rom ((a, bs) :: ws) ↔ (∀ x b, (x, b) ∈ Spec.stored [(a, bs)] →
        ∃ off, snesToRom x rom.mapping = .ok off ∧ rom.data[off]? = some b) ∧ InRom rom ws from
      ⟨fun h => ⟨fun x b hx => h x b ((hsplit _).mpr (.inl hx)), fun x b hx => h x b ((hsplit _).mpr (.inr hx))⟩,
        fun h x b hx => ((hsplit _).mp hx).elim (h.1 x b) (h.2 x b)⟩, ← hhead,
      ← ih (fun w hw => hlow w (by simp [hw])) (fun w hw => hlen w (by simp [hw]))]
    constructor
    · intro h
      cases h with
      | cons h1 h2 => exact ⟨h1, h2⟩
    · rintro ⟨h1, h2⟩
      exact .cons h1 h2

/-- Checking a program against a ROM succeeds exactly if it assembles and every byte of it is the ROM's. -/
theorem assembles_checked {rom : Rom} {fuel : Nat} {files : List (List Str)} {a : Assembler} :
    (Assembler.assembleFiles fuel files (checker rom) ()).2 = .ok a ↔ ∃ ws, Assembles fuel files ws a ∧ InRom rom ws := by
  constructor
  · intro h
    obtain ⟨ws, hf, hlow, hall⟩ := assembleFiles_oblivious fuel files Unit (checker rom) () () a (Prod.ext rfl h)
    have hrec := hall Writes recorder [] _ (feeds_recorder ws [])
    refine ⟨ws, by simpa [Assembles] using hrec, (feeds_checker_iff hlow fun w hw => ?_).mp hf⟩
    obtain ⟨vs, hv, hnd, -⟩ := C44_written_once hrec
    have hvw : vs = ws := by
      simpa using (feeds_recorder_eq hv).symm
    subst hvw
    exact nodup_short ((List.nodup_flatMap.mp hnd).1 w hw)
  · rintro ⟨ws, h, hin⟩
    obtain ⟨vs, hv, hlow, hall⟩ := assembleFiles_oblivious fuel files Writes recorder [] ws a h
    obtain ⟨vs', hv', hnd, -⟩ := C44_written_once h
    have e1 := feeds_recorder_eq hv
    have e2 := feeds_recorder_eq hv'
    simp only [List.nil_append] at e1 e2
    subst e1 e2
    have := hall Unit (checker rom) () () ((feeds_checker_iff hlow fun w hw =>
      nodup_short ((List.nodup_flatMap.mp hnd).1 w hw)).mpr hin)
    exact congrArg Prod.snd this

/-- **The check succeeds exactly for programs that the ROM already has.**  With `-` as output path the tool ends with
status 0 if and only if the files assemble and every byte they assemble to is the one that the ROM has at its address;
what it prints then are the jump targets. -/
theorem C66_identity_check {msg : Err → Str} {fuel : Nat} {r : RomFile} {files : List (List Str)} (out : Outcome) :
    assembleRom msg fuel r cs!"-" files = .ok out ∧ out.status = 0 ↔
      ∃ ws a, Assembles fuel files ws a ∧ InRom r.rom ws ∧
        out = { lines := targetLines a.jumpTargets, status := 0 } := by
  have hq : assembleRom msg fuel r cs!"-" files =
      reportAssembling msg (fun a => { lines := targetLines a.jumpTargets, status := 0 })
        (Assembler.assembleFiles fuel files (checker r.rom) ()).2 := by
    unfold assembleRom
    simp only [show isAsmPath cs!"-" = false by decide, if_true, Bool.false_eq_true, if_false]
    rfl
  rw [hq]
  constructor
  · rintro ⟨h, h0⟩
    cases hr : (Assembler.assembleFiles fuel files (checker r.rom) ()).2 with
    | ok a =>
      rw [hr] at h
      simp only [reportAssembling, Res.ok.injEq] at h
      obtain ⟨ws, h1, h2⟩ := assembles_checked.mp hr
      exact ⟨ws, a, h1, h2, h.symm⟩
    | ub u => rw [hr] at h; cases h
    | err e =>
      rw [hr] at h
      simp only [reportAssembling] at h
      split at h
      · cases h
      · simp only [Res.ok.injEq] at h; subst h; cases h0
  · rintro ⟨ws, a, h1, h2, rfl⟩
    rw [assembles_checked.mpr ⟨ws, h1, h2⟩]
    exact ⟨rfl, rfl⟩

/-- A program that the ROM has, and one that it does not have. -/
example : (∃ ws a, Assembles 30 [[cs!" .org $8002", cs!" .entry m8x8", cs!" jsl $c12345", cs!" rts"]] ws a ∧
      InRom ⟨.loRom, [0, 0, 0x22, 0x45, 0x23, 0xc1, 0x60]⟩ ws ∧
      targetLines a.jumpTargets = [cs!"1 jump targets found", cs!"  $c12345 m8x8"]) ∧
    ∃ ws a, Assembles 30 [[cs!" .org $8002", cs!" .entry m8x8", cs!" jsl $c12346", cs!" rts"]] ws a ∧
      ¬ InRom ⟨.loRom, [0, 0, 0x22, 0x45, 0x23, 0xc1, 0x60]⟩ ws := by
  constructor
  · obtain ⟨ws, a, h, hc⟩ := assembles_of_check (fuel := 30)
      (files := [[cs!" .org $8002", cs!" .entry m8x8", cs!" jsl $c12345", cs!" rts"]])
      (fun ws a => decide (ws = [(0x8002, [0x22, 0x45, 0x23, 0xc1]), (0x8006, [0x60])] ∧
        targetLines a.jumpTargets = [cs!"1 jump targets found", cs!"  $c12345 m8x8"])) (by decide +kernel)
    simp only [decide_eq_true_eq] at hc
    obtain ⟨rfl, ht⟩ := hc
    refine ⟨_, a, h, fun x b hx => ?_, ht⟩
    simp [Spec.stored, wrapped] at hx
    rcases hx with ⟨rfl, rfl⟩ | ⟨rfl, rfl⟩ | ⟨rfl, rfl⟩ | ⟨rfl, rfl⟩ | ⟨rfl, rfl⟩ <;> exact ⟨_, rfl, rfl⟩
  · obtain ⟨ws, a, h, hc⟩ := assembles_of_check (fuel := 30)
      (files := [[cs!" .org $8002", cs!" .entry m8x8", cs!" jsl $c12346", cs!" rts"]])
      (fun ws a => decide (ws = [(0x8002, [0x22, 0x46, 0x23, 0xc1]), (0x8006, [0x60])])) (by decide +kernel)
    simp only [decide_eq_true_eq] at hc
    subst hc
    refine ⟨_, a, h, fun hin => ?_⟩
    obtain ⟨off, h1, h2⟩ := hin 0x8003 0x46 (by decide)
    have : off = 3 := by
      have e : snesToRom 0x8003 .loRom = .ok 3 := rfl
      simp only at h1
      rw [e] at h1
      exact (Res.ok.inj h1).symm
    subst this
    revert h2
    decide

/-- With any other output path nothing is ever written: whatever the ROM and the files, constructing the overwriter
is undefined. -/
theorem C66_violated {msg : Err → Str} {fuel : Nat} {r : RomFile} {path : Str} {files : List (List Str)}
    (hasm : isAsmPath path = false) (hpath : path ≠ cs!"-") : assembleRom msg fuel r path files = .ub .nullDeref := by
  unfold assembleRom
  simp only [hasm, Bool.false_eq_true, if_false, if_neg hpath]
  rfl

end Nsasm.Props
