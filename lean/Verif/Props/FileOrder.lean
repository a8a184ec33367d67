import Verif.Lemmas.FileOrder

/-!
# C110: what the assembler says, whatever the order of the files
-/

namespace Nsasm.Props
open Nsasm Nsasm.Spec

/-- **The order of the files does not change what the assembler says.**  If the files are given in another order, the same
bytes are written at the same addresses; every name that is exported has the same value; the same addresses are
contained; the same jump targets are reported, with the same flags; and the same addresses have a name and have a return
convention.

The full property is false: see `C110_violated_names` and `C110_violated_conventions`. -/
theorem C110_same_answers_partial {fuel n : Nat} {files files' : List (List Str)} {ws ws' : Writes} {a a' : Assembler}
    (hp : files.Perm files') (h : Assembles fuel files ws a) (h' : Assembles n files' ws' a') :
    ws.Perm ws' ∧ (∀ externs, Publishes a.modules externs ↔ Publishes a'.modules externs) ∧
      (∀ x, a.contains x = a'.contains x) ∧ a.jumpTargets = a'.jumpTargets ∧
      (∀ x, (a.nameForAddress x).isSome = (a'.nameForAddress x).isSome) ∧
      (∀ x, (a.jumpTargetReturnConventions.find x).isSome = (a'.jumpTargetReturnConventions.find x).isSome) := by
  obtain ⟨hm, hw⟩ := modules_perm hp h h'
  have hc : ∀ x, a.contains x = a'.contains x := by
    intro x
    obtain ⟨vs, hfe, -, hn⟩ := C44_written_once h
    obtain ⟨vs', hfe', -, hn'⟩ := C44_written_once h'
    have e := feeds_recorder_eq hfe
    have e' := feeds_recorder_eq hfe'
    rw [List.nil_append] at e e'
    subst e e'
    rw [Bool.eq_iff_iff, hn, hn']
    exact (hw.flatMap_right filled).mem_iff
  refine ⟨hw, publishes_perm hm, hc, jumpTargets_perm hm hc (neat_modules h), fun x => findSome_perm hm, fun x => ?_⟩
  rw [find_conventions, find_conventions]
  exact findSome_perm hm

/-- **A return convention reported for one order is one the files declare**, whatever order they are then given in.  So
if the files declare no two conventions for an address, the order does not matter for it. -/
theorem C110_conventions_partial {fuel n : Nat} {files files' : List (List Str)} {ws ws' : Writes} {a a' : Assembler}
    (hp : files.Perm files') (h : Assembles fuel files ws a) (h' : Assembles n files' ws' a') {externs : Ctx}
    (he : Publishes a.modules externs) (x : Nat) :
    (∀ r, a'.jumpTargetReturnConventions.find x = some r → ∃ i k, Declared files a externs i k x r) ∧
    ((∀ i k r i' k' r', Declared files a externs i k x r → Declared files a externs i' k' x r' → r = r') →
      a.jumpTargetReturnConventions.find x = a'.jumpTargetReturnConventions.find x) := by
  have key : ∀ {n : Nat} {gs : List (List Str)} {us : Writes} {b : Assembler}, files.Perm gs → Assembles n gs us b →
      ∀ r, b.jumpTargetReturnConventions.find x = some r → ∃ i k, Declared files a externs i k x r := by
    intro n gs us b hg hb r hr
    obtain ⟨externs', he', hd⟩ := C83_conventions hb
    obtain ⟨i, k, hd, -⟩ := (hd x r).1 hr
    obtain ⟨file, items, m, l, ctx, h1, h2, h3, h4, h5, h6⟩ := hd
    obtain ⟨j, hj, hmj⟩ := module_moves hg h hb h1 h3
    refine ⟨j, k, file, items, m, l, ctx, hj, h2, hmj, h4, fun id v => ?_, h6⟩
    have hE : ∀ id v, externs' id = .ok v ↔ externs id = .ok v := fun id v => by
      rw [he' id v, he id v]
      have := (modules_perm hg h hb).1
      exact ⟨fun ⟨m, hm, r⟩ => ⟨m, this.mem_iff.2 hm, r⟩, fun ⟨m, hm, r⟩ => ⟨m, this.mem_iff.1 hm, r⟩⟩
    rw [h5 id v]
    unfold Means
    simp only [hE]
  refine ⟨key hp h', fun hu => ?_⟩
  have hs := (C110_same_answers_partial hp h h').2.2.2.2.2 x
  cases h1 : a.jumpTargetReturnConventions.find x with
  | none => rw [h1] at hs; exact (by simpa using hs.symm : _ = none).symm
  | some r =>
    cases h2 : a'.jumpTargetReturnConventions.find x with
    | none => rw [h1, h2] at hs; cases hs
    | some r' =>
      obtain ⟨i, k, hd⟩ := key (List.Perm.refl _) h r h1
      obtain ⟨i', k', hd'⟩ := key hp h' r' h2
      rw [hu _ _ _ _ _ _ hd hd']

/-- A library, and a program that calls it and routines that no file has. -/
def orderLib : List Str :=
  [cs!".module lib", cs!" .org $8000", cs!"one .entry m8x8 noreturn", cs!" jsl $c00000", cs!" stp"]

/-- The program. -/
def orderMain : List Str :=
  [cs!".module main", cs!"also .equ $8000", cs!" .org $9000", cs!"start .entry m16x16", cs!" jsl @lib::one",
    cs!" jsl $c00000", cs!" rts", cs!" .remote lib::one m8x8 yields m16x16"]

/-- Both orders are accepted: the routine at $c00000 is called with flags of both files. -/
example : ∃ (ws ws' : Writes) (a a' : Assembler), Assembles 40 [orderLib, orderMain] ws a ∧
    Assembles 40 [orderMain, orderLib] ws' a' ∧
    OMap.find a.jumpTargets 0xc00000 = some ⟨.off, .unknown, .unknown, .unknown⟩ := by
  obtain ⟨ws, a, h, hc⟩ := assembles_of_check (fuel := 40) (files := [orderLib, orderMain])
    (fun _ a => OMap.find a.jumpTargets 0xc00000 == some ⟨.off, .unknown, .unknown, .unknown⟩) (by decide +kernel)
  obtain ⟨ws', a', h', -⟩ := assembles_of_check (fuel := 40) (files := [orderMain, orderLib])
    (fun _ _ => true) (by decide +kernel)
  exact ⟨ws, ws', a, a', h, h', by simpa using hc⟩

/-- The full property is false: which of two names for one address is given depends on the order. -/
theorem C110_violated_names : ∃ (files files' : List (List Str)) (ws ws' : Writes) (a a' : Assembler) (x : Nat),
    files.Perm files' ∧ Assembles 40 files ws a ∧ Assembles 40 files' ws' a' ∧
      a.nameForAddress x ≠ a'.nameForAddress x := by
  obtain ⟨ws, a, h, hc⟩ := assembles_of_check (fuel := 40) (files := [orderLib, orderMain])
    (fun _ a => a.nameForAddress 0x8000 == some ⟨some cs!"lib", cs!"one"⟩) (by decide +kernel)
  obtain ⟨ws', a', h', hc'⟩ := assembles_of_check (fuel := 40) (files := [orderMain, orderLib])
    (fun _ a => a.nameForAddress 0x8000 == some ⟨some cs!"main", cs!"also"⟩) (by decide +kernel)
  refine ⟨_, _, ws, ws', a, a', 0x8000, List.Perm.swap _ _ _, h, h', ?_⟩
  simp only [beq_iff_eq] at hc hc'
  rw [hc, hc']
  decide

/-- The full property is false: which of two return conventions for one address is given depends on the order. -/
theorem C110_violated_conventions : ∃ (files files' : List (List Str)) (ws ws' : Writes) (a a' : Assembler) (x : Nat),
    files.Perm files' ∧ Assembles 40 files ws a ∧ Assembles 40 files' ws' a' ∧
      a.jumpTargetReturnConventions.find x = some .noreturn ∧
      ∃ f, a'.jumpTargetReturnConventions.find x = some (.yields f) := by
  obtain ⟨ws, a, h, hc⟩ := assembles_of_check (fuel := 40) (files := [orderLib, orderMain])
    (fun _ a => OMap.find a.jumpTargetReturnConventions 0x8000 == some .noreturn) (by decide +kernel)
  obtain ⟨ws', a', h', hc'⟩ := assembles_of_check (fuel := 40) (files := [orderMain, orderLib])
    (fun _ a => OMap.find a.jumpTargetReturnConventions 0x8000 == some (.yields ⟨.off, .off, .off, .unknown⟩))
    (by decide +kernel)
  refine ⟨_, _, ws, ws', a, a', 0x8000, List.Perm.swap _ _ _, h, h', by simpa using hc, _, by simpa using hc'⟩

end Nsasm.Props
