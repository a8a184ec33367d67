import Verif.Spec.Status
import Verif.Props.Plain
import Verif.Props.Driver
import Verif.Props.RomFile
import Verif.Props.DisDefined

/-!
# The exit status of a tool tells how it ended

C86.
-/

namespace Nsasm.Props

open Nsasm Nsasm.Spec Tools

namespace Status

theorem not_loads {file : List UInt8} {e : Err} (h : RomFile.load file = .err e) (r : RomFile) : ¬ IsRomFile file r := by
  intro hl
  rw [(C60_load file r).mpr hl] at h
  cases h

/-- The first argument that fails. -/
theorem readSeeds_error {msg : Err → Str} {rom : Rom} {line : Str} : ∀ (args : List SeedArg) {m : OMap StatusFlags},
    readSeeds msg rom m args = .ok (.error line) →
    ∃ before arg after, args = before ++ arg :: after ∧ (∀ arg ∈ before, ∃ a f, AsksFor rom arg a f) ∧
      ((StatusFlags.fromName arg.mode = none ∧ line = arg.mode ++ cs!" does not name a processor mode") ∨
        ∃ e, arg.indirect = true ∧ rom.readWord arg.number = .err e ∧ line = msg e) := by
  intro args
  induction args with
  | nil => intro m h; cases h
  | cons arg rest ih =>
    intro m h
    unfold readSeeds at h
    obtain ⟨x, hx, h⟩ := Res.bind_eq_ok.mp h
    cases x with
    | ok p =>
      obtain ⟨a, f⟩ := p
      simp only at h
      obtain ⟨before, arg', after, rfl, hb, hw⟩ := ih h
      refine ⟨arg :: before, arg', after, rfl, fun x hm => ?_, hw⟩
      rcases List.mem_cons.mp hm with rfl | hm
      · exact ⟨a, f, (asksFor_of_readSeed hx).1⟩
      · exact hb x hm
    | error line' =>
      simp only [Res.ok.injEq, Except.error.injEq] at h
      subst h
      refine ⟨[], arg, rest, rfl, by simp, ?_⟩
      unfold readSeed at hx
      cases hn : StatusFlags.fromName arg.mode with
      | none => rw [hn] at hx; simp only [Res.ok.injEq, Except.error.injEq] at hx; exact .inl ⟨rfl, hx.symm⟩
      | some f =>
        simp only [hn] at hx
        obtain ⟨a, ha, hx⟩ := Res.bind_eq_ok.mp hx
        have : a = arg.number := by have := (ofInt_eq_ok.mp ha).1; omega
        subst this
        cases hi : arg.indirect with
        | false => rw [hi] at hx; simp at hx
        | true =>
          rw [hi] at hx
          simp only [if_true] at hx
          cases hw : rom.readWord arg.number with
          | ub u => rw [hw] at hx; cases hx
          | err e => rw [hw] at hx; simp only [Res.ok.injEq, Except.error.injEq] at hx; exact .inr ⟨e, rfl, rfl, hx.symm⟩
          | ok v =>
            rw [hw] at hx
            obtain ⟨b, _, hx⟩ := Res.bind_eq_ok.mp hx
            cases hx

theorem dumbLoop_file {msg : Err → Str} {rom : Rom} : ∀ (n : Nat) {a : Addr} {s : ExecutionState}
    {jumps : OMap ExecutionState} {out : Outcome}, dumbLoop msg rom n a s jumps = .ok out → out.file = none := by
  intro n
  induction n with
  | zero => intro a s jumps out h; cases h
  | succ n ih =>
    intro a s jumps out h
    unfold dumbLoop at h
    simp only at h
    split at h
    · cases h
    · cases h; rfl
    · split at h
      · cases h
      · cases h; rfl
      · split at h
        · cases h
        · cases h; rfl
        · obtain ⟨⟨text, jumps'⟩, _, h⟩ := Res.bind_eq_ok.mp h
          simp only at h
          split at h
          · split at h
            · cases h; rfl
            · split at h
              · cases h; rfl
              · obtain ⟨r, hr, h⟩ := Res.bind_eq_ok.mp h
                cases h
                exact show r.file = none from ih hr
          · obtain ⟨r, hr, h⟩ := Res.bind_eq_ok.mp h
            cases h
            exact show r.file = none from ih hr

end Status

/-- **quick_assemble**: status 0 means that the program agrees with the ROM; any failure gives one line and status 1. -/
theorem C86_quick_assemble {msg : Err → Str} {fuel : Nat} {file : List UInt8} {path : Str} {files : List (List Str)}
    {out : Outcome} (h : quickAssemble msg fuel file path files = .ok out) : AssembleEnds msg fuel file path files out := by
  unfold quickAssemble at h
  cases hl : RomFile.load file with
  | ub u => rw [hl] at h; cases h
  | err e => rw [hl] at h; cases h; exact .noRom (Status.not_loads hl) rfl
  | ok r =>
    rw [hl] at h
    simp only at h
    have hr : IsRomFile file r := (C60_load file r).mp hl
    unfold assembleRom at h
    split at h
    · next ha =>
      cases h
      exact .source hr (of_decide_eq_true ha) rfl
    · split at h
      · next hp =>
        cases hc : (Assembler.assembleFiles fuel files (checker r.rom) ()).2 with
        | ok a =>
          rw [show (Assembler.assembleFiles fuel files (fun s a bs => (s, r.rom.identityWrite a bs)) ()).2 = .ok a from hc] at h
          cases h
          exact .agree hr hp (assembles_checked.mp hc) rfl rfl rfl
        | ub u =>
          rw [show (Assembler.assembleFiles fuel files (fun s a bs => (s, r.rom.identityWrite a bs)) ()).2 = .ub u from hc] at h
          cases h
        | err e =>
          rw [show (Assembler.assembleFiles fuel files (fun s a bs => (s, r.rom.identityWrite a bs)) ()).2 = .err e from hc] at h
          simp only [reportAssembling] at h
          split at h
          · cases h
          · cases h
            refine .differ hr hp (fun a ha => ?_) rfl
            rw [assembles_checked.mpr ha] at hc
            cases hc
      · cases h

/-- **disassemble_more**. -/
theorem C86_disassemble_more {msg : Err → Str} {fuel : Nat} {file : List UInt8} {files : List (List Str)} {out : Outcome}
    (hf : 0 < fuel) (h : disassembleMore msg fuel file files = .ok out) : MoreEnds msg fuel file files out := by
  unfold disassembleMore at h
  cases hl : RomFile.load file with
  | ub u => rw [hl] at h; cases h
  | err e => rw [hl] at h; cases h; exact .noRom (Status.not_loads hl) rfl
  | ok r =>
    rw [hl] at h
    simp only at h
    have hr : IsRomFile file r := (C60_load file r).mp hl
    cases hc : (Assembler.assembleFiles fuel files (checker r.rom) ()).2 with
    | ok a =>
      obtain ⟨ws, h1, h2⟩ := assembles_checked.mp hc
      by_cases hj : a.jumpTargets = []
      · rw [C69_nothing_left_partial h1 h2 hj] at h
        cases h
        exact .agree hr ⟨ws, h1, h2⟩ hj rfl rfl rfl
      · rw [C69_violated h1 h2 hj hf] at h
        cases h
    | ub u =>
      unfold disassembleMoreRom at h
      rw [show (Assembler.assembleFiles fuel files (fun s a bs => (s, r.rom.identityWrite a bs)) ()).2 = .ub u from hc] at h
      cases h
    | err e =>
      unfold disassembleMoreRom at h
      rw [show (Assembler.assembleFiles fuel files (fun s a bs => (s, r.rom.identityWrite a bs)) ()).2 = .err e from hc] at h
      simp only at h
      split at h
      · cases h
      · cases h
        refine .differ hr (fun a ha => ?_) rfl
        rw [assembles_checked.mpr ha] at hc
        cases hc

/-- **quick_disassemble**: status 1 means that an argument is wrong or the ROM cannot be read; nothing else makes it fail.
Partial: with status 0, disassembling may have failed for some or all addresses (`C86_violated`). -/
theorem C86_quick_disassemble_partial {msg : Err → Str} {fuel : Nat} {file : List UInt8} {args : List SeedArg}
    {out : Outcome} (h : quickDisassemble msg fuel file args = .ok out) : DisassembleEnds msg file args out := by
  unfold quickDisassemble at h
  cases hl : RomFile.load file with
  | ub u => rw [hl] at h; cases h
  | err e => rw [hl] at h; cases h; exact .noRom (Status.not_loads hl) rfl
  | ok r =>
    rw [hl] at h
    simp only at h
    have hr : IsRomFile file r := (C60_load file r).mp hl
    unfold disassembleRom at h
    obtain ⟨x, hx, h⟩ := Res.bind_eq_ok.mp h
    cases x with
    | error line =>
      simp only [Res.ok.injEq] at h
      subst h
      obtain ⟨before, arg, after, hs, hb, ⟨hn, rfl⟩ | ⟨e, hi, hw, rfl⟩⟩ := Status.readSeeds_error args hx
      · exact .noMode hr hs hb hn rfl
      · exact .noPointer hr hs hb hi hw rfl
    | ok seeds =>
      simp only at h
      obtain ⟨⟨d, left, printed⟩, hp, h⟩ := Res.bind_eq_ok.mp h
      obtain ⟨hs, -, hask, -⟩ := readSeeds_spec args ⟨List.Pairwise.nil, fun a f h => by cases h⟩ hx
      obtain ⟨⟨-, -, ⟨log, hrep, -⟩, -, -⟩, -⟩ := passes_did 100 (empty_reported r.rom.read) hs hp
      obtain ⟨d', hcl⟩ := C71_cleanup (session_history (reported_session hrep))
      simp only [finishListing, hcl, Res.ok.injEq] at h
      subst h
      refine .all hr (fun arg hm => ?_) rfl rfl
      obtain ⟨a, f, g, ha, -⟩ := hask arg hm
      exact ⟨a, f, ha⟩

/-- **dumb_disassemble**. -/
theorem C86_plain {msg : Err → Str} {fuel : Nat} {file : List UInt8} {start : Nat} {mode : Str} {out : Outcome}
    (h : dumbDisassemble msg fuel file start mode = .ok out) : PlainEnds msg file start mode out := by
  unfold dumbDisassemble at h
  cases hl : RomFile.load file with
  | ub u => rw [hl] at h; cases h
  | err e => rw [hl] at h; cases h; exact .noRom (Status.not_loads hl) rfl
  | ok r =>
    rw [hl] at h
    simp only at h
    have hr : IsRomFile file r := (C60_load file r).mp hl
    cases hn : StatusFlags.fromName mode with
    | none =>
      unfold dumbRom at h
      rw [hn] at h
      cases h
      exact .noMode hr hn rfl
    | some f =>
      refine .listing hr hn (C85_prints hn h) ?_
      unfold dumbRom at h
      simp only [hn] at h
      obtain ⟨a, _, h⟩ := Res.bind_eq_ok.mp h
      exact Status.dumbLoop_file _ h

/-- quick_disassemble ends with status 0 although there is no code where it was asked to disassemble. -/
theorem C86_violated : ∃ rom args out, disassembleRom (fun _ => cs!"why") 10 rom args = .ok out ∧ out.status = 0 ∧
    out.lines = [cs!"; ERROR branching to $000000 with mode m8x8", cs!";   why", cs!"; Disassembled no instructions."] :=
  ⟨⟨.loRom, [0x60]⟩, [⟨false, 0, cs!"m8x8"⟩],
    ⟨[cs!"; ERROR branching to $000000 with mode m8x8", cs!";   why", cs!"; Disassembled no instructions."], 0, none⟩,
    by decide +kernel, rfl, rfl⟩

/-- Files that are no ROM, and one whose kind can be told. -/
example : quickAssemble (fun _ => []) 30 [1, 2, 3] cs!"-" [] = .ok ⟨[cs!"Error loading ROM: "], 1, none⟩ ∧
    quickDisassemble (fun _ => []) 30 [] [] = .ok ⟨[[]], 1, none⟩ := by
  constructor <;> decide +kernel

example : ∃ out, quickAssemble (fun _ => []) 30 (plainImage 0xffdc 0x80000) cs!"out.asm" [] = .ok out ∧ out.status = 1 := by
  have : RomFile.load (plainImage 0xffdc 0x80000) = .ok ⟨[], ⟨.hiRom, plainImage 0xffdc 0x80000⟩⟩ := by
    refine (C60_load _ _).2 ⟨.bare ?_, ?_, plainImage_checksum .., ?_, ?_⟩ <;>
    first
      | exact plainImage_no_checksum (by omega)
      | (simp only; rw [plainImage_length (by omega)]; omega)
      | rw [plainImage_length (by omega)]
  unfold quickAssemble
  rw [this]
  exact ⟨_, rfl, rfl⟩

end Nsasm.Props
