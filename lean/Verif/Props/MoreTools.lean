import Verif.Props.Driver

/-! # C69, C70: disassembling what a program calls, and the plain disassembler -/

namespace Nsasm.Props
open Nsasm Nsasm.Spec Tools

/-! ## C69 -/

theorem targets_outside {fuel : Nat} {files : List (List Str)} {ws : Writes} {a : Assembler}
    (h : Assembles fuel files ws a) : ∀ n ∈ a.jumpTargets, a.contains n.1 = false := by
  intro n hn
  obtain ⟨order, wss, hA⟩ := assembled h
  have hrep := jumpTargets_holds a _ hA.targets
  obtain ⟨externs, -, h1, -, -⟩ := C47_targets_partial h
  exact ((h1 n.1).mp ⟨n.2, OMap.find_of_mem hrep.sorted hn⟩).1

/-- The tool does what it is for only if nothing is left to disassemble: then it says so. -/
theorem C69_nothing_left_partial {msg : Err → Str} {fuel : Nat} {rom : Rom} {files : List (List Str)} {ws : Writes}
    {a : Assembler} (h : Assembles fuel files ws a) (hin : InRom rom ws) (hleft : a.jumpTargets = []) :
    disassembleMoreRom msg fuel rom files =
      .ok { lines := [cs!"; Disassembled no instructions."], status := 0 } := by
  have hc := assembles_checked.mpr ⟨ws, h, hin⟩
  unfold disassembleMoreRom
  have hp : ∀ (n : Nat) (d : Disassembler), passes msg fuel nullSource a.contains n d [] = .ok (d, [], []) := by
    intro n
    induction n with
    | zero => intro d; rfl
    | succ n ih => intro d; unfold passes; simp only [pass, Res.bind_ok, ih]; rfl
  have hcl : ∀ c, (Disassembler.empty.addTargetReturnConventions c).cleanup =
      .ok (Disassembler.empty.addTargetReturnConventions c) := by
    intro c
    rw [cleanup_eval]
    rfl
  rw [show (Assembler.assembleFiles fuel files (fun s a bs => (s, rom.identityWrite a bs)) ()).2 = .ok a from hc]
  simp only [hleft, hp, Res.bind_ok, finishListing, hcl]
  rfl

/-- Whenever the program jumps to or calls anything outside itself, the tool is undefined: the ROM it should read was
given away before. -/
theorem C69_violated {msg : Err → Str} {fuel : Nat} {rom : Rom} {files : List (List Str)} {ws : Writes}
    {a : Assembler} (h : Assembles fuel files ws a) (hin : InRom rom ws) (hleft : a.jumpTargets ≠ [])
    (hf : 0 < fuel) : disassembleMoreRom msg fuel rom files = .ub .nullDeref := by
  have hc := assembles_checked.mpr ⟨ws, h, hin⟩
  have hout := targets_outside h
  unfold disassembleMoreRom
  rw [show (Assembler.assembleFiles fuel files (fun s a bs => (s, rom.identityWrite a bs)) ()).2 = .ok a from hc]
  simp only
  obtain ⟨⟨x, f⟩, rest, hx⟩ := List.exists_cons_of_ne_nil hleft
  rw [hx] at hout ⊢
  obtain ⟨fuel, rfl⟩ : ∃ n, fuel = n + 1 := ⟨fuel - 1, by omega⟩
  have hd : ∀ c, ((Disassembler.empty.addTargetReturnConventions c).disassemble (fuel + 1) nullSource x f).2 =
      .ub .nullDeref := by
    intro c
    rfl
  have hp : ∀ (n : Nat) (c), passes msg (fuel + 1) nullSource a.contains (n + 1)
      (Disassembler.empty.addTargetReturnConventions c) ((x, f) :: rest) = .ub .nullDeref := by
    intro n c
    unfold passes pass
    rw [if_neg (by rw [hout (x, f) (by simp)]; simp)]
    have := hd c
    generalize (Disassembler.empty.addTargetReturnConventions c).disassemble (fuel + 1) nullSource x f = y at this
    obtain ⟨d, r⟩ := y
    simp only at this
    subst this
    rfl
  rw [hp]
  rfl

/-- A program with a call to be disassembled. -/
example : ∃ ws a, Assembles 30 [[cs!" .org $8002", cs!" .entry m8x8", cs!" jsl $c12345", cs!" rts"]] ws a ∧
    InRom ⟨.loRom, [0, 0, 0x22, 0x45, 0x23, 0xc1, 0x60]⟩ ws ∧ a.jumpTargets ≠ [] := by
  obtain ⟨ws, a, h, hc⟩ := assembles_of_check (fuel := 30)
    (files := [[cs!" .org $8002", cs!" .entry m8x8", cs!" jsl $c12345", cs!" rts"]])
    (fun ws a => decide (ws = [(0x8002, [0x22, 0x45, 0x23, 0xc1]), (0x8006, [0x60])] ∧
      a.jumpTargets.length = 1)) (by decide +kernel)
  simp only [decide_eq_true_eq] at hc
  obtain ⟨rfl, ht⟩ := hc
  refine ⟨_, a, h, fun x b hx => ?_, fun he => by rw [he] at ht; cases ht⟩
  simp [Spec.stored, wrapped] at hx
  rcases hx with ⟨rfl, rfl⟩ | ⟨rfl, rfl⟩ | ⟨rfl, rfl⟩ | ⟨rfl, rfl⟩ | ⟨rfl, rfl⟩ <;> exact ⟨_, rfl, rfl⟩

/-- A program with nothing left. -/
example : ∃ ws a, Assembles 30 [[cs!" .org $8002", cs!" .entry m8x8", cs!" rts"]] ws a ∧
    InRom ⟨.loRom, [0, 0, 0x60]⟩ ws ∧ a.jumpTargets = [] := by
  obtain ⟨ws, a, h, hc⟩ := assembles_of_check (fuel := 30) (files := [[cs!" .org $8002", cs!" .entry m8x8", cs!" rts"]])
    (fun ws a => decide (ws = [(0x8002, [0x60])] ∧ a.jumpTargets = [])) (by decide +kernel)
  simp only [decide_eq_true_eq] at hc
  obtain ⟨rfl, ht⟩ := hc
  refine ⟨_, a, h, fun x b hx => ?_, ht⟩
  simp [Spec.stored, wrapped] at hx
  obtain ⟨rfl, rfl⟩ := hx
  exact ⟨_, rfl, rfl⟩

/-! ## C70 -/

theorem read_unmapped {rom : Rom} {a : Addr} (ha : a < 0x1000000) (h : ¬ Mapped rom.mapping a) {bs : List UInt8} :
    rom.read a 4 ≠ .ok bs := by
  intro hr
  obtain ⟨hl, hb⟩ := (C29_read_partial rom ha (n := 4) (by omega) bs).mp hr
  obtain ⟨off, h1, -⟩ := hb 0 (by omega)
  rw [show a / 65536 * 65536 + (a + 0) % 65536 = a by omega] at h1
  exact h ((C27_mapped_iff ha _).mp ⟨off, h1⟩)

theorem decode_step {bytes : List UInt8} {f : StatusFlags} {i : Instruction} (h : decode bytes f = .ok i) :
    1 ≤ instructionLength i.mode ∧ instructionLength i.mode ≤ 4 := by
  rw [decode_ok_iff] at h
  obtain ⟨op, l, a, a1, a2, -, n1, n2, -, -, rfl⟩ := h
  refine ⟨length_pos a n1 n2, ?_⟩
  show instructionLength a ≤ 4
  cases a <;> decide

theorem noteBranch_ends {jumps : OMap ExecutionState} {a : Addr} {i : Instruction} {s : ExecutionState} :
    noteBranch jumps a i s ≠ .err .steps := by
  unfold noteBranch Disassembler.evalUnchecked
  split
  · split <;> exact fun h => by cases h
  · exact fun h => by cases h

theorem comesToEnd_succ {α : Type} {f : Nat → Res α} (h : ComesToEnd fun n => f (n + 1)) : ComesToEnd f := by
  obtain ⟨N, r, hr, hN⟩ := h
  refine ⟨N + 1, r, hr, fun fuel hf => ?_⟩
  obtain ⟨n, rfl⟩ : ∃ n, fuel = n + 1 := ⟨fuel - 1, by omega⟩
  exact hN n (by omega)

/-- One round comes to an end if the next one does. -/
theorem dumbLoop_ends {msg : Err → Str} {rom : Rom} {a : Addr} {s : ExecutionState} {jumps : OMap ExecutionState}
    (h : ∀ bytes i, rom.read a 4 = .ok bytes → decode bytes s.flags = .ok i → ∀ s' jumps',
      ComesToEnd fun fuel => dumbLoop msg rom fuel (Address.addWrapped a (instructionLength i.mode)) s' jumps') :
    ComesToEnd fun fuel => dumbLoop msg rom fuel a s jumps := by
  refine comesToEnd_succ ?_
  simp only [dumbLoop]
  cases hr : rom.read a 4 with
  | ub u => exact .const (by simp)
  | err e => exact .const (by simp)
  | ok bytes =>
    simp only
    cases hd : decode bytes s.flags with
    | ub u => exact .const (by simp)
    | err e => exact .const (by simp)
    | ok i =>
      simp only
      cases i.execute s nullCtx with
      | ub u => exact .const (by simp)
      | err e => exact .const (by simp)
      | ok s' =>
        simp only
        refine ComesToEnd.bind (f := fun _ => noteBranch jumps _ i s') (.const noteBranch_ends) fun _ x _ => ?_
        obtain ⟨text, jumps'⟩ := x
        simp only
        split
        · split
          · exact .const (by simp)
          · split
            · exact .const (by simp)
            · exact (h bytes i hr hd _ _).bind (g := fun _ x => _) fun _ _ _ => .const (by simp)
        · exact (h bytes i hr hd _ _).bind (g := fun _ x => _) fun _ _ _ => .const (by simp)

theorem unmapped_low {m : Mapping} {b k : Nat} (h : ¬ Mapped m (b * 0x10000)) (hk : k < 0x8000) :
    ¬ Mapped m (b * 0x10000 + k) := by
  intro h'
  obtain ⟨h1, h2⟩ := h'
  have hy : b * 0x10000 % 0x10000 = 0 := Nat.mul_mod_left _ _
  generalize b * 0x10000 = y at h h1 h2 hy
  refine h ⟨fun hs => h1 ?_, fun hm => ?_⟩
  · revert hs
    unfold SystemArea
    omega
  · have := h2 hm
    omega

theorem dumbLoop_bank {msg : Err → Str} {rom : Rom} {b : Nat} (hb : b < 0x100) (hbank : ¬ Mapped rom.mapping (b * 0x10000)) :
    ∀ (k : Nat) (a : Addr) (s : ExecutionState) (jumps : OMap ExecutionState), a / 0x10000 = b →
      0x10000 ≤ a % 0x10000 + k → ComesToEnd fun fuel => dumbLoop msg rom fuel a s jumps := by
  have low : ∀ (a : Addr) (s : ExecutionState) (jumps : OMap ExecutionState), a / 0x10000 = b → a % 0x10000 < 0x8000 →
      ComesToEnd fun fuel => dumbLoop msg rom fuel a s jumps := by
    intro a s jumps ha hl
    refine dumbLoop_ends fun bytes i hr _ => ?_
    refine absurd hr (read_unmapped (by omega) ?_)
    have := unmapped_low hbank hl
    rwa [show b * 0x10000 + a % 0x10000 = a by omega] at this
  intro k
  induction k with
  | zero => intro a s jumps _ h; omega
  | succ k ih =>
    intro a s jumps ha hk
    refine dumbLoop_ends fun bytes i _ hd s' jumps' => ?_
    obtain ⟨h1, h2⟩ := decode_step hd
    generalize instructionLength i.mode = n at h1 h2
    have hnext : Address.addWrapped a n = b * 0x10000 + (a % 0x10000 + n) % 0x10000 := by
      unfold Address.addWrapped
      omega
    rw [hnext]
    by_cases hw : a % 0x10000 + n < 0x10000
    · exact ih _ _ _ (by omega) (by omega)
    · exact low _ _ _ (by omega) (by omega)

/-- **In a bank that does not begin with ROM the plain disassembler comes to an end.**

Partial: elsewhere it need not (`C70_violated`). -/
theorem C70_terminates_partial (msg : Err → Str) (rom : Rom) {start : Nat} (hs : start < 0x1000000) (mode : Str)
    (hbank : ¬ Mapped rom.mapping (start / 0x10000 * 0x10000)) :
    ∃ N res, res ≠ .err .steps ∧ ∀ fuel ≥ N, dumbRom msg fuel rom start mode = res := by
  unfold dumbRom
  cases StatusFlags.fromName mode with
  | none => exact ⟨0, _, by simp, fun _ _ => rfl⟩
  | some f =>
    have : Address.ofInt (start : Int) = .ok start := by
      unfold Address.ofInt
      rw [if_pos (by omega)]
      rfl
    simp only [this, Res.bind_ok]
    exact dumbLoop_bank (by omega) hbank 0x10000 start _ _ rfl (by omega)

/-- In particular for every LoROM, and below bank $40 of every other ROM. -/
example (rom : Rom) (start : Nat) (h : rom.mapping = .loRom ∨ start < 0x400000) :
    ¬ Mapped rom.mapping (start / 0x10000 * 0x10000) := by
  rintro ⟨h1, h2⟩
  rcases h with h | h
  · have := h2 h; omega
  · unfold SystemArea at h1; omega

/-- A bank full of NOPs. -/
def nopRom : Rom := ⟨.hiRom, List.replicate 0x10000 0xea⟩

theorem nopRom_read {a : Addr} (h : a / 0x10000 = 0xc0) : nopRom.read a 4 = .ok [0xea, 0xea, 0xea, 0xea] := by
  refine (C29_read_partial nopRom (by omega) (n := 4) (by omega) _).mpr ⟨rfl, fun i hi => ?_⟩
  simp only [List.length_cons, List.length_nil] at hi
  have hbyte : [0xea, 0xea, 0xea, (0xea : UInt8)][i] = 0xea := by
    rcases i with _ | _ | _ | _ | i
    · rfl
    · rfl
    · rfl
    · rfl
    · omega
  rw [hbyte]
  have hm : ∃ off, snesToRom (a / 0x10000 * 0x10000 + (a + i) % 0x10000) .hiRom = .ok off := by
    refine (C27_mapped_iff (by omega) _).mpr ⟨?_, fun h => by cases h⟩
    unfold SystemArea
    omega
  obtain ⟨off, ho⟩ := hm
  refine ⟨off, ho, ?_⟩
  have := (C27_offset (by omega) (by simp) ho).1
  unfold romOffset at this
  simp only at this
  show (List.replicate 0x10000 (0xea : UInt8))[off]? = some 0xea
  rw [List.getElem?_replicate, if_pos (by omega)]

/-- **The plain disassembler need not end**: in a HiROM with a bank full of NOPs it goes round and round. -/
theorem C70_violated (msg : Err → Str) (fuel : Nat) : dumbRom msg fuel nopRom 0xc00000 cs!"m8x8" = .err .steps := by
  have hex : (⟨.nop, .none, .imp, .null, .null, .default⟩ : Instruction).execute (.init eightBit) nullCtx =
      .ok (.init eightBit) := by rfl
  have hde : decode [0xea, 0xea, 0xea, 0xea] (ExecutionState.init eightBit).flags =
      .ok ⟨.nop, .none, .imp, .null, .null, .default⟩ := by rfl
  have loop : ∀ (fuel : Nat) (a : Addr), a / 0x10000 = 0xc0 →
      dumbLoop msg nopRom fuel a (.init eightBit) [] = .err .steps := by
    intro fuel
    induction fuel with
    | zero => intro a _; rfl
    | succ n ih =>
      intro a ha
      unfold dumbLoop
      simp only [nopRom_read ha, hde, hex]
      have hn := ih (Address.addWrapped a (instructionLength .imp)) (by
        unfold Address.addWrapped
        omega)
      simp only [noteBranch, Instruction.isLocalBranch, Instruction.isExitInstruction]
      simp [hn, ReturnConvention.isExitCall]
  have hf : StatusFlags.fromName cs!"m8x8" = some eightBit := by decide +kernel
  unfold dumbRom
  rw [hf]
  exact loop fuel 0xc00000 rfl

end Nsasm.Props
