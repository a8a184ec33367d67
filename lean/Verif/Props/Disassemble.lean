import Verif.Lemmas.Closed
import Verif.Lemmas.DisHalts
import Verif.Props.Run

/-! # C48, C49, C50, C51: disassembly -/

namespace Nsasm.Props
open Nsasm Nsasm.Spec

/-! ## A program to try the theorems on

```
8000  c2 30        rep #$30
8002  a2 02 00     ldx #2
8005  18           clc           <- loop
8006  69 34 12     adc #$1234
8009  ca           dex
800a  d0 f9        bne loop
800c  20 10 80     jsr $8010
800f  60           rts
8010  e2 20        sep #$20
8012  60           rts
```
-/

/-- The image. -/
def demoRom : Rom :=
  ⟨.loRom, [0xc2, 0x30, 0xa2, 0x02, 0x00, 0x18, 0x69, 0x34, 0x12, 0xca, 0xd0, 0xf9, 0x20, 0x10, 0x80,
    0x60, 0xe2, 0x20, 0x60, 0x00, 0x00, 0x00, 0x00]⟩

/-- Disassembling the routine at $8000. -/
def demoCall : Disassembler × Res (OMap StatusFlags) :=
  Disassembler.empty.disassemble 20 demoRom.read 0x8000 ⟨.off, .on, .on, .unknown⟩

theorem demo_ok : ∃ far, demoCall.2 = .ok far :=
  ⟨[(0x8010, ⟨.off, .off, .off, .unknown⟩)], by decide +kernel⟩

theorem demo_session : Session HasName demoRom.read demoCall.1 := by
  obtain ⟨far, h⟩ := demo_ok
  exact .call (d := .empty) (d' := demoCall.1) (fuel := 20) (start := 0x8000) (flags := ⟨.off, .on, .on, .unknown⟩)
    (r := demoCall.2) .new (by decide) ⟨.off, .on, .on, .unknown, by decide⟩ rfl (by rw [h]; trivial)

/-! ## C48 -/

/-- **Disassembly terminates**, for every byte source and after every history of calls: from some
number of rounds on, the outcome of `Disassemble` does not depend on how many rounds it is allowed,
and is not that the rounds ran out. -/
theorem C48_terminates {src : Source} (hsrc : ∀ a n, src a n ≠ .err .steps) {d : Disassembler}
    (h : History Constructible src d) {start : Addr} (hs : start ≤ 0x1000000) {flags : StatusFlags}
    (hf : Constructible flags) :
    ∃ N d' r, r ≠ .err .steps ∧ ∀ fuel ≥ N, d.disassemble fuel src start flags = (d', r) := by
  have hp := history_proper (fun f hf => constructible_normal hf) h
  obtain ⟨N, ⟨w, r⟩, hr, hN⟩ := run_halts hsrc _ (begin_tidy hp hs (constructible_normal hf))
  have key : ∀ fuel ≥ N, d.disassemble fuel src start flags = d.disassemble N src start flags := by
    intro fuel hfu
    unfold Disassembler.disassemble
    rw [hN fuel hfu, hN N (Nat.le_refl N)]
  refine ⟨N, _, _, ?_, key⟩
  rw [hN N (Nat.le_refl N)]
  cases r with
  | ok u => simp
  | err e => simpa using hr
  | ub u => simp

theorem readLoop_noSteps (rom : Rom) (a : Addr) : ∀ n i, (rom.readLoop a i n).NoSteps := by
  intro n
  induction n with
  | zero => intro i; trivial
  | succ n ih =>
    intro i
    unfold Rom.readLoop
    refine Res.noSteps_bind ?_ fun x _ => ?_
    · unfold snesToRom
      simp only
      split
      · trivial
      · split
        · trivial
        · split <;> first | trivial | (split <;> trivial)
    · split
      · trivial
      · exact Res.noSteps_bind (ih _) fun _ _ => trivial

/-- A ROM image is such a byte source. -/
theorem rom_answers (rom : Rom) (a : Addr) (n : Int) : rom.read a n ≠ .err .steps := by
  have hs : ∀ a, (snesToRom a rom.mapping).NoSteps := by
    intro a
    unfold snesToRom
    simp only
    split
    · trivial
    · split
      · trivial
      · split <;> first | trivial | (split <;> trivial)
  have : (rom.read a n).NoSteps := by
    unfold Rom.read
    split
    · trivial
    · split
      · trivial
      · refine Res.noSteps_bind (hs _) fun _ _ => Res.noSteps_bind (hs _) fun _ _ => ?_
        split
        · split <;> trivial
        · exact readLoop_noSteps _ _ _ _
  intro h
  rw [h] at this
  exact this

/-- The same for every ROM image, whatever it contains. -/
theorem C48_rom_terminates (rom : Rom) {d : Disassembler} (h : History Constructible rom.read d) {start : Addr}
    (hs : start ≤ 0x1000000) {flags : StatusFlags} (hf : Constructible flags) :
    ∃ N d' r, r ≠ .err .steps ∧ ∀ fuel ≥ N, d.disassemble fuel rom.read start flags = (d', r) :=
  C48_terminates (rom_answers rom) h hs hf

/-! ## C49 -/

theorem above_covers {t s : ExecutionState} (hs : NormalState s) (h : Above t s) : StateCovers t s :=
  h.subsumes hs

theorem stops_iff (i : Instruction) : Stops (.instr i) ↔ i.isExitInstruction = true := by
  unfold Stops Instruction.isExitInstruction ReturnConvention.isExitCall
  cases h : i.ret <;> simp [h]

/-- **The listing is the decoding of the bytes and is closed under control flow.**  After any
history of calls, each entry shows the instruction that the bytes at its address decode to under the
flags recorded there; the instruction is accepted in the recorded state; and unless execution stops
with it, there is an entry at the next address whose recorded state covers the state after it.  If it
is a branch there is an entry at its target whose recorded state covers the state when the branch is
taken. -/
theorem C49_closed {src : Source} {d : Disassembler} (h : Session HasName src d) {a : Addr} {it : DisItem}
    (hl : Lists d.disassembly a it) :
    (∃ bytes j, src a 4 = .ok bytes ∧ decode bytes it.current.flags = .ok j ∧ Shows j it.instruction) ∧
    (∃ s, it.instruction.execute it.current nullCtx = .ok s ∧
      (¬ Stops (.instr it.instruction) → ∃ jt, Lists d.disassembly (following a it.instruction) jt ∧
        StateCovers jt.current s)) ∧
    (MayBranch it.instruction → ∃ v s jt, it.instruction.arg1.eval nullCtx = .ok v ∧
      it.instruction.executeBranch it.current = .ok s ∧
      Lists d.disassembly (Address.addWrapped (following a it.instruction) v) jt ∧
      StateCovers jt.current s) := by
  have hc := session_closed h
  have hi := hc.items a it hl
  obtain ⟨hn1, hn2⟩ := closed_normal hc hl
  refine ⟨hi.bytes, ⟨it.next, hi.next, fun hs => ?_⟩, fun hb => ?_⟩
  · rw [stops_iff, Bool.not_eq_true] at hs
    obtain ⟨jt, h1, h2⟩ := hc.next a it hl hs
    exact ⟨jt, h1, above_covers hn2 h2⟩
  · rw [← mayBranch_iff] at hb
    obtain ⟨name, e, v, jt, h1, h2, h3, h4, -⟩ := hc.proper.branches a it hl hb
    have hv : it.instruction.arg1.eval nullCtx = .ok v := by
      rw [h1]
      unfold Expr.eval
      rw [if_neg h2]
      exact h3
    obtain ⟨jt, h5, h6⟩ := hc.branch a it v hl hb hv
    exact ⟨v, _, jt, hv, branch_taken hb hi.next, h5, above_covers (branchState_normal hn1) h6⟩

/-- **A successful call lists the start address**, with a recorded state that covers the one it was
called with. -/
theorem C49_start_listed {src : Source} {d d' : Disassembler} (h : Session HasName src d) {fuel : Nat}
    {start : Addr} (hs : start ≤ 0x1000000) {flags : StatusFlags} (hf : Constructible flags)
    {far : OMap StatusFlags} (hr : d.disassemble fuel src start flags = (d', .ok far)) :
    ∃ it, Lists d'.disassembly start it ∧ StateCovers it.current (.init flags) := by
  obtain ⟨it, h1, h2⟩ := (disassemble_closed (session_closed h) hs (constructible_normal hf) hr).2 rfl
  exact ⟨it, h1, above_covers (normal_init (constructible_normal hf)) h2⟩

/-- **Later calls do not lose entries**, and what is recorded at an address only comes to cover
more. -/
theorem C49_kept {src : Source} {d d' : Disassembler} (h : Session HasName src d) (hl : Later HasName src d d')
    {a : Addr} {it : DisItem} (ha : Lists d.disassembly a it) :
    ∃ it', Lists d'.disassembly a it' ∧ StateCovers it'.current it.current := by
  have key : Session HasName src d' ∧ ∃ it', Lists d'.disassembly a it' ∧ StateCovers it'.current it.current := by
    induction hl with
    | now => exact ⟨h, it, ha, fun _ _ h => h⟩
    | table _ sorted ok ih => exact ⟨.table ih.1 sorted ok, ih.2⟩
    | call _ address ok result ended ih =>
      obtain ⟨ih1, it', ih2, ih3⟩ := ih
      refine ⟨.call ih1 address ok result ended, ?_⟩
      obtain ⟨jt, h1, h2⟩ := disassemble_keeps (session_closed ih1) address (constructible_normal ok) result ih2
      exact ⟨jt, h1, fun o p hd => above_covers (closed_normal (session_closed ih1) ih2).1 h2 o p (ih3 o p hd)⟩
  exact key.2

/-- The stack instructions that the analysis does not track occur in the listing only where nothing is
tracked on the stack. -/
def ListingTame (m : OMap DisItem) : Prop :=
  ∀ a it, Lists m a it → Untracked it.instruction.mnemonic →
    it.current.stack = .abandoned ∨ it.current.stack = .live []

/-- An instruction decoded under flags that agree with the processor is the one that the processor
finds. -/
theorem decode_actual {bytes : List UInt8} {f : StatusFlags} {j : Instruction} {p : Cpu}
    (h : decode bytes f = .ok j) (hk : KnownFlagsRight f p) : decode bytes (actualFlags p) = .ok j := by
  rw [decode_ok_iff] at h ⊢
  obtain ⟨op, l, a, a1, a2, hb, n1, n2, hm, hargs, hj⟩ := h
  obtain ⟨-, -, h3, h4, h5, h6, -, -⟩ := hk
  refine ⟨op, l, a, a1, a2, hb, n1, n2, ?_, hargs, hj⟩
  unfold actualFlags
  rcases hm with hm | ⟨hm, hx⟩ | ⟨hm, hx⟩
  · exact .inl hm
  · refine .inr (.inl ⟨hm, ?_⟩)
    rcases hx with ⟨rfl, hx⟩ | ⟨rfl, hx⟩
    · exact .inl ⟨rfl, by simp [h3 hx]⟩
    · exact .inr ⟨rfl, by simp [h4 hx]⟩
  · refine .inr (.inr ⟨hm, ?_⟩)
    rcases hx with ⟨rfl, hx⟩ | ⟨rfl, hx⟩
    · exact .inl ⟨rfl, by simp [h5 hx]⟩
    · exact .inr ⟨rfl, by simp [h6 hx]⟩

/-- The listing has the address and what is recorded there describes the processor. -/
def ListsFor (d : Disassembler) (a : Addr) (p : Cpu) : Prop :=
  ∃ it, Lists d.disassembly a it ∧ Describes .anything it.current p

/-- The listed instruction is the processor's. -/
theorem listed_fetch {src : Source} {d : Disassembler} (hd : Session HasName src d) {a : Addr} {p : Cpu} {it : DisItem}
    {j : Instruction} (hit : Lists d.disassembly a it) (hk : KnownFlagsRight it.current.flags p)
    (hj : Fetches src a p j) : Shows j it.instruction := by
  obtain ⟨bytes, hb, hj⟩ := hj
  obtain ⟨bytes', j', hb', hj', hsh⟩ := (C49_closed hd hit).1
  rw [hb] at hb'; cases hb'
  rw [decode_actual hj' hk] at hj; cases hj
  exact hsh

theorem listed_args {src : Source} {d : Disassembler} (hd : Session HasName src d) {a : Addr} {it : DisItem}
    {j : Instruction} (hit : Lists d.disassembly a it) (hsh : Shows j it.instruction) (v : Int) :
    it.instruction.arg1.eval nullCtx = .ok v ↔ j.arg1.eval nullCtx = .ok v := by
  have hc := session_closed hd
  by_cases hb : MayBranch j
  · obtain ⟨name, hn⟩ := hsh.branch hb
    have hb' : it.instruction.isLocalBranch = true := by
      rw [mayBranch_iff]; unfold MayBranch at hb ⊢; rw [hsh.mode, hsh.mnemonic]; exact hb
    obtain ⟨name', e, v', jt, h1, h2, -⟩ := hc.proper.branches a it hit hb'
    rw [hn] at h1; cases h1
    rw [hn]
    conv => lhs; unfold Expr.eval
    rw [if_neg h2]
  · rw [hsh.plain hb]

theorem listsFor_next {src : Source} {d : Disassembler} (hd : Session HasName src d) (ht : ListingTame d.disassembly)
    {a : Addr} {p q : Cpu} {j : Instruction} {operand : UInt8} (h : ListsFor d a p) (fetches : Fetches src a p j)
    (goesOn : ¬ Stops (.instr { j with ret := listedReturn d.disassembly a }))
    (assembled : ∀ v, j.arg1.eval nullCtx = .ok v → operand = byteOf v)
    (executes : Follows j.mnemonic operand (listedReturn d.disassembly a) p q) : ListsFor d (following a j) q := by
  obtain ⟨it, hit, hdesc⟩ := h
  have hc := session_closed hd
  have hsh := listed_fetch hd hit (describes_known hdesc) fetches
  have hret : listedReturn d.disassembly a = it.instruction.ret := by
    unfold listedReturn; rw [show OMap.find d.disassembly a = some it from hit]
  obtain ⟨-, ⟨s, hex, hnx⟩, -⟩ := C49_closed hd hit
  obtain ⟨jt, hjt, hcov⟩ := hnx (by
    simp only [Stops] at goesOn ⊢
    rw [hsh.mnemonic, ← hret]; exact goesOn)
  refine ⟨jt, ?_, hcov _ _ ?_⟩
  · unfold following at hjt ⊢; rw [hsh.mode] at hjt; exact hjt
  · refine execute_sound good_anything hdesc ⟨?_, ?_, ht a it hit, fun _ _ => trivial⟩ hex
      (operand := operand) ?_
    · intro v hv
      exact assembled v ((listed_args hd hit hsh v).1 hv)
    · exact (hc.items a it hit).ret
    · rw [hsh.mnemonic, ← hret]; exact executes

theorem listsFor_branch {src : Source} {d : Disassembler} (hd : Session HasName src d)
    {a : Addr} {p q : Cpu} {j : Instruction} {v : Int} (h : ListsFor d a p) (fetches : Fetches src a p j)
    (may : MayBranch j) (offset : j.arg1.eval nullCtx = .ok v) (executes : Branches j.mnemonic p q) :
    ListsFor d (Address.addWrapped (following a j) v) q := by
  obtain ⟨it, hit, hdesc⟩ := h
  have hsh := listed_fetch hd hit (describes_known hdesc) fetches
  have hb : MayBranch it.instruction := by
    unfold MayBranch at may ⊢; rw [hsh.mode, hsh.mnemonic]; exact may
  obtain ⟨-, -, hbr⟩ := C49_closed hd hit
  obtain ⟨v', s, jt, hv', hex, hjt, hcov⟩ := hbr hb
  rw [(listed_args hd hit hsh v).2 offset] at hv'; cases hv'
  refine ⟨jt, ?_, hcov _ _ ?_⟩
  · unfold following at hjt ⊢; rw [hsh.mode] at hjt; exact hjt
  · exact branch_sound hdesc ((mayBranch_iff _).2 hb) hex (by rw [hsh.mnemonic]; exact executes)

theorem listsFor_shows {src : Source} {d : Disassembler} (hd : Session HasName src d) {a : Addr} {p : Cpu}
    (h : ListsFor d a p) : ∃ it j, Lists d.disassembly a it ∧ Fetches src a p j ∧ Shows j it.instruction ∧
      Describes .anything it.current p := by
  obtain ⟨it, hit, hdesc⟩ := h
  have hk := describes_known hdesc
  obtain ⟨bytes, j, hb, hj, hsh⟩ := (C49_closed hd hit).1
  exact ⟨it, j, hit, ⟨bytes, hb, decode_actual hj hk⟩, hsh, hdesc⟩

theorem later_session {src : Source} {d₁ d : Disassembler} (h₁ : Session HasName src d₁) (hl : Later HasName src d₁ d) :
    Session HasName src d := by
  induction hl with
  | now => exact h₁
  | table _ sorted ok ih => exact .table ih sorted ok
  | call _ address ok result ended ih => exact .call ih address ok result ended

theorem runs_described {src : Source} {d₀ d₁ d : Disassembler} (h₀ : Session HasName src d₀)
    {fuel : Nat} {start : Addr} (hs : start ≤ 0x1000000) {flags : StatusFlags} (hf : Constructible flags)
    {far : OMap StatusFlags} (hr : d₀.disassemble fuel src start flags = (d₁, .ok far))
    (hl : Later HasName src d₁ d) (ht : ListingTame d.disassembly) {a : Addr} {p : Cpu}
    (hrun : CodeRuns src (listedReturn d.disassembly) start flags a p) :
    ∃ it j, Lists d.disassembly a it ∧ Fetches src a p j ∧ Shows j it.instruction ∧
      Describes .anything it.current p := by
  have h₁ : Session HasName src d₁ := .call h₀ hs hf hr trivial
  have hd := later_session h₁ hl
  refine listsFor_shows hd ?_
  induction hrun with
  | start ok agrees =>
    obtain ⟨it, h1, h2⟩ := C49_start_listed h₀ hs hf hr
    obtain ⟨it', h3, h4⟩ := C49_kept h₁ hl h1
    exact ⟨it', h3, h4 _ _ (h2 _ _ (describes_init ok agrees))⟩
  | next before fetches goesOn assembled executes ih =>
    exact listsFor_next hd ht ih fetches goesOn assembled executes
  | branch before fetches may offset executes ih => exact listsFor_branch hd ih fetches may offset executes

/-- **The listing shows what the processor executes.**  Disassemble from `start` with `flags`; let any
further calls follow.  Whenever a processor that started at `start` with flags as given gets to an
address, after any number of steps, the listing has an entry there: it shows the instruction that the
processor finds there with the M and X flags that it has, and every flag recorded as known is right.

Partial: the listing must not use PHB, PHD, PHK, PLB, PLD, TCS, TXS where something is tracked on the
stack (`ListingTame`; the claim is false otherwise, see `C49_violated`), and calls are taken to return
as the listing says. -/
theorem C49_shows_execution_partial {src : Source} {d₀ d₁ d : Disassembler} (h₀ : Session HasName src d₀)
    {fuel : Nat} {start : Addr} (hs : start ≤ 0x1000000) {flags : StatusFlags} (hf : Constructible flags)
    {far : OMap StatusFlags} (hr : d₀.disassemble fuel src start flags = (d₁, .ok far))
    (hl : Later HasName src d₁ d) (ht : ListingTame d.disassembly) {a : Addr} {p : Cpu}
    (hrun : CodeRuns src (listedReturn d.disassembly) start flags a p) :
    ∃ it j, Lists d.disassembly a it ∧ Fetches src a p j ∧ Shows j it.instruction ∧
      KnownFlagsRight it.current.flags p := by
  obtain ⟨it, j, h1, h2, h3, h4⟩ := runs_described h₀ hs hf hr hl ht hrun
  exact ⟨it, j, h1, h2, h3, describes_known h4⟩

/-- Being tame can be checked on the listing. -/
theorem listingTame_of_all {m : OMap DisItem} (h : (m.all fun n =>
    !decide (Untracked n.2.instruction.mnemonic) || n.2.current.stack = .abandoned || n.2.current.stack = .live []) =
      true) : ListingTame m := by
  intro a it hl hu
  have := List.all_eq_true.mp h (a, it) (OMap.mem_of_find hl)
  simp only [hu, decide_true, Bool.not_true, Bool.false_or, Bool.or_eq_true, decide_eq_true_eq] at this
  exact this

/-- The demonstration meets the hypotheses, and the processor gets round its loop: it reaches the ADC
with 16-bit registers. -/
example : ListingTame demoCall.1.disassembly ∧
    CodeRuns demoRom.read (listedReturn demoCall.1.disassembly) 0x8000 ⟨.off, .on, .on, .unknown⟩ 0x8006
      ⟨false, false, false, false, []⟩ := by
  refine ⟨listingTame_of_all (by decide +kernel), ?_⟩
  refine .next (a := 0x8005) (p := ⟨false, false, false, true, []⟩) (j := ⟨.clc, .none, .imp, .null, .null, .default⟩)
    (operand := 0) ?_ ⟨_, rfl, rfl⟩ (by decide +kernel) (by intro v h; cases h) rfl
  refine .next (a := 0x8002) (p := ⟨false, false, false, true, []⟩)
    (j := ⟨.ldx, .none, .imm_w, .lit 2 .word, .null, .default⟩)
    (operand := 2) ?_ ⟨_, rfl, rfl⟩ (by decide +kernel) (by intro v h; cases h; rfl) rfl
  refine .next (a := 0x8000) (p := ⟨false, true, true, true, []⟩)
    (j := ⟨.rep, .none, .imm_b, .lit 0x30 .byte, .null, .default⟩)
    (operand := 0x30) ?_ ⟨_, rfl, rfl⟩ (by decide +kernel) (by intro v h; cases h; rfl) (by simp only [Follows]; decide +kernel)
  exact .start (by simp [Cpu.Ok]) (by simp [KnownFlagsRight])

/-- A listing that the processor does not follow:
`php; rep #$20; phb; plp; lda #...`.  PHB pushes a byte that the analysis does not know of; it takes
the PLP to restore the flags, so it shows `lda #$12`; the processor takes the flags from the pushed
data bank and executes `lda #$6012`. -/
theorem C49_violated : ∃ (src : Source) (d : Disassembler) (far : OMap StatusFlags) (flags : StatusFlags)
    (a : Addr) (p : Cpu) (it : DisItem) (j : Instruction), Constructible flags ∧
    Disassembler.empty.disassemble 20 src 0x8000 flags = (d, .ok far) ∧
    CodeRuns src (listedReturn d.disassembly) 0x8000 flags a p ∧ Lists d.disassembly a it ∧
    Fetches src a p j ∧ ¬ Shows j it.instruction := by
  refine ⟨(Rom.mk .loRom [0x08, 0xc2, 0x20, 0x8b, 0x28, 0xa9, 0x12, 0x60, 0, 0, 0]).read, _, _,
    ⟨.off, .on, .on, .unknown⟩, 0x8005, ⟨false, false, false, false, [0x30]⟩, _,
    ⟨.lda, .none, .imm_w, .lit 0x6012 .word, .null, .default⟩, ⟨.off, .on, .on, .unknown, rfl⟩, rfl, ?_, rfl,
    ⟨_, rfl, rfl⟩, ?_⟩
  · refine .next (a := 0x8004) (p := ⟨false, false, true, false, [0, 0x30]⟩) (operand := 0)
      (j := ⟨.plp, .none, .imp, .null, .null, .default⟩) ?_ ⟨_, rfl, rfl⟩ (by decide +kernel)
      (by intro v h; cases h) ?_
    swap
    · exact ⟨0, [0x30], .inl rfl, by decide +kernel⟩
    refine .next (a := 0x8003) (p := ⟨false, false, true, false, [0x30]⟩) (operand := 0)
      (j := ⟨.phb, .none, .imp, .null, .null, .default⟩) ?_ ⟨_, rfl, rfl⟩ (by decide +kernel)
      (by intro v h; cases h) ⟨[0], rfl, rfl⟩
    refine .next (a := 0x8001) (p := ⟨false, true, true, false, [0x30]⟩) (operand := 0x20)
      (j := ⟨.rep, .none, .imm_b, .lit 0x20 .byte, .null, .default⟩) ?_ ⟨_, rfl, rfl⟩ (by decide +kernel)
      (by intro v h; cases h; rfl) (by simp only [Follows]; decide +kernel)
    refine .next (a := 0x8000) (p := ⟨false, true, true, false, []⟩) (operand := 0)
      (j := ⟨.php, .none, .imp, .null, .null, .default⟩) ?_ ⟨_, rfl, rfl⟩ (by decide +kernel)
      (by intro v h; cases h) ?_
    · exact .start (by simp [Cpu.Ok]) (by simp [KnownFlagsRight])
    · exact ⟨0x30, by decide +kernel, by decide +kernel, by decide +kernel, rfl⟩
  · intro h
    have := h.mode
    revert this
    decide +kernel

/-! ## C50 -/

/-- **A failed call changes nothing** in the result that has been accumulated, nor in the table of
conventions. -/
theorem C50_failure_keeps_result {src : Source} {d d' : Disassembler} {fuel : Nat} {start : Addr}
    {flags : StatusFlags} {e : Err} (h : d.disassemble fuel src start flags = (d', .err e)) :
    d'.disassembly = d.disassembly ∧ d'.conventions = d.conventions := by
  unfold Disassembler.disassemble at h
  simp only at h
  split at h <;> cases h
  exact ⟨rfl, rfl⟩

/-- In the demonstration, disassembling the called routine again with unknown sizes succeeds, the
loop with unknown sizes fails: at $8006 the size of the operand is then unknown. -/
example : ∃ d' e, demoCall.1.disassemble 20 demoRom.read 0x8005 ⟨.off, .unknown, .unknown, .unknown⟩ = (d', .err e) :=
  ⟨_, _, rfl⟩

/-- What a failed call does leave behind: its start address is taken for an entry point by
`NameForAddress` and by `Cleanup`. -/
theorem C50_entry_point_remains : ∃ (src : Source) (d d' : Disassembler) (e : Err),
    Session HasName src d ∧
    d.disassemble 20 src 0x8005 ⟨.off, .unknown, .unknown, .unknown⟩ = (d', .err e) ∧
    d.nameForAddress 0x8005 = none ∧ (d'.nameForAddress 0x8005).isSome := by
  refine ⟨demoRom.read, demoCall.1, _, _, demo_session, rfl, ?_, ?_⟩ <;> decide +kernel

/-! ## C51 -/

/-- **Distinct addresses have distinct labels**, after any history of calls and cleanups. -/
theorem C51_labels_distinct {src : Source} {d : Disassembler} (h : History Constructible src d) {a b : Addr}
    {it jt : DisItem} (ha : Lists d.disassembly a it) (hb : Lists d.disassembly b jt) (hne : it.label ≠ [])
    (he : it.label = jt.label) : a = b :=
  (history_proper (fun _ hf => constructible_normal hf) h).distinct a b it jt ha hb hne he

/-- **Branch operands name the label at the target**, after any history of calls and cleanups: the
operand of a branch is a name in front of an offset, and the entry at the address that the offset
leads to is labelled with that name. -/
theorem C51_branches_labelled {src : Source} {d : Disassembler} (h : History Constructible src d) {a : Addr}
    {it : DisItem} (ha : Lists d.disassembly a it) (hb : MayBranch it.instruction) :
    ∃ name offset v jt, it.instruction.arg1 = .label name offset ∧ offset.eval nullCtx = .ok v ∧
      Lists d.disassembly (Address.addWrapped (following a it.instruction) v) jt ∧
      jt.label = name ∧ name ≠ [] := by
  obtain ⟨name, e, v, jt, h1, -, h3, h4, h5, h6⟩ :=
    (history_proper (fun _ hf => constructible_normal hf) h).branches a it ha ((mayBranch_iff _).2 hb)
  exact ⟨name, e, v, jt, h1, h3, h4, h5, h6⟩

/-- The demonstration has such a branch. -/
example : ∃ it, Lists demoCall.1.disassembly 0x800a it ∧ MayBranch it.instruction ∧
    it.instruction.arg1 = .label (cs!"gensym2") (.lit (-7) .sbyte) := ⟨_, rfl, by decide +kernel, by decide +kernel⟩

end Nsasm.Props
