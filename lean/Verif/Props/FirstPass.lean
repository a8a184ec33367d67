import Verif.Lemmas.FirstPass
import Verif.Props.Sizes
import Verif.Props.Instruction

/-! # C39, C42: what the first pass establishes -/

namespace Nsasm.Props
open Nsasm Nsasm.Spec

theorem legal_fixed : ∀ (m : Mnemonic), isLegalCombination m .imm_fm = true ∨
    isLegalCombination m .imm_fx = true → isLegalCombination m .imm_b = true ∧
      isLegalCombination m .imm_w = true := by decide +kernel

theorem legal_sbc : ∀ a : Mode, isLegalCombination .adc a = true → isLegalCombination .sbc a = true := by
  decide +kernel

/-- An instruction accepted in a state and then given its final addressing mode there has an
opcode. -/
theorem fixed_encodable {i j : Instruction} {es es' : ExecutionState} {ctx : Ctx}
    (h : i.execute es ctx = .ok es') (hj : i.fixAddressingMode es.flags = .ok j) :
    ∃ op, StandsFor op (realMnemonic j.mnemonic) j.mode := by
  have hc : i.checkConsistency es.flags = .ok () := by
    unfold Instruction.execute at h
    rw [Res.bind_eq_ok] at h
    obtain ⟨u, hu, -⟩ := h
    exact hu
  have hl : isLegalCombination
      (if i.mnemonic = .padd ∨ i.mnemonic = .psub then Mnemonic.adc else i.mnemonic) i.mode = true := by
    unfold Instruction.checkConsistency at hc
    by_contra hl
    rw [if_pos (by simpa using hl)] at hc
    cases hc
  have hj' : isLegalCombination
      (if i.mnemonic = .padd ∨ i.mnemonic = .psub then Mnemonic.adc else i.mnemonic) j.mode = true ∧
      j.mnemonic = i.mnemonic := by
    unfold Instruction.fixAddressingMode at hj
    split at hj
    · next hm =>
      have hb := legal_fixed _ (hm.imp (fun e => e ▸ hl) (fun e => e ▸ hl))
      split at hj
      · cases hj; exact ⟨hb.1, rfl⟩
      · cases hj; exact ⟨hb.2, rfl⟩
      · cases hj
    · cases hj; exact ⟨hl, rfl⟩
  have hk : isLegalCombination (realMnemonic j.mnemonic) j.mode = true := by
    rw [hj'.2]
    have := hj'.1
    by_cases h1 : i.mnemonic = .padd
    · rw [h1] at this ⊢; exact this
    by_cases h2 : i.mnemonic = .psub
    · rw [h2] at this ⊢; exact legal_sbc _ this
    rw [if_neg (by simp [h1, h2])] at this
    have : realMnemonic i.mnemonic = i.mnemonic := by
      revert h1 h2; cases i.mnemonic <;> simp [realMnemonic]
    rw [this]; assumption
  obtain ⟨op, ho⟩ := Option.isSome_iff_exists.mp hk
  exact ⟨op, (C04_encode_iff _ _ _).mp ho⟩

/-- **Every instruction of a successful module has been analysed.**  If the first pass
succeeds on a loaded file, then every instruction of the result stands where the file has an
instruction `i`, is reachable from a declared entry point, was accepted by the abstract
machine in the state recorded for its line, and is `i` with its operand size fixed by the
flags recorded there, if `i` left it open: the size agrees with the flags and the instruction
has an opcode. -/
theorem C42_every_instruction_analysed {file : List Str} {fuel : Nat} {m m' : Module}
    (hm : Module.loadAsmFile file = .ok m) (h : m.runFirstPass fuel = .ok m')
    {k : Nat} {l : Line} {j : Instruction} (hl : m'.lines[k]? = some l)
    (hj : l.statement = .instr j) :
    Reachable m k ∧
    ∃ l₀ i, m.lines[k]? = some l₀ ∧ l₀.statement = .instr i ∧
      (∃ next, i.execute l.incoming nullCtx = .ok next) ∧
      j = { i with mode := j.mode } ∧ (i.mode ≠ .imm_fm → i.mode ≠ .imm_fx → j = i) ∧
      (i.mode = .imm_fm ∨ i.mode = .imm_fx → j.mode = .imm_b ∨ j.mode = .imm_w) ∧
      SizeAgrees j.mnemonic j.mode l.incoming.flags ∧ j.mode ≠ .imm_fm ∧ j.mode ≠ .imm_fx ∧
      ∃ op, StandsFor op (realMnemonic j.mnemonic) j.mode := by
  obtain ⟨items, -, hI, -, -⟩ := loadAsmFile_ok hm
  obtain ⟨p, l1, l2, he, hfix, hlay, rfl⟩ := firstPass_parts h
  obtain ⟨hA, -⟩ := explore_induct (fun p p' => analysed_step) fuel _ p
    (analysed_init fun k l hl => (hI.line k l hl).2.2.1) he
  obtain ⟨b, hb, hlr⟩ := forall2_getElem? (layout_rel hlay) hl
  obtain ⟨c, hc, hfr⟩ := forall2_getElem? (fixLines_rel hfix) hb
  have hbs : b.statement = .instr j := by rw [← hj, hlr]
  have hbi : b.incoming = l.incoming := by rw [hlr]
  unfold FixRel at hfr
  cases hcs : c.statement with
  | dir d =>
    rw [hcs] at hfr
    simp only at hfr
    rw [hfr, hcs] at hbs
    cases hbs
  | instr i =>
    rw [hcs] at hfr
    obtain ⟨hr, j', hj', hb'⟩ := hfr
    have hjj : j' = j := by rw [hb'] at hbs; simpa using hbs
    subst hjj
    have hinc : c.incoming = l.incoming := by rw [← hbi, hb']
    rw [hinc] at hj'
    obtain ⟨hR, next, hn⟩ := hA.reached k c hc hr
    rw [hinc, hcs] at hn
    obtain ⟨l₀, h0, hst, -⟩ := flow_original hA.same hc
    have hn' : i.execute l.incoming nullCtx = .ok next := hn
    have hs := C22_accepted_size_agrees i j' l.incoming next nullCtx hn' hj'
    refine ⟨hR, l₀, i, h0, by rw [← hst, hcs], ⟨next, hn'⟩, ?_, ?_, ?_, hs.1, hs.2.1, hs.2.2,
      fixed_encodable hn' hj'⟩
    · unfold Instruction.fixAddressingMode at hj'
      split at hj'
      · split at hj' <;> cases hj' <;> rfl
      · cases hj'; rfl
    · intro h1 h2
      unfold Instruction.fixAddressingMode at hj'
      rw [if_neg (by simp [h1, h2])] at hj'
      cases hj'; rfl
    · intro hm
      unfold Instruction.fixAddressingMode at hj'
      rw [if_pos hm] at hj'
      split at hj' <;> cases hj'
      · exact .inl rfl
      · exact .inr rfl

/-- A module with a loop meets the hypotheses, and its immediates have got their sizes. -/
example : ∃ m m', Module.loadAsmFile
      [cs!" .org $8000", cs!" .entry m8x16", cs!"again: lda #$12", cs!" ldx #$1234", cs!" dex",
       cs!" bne again", cs!" rts"] = .ok m ∧
    m.runFirstPass 30 = .ok m' ∧
    m'.lines.map (fun l => match l.statement with | .instr i => some i.mode | .dir _ => none) =
      [none, none, some .imm_b, some .imm_w, some .imp, some .rel8, some .imp] := by
  refine ⟨_, _, rfl, rfl, ?_⟩
  decide +kernel

/-! ## Layout -/

/-- **Statements are laid out contiguously.**  After the first pass the value of every line
that is not an `.equ` is the last origin set at or before it (a 24-bit address) plus the sizes
of the statements since then, wrapping in the bank.  A line with no origin before it has no
bytes and no value, and the pass gives no value to an `.equ` line.  (An `.org` with a value
that is no 24-bit address is `Res.ub`, a failed assertion, except for `$1000000`.) -/
theorem C39_layout {file : List Str} {fuel : Nat} {m m' : Module}
    (hm : Module.loadAsmFile file = .ok m) (h : m.runFirstPass fuel = .ok m')
    {i : Nat} {l : Line} (hl : m'.lines[i]? = some l) :
    (∀ o v, LastOrigin m'.lines i o v → v < 0x1000000 → ¬ IsEqu l →
      l.value = some (place v (bytesBetween m'.lines o i))) ∧
    ((∀ (k : Nat) (q : Line), k ≤ i → m'.lines[k]? = some q → ¬ IsOrg q) →
      l.statement.serializedSize = 0 ∧ l.value = none) ∧
    (IsEqu l → l.value = none) := by
  obtain ⟨items, -, hI, -, -⟩ := loadAsmFile_ok hm
  obtain ⟨p, l1, l2, he, hfix, hlay, rfl⟩ := firstPass_parts h
  obtain ⟨hA, -⟩ := explore_induct (fun p p' => analysed_step) fuel _ p
    (analysed_init fun k l hl => (hI.line k l hl).2.2.1) he
  have hnone : ∀ (k : Nat) (q : Line), l1[k]? = some q → q.value = none := by
    intro k q hq
    obtain ⟨c, hc, hfr⟩ := forall2_getElem? (fixLines_rel hfix) hq
    obtain ⟨c', hc', hb⟩ := getElem?_bare hA.same hc
    have hv : c.value = none := by
      rw [(bare_fields hb).2.2.1]; exact (hI.line k c' hc').2.2.2
    unfold FixRel at hfr
    split at hfr
    · rw [hfr]; exact hv
    · obtain ⟨-, j, -, hj⟩ := hfr
      rw [hj]; exact hv
  obtain ⟨h1, h2⟩ := layout_place hlay i l hl
  refine ⟨?_, ?_, ?_⟩
  · intro o v ho hv hq
    refine h1 o v ho hv ?_
    rw [← Bool.not_eq_true, isDir_iff]
    exact hq
  · intro hno
    obtain ⟨-, h3⟩ := h2 hno
    exact ⟨(h3 rfl).1, hnone i l (h3 rfl).2⟩
  · intro hq
    obtain ⟨b, hb, -⟩ := forall2_getElem? (layout_rel hlay) hl
    have : l = b := layout_equ hlay hb hl ((isDir_iff _ _).mpr hq)
    rw [this]
    exact hnone i b hb

/-- Two origins; code runs up to the end of its bank and wraps to its start. -/
example : ∃ m m', Module.loadAsmFile
      [cs!"five: .equ 5", cs!" .org $8000", cs!" .entry m8x8", cs!"one: lda #$12", cs!"two: jmp one",
       cs!" .org $01fffe", cs!" .entry m16x8", cs!" lda #$1234", cs!"wrapped: rts"] = .ok m ∧
    m.runFirstPass 30 = .ok m' ∧ m'.lines.map (·.value) =
      [none, some 0x8000, some 0x8000, some 0x8000, some 0x8002, some 0x1fffe, some 0x1fffe,
       some 0x1fffe, some 0x10001] := by
  refine ⟨_, _, rfl, rfl, ?_⟩
  decide +kernel

end Nsasm.Props
