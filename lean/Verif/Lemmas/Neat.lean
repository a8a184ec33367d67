import Verif.Lemmas.Emission
import Verif.Lemmas.PrintText

/-! # Suffixes and return conventions in a listing, and how its instructions read -/

namespace Nsasm
open Spec Props Disassembler Parse

/-- Suffixes are on instructions whose size varies, return conventions on calls. -/
structure NeatInstr (i : Instruction) : Prop where
  suffix : i.suffix ≠ .none → flagControllingInstructionSize i.mnemonic ≠ .notVariable
  ret : i.ret ≠ .default → i.mnemonic = .jsl ∨ i.mnemonic = .jsr

/-- What is known of the flag that the size of an instruction depends on. -/
def sizeBit (m : Mnemonic) (f : StatusFlags) : BitState :=
  match flagControllingInstructionSize m with
  | .usesM => f.m
  | .usesX => f.x
  | .notVariable => .unknown

/-- The suffix says the size that is known. -/
def SuffixSays (it : DisItem) : Prop :=
  (sizeBit it.instruction.mnemonic it.current.flags = .on → it.instruction.suffix = .b) ∧
  (sizeBit it.instruction.mnemonic it.current.flags = .off → it.instruction.suffix = .w)

/-- Between calls. -/
def Neat (d : Disassembler) : Prop :=
  ∀ a it, d.disassembly.find a = some it → NeatInstr it.instruction ∧ SuffixSays it

theorem addSuffix_eq (it : DisItem) : addSuffix it =
    match sizeBit it.instruction.mnemonic it.current.flags with
    | .on => { it with instruction := { it.instruction with suffix := .b } }
    | .off => { it with instruction := { it.instruction with suffix := .w } }
    | _ => it := by
  rfl

theorem sizeBit_unknown {m : Mnemonic} {f : StatusFlags} (h : flagControllingInstructionSize m = .notVariable) :
    sizeBit m f = .unknown := by unfold sizeBit; rw [h]

theorem addSuffix_neat {it : DisItem} (h : NeatInstr it.instruction) (l : Str) :
    NeatInstr ({ addSuffix it with label := l } : DisItem).instruction ∧ SuffixSays { addSuffix it with label := l } := by
  rw [addSuffix_eq]
  unfold SuffixSays
  cases hb : sizeBit it.instruction.mnemonic it.current.flags with
  | on =>
    refine ⟨⟨fun _ hn => ?_, h.ret⟩, ?_, ?_⟩
    · rw [sizeBit_unknown hn] at hb; cases hb
    · intro _; rfl
    · intro h'; simp only [hb] at h'; cases h'
  | off =>
    refine ⟨⟨fun _ hn => ?_, h.ret⟩, ?_, ?_⟩
    · rw [sizeBit_unknown hn] at hb; cases hb
    · intro h'; simp only [hb] at h'; cases h'
    · intro _; rfl
  | original =>
    refine ⟨h, ?_, ?_⟩
    · intro h'; simp only [hb] at h'; cases h'
    · intro h'; simp only [hb] at h'; cases h'
  | unknown =>
    refine ⟨h, ?_, ?_⟩
    · intro h'; simp only [hb] at h'; cases h'
    · intro h'; simp only [hb] at h'; cases h'

theorem decoded_suffix {bytes : List UInt8} {f : StatusFlags} {j : Instruction} (h : decode bytes f = .ok j) :
    j.suffix = .none ∧ j.ret = .default := by
  rw [decode_ok_iff] at h
  obtain ⟨op, l, a, a1, a2, -, -, -, -, -, rfl⟩ := h
  exact ⟨rfl, rfl⟩

theorem first_neat {d : Disassembler} {w w' : Work} {pc : Nat} {s : ExecutionState} {bytes : List UInt8}
    {i0 : Instruction} {nx0 : ExecutionState} {it : DisItem} (decoded : decode bytes s.flags = .ok i0)
    (h : FirstVisit d w pc s i0 nx0 w' it) : NeatInstr it.instruction := by
  obtain ⟨h1, h2⟩ := decoded_suffix decoded
  cases h with
  | branch isBranch value target named taken =>
    subst named
    exact ⟨fun h => absurd h1 h, fun h => absurd h2 h⟩
  | plain noBranch noTarget => exact ⟨fun h => absurd h1 h, fun h => absurd h2 h⟩
  | far noBranch target convention looked =>
    rcases convention with rfl | ⟨hm, r, -, rfl⟩
    · exact ⟨fun h => absurd h1 h, fun h => absurd h2 h⟩
    · exact ⟨fun h => absurd h1 h, fun _ => hm.symm⟩

/-- In the loop. -/
def NeatWork (d : Disassembler) (w : Work) : Prop := ∀ a it, look d w.fresh a = some it → NeatInstr it.instruction

theorem neat_step {src : Source} {d : Disassembler} {w w' : Work} (ht : Tidy d w) (hn : NeatWork d w)
    (h : step src d w = .ok (some w')) : NeatWork d w' := by
  obtain ⟨pc, s, rest, it, outs, hst, hr, he⟩ := step_round ht.fresh h
  intro a jt hl
  rw [he.look] at hl
  by_cases ha : pc = a
  · rw [if_pos ha] at hl
    cases hl
    cases hr with
    | skip seen => exact hn pc _ seen
    | first unseen read decoded executed visit => exact first_neat decoded visit
    | @again di _ _ _ _ seen => exact hn pc di seen
  · rw [if_neg ha] at hl
    exact hn a jt hl

theorem disassemble_neat {src : Source} {d d' : Disassembler} (h : Closed src d) (hn : Neat d) {fuel start : Nat}
    (hs : start ≤ 0x1000000) {flags : StatusFlags} (hf : Normal flags) {r : Res (OMap StatusFlags)}
    (hr : d.disassemble fuel src start flags = (d', r)) : Neat d' := by
  unfold disassemble at hr
  simp only at hr
  split at hr
  · rename_i w hrun
    cases hr
    obtain ⟨l1, l2, l3, l4⟩ := loop_flow h hs hf hrun
    obtain ⟨h1, h2, -⟩ := begin_shape d start flags
    have hw : NeatWork d w := by
      have hb := begin_flow h hs hf
      obtain ⟨⟨-, i3⟩, -⟩ := run_invariant (src := src) (d := d) (I := fun w => Flow src d w ∧ NeatWork d w)
        (fun w w' hw h => ⟨flow_step hw.1 h, neat_step hw.1.tidy hw.2 h⟩) fuel (begin d start flags) w _
        ⟨hb.1, fun a it hl => by
          unfold look at hl
          rw [h1] at hl
          exact (hn a it (by simpa [OMap.find] using hl)).1⟩ hrun
      exact i3
    obtain ⟨f1, -⟩ := finish_look h.proper.sorted l1.tidy l2 (l4 rfl)
    intro a jt ha
    obtain ⟨it, g1, ⟨s, l, g2, -⟩, -⟩ := f1 a jt ha
    by_cases hfr : (w.fresh.find a).isSome
    · rw [if_pos hfr] at g2
      rw [g2]
      exact addSuffix_neat (hw a it g1) l
    · rw [if_neg hfr] at g2
      rw [g2]
      have : d.disassembly.find a = some it := by
        unfold look at g1
        cases hx : w.fresh.find a with
        | some x => rw [hx] at hfr; simp at hfr
        | none => rw [hx] at g1; exact g1
      exact hn a it this
  · cases hr; exact hn
  · cases hr; exact hn

theorem session_neat {src : Source} {d : Disassembler} (h : Session FlagsWritten src d) : Neat d := by
  induction h with
  | new => intro a it ha; simp [Disassembler.empty, OMap.find] at ha
  | table before sorted ok ih => exact ih
  | call before address ok result ended ih =>
    exact disassemble_neat (session_closed before) ih address (constructible_normal ok) result

/-! ## The instructions of a listing -/

/-- The instructions that a listing can hold after Cleanup. -/
inductive Listed : Instruction → Prop
  | plain {bytes : List UInt8} {f : StatusFlags} {j i : Instruction} (decoded : decode bytes f = .ok j)
      (absolute : j.mode ≠ .rel8 ∧ j.mode ≠ .rel16)
      (mnemonic : i.mnemonic = j.mnemonic ∨ (j.mnemonic = .adc ∧ i.mnemonic = .padd) ∨ (j.mnemonic = .sbc ∧ i.mnemonic = .psub))
      (mode : i.mode = j.mode) (arg1 : i.arg1 = j.arg1) (arg2 : i.arg2 = j.arg2) (neat : NeatInstr i)
      (written : ∀ f, i.ret = .yields f → FlagsWritten f) : Listed i
  | branch {i : Instruction} {name : Str} {e : Expr} (kind : i.mnemonic ∈ branchMnemonics)
      (mode : i.mode = if i.mnemonic = .brl then .rel16 else .rel8) (arg1 : i.arg1 = .label name e) (arg2 : i.arg2 = .null)
      (new : NewName 0 0 name) (neat : NeatInstr i) : Listed i
  | far {i : Instruction} {name : Str} {ty : NumericType}
      (kind : (i.mode = .dir_l ∧ ty = .long ∧ (i.mnemonic = .jmp ∨ i.mnemonic = .jsl)) ∨
        (i.mode = .dir_w ∧ ty = .word ∧ (i.mnemonic = .jmp ∨ i.mnemonic = .jsr)))
      (arg1 : i.arg1 = .ident ⟨none, name⟩ ty) (arg2 : i.arg2 = .null)
      (new : NewName 0 0 name) (neat : NeatInstr i) (written : ∀ f, i.ret = .yields f → FlagsWritten f) : Listed i

theorem retWritten {r : ReturnConvention} (h : ∀ f, r = .yields f → FlagsWritten f) : RetWritten r := by
  intro f hf
  obtain ⟨s, hs⟩ := h f hf
  rw [C17_accepted_iff] at hs
  have : ∀ x ∈ documented, StatusFlags.fromName x.2.toName = some x.2 ∧ x.2.toStr = x.2.toName := by decide +kernel
  exact this _ hs

theorem isName_new {l : Str} (h : NewName 0 0 l) : IsName l := by
  rcases h with ⟨n, -, rfl⟩ | ⟨n, -, rfl⟩
  · exact isName_numbered (.inl rfl) n
  · exact isName_numbered (.inr rfl) n

theorem lex_whole {w : Str} (h : IsName w) : Lex w [.ident w] := by
  have := lex_name (s := []) h (by simp) lex_nil
  simpa using this

theorem argTokens_head (mode : Mode) (a b : Token) (ha : ∀ s, a ≠ .suffix s) (s : Suffix) :
    (argTokens mode a b).head? ≠ some (.suffix s) := by
  cases mode <;> simp [argTokens, ha]

theorem listed_reads {i : Instruction} (h : Listed i) : ∃ i0, TextReads i i0 := by
  cases h with
  | @plain bytes f j _ decoded absolute mnemonic mode arg1 arg2 neat written =>
    obtain ⟨am, v1, v2, hr⟩ := decoded_reads decoded absolute mnemonic
    have hw : writtenOperand i.arg1 = i.arg1 := by rw [arg1]; exact (decode_eval decoded nullCtx nullCtx).2.2
    have has : asWritten i = i := by unfold asWritten; rw [hw]
    refine ⟨_, text_reads (ats := argTokens i.mode (.lit v1 (decodedType j.mode)) (.lit v2 .byte)) (am := am)
      (retWritten written) neat.ret ?_ ?_ ?_ ?_ ?_⟩
    · rw [arg1, arg2, mode]; exact lex_args hr.print1 hr.print2
    · rw [arg1, arg2, mode]; exact hr.clean
    · exact argTokens_head _ _ _ (by simp)
    · intro u us hu
      rw [hw, arg1, arg2, mode]
      exact operand_listed hu _ _ hr.arg1 hr.arg2 neat.suffix hr.deduced
    · intro f hf
      rw [has]
      rw [mode] at hf
      have := hr.fixed f i.suffix i.arg1 i.arg2 i.ret hf
      rw [← mode] at this
      exact this
  | @branch _ name e kind mode arg1 arg2 new neat =>
    have hn := isName_new new
    have hret : i.ret = .default := by
      by_contra hc
      rcases neat.ret hc with h | h <;> rw [h] at kind <;> exact absurd kind (by decide)
    have hsuf : i.suffix = .none := by
      by_contra hc
      have := neat.suffix hc
      have hall : ∀ m ∈ branchMnemonics, flagControllingInstructionSize m = .notVariable := by decide
      exact this (hall _ kind)
    have hargs : argsToStr i.mode i.arg1 i.arg2 = ' ' :: name := by
      rw [arg1, mode]; split <;> rfl
    have hm : i.mode ≠ .imm_fm ∧ i.mode ≠ .imm_fx := by rw [mode]; split <;> decide
    refine ⟨_, text_reads (ats := nameTokens .word name) (am := i.mode) (by rw [hret]; intro f hf; cases hf) neat.ret
      ?_ ?_ ?_ ?_ ?_⟩
    · rw [hargs]; exact lex_space (lex_whole hn)
    · rw [hargs]; simpa using hn.clean
    · intro s; simp [nameTokens]
    · intro u us hu
      rw [hsuf, arg1, arg2]
      refine operand_name (.inr rfl) hu ?_
      have hall : ∀ m ∈ branchMnemonics, isRelativeMnemonic m = true ∧ m ≠ .per := by decide
      obtain ⟨h1, h2⟩ := hall _ kind
      unfold deduceMode
      rw [if_pos h1, if_neg (by simp [Expr.simpleIdentifier]), mode]
      simp only [h2, or_false]
      split <;> rfl
    · intro f _
      unfold Instruction.fixAddressingMode
      simp only [hm, or_self, if_false]
      rfl
  | @far _ name ty kind arg1 arg2 new neat written =>
    have hn := isName_new new
    have hty : ty = .long ∨ ty = .word := by
      rcases kind with ⟨-, h, -⟩ | ⟨-, h, -⟩
      · exact .inl h
      · exact .inr h
    have hsuf : i.suffix = .none := by
      by_contra hc
      have := neat.suffix hc
      rcases kind with ⟨-, -, h | h⟩ | ⟨-, -, h | h⟩ <;> rw [h] at this <;> exact this (by decide)
    have hargs : argsToStr i.mode i.arg1 i.arg2 = ' ' :: ((if ty = .long then ['@'] else []) ++ name) := by
      rw [arg1]
      rcases kind with ⟨h, -, -⟩ | ⟨h, -, -⟩ <;> rw [h] <;> rfl
    have hm : i.mode ≠ .imm_fm ∧ i.mode ≠ .imm_fx := by
      rcases kind with ⟨h, -, -⟩ | ⟨h, -, -⟩ <;> rw [h] <;> decide
    refine ⟨_, text_reads (ats := nameTokens ty name) (am := i.mode) (retWritten written) neat.ret ?_ ?_ ?_ ?_ ?_⟩
    · rw [hargs]
      refine lex_space ?_
      unfold nameTokens
      split
      · exact lex_at (lex_whole hn)
      · exact lex_whole hn
    · rw [hargs]
      have := hn.clean
      split <;> simpa using this
    · intro s; unfold nameTokens; split <;> simp
    · intro u us hu
      rw [hsuf, arg1, arg2]
      refine operand_name hty hu ?_
      rcases kind with ⟨h, rfl, h' | h'⟩ | ⟨h, rfl, h' | h'⟩ <;> rw [h, h'] <;> rfl
    · intro f _
      have has : asWritten i = i := by unfold asWritten; rw [arg1]; simp only [writtenOperand]; rw [← arg1]
      rw [has]
      unfold Instruction.fixAddressingMode
      simp only [hm, or_self, if_false]

end Nsasm
