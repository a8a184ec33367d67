import Verif.Lemmas.Fitted

/-! # A cleaned-up listing can be assembled -/

namespace Nsasm
open Spec Props Disassembler Parse

/-- A disassembly whose listing can be assembled. -/
structure Fitting (src : Source) (d d' : Disassembler) : Prop where
  closed : Closed src d
  reached : Reached d
  neat : Neat d
  clean : d.cleanup = .ok d'
  straight : Straight d.disassembly
  noPer : ∀ a it, d.disassembly.find a = some it → it.instruction.mnemonic ≠ .per
  sizes : ∀ a it, d.disassembly.find a = some it → SizesKnown it.instruction it.current.flags
  entry : ∀ a it f, d'.disassembly.find a = some it → it.isEntry = true →
    StatusFlags.fromName it.current.flags.toName = some f → StateAbove it.current (.init f)

theorem length_pos (m : Mode) (h : m ≠ .imm_fm) (h' : m ≠ .imm_fx) : 1 ≤ instructionLength m := by
  cases m <;> first | exact absurd rfl h | exact absurd rfl h' | decide

theorem Carries.first {x y z : Mnemonic} (h : Carries x y z) : x = .clc ∨ x = .sec := by
  rcases h with ⟨h, -, -⟩ | ⟨h, -, -⟩ <;> simp [h]

theorem Carries.second {x y z : Mnemonic} (h : Carries x y z) : y = .adc ∨ y = .sbc := by
  rcases h with ⟨-, h, -⟩ | ⟨-, h, -⟩ <;> simp [h]

theorem Carries.third {x y z : Mnemonic} (h : Carries x y z) : z = .padd ∨ z = .psub := by
  rcases h with ⟨-, -, h⟩ | ⟨-, -, h⟩ <;> simp [h]

section
variable {src : Source} {d d' : Disassembler}

theorem Fitting.plainRet (h : Fitting src d d') {a : Nat} {it : DisItem} (ha : d.disassembly.find a = some it)
    (hm : it.instruction.mnemonic ≠ .jsl) (hm' : it.instruction.mnemonic ≠ .jsr) : it.instruction.ret = .default := by
  by_contra hn
  rcases (h.neat a it ha).1.ret hn with e | e
  · exact hm e
  · exact hm' e

theorem Fitting.goesOn (h : Fitting src d d') {a : Nat} {it : DisItem} (ha : d.disassembly.find a = some it)
    (hm : it.instruction.mnemonic ∈ [Mnemonic.clc, .sec, .adc, .sbc]) : it.instruction.isExitInstruction = false := by
  have hr : it.instruction.ret = .default := h.plainRet ha (by rintro e; rw [e] at hm; revert hm; decide)
    (by rintro e; rw [e] at hm; revert hm; decide)
  unfold Instruction.isExitInstruction
  rw [hr]
  simp only [List.mem_cons, List.not_mem_nil, or_false] at hm
  rcases hm with e | e | e | e <;> rw [e] <;> decide

theorem Fitting.mode (h : Fitting src d d') {a : Nat} {it : DisItem} (ha : d.disassembly.find a = some it) :
    it.instruction.mode ≠ .imm_fm ∧ it.instruction.mode ≠ .imm_fx := by
  obtain ⟨bytes, j, -, hdec, hsh⟩ := (h.closed.items a it ha).bytes
  rw [decode_ok_iff] at hdec
  obtain ⟨op, l, m, a1, a2, -, h1, h2, -, -, rfl⟩ := hdec
  rw [hsh.mode]
  exact ⟨h1, h2⟩

theorem Fitting.pos (h : Fitting src d d') {a : Nat} {it : DisItem} (ha : d.disassembly.find a = some it) :
    1 ≤ instructionLength it.instruction.mode := length_pos _ (h.mode ha).1 (h.mode ha).2

theorem Fitting.noWrap (h : Fitting src d d') : ∀ a it, d.disassembly.find a = some it →
    it.instruction.mnemonic = .clc ∨ it.instruction.mnemonic = .sec → NoWrap a := by
  intro a it ha hm
  have := h.straight.room a it ha (h.goesOn ha (by rcases hm with e | e <;> simp [e]))
  have := h.pos ha
  exact ⟨h.straight.low a it ha, by omega⟩

theorem Fitting.origin (h : Fitting src d d') {a : Nat} {jt : DisItem} (ha : d'.disassembly.find a = some jt) :
    Origin d d' a jt := (cleaned h.closed h.clean h.noWrap).1 a jt ha

theorem Fitting.kept (h : Fitting src d d') {a : Nat} {it : DisItem} (ha : d.disassembly.find a = some it) :
    Kept d d' a it := (cleaned h.closed h.clean h.noWrap).2 a it ha

theorem Fitting.real (h : Fitting src d d') {a : Nat} {it : DisItem} (ha : d.disassembly.find a = some it) :
    it.instruction.mnemonic ≠ .padd ∧ it.instruction.mnemonic ≠ .psub := by
  obtain ⟨bytes, j, -, hdec, hsh⟩ := (h.closed.items a it ha).bytes
  rw [hsh.mnemonic]
  exact decode_real hdec

theorem Fitting.listed (h : Fitting src d d') {a : Nat} {jt : DisItem} (ha : d'.disassembly.find a = some jt) :
    ∃ it, d.disassembly.find a = some it ∧ jt.current = it.current := by
  cases h.origin ha with
  | plain lists current => exact ⟨_, lists, current⟩
  | pair lists second room current => exact ⟨_, lists, current⟩

/-- The one before an entry that was folded away. -/
theorem Fitting.not_first (h : Fitting src d d') {a b : Nat} {it ft : DisItem}
    (ha : d.disassembly.find a = some it) (hb : d.disassembly.find b = some ft)
    (hf : ft.instruction.mnemonic = .clc ∨ ft.instruction.mnemonic = .sec)
    (he : a + instructionLength it.instruction.mode = b + 1) : a = b := by
  have hi : ft.instruction.mode = .imp := (h.closed.proper.carry b ft hb hf).1
  have hp := h.pos ha
  rcases Nat.lt_trichotomy a b with hlt | heq | hlt
  · have := h.straight.apart a b it ft ha hb hlt; omega
  · exact heq
  · have := h.straight.apart b a ft it hb ha hlt
    rw [hi] at this
    have e : instructionLength .imp = 1 := rfl
    omega

theorem plain_not_pair {it jt : DisItem} {x y z : Mnemonic}
    (same : jt.instruction = { it.instruction with arg1 := jt.instruction.arg1 }) (hz : jt.instruction.mnemonic = z)
    (hk : Carries it.instruction.mnemonic y z) : False := by
  have : jt.instruction.mnemonic = it.instruction.mnemonic := by rw [same]
  rw [hz] at this
  rcases hk with ⟨h1, -, h3⟩ | ⟨h1, -, h3⟩ <;> rw [h1, h3] at this <;> cases this

/-- What comes after an entry that is kept. -/
theorem Fitting.after_plain (h : Fitting src d d') {a : Nat} {it jt : DisItem} (ha : d.disassembly.find a = some it)
    (hj : d'.disassembly.find a = some jt) (same : jt.instruction = { it.instruction with arg1 := jt.instruction.arg1 })
    (hx : it.instruction.isExitInstruction = false) :
    ∃ nt, d'.disassembly.find (a + instructionLength it.instruction.mode) = some nt ∧ Above nt.current it.next ∧
      NormalState nt.current := by
  obtain ⟨kt, hk, hab⟩ := h.closed.next a it ha hx
  have hnk := (closed_normal h.closed hk).1
  rw [nextAddr_room h.straight ha hx] at hk
  cases h.kept hk with
  | here lists current => exact ⟨_, lists, by rw [current]; exact hab, by rw [current]; exact hnk⟩
  | folded blank at_ first lists kinds same' gone =>
    obtain rfl := h.not_first ha first kinds.first at_
    rw [ha] at first; cases first
    rw [hj] at lists; cases lists
    exact (plain_not_pair (x := .clc) same (by rw [same']) kinds).elim

/-- What comes after a folded pair. -/
theorem Fitting.after_pair (h : Fitting src d d') {a : Nat} {st : DisItem} (ha : d.disassembly.find (a + 1) = some st)
    (hm : st.instruction.mnemonic = .adc ∨ st.instruction.mnemonic = .sbc) :
    ∃ nt, d'.disassembly.find (a + 1 + instructionLength st.instruction.mode) = some nt ∧ Above nt.current st.next ∧
      NormalState nt.current := by
  have hx := h.goesOn ha (by rcases hm with e | e <;> simp [e])
  obtain ⟨kt, hk, hab⟩ := h.closed.next _ st ha hx
  have hnk := (closed_normal h.closed hk).1
  rw [nextAddr_room h.straight ha hx] at hk
  cases h.kept hk with
  | here lists current => exact ⟨_, lists, by rw [current]; exact hab, by rw [current]; exact hnk⟩
  | folded blank at_ first lists kinds same' gone =>
    obtain rfl := h.not_first ha first kinds.first at_
    rw [ha] at first; cases first
    have := kinds.first
    rcases hm with e | e <;> rw [e] at this <;> simp at this

/-- How much room an entry takes. -/
structure Span (d' : Disassembler) (a : Nat) (jt : DisItem) : Prop where
  bank : a % 0x10000 + jt.instruction.serializedSize ≤ 0x10000
  room : jt.instruction.isExitInstruction = false → a % 0x10000 + jt.instruction.serializedSize < 0x10000
  apart : ∀ b kt, d'.disassembly.find b = some kt → a < b → a + jt.instruction.serializedSize ≤ b

theorem pair_size {st jt : DisItem} {mn : Mnemonic} (same : jt.instruction = { st.instruction with mnemonic := mn })
    (hm : mn = .padd ∨ mn = .psub) : jt.instruction.serializedSize = 1 + instructionLength st.instruction.mode := by
  unfold Instruction.serializedSize
  rw [same]
  simp only
  rw [if_pos hm, Nat.add_comm]

theorem Fitting.plain_size (h : Fitting src d d') {a : Nat} {it jt : DisItem} (ha : d.disassembly.find a = some it)
    (same : jt.instruction = { it.instruction with arg1 := jt.instruction.arg1 }) :
    jt.instruction.serializedSize = instructionLength it.instruction.mode := by
  unfold Instruction.serializedSize
  rw [same]
  simp only
  rw [if_neg (by have := h.real ha; tauto), Nat.add_zero]

theorem Fitting.span (h : Fitting src d d') {a : Nat} {jt : DisItem} (ha : d'.disassembly.find a = some jt) :
    Span d' a jt := by
  cases h.origin ha with
  | plain lists current same arg branch =>
    have hs := h.plain_size lists same
    refine ⟨by rw [hs]; exact h.straight.bank a _ lists, fun hx => ?_, fun b kt hb hlt => ?_⟩
    · rw [hs]
      refine h.straight.room a _ lists ?_
      rw [same] at hx; exact hx
    · obtain ⟨kt', hk, -⟩ := h.listed hb
      rw [hs]
      exact h.straight.apart a b _ kt' lists hk hlt
  | @pair it st mn lists second room current kinds imp same gone =>
    have hs := pair_size same kinds.third
    have hx := h.goesOn second (by rcases kinds.second with e | e <;> simp [e])
    have hr := h.straight.room _ st second hx
    have hn : (a + 1) % 0x10000 = a % 0x10000 + 1 := by obtain ⟨-, h2⟩ := room; omega
    rw [hn] at hr
    refine ⟨by rw [hs]; omega, fun _ => by rw [hs]; omega, fun b kt hb hlt => ?_⟩
    obtain ⟨kt', hk, -⟩ := h.listed hb
    have hne : b ≠ a + 1 := by rintro rfl; rw [gone] at hb; cases hb
    have := h.straight.apart (a + 1) b st kt' second hk (by omega)
    rw [hs]; omega

/-! ## Reaching everything -/

theorem Fitting.low' (h : Fitting src d d') {a : Nat} {jt : DisItem} (ha : d'.disassembly.find a = some jt) :
    a < 0x1000000 := by
  obtain ⟨it, hi, -⟩ := h.listed ha
  exact h.straight.low a it hi

theorem Fitting.step_to (h : Fitting src d d') {a : Nat} {jt : DisItem} (ha : d'.disassembly.find a = some jt)
    (hx : jt.instruction.isExitInstruction = false) :
    Address.addWrapped a jt.instruction.serializedSize = a + jt.instruction.serializedSize :=
  addWrapped_room (h.low' ha) ((h.span ha).room hx)

theorem Fitting.reach (h : Fitting src d d') {a : Nat}
    (hl : Led (Starts d) (fun a => d.disassembly.find a) a) : ∀ b,
      (b = a ∧ (d'.disassembly.find a).isSome) ∨ (d'.disassembly.find a = none ∧ a = b + 1) →
      ListReach d'.disassembly b := by
  induction hl with
  | @start a hs =>
    obtain ⟨hen, it, hit, hlab⟩ := hs
    cases h.kept hit with
    | @here jt lists current named =>
      rintro b (⟨rfl, -⟩ | ⟨hn, -⟩)
      · exact .entry (OMap.mem_of_find lists) (by rw [(named hlab).2, hen])
      · rw [lists] at hn; cases hn
    | folded blank => exact absurd blank hlab
  | @next a it before lists goesOn ih =>
    have hnx := nextAddr_room h.straight lists goesOn
    rw [hnx]
    cases h.kept lists with
    | @here jt lists' current named =>
      have hra : ListReach d'.disassembly a := ih a (.inl ⟨rfl, by rw [lists']; rfl⟩)
      cases h.origin lists' with
      | @plain it' li cu same arg branch =>
        rw [lists] at li; cases li
        obtain ⟨nt, hnt, -, -⟩ := h.after_plain lists lists' same goesOn
        have hx : jt.instruction.isExitInstruction = false := by rw [same]; exact goesOn
        have := ListReach.next hra (OMap.mem_of_find lists') hx
        rw [h.step_to lists' hx, h.plain_size lists same] at this
        rintro b (⟨rfl, -⟩ | ⟨hn, -⟩)
        · exact this
        · rw [hnt] at hn; cases hn
      | @pair it' st mn li second room cu kinds imp same gone =>
        rw [lists] at li; cases li
        rw [imp]
        rintro b (⟨-, hb⟩ | ⟨-, hb⟩)
        · rw [show instructionLength .imp = 1 from rfl, gone] at hb; cases hb
        · have : b = a := by rw [show instructionLength .imp = 1 from rfl] at hb; omega
          rw [this]; exact hra
    | @folded c ft jt mn blank at_ first lists' kinds same gone =>
      have hrc : ListReach d'.disassembly c := ih c (.inr ⟨gone, at_⟩)
      subst at_
      obtain ⟨nt, hnt, -, -⟩ := h.after_pair lists kinds.second
      have hx : jt.instruction.isExitInstruction = false := by
        have hr := h.plainRet lists (by rcases kinds.second with e | e <;> rw [e] <;> decide)
          (by rcases kinds.second with e | e <;> rw [e] <;> decide)
        rw [same]
        unfold Instruction.isExitInstruction
        simp only [hr]
        rcases kinds.third with e | e <;> rw [e] <;> rfl
      have := ListReach.next hrc (OMap.mem_of_find lists') hx
      rw [h.step_to lists' hx, pair_size same kinds.third, ← Nat.add_assoc] at this
      rintro b (⟨rfl, -⟩ | ⟨hn, -⟩)
      · exact this
      · rw [hnt] at hn; cases hn
  | @branch a it v before lists isBranch value ih =>
    have hmn := h.closed.proper.kinds a it lists isBranch
    cases h.kept lists with
    | @here jt lists' current named =>
      have hra : ListReach d'.disassembly a := ih a (.inl ⟨rfl, by rw [lists']; rfl⟩)
      cases h.origin lists' with
      | @plain it' li cu same arg branch =>
        rw [lists] at li; cases li
        obtain ⟨name, e, v', nt, b1, b2, b3, b4, b5, b6⟩ := branch isBranch
        rw [value] at b1; cases b1
        have hb' : jt.instruction.isLocalBranch = true := by rw [same]; exact isBranch
        have := ListReach.branch hra (OMap.mem_of_find lists') hb' (by rw [b2]; rfl) (OMap.mem_of_find b5) b6 b4
        rintro b (⟨rfl, -⟩ | ⟨hn, -⟩)
        · exact this
        · rw [b5] at hn; cases hn
      | pair li second room cu kinds imp same gone =>
        rw [lists] at li; cases li
        exfalso
        rcases kinds.first with e | e <;> rw [e] at hmn <;> revert hmn <;> decide
    | folded blank at_ first lists' kinds same gone =>
      exfalso
      rcases kinds.second with e | e <;> rw [e] at hmn <;> revert hmn <;> decide

/-! ## States -/

theorem consistent_like {i j : Instruction} (hm : j.mnemonic = i.mnemonic) (hs : j.suffix = i.suffix) (ha : j.mode = i.mode)
    (f : StatusFlags) : j.checkConsistency f = i.checkConsistency f := by
  unfold Instruction.checkConsistency Instruction.checkSuffix Instruction.checkImmediate
  rw [hm, hs, ha]

theorem carry_legal : ∀ m : Mode, isLegalCombination .sbc m = isLegalCombination .adc m := by
  intro m; cases m <;> decide +kernel

theorem carry_uses : immediateArgumentUsesMBit .adc = true ∧ immediateArgumentUsesMBit .sbc = true ∧
    immediateArgumentUsesMBit .padd = true ∧ immediateArgumentUsesMBit .psub = true := by decide +kernel

theorem consistent_carry {i j : Instruction} (hm : i.mnemonic = .adc ∨ i.mnemonic = .sbc)
    (hj : j.mnemonic = .padd ∨ j.mnemonic = .psub) (hs : j.suffix = i.suffix) (ha : j.mode = i.mode)
    (f : StatusFlags) : j.checkConsistency f = i.checkConsistency f := by
  obtain ⟨u1, u2, u3, u4⟩ := carry_uses
  have hi : immediateArgumentUsesMBit i.mnemonic = true := by
    rcases hm with e | e
    · rw [e]; exact u1
    · rw [e]; exact u2
  have hjm : immediateArgumentUsesMBit j.mnemonic = true := by
    rcases hj with e | e
    · rw [e]; exact u3
    · rw [e]; exact u4
  have hf : flagControllingInstructionSize i.mnemonic = flagControllingInstructionSize .adc := by
    rcases hm with e | e <;> rw [e]; decide
  have hl : isLegalCombination i.mnemonic i.mode = isLegalCombination .adc i.mode := by
    rcases hm with e | e <;> rw [e]; exact carry_legal _
  unfold Instruction.checkConsistency Instruction.checkSuffix Instruction.checkImmediate
  simp only
  have hn : ¬ (i.mnemonic = .padd ∨ i.mnemonic = .psub) := by rcases hm with e | e <;> rw [e] <;> decide
  simp only [if_pos hj, if_neg hn, hs, ha, hi, hjm, hl, hf, true_or]

theorem same_parts {i j : Instruction} (h : j = { i with arg1 := j.arg1 }) : j.mnemonic = i.mnemonic ∧
    j.suffix = i.suffix ∧ j.mode = i.mode ∧ j.arg2 = i.arg2 ∧ j.ret = i.ret := by
  obtain ⟨m, s, a, e1, e2, r⟩ := j
  simp only [Instruction.mk.injEq, true_and] at h
  exact ⟨h.1, h.2.1, h.2.2.1, h.2.2.2.1, h.2.2.2.2⟩

theorem carry_not_x : ∀ z : Mnemonic, z = .padd ∨ z = .psub → ¬ SizedByX z ∧
    flagControllingInstructionSize z ≠ .usesX ∧ z ≠ .plx ∧ z ≠ .ply ∧ z ≠ .pla := by
  rintro z (rfl | rfl) <;> decide +kernel

theorem branch_not_reader : ∀ m : Mnemonic, m ∈ branchMnemonics ++ [.jmp, .jsl, .jsr] → m ∉ readers := by
  intro m; cases m <;> decide

/-- Operands that Cleanup changes are not looked at. -/
theorem Fitting.operand (h : Fitting src d d') {a : Nat} {it jt : DisItem} (ha : d.disassembly.find a = some it)
    (arg : jt.instruction.arg1 = it.instruction.arg1 ∨ it.instruction.isLocalBranch = true ∨
        it.instruction.mnemonic ∈ [Mnemonic.jmp, .jsl, .jsr] ∧ ∃ n ty, jt.instruction.arg1 = .ident n ty) :
    (jt.instruction.arg1 = it.instruction.arg1 ∧ writtenOperand jt.instruction.arg1 = jt.instruction.arg1) ∨
      it.instruction.mnemonic ∉ readers := by
  by_cases hb : it.instruction.isLocalBranch = true
  · exact .inr (branch_not_reader _ (List.mem_append_left _ (h.closed.proper.kinds a it ha hb)))
  · rcases arg with e | e | ⟨e, -⟩
    · left
      refine ⟨e, ?_⟩
      obtain ⟨bytes, j, -, hdec, hsh⟩ := (h.closed.items a it ha).bytes
      have hbr : ¬ MayBranch j := fun hm => hb ((mayBranch_iff _).2 ((mayBranch_shows hsh).2 hm))
      rw [e, hsh.plain hbr]
      rcases decode_args_shape hdec with ⟨v, t, h⟩ | h <;> rw [h] <;> rfl
    · exact absurd e hb
    · exact .inr (branch_not_reader _ (List.mem_append_right _ e))

theorem Fitting.sizeAgrees (h : Fitting src d d') {a : Nat} {it : DisItem} (ha : d.disassembly.find a = some it) :
    SizeAgrees it.instruction.mnemonic it.instruction.mode it.current.flags := by
  refine (C22_accepted_size_agrees it.instruction it.instruction it.current it.next nullCtx (h.closed.items a it ha).next ?_).1
  unfold Instruction.fixAddressingMode
  rw [if_neg (by have := h.mode ha; tauto)]

theorem Fitting.executes (h : Fitting src d d') {a : Nat} {it jt : DisItem} (ha : d.disassembly.find a = some it)
    (same : jt.instruction = { it.instruction with arg1 := jt.instruction.arg1 })
    (arg : jt.instruction.arg1 = it.instruction.arg1 ∨ it.instruction.isLocalBranch = true ∨
        it.instruction.mnemonic ∈ [Mnemonic.jmp, .jsl, .jsr] ∧ ∃ n ty, jt.instruction.arg1 = .ident n ty)
    {i0 : Instruction} (hb : ReadBack jt.instruction i0) : i0.execute it.current nullCtx = .ok it.next := by
  have hop := h.operand ha arg
  have hx := (h.closed.items a it ha).next
  obtain ⟨hmn, hsf, hmo, har, hre⟩ := same_parts same
  refine readBack_executes hb ?_ ?_ (execute_like hmn hre ?_ (.inl hmo) ?_ hx)
  · rw [hmn, hmo]; exact h.sizeAgrees ha
  · rw [hmn]; exact hop.imp And.right id
  · exact hop.imp (fun h => ⟨h.1, har⟩) id
  · rw [consistent_like hmn hsf hmo]; exact checkConsistency_of_execute' hx

/-- The second of a folded pair in the state of the first. -/
theorem Fitting.pair_flags (h : Fitting src d d') {a : Nat} {it st : DisItem} (ha : d.disassembly.find a = some it)
    (hs : d.disassembly.find (a + 1) = some st) {mn : Mnemonic} (room : NoWrap a) (imp : it.instruction.mode = .imp)
    (kinds : Carries it.instruction.mnemonic st.instruction.mnemonic mn) :
    FlagsAbove (st.current.flags.setC .unknown) it.current.flags ∧ StackAbove st.current.stack it.current.stack := by
  have hx := h.goesOn ha (by rcases kinds.first with e | e <;> simp [e])
  obtain ⟨kt, hk, hab⟩ := h.closed.next a it ha hx
  rw [nextAddr_room h.straight ha hx, imp, show instructionLength .imp = 1 from rfl, hs] at hk
  cases hk
  have hst := hab.state (closed_normal h.closed hs).1 (closed_normal h.closed ha).2
  have hnext : it.next.stack = it.current.stack ∧ ∃ b, it.next.flags = it.current.flags.setC b := by
    have hex := (h.closed.items a it ha).next
    have hc := checkConsistency_of_execute' hex
    unfold Instruction.execute at hex
    rw [hc, Res.bind_ok] at hex
    rcases kinds.first with e | e <;> simp [e] at hex <;> rw [← hex] <;> exact ⟨rfl, _, rfl⟩
  obtain ⟨h1, b, h2⟩ := hnext
  have hf := hst.flags
  have hk := hst.stack
  rw [h2] at hf
  rw [h1] at hk
  exact ⟨⟨hf.e, hf.m, hf.x, .unk⟩, hk⟩

theorem Fitting.pair_executes (h : Fitting src d d') {a : Nat} {it st jt : DisItem} (ha : d.disassembly.find a = some it)
    (hs : d.disassembly.find (a + 1) = some st) {mn : Mnemonic} (room : NoWrap a) (imp : it.instruction.mode = .imp)
    (kinds : Carries it.instruction.mnemonic st.instruction.mnemonic mn)
    (same : jt.instruction = { st.instruction with mnemonic := mn }) :
    (∀ i0, ReadBack jt.instruction i0 → i0.execute it.current nullCtx =
      .ok { it.current with a := .unknown, flags := it.current.flags.setC .unknown }) ∧
    SizeAgrees jt.instruction.mnemonic jt.instruction.mode it.current.flags ∧
    StateAbove st.next { it.current with a := .unknown, flags := it.current.flags.setC .unknown } ∧
    SizesKnown jt.instruction it.current.flags := by
  obtain ⟨hf, hk⟩ := h.pair_flags ha hs room imp kinds
  have hz := h.sizeAgrees hs
  have hex := (h.closed.items _ st hs).next
  have hc := checkConsistency_of_execute' hex
  have hsz := h.sizes _ st hs
  have hu : flagControllingInstructionSize st.instruction.mnemonic = .usesM ∧ SizedByM st.instruction.mnemonic ∧
      ¬ SizedByX st.instruction.mnemonic := by
    rcases kinds.second with e | e <;> rw [e] <;> decide
  have hm : BitKnownHere st.current.flags.m → it.current.flags.m = st.current.flags.m := fun hb => hf.m.known hb
  have hag : SizeAgrees jt.instruction.mnemonic jt.instruction.mode it.current.flags := by
    rw [same]
    refine ⟨fun _ => ⟨fun hb => ?_, fun hb => ?_⟩, fun hx => ?_⟩
    · have := (hz.1 hu.2.1).1 hb
      rw [hm (.inl this), this]
    · have := (hz.1 hu.2.1).2 hb
      rw [hm (.inr this), this]
    · exact absurd hx (carry_not_x _ kinds.third).1
  have hc' : st.instruction.checkConsistency it.current.flags = .ok () := by
    refine checkConsistency_mono hf ⟨fun h => ?_, fun h => ?_⟩ hc
    · exact hsz.m h
    · exact hsz.x h
  have hcj : jt.instruction.checkConsistency it.current.flags = .ok () := by
    rw [← hc']
    exact consistent_carry kinds.second (by rw [same]; exact kinds.third) (by rw [same]) (by rw [same]) _
  have hexj : jt.instruction.execute it.current nullCtx =
      .ok { it.current with a := .unknown, flags := it.current.flags.setC .unknown } := by
    unfold Instruction.execute
    rw [hcj, Res.bind_ok]
    rw [same]
    rcases kinds.third with e | e <;> simp [e]
  have hjm : jt.instruction.mnemonic = mn := by rw [same]
  refine ⟨fun i0 hb => readBack_executes hb hag (.inr ?_) hexj, hag, ?_, ?_⟩
  · rw [hjm]
    rcases kinds.third with e | e <;> rw [e] <;> decide
  · unfold Instruction.execute at hex
    rw [hc, Res.bind_ok] at hex
    have : st.next = { st.current with a := .unknown, flags := st.current.flags.setC .unknown } := by
      rcases kinds.second with e | e <;> simp [e] at hex <;> exact hex.symm
    rw [this]
    exact ⟨⟨hf.e, hf.m, hf.x, .unk⟩, hk⟩
  · rw [same]
    refine ⟨fun hh => ?_, fun hh => ?_⟩
    · rcases hh with ⟨h1, -⟩ | h1
      · have := hsz.m (.inl ⟨h1, hu.1⟩)
        rw [hm this]; exact this
      · exact absurd h1 (carry_not_x _ kinds.third).2.2.2.2
    · obtain ⟨-, c1, c2, c3, -⟩ := carry_not_x _ kinds.third
      rcases hh with ⟨-, h1⟩ | h1 | h1
      · exact absurd h1 c1
      · exact absurd h1 c2
      · exact absurd h1 c3

/-! ## Operands -/

theorem move_modes : ∀ op : UInt8, (decodeOpcode op).1 = .mvn ∨ (decodeOpcode op).1 = .mvp → (decodeOpcode op).2 = .mov := by
  apply forall_byte
  decide +kernel

theorem decode_move {bytes : List UInt8} {f : StatusFlags} {j : Instruction} (h : decode bytes f = .ok j)
    (hm : j.mnemonic = .mvn ∨ j.mnemonic = .mvp) : j.mode = .mov := by
  rw [decode_ok_iff] at h
  obtain ⟨op, l, m, a1, a2, -, h1, h2, h3, -, rfl⟩ := h
  have := move_modes op hm
  rcases h3 with h3 | ⟨h3, -⟩ | ⟨h3, -⟩ <;> rw [this] at h3
  · exact h3.symm
  · cases h3
  · cases h3

theorem decode_bounds {bytes : List UInt8} {f : StatusFlags} {j : Instruction} (h : decode bytes f = .ok j) :
    (j.mode = .mov → ∃ v, j.arg1 = .lit v .byte ∧ 0 ≤ v ∧ v < 256) ∧
    (j.mode = .dir_l → ∃ v, j.arg1 = .lit v .long ∧ 0 ≤ v ∧ v < 0x1000000) := by
  rw [decode_ok_iff] at h
  obtain ⟨op, l, m, a1, a2, -, -, -, -, h, rfl⟩ := h
  simp only
  constructor
  · rintro rfl
    unfold decodeArgs at h
    simp only at h
    split at h
    · cases h
      refine ⟨_, rfl, ?_, ?_⟩ <;> unfold NumericType.castTo <;> simp only <;> omega
    · cases h
  · rintro rfl
    unfold decodeArgs at h
    simp only at h
    split at h
    · cases h
      refine ⟨_, rfl, ?_, ?_⟩ <;> unfold NumericType.castTo <;> simp only <;> omega
    · cases h

theorem far_ok {i : Instruction} {a : Nat} (h : ∀ u, i.arg1.eval nullCtx ≠ .ub u)
    (hv : i.mode = .dir_l → ∀ v, i.arg1.eval nullCtx = .ok v → 0 ≤ v ∧ v < 0x1000000) :
    ∃ t, i.farBranchTarget a = .ok t := by
  unfold Instruction.farBranchTarget
  split
  · rename_i hm
    split
    · rename_i t ht
      obtain ⟨h1, h2⟩ := hv hm.1 t ht
      unfold Address.ofInt
      rw [if_pos ⟨h1, h2.le⟩]
      exact ⟨_, rfl⟩
    · exact ⟨_, rfl⟩
    · rename_i u hu; exact absurd hu (h u)
  · split
    · split
      · exact ⟨_, rfl⟩
      · exact ⟨_, rfl⟩
      · rename_i u hu; exact absurd hu (h u)
    · exact ⟨_, rfl⟩

theorem Fitting.target (h : Fitting src d d') {a : Nat} {jt : DisItem} (ha : d'.disassembly.find a = some jt) :
    ∃ t, (asWritten jt.instruction).farBranchTarget a = .ok t := by
  cases h.origin ha with
  | @plain it lists current same arg branch =>
    obtain ⟨hmn, hsf, hmo, har, hre⟩ := same_parts same
    obtain ⟨bytes, j, -, hdec, hsh⟩ := (h.closed.items a it lists).bytes
    by_cases hb : it.instruction.isLocalBranch = true
    · obtain ⟨name, e, v, nt, -, b2, -⟩ := branch hb
      refine far_ok (i := asWritten jt.instruction) ?_ ?_
      · intro u hu
        simp only [asWritten, b2, writtenOperand, Expr.eval] at hu
        cases hu
      · intro hm
        exfalso
        simp only [asWritten, hmo] at hm
        unfold Instruction.isLocalBranch at hb
        rw [hm] at hb
        simp at hb
    · rcases arg with e | e | ⟨e, n, ty, e2⟩
      · have hbr : ¬ MayBranch j := fun hm => hb ((mayBranch_iff _).2 ((mayBranch_shows hsh).2 hm))
        have hw : (asWritten jt.instruction).arg1 = j.arg1 := by
          show writtenOperand jt.instruction.arg1 = _
          rw [e, hsh.plain hbr]
          rcases decode_args_shape hdec with ⟨v, t, h⟩ | h <;> rw [h] <;> rfl
        refine far_ok ?_ ?_
        · rw [hw]
          intro u hu
          rcases decode_args_shape hdec with ⟨v, t, h⟩ | h <;> rw [h] at hu <;> simp [Expr.mkLit, Expr.eval] at hu
        · intro hm v hv
          have : j.mode = .dir_l := by rw [← hsh.mode, ← hmo]; exact hm
          obtain ⟨v', h1, h2⟩ := (decode_bounds hdec).2 this
          rw [hw, h1] at hv
          simp only [Expr.eval, Res.ok.injEq] at hv
          rw [← hv]; exact h2
      · exact absurd e hb
      · refine far_ok (i := asWritten jt.instruction) ?_ ?_
        · intro u hu
          simp only [asWritten, e2, writtenOperand, Expr.eval] at hu
          cases hu
        · intro _ v hv
          simp only [asWritten, e2, writtenOperand, Expr.eval] at hv
          cases hv
  | pair lists second room current kinds imp same gone =>
    unfold Instruction.farBranchTarget
    have hm : (asWritten jt.instruction).mnemonic ≠ .jmp ∧ (asWritten jt.instruction).mnemonic ≠ .jsl ∧
        (asWritten jt.instruction).mnemonic ≠ .jsr := by
      show jt.instruction.mnemonic ≠ _ ∧ jt.instruction.mnemonic ≠ _ ∧ jt.instruction.mnemonic ≠ _
      rw [same]
      simp only
      rcases kinds.third with e | e <;> rw [e] <;> decide
    rw [if_neg (by tauto), if_neg (by tauto)]
    exact ⟨_, rfl⟩

/-! ## Together -/

theorem Fitting.runs (h : Fitting src d d') : Runs d'.disassembly := by
  have hp := cleanup_proper h.closed.proper h.clean
  have hfind : ∀ {a it}, (a, it) ∈ d'.disassembly → d'.disassembly.find a = some it :=
    fun hm => OMap.find_of_mem hp.sorted hm
  refine ⟨hp.sorted, fun p hm => h.low' (hfind hm), fun a it hm => hp.states a it (hfind hm),
    fun a b it jt h1 h2 => hp.distinct a b it jt (hfind h1) (hfind h2), ?_, ?_, ?_, ?_,
    fun a it f hm => h.entry a it f (hfind hm), ?_⟩
  · intro a jt i0 hm hb
    have hj := hfind hm
    have hsp := h.span hj
    have hstep := h.step_to hj
    have hbetween : jt.instruction.isExitInstruction = false → ∀ p ∈ d'.disassembly,
        ¬ (a < p.1 ∧ p.1 < Address.addWrapped a jt.instruction.serializedSize) := by
      intro hx p hpm hh
      have := hsp.apart p.1 p.2 (hfind hpm) hh.1
      rw [hstep hx] at hh
      omega
    cases h.origin hj with
    | @plain it lists current same arg branch =>
      obtain ⟨hmn, hsf, hmo, har, hre⟩ := same_parts same
      refine ⟨it.next, by rw [current]; exact h.executes lists same arg hb, fun hx => ?_⟩
      have hx' : it.instruction.isExitInstruction = false := by
        rw [← hx]; unfold Instruction.isExitInstruction; rw [hmn, hre]
      obtain ⟨nt, n1, n2, n3⟩ := h.after_plain lists hj same hx'
      have hs := h.plain_size lists same
      refine ⟨nt, ?_, ?_, hbetween hx, n2.state n3 (closed_normal h.closed lists).2⟩
      · rw [hstep hx, hs]; exact OMap.mem_of_find n1
      · rw [hstep hx, hs]; have := h.pos lists; omega
    | @pair it st mn lists second room current kinds imp same gone =>
      obtain ⟨e1, -, e3, -⟩ := h.pair_executes lists second room imp kinds same
      refine ⟨_, by rw [current]; exact e1 i0 hb, fun hx => ?_⟩
      obtain ⟨nt, n1, n2, n3⟩ := h.after_pair second kinds.second
      have hs := pair_size same kinds.third
      refine ⟨nt, ?_, ?_, hbetween hx, (n2.state n3 (closed_normal h.closed second).2).trans e3⟩
      · rw [hstep hx, hs, ← Nat.add_assoc]; exact OMap.mem_of_find n1
      · rw [hstep hx, hs]; omega
  · intro a jt i0 hm hb hbr
    have hj := hfind hm
    cases h.origin hj with
    | @plain it lists current same arg branch =>
      obtain ⟨hmn, hsf, hmo, har, hre⟩ := same_parts same
      have hbi : it.instruction.isLocalBranch = true := by
        rw [← hbr]; unfold Instruction.isLocalBranch; rw [hmn, hmo]
      obtain ⟨name, e, v, nt, b1, b2, b3, b4, b5, b6⟩ := branch hbi
      obtain ⟨kt, hk, hab⟩ := h.closed.branch a it v lists hbi b1
      obtain ⟨kt', hk', hcu⟩ := h.listed b5
      rw [hk] at hk'; cases hk'
      have hx := h.executes lists same arg hb
      rw [← current] at hx
      refine ⟨name, _, nt, _, by rw [b2]; rfl, OMap.mem_of_find b5, b6, b4,
        branch_taken (by rw [readBack_branch hb]; exact hbr) hx, ?_⟩
      have : branchState i0 jt.current = branchState it.instruction it.current := by
        unfold branchState; rw [(readBack_same hb).1, hmn, current]
      rw [this, hcu]
      exact hab.state (closed_normal h.closed hk).1 (branchState_normal (closed_normal h.closed lists).1)
    | pair lists second room current kinds imp same gone =>
      exfalso
      have := hp.kinds a jt hj hbr
      rw [same] at this
      simp only at this
      rcases kinds.third with e | e <;> rw [e] at this <;> revert this <;> decide
  · intro a jt i0 hm hb
    have hj := hfind hm
    obtain ⟨r1, r2, r3, r4, -⟩ := readBack_same hb
    have hkn : ∀ {i : Instruction} {f : StatusFlags}, i.mnemonic = jt.instruction.mnemonic → i.suffix = jt.instruction.suffix →
        SizesKnown i f → SizesKnown i0 f := by
      intro i f h1 h2 hk
      refine ⟨fun hh => hk.m ?_, fun hh => hk.x ?_⟩
      · rw [h1, h2, ← r1, ← r2]; exact hh
      · rw [h1, h2, ← r1, ← r2]; exact hh
    cases h.origin hj with
    | @plain it lists current same arg branch =>
      obtain ⟨hmn, hsf, hmo, har, hre⟩ := same_parts same
      refine ⟨hkn hmn.symm hsf.symm (by rw [current]; exact h.sizes a it lists), fun hmv v hv => ?_⟩
      rw [r1, hmn] at hmv
      rcases h.operand lists arg with ⟨e1, e2⟩ | hn
      · obtain ⟨bytes, j, -, hdec, hsh⟩ := (h.closed.items a it lists).bytes
        have hmode := decode_move hdec (by rw [← hsh.mnemonic]; exact hmv)
        obtain ⟨w, h1, h2⟩ := (decode_bounds hdec).1 hmode
        have hbr : ¬ MayBranch j := fun hm => by
          rcases hm.1 with e | e <;> rw [hmode] at e <;> cases e
        rw [r3, e2, e1, hsh.plain hbr, h1] at hv
        simp only [Expr.eval, Res.ok.injEq] at hv
        rw [← hv]; exact h2
      · exfalso
        rcases hmv with e | e <;> rw [e] at hn <;> revert hn <;> decide
    | @pair it st mn lists second room current kinds imp same gone =>
      obtain ⟨-, -, -, e4⟩ := h.pair_executes lists second room imp kinds same
      refine ⟨hkn rfl rfl (by rw [current]; exact e4), fun hmv => ?_⟩
      exfalso
      rw [r1, same] at hmv
      simp only at hmv
      rcases kinds.third with e | e <;> rw [e] at hmv <;> simp at hmv
  · intro a jt hm
    have hj := hfind hm
    cases h.origin hj with
    | @plain it lists current same arg branch =>
      obtain ⟨hmn, hsf, hmo, har, hre⟩ := same_parts same
      rw [hmn, hmo, current]
      exact h.sizeAgrees lists
    | @pair it st mn lists second room current kinds imp same gone =>
      rw [current]
      exact (h.pair_executes lists second room imp kinds same).2.1
  · intro a jt hm
    have hj := hfind hm
    obtain ⟨it, hi, -⟩ := h.listed hj
    exact h.reach (h.reached.led a it hi) a (.inl ⟨rfl, by rw [hj]; rfl⟩)

/-- Everything listed after Cleanup has bytes. -/
theorem cleanup_emits (h : Closed src d) (hcl : d.cleanup = .ok d')
    (hn : ∀ a it, d.disassembly.find a = some it → it.instruction.mnemonic = .clc ∨ it.instruction.mnemonic = .sec →
      NoWrap a)
    (hok : ∀ a it, d.disassembly.find a = some it → a < 0x1000000 ∧ it.instruction.mnemonic ≠ .per)
    {ctx ctx' : Ctx} (hc : LabelsAt ctx d.disassembly) (hc' : LabelsAt ctx' d'.disassembly)
    {a : Nat} {jt : DisItem} (ha : d'.disassembly.find a = some jt) : ∃ bs, Emits ctx' a jt bs := by
  have hor := (cleaned h hcl hn).1 a jt ha
  obtain ⟨r, ops, fars, hs, rfl, hfk, hfok, hops, hfars, -⟩ := cleanup_inv h.proper.sorted h.proper.distinct hcl
  obtain ⟨f1, f2⟩ := fold_spec fars hs
  simp only at hc' ha
  have hcf : LabelsAt ctx' fars := by
    intro a it ha hl
    rcases f2 a it ha with ⟨jt, hj⟩ | ⟨h, -⟩
    · obtain ⟨it', h1, h2⟩ := f1 a jt hj
      rw [show OMap.find fars a = some it from ha] at h1
      cases h1
      rw [← (folded_rest h2).1] at hl ⊢
      exact hc' a jt hj hl
    · exact absurd h hl
  have hbytes : ∀ {a : Nat} {it jt : DisItem}, d.disassembly.find a = some it → OMap.find fars a = some jt →
      ∃ bs, (asWritten jt.instruction).assembleBytes a ctx' = .ok bs := by
    intro a it jt ha hj
    rw [tidied_bytes h hops hfok hfk hfars hc hcf ha hj]
    obtain ⟨h1, h2⟩ := hok a it ha
    obtain ⟨bytes, -, -, hem⟩ := entry_emits h hc ha h1 h2
    exact ⟨_, emits_iff.1 hem⟩
  obtain ⟨ft, hft, hfo⟩ := f1 a jt ha
  rcases hfo with rfl | ⟨c, sc, mn, g1, g2, g3, g4, rfl⟩
  · obtain ⟨it, hit, -⟩ := hfars a _ hft
    obtain ⟨bs, hb⟩ := hbytes hit hft
    exact ⟨bs, emits_iff.2 hb⟩
  · obtain ⟨it, hit, hti⟩ := hfars a ft hft
    obtain ⟨kt, hkt, htk⟩ := hfars c sc g1
    obtain ⟨l1, l2, -, -⟩ := tidied_kind htk
    obtain ⟨-, hmn⟩ := foldPair_spec g4
    obtain ⟨bytes, j, hb, hdec, hsh⟩ := (h.items c kt hkt).bytes
    have hadc : j.mnemonic = .adc ∨ j.mnemonic = .sbc := by
      rw [← hsh.mnemonic, ← l1]; rcases hmn with ⟨-, h, -⟩ | ⟨-, h, -⟩ <;> simp [h]
    obtain ⟨hnr, hper⟩ := adc_not_relative hdec hadc
    obtain ⟨bs, hbs⟩ := hbytes hkt g1
    have hnr' : ¬ Relative (asWritten sc.instruction).mode := by
      show ¬ Relative sc.instruction.mode
      rw [l2, hsh.mode]; exact hnr
    rcases hmn with ⟨m1, m2, rfl⟩ | ⟨m1, m2, rfl⟩
    · exact ⟨_, emits_iff.2 (pseudo_bytes (i := asWritten sc.instruction) m2 (.inl ⟨rfl, rfl, rfl⟩) hnr' hbs)⟩
    · exact ⟨_, emits_iff.2 (pseudo_bytes (i := asWritten sc.instruction) m2 (.inr ⟨rfl, rfl, rfl⟩) hnr' hbs)⟩

theorem Fitting.fits (h : Fitting src d d') {ctx : Ctx} (hc : LabelsAt ctx d.disassembly) : Fits d'.disassembly := by
  have hp := cleanup_proper h.closed.proper h.clean
  have hfind : ∀ {a it}, (a, it) ∈ d'.disassembly → d'.disassembly.find a = some it :=
    fun hm => OMap.find_of_mem hp.sorted hm
  refine ⟨fun a it b jt h1 h2 => (h.span (hfind h1)).apart b jt (hfind h2), fun a it hm => (h.span (hfind hm)).bank,
    fun ctx' hc' a it hm => ?_, fun a it hm => h.target (hfind hm)⟩
  exact cleanup_emits h.closed h.clean h.noWrap (fun a it ha => ⟨h.straight.low a it ha, h.noPer a it ha⟩) hc hc' (hfind hm)

end
end Nsasm
