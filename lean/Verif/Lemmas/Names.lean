import Verif.Lemmas.DisFlow

/-! # The labels that the disassembler makes -/

namespace Nsasm
open Spec Props Disassembler

/-! ## Names with different numbers are different -/

/-- The value of decimal digits, the lowest digit first. -/
def revValue : Str → Nat
  | [] => 0
  | c :: cs => (c.toNat - 48) + 10 * revValue cs

theorem digit_value (n : Nat) : (digitChar (n % 10)).toNat - 48 = n % 10 := by
  have : ∀ k < 10, (digitChar k).toNat - 48 = k := by decide
  exact this _ (Nat.mod_lt _ (by omega))

theorem revValue_digits (k : Nat) : ∀ n, n < k → revValue (digitsRev 10 k n) = n := by
  induction k with
  | zero => intro n h; omega
  | succ k ih =>
    intro n h
    rw [digitsRev, revValue, digit_value]
    by_cases hn : n < 10
    · rw [if_pos hn, revValue]; omega
    · rw [if_neg hn, ih (n / 10) (by omega)]; omega

theorem digits_inj {a b : Nat} (h : digits 10 a = digits 10 b) : a = b := by
  unfold digits at h
  have h' : digitsRev 10 (a + 1) a = digitsRev 10 (b + 1) b := by
    have := congrArg List.reverse h
    simpa using this
  rw [← revValue_digits (a + 1) a (by omega), h', revValue_digits (b + 1) b (by omega)]

theorem decimal_inj {a b : Nat} (h : decimal a = decimal b) : a = b := by
  unfold decimal at h
  rw [if_neg (by omega), if_neg (by omega)] at h
  exact digits_inj h

theorem genSym_inj {a b : Nat} (h : genSym a = genSym b) : a = b := by
  unfold genSym at h
  exact decimal_inj (List.append_cancel_left h)

theorem genSym_ne (n : Nat) : genSym n ≠ [] := by unfold genSym; simp

/-! ## The names given to addresses -/

/-- The name that an address has at the moment. -/
def nameAt (d : Disassembler) (labels : OMap Str) (a : Nat) : Option Str :=
  match labels.find a with
  | some l => some l
  | none =>
    match d.disassembly.find a with
    | some it => if it.label ≠ [] then some it.label else none
    | none => none

/-- The address has an entry or is about to get one. -/
def Present (d : Disassembler) (w : Work) (a : Nat) : Prop :=
  (look d w.fresh a).isSome ∨ (w.stack.find a).isSome

/-- The labels given out so far. -/
structure Given (d : Disassembler) (labels : OMap Str) (sym : Nat) : Prop where
  sorted : OMap.Sorted labels
  new : ∀ a l, labels.find a = some l → ∃ n, d.sym < n ∧ n ≤ sym ∧ l = genSym n
  distinct : ∀ a b l, labels.find a = some l → labels.find b = some l → a = b
  unnamed : ∀ a l it, labels.find a = some l → d.disassembly.find a = some it → it.label = []
  le : d.sym ≤ sym

theorem given_add {d : Disassembler} {labels : OMap Str} {sym : Nat} (h : Given d labels sym) {a : Nat}
    (hn : labels.find a = none) (hu : ∀ it, d.disassembly.find a = some it → it.label = []) :
    Given d (labels.set a (genSym (sym + 1))) (sym + 1) ∧
      nameAt d (labels.set a (genSym (sym + 1))) a = some (genSym (sym + 1)) ∧
      (∀ b l, nameAt d labels b = some l → nameAt d (labels.set a (genSym (sym + 1))) b = some l) ∧
      (∀ b l, (labels.set a (genSym (sym + 1))).find b = some l → b = a ∨ labels.find b = some l) := by
  have hfind : ∀ b, (labels.set a (genSym (sym + 1))).find b =
      if a = b then some (genSym (sym + 1)) else labels.find b := by
    intro b
    unfold OMap.set
    rw [OMap.find_upsert h.sorted]
    by_cases hab : a = b
    · subst hab; rw [if_pos rfl, if_pos rfl, hn]
    · rw [if_neg hab, if_neg hab]
  have hname : nameAt d labels a = none := by
    unfold nameAt
    rw [hn]
    simp only
    cases hd : d.disassembly.find a with
    | none => rfl
    | some it => simp [hu it hd]
  refine ⟨⟨OMap.sorted_upsert h.sorted _ _, ?_, ?_, ?_, by have := h.le; omega⟩, ?_, ?_, ?_⟩
  · intro b l hb
    rw [hfind] at hb
    by_cases hab : a = b
    · rw [if_pos hab] at hb; cases hb
      exact ⟨sym + 1, by have := h.le; omega, Nat.le_refl _, rfl⟩
    · rw [if_neg hab] at hb
      obtain ⟨n, h1, h2, h3⟩ := h.new b l hb
      exact ⟨n, h1, by omega, h3⟩
  · intro b c l hb hc
    rw [hfind] at hb hc
    have key : ∀ {x : Nat}, labels.find x = some (genSym (sym + 1)) → False := by
      intro x hx
      obtain ⟨n, h1, h2, h3⟩ := h.new x _ hx
      have := genSym_inj h3
      omega
    by_cases hab : a = b
    · rw [if_pos hab] at hb
      cases hb
      by_cases hac : a = c
      · omega
      · rw [if_neg hac] at hc; exact (key hc).elim
    · rw [if_neg hab] at hb
      by_cases hac : a = c
      · rw [if_pos hac] at hc; cases hc; exact (key hb).elim
      · rw [if_neg hac] at hc; exact h.distinct b c l hb hc
  · intro b l it hb hd
    rw [hfind] at hb
    by_cases hab : a = b
    · subst hab; exact hu it hd
    · rw [if_neg hab] at hb; exact h.unnamed b l it hb hd
  · unfold nameAt; rw [hfind, if_pos rfl]
  · intro b l hb
    by_cases hab : a = b
    · subst hab; rw [hname] at hb; cases hb
    · unfold nameAt; rw [hfind, if_neg hab]; exact hb
  · intro b l hb
    rw [hfind] at hb
    by_cases hab : a = b
    · exact .inl hab.symm
    · rw [if_neg hab] at hb; exact .inr hb

theorem getLabel_given {d : Disassembler} {w : Work} (h : Given d w.labels w.sym) (a : Nat) :
    Given d (getLabel d w a).2.labels (getLabel d w a).2.sym ∧
      nameAt d (getLabel d w a).2.labels a = some (getLabel d w a).1 ∧
      (∀ b l, nameAt d w.labels b = some l → nameAt d (getLabel d w a).2.labels b = some l) ∧
      (∀ b l, (getLabel d w a).2.labels.find b = some l → b = a ∨ w.labels.find b = some l) := by
  unfold getLabel
  cases hf : w.labels.find a with
  | some l => exact ⟨h, by unfold nameAt; rw [hf], fun _ _ h => h, fun _ _ h => .inr h⟩
  | none =>
    simp only
    cases hd : d.disassembly.find a with
    | none =>
      simp only
      exact given_add h hf (fun it hit => by rw [hd] at hit; cases hit)
    | some it =>
      simp only
      by_cases hl : it.label = []
      · rw [if_neg (by simp [hl])]
        exact given_add h hf (fun jt hjt => by rw [hd] at hjt; cases hjt; exact hl)
      · rw [if_pos hl]
        refine ⟨h, ?_, fun _ _ h => h, fun _ _ h => .inr h⟩
        unfold nameAt
        rw [hf, hd]
        simp [hl]

/-- The mnemonics of local branches. -/
def branchMnemonics : List Mnemonic := [.bcc, .bcs, .beq, .bmi, .bne, .bpl, .bra, .brl, .bvc, .bvs]

/-- The byte after the address is in the same bank. -/
def NoWrap (a : Nat) : Prop := a < 0x1000000 ∧ a % 0x10000 ≠ 0xFFFF

theorem addWrapped_one {a : Nat} (h : NoWrap a) : Address.addWrapped a 1 = a + 1 := by
  obtain ⟨h1, h2⟩ := h
  unfold Address.addWrapped
  omega

/-- The invariant of the loop for labels. -/
structure Named (d : Disassembler) (w : Work) : Prop where
  given : Given d w.labels w.sym
  present : ∀ a l, w.labels.find a = some l → Present d w a
  items : ∀ a it, look d w.fresh a = some it →
    it.label = (match d.disassembly.find a with | some jt => jt.label | none => [])
  branches : ∀ a it, look d w.fresh a = some it → it.instruction.isLocalBranch = true →
    ∃ name e v, it.instruction.arg1 = .label name e ∧ e ≠ .null ∧ e.eval nullCtx = .ok v ∧
      nameAt d w.labels (Address.addWrapped (nextAddr a it.instruction) v) = some name ∧
      Present d w (Address.addWrapped (nextAddr a it.instruction) v)
  kinds : ∀ a it, look d w.fresh a = some it → it.instruction.isLocalBranch = true →
    it.instruction.mnemonic ∈ branchMnemonics
  carry : ∀ a it, look d w.fresh a = some it → it.instruction.mnemonic = .clc ∨ it.instruction.mnemonic = .sec →
    it.instruction.mode = .imp ∧ (NoWrap a → Present d w (Address.addWrapped a 1))

/-- CLC and SEC are one byte long. -/
theorem decode_carry {bytes : List UInt8} {f : StatusFlags} {i : Instruction} (h : decode bytes f = .ok i)
    (hm : i.mnemonic = .clc ∨ i.mnemonic = .sec) : i.mode = .imp ∧ i.isExitInstruction = false := by
  rw [decode_ok_iff] at h
  obtain ⟨op, l, a, a1, a2, -, -, -, h, -, rfl⟩ := h
  simp only at hm
  have key : ∀ op : UInt8, (decodeOpcode op).1 = .clc ∨ (decodeOpcode op).1 = .sec → (decodeOpcode op).2 = .imp := by
    apply forall_byte; decide +kernel
  have := key op hm
  rw [this] at h
  refine ⟨?_, ?_⟩
  · rcases h with h | ⟨h, -⟩ | ⟨h, -⟩
    · exact h.symm
    · cases h
    · cases h
  · unfold Instruction.isExitInstruction
    rcases hm with hm | hm <;> simp [hm, ReturnConvention.isExitCall]

theorem pushAll_find : ∀ (outs : List (Nat × ExecutionState)) {st : OMap ExecutionState}, OMap.Sorted st →
    (∀ a, (st.find a).isSome → ((pushAll st outs).find a).isSome) ∧
    (∀ o ∈ outs, ((pushAll st outs).find o.1).isSome) := by
  intro outs
  induction outs with
  | nil => intro st _; exact ⟨fun _ h => h, by simp⟩
  | cons o os ih =>
    intro st hs
    obtain ⟨i1, i2⟩ := ih (OMap.sorted_upsert (f := fun old => ExecutionState.merge old o.2) hs o.1 o.2)
    have hup : ∀ a, (o.1 = a ∨ (st.find a).isSome) →
        ((st.upsert (fun old => old.merge o.2) o.1 o.2).find a).isSome := by
      intro a ha
      rw [OMap.find_upsert hs]
      by_cases hoa : o.1 = a
      · rw [if_pos hoa]
        subst hoa
        cases st.find o.1 <;> rfl
      · rw [if_neg hoa]
        rcases ha with ha | ha
        · exact absurd ha hoa
        · exact ha
    refine ⟨fun a ha => i1 a (hup a (.inr ha)), fun o' ho' => ?_⟩
    rw [List.mem_cons] at ho'
    rcases ho' with rfl | ho'
    · exact i1 _ (hup _ (.inl rfl))
    · exact i2 o' ho'

theorem present_effect {d : Disassembler} {w w' : Work} {pc : Nat} {s : ExecutionState}
    {rest : OMap ExecutionState} {it : DisItem} {outs : List (Nat × ExecutionState)}
    (hst : w.stack = (pc, s) :: rest) (hsorted : OMap.Sorted rest) (he : Effect d w pc rest w' it outs) :
    (∀ a, Present d w a → Present d w' a) ∧ ∀ o ∈ outs, Present d w' o.1 := by
  obtain ⟨p1, p2⟩ := pushAll_find outs hsorted
  constructor
  · intro a ha
    by_cases hpa : pc = a
    · left; rw [he.look, if_pos hpa]; rfl
    · rcases ha with ha | ha
      · left; rw [he.look, if_neg hpa]; exact ha
      · right
        rw [he.stack]
        refine p1 a ?_
        rw [hst, OMap.find, if_neg hpa] at ha
        exact ha
  · intro o ho
    right
    rw [he.stack]
    exact p2 o ho

theorem named_step {src : Source} {d : Disassembler} {w w' : Work} (ht : Tidy d w) (hn : Named d w)
    (h : step src d w = .ok (some w')) : Named d w' := by
  obtain ⟨pc, s, rest, it, outs, hst, hr, he⟩ := step_round ht.fresh h
  have hsorted := ht.stack
  rw [hst] at hsorted
  have hrest : OMap.Sorted rest := by
    unfold OMap.Sorted at hsorted; rw [List.pairwise_cons] at hsorted; exact hsorted.2
  have hself : look d w'.fresh pc = some it := by rw [he.look, if_pos rfl]
  have hother : ∀ a, pc ≠ a → look d w'.fresh a = look d w.fresh a := fun a ha => by rw [he.look, if_neg ha]
  obtain ⟨hp, -⟩ := present_effect hst hrest he
  -- when the labels stay and the item keeps its instruction
  have hkeep : w'.labels = w.labels → w'.sym = w.sym →
      it.label = (match d.disassembly.find pc with | some jt => jt.label | none => []) →
      (it.instruction.isLocalBranch = true →
        ∃ name e v, it.instruction.arg1 = .label name e ∧ e ≠ .null ∧ e.eval nullCtx = .ok v ∧
          nameAt d w.labels (Address.addWrapped (nextAddr pc it.instruction) v) = some name ∧
          Present d w (Address.addWrapped (nextAddr pc it.instruction) v)) →
      (it.instruction.isLocalBranch = true → it.instruction.mnemonic ∈ branchMnemonics) →
      (it.instruction.mnemonic = .clc ∨ it.instruction.mnemonic = .sec →
        it.instruction.mode = .imp ∧ (NoWrap pc → Present d w' (Address.addWrapped pc 1))) → Named d w' := by
    intro hl hs hit hbr hbk hca
    refine ⟨hl ▸ hs ▸ hn.given, ?_, ?_, ?_, ?_, ?_⟩
    · intro a l ha
      rw [hl] at ha
      exact hp a (hn.present a l ha)
    · intro a jt ha
      by_cases hpa : pc = a
      · subst hpa; rw [hself] at ha; cases ha; exact hit
      · rw [hother a hpa] at ha; exact hn.items a jt ha
    · intro a jt ha hb
      rw [hl]
      by_cases hpa : pc = a
      · subst hpa
        rw [hself] at ha; cases ha
        obtain ⟨name, e, v, h1, h2, h3, h4, h5⟩ := hbr hb
        exact ⟨name, e, v, h1, h2, h3, h4, hp _ h5⟩
      · rw [hother a hpa] at ha
        obtain ⟨name, e, v, h1, h2, h3, h4, h5⟩ := hn.branches a jt ha hb
        exact ⟨name, e, v, h1, h2, h3, h4, hp _ h5⟩
    · intro a jt ha hb
      by_cases hpa : pc = a
      · subst hpa; rw [hself] at ha; cases ha; exact hbk hb
      · rw [hother a hpa] at ha; exact hn.kinds a jt ha hb
    · intro a jt ha hm
      by_cases hpa : pc = a
      · subst hpa; rw [hself] at ha; cases ha; exact hca hm
      · rw [hother a hpa] at ha; exact ⟨(hn.carry a jt ha hm).1, fun hw => hp _ ((hn.carry a jt ha hm).2 hw)⟩
  have hlook : look d w.fresh pc = none → d.disassembly.find pc = none := by
    intro hl
    unfold look at hl
    split at hl
    · cases hl
    · exact hl
  cases hr with
  | skip seen' same far labels sym =>
    exact hkeep labels sym (hn.items pc it seen') (hn.branches pc it seen') (hn.kinds pc it seen')
      fun hm => ⟨(hn.carry pc it seen' hm).1, fun hw => hp _ ((hn.carry pc it seen' hm).2 hw)⟩
  | again seen' change read decoded executed far branch labels sym =>
    rename_i di bytes i0 nx bo
    exact hkeep labels sym (hn.items pc di seen') (hn.branches pc di seen') (hn.kinds pc di seen')
      fun hm => ⟨(hn.carry pc di seen' hm).1, fun hw => hp _ ((hn.carry pc di seen' hm).2 hw)⟩
  | first unseen read decoded executed visit =>
    rename_i bytes i0 nx0
    have hnone := hlook unseen
    cases visit with
    | plain noBranch noTarget =>
      have hno : i0.isLocalBranch ≠ true := by rw [noBranch]; simp
      refine hkeep rfl rfl (by rw [hnone]) (fun hb => absurd hb hno) (fun hb => absurd hb hno) (fun hm => ?_)
      obtain ⟨hc1, hc2⟩ := decode_carry decoded hm
      refine ⟨hc1, fun _ => .inr ?_⟩
      have hmem : (Address.addWrapped pc 1, nx0) ∈ nextOuts pc i0 nx0 := by
        unfold nextOuts nextAddr
        rw [if_neg (by rw [hc2]; simp), hc1]
        simp [instructionLength]
      exact (pushAll_find (nextOuts pc i0 nx0) hrest).2 _ hmem
    | far noBranch target convention looked =>
      rename_i t i
      have hno : i.isLocalBranch ≠ true ∧ i.mnemonic = i0.mnemonic := by
        rcases convention with rfl | ⟨-, r, -, rfl⟩
        · exact ⟨by rw [noBranch]; simp, rfl⟩
        · refine ⟨?_, rfl⟩
          simp only [Instruction.isLocalBranch] at noBranch ⊢
          rw [noBranch]; simp
      refine hkeep rfl rfl (by rw [hnone]) (fun hb => absurd hb hno.1) (fun hb => absurd hb hno.1) (fun hm => ?_)
      have hfm := far_mnemonic target
      simp only [hno.2] at hm
      rcases hm with hm | hm <;> simp [hm] at hfm
    | branch isBranch value target named taken =>
      rename_i v t b i
      obtain ⟨g1, g2, g3, g4⟩ := getLabel_given (w := { w with stack := rest }) hn.given t
      have hpt : Present d
          ⟨w.fresh.set pc ⟨[], i, false, s, nx0⟩, (getLabel d { w with stack := rest } t).2.labels,
            pushAll rest ((t, b) :: nextOuts pc i nx0), w.far,
            (getLabel d { w with stack := rest } t).2.sym⟩ t := by
        right
        exact (pushAll_find ((t, b) :: nextOuts pc i nx0) hrest).2 (t, b) (by simp)
      have hbm : i0.mnemonic ∈ branchMnemonics := branch_accepted isBranch executed
      refine ⟨g1, ?_, ?_, ?_, ?_, ?_⟩
      · intro a l ha
        rcases g4 a l ha with rfl | ha
        · exact hpt
        · exact hp a (hn.present a l ha)
      · intro a jt ha
        by_cases hpa : pc = a
        · subst hpa; rw [hself] at ha; cases ha; rw [hnone]
        · rw [hother a hpa] at ha; exact hn.items a jt ha
      · intro a jt ha hb
        by_cases hpa : pc = a
        · subst hpa
          rw [hself] at ha; cases ha
          subst named
          have hnn : i0.arg1 ≠ .null := by
            intro hnull
            rw [hnull] at value; cases value
          refine ⟨_, i0.arg1, v, decode_applyLabel decoded _, hnn, value, ?_, ?_⟩
          · show nameAt d _ (Address.addWrapped (nextAddr pc i0) v) = _
            rw [← target]
            exact g2
          · show Present d _ (Address.addWrapped (nextAddr pc i0) v)
            rw [← target]
            exact hpt
        · rw [hother a hpa] at ha
          obtain ⟨name, e, v', h1, h2, h3, h4, h5⟩ := hn.branches a jt ha hb
          exact ⟨name, e, v', h1, h2, h3, g3 _ _ h4, hp _ h5⟩
      · intro a jt ha hb
        by_cases hpa : pc = a
        · subst hpa
          rw [hself] at ha; cases ha
          subst named
          exact hbm
        · rw [hother a hpa] at ha; exact hn.kinds a jt ha hb
      · intro a jt ha hm
        by_cases hpa : pc = a
        · subst hpa
          rw [hself] at ha; cases ha
          subst named
          simp only at hm
          rcases hm with hm | hm <;> simp [branchMnemonics, hm] at hbm
        · rw [hother a hpa] at ha; exact ⟨(hn.carry a jt ha hm).1, fun hw => hp _ ((hn.carry a jt ha hm).2 hw)⟩
