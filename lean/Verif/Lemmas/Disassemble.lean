import Verif.Lemmas.Flow
import Verif.Lemmas.Instruction
import Verif.Model.Disassemble

/-! # One round of the disassembler -/

namespace Nsasm
open Spec Props Disassembler

/-! ## The shape of a round -/

/-- Several pushes. -/
def pushAll (st : OMap ExecutionState) : List (Nat × ExecutionState) → OMap ExecutionState
  | [] => st
  | o :: os => pushAll (st.upsert (fun old => old.merge o.2) o.1 o.2) os

/-- The address after the instruction. -/
def nextAddr (pc : Nat) (i : Instruction) : Nat := Address.addWrapped pc (instructionLength i.mode)

/-- What is pushed for the next instruction. -/
def nextOuts (pc : Nat) (i : Instruction) (next : ExecutionState) : List (Nat × ExecutionState) :=
  if i.isExitInstruction then [] else [(nextAddr pc i, next)]

theorem evalUnchecked_ok {e : Expr} {v : Int} (h : evalUnchecked e = .ok v) : e.eval nullCtx = .ok v := by
  unfold evalUnchecked at h
  split at h <;> simp_all

theorem getLabel_rest (d : Disassembler) (w : Work) (a : Nat) :
    (getLabel d w a).2.fresh = w.fresh ∧ (getLabel d w a).2.stack = w.stack ∧
    (getLabel d w a).2.far = w.far := by
  unfold getLabel
  split
  · exact ⟨rfl, rfl, rfl⟩
  · split
    · split <;> exact ⟨rfl, rfl, rfl⟩
    · exact ⟨rfl, rfl, rfl⟩

theorem branch_no_far {i : Instruction} (hb : i.isLocalBranch = true) (pc : Nat) :
    i.farBranchTarget pc = .ok none := by
  simp only [Instruction.isLocalBranch, Bool.and_eq_true, Bool.or_eq_true, decide_eq_true_eq] at hb
  unfold Instruction.farBranchTarget
  rw [if_neg, if_neg]
  · rintro ⟨h, -⟩; rcases hb.1 with h' | h' <;> rw [h] at h' <;> cases h'
  · rintro ⟨h, -⟩; rcases hb.1 with h' | h' <;> rw [h] at h' <;> cases h'

/-- A first visit, taken apart. -/
inductive FirstVisit (d : Disassembler) (w : Work) (pc : Nat) (s : ExecutionState) (i0 : Instruction)
    (nx0 : ExecutionState) : Work → DisItem → Prop
  | branch {v : Int} {t : Nat} {b : ExecutionState} {i : Instruction}
      (isBranch : i0.isLocalBranch = true) (value : i0.arg1.eval nullCtx = .ok v)
      (target : t = Address.addWrapped (nextAddr pc i0) v)
      (named : i = { i0 with arg1 := i0.arg1.applyLabel (getLabel d w t).1 })
      (taken : i.executeBranch s = .ok b) :
      FirstVisit d w pc s i0 nx0
        ⟨w.fresh.set pc ⟨[], i, false, s, nx0⟩, (getLabel d w t).2.labels,
          pushAll w.stack ((t, b) :: nextOuts pc i nx0), w.far, (getLabel d w t).2.sym⟩
        ⟨[], i, false, s, nx0⟩
  | plain (noBranch : i0.isLocalBranch = false) (noTarget : i0.farBranchTarget pc = .ok none) :
      FirstVisit d w pc s i0 nx0
        ⟨w.fresh.set pc ⟨[], i0, false, s, nx0⟩, w.labels, pushAll w.stack (nextOuts pc i0 nx0), w.far, w.sym⟩
        ⟨[], i0, false, s, nx0⟩
  | far {t : Nat} {i : Instruction} (noBranch : i0.isLocalBranch = false)
      (target : i0.farBranchTarget pc = .ok (some t))
      (convention : i = i0 ∨ ((i0.mnemonic = .jsr ∨ i0.mnemonic = .jsl) ∧
        ∃ r, d.conventions.find t = some r ∧ i = { i0 with ret := r }))
      (looked : (i0.mnemonic = .jsr ∨ i0.mnemonic = .jsl) → ∀ r, d.conventions.find t = some r → i.ret = r) :
      FirstVisit d w pc s i0 nx0
        ⟨w.fresh.set pc ⟨[], i, false, s, i.ret.applyTo nx0⟩, w.labels,
          pushAll w.stack (nextOuts pc i (i.ret.applyTo nx0)),
          w.far.upsert (fun old => old.merge nx0.flags) t nx0.flags, w.sym⟩
        ⟨[], i, false, s, i.ret.applyTo nx0⟩

theorem finish_visit (w : Work) (pc : Nat) (i : Instruction) (nx : ExecutionState) :
    (if i.isExitInstruction then Res.ok w else .ok (push w (nextAddr pc i) nx)) =
      .ok { w with stack := pushAll w.stack (nextOuts pc i nx) } := by
  unfold nextOuts
  split <;> rfl

theorem visitNew_inv {src : Source} {d : Disassembler} {w w' : Work} {pc : Nat} {s : ExecutionState}
    (h : visitNew src d w pc s = .ok w') : ∃ bytes i0 nx0 it, src pc 4 = .ok bytes ∧
      decode bytes s.flags = .ok i0 ∧ i0.execute s nullCtx = .ok nx0 ∧ FirstVisit d w pc s i0 nx0 w' it := by
  unfold visitNew at h
  replace h := Res.bind_eq_ok.mp h
  obtain ⟨bytes, h1, h⟩ := h
  replace h := Res.bind_eq_ok.mp h
  obtain ⟨i0, h2, h⟩ := h
  replace h := Res.bind_eq_ok.mp h
  obtain ⟨nx0, h3, h⟩ := h
  replace h := Res.bind_eq_ok.mp h
  obtain ⟨⟨i1, nx, w1⟩, h4, h⟩ := h
  replace h := Res.bind_eq_ok.mp h
  obtain ⟨⟨i2, w2⟩, h5, h⟩ := h
  simp only at h4 h5 h
  cases hb : i0.isLocalBranch with
  | true =>
    unfold farVisit at h4
    rw [branch_no_far hb, Res.bind_ok] at h4
    cases h4
    unfold branchVisit at h5
    rw [if_pos hb] at h5
    replace h5 := Res.bind_eq_ok.mp h5
    obtain ⟨v, hv, h5⟩ := h5
    simp only at h5
    replace h5 := Res.bind_eq_ok.mp h5
    obtain ⟨b, hbr, h5⟩ := h5
    cases h5
    generalize htt : Address.addWrapped (Address.addWrapped pc (instructionLength i0.mode)) v = t at h hbr
    have hr := getLabel_rest d w t
    refine ⟨bytes, i0, nx0, ⟨[], { i0 with arg1 := i0.arg1.applyLabel (getLabel d w t).1 }, false, s, nx0⟩,
      h1, h2, h3, ?_⟩
    have hfv := FirstVisit.branch (d := d) (w := w) (pc := pc) (s := s) (nx0 := nx0) hb (evalUnchecked_ok hv)
      htt.symm rfl hbr
    have hf := finish_visit
      { push (getLabel d w t).2 t b with
        fresh := (push (getLabel d w t).2 t b).fresh.set pc
          ⟨[], { i0 with arg1 := i0.arg1.applyLabel (getLabel d w t).1 }, false, s, nx0⟩ }
      pc { i0 with arg1 := i0.arg1.applyLabel (getLabel d w t).1 } nx0
    have h' := Res.ok.inj (hf.symm.trans h)
    rw [← h']
    convert hfv using 1
    simp only [push, hr, pushAll]
  | false =>
    have hno : ∀ i : Instruction, i.isLocalBranch = false → ∀ w, branchVisit d w
        (Address.addWrapped pc (instructionLength i0.mode)) i s = .ok (i, w) := by
      intro i hi w
      unfold branchVisit
      rw [if_neg (by rw [hi]; simp)]
    unfold farVisit at h4
    replace h4 := Res.bind_eq_ok.mp h4
    obtain ⟨t, ht, h4⟩ := h4
    cases t with
    | none =>
      cases h4
      rw [hno _ hb] at h5
      cases h5
      refine ⟨bytes, i0, nx0, ⟨[], i0, false, s, nx0⟩, h1, h2, h3, ?_⟩
      have h' := (finish_visit { w with fresh := w.fresh.set pc ⟨[], i0, false, s, nx0⟩ } pc i0 nx0).symm.trans h
      cases h'
      exact .plain hb ht
    | some t =>
      simp only at h4
      cases h4
      generalize hi : (if i0.mnemonic = .jsr ∨ i0.mnemonic = .jsl then
        match d.conventions.find t with
        | some r => { i0 with ret := r }
        | none => i0
        else i0 : Instruction) = i at h h5
      have hconv : i = i0 ∨ ((i0.mnemonic = .jsr ∨ i0.mnemonic = .jsl) ∧
          ∃ r, d.conventions.find t = some r ∧ i = { i0 with ret := r }) := by
        subst hi
        split
        · next hm =>
          split
          · next r hr => exact .inr ⟨hm, r, hr, rfl⟩
          · exact .inl rfl
        · exact .inl rfl
      have hlook : (i0.mnemonic = .jsr ∨ i0.mnemonic = .jsl) → ∀ r, d.conventions.find t = some r → i.ret = r := by
        intro hm r hr
        subst hi
        rw [if_pos hm, hr]
      have hmode : i.mode = i0.mode ∧ i.isLocalBranch = false := by
        rcases hconv with rfl | ⟨-, r, -, rfl⟩
        · exact ⟨rfl, hb⟩
        · exact ⟨rfl, hb⟩
      rw [hno _ hmode.2] at h5
      simp only [Res.ok.injEq, Prod.mk.injEq] at h5
      obtain ⟨rfl, rfl⟩ := h5
      refine ⟨bytes, i0, nx0, ⟨[], i, false, s, i.ret.applyTo nx0⟩, h1, h2, h3, ?_⟩
      rw [show Address.addWrapped pc (instructionLength i0.mode) = nextAddr pc i by
        rw [nextAddr, hmode.1]] at h
      have h' := (finish_visit
        { addFar w t nx0 with
          fresh := (addFar w t nx0).fresh.set pc ⟨[], i, false, s, i.ret.applyTo nx0⟩ }
        pc i (i.ret.applyTo nx0)).symm.trans h
      cases h'
      exact .far hb ht hconv hlook

/-- What is pushed for a local branch. -/
def BranchOuts (pc : Nat) (i : Instruction) (s : ExecutionState) (outs : List (Nat × ExecutionState)) : Prop :=
  (i.isLocalBranch = false ∧ outs = []) ∨
  (i.isLocalBranch = true ∧ ∃ v b, i.arg1.eval nullCtx = .ok v ∧ i.executeBranch s = .ok b ∧
    outs = [(Address.addWrapped (nextAddr pc i) v, b)])

/-- The far targets after a revisit. -/
def FarAfter (pc : Nat) (i : Instruction) (f : StatusFlags) (far far' : OMap StatusFlags) : Prop :=
  (i.farBranchTarget pc = .ok none ∧ far' = far) ∨
  ∃ t, i.farBranchTarget pc = .ok (some t) ∧ far' = far.upsert (fun old => old.merge f) t f

theorem pushAll_append (st : OMap ExecutionState) (as bs : List (Nat × ExecutionState)) :
    pushAll st (as ++ bs) = pushAll (pushAll st as) bs := by
  induction as generalizing st with
  | nil => rfl
  | cons a as ih => exact ih _

theorem visitOld_inv {src : Source} {w w' : Work} {pc : Nat} {s : ExecutionState} {di : DisItem}
    (h : visitOld src w pc s di = .ok w') :
    (s.merge di.current = di.current ∧ w' = w) ∨
    (s.merge di.current ≠ di.current ∧ ∃ bytes i0 nx far bo, src pc 4 = .ok bytes ∧
      decode bytes (s.merge di.current).flags = .ok i0 ∧
      di.instruction.execute (s.merge di.current) nullCtx = .ok nx ∧
      FarAfter pc di.instruction nx.flags w.far far ∧ BranchOuts pc di.instruction s bo ∧
      w' = ⟨w.fresh.set pc { di with current := s.merge di.current, next := nx }, w.labels,
        pushAll w.stack (nextOuts pc di.instruction nx ++ bo), far, w.sym⟩) := by
  unfold visitOld at h
  simp only at h
  by_cases hc : s.merge di.current = di.current
  · rw [if_pos hc] at h
    cases h
    exact .inl ⟨hc, rfl⟩
  · rw [if_neg hc] at h
    refine .inr ⟨hc, ?_⟩
    replace h := Res.bind_eq_ok.mp h
    obtain ⟨⟨⟩, h1, h⟩ := h
    replace h := Res.bind_eq_ok.mp h
    obtain ⟨nx, h2, h⟩ := h
    replace h := Res.bind_eq_ok.mp h
    obtain ⟨w1, h3, h⟩ := h
    unfold redecode at h1
    split at h1
    case h_2 => cases h1
    case h_3 => cases h1
    case h_1 bytes hb =>
      replace h1 := Res.bind_eq_ok.mp h1
      obtain ⟨i0, h1, -⟩ := h1
      have hp : (if di.instruction.isExitInstruction = true then
          ({ w with fresh := w.fresh.set pc { di with current := s.merge di.current, next := nx } } : Work)
          else push ({ w with fresh := w.fresh.set pc { di with current := s.merge di.current, next := nx } } : Work)
            (Address.addWrapped pc (instructionLength di.instruction.mode)) nx) =
          ⟨w.fresh.set pc { di with current := s.merge di.current, next := nx }, w.labels,
            pushAll w.stack (nextOuts pc di.instruction nx), w.far, w.sym⟩ := by
        unfold nextOuts; split <;> rfl
      rw [hp] at h3
      unfold farRevisit at h3
      replace h3 := Res.bind_eq_ok.mp h3
      obtain ⟨t, ht, h3⟩ := h3
      have hw1 : ∃ far, FarAfter pc di.instruction nx.flags w.far far ∧
          w1 = ⟨w.fresh.set pc { di with current := s.merge di.current, next := nx }, w.labels,
            pushAll w.stack (nextOuts pc di.instruction nx), far, w.sym⟩ := by
        cases t with
        | none => cases h3; exact ⟨_, .inl ⟨ht, rfl⟩, rfl⟩
        | some t => cases h3; exact ⟨_, .inr ⟨t, ht, rfl⟩, rfl⟩
      obtain ⟨far, hfar, rfl⟩ := hw1
      unfold branchRevisit at h
      by_cases hl : di.instruction.isLocalBranch = true
      · rw [if_pos hl] at h
        replace h := Res.bind_eq_ok.mp h
        obtain ⟨b, hbr, h⟩ := h
        replace h := Res.bind_eq_ok.mp h
        obtain ⟨v, hv, h⟩ := h
        cases h
        refine ⟨bytes, i0, nx, far, _, hb, h1, h2, hfar,
          .inr ⟨hl, v, b, evalUnchecked_ok hv, hbr, rfl⟩, ?_⟩
        simp only [push, pushAll_append, pushAll, nextAddr]
      · rw [if_neg hl] at h
        cases h
        refine ⟨bytes, i0, nx, far, _, hb, h1, h2, hfar, .inl ⟨by simpa using hl, rfl⟩, ?_⟩
        simp only [List.append_nil]

/-! ## The view of the two maps -/

/-- What `get_instruction` would find. -/
def look (d : Disassembler) (fresh : OMap DisItem) (a : Nat) : Option DisItem :=
  match fresh.find a with
  | some it => some it
  | none => d.disassembly.find a

theorem getInstruction_look (d : Disassembler) (w : Work) (a : Nat) :
    (getInstruction d w a).1 = look d w.fresh a := by
  unfold getInstruction look
  split
  · rename_i h; rw [h]
  · rename_i h; rw [h]
    split
    · rename_i h; rw [h]
    · rename_i h; rw [h]

theorem getInstruction_rest (d : Disassembler) (w : Work) (hs : OMap.Sorted w.fresh) (a : Nat) :
    (∀ b, look d (getInstruction d w a).2.fresh b = look d w.fresh b) ∧
    OMap.Sorted (getInstruction d w a).2.fresh ∧
    (getInstruction d w a).2.labels = w.labels ∧ (getInstruction d w a).2.stack = w.stack ∧
    (getInstruction d w a).2.far = w.far ∧ (getInstruction d w a).2.sym = w.sym := by
  unfold getInstruction
  split
  · exact ⟨fun _ => rfl, hs, rfl, rfl, rfl, rfl⟩
  · rename_i hn
    split
    · rename_i it hit
      refine ⟨fun b => ?_, OMap.sorted_upsert hs _ _, rfl, rfl, rfl, rfl⟩
      simp only [look, OMap.set]
      rw [OMap.find_upsert hs]
      by_cases hab : a = b
      · subst hab
        simp [hn, hit]
      · rw [if_neg hab]
    · exact ⟨fun _ => rfl, hs, rfl, rfl, rfl, rfl⟩

theorem look_set {d : Disassembler} {fresh : OMap DisItem} (hs : OMap.Sorted fresh) (a b : Nat) (it : DisItem) :
    look d (fresh.set a it) b = if a = b then some it else look d fresh b := by
  simp only [look, OMap.set]
  rw [OMap.find_upsert hs]
  by_cases hab : a = b
  · subst hab
    rw [if_pos rfl, if_pos rfl]
    cases fresh.find a <;> rfl
  · rw [if_neg hab, if_neg hab]

theorem step_inv {src : Source} {d : Disassembler} {w w' : Work} (h : step src d w = .ok (some w')) :
    ∃ pc s rest w1, w.stack = (pc, s) :: rest ∧ w1 = (getInstruction d { w with stack := rest } pc).2 ∧
      ((look d w.fresh pc = none ∧ visitNew src d w1 pc s = .ok w') ∨
       ∃ di, look d w.fresh pc = some di ∧ visitOld src w1 pc s di = .ok w') := by
  unfold step at h
  split at h
  · cases h
  · rename_i pc s rest hst
    refine ⟨pc, s, rest, _, hst, rfl, ?_⟩
    simp only at h
    have hl := getInstruction_look d { w with stack := rest } pc
    split at h
    · rename_i w1 hg
      rw [hg] at hl ⊢
      replace h := Res.bind_eq_ok.mp h
      obtain ⟨w2, h1, h⟩ := h
      cases h
      exact .inl ⟨hl.symm, h1⟩
    · rename_i di w1 hg
      rw [hg] at hl ⊢
      replace h := Res.bind_eq_ok.mp h
      obtain ⟨w2, h1, h⟩ := h
      cases h
      exact .inr ⟨di, hl.symm, h1⟩
