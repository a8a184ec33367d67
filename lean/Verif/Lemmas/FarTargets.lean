import Verif.Lemmas.Closed
import Verif.Lemmas.Targets

/-! # The targets that the disassembler reports -/

namespace Nsasm
open Spec Props Disassembler

theorem reported_session {P : StatusFlags → Prop} {src : Source} {d : Disassembler} {log : List (OMap StatusFlags)}
    (h : Reported P src d log) : Session P src d := by
  induction h with
  | new => exact .new
  | table _ sorted ok ih => exact .table ih sorted ok
  | call _ address ok result ih => exact .call ih address ok result trivial
  | failed _ address ok result ended ih => exact .call ih address ok result ended

theorem jumpsTo_far {i : Instruction} {a t : Nat} (h : JumpsTo i a t) : i.farBranchTarget a = .ok (some t) := by
  unfold Instruction.farBranchTarget
  cases h with
  | long mode jump value bound =>
    rw [if_pos ⟨mode, jump⟩, value]
    have : Address.ofInt (t : Int) = .ok t := by
      unfold Address.ofInt
      rw [if_pos (by omega)]
      simp
    simp only [this, Res.bind_ok]
  | near mode jump value bound target =>
    rw [if_neg (by rw [mode]; simp), if_pos ⟨mode, jump⟩, value]
    simp only [Address.ofBank, Address.bank, Res.ok.injEq, Option.some.injEq]
    omega

/-- An upsert only makes flags less specific. -/
theorem far_grows {far : OMap StatusFlags} (hs : OMap.Sorted far) (t : Nat) (f : StatusFlags) :
    OMap.Sorted (far.upsert (fun old => old.merge f) t f) ∧
    (∀ x g, far.find x = some g → ∃ g', OMap.find (far.upsert (fun old => old.merge f) t f) x = some g' ∧
      FlagsBelow g g') ∧
    (∃ g, OMap.find (far.upsert (fun old => old.merge f) t f) t = some g ∧ FlagsBelow f g) ∧
    (∀ x g, OMap.find (far.upsert (fun old => old.merge f) t f) x = some g →
      x = t ∨ ∃ g', far.find x = some g') := by
  refine ⟨OMap.sorted_upsert hs _ _, fun x g hg => ?_, ?_, fun x g hg => ?_⟩
  · rw [OMap.find_upsert hs]
    by_cases hx : t = x
    · subst hx
      rw [if_pos rfl, hg]
      exact ⟨_, rfl, .left _ _⟩
    · rw [if_neg hx]
      exact ⟨g, hg, .refl _⟩
  · rw [OMap.find_upsert hs, if_pos rfl]
    cases hf : far.find t with
    | none => exact ⟨_, rfl, .refl _⟩
    | some g => exact ⟨_, rfl, .right _ _⟩
  · rw [OMap.find_upsert hs] at hg
    by_cases hx : t = x
    · exact .inl hx.symm
    · rw [if_neg hx] at hg; exact .inr ⟨g, hg⟩

/-- The flags after a call without a `yields` convention cover the flags before. -/
theorem jump_flags {i : Instruction} {s nx : ExecutionState} {ctx : Ctx} {a t : Nat}
    (ht : i.farBranchTarget a = .ok (some t)) (hr : ∀ f, i.ret ≠ .yields f) (h : i.execute s ctx = .ok nx) :
    FlagsBelow s.flags nx.flags := by
  rw [execute_jump (far_mnemonic ht) h]
  have : (i.ret.yieldFlags).getD s.flags = s.flags := by
    cases hi : i.ret with
    | default => rfl
    | noreturn => rfl
    | yields f => exact absurd hi (hr f)
  rw [this]
  intro o p _ ⟨h1, h2, h3, _⟩
  exact ⟨h1, h2, h3, trivial⟩

/-- What the loop knows about far targets. -/
structure FarOk (d : Disassembler) (w : Work) : Prop where
  sorted : OMap.Sorted w.far
  covers : ∀ a it t, look d w.fresh a = some it → it.instruction.farBranchTarget a = .ok (some t) →
    (∀ f, it.instruction.ret ≠ .yields f) →
    (∃ old, d.disassembly.find a = some old ∧ old.current = it.current ∧ old.instruction = it.instruction) ∨
    ∃ f, w.far.find t = some f ∧ FlagsBelow it.current.flags f
  only : ∀ t f, w.far.find t = some f →
    ∃ a it, look d w.fresh a = some it ∧ it.instruction.farBranchTarget a = .ok (some t)

theorem far_step {src : Source} {d : Disassembler} {w w' : Work} (ht : Tidy d w) (hf : FarOk d w)
    (h : step src d w = .ok (some w')) : FarOk d w' := by
  obtain ⟨pc, s, rest, it, outs, hst, hr, he⟩ := step_round ht.fresh h
  -- what a new item with no new target needs
  have key : ∀ far', w'.far = far' → OMap.Sorted far' →
      (∀ x g, w.far.find x = some g → ∃ g', OMap.find far' x = some g' ∧ FlagsBelow g g') →
      (∀ t, it.instruction.farBranchTarget pc = .ok (some t) → (∀ f, it.instruction.ret ≠ .yields f) →
        (∃ old, d.disassembly.find pc = some old ∧ old.current = it.current ∧ old.instruction = it.instruction) ∨
        ∃ f, OMap.find far' t = some f ∧ FlagsBelow it.current.flags f) →
      (∀ x g, OMap.find far' x = some g → (∃ g', w.far.find x = some g') ∨
        it.instruction.farBranchTarget pc = .ok (some x)) →
      (∀ jt, look d w.fresh pc = some jt → ∀ t, jt.instruction.farBranchTarget pc = .ok (some t) →
        it.instruction.farBranchTarget pc = .ok (some t)) → FarOk d w' := by
    intro far' hw hs hmono hcov honly hsame
    refine ⟨hw ▸ hs, ?_, ?_⟩
    · intro a jt t hl hj hret
      rw [he.look] at hl
      rw [hw]
      by_cases ha : pc = a
      · rw [if_pos ha] at hl
        cases hl
        subst ha
        exact hcov t hj hret
      · rw [if_neg ha] at hl
        rcases hf.covers a jt t hl hj hret with h | ⟨f, h1, h2⟩
        · exact .inl h
        · obtain ⟨g, h3, h4⟩ := hmono t f h1
          exact .inr ⟨g, h3, h2.trans h4⟩
    · intro t f hff
      rw [hw] at hff
      rcases honly t f hff with ⟨g, hg⟩ | hh
      · obtain ⟨a, jt, h1, h2⟩ := hf.only t g hg
        by_cases ha : pc = a
        · subst ha
          exact ⟨pc, it, by rw [he.look, if_pos rfl], hsame jt h1 t h2⟩
        · exact ⟨a, jt, by rw [he.look, if_neg ha]; exact h1, h2⟩
      · exact ⟨pc, it, by rw [he.look, if_pos rfl], hh⟩
  cases hr with
  | skip seen same far labels sym =>
    refine key w.far far hf.sorted (fun x g hg => ⟨g, hg, .refl _⟩) (fun t h1 h2 => hf.covers pc it t seen h1 h2)
      (fun x g hg => .inl ⟨g, hg⟩) (fun jt hj t h => ?_)
    rw [seen] at hj; cases hj; exact h
  | first unseen read decoded executed visit =>
    rename_i bytes i0 nx0
    have hun : ∀ jt, look d w.fresh pc = some jt → ∀ t, jt.instruction.farBranchTarget pc = .ok (some t) →
        it.instruction.farBranchTarget pc = .ok (some t) := by
      intro jt hj; rw [unseen] at hj; cases hj
    have hd := decode_ret decoded
    cases visit with
    | branch isBranch value target named taken =>
      have hnf := branch_no_far isBranch pc
      subst named
      refine key w.far rfl hf.sorted (fun x g hg => ⟨g, hg, .refl _⟩) (fun t h1 h2 => ?_)
        (fun x g hg => .inl ⟨g, hg⟩) hun
      simp only at h1
      rw [branch_no_far (by exact isBranch) pc] at h1
      cases h1
    | plain noBranch noTarget =>
      refine key w.far rfl hf.sorted (fun x g hg => ⟨g, hg, .refl _⟩) (fun t h1 h2 => ?_)
        (fun x g hg => .inl ⟨g, hg⟩) hun
      simp only at h1
      rw [noTarget] at h1
      cases h1
    | far noBranch target convention looked =>
      rename_i t i
      obtain ⟨g1, g2, ⟨f, g3, g4⟩, g5⟩ := far_grows hf.sorted t nx0.flags
      have hsame : i.farBranchTarget pc = i0.farBranchTarget pc := by
        rcases convention with rfl | ⟨-, r, -, rfl⟩
        · rfl
        · rfl
      refine key _ rfl g1 g2 (fun x h1 h2 => .inr ?_) (fun x g hg => ?_) hun
      · simp only at h1
        rw [hsame, target] at h1
        cases h1
        exact ⟨f, g3, (jump_flags target (fun f hf => by rw [hd.1] at hf; cases hf) executed).trans g4⟩
      · rcases g5 x g hg with rfl | hh
        · exact .inr (by simp only; rw [hsame, target])
        · exact .inl hh
  | again seen change read decoded executed far branch labels sym =>
    rename_i di bytes i0 nx bo
    have hsame : ∀ jt, look d w.fresh pc = some jt → ∀ t, jt.instruction.farBranchTarget pc = .ok (some t) →
        di.instruction.farBranchTarget pc = .ok (some t) := by
      intro jt hj t ht
      rw [seen] at hj; cases hj; exact ht
    rcases far with ⟨hn, hw⟩ | ⟨t, hn, hw⟩
    · refine key w.far hw hf.sorted (fun x g hg => ⟨g, hg, .refl _⟩) (fun t h1 h2 => ?_)
        (fun x g hg => .inl ⟨g, hg⟩) hsame
      simp only at h1
      rw [hn] at h1
      cases h1
    · obtain ⟨g1, g2, ⟨f, g3, g4⟩, g5⟩ := far_grows hf.sorted t nx.flags
      refine key _ hw g1 g2 (fun x h1 h2 => .inr ?_) (fun x g hg => ?_) hsame
      · simp only at h1
        rw [hn] at h1
        cases h1
        exact ⟨f, g3, (jump_flags hn h2 executed).trans g4⟩
      · rcases g5 x g hg with rfl | hh
        · exact .inr hn
        · exact .inl hh

/-- A call's report. -/
theorem call_report {src : Source} {d d' : Disassembler} (h : Closed src d) {fuel start : Nat}
    (hs : start ≤ 0x1000000) {flags : StatusFlags} (hfl : Normal flags) {T : OMap StatusFlags}
    (hr : d.disassemble fuel src start flags = (d', .ok T)) :
    (∀ a it t, d'.disassembly.find a = some it → it.instruction.farBranchTarget a = .ok (some t) →
      (∀ f, it.instruction.ret ≠ .yields f) →
      (∃ old, d.disassembly.find a = some old ∧ old.current = it.current ∧
        old.instruction.farBranchTarget a = .ok (some t) ∧ old.instruction.ret = it.instruction.ret) ∨
      ∃ f, T.find t = some f ∧ FlagsBelow it.current.flags f) ∧
    (∀ t f, T.find t = some f →
      ∃ a it, d'.disassembly.find a = some it ∧ it.instruction.farBranchTarget a = .ok (some t)) := by
  unfold disassemble at hr
  simp only at hr
  split at hr
  case h_2 => cases hr
  case h_3 => cases hr
  case h_1 w hrun =>
    cases hr
    obtain ⟨l1, l2, l3, l4⟩ := loop_flow h hs hfl hrun
    have hst := l4 rfl
    obtain ⟨b1, -, b3⟩ := begin_shape d start flags
    have hb := begin_flow h hs hfl
    have h0 : FarOk d (begin d start flags) := by
      refine ⟨by rw [b3]; exact List.Pairwise.nil, fun a it t hl _ _ => ?_, fun t f hf => ?_⟩
      · rw [b1] at hl
        exact .inl ⟨it, hl, rfl, rfl⟩
      · rw [b3] at hf; cases hf
    obtain ⟨⟨-, i2⟩, -⟩ := run_invariant (src := src) (d := d) (I := fun w => Flow src d w ∧ FarOk d w)
      (fun w w' hw h => ⟨flow_step hw.1 h, far_step hw.1.tidy hw.2 h⟩) fuel
      (begin d start flags) w _ ⟨hb.1, h0⟩ hrun
    obtain ⟨f1, f2⟩ := finish_look h.proper.sorted l1.tidy l2 hst
    have hcur : ∀ a jt, (finish d w).find a = some jt → ∃ it, look d w.fresh a = some it ∧
        jt.current = it.current ∧ jt.instruction.farBranchTarget a = it.instruction.farBranchTarget a ∧
        jt.instruction.ret = it.instruction.ret := by
      intro a jt ha
      obtain ⟨it, h1, ⟨s, l, h2, h3⟩, -⟩ := f1 a jt ha
      refine ⟨it, h1, ?_, by rw [h3]; rfl, by rw [h3]⟩
      rw [h2]
      by_cases hfr : (w.fresh.find a).isSome
      · simp only [if_pos hfr]; exact (addSuffix_rest it).2.2.1
      · simp only [if_neg hfr, Bool.false_eq_true, if_false]
    constructor
    · intro a jt t ha hj hret
      obtain ⟨it, h1, h2, h3, h4⟩ := hcur a jt ha
      rw [h3] at hj
      rw [h4] at hret
      rcases i2.covers a it t h1 hj hret with ⟨old, o1, o2, o3⟩ | hh
      · exact .inl ⟨old, o1, by rw [o2, h2], by rw [o3]; exact hj, by rw [o3, h4]⟩
      · exact .inr (by rw [h2]; exact hh)
    · intro t f hf
      obtain ⟨a, it, h1, h2⟩ := i2.only t f hf
      obtain ⟨jt, hj⟩ := f2 a it h1
      obtain ⟨it', h1', -, h3, -⟩ := hcur a jt hj
      rw [h1] at h1'
      cases h1'
      exact ⟨a, jt, hj, by rw [h3]; exact h2⟩

end Nsasm
