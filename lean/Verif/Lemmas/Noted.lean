import Verif.Lemmas.Brought

/-! # Which targets of calls and jumps a call of the disassembler returns -/

namespace Nsasm.Brought
open Nsasm Spec Props Disassembler

/-- Targets of calls and jumps that are listed for the first time have been noted. -/
structure Noted (d : Disassembler) (w : Work) : Prop where
  sorted : OMap.Sorted w.far
  noted : ∀ a it t, look d w.fresh a = some it → it.instruction.farBranchTarget a = .ok (some t) →
    d.disassembly.find a = none → ∃ f, w.far.find t = some f

theorem noted_step {src : Source} {d : Disassembler} {w w' : Work} (ht : Tidy d w) (hf : Noted d w)
    (h : step src d w = .ok (some w')) : Noted d w' := by
  obtain ⟨pc, s, rest, it, outs, hst, hr, he⟩ := step_round ht.fresh h
  have key : ∀ far', w'.far = far' → OMap.Sorted far' →
      (∀ x g, w.far.find x = some g → ∃ g', OMap.find far' x = some g') →
      (∀ t, it.instruction.farBranchTarget pc = .ok (some t) → d.disassembly.find pc = none →
        ∃ f, OMap.find far' t = some f) → Noted d w' := by
    intro far' hw hs hmono hcov
    refine ⟨hw ▸ hs, fun a jt t hl hj hn => ?_⟩
    rw [he.look] at hl
    rw [hw]
    by_cases ha : pc = a
    · rw [if_pos ha] at hl
      cases hl
      subst ha
      exact hcov t hj hn
    · rw [if_neg ha] at hl
      obtain ⟨f, h1⟩ := hf.noted a jt t hl hj hn
      exact hmono t f h1
  cases hr with
  | skip seen same far labels sym =>
    exact key w.far far hf.sorted (fun x g hg => ⟨g, hg⟩) (fun t h1 h2 => hf.noted pc it t seen h1 h2)
  | first unseen read decoded executed visit =>
    rename_i bytes i0 nx0
    cases visit with
    | branch isBranch value target named taken =>
      subst named
      refine key w.far rfl hf.sorted (fun x g hg => ⟨g, hg⟩) (fun t h1 h2 => ?_)
      simp only at h1
      rw [branch_no_far (by exact isBranch) pc] at h1
      cases h1
    | plain noBranch noTarget =>
      refine key w.far rfl hf.sorted (fun x g hg => ⟨g, hg⟩) (fun t h1 h2 => ?_)
      simp only at h1
      rw [noTarget] at h1
      cases h1
    | far noBranch target convention looked =>
      rename_i t i
      obtain ⟨g1, g2, ⟨f, g3, -⟩, -⟩ := far_grows hf.sorted t nx0.flags
      have hsame : i.farBranchTarget pc = i0.farBranchTarget pc := by
        rcases convention with rfl | ⟨-, r, -, rfl⟩
        · rfl
        · rfl
      refine key _ rfl g1 (fun x g hg => ?_) (fun x h1 h2 => ?_)
      · obtain ⟨g', h, -⟩ := g2 x g hg
        exact ⟨g', h⟩
      · simp only at h1
        rw [hsame, target] at h1
        cases h1
        exact ⟨f, g3⟩
  | again seen change read decoded executed far branch labels sym =>
    rename_i di bytes i0 nx bo
    rcases far with ⟨hn, hw⟩ | ⟨t, hn, hw⟩
    · exact key w.far hw hf.sorted (fun x g hg => ⟨g, hg⟩) (fun t h1 h2 => hf.noted pc di t seen h1 h2)
    · obtain ⟨g1, g2, ⟨f, g3, -⟩, -⟩ := far_grows hf.sorted t nx.flags
      refine key _ hw g1 (fun x g hg => ?_) (fun x h1 h2 => ?_)
      · obtain ⟨g', h, -⟩ := g2 x g hg
        exact ⟨g', h⟩
      · simp only at h1
        rw [hn] at h1
        cases h1
        exact ⟨f, g3⟩

/-- What a call returns has the targets of whatever it lists for the first time. -/
theorem call_notes {src : Source} {d d' : Disassembler} (h : Closed src d) {fuel start : Nat}
    (hs : start ≤ 0x1000000) {flags : StatusFlags} (hfl : Normal flags) {T : OMap StatusFlags}
    (hr : d.disassemble fuel src start flags = (d', .ok T)) {a t : Nat} {it : DisItem}
    (ha : d'.disassembly.find a = some it) (hj : it.instruction.farBranchTarget a = .ok (some t))
    (hn : d.disassembly.find a = none) : ∃ f, T.find t = some f := by
  unfold disassemble at hr
  simp only at hr
  split at hr
  case h_2 => cases hr
  case h_3 => cases hr
  case h_1 w hrun =>
    cases hr
    obtain ⟨l1, l2, l3, l4⟩ := loop_flow h hs hfl hrun
    obtain ⟨b1, -, b3⟩ := begin_shape d start flags
    have h0 : Noted d (begin d start flags) := by
      refine ⟨by rw [b3]; exact List.Pairwise.nil, fun a it t hl _ hn => ?_⟩
      rw [b1] at hl
      rw [show look d [] a = d.disassembly.find a from rfl, hn] at hl
      cases hl
    obtain ⟨⟨-, i2⟩, -⟩ := run_invariant (src := src) (d := d) (I := fun w => Flow src d w ∧ Noted d w)
      (fun w w' hw h => ⟨flow_step hw.1 h, noted_step hw.1.tidy hw.2 h⟩) fuel
      (begin d start flags) w _ ⟨(begin_flow h hs hfl).1, h0⟩ hrun
    obtain ⟨f1, -⟩ := finish_look h.proper.sorted l1.tidy l2 (l4 rfl)
    obtain ⟨jt, h1, ⟨s, l, -, h3⟩, -⟩ := f1 a it ha
    rw [h3] at hj
    exact i2.noted a jt t h1 hj hn

end Nsasm.Brought
