import Verif.Lemmas.Fitting
import Verif.Spec.Accept

/-! # Entry points -/

namespace Nsasm
open Spec Props Disassembler Parse

/-- Before Cleanup nothing is marked as an entry point. -/
def Unmarked (d : Disassembler) : Prop := ∀ a it, d.disassembly.find a = some it → it.isEntry = false

theorem unmarked_step {src : Source} {d : Disassembler} {w w' : Work} (ht : Tidy d w)
    (hn : ∀ a it, look d w.fresh a = some it → it.isEntry = false)
    (h : step src d w = .ok (some w')) : ∀ a it, look d w'.fresh a = some it → it.isEntry = false := by
  obtain ⟨pc, s, rest, it, outs, hst, hr, he⟩ := step_round ht.fresh h
  intro a jt hl
  rw [he.look] at hl
  by_cases ha : pc = a
  · rw [if_pos ha] at hl
    cases hl
    cases hr with
    | skip seen => exact hn pc _ seen
    | first unseen read decoded executed visit => exact (first_item visit).2.2.1
    | @again di _ _ _ _ seen => exact hn pc di seen
  · rw [if_neg ha] at hl
    exact hn a jt hl

theorem disassemble_unmarked {src : Source} {d d' : Disassembler} (h : Closed src d) (hn : Unmarked d) {fuel start : Nat}
    (hs : start ≤ 0x1000000) {flags : StatusFlags} (hf : Normal flags) {r : Res (OMap StatusFlags)}
    (hr : d.disassemble fuel src start flags = (d', r)) : Unmarked d' := by
  unfold disassemble at hr
  simp only at hr
  split at hr
  · rename_i w hrun
    cases hr
    obtain ⟨l1, l2, l3, l4⟩ := loop_flow h hs hf hrun
    obtain ⟨h1, h2, -⟩ := begin_shape d start flags
    have hw : ∀ a it, look d w.fresh a = some it → it.isEntry = false := by
      have hb := begin_flow h hs hf
      obtain ⟨⟨-, i3⟩, -⟩ := run_invariant (src := src) (d := d)
        (I := fun w => Flow src d w ∧ ∀ a it, look d w.fresh a = some it → it.isEntry = false)
        (fun w w' hw h => ⟨flow_step hw.1 h, unmarked_step hw.1.tidy hw.2 h⟩) fuel (begin d start flags) w _
        ⟨hb.1, fun a it hl => by
          unfold look at hl
          rw [h1] at hl
          exact hn a it (by simpa [OMap.find] using hl)⟩ hrun
      exact i3
    obtain ⟨f1, -⟩ := finish_look h.proper.sorted l1.tidy l2 (l4 rfl)
    intro a jt ha
    obtain ⟨it, g1, ⟨s, l, g2, -⟩, -⟩ := f1 a jt ha
    have := hw a it g1
    rw [g2]
    split
    · exact (addSuffix_rest it).2.1.trans this
    · exact this
  · cases hr; exact hn
  · cases hr; exact hn

theorem renameLabels_marks (entries : OMap Unit) : ∀ (m : OMap DisItem) (nl ne : Nat) (r : List (Str × Str)) m' r',
    renameLabels entries nl ne r m = (m', r') → (∀ p ∈ m, p.2.isEntry = false) →
    ∀ a jt, OMap.find m' a = some jt → jt.isEntry = true → (entries.find a).isSome := by
  intro m
  induction m with
  | nil => intro nl ne r m' r' h; cases h; simp [OMap.find]
  | cons x m ih =>
    intro nl ne r m' r' h hm a jt ha hl
    have ih := fun nl ne r m' r' h => ih nl ne r m' r' h fun p hp => hm p (List.mem_cons_of_mem _ hp)
    have h0 := hm x List.mem_cons_self
    obtain ⟨k, it⟩ := x
    unfold renameLabels at h
    by_cases hb : it.label = []
    · rw [if_pos hb] at h
      generalize hrr : renameLabels entries nl ne r m = p at h
      obtain ⟨m1, r1⟩ := p
      cases h
      rw [OMap.find] at ha
      split at ha
      · cases ha; simp only at h0; rw [h0] at hl; cases hl
      · exact ih _ _ _ _ _ hrr a jt ha hl
    · rw [if_neg hb] at h
      by_cases he : (entries.find k).isSome
      · rw [if_pos he] at h
        simp only at h
        generalize hrr : renameLabels entries nl (ne + 1) ((it.label, cs!"entry" ++ decimal (ne + 1)) :: r) m = p at h
        obtain ⟨m1, r1⟩ := p
        cases h
        rw [OMap.find] at ha
        split at ha
        · rename_i hka; cases ha; rw [← hka, he]
        · exact ih _ _ _ _ _ hrr a jt ha hl
      · rw [if_neg he] at h
        simp only at h
        generalize hrr : renameLabels entries (nl + 1) ne ((it.label, cs!"label" ++ decimal (nl + 1)) :: r) m = p at h
        obtain ⟨m1, r1⟩ := p
        cases h
        rw [OMap.find] at ha
        split at ha
        · cases ha; cases hl
        · exact ih _ _ _ _ _ hrr a jt ha hl

theorem cleanup_marks {d d' : Disassembler} (hs : OMap.Sorted d.disassembly) (hd : DistinctLabels d.disassembly)
    (hu : Unmarked d) (h : d.cleanup = .ok d') {a : Nat} {jt : DisItem} (ha : d'.disassembly.find a = some jt)
    (he : jt.isEntry = true) : (d.entryPoints.find a).isSome := by
  unfold cleanup at h
  generalize hr : renameLabels d.entryPoints 0 0 [] d.disassembly = p at h
  obtain ⟨named, r⟩ := p
  simp only at h
  obtain ⟨fars, hf, h⟩ := Res.bind_eq_ok.1 h
  cases h
  have hk := (renameLabels_spec d.entryPoints d.disassembly 0 0 [] hs hd named r hr).1
  obtain ⟨f1, f2⟩ := nameFars_spec _ _ hf
  have hkeys : fars.map Prod.fst = d.disassembly.map Prod.fst := by
    rw [f1, ← hk, List.map_map]
    rfl
  obtain ⟨it, h1, h2⟩ := (fold_spec fars ((OMap.sorted_keys hkeys).1 hs)).1 a jt ha
  obtain ⟨e1, e2, -⟩ := folded_rest h2
  obtain ⟨x, hx, hfn⟩ := f2 a it h1
  rw [OMap.find_map (fun it : DisItem =>
    ({ it with instruction := { it.instruction with arg1 := rewriteOperand r it.instruction.arg1 } } : DisItem))] at hx
  obtain ⟨y, hy, rfl⟩ := Option.map_eq_some_iff.1 hx
  rw [e2, hfn.isEntry] at he
  exact renameLabels_marks d.entryPoints d.disassembly 0 0 [] named r hr
    (fun p hp => hu p.1 p.2 (OMap.find_of_mem hs hp)) a y hy he

/-! ## Calls that all succeed -/

theorem written_constructible {f : StatusFlags} (h : HasName f) : Constructible f := by
  obtain ⟨name, h⟩ := h
  unfold StatusFlags.fromName at h
  simp only at h
  split at h
  · cases h; exact ⟨_, _, _, _, rfl⟩
  split at h
  · cases h; exact ⟨_, _, _, _, rfl⟩
  split at h
  · cases h; exact ⟨_, _, _, _, rfl⟩
  split at h
  · cases h
  split at h
  · cases h
  split at h
  · cases h
  split at h
  · cases h; exact ⟨_, _, _, _, rfl⟩
  · cases h

theorem explored_session {src : Source} {d : Disassembler} (h : Explored src d) : Session HasName src d := by
  induction h with
  | new => exact .new
  | table before sorted ok ih => exact .table ih sorted ok
  | call before address ok carry result ih => exact .call ih address ok result trivial

theorem session_unmarked {src : Source} {d : Disassembler} (h : Session FlagsWritten src d) : Unmarked d := by
  induction h with
  | new => intro a it ha; simp [Disassembler.empty, OMap.find] at ha
  | table before sorted ok ih => exact ih
  | call before address ok result ended ih =>
    exact disassemble_unmarked (session_closed before) ih address (constructible_normal ok) result

/-- What is recorded at an entry point covers what was given there. -/
theorem explored_entries {src : Source} {d : Disassembler} (h : Explored src d) :
    ∀ a, (d.entryPoints.find a).isSome → ∃ it f, d.disassembly.find a = some it ∧ (Constructible f ∧ f.c = .unknown) ∧
      Above it.current (.init f) := by
  induction h with
  | new => intro a ha; simp [Disassembler.empty, OMap.find] at ha
  | table before sorted ok ih => exact ih
  | @call d d' fuel start flags far before address ok carry result ih =>
    have hc := session_closed (explored_session before)
    have hn : Normal flags := constructible_normal ok
    have hr := session_reached (explored_session before)
    obtain ⟨-, h2⟩ := disassemble_closed hc address hn result
    have hc' := (disassemble_closed hc address hn result).1
    have hen : d'.entryPoints = d.entryPoints.set start () := by
      unfold disassemble at result
      simp only at result
      split at result <;> cases result <;> rfl
    intro a ha
    rw [hen, find_entries hr.entries] at ha
    by_cases hsa : start = a
    · subst hsa
      obtain ⟨jt, h3, h4⟩ := h2 rfl
      exact ⟨jt, flags, h3, ⟨ok, carry⟩, h4⟩
    · have hold : (d.entryPoints.find a).isSome := by simpa [hsa, Ne.symm hsa, fun h => hsa (Eq.symm h)] using ha
      obtain ⟨it, f, h3, h4, h5⟩ := ih a hold
      obtain ⟨jt, h6, h7⟩ := disassemble_keeps hc address hn result h3
      exact ⟨jt, f, h6, h4, h7.trans (closed_normal hc' h6).1 (closed_normal hc h3).1 (normal_init (constructible_normal h4.1)) h5⟩

/-! ## Declared entry points -/

theorem declared_flags : ∀ e m x c : BitState, Normal ⟨e, m, x, c⟩ → ¬ Decided c → (Decided e ∨ ¬ Decided m ∧ ¬ Decided x) →
    ∀ f, StatusFlags.fromName (StatusFlags.toName ⟨e, m, x, c⟩) = some f →
      BitAbove e f.setIncoming.e ∧ BitAbove m f.setIncoming.m ∧ BitAbove x f.setIncoming.x ∧ BitAbove c f.setIncoming.c := by
  have key : ∀ e m x c : BitState, Normal ⟨e, m, x, c⟩ → ¬ Decided c → (Decided e ∨ ¬ Decided m ∧ ¬ Decided x) →
      (match StatusFlags.fromName (StatusFlags.toName ⟨e, m, x, c⟩) with
        | none => true
        | some f => decide (BitAbove e f.setIncoming.e ∧ BitAbove m f.setIncoming.m ∧ BitAbove x f.setIncoming.x ∧
            BitAbove c f.setIncoming.c)) = true := by
    intro e m x c
    cases e <;> cases m <;> cases x <;> cases c <;> decide +kernel
  intro e m x c h1 h2 h3 f hf
  have := key e m x c h1 h2 h3
  rw [hf] at this
  exact of_decide_eq_true this

theorem declared_above {s : ExecutionState} (hn : NormalState s) (hd : Declarable s) {f : StatusFlags}
    (hf : StatusFlags.fromName s.flags.toName = some f) : StateAbove s (.init f) := by
  obtain ⟨h1, h2, h3⟩ := hd
  obtain ⟨k1, k2, k3, k4⟩ := declared_flags s.flags.e s.flags.m s.flags.x s.flags.c hn.1 h1 h2 f hf
  refine ⟨⟨k1, k2, k3, k4⟩, ?_⟩
  rcases h3 with h | h <;> rw [h]
  · exact .live .nil
  · exact .abandoned

theorem settled_sizes {it : DisItem} (h : SizeSettled it) : SizesKnown it.instruction it.current.flags := by
  refine ⟨?_, ?_⟩
  · rintro (⟨h1, h2⟩ | h1)
    · exact (h (.inl h1)).1 h2
    · exact (h (.inr (by simp [h1]))).1 (by rw [h1]; decide)
  · rintro (⟨h1, h2⟩ | h1 | h1)
    · exact (h (.inl h1)).2 h2
    · exact (h (.inr (by simp [h1]))).2 (by rw [h1]; decide)
    · exact (h (.inr (by simp [h1]))).2 (by rw [h1]; decide)

theorem fitting_of {src : Source} {d d' : Disassembler} (h : Session HasName src d)
    (hcl : d.cleanup = .ok d') (hlaid : LaidOut d.disassembly)
    (hok : ∀ a it, Lists d.disassembly a it → it.instruction.mnemonic ≠ .per ∧ SizeSettled it)
    (hentry : ∀ a it, Lists d'.disassembly a it → it.isEntry = true → Declarable it.current) : Fitting src d d' := by
  have hc := session_closed h
  have hp := cleanup_proper hc.proper hcl
  exact ⟨hc, session_reached h, session_neat h, hcl,
    ⟨hlaid.low, hlaid.apart, hlaid.bank, hlaid.goesOn⟩, fun a it ha => (hok a it ha).1,
    fun a it ha => settled_sizes (hok a it ha).2,
    fun a it f ha he hf => declared_above (hp.states a it ha) (hentry a it ha he) hf⟩

theorem cleanup_current {src : Source} {d d' : Disassembler} (h : Session HasName src d) (hcl : d.cleanup = .ok d')
    {a : Nat} {jt : DisItem} (ha : d'.disassembly.find a = some jt) :
    ∃ it, d.disassembly.find a = some it ∧ jt.current = it.current := by
  have hc := session_closed h
  obtain ⟨r, ops, fars, hs, hd', hfk, hok, hops, hfars, -⟩ := cleanup_inv hc.proper.sorted hc.proper.distinct hcl
  rw [hd'] at ha
  obtain ⟨ft, h1, h2⟩ := (fold_spec fars hs).1 a jt ha
  obtain ⟨it, h3, h4⟩ := hfars a ft h1
  exact ⟨it, h3, (folded_rest h2).2.2.trans h4.current⟩

theorem named_carry {f : StatusFlags} (h : HasName f) : f.c = .unknown := by
  obtain ⟨name, h⟩ := h
  unfold StatusFlags.fromName at h
  simp only at h
  split at h
  · cases h; rfl
  split at h
  · cases h; rfl
  split at h
  · cases h; rfl
  split at h
  · cases h
  split at h
  · cases h
  split at h
  · cases h
  split at h
  · cases h; rfl
  · cases h

end Nsasm
