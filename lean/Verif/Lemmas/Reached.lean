import Verif.Lemmas.Closed

/-! # Every entry of a listing is reached from an entry point -/

namespace Nsasm
open Spec Props Disassembler

/-- Addresses that the instructions of a listing lead to from given addresses. -/
inductive Led (E : Nat → Prop) (L : Nat → Option DisItem) : Nat → Prop
  | start {a : Nat} (h : E a) : Led E L a
  | next {a : Nat} {it : DisItem} (before : Led E L a) (lists : L a = some it)
      (goesOn : it.instruction.isExitInstruction = false) : Led E L (nextAddr a it.instruction)
  | branch {a : Nat} {it : DisItem} {v : Int} (before : Led E L a) (lists : L a = some it)
      (isBranch : it.instruction.isLocalBranch = true) (value : it.instruction.arg1.eval nullCtx = .ok v) :
      Led E L (Address.addWrapped (nextAddr a it.instruction) v)

theorem Led.mono {E E' : Nat → Prop} {L L' : Nat → Option DisItem} (hE : ∀ a, E a → Led E' L' a)
    (hL : ∀ a it, L a = some it → ∃ jt s, L' a = some jt ∧ jt.instruction = { it.instruction with suffix := s })
    {a : Nat} (h : Led E L a) : Led E' L' a := by
  induction h with
  | start h => exact hE _ h
  | next before lists goesOn ih =>
    obtain ⟨jt, s, h1, h2⟩ := hL _ _ lists
    have := ih.next h1 (by rw [h2]; exact goesOn)
    rw [h2] at this
    exact this
  | branch before lists isBranch value ih =>
    obtain ⟨jt, s, h1, h2⟩ := hL _ _ lists
    have := ih.branch h1 (by rw [h2]; exact isBranch) (by rw [h2]; exact value)
    rw [h2] at this
    exact this

theorem pushAll_from : ∀ (outs : List (Nat × ExecutionState)) {st : OMap ExecutionState}, OMap.Sorted st → ∀ a,
    ((pushAll st outs).find a).isSome → (st.find a).isSome ∨ ∃ o ∈ outs, o.1 = a := by
  intro outs
  induction outs with
  | nil => intro st _ a h; exact .inl h
  | cons o os ih =>
    intro st hs a h
    rcases ih (OMap.sorted_upsert (f := fun old => ExecutionState.merge old o.2) hs o.1 o.2) a h with h | ⟨o', h1, h2⟩
    · rw [OMap.find_upsert hs] at h
      by_cases hoa : o.1 = a
      · exact .inr ⟨o, by simp, hoa⟩
      · rw [if_neg hoa] at h; exact .inl h
    · exact .inr ⟨o', by simp [h1], h2⟩

/-- The instruction at an address stays in a round, and what is pushed is led to. -/
theorem led_step {src : Source} {d : Disassembler} {w w' : Work} {E : Nat → Prop} (hf : Flow src d w)
    (h : step src d w = .ok (some w')) (hl : ∀ a, Present d w a → Led E (look d w.fresh) a) :
    ∀ a, Present d w' a → Led E (look d w'.fresh) a := by
  have ht := hf.tidy
  obtain ⟨pc, s, rest, it, outs, hst, hr, he⟩ := step_round ht.fresh h
  have hsorted := ht.stack
  rw [hst] at hsorted
  have hrest : OMap.Sorted rest := by
    unfold OMap.Sorted at hsorted; rw [List.pairwise_cons] at hsorted; exact hsorted.2
  have hself : look d w'.fresh pc = some it := by rw [he.look, if_pos rfl]
  have hother : ∀ a, pc ≠ a → look d w'.fresh a = look d w.fresh a := fun a ha => by rw [he.look, if_neg ha]
  have hpc : Present d w pc := .inr (by rw [hst]; simp [OMap.find])
  have hrestP : ∀ a, (OMap.find rest a).isSome → Present d w a := by
    intro a ha
    right
    rw [hst, OMap.find]
    split
    · rfl
    · exact ha
  -- the map grows
  have hgrow : ∀ a jt, look d w.fresh a = some jt →
      ∃ kt s, look d w'.fresh a = some kt ∧ kt.instruction = { jt.instruction with suffix := s } := by
    intro a jt ha
    by_cases hpa : pc = a
    · subst hpa
      refine ⟨it, jt.instruction.suffix, hself, ?_⟩
      cases hr with
      | skip seen' same far labels sym => rw [ha] at seen'; cases seen'; rfl
      | first unseen read decoded executed visit => rw [ha] at unseen; cases unseen
      | again seen' change read decoded executed far branch labels sym => rw [ha] at seen'; cases seen'; rfl
    · exact ⟨jt, jt.instruction.suffix, by rw [hother a hpa]; exact ha, rfl⟩
  have hold : ∀ a, Present d w a → Led E (look d w'.fresh) a :=
    fun a ha => (hl a ha).mono (fun _ h => .start h) hgrow
  -- what is pushed
  have hnext : ∀ nx, ∀ o ∈ nextOuts pc it.instruction nx, Led E (look d w'.fresh) o.1 := by
    intro nx o ho
    obtain ⟨h1, rfl⟩ := nextOuts_mem ho
    exact (hold pc hpc).next hself h1
  have houts : ∃ outs', w'.stack = pushAll rest outs' ∧ ∀ o ∈ outs', Led E (look d w'.fresh) o.1 := by
    cases hr with
    | skip seen' same far labels sym => exact ⟨_, he.stack, by simp⟩
    | first unseen read decoded executed visit =>
      rename_i bytes i0 nx0
      obtain ⟨bo, he', hbo⟩ := first_effect ht.fresh visit
      obtain ⟨-, -, -, hi4, hi5, -⟩ := first_item visit
      refine ⟨_, he'.stack, fun o ho => ?_⟩
      rw [List.mem_append] at ho
      rcases ho with ho | ho
      · rcases hbo with ⟨hb, v, b, hv, hnm, hb', rfl⟩ | ⟨-, rfl⟩
        · rw [List.mem_singleton] at ho
          subst ho
          have hb1 : it.instruction.isLocalBranch = true := by
            simp only [Instruction.isLocalBranch] at hb ⊢
            rw [hi4, hi5]; exact hb
          have hv1 : it.instruction.arg1.eval nullCtx = .ok v := by
            rw [hnm]
            simp only
            rw [decode_applyLabel decoded]
            rcases decode_args_shape decoded with ⟨x, t, h⟩ | h
            · rw [h] at hv ⊢; exact hv
            · rw [h] at hv; cases hv
          have := (hold pc hpc).branch hself hb1 hv1
          rw [show nextAddr pc it.instruction = nextAddr pc i0 by unfold nextAddr; rw [hi5]] at this
          exact this
        · cases ho
      · exact hnext _ o ho
    | again seen' change read decoded executed far branch labels sym =>
      rename_i di bytes i0 nx bo
      refine ⟨_, he.stack, fun o ho => ?_⟩
      rw [List.mem_append] at ho
      rcases ho with ho | ho
      · exact hnext _ o ho
      · rcases branch with ⟨-, rfl⟩ | ⟨hb, v, b, hv, -, rfl⟩
        · cases ho
        · rw [List.mem_singleton] at ho
          subst ho
          exact Led.branch (it := { di with current := s.merge di.current, next := nx }) (hold pc hpc) hself hb hv
  obtain ⟨outs', hst', ho'⟩ := houts
  intro a ha
  rcases ha with ha | ha
  · by_cases hpa : pc = a
    · subst hpa; exact hold pc hpc
    · rw [hother a hpa] at ha; exact hold a (.inl ha)
  · rw [hst'] at ha
    rcases pushAll_from outs' hrest a ha with h | ⟨o, h1, h2⟩
    · exact hold a (hrestP a h)
    · rw [← h2]; exact ho' o h1

/-- A name given to an address stays during a call. -/
theorem nameAt_step {src : Source} {d : Disassembler} {w w' : Work} (ht : Tidy d w) (hn : Named d w)
    (h : step src d w = .ok (some w')) {a : Nat} {l : Str} (hl : nameAt d w.labels a = some l) :
    nameAt d w'.labels a = some l := by
  obtain ⟨pc, s, rest, it, outs, hst, hr, he⟩ := step_round ht.fresh h
  cases hr with
  | skip seen' same far labels sym => rw [labels]; exact hl
  | again seen' change read decoded executed far branch labels sym => rw [labels]; exact hl
  | first unseen read decoded executed visit =>
    cases visit with
    | plain noBranch noTarget => exact hl
    | far noBranch target convention looked => exact hl
    | branch isBranch value target named taken =>
      rename_i v t b i
      exact (getLabel_given (w := { w with stack := rest }) hn.given t).2.2.1 a l hl

/-- Addresses that are entry points and labelled. -/
def Starts (d : Disassembler) (a : Nat) : Prop :=
  (d.entryPoints.find a).isSome ∧ ∃ it, d.disassembly.find a = some it ∧ it.label ≠ []

/-- Every entry of the listing is reached, and no entry is marked before Cleanup. -/
structure Reached (d : Disassembler) : Prop where
  entries : OMap.Sorted d.entryPoints
  led : ∀ a it, d.disassembly.find a = some it → Led (Starts d) (fun a => d.disassembly.find a) a

theorem find_entries {m : OMap Unit} (hs : OMap.Sorted m) (start a : Nat) :
    ((m.set start ()).find a).isSome = (decide (start = a) || (m.find a).isSome) := by
  rw [OMap.find_set hs]
  by_cases h : start = a
  · rw [if_pos h]; simp [h]
  · rw [if_neg h]; simp [h]

theorem disassemble_reached {src : Source} {d d' : Disassembler} (h : Closed src d) (hr : Reached d) {fuel start : Nat}
    (hs : start ≤ 0x1000000) {flags : StatusFlags} (hf : Normal flags) {r : Res (OMap StatusFlags)}
    (hd : d.disassemble fuel src start flags = (d', r)) : Reached d' := by
  have hsorted : OMap.Sorted (d.entryPoints.set start ()) := OMap.sorted_upsert hr.entries _ _
  have hstart : ∀ {m : OMap DisItem} {s : Nat} a,
      (∀ it, d.disassembly.find a = some it → it.label ≠ [] → ∃ jt, m.find a = some jt ∧ jt.label ≠ []) →
      Starts d a → Starts { d with entryPoints := d.entryPoints.set start (), disassembly := m, sym := s } a := by
    rintro m s a hm ⟨h1, it, h2, h3⟩
    refine ⟨?_, hm it h2 h3⟩
    simp only
    rw [find_entries hr.entries, h1, Bool.or_true]
  have hfail : ∀ s, Reached { d with entryPoints := d.entryPoints.set start (), sym := s } := by
    intro s
    exact ⟨hsorted, fun a it ha => (hr.led a it ha).mono
      (fun a ha => .start (hstart (m := d.disassembly) a (fun it h1 h2 => ⟨it, h1, h2⟩) ha))
      (fun a it ha => ⟨it, _, ha, rfl⟩)⟩
  unfold disassemble at hd
  simp only at hd
  split at hd
  · rename_i w hrun
    cases hd
    obtain ⟨b1, b2⟩ := begin_flow h hs hf
    have bn := begin_named h.proper start flags
    obtain ⟨e1, e2, -⟩ := begin_shape d start flags
    have hlook0 : look d (begin d start flags).fresh = fun a => d.disassembly.find a := by
      funext a; rw [e1]; rfl
    let E : Nat → Prop := fun a => Starts d a ∨ a = start
    have hg : Given d [] d.sym := ⟨List.Pairwise.nil, by simp [OMap.find], by simp [OMap.find], by simp [OMap.find],
      Nat.le_refl _⟩
    have hname0 := (getLabel_given (w := push ⟨[], [], [], [], d.sym⟩ start (.init flags)) hg start).2.1
    have hled0 : ∀ a, Present d (begin d start flags) a → Led E (look d (begin d start flags).fresh) a := by
      rintro a (ha | ha)
      · rw [hlook0] at ha ⊢
        obtain ⟨it, hit⟩ := Option.isSome_iff_exists.1 ha
        exact (hr.led a it hit).mono (fun _ h => .start (.inl h)) (fun a it ha => ⟨it, _, ha, rfl⟩)
      · rw [e2] at ha
        refine .start (.inr ?_)
        by_contra hne
        rw [OMap.find, if_neg (fun h => hne h.symm)] at ha
        cases ha
    obtain ⟨⟨i1, i2, i3, i4⟩, i5⟩ := run_invariant (src := src) (d := d)
      (I := fun w => Flow src d w ∧ Named d w ∧ (∀ a, Present d w a → Led E (look d w.fresh) a) ∧
        nameAt d w.labels start = some (getLabel d (push ⟨[], [], [], [], d.sym⟩ start (.init flags)) start).1)
      (fun w w' hw h => ⟨flow_step hw.1 h, named_step hw.1.tidy hw.2.1 h, led_step hw.1 h hw.2.2.1,
        nameAt_step hw.1.tidy hw.2.1 h hw.2.2.2⟩) fuel (begin d start flags) w _ ⟨b1, bn, hled0, hname0⟩ hrun
    have hst := i5 rfl
    obtain ⟨f1, f2⟩ := finish_look h.proper.sorted i1.tidy i2 hst
    have hgrow : ∀ a it, look d w.fresh a = some it → ∃ jt s, (finish d w).find a = some jt ∧
        jt.instruction = { it.instruction with suffix := s } := by
      intro a it ha
      obtain ⟨jt, hj⟩ := f2 a it ha
      obtain ⟨it', h1, ⟨s, l, h2, h3⟩, -⟩ := f1 a jt hj
      rw [ha] at h1; cases h1
      exact ⟨jt, s, hj, h3⟩
    have hnamed : ∀ a l, nameAt d w.labels a = some l → l ≠ [] → (∃ it, look d w.fresh a = some it) →
        ∃ jt, (finish d w).find a = some jt ∧ jt.label ≠ [] := by
      rintro a l hl hne ⟨it, ha⟩
      obtain ⟨jt, hj⟩ := f2 a it ha
      obtain ⟨-, -, -, h4⟩ := f1 a jt hj
      exact ⟨jt, hj, by rw [h4, hl]; exact hne⟩
    refine ⟨hsorted, fun a jt ha => ?_⟩
    obtain ⟨it, hit, -⟩ := f1 a jt ha
    refine (i3 a (.inl (by rw [hit]; rfl))).mono ?_ hgrow
    rintro b (hb | rfl)
    · refine .start (hstart b (fun it h1 h2 => ?_) hb)
      have hlk : ∃ jt, look d w.fresh b = some jt := by
        unfold look
        split
        · exact ⟨_, rfl⟩
        · exact ⟨it, h1⟩
      cases hlb : w.labels.find b with
      | some l =>
        have := i2.given.unnamed b l it hlb h1
        exact absurd this h2
      | none =>
        refine hnamed b it.label ?_ h2 hlk
        unfold nameAt
        rw [hlb, h1]
        simp [h2]
    · obtain ⟨it0, l0⟩ : ∃ it, look d w.fresh b = some it := by
        obtain ⟨-, -, l3, -⟩ := loop_flow h hs hf hrun
        obtain ⟨it, h1, -⟩ := flow_done (src := src) hst l3
        exact ⟨it, h1⟩
      refine .start ⟨?_, hnamed b _ i4 ?_ ⟨it0, l0⟩⟩
      · simp only
        rw [find_entries hr.entries]; simp
      · unfold getLabel
        split
        · rename_i hx; simp [push, OMap.find] at hx
        · split
          · split
            · assumption
            · exact genSym_ne _
          · exact genSym_ne _
  · cases hd; exact hfail _
  · cases hd; exact hfail _

theorem session_reached {src : Source} {d : Disassembler} (h : Session FlagsWritten src d) : Reached d := by
  induction h with
  | new => exact ⟨List.Pairwise.nil, by simp [Disassembler.empty, OMap.find]⟩
  | table before sorted ok ih => exact ⟨ih.entries, ih.led⟩
  | call before address ok result ended ih =>
    exact disassemble_reached (session_closed before) ih address (constructible_normal ok) result

end Nsasm
