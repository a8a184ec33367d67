import Verif.Lemmas.Driver
import Verif.Spec.Shown

/-! # The disassembler looks only at the bytes it shows -/

namespace Nsasm.Shown
open Spec Props Disassembler Tools

theorem size_eq {bytes : List UInt8} {f : StatusFlags} {i : Instruction} (h : decode bytes f = .ok i) :
    i.serializedSize = instructionLength i.mode := by
  have := decode_real h
  unfold Instruction.serializedSize
  simp [this]

/-- Bytes that are the same as far as the instruction goes decode to the same. -/
theorem decode_same {src src' : Source} {a : Nat} {bytes : List UInt8} {f : StatusFlags} {i : Instruction} {n : Nat}
    (hr : src a 4 = .ok bytes) (h : decode bytes f = .ok i) (hn : n = instructionLength i.mode) (hs : SameBytes src src' a n) :
    ∃ bytes', src' a 4 = .ok bytes' ∧ decode bytes' f = .ok i := by
  obtain ⟨b, b', h1, h2, h3⟩ := hs
  rw [hr] at h1
  cases h1
  refine ⟨b', h2, ?_⟩
  have := C08_decode_local bytes f f i (b'.drop n) h (fun _ _ _ _ => rfl) (fun _ _ _ _ => rfl)
  rw [size_eq h, ← hn, h3, List.take_append_drop] at this
  exact this

theorem firstVisit_mode {d : Disassembler} {w w' : Work} {pc : Nat} {s : ExecutionState} {i0 : Instruction}
    {nx0 : ExecutionState} {it : DisItem} (h : FirstVisit d w pc s i0 nx0 w' it) : it.instruction.mode = i0.mode := by
  cases h with
  | branch isBranch value target named taken => subst named; rfl
  | plain noBranch noTarget => rfl
  | far noBranch target convention looked =>
    rcases convention with rfl | ⟨-, r, hr, rfl⟩ <;> rfl

/-- A round keeps the entries, and their sizes. -/
theorem step_modes {src : Source} {d : Disassembler} {w w' : Work} (hf : Flow src d w)
    (h : step src d w = .ok (some w')) {a : Nat} {it : DisItem} (ha : look d w.fresh a = some it) :
    ∃ it', look d w'.fresh a = some it' ∧ it'.instruction.mode = it.instruction.mode := by
  obtain ⟨pc, s, rest, jt, outs, hst, hr, he⟩ := step_round hf.tidy.fresh h
  rw [he.look]
  by_cases hpc : pc = a
  · subst hpc
    rw [if_pos rfl]
    refine ⟨jt, rfl, ?_⟩
    cases hr with
    | skip seen => rw [ha] at seen; cases seen; rfl
    | first unseen => rw [ha] at unseen; cases unseen
    | again seen => rw [ha] at seen; cases seen; rfl
  · rw [if_neg hpc]; exact ⟨it, ha, rfl⟩

theorem run_modes {src : Source} {d : Disassembler} : ∀ (n : Nat) {w w' : Work} {r : Res Unit}, Flow src d w →
    run src d n w = (w', r) → ∀ {a : Nat} {it : DisItem}, look d w.fresh a = some it →
    ∃ it', look d w'.fresh a = some it' ∧ it'.instruction.mode = it.instruction.mode := by
  intro n
  induction n with
  | zero => intro w w' r _ h a it ha; cases h; exact ⟨it, ha, rfl⟩
  | succ n ih =>
    intro w w' r hf h a it ha
    unfold run at h
    split at h
    · cases h; exact ⟨it, ha, rfl⟩
    · rename_i w1 hs
      obtain ⟨it1, h1, h2⟩ := step_modes hf hs ha
      obtain ⟨it2, h3, h4⟩ := ih (flow_step hf hs) h h1
      exact ⟨it2, h3, h4.trans h2⟩
    · cases h; exact ⟨it, ha, rfl⟩
    · cases h; exact ⟨it, ha, rfl⟩

/-- A round reads nothing but the instruction that it records. -/
theorem step_same {src src' : Source} {d : Disassembler} {w w' : Work} (hf : Flow src d w)
    (h : step src d w = .ok (some w'))
    (hs : ∀ a it, look d w'.fresh a = some it → SameBytes src src' a (instructionLength it.instruction.mode)) :
    step src' d w = .ok (some w') := by
  obtain ⟨pc, s, rest, it, outs, hst, hr, he⟩ := step_round hf.tidy.fresh h
  have hself : look d w'.fresh pc = some it := by rw [he.look, if_pos rfl]
  have hb := hs pc it hself
  have hl := getInstruction_look d { w with stack := rest } pc
  unfold step at h ⊢
  rw [hst] at h ⊢
  simp only at h ⊢
  split at h
  · rename_i w1 hg
    rw [hg] at hl
    simp only at hl ⊢
    obtain ⟨w2, hv, h⟩ := Res.bind_eq_ok.mp h
    cases h
    cases hr with
    | skip seen => rw [seen] at hl; cases hl
    | again seen => rw [seen] at hl; cases hl
    | first unseen read decoded executed visit =>
      obtain ⟨bytes', h1, h2⟩ := decode_same read decoded (by rw [firstVisit_mode visit]) hb
      have : visitNew src' d w1 pc s = visitNew src d w1 pc s := by
        unfold visitNew
        rw [read, h1]
        simp only [Res.bind_ok, decoded, h2]
      rw [this, hv]; rfl
  · rename_i di w1 hg
    rw [hg] at hl
    simp only at hl ⊢
    obtain ⟨w2, hv, h⟩ := Res.bind_eq_ok.mp h
    cases h
    suffices visitOld src' w1 pc s di = visitOld src w1 pc s di by rw [this, hv]; rfl
    have hl' : look d w.fresh pc = some di := hl.symm
    cases hr with
    | first unseen => rw [hl'] at unseen; cases unseen
    | skip seen same => rw [hl'] at seen; cases seen; unfold visitOld; simp only [same, if_true]
    | again seen change read decoded =>
      rw [hl'] at seen
      cases seen
      have hi := hf.items pc di hl'
      obtain ⟨b, i1, c1, c2, c3⟩ := hi.bytes
      rw [read] at c1
      cases c1
      have hn := (item_normal hf.tidy hl' hi).1
      have := decode_merged hn.1 decoded
      rw [c2] at this
      cases this
      obtain ⟨bytes', h1, h2⟩ := decode_same read decoded (by show _ = _; simp only; rw [c3.mode]) hb
      have : redecode src' pc (s.merge di.current).flags = redecode src pc (s.merge di.current).flags := by
        unfold redecode
        rw [read, h1]
        simp only [decoded, h2]
      unfold visitOld
      simp only [this]

theorem run_same {src src' : Source} {d : Disassembler} : ∀ (n : Nat) {w w' : Work}, Flow src d w →
    run src d n w = (w', .ok ()) →
    (∀ a it, look d w'.fresh a = some it → SameBytes src src' a (instructionLength it.instruction.mode)) →
    run src' d n w = (w', .ok ()) := by
  intro n
  induction n with
  | zero => intro w w' _ h; cases h
  | succ n ih =>
    intro w w' hf h hs
    unfold run at h ⊢
    split at h
    · rename_i hstep
      cases h
      have : step src' d w = .ok none := by
        unfold step at hstep ⊢
        split at hstep
        · rfl
        · simp only at hstep
          split at hstep <;> (obtain ⟨_, _, h⟩ := Res.bind_eq_ok.mp hstep; cases h)
      rw [this]
    · rename_i w1 hstep
      have hf1 := flow_step hf hstep
      have := step_same (src' := src') hf hstep (by
        intro a it ha
        obtain ⟨it', h1, h2⟩ := run_modes n hf1 h ha
        rw [← h2]
        exact hs a it' h1)
      rw [this]
      exact ih hf1 h hs
    · cases h
    · cases h

/-- A call that succeeds gives the same for every source with the bytes that it shows. -/
theorem disassemble_same {src src' : Source} {d d' : Disassembler} (h : Closed src d) {fuel start : Nat}
    (hs : start ≤ 0x1000000) {flags : StatusFlags} (hf : Normal flags) {T : OMap StatusFlags}
    (hr : d.disassemble fuel src start flags = (d', .ok T)) (hsame : SameShown d'.disassembly src src') :
    d.disassemble fuel src' start flags = (d', .ok T) := by
  unfold disassemble at hr ⊢
  simp only at hr ⊢
  split at hr
  · rename_i w hrun
    cases hr
    obtain ⟨l1, l2, l3, l4⟩ := loop_flow h hs hf hrun
    obtain ⟨-, f2⟩ := finish_look h.proper.sorted l1.tidy l2 (l4 rfl)
    obtain ⟨f1, -⟩ := finish_look h.proper.sorted l1.tidy l2 (l4 rfl)
    rw [run_same (src' := src') fuel (begin_flow h hs hf).1 hrun]
    intro a it ha
    obtain ⟨jt, hj⟩ := f2 a it ha
    obtain ⟨it', h1, ⟨s, l, h2, h3⟩, -⟩ := f1 a jt hj
    rw [ha] at h1
    cases h1
    have := hsame a jt hj
    rw [h3] at this
    exact this
  · cases hr
  · cases hr

/-- Later calls keep the entries, and their sizes. -/
theorem keeps_modes {src : Source} {d d' : Disassembler} (h : Closed src d) {fuel start : Nat}
    (hs : start ≤ 0x1000000) {flags : StatusFlags} (hf : Normal flags) {r : Res (OMap StatusFlags)}
    (hr : d.disassemble fuel src start flags = (d', r)) {a : Nat} {it : DisItem}
    (ha : d.disassembly.find a = some it) :
    ∃ jt, d'.disassembly.find a = some jt ∧ jt.instruction.mode = it.instruction.mode := by
  obtain ⟨jt, h1, h2⟩ := disassemble_keeps h hs hf hr ha
  refine ⟨jt, h1, ?_⟩
  obtain ⟨b, i0, a1, a2, a3⟩ := (h.items a it ha).bytes
  obtain ⟨b', j0, b1, b2, b3⟩ := ((disassemble_closed h hs hf hr).1.items a jt h1).bytes
  rw [a1] at b1
  cases b1
  have hn := (closed_normal h ha).1
  have : decode b it.current.flags = .ok j0 := by
    rw [← h2] at b2
    exact decode_merged hn.1 b2
  rw [a2] at this
  cases this
  rw [a3.mode, b3.mode]

theorem same_before {src src' : Source} {d d' : Disassembler} (h : Closed src d) {fuel start : Nat}
    (hs : start ≤ 0x1000000) {flags : StatusFlags} (hf : Normal flags) {r : Res (OMap StatusFlags)}
    (hr : d.disassemble fuel src start flags = (d', r)) (hsame : SameShown d'.disassembly src src') :
    SameShown d.disassembly src src' := by
  intro a it ha
  obtain ⟨jt, h1, h2⟩ := keeps_modes h hs hf hr ha
  rw [← h2]
  exact hsame a jt h1

/-- The addresses listed are addresses. -/
theorem session_bound {P : StatusFlags → Prop} (hP : ∀ f, P f → FlagsWritten f) {src : Source} {d : Disassembler}
    (h : Session P src d) : Session FlagsWritten src d ∧ ∀ a it, d.disassembly.find a = some it → a ≤ 0x1000000 := by
  induction h with
  | new => exact ⟨.new, fun a it h => by cases h⟩
  | table _ sorted ok ih => exact ⟨.table ih.1 sorted fun a f hf => hP f (ok a f hf), ih.2⟩
  | @call d d' fuel start flags r before address ok result ended ih =>
    refine ⟨.call ih.1 address ok result ended, ?_⟩
    have hc := session_closed ih.1
    have hn := constructible_normal ok
    unfold disassemble at result
    simp only at result
    split at result
    · rename_i w hrun
      cases result
      obtain ⟨l1, l2, l3, l4⟩ := loop_flow hc address hn hrun
      obtain ⟨f1, -⟩ := finish_look hc.proper.sorted l1.tidy l2 (l4 rfl)
      obtain ⟨⟨-, hw⟩, -⟩ := run_invariant (src := src) (d := d)
        (I := fun w => Flow src d w ∧ ∀ a it, look d w.fresh a = some it → a ≤ 0x1000000)
        (fun w w' hw h => ⟨flow_step hw.1 h, by
          obtain ⟨pc, s, rest, it, outs, hst, hr, he⟩ := step_round hw.1.tidy.fresh h
          intro a jt ha
          rw [he.look] at ha
          split at ha
          · rename_i hpc
            subst hpc
            exact hw.1.tidy.low pc s (by rw [hst]; simp [OMap.find])
          · exact hw.2 a jt ha⟩) fuel (begin d start flags) w _
        ⟨(begin_flow hc address hn).1, by
          intro a it ha
          unfold look at ha
          rw [(begin_shape d start flags).1] at ha
          exact ih.2 a it ha⟩ hrun
      intro a jt ha
      obtain ⟨it, h1, -⟩ := f1 a jt ha
      exact hw a it h1
    · cases result; exact ih.2
    · cases result; exact ih.2

/-- The addresses listed for a ROM have 24 bits. -/
theorem listed_low {rom : Rom} {d : Disassembler} (h : Session HasName rom.read d) {a : Addr} {it : DisItem}
    (ha : Lists d.disassembly a it) : a < 0x1000000 := by
  obtain ⟨bs, i0, h1, -, -⟩ := ((session_closed h).items a it ha).bytes
  have hle := (session_bound (fun _ h => h) h).2 a it ha
  rcases Nat.lt_or_ge a 0x1000000 with h | h
  · exact h
  · have : a = 0x1000000 := by omega
    subst this
    exfalso
    unfold Rom.read at h1
    rw [if_neg (by omega), if_neg (by omega)] at h1
    have : ∀ m, snesToRom (Address.addWrapped 0x1000000 (4 - 1)) m = .err .unmappedAddress := by intro m; cases m <;> decide
    rw [this] at h1
    obtain ⟨_, -, h1⟩ := Res.bind_eq_ok.mp h1
    cases h1

/-! ## The tool -/

theorem pass_same {msg : Err → Str} {fuel : Nat} {src src' : Source} {known : Addr → Bool} :
    ∀ (l : List (Nat × StatusFlags)) {d : Disassembler} {log : List (OMap StatusFlags)} {new : OMap StatusFlags}
      {d' : Disassembler} {new' : OMap StatusFlags}, Reported HasName src d log →
      (∀ a f, (a, f) ∈ l → a ≤ 0x1000000 ∧ Constructible f) →
      pass msg fuel src known l d new = .ok (d', new', []) → SameShown d'.disassembly src src' →
      pass msg fuel src' known l d new = .ok (d', new', []) ∧ SameShown d.disassembly src src' := by
  intro l
  induction l with
  | nil =>
    intro d log new d' new' _ _ h hs
    simp only [pass, Res.ok.injEq, Prod.mk.injEq] at h ⊢
    obtain ⟨rfl, rfl, -⟩ := h
    exact ⟨⟨rfl, rfl, trivial⟩, hs⟩
  | cons p l ih =>
    obtain ⟨a, f⟩ := p
    intro d log new d' new' hr hl h hs
    obtain ⟨ha, hf⟩ := hl a f (by simp)
    have hl' : ∀ b g, (b, g) ∈ l → b ≤ 0x1000000 ∧ Constructible g := fun b g hb => hl b g (by simp [hb])
    unfold pass at h ⊢
    split at h
    · next hk => rw [if_pos hk]; exact ih hr hl' h hs
    · next hk =>
      rw [if_neg hk]
      split at h
      · cases h
      · next d₁ far hcall =>
        have hr₁ : Reported HasName src d₁ (far :: log) := .call hr ha hf hcall
        obtain ⟨i1, i2⟩ := ih hr₁ hl' h hs
        have hc := session_closed (reported_session hr)
        rw [disassemble_same hc ha (constructible_normal hf) hcall i2]
        exact ⟨i1, same_before hc ha (constructible_normal hf) hcall i2⟩
      · next d₁ e hcall =>
        split at h
        · cases h
        · obtain ⟨⟨d₂, new₂, ls₂⟩, hrest, h⟩ := Res.bind_eq_ok.mp h
          simp [errorLines] at h

theorem passes_same {msg : Err → Str} {fuel : Nat} {src src' : Source} :
    ∀ (n : Nat) {d : Disassembler} {log : List (OMap StatusFlags)} {seeds : OMap StatusFlags}
      {d' : Disassembler} {left : OMap StatusFlags}, Reported HasName src d log → Seeds seeds →
      passes msg fuel src (fun _ => false) n d seeds = .ok (d', left, []) → SameShown d'.disassembly src src' →
      passes msg fuel src' (fun _ => false) n d seeds = .ok (d', left, []) ∧ SameShown d.disassembly src src' := by
  intro n
  induction n with
  | zero =>
    intro d log seeds d' left _ _ h hs
    simp only [passes, Res.ok.injEq, Prod.mk.injEq] at h ⊢
    obtain ⟨rfl, rfl, -⟩ := h
    exact ⟨⟨rfl, rfl, trivial⟩, hs⟩
  | succ n ih =>
    intro d log seeds d' left hr hs h hsame
    unfold passes at h ⊢
    obtain ⟨⟨d₁, new, ls₁⟩, hpass, h⟩ := Res.bind_eq_ok.mp h
    obtain ⟨⟨d₂, left₂, ls₂⟩, hrest, h⟩ := Res.bind_eq_ok.mp h
    simp only [Res.ok.injEq, Prod.mk.injEq, List.append_eq_nil_iff] at h
    obtain ⟨rfl, rfl, rfl, rfl⟩ := h
    have hempty : Seeds [] := ⟨List.Pairwise.nil, fun a f h => by cases h⟩
    have hseeds := fun a f ha => hs.2 a f (OMap.find_of_mem hs.1 ha)
    obtain ⟨⟨j1, j2, ⟨log₁, j3, j4⟩, j5, j6⟩, -, i3⟩ := pass_did seeds hr hempty hseeds hpass
    obtain ⟨k1, k2⟩ := ih j3 j2 hrest hsame
    obtain ⟨l1, l2⟩ := pass_same seeds hr (fun a f ha => ⟨(hseeds a f ha).1, (hseeds a f ha).2.1⟩) hpass k2
    rw [l1, Res.bind_ok]
    simp only
    rw [k1, Res.bind_ok]
    exact ⟨rfl, l2⟩

theorem pass_errors {msg : Err → Str} {fuel : Nat} {src : Source} {known : Addr → Bool} :
    ∀ (l : List (Nat × StatusFlags)) {d : Disassembler} {new : OMap StatusFlags} {d' : Disassembler} {new' : OMap StatusFlags}
      {ls : List Str}, pass msg fuel src known l d new = .ok (d', new', ls) → ls ≠ [] → ∃ x ∈ ls, cs!"; ERROR" <+: x := by
  intro l
  induction l with
  | nil =>
    intro d new d' new' ls h hne
    simp only [pass, Res.ok.injEq, Prod.mk.injEq] at h
    exact absurd h.2.2.symm hne
  | cons p l ih =>
    obtain ⟨a, f⟩ := p
    intro d new d' new' ls h hne
    unfold pass at h
    split at h
    · exact ih h hne
    · split at h
      · cases h
      · exact ih h hne
      · split at h
        · cases h
        · obtain ⟨⟨d₂, new₂, ls₂⟩, hrest, h⟩ := Res.bind_eq_ok.mp h
          simp only [Res.ok.injEq, Prod.mk.injEq] at h
          obtain ⟨-, -, rfl⟩ := h
          exact ⟨_, List.mem_append_left _ (List.mem_cons_self ..), ⟨_, rfl⟩⟩

theorem passes_errors {msg : Err → Str} {fuel : Nat} {src : Source} :
    ∀ (n : Nat) {d : Disassembler} {seeds : OMap StatusFlags} {d' : Disassembler} {left : OMap StatusFlags} {ls : List Str},
      passes msg fuel src (fun _ => false) n d seeds = .ok (d', left, ls) → ls ≠ [] → ∃ x ∈ ls, cs!"; ERROR" <+: x := by
  intro n
  induction n with
  | zero =>
    intro d seeds d' left ls h hne
    simp only [passes, Res.ok.injEq, Prod.mk.injEq] at h
    exact absurd h.2.2.symm hne
  | succ n ih =>
    intro d seeds d' left ls h hne
    unfold passes at h
    obtain ⟨⟨d₁, new, ls₁⟩, hpass, h⟩ := Res.bind_eq_ok.mp h
    obtain ⟨⟨d₂, left₂, ls₂⟩, hrest, h⟩ := Res.bind_eq_ok.mp h
    simp only [Res.ok.injEq, Prod.mk.injEq] at h
    obtain ⟨rfl, rfl, rfl⟩ := h
    by_cases h1 : ls₁ = []
    · obtain ⟨x, hx, hp⟩ := ih hrest (by rintro rfl; exact hne (by rw [h1]; rfl))
      exact ⟨x, List.mem_append_right _ hx, hp⟩
    · obtain ⟨x, hx, hp⟩ := pass_errors seeds hpass h1
      exact ⟨x, List.mem_append_left _ hx, hp⟩

end Nsasm.Shown
