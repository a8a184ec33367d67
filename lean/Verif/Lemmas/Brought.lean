import Verif.Spec.Place
import Verif.Lemmas.Succeeds
import Verif.Lemmas.FarTargets
import Verif.Props.FarTargets

/-! # States that the flow of control brings to an address, and the loop of the disassembler -/

namespace Nsasm.Brought
open Nsasm Spec Props Disassembler Confluent

theorem BroughtTo.mono {src : Source} {conv : OMap ReturnConvention} {asked asked' : List (Addr × StatusFlags)}
    (h : ∀ p ∈ asked, p ∈ asked') {a : Addr} {s : ExecutionState} (hb : BroughtTo src conv asked a s) :
    BroughtTo src conv asked' a s := by
  induction hb with
  | start call => exact .start (h _ call)
  | next _ code runs on ih => exact .next ih code runs on
  | branch _ code may offset runs ih => exact .branch ih code may offset runs
  | merge _ _ ih1 ih2 => exact .merge ih1 ih2

/-! ## The instruction behind an entry -/

theorem shows_branch {j i : Instruction} (h : Shows j i) : i.isLocalBranch = j.isLocalBranch := by
  unfold Instruction.isLocalBranch; rw [h.mnemonic, h.mode]

theorem shows_far {j i : Instruction} (h : Shows j i) (a : Nat) : i.farBranchTarget a = j.farBranchTarget a := by
  cases hb : i.isLocalBranch with
  | true => rw [branch_no_far hb, branch_no_far (by rw [← shows_branch h, hb])]
  | false =>
    have hn : ¬ MayBranch j := by rw [← mayBranch_iff, ← shows_branch h, hb]; simp
    unfold Instruction.farBranchTarget
    rw [h.mnemonic, h.mode, h.plain hn]

theorem returns_convention {src : Source} {conv : OMap ReturnConvention} {a : Nat} {it : DisItem} {j : Instruction}
    (hi : ItemOk src a it) (h : Shows j it.instruction) :
    ReturnsAs conv a j (conventionOf conv a it.instruction) := by
  have hj : ∀ t, it.instruction.farBranchTarget a = .ok (some t) → JumpsTo j a t := by
    intro t ht
    have hnb : it.instruction.isLocalBranch = false := by
      cases hb : it.instruction.isLocalBranch with
      | false => rfl
      | true => rw [branch_no_far hb] at ht; cases ht
    have hn : ¬ MayBranch j := by rw [← mayBranch_iff, ← shows_branch h, hnb]; simp
    have h1 := h.plain hn
    have h2 := h.mode
    have h3 := h.mnemonic
    cases far_jumpsTo hi ht with
    | long mode jump value bound => exact .long (h2 ▸ mode) (h3 ▸ jump) (h1 ▸ value) bound
    | near mode jump value bound target => exact .near (h2 ▸ mode) (h3 ▸ jump) (h1 ▸ value) bound target
  have hf : ∀ t, JumpsTo j a t → it.instruction.farBranchTarget a = .ok (some t) := by
    intro t ht
    rw [shows_far h]
    exact jumpsTo_far ht
  unfold conventionOf
  rw [h.mnemonic]
  split
  · rename_i hm
    split
    · rename_i t ht
      cases hc : conv.find t with
      | some r => exact .table hm (hj t ht) hc
      | none =>
        refine .ordinary fun t' _ ht' => ?_
        have := hf t' ht'
        rw [ht] at this
        cases this
        exact hc
    · rename_i hne
      exact .ordinary fun t' _ ht' => absurd (hf t' ht') (hne t')
  · rename_i hm
    exact .ordinary fun t' hm' _ => absurd hm' hm

theorem returns_unique {conv : OMap ReturnConvention} {a : Nat} {j : Instruction} {r r' : ReturnConvention}
    (h : ReturnsAs conv a j r) (h' : ReturnsAs conv a j r') : r = r' := by
  have inj : ∀ t t', JumpsTo j a t → JumpsTo j a t' → t = t' := by
    intro t t' h1 h2
    have := (jumpsTo_far h1).symm.trans (jumpsTo_far h2)
    simpa using this
  cases h with
  | table call target entry =>
    cases h' with
    | table call' target' entry' =>
      cases inj _ _ target target'
      rw [entry] at entry'
      exact Option.some.inj entry'
    | ordinary none => rw [none _ call target] at entry; cases entry
  | ordinary none =>
    cases h' with
    | table call target entry => rw [none _ call target] at entry; cases entry
    | ordinary => rfl

/-- The instruction as it is decoded, with the convention of the entry. -/
theorem bare_eq {j i : Instruction} (hr : j.suffix = .none) (h : Shows j i) :
    ({ ({ i with suffix := .none } : Instruction) with arg1 := j.arg1 } : Instruction) = { j with ret := i.ret } := by
  obtain ⟨h1, h2, h3, h4, h5⟩ := h
  cases i
  cases j
  simp only at *
  simp [h1, h2, h3, hr]

theorem bare_execute {bytes : List UInt8} {f : StatusFlags} {j i : Instruction} {s nx : ExecutionState}
    (hd : decode bytes f = .ok j) (h : Shows j i) (hx : i.execute s nullCtx = .ok nx) :
    ({ j with ret := i.ret } : Instruction).execute s nullCtx = .ok nx := by
  have hreal := decode_real hd
  have h1 := execute_suffix .none (by rw [h.mnemonic]; exact hreal) hx (by unfold Instruction.checkSuffix; rw [if_pos rfl])
  rw [← bare_eq (decode_ret hd).2 h]
  cases hb : i.isLocalBranch with
  | true => exact execute_relabel _ (by exact hb) h1
  | false =>
    have hn : ¬ MayBranch j := by rw [← mayBranch_iff, ← shows_branch h, hb]; simp
    rw [← h.plain hn]
    exact h1

theorem bare_codeAt {src : Source} {conv : OMap ReturnConvention} {a : Nat} {it : DisItem} {j : Instruction}
    {bytes : List UInt8} {f : StatusFlags} (hi : ItemOk src a it)
    (hr : it.instruction.ret = conventionOf conv a it.instruction) (hb : src a 4 = .ok bytes)
    (hd : decode bytes f = .ok j) (h : Shows j it.instruction) :
    CodeAt src conv a f { j with ret := it.instruction.ret } := by
  rw [hr]
  exact .code hb hd (returns_convention hi h)

theorem stops_exit (i : Instruction) : Stops (.instr i) ↔ i.isExitInstruction = true := Props.stops_iff i

theorem brought_next {src : Source} {conv : OMap ReturnConvention} {asked : List (Addr × StatusFlags)} {a : Nat}
    {it : DisItem} (hi : ItemOk src a it) (hr : it.instruction.ret = conventionOf conv a it.instruction)
    (hu : BroughtTo src conv asked a it.current) (hx : it.instruction.isExitInstruction = false) :
    BroughtTo src conv asked (nextAddr a it.instruction) it.next := by
  obtain ⟨bytes, j, hb, hd, hs⟩ := hi.bytes
  have := BroughtTo.next hu (bare_codeAt hi hr hb hd hs) (bare_execute hd hs hi.next) (by
    rw [stops_exit]
    unfold Instruction.isExitInstruction at hx ⊢
    rw [← hs.mnemonic, hx]
    simp)
  unfold nextAddr
  rw [hs.mode]
  exact this

/-- A state that is merged with the entry's. -/
theorem brought_branch {src : Source} {conv : OMap ReturnConvention} {asked : List (Addr × StatusFlags)} {a : Nat}
    {it : DisItem} (hi : ItemOk src a it) (hr : it.instruction.ret = conventionOf conv a it.instruction)
    {s : ExecutionState} {j : Instruction} {bytes : List UInt8} (hb : src a 4 = .ok bytes)
    (hd : decode bytes s.flags = .ok j) (hs : Shows j it.instruction)
    (hu : BroughtTo src conv asked a s) {v : Int} (hl : it.instruction.isLocalBranch = true)
    (hv : it.instruction.arg1.eval nullCtx = .ok v) {nx : ExecutionState}
    (hx : it.instruction.execute s nullCtx = .ok nx) :
    BroughtTo src conv asked (Address.addWrapped (nextAddr a it.instruction) v) (branchState it.instruction s) := by
  have hm : MayBranch j := by rw [← mayBranch_iff, ← shows_branch hs, hl]
  obtain ⟨name, hn⟩ := hs.branch hm
  have hv' : j.arg1.eval nullCtx = .ok v := by
    rw [hn] at hv
    simp only [Expr.eval] at hv
    split at hv
    · cases hv
    · exact hv
  have hbr : ({ j with ret := it.instruction.ret } : Instruction).executeBranch s = .ok (branchState it.instruction s) := by
    rw [branch_taken (by exact (shows_branch hs) ▸ hl) (bare_execute hd hs hx)]
    unfold branchState
    simp only [hs.mnemonic]
  have := BroughtTo.branch hu (bare_codeAt hi hr hb hd hs) (by exact hm) (by exact hv') hbr
  unfold nextAddr
  rw [hs.mode]
  exact this

theorem pushAll_brought {src : Source} {conv : OMap ReturnConvention} {asked : List (Addr × StatusFlags)} :
    ∀ (outs : List (Nat × ExecutionState)) {st : OMap ExecutionState}, OMap.Sorted st →
    (∀ a s, st.find a = some s → BroughtTo src conv asked a s) → (∀ o ∈ outs, BroughtTo src conv asked o.1 o.2) →
    ∀ a s, (pushAll st outs).find a = some s → BroughtTo src conv asked a s := by
  intro outs
  induction outs with
  | nil => intro st _ h _; exact h
  | cons o os ih =>
    intro st hs h ho
    refine ih (OMap.sorted_upsert (f := fun old => ExecutionState.merge old o.2) hs o.1 o.2) ?_
      (fun o' h' => ho o' (by simp [h']))
    intro a s ha
    rw [OMap.find_upsert hs] at ha
    by_cases hoa : o.1 = a
    · rw [if_pos hoa] at ha
      subst hoa
      have h1 := ho o (by simp)
      cases hf : st.find o.1 with
      | none => rw [hf] at ha; cases ha; exact h1
      | some p =>
        rw [hf] at ha
        cases ha
        exact .merge (h _ _ hf) h1
    · rw [if_neg hoa] at ha; exact h a s ha

/-! ## The invariant -/

/-- What the loop has seen and what it has still to see are states that the flow of control brings. -/
structure Kept (src : Source) (asked : List (Addr × StatusFlags)) (d : Disassembler) (w : Work) : Prop where
  seen : ∀ a it, look d w.fresh a = some it → BroughtTo src d.conventions asked a it.current
  stack : ∀ a s, w.stack.find a = some s → BroughtTo src d.conventions asked a s
  rets : ∀ a it, look d w.fresh a = some it → it.instruction.ret = conventionOf d.conventions a it.instruction

theorem kept_step {src : Source} {asked : List (Addr × StatusFlags)} {d : Disassembler} {w w' : Work}
    (hf : Flow src d w) (hl : Kept src asked d w) (h : step src d w = .ok (some w')) : Kept src asked d w' := by
  have hf' := flow_step hf h
  have ht := hf.tidy
  have ht' := hf'.tidy
  obtain ⟨pc, s, rest, it, outs, hst, hr, he⟩ := step_round ht.fresh h
  have hpc : w.stack.find pc = some s := by rw [hst]; simp [OMap.find]
  have hsn : NormalState s := ht.states.2 pc s hpc
  have hsu : BroughtTo src d.conventions asked pc s := hl.stack pc s hpc
  have hsorted := ht.stack
  rw [hst] at hsorted
  have hrest : OMap.Sorted rest := by
    unfold OMap.Sorted at hsorted; rw [List.pairwise_cons] at hsorted; exact hsorted.2
  have hrn : ∀ a s, OMap.find rest a = some s → BroughtTo src d.conventions asked a s := by
    intro a t hat
    have : w.stack.find a = some t := by
      rw [hst]
      unfold OMap.Sorted at hsorted
      rw [List.pairwise_cons] at hsorted
      have := hsorted.1 _ (OMap.mem_of_find hat)
      simp only at this
      rw [OMap.find, if_neg (by omega)]
      exact hat
    exact hl.stack a t this
  have hself : look d w'.fresh pc = some it := by rw [he.look, if_pos rfl]
  have hother : ∀ a, pc ≠ a → look d w'.fresh a = look d w.fresh a := fun a ha => by rw [he.look, if_neg ha]
  have hi := hf'.items pc it hself
  suffices hpcs : BroughtTo src d.conventions asked pc it.current ∧
      it.instruction.ret = conventionOf d.conventions pc it.instruction ∧
      ∃ outs', w'.stack = pushAll rest outs' ∧ ∀ o ∈ outs', BroughtTo src d.conventions asked o.1 o.2 by
    obtain ⟨p1, p2, outs', p3, p4⟩ := hpcs
    refine ⟨fun a jt hj => ?_, fun a t hat => ?_, fun a jt hj => ?_⟩
    · by_cases ha : pc = a
      · subst ha; rw [hself] at hj; cases hj; exact p1
      · rw [hother a ha] at hj; exact hl.seen a jt hj
    · rw [p3] at hat
      exact pushAll_brought outs' hrest hrn p4 a t hat
    · by_cases ha : pc = a
      · subst ha; rw [hself] at hj; cases hj; exact p2
      · rw [hother a ha] at hj; exact hl.rets a jt hj
  cases hr with
  | skip seen' same far labels sym =>
    exact ⟨hl.seen pc it seen', hl.rets pc it seen', _, he.stack, by simp⟩
  | first unseen read decoded executed visit =>
    rename_i bytes i0 nx0
    have hret := first_convention decoded visit
    obtain ⟨hi1, -, -, hi4, hi5, -⟩ := first_item visit
    have hcu : BroughtTo src d.conventions asked pc it.current := by rw [hi1]; exact hsu
    obtain ⟨bo, he', hbo⟩ := first_effect ht.fresh visit
    refine ⟨hcu, hret, _, he'.stack, fun o ho => ?_⟩
    rw [List.mem_append] at ho
    rcases ho with ho | ho
    · rcases hbo with ⟨hb, v, b, hv, hnm, hb', rfl⟩ | ⟨-, rfl⟩
      · rw [List.mem_singleton] at ho
        subst ho
        have hb1 : it.instruction.isLocalBranch = true := by
          simp only [Instruction.isLocalBranch] at hb ⊢
          rw [hi4, hi5]; exact hb
        have hv1 : it.instruction.arg1.eval nullCtx = .ok v := by
          rw [hnm]
          simp only
          rw [decode_applyLabel decoded]
          rcases decode_args_shape decoded with ⟨x, t, h⟩ | h
          · rw [h] at hv ⊢; exact hv
          · rw [h] at hv; cases hv
        obtain ⟨bytes', j, hrd, hdj, hsh⟩ := hi.bytes
        have := brought_branch hi hret hrd hdj hsh hcu hb1 hv1 hi.next
        rw [hi1] at this
        rw [branch_taken hb1 (hi1 ▸ hi.next)] at hb'
        cases hb'
        rw [show nextAddr pc it.instruction = nextAddr pc i0 by unfold nextAddr; rw [hi5]] at this
        exact this
      · cases ho
    · obtain ⟨hx, rfl⟩ := nextOuts_mem ho
      exact brought_next hi hret hcu hx
  | again seen' change read decoded executed far branch labels sym =>
    rename_i di bytes i0 nx bo
    have hdn := item_normal ht seen' (hf.items pc di seen')
    have hret := hl.rets pc di seen'
    have hcu : BroughtTo src d.conventions asked pc (s.merge di.current) := .merge hsu (hl.seen pc di seen')
    refine ⟨hcu, hret, _, he.stack, fun o ho => ?_⟩
    rw [List.mem_append] at ho
    rcases ho with ho | ho
    · obtain ⟨hx, rfl⟩ := nextOuts_mem ho
      exact brought_next hi hret hcu hx
    · rcases branch with ⟨-, rfl⟩ | ⟨hb, v, b, hv, hb', rfl⟩
      · cases ho
      · rw [List.mem_singleton] at ho
        subst ho
        have hb2 := hb'
        unfold Instruction.executeBranch at hb'
        obtain ⟨e, he1, -⟩ := Res.bind_eq_ok.1 hb'
        rw [branch_taken hb he1] at hb2
        cases hb2
        obtain ⟨bytes', j, hrd, hdj, hsh⟩ := hi.bytes
        have hab : FlagsAbove (s.merge di.current).flags s.flags := by
          have hc : ∀ b c : BitState, BitAbove (b.merge c) b := by
            intro b c; cases b <;> cases c <;> decide
          have hm : ∀ m m' e e' : BitState, constrainedForEBit m e = m → constrainedForEBit m' e' = m' →
              BitAbove (constrainedForEBit (m.merge m') (e.merge e')) m := by
            intro m m' e e'
            cases m <;> cases m' <;> cases e <;> cases e' <;> decide
          exact ⟨hc _ _, hm _ _ _ _ hsn.1.1 hdn.1.1.1, hm _ _ _ _ hsn.1.2 hdn.1.1.2, hc _ _⟩
        exact brought_branch (it := { di with current := s.merge di.current, next := nx }) hi hret hrd
          (decode_above hab hdj) hsh hsu hb hv he1

/-! ## A round that fails -/

theorem far_noErr (i : Instruction) (a : Nat) (e : Err) : i.farBranchTarget a ≠ .err e := by
  intro h
  unfold Instruction.farBranchTarget at h
  split at h
  · split at h
    · rename_i t _
      unfold Address.ofInt at h
      by_cases hb : 0 ≤ t ∧ t ≤ 0x1000000
      · rw [if_pos hb, Res.bind_ok] at h; cases h
      · rw [if_neg hb] at h; cases h
    · cases h
    · cases h
  · split at h
    · split at h <;> cases h
    · cases h

theorem bind_err {α β : Type} {x : Res α} {f : α → Res β} {e : Err} (h : (x >>= f) = .err e) :
    x = .err e ∨ ∃ a, x = .ok a ∧ f a = .err e := by
  cases x with
  | ok a => exact .inr ⟨a, rfl, h⟩
  | err e' =>
    left
    have : (Res.err e' : Res β) = .err e := h
    cases this
    rfl
  | ub u => cases h

theorem evalUnchecked_noErr (x : Expr) (e : Err) : evalUnchecked x ≠ .err e := by
  unfold evalUnchecked
  split <;> simp

theorem executeBranch_noErr {i : Instruction} (hb : i.isLocalBranch = true) {s : ExecutionState}
    (hc : i.checkConsistency s.flags = .ok ()) (e : Err) : i.executeBranch s ≠ .err e := by
  intro h
  have h0 := h
  unfold Instruction.executeBranch at h
  rcases bind_err h with h | ⟨a, ha, -⟩
  · exact execute_noErr hc e h
  · rw [branch_taken hb ha] at h0
    cases h0

theorem visitNew_err {src : Source} {d : Disassembler} {w : Work} {pc : Nat} {s : ExecutionState} {e : Err}
    (h : visitNew src d w pc s = .err e) : CodeMissing src pc s.flags e := by
  unfold visitNew at h
  rcases bind_err h with h | ⟨bytes, hb, h⟩
  · exact .unreadable h
  rcases bind_err h with h | ⟨j, hd, h⟩
  · exact .undecodable hb h
  exfalso
  have hc := decoded_consistent hd
  rcases bind_err h with h | ⟨nx, hx, h⟩
  · exact execute_noErr hc e h
  rcases bind_err h with h | ⟨⟨i1, nx1, w1⟩, h1, h⟩
  · unfold farVisit at h
    rcases bind_err h with h | ⟨t, -, h⟩
    · exact far_noErr _ _ _ h
    · cases t <;> cases h
  rcases bind_err h with h | ⟨⟨i2, w2⟩, -, h⟩
  · unfold branchVisit at h
    split at h
    · rename_i hl
      rcases bind_err h with h | ⟨v, -, h⟩
      · exact evalUnchecked_noErr _ _ h
      · simp only at h
        rcases bind_err h with h | ⟨b, -, h⟩
        · refine executeBranch_noErr (by exact hl) ?_ e h
          have hl0 : j.isLocalBranch = true := by
            unfold farVisit at h1
            obtain ⟨t, -, h1⟩ := Res.bind_eq_ok.1 h1
            cases t with
            | none => cases h1; exact hl
            | some t =>
              cases h1
              split at hl
              · split at hl <;> exact hl
              · exact hl
          unfold farVisit at h1
          rw [branch_no_far hl0, Res.bind_ok] at h1
          cases h1
          exact hc
        · cases h
    · cases h
  · simp only at h
    split at h <;> cases h

theorem visitOld_err {src : Source} {w : Work} {pc : Nat} {s : ExecutionState} {di : DisItem} {e : Err}
    (hi : ItemOk src pc di) (hsn : NormalState s) (hdn : NormalState di.current)
    (h : visitOld src w pc s di = .err e) : CodeMissing src pc (s.merge di.current).flags e := by
  unfold visitOld at h
  simp only at h
  split at h
  · cases h
  rcases bind_err h with h | ⟨⟨⟩, hr, h⟩
  · unfold redecode at h
    split at h
    · rename_i bytes hb
      rcases bind_err h with h | ⟨_, -, h⟩
      · exact .undecodable hb h
      · cases h
    · cases h
    · cases h
  exfalso
  obtain ⟨bytes, j, hb, hd⟩ : ∃ bytes j, src pc 4 = .ok bytes ∧ decode bytes (s.merge di.current).flags = .ok j := by
    unfold redecode at hr
    split at hr
    · rename_i bytes hb
      obtain ⟨j, hd, -⟩ := Res.bind_eq_ok.1 hr
      exact ⟨bytes, j, hb, hd⟩
    · cases hr
    · cases hr
  have hc := item_consistent hi (flagsMerge_above hsn.1 hdn.1) hb hd
  rcases bind_err h with h | ⟨nx, hx, h⟩
  · exact execute_noErr hc e h
  rcases bind_err h with h | ⟨w1, -, h⟩
  · unfold farRevisit at h
    rcases bind_err h with h | ⟨t, -, h⟩
    · exact far_noErr _ _ _ h
    · cases t <;> cases h
  · unfold branchRevisit at h
    split at h
    · rename_i hl
      rcases bind_err h with h | ⟨b, -, h⟩
      · exact executeBranch_noErr hl (branch_consistent hl hx _) e h
      · rcases bind_err h with h | ⟨v, -, h⟩
        · exact evalUnchecked_noErr _ _ h
        · cases h
    · cases h

/-- A round fails only where there is no code. -/
theorem step_err {src : Source} {asked : List (Addr × StatusFlags)} {d : Disassembler} {w : Work} {e : Err}
    (hf : Flow src d w) (hk : Kept src asked d w) (h : step src d w = .err e) :
    ∃ pc s0 rest s, w.stack = (pc, s0) :: rest ∧ BroughtTo src d.conventions asked pc s ∧ CodeMissing src pc s.flags e := by
  unfold step at h
  split at h
  · cases h
  · rename_i pc s rest hst
    have hfind : w.stack.find pc = some s := by rw [hst]; simp [OMap.find]
    have hsu := hk.stack pc s hfind
    have hsn := hf.tidy.states.2 pc s hfind
    simp only at h
    have hl := getInstruction_look d { w with stack := rest } pc
    split at h
    · rcases bind_err h with h | ⟨w2, -, h⟩
      · exact ⟨pc, s, rest, s, hst, hsu, visitNew_err h⟩
      · cases h
    · rename_i di w1 hg
      rw [hg] at hl
      have hl' : look d w.fresh pc = some di := hl.symm
      have hi := hf.items pc di hl'
      rcases bind_err h with h | ⟨w2, -, h⟩
      · exact ⟨pc, s, rest, s.merge di.current, hst, .merge hsu (hk.seen pc di hl'),
          visitOld_err hi hsn (item_normal hf.tidy hl' hi).1 h⟩
      · cases h

theorem run_err {src : Source} {d : Disassembler} : ∀ (n : Nat) (w w' : Work) (e : Err),
    run src d n w = (w', .err e) → e ≠ .steps → step src d w' = .err e := by
  intro n
  induction n with
  | zero => intro w w' e h hn; cases h; exact absurd rfl hn
  | succ n ih =>
    intro w w' e h hn
    unfold run at h
    split at h
    · cases h
    · exact ih _ _ _ h hn
    · rename_i e' hs; cases h; exact hs
    · cases h

/-! ## Calls -/

theorem called_session {src : Source} {conv : OMap ReturnConvention} (hs : OMap.Sorted conv)
    (ht : TableOk FlagsWritten conv) {asked : List (Addr × StatusFlags)} {d : Disassembler}
    (h : Called src conv asked d) : Session FlagsWritten src d ∧ d.conventions = conv := by
  induction h with
  | new => exact ⟨.table .new hs ht, rfl⟩
  | call before address ok result ih =>
    refine ⟨.call ih.1 address ok result trivial, ?_⟩
    rw [← ih.2]
    unfold disassemble at result
    simp only at result
    split at result <;> cases result
    rfl
  | failed before address ok result ended ih =>
    refine ⟨.call ih.1 address ok result ended, ?_⟩
    rw [← ih.2]
    unfold disassemble at result
    simp only at result
    split at result <;> cases result
    rfl

/-- The listing holds states that the flow of control brings, and the table's conventions. -/
def Listed (src : Source) (conv : OMap ReturnConvention) (asked : List (Addr × StatusFlags)) (d : Disassembler) : Prop :=
  ∀ a it, d.disassembly.find a = some it →
    BroughtTo src conv asked a it.current ∧ it.instruction.ret = conventionOf conv a it.instruction

theorem begin_kept {src : Source} {conv : OMap ReturnConvention} {asked : List (Addr × StatusFlags)} {d : Disassembler}
    (hc : d.conventions = conv) (hl : Listed src conv asked d) (start : Nat) (flags : StatusFlags) :
    Kept src ((start, flags) :: asked) d (begin d start flags) := by
  obtain ⟨h1, h2, -⟩ := begin_shape d start flags
  have hlook : ∀ a, look d (begin d start flags).fresh a = d.disassembly.find a := by
    intro a; rw [h1]; rfl
  refine ⟨fun a it h => ?_, fun a s h => ?_, fun a it h => ?_⟩
  · rw [hlook] at h
    rw [hc]
    exact BroughtTo.mono (fun p hp => List.mem_cons_of_mem _ hp) (hl a it h).1
  · rw [h2] at h
    rw [hc]
    unfold OMap.find at h
    split at h
    · rename_i hs
      cases h
      subst hs
      exact .start List.mem_cons_self
    · cases h
  · rw [hlook] at h
    rw [hc]
    exact (hl a it h).2

theorem loop_kept {src : Source} {conv : OMap ReturnConvention} {asked : List (Addr × StatusFlags)} {d : Disassembler}
    (h : Closed src d) (hc : d.conventions = conv) (hl : Listed src conv asked d) {fuel start : Nat}
    (hs : start ≤ 0x1000000) {flags : StatusFlags} (hf : Normal flags) {w : Work} {r : Res Unit}
    (hr : run src d fuel (begin d start flags) = (w, r)) :
    Flow src d w ∧ Kept src ((start, flags) :: asked) d w :=
  (run_invariant (src := src) (d := d) (I := fun w => Flow src d w ∧ Kept src ((start, flags) :: asked) d w)
    (fun _ _ hw h => ⟨flow_step hw.1 h, kept_step hw.1 hw.2 h⟩) fuel (begin d start flags) w r
    ⟨(begin_flow h hs hf).1, begin_kept hc hl start flags⟩ hr).1

theorem call_listed {src : Source} {conv : OMap ReturnConvention} {asked : List (Addr × StatusFlags)}
    {d d' : Disassembler} (h : Closed src d) (hc : d.conventions = conv) (hl : Listed src conv asked d)
    {fuel start : Nat} (hs : start ≤ 0x1000000) {flags : StatusFlags} (hf : Normal flags) {T : OMap StatusFlags}
    (result : d.disassemble fuel src start flags = (d', .ok T)) : Listed src conv ((start, flags) :: asked) d' := by
  unfold disassemble at result
  simp only at result
  split at result
  case h_2 => cases result
  case h_3 => cases result
  rename_i w hrun
  cases result
  obtain ⟨-, k⟩ := loop_kept h hc hl hs hf hrun
  obtain ⟨l1, l2, l3, l4⟩ := loop_flow h hs hf hrun
  obtain ⟨f1, -⟩ := finish_look h.proper.sorted l1.tidy l2 (l4 rfl)
  intro a jt ha
  obtain ⟨it, g1, ⟨s, l, g2, g3⟩, -⟩ := f1 a jt ha
  have hcur : jt.current = it.current := by
    rw [g2]
    simp only
    split
    · exact (addSuffix_rest it).2.2.1
    · rfl
  rw [hcur]
  have k1 := k.seen a it g1
  have k2 := k.rets a it g1
  rw [hc] at k1 k2
  refine ⟨k1, ?_⟩
  rw [g3]
  exact k2

theorem called_listed {src : Source} {conv : OMap ReturnConvention} (hs : OMap.Sorted conv)
    (ht : TableOk FlagsWritten conv) {asked : List (Addr × StatusFlags)} {d : Disassembler}
    (h : Called src conv asked d) : Listed src conv asked d := by
  induction h with
  | new => intro a it h; simp [Disassembler.empty, addTargetReturnConventions, OMap.find] at h
  | call before address ok result ih =>
    have hb := called_session hs ht before
    exact call_listed (session_closed hb.1) hb.2 ih address (constructible_normal ok) result
  | failed before address ok result ended ih =>
    unfold disassemble at result
    simp only at result
    split at result <;> cases result
    exact ih

theorem called_bound {src : Source} {conv : OMap ReturnConvention} (hs : OMap.Sorted conv)
    (ht : TableOk FlagsWritten conv) {asked : List (Addr × StatusFlags)} {d : Disassembler}
    (h : Called src conv asked d) : Bound src conv d :=
  ⟨session_closed (called_session hs ht h).1, (called_session hs ht h).2,
    fun a it ha => (called_listed hs ht h a it ha).2⟩

theorem called_covers {src : Source} {conv : OMap ReturnConvention} (hs : OMap.Sorted conv)
    (ht : TableOk FlagsWritten conv) {asked : List (Addr × StatusFlags)} {d : Disassembler}
    (h : Called src conv asked d) : ∀ p ∈ asked, Normal p.2 ∧ Under d p.1 (.init p.2) := by
  induction h with
  | new => simp
  | call before address ok result ih =>
    rename_i asked d d' fuel start flags X
    have hB := called_bound hs ht before
    have hB' := called_bound hs ht (.call before address ok result)
    have hf := constructible_normal ok
    intro p hp
    rw [List.mem_cons] at hp
    rcases hp with rfl | hp
    · obtain ⟨jt, h1, h2⟩ := (disassemble_closed hB.closed address hf result).2 rfl
      exact ⟨hf, jt, h1, h2.state (closed_normal hB'.closed h1).1 (normal_init hf)⟩
    · obtain ⟨hn, it, h1, h2⟩ := ih p hp
      obtain ⟨jt, h3, h4⟩ := disassemble_keeps hB.closed address hf result h1
      exact ⟨hn, jt, h3, (h4.state (closed_normal hB'.closed h3).1 (closed_normal hB.closed h1).1).trans h2⟩
  | failed before address ok result ended ih =>
    unfold disassemble at result
    simp only at result
    split at result <;> cases result
    exact ih

/-! ## What is brought somewhere is listed there -/

theorem returns_normal {conv : OMap ReturnConvention} (ht : TableOk FlagsWritten conv) {a : Nat} {j : Instruction}
    {r : ReturnConvention} (h : ReturnsAs conv a j r) : ∀ f, r = .yields f → Normal f := by
  rintro f rfl
  cases h with
  | table call target entry => exact normal_written (ht _ f (OMap.mem_of_find entry))

theorem brought_under {src : Source} {conv : OMap ReturnConvention} (ht : TableOk FlagsWritten conv)
    {asked : List (Addr × StatusFlags)} {R : Disassembler} (hR : Bound src conv R)
    (hc : ∀ p ∈ asked, Normal p.2 ∧ Under R p.1 (.init p.2)) {a : Addr} {s : ExecutionState}
    (h : BroughtTo src conv asked a s) : NormalState s ∧ Under R a s := by
  have key : ∀ {a : Addr} {s : ExecutionState} {i : Instruction} {it : DisItem}, CodeAt src conv a s.flags i →
      R.disassembly.find a = some it → StateAbove it.current s →
      ∃ j, Shows j it.instruction ∧ i = { j with ret := it.instruction.ret } ∧
        (∀ f, i.ret = .yields f → Normal f) ∧ Alike it.instruction i := by
    intro a s i it hcode hit hab
    have hio := hR.closed.items a it hit
    obtain ⟨bytes, j, hb, hd, hs⟩ := hio.bytes
    cases hcode with
    | code read decoded returns =>
      rw [hb] at read
      cases read
      rw [decode_above hab.flags hd] at decoded
      cases decoded
      have hr := returns_unique returns (returns_convention hio hs)
      rw [← hR.rets a it hit] at hr
      subst hr
      refine ⟨j, hs, rfl, returns_normal ht returns, ?_⟩
      refine ⟨hs.mnemonic.symm, rfl, hs.mode.symm, ?_⟩
      cases hl : it.instruction.isLocalBranch with
      | true =>
        right
        have := hR.closed.proper.kinds a it hit hl
        revert this
        generalize it.instruction.mnemonic = m
        revert m
        decide
      | false =>
        left
        have hn : ¬ MayBranch j := by rw [← mayBranch_iff, ← shows_branch hs, hl]; simp
        exact ⟨(hs.plain hn).symm, hs.arg2.symm⟩
  induction h with
  | start call => exact ⟨normal_init (hc _ call).1, (hc _ call).2⟩
  | next before code runs on ih =>
    rename_i a s t i
    obtain ⟨hn, it, hit, hab⟩ := ih
    obtain ⟨j, hs, rfl, hret, hal⟩ := key code hit hab
    have hio := hR.closed.items a it hit
    refine ⟨normal_execute hret runs hn, ?_⟩
    have h3 := execute_both hal hab hn hio.next runs
    obtain ⟨kt, hk, hka⟩ := hR.closed.next a it hit (by
      rw [stops_exit] at on
      unfold Instruction.isExitInstruction at on ⊢
      rw [hs.mnemonic]
      simpa using on)
    rw [show nextAddr a it.instruction = following a { j with ret := it.instruction.ret } by
      unfold nextAddr following; rw [hs.mode]] at hk
    exact ⟨kt, hk, (hka.state (closed_normal hR.closed hk).1 (closed_normal hR.closed hit).2).trans h3⟩
  | branch before code may offset runs ih =>
    rename_i a s t i v
    obtain ⟨hn, it, hit, hab⟩ := ih
    obtain ⟨j, hs, rfl, hret, hal⟩ := key code hit hab
    refine ⟨normal_executeBranch hret runs hn, ?_⟩
    have hlj : j.isLocalBranch = true := (mayBranch_iff j).2 may
    have hl : it.instruction.isLocalBranch = true := by rw [shows_branch hs]; exact hlj
    obtain ⟨name, hname⟩ := hs.branch may
    have hv : it.instruction.arg1.eval nullCtx = .ok v := by
      obtain ⟨bytes, j', -, hd, hs'⟩ := (hR.closed.items a it hit).bytes
      obtain ⟨name', hn'⟩ := hs'.branch (by
        unfold MayBranch at may ⊢
        rw [← hs'.mode, ← hs'.mnemonic, hs.mode, hs.mnemonic]
        exact may)
      rw [hname] at hn'
      have hjj : j.arg1 = j'.arg1 := by injection hn'
      rw [hname]
      simp only at offset
      rw [hjj] at offset ⊢
      rcases decode_args_shape hd with ⟨x, t, h⟩ | h
      · rw [h] at offset ⊢; exact offset
      · rw [h] at offset; cases offset
    obtain ⟨kt, hk, hka⟩ := hR.closed.branch a it v hit hl hv
    rw [show nextAddr a it.instruction = following a { j with ret := it.instruction.ret } by
      unfold nextAddr following; rw [hs.mode]] at hk
    have hbs : t = branchState { j with ret := it.instruction.ret } s := by
      have hb2 := runs
      unfold Instruction.executeBranch at runs
      obtain ⟨e, he1, -⟩ := Res.bind_eq_ok.1 runs
      rw [branch_taken (by exact hlj) he1] at hb2
      cases hb2
      rfl
    rw [hbs]
    exact ⟨kt, hk, (hka.state (closed_normal hR.closed hk).1 (branchState_normal (closed_normal hR.closed hit).1)).trans
      (branchState_mono hs.mnemonic.symm hab)⟩
  | merge _ _ ih1 ih2 => exact ⟨normal_merge ih1.1, under_merge hR ih1.1 ih2.1 ih1.2 ih2.2⟩

end Nsasm.Brought
