import Verif.Lemmas.Closed
import Verif.Lemmas.Fitting

/-! # When a round of the disassembler is defined -/

namespace Nsasm
open Spec Props Disassembler

/-! ## The states -/

/-- Register values are 16-bit values and, if `Q`, no size is tracked as the one on entry. -/
def Fine (Q : Prop) (s : ExecutionState) : Prop := Small16 s ∧ (Q → Keeps SizesNotOriginal s)

theorem registerMerge_small {l r : RegisterValue} (h : ∀ v, l = .value v → v < 65536) :
    ∀ v, l.merge r = .value v → v < 65536 := by
  intro v hv
  unfold RegisterValue.merge at hv
  split at hv
  · exact h v hv
  · cases hv

theorem bitMerge_ne {l r : BitState} (h : l ≠ .original) : l.merge r ≠ .original := by
  unfold BitState.merge
  split
  · exact h
  · simp

theorem flagsMerge_sizes {f g : StatusFlags} (h : SizesNotOriginal f) : SizesNotOriginal (f.merge g) :=
  ⟨constrained_ne_original (bitMerge_ne h.1) _, constrained_ne_original (bitMerge_ne h.2) _⟩

theorem mergeList_flags {P : StatusFlags → Prop} (hm : ∀ f g, P f → P (f.merge g)) :
    ∀ (l r m : List StackValue), Stack.mergeList l r = some m → (∀ f, .flags f ∈ l → P f) → ∀ f, .flags f ∈ m → P f := by
  intro l
  induction l with
  | nil =>
    intro r m h _ f hf
    cases r with
    | nil => cases h; simp at hf
    | cons => cases h
  | cons a l ih =>
    intro r m h hl f hf
    cases r with
    | nil => cases h
    | cons b r =>
      unfold Stack.mergeList at h
      split at h
      · cases hml : Stack.mergeList l r with
        | none => rw [hml] at h; cases h
        | some m0 =>
          rw [hml] at h
          cases h
          rcases List.mem_cons.1 hf with hf | hf
          · unfold StackValue.merge at hf
            split at hf
            · cases hf
            · split at hf
              · split at hf <;> cases hf
              · cases hf; exact hm _ _ (hl _ (by simp))
              · split at hf <;> cases hf
              · subst hf; exact hl _ (by simp)
          · exact ih r m0 hml (fun f hf => hl f (List.mem_cons_of_mem _ hf)) f hf
      · cases h

theorem fine_merge {Q : Prop} {s t : ExecutionState} (hs : Fine Q s) : Fine Q (s.merge t) := by
  obtain ⟨⟨h1, h2, h3, h4⟩, hk⟩ := hs
  refine ⟨⟨registerMerge_small h1, registerMerge_small h2, registerMerge_small h3, registerMerge_small h4⟩, ?_⟩
  intro q
  obtain ⟨k1, k2⟩ := hk q
  refine ⟨flagsMerge_sizes k1, ?_⟩
  intro l hl f hf
  change s.stack.merge t.stack = _ at hl
  cases hss : s.stack with
  | abandoned => rw [hss] at hl; cases hl
  | live a =>
    cases hts : t.stack with
    | abandoned => rw [hss, hts] at hl; cases hl
    | live b =>
      rw [hss, hts] at hl
      unfold Stack.merge at hl
      simp only at hl
      split at hl
      · rename_i m hm
        cases hl
        exact mergeList_flags (fun f g => flagsMerge_sizes) _ _ _ hm (fun f hf => k2 a hss f hf) f hf
      · cases hl

theorem written_sizes {f : StatusFlags} (h : FlagsWritten f) : SizesNotOriginal f := by
  obtain ⟨s, hs⟩ := h
  exact ⟨(fromName_bits hs).2.2.1, (fromName_bits hs).2.2.2⟩

theorem fine_execute {Q : Prop} {i : Instruction} {s nx : ExecutionState}
    (hret : ∀ f, i.ret = .yields f → FlagsWritten f) (h : i.execute s nullCtx = .ok nx) (hs : Fine Q s) : Fine Q nx :=
  ⟨execute_small h hs.1, fun q => sizes_execute (fun f hf => written_sizes (hret f hf)) h (hs.2 q)⟩

theorem fine_branchState {Q : Prop} {i : Instruction} {s : ExecutionState} (hs : Fine Q s) : Fine Q (branchState i s) := by
  unfold branchState
  split
  · exact ⟨hs.1, fun q => ⟨(hs.2 q).1, (hs.2 q).2⟩⟩
  · split
    · exact ⟨hs.1, fun q => ⟨(hs.2 q).1, (hs.2 q).2⟩⟩
    · exact hs

theorem fine_init {Q : Prop} {f : StatusFlags} (h : Q → (f.m = .on ∨ f.m = .off) ∧ (f.x = .on ∨ f.x = .off)) :
    Fine Q (.init f) := by
  refine ⟨⟨by simp [ExecutionState.init], by simp [ExecutionState.init], by simp [ExecutionState.init],
    by simp [ExecutionState.init]⟩, fun q => ⟨⟨?_, ?_⟩, ?_⟩⟩
  · show StatusFlags.incomingBit f.m ≠ _
    rcases (h q).1 with h | h <;> rw [h] <;> decide
  · show StatusFlags.incomingBit f.x ≠ _
    rcases (h q).2 with h | h <;> rw [h] <;> decide
  · intro l hl f hf; cases hl; simp at hf

/-! ## The parts of a round -/

theorem decodeArgs_noUb (mode : Mode) (bytes : List UInt8) : (decodeArgs mode bytes).noUb := by
  unfold decodeArgs
  split <;> first | trivial | (split <;> trivial)

theorem decode_noUb (bytes : List UInt8) (f : StatusFlags) : (decode bytes f).noUb := by
  unfold decode
  split
  · trivial
  · rename_i op l
    generalize decodeOpcode op = e
    obtain ⟨mn, md⟩ := e
    refine Res.noUb_bind ?_ fun m _ => Res.noUb_bind (decodeArgs_noUb _ _) fun ⟨_, _⟩ _ => trivial
    split
    · generalize (if md = Mode.imm_fm then f.m else f.x) = b
      cases b <;> trivial
    · trivial

/-- An instruction as it is in the listing: its operands are those of `i0` or a label in front of them. -/
def Like (i0 i : Instruction) : Prop :=
  i.mnemonic = i0.mnemonic ∧ i.mode = i0.mode ∧ i.arg2 = i0.arg2 ∧ (i.arg1 = i0.arg1 ∨ MayBranch i0 ∧ ∃ n, i.arg1 = .label n i0.arg1)

theorem shows_like {i0 i : Instruction} (h : Shows i0 i) : Like i0 i := by
  refine ⟨h.mnemonic, h.mode, h.arg2, ?_⟩
  by_cases hb : MayBranch i0
  · exact .inr ⟨hb, h.branch hb⟩
  · exact .inl (h.plain hb)

theorem decode_arg2_shape {bytes : List UInt8} {f : StatusFlags} {i : Instruction} (h : decode bytes f = .ok i) :
    (∃ v t, i.arg2 = .mkLit v t) ∨ i.arg2 = .null := by
  rw [decode_ok_iff] at h
  obtain ⟨op, l, a, a1, a2, -, -, -, -, h, rfl⟩ := h
  simp only
  unfold decodeArgs at h
  split at h <;> first
    | (split at h <;> first | (cases h; first | exact .inl ⟨_, _, rfl⟩ | exact .inr rfl) | cases h)
    | (cases h; exact .inr rfl)

theorem mkLit_noUb (v : Int) (t : NumericType) (ctx : Ctx) : ((Expr.mkLit v t).eval ctx).noUb := by
  unfold Expr.mkLit
  simp [Expr.eval]

theorem arg_noUb {e : Expr} (h : (∃ v t, e = .mkLit v t) ∨ e = .null) : (e.eval nullCtx).noUb := by
  rcases h with ⟨v, t, rfl⟩ | rfl
  · exact mkLit_noUb _ _ _
  · trivial

theorem decode_offset {bytes : List UInt8} {f : StatusFlags} {i : Instruction} (h : decode bytes f = .ok i)
    (hb : MayBranch i) : ∃ v t, i.arg1 = .mkLit v t := by
  rw [decode_ok_iff] at h
  obtain ⟨op, l, a, a1, a2, -, -, -, -, h, rfl⟩ := h
  simp only
  unfold decodeArgs at h
  rcases hb.1 with hm | hm <;> simp only at hm <;> subst hm <;> simp only at h <;> split at h <;> cases h <;>
    exact ⟨_, _, rfl⟩

theorem like_eval {bytes : List UInt8} {f : StatusFlags} {i0 i : Instruction} (hd : decode bytes f = .ok i0)
    (h : Like i0 i) : (i.arg1.eval nullCtx).noUb ∧ (i.arg2.eval nullCtx).noUb ∧
      (∀ v, i.arg1.eval nullCtx = .ok v → i0.arg1.eval nullCtx = .ok v) := by
  obtain ⟨-, -, h2, h1⟩ := h
  have h3 := decode_args_shape hd
  refine ⟨?_, ?_, ?_⟩
  · rcases h1 with h1 | ⟨hb, n, h1⟩
    · rw [h1]; exact arg_noUb h3
    · obtain ⟨v, t, h4⟩ := decode_offset hd hb
      rw [h1, h4]
      simp [Expr.mkLit, Expr.eval]
  · rw [h2]; exact arg_noUb (decode_arg2_shape hd)
  · intro v hv
    rcases h1 with h1 | ⟨-, n, h1⟩
    · rw [h1] at hv; exact hv
    · rw [h1] at hv
      simp only [Expr.eval] at hv
      split at hv
      · cases hv
      · exact hv

/-- Executing an instruction of a program is undefined only if it pulls a register whose size is not known. -/
theorem like_execute {Q : Prop} {bytes : List UInt8} {f : StatusFlags} {i0 i : Instruction} {s : ExecutionState}
    (hd : decode bytes f = .ok i0) (h : Like i0 i) (hs : Fine Q s) :
    (i.execute s nullCtx).noUb ∨ (¬ Q ∧ i0.mnemonic ∈ [.pla, .plx, .ply]) := by
  obtain ⟨e1, e2, e3⟩ := like_eval hd h
  have hmv : i.mnemonic = .mvn ∨ i.mnemonic = .mvp → ∀ v, i.arg1.eval nullCtx = .ok v →
      -2147483648 + 65536 ≤ v ∧ v < 2147483647 - 65536 := by
    intro hm v hv
    rw [h.1] at hm
    obtain ⟨w, hw, h0, h1⟩ := (decode_bounds hd).1 (decode_move hd hm)
    have := e3 v hv
    rw [hw] at this
    simp only [Expr.eval, Res.ok.injEq] at this
    omega
  by_cases hp : i0.mnemonic ∈ [Mnemonic.pla, .plx, .ply]
  · by_cases hq : Q
    · obtain ⟨⟨k1, k2⟩, -⟩ := hs.2 hq
      exact .inl (execute_noUb hs.1 ⟨e1, e2, hmv, fun _ hb => k1 hb.1, fun _ hb => k2 hb.1, fun _ hb => k2 hb.1⟩)
    · exact .inr ⟨hq, hp⟩
  · left
    simp only [List.mem_cons, List.not_mem_nil, or_false, not_or] at hp
    rw [← h.1] at hp
    exact execute_noUb hs.1 ⟨e1, e2, hmv, fun h => absurd h hp.1, fun h => absurd h hp.2.1, fun h => absurd h hp.2.2⟩

theorem like_far {bytes : List UInt8} {f : StatusFlags} {i0 i : Instruction} (hd : decode bytes f = .ok i0)
    (h : Like i0 i) (a : Nat) : ∃ t, i.farBranchTarget a = .ok t := by
  obtain ⟨e1, -, e3⟩ := like_eval hd h
  refine far_ok ?_ ?_
  · intro u hu; rw [hu] at e1; exact e1
  · intro hm v hv
    rw [h.2.1] at hm
    obtain ⟨w, hw, h0, h1⟩ := (decode_bounds hd).2 hm
    have := e3 v hv
    rw [hw] at this
    simp only [Expr.eval, Res.ok.injEq] at this
    omega

/-- The offset of a local branch has a value. -/
theorem like_offset {bytes : List UInt8} {f : StatusFlags} {i0 i : Instruction} (hd : decode bytes f = .ok i0)
    (h : Like i0 i) (hb : i.isLocalBranch = true) : ∃ v, evalUnchecked i.arg1 = .ok v := by
  have hb0 : MayBranch i0 := by
    have := (mayBranch_iff i).1 hb
    unfold MayBranch at this ⊢
    rw [h.1, h.2.1] at this; exact this
  obtain ⟨v, t, h4⟩ := decode_offset hd hb0
  unfold evalUnchecked
  rcases h.2.2.2 with h1 | ⟨-, n, h1⟩
  · rw [h1, h4]; simp [Expr.mkLit, Expr.eval]
  · rw [h1, h4]; simp [Expr.mkLit, Expr.eval]

/-! ## A round -/

/-- All states of the disassembler are fine. -/
def AllFine (Q : Prop) (d : Disassembler) (w : Work) : Prop :=
  (∀ a it, look d w.fresh a = some it → Fine Q it.current) ∧ (∀ a s, w.stack.find a = some s → Fine Q s)

/-- A pull instruction that the source holds. -/
def PullAt (src : Source) (a : Nat) : Prop :=
  ∃ bytes f i, src a 4 = .ok bytes ∧ decode bytes f = .ok i ∧ i.mnemonic ∈ [Mnemonic.pla, .plx, .ply]

theorem pull_modes : ∀ op : UInt8, (decodeOpcode op).1 ∈ [Mnemonic.pla, .plx, .ply] → (decodeOpcode op).2 = .imp := by
  apply forall_byte
  decide +kernel

theorem decode_pull_mode {bytes : List UInt8} {f : StatusFlags} {j : Instruction} (h : decode bytes f = .ok j)
    (hm : j.mnemonic ∈ [Mnemonic.pla, .plx, .ply]) : j.mode = .imp := by
  rw [decode_ok_iff] at h
  obtain ⟨op, l, m, a1, a2, -, h1, h2, h3, -, rfl⟩ := h
  have := pull_modes op hm
  rcases h3 with h3 | ⟨h3, -⟩ | ⟨h3, -⟩ <;> rw [this] at h3
  · exact h3.symm
  · cases h3
  · cases h3

theorem branch_noUb {Q : Prop} {bytes : List UInt8} {f : StatusFlags} {i0 i : Instruction} {s : ExecutionState}
    (hd : decode bytes f = .ok i0) (h : Like i0 i) (hs : Fine Q s) (hb : i.isLocalBranch = true) :
    (i.executeBranch s).noUb := by
  have hnp : i0.mnemonic ∉ [Mnemonic.pla, .plx, .ply] := by
    intro hp
    have hm := decode_pull_mode hd hp
    have := ((mayBranch_iff i).1 hb).1
    rw [h.2.1, hm] at this
    simp at this
  unfold Instruction.executeBranch
  rcases like_execute hd h hs with h1 | ⟨-, h1⟩
  · refine Res.noUb_bind h1 fun e he => ?_
    have := branch_taken hb he
    unfold Instruction.executeBranch at this
    rw [he, Res.bind_ok] at this
    rw [this]; trivial
  · exact absurd h1 hnp

theorem like_self (i : Instruction) : Like i i := ⟨rfl, rfl, rfl, .inl rfl⟩

theorem visitNew_defined {Q : Prop} {src : Source} (hsrc : ∀ a, (src a 4).noUb) {d : Disassembler} {w : Work} {pc : Nat}
    {s : ExecutionState} (hs : Fine Q s) : (visitNew src d w pc s).noUb ∨ (¬ Q ∧ PullAt src pc) := by
  cases hb : src pc 4 with
  | ub u => have := hsrc pc; rw [hb] at this; cases this
  | err e => left; unfold visitNew; rw [hb]; trivial
  | ok bytes =>
    cases hd : decode bytes s.flags with
    | ub u => have := decode_noUb bytes s.flags; rw [hd] at this; cases this
    | err e => left; unfold visitNew; rw [hb, Res.bind_ok, hd]; trivial
    | ok i0 =>
      rcases like_execute hd (like_self i0) hs with h1 | ⟨h1, h2⟩
      · left
        unfold visitNew
        rw [hb, Res.bind_ok, hd, Res.bind_ok]
        refine Res.noUb_bind h1 fun nx hnx => ?_
        obtain ⟨t, ht⟩ := like_far hd (like_self i0) pc
        have hfv : ∃ i w', farVisit d w pc i0 nx = .ok (i, i.ret.applyTo nx, w') ∧ (∃ r, i = { i0 with ret := r }) ∨
            farVisit d w pc i0 nx = .ok (i0, nx, w) := by
          unfold farVisit
          rw [ht, Res.bind_ok]
          cases t with
          | none => exact ⟨i0, w, .inr rfl⟩
          | some t =>
            simp only
            refine ⟨_, _, .inl ⟨rfl, ?_⟩⟩
            split
            · split
              · exact ⟨_, rfl⟩
              · exact ⟨i0.ret, rfl⟩
            · exact ⟨i0.ret, rfl⟩
        refine Res.noUb_bind ?_ fun ⟨i, nx', w'⟩ hi => ?_
        · obtain ⟨i, w', h | h⟩ := hfv
          · rw [h.1]; trivial
          · rw [h]; trivial
        have hr : ∃ r, i = { i0 with ret := r } := by
          obtain ⟨i', w'', h | h⟩ := hfv
          · rw [h.1] at hi; cases hi; exact h.2
          · rw [h] at hi; cases hi; exact ⟨i0.ret, rfl⟩
        have hl : ∀ l : Str, i.isLocalBranch = true → Like i0 { i with arg1 := i.arg1.applyLabel l } := by
          intro l hb
          obtain ⟨r, rfl⟩ := hr
          refine ⟨rfl, rfl, rfl, .inr ⟨(mayBranch_iff i0).1 hb, l, decode_applyLabel hd l⟩⟩
        have hli : Like i0 i := by obtain ⟨r, rfl⟩ := hr; exact like_self i0
        refine Res.noUb_bind ?_ fun ⟨i, w'⟩ _ => ?_
        · unfold branchVisit
          split
          · rename_i hbr
            obtain ⟨v, hv⟩ := like_offset hd hli hbr
            rw [hv, Res.bind_ok]
            refine Res.noUb_bind (branch_noUb hd (hl _ hbr) hs ?_) fun _ _ => trivial
            exact hbr
          · trivial
        · simp only
          split <;> trivial
      · exact .inr ⟨h1, bytes, _, i0, hb, hd, h2⟩

theorem visitOld_defined {Q : Prop} {src : Source} {w : Work} {pc : Nat}
    {s : ExecutionState} (hs : Fine Q s) {di : DisItem} (hi : ItemOk src pc di) :
    (visitOld src w pc s di).noUb ∨ (¬ Q ∧ PullAt src pc) := by
  obtain ⟨bytes, i0, hb, hd, hsh⟩ := hi.bytes
  have hl := shows_like hsh
  rcases like_execute hd hl (fine_merge (t := di.current) hs) with h1 | ⟨h1, h2⟩
  · left
    unfold visitOld
    simp only
    split
    · trivial
    · refine Res.noUb_bind ?_ fun _ _ => Res.noUb_bind h1 fun nx _ => ?_
      · unfold redecode
        rw [hb]
        exact Res.noUb_bind (decode_noUb _ _) fun _ _ => trivial
      · refine Res.noUb_bind ?_ fun w' _ => ?_
        · unfold farRevisit
          obtain ⟨t, ht⟩ := like_far hd hl pc
          rw [ht, Res.bind_ok]
          cases t <;> trivial
        · unfold branchRevisit
          split
          · rename_i hbr
            refine Res.noUb_bind (branch_noUb hd hl hs hbr) fun _ _ => ?_
            obtain ⟨v, hv⟩ := like_offset hd hl hbr
            rw [hv]; trivial
          · trivial
  · exact .inr ⟨h1, bytes, _, i0, hb, hd, h2⟩

theorem step_defined {Q : Prop} {src : Source} (hsrc : ∀ a, (src a 4).noUb) {d : Disassembler} {w : Work}
    (hf : Flow src d w) (ha : AllFine Q d w) : (step src d w).noUb ∨ (¬ Q ∧ ∃ a, PullAt src a) := by
  unfold step
  split
  · left; trivial
  · rename_i pc s rest hst
    have hs : Fine Q s := ha.2 pc s (by rw [hst]; simp [OMap.find])
    simp only
    have hl := getInstruction_look d { w with stack := rest } pc
    split
    · rename_i w1 hg
      rcases visitNew_defined (d := d) (w := w1) (pc := pc) hsrc hs with h | ⟨h1, h2⟩
      · exact .inl (Res.noUb_bind h fun _ _ => trivial)
      · exact .inr ⟨h1, _, h2⟩
    · rename_i di w1 hg
      rw [hg] at hl
      rcases visitOld_defined (w := w1) hs (hf.items pc di hl.symm) with h | ⟨h1, h2⟩
      · exact .inl (Res.noUb_bind h fun _ _ => trivial)
      · exact .inr ⟨h1, _, h2⟩

theorem pushAll_fine {Q : Prop} : ∀ (outs : List (Nat × ExecutionState)) {st : OMap ExecutionState}, OMap.Sorted st →
    (∀ a s, st.find a = some s → Fine Q s) → (∀ o ∈ outs, Fine Q o.2) →
    ∀ a s, (pushAll st outs).find a = some s → Fine Q s := by
  intro outs
  induction outs with
  | nil => intro st _ h _; exact h
  | cons o os ih =>
    intro st hs h ho
    refine ih (OMap.sorted_upsert (f := fun old => ExecutionState.merge old o.2) hs o.1 o.2) ?_
      (fun o' h' => ho o' (by simp [h']))
    intro a s ha
    rw [OMap.find_upsert hs] at ha
    by_cases hoa : o.1 = a
    · rw [if_pos hoa] at ha
      cases hf : st.find o.1 with
      | none => rw [hf] at ha; cases ha; exact ho o (by simp)
      | some t => rw [hf] at ha; cases ha; exact fine_merge (h _ _ hf)
    · rw [if_neg hoa] at ha; exact h a s ha

theorem fine_step {Q : Prop} {src : Source} {d : Disassembler} {w w' : Work}
    (hf : Flow src d w) (ha : AllFine Q d w) (h : step src d w = .ok (some w')) : AllFine Q d w' := by
  have hf' := flow_step hf h
  obtain ⟨pc, s, rest, it, outs, hst, hr, he⟩ := step_round hf.tidy.fresh h
  obtain ⟨-, -, -, -, hc⟩ := round_outs hf.tidy hst hr he
  have hs : Fine Q s := ha.2 pc s (by rw [hst]; simp [OMap.find])
  have hsorted := hf.tidy.stack
  rw [hst] at hsorted
  have hrest : OMap.Sorted rest := by
    unfold OMap.Sorted at hsorted; rw [List.pairwise_cons] at hsorted; exact hsorted.2
  have hrf : ∀ a s, OMap.find rest a = some s → Fine Q s := by
    intro a t hat
    refine ha.2 a t ?_
    rw [hst]
    unfold OMap.Sorted at hsorted
    rw [List.pairwise_cons] at hsorted
    have := hsorted.1 _ (OMap.mem_of_find hat)
    simp only at this
    rw [OMap.find, if_neg (by omega)]
    exact hat
  have hself : look d w'.fresh pc = some it := by rw [he.look, if_pos rfl]
  have hcur : Fine Q it.current := by
    rw [hc]
    split
    · exact fine_merge hs
    · exact hs
  have hitem := hf'.items pc it hself
  have hnx : Fine Q it.next := fine_execute hitem.ret hitem.next hcur
  refine ⟨fun a jt hl => ?_, ?_⟩
  · by_cases hpa : pc = a
    · subst hpa; rw [hself] at hl; cases hl; exact hcur
    · rw [he.look, if_neg hpa] at hl; exact ha.1 a jt hl
  · cases hr with
    | skip seen same far labels sym =>
      rw [he.stack]; exact hrf
    | first unseen read decoded executed visit =>
      obtain ⟨bo, he', hbo⟩ := first_effect hf.tidy.fresh visit
      rw [he'.stack]
      refine pushAll_fine _ hrest hrf ?_
      intro o ho
      rw [List.mem_append] at ho
      rcases ho with ho | ho
      · rcases hbo with ⟨hb0, v, b, -, hnm, hb, rfl⟩ | ⟨-, rfl⟩
        · rw [List.mem_singleton] at ho
          subst ho
          have hlb : it.instruction.isLocalBranch = true := by rw [hnm]; exact hb0
          have hex : ∃ e, it.instruction.execute s nullCtx = .ok e := by
            unfold Instruction.executeBranch at hb
            obtain ⟨e, h1, -⟩ := Res.bind_eq_ok.1 hb
            exact ⟨e, h1⟩
          obtain ⟨e, hex⟩ := hex
          rw [branch_taken hlb hex] at hb
          cases hb
          exact fine_branchState hs
        · cases ho
      · obtain ⟨-, rfl⟩ := nextOuts_mem ho
        exact hnx
    | again seen change read decoded executed far branch labels sym =>
      rw [he.stack]
      refine pushAll_fine _ hrest hrf ?_
      intro o ho
      rw [List.mem_append] at ho
      rcases ho with ho | ho
      · obtain ⟨-, rfl⟩ := nextOuts_mem ho
        exact hnx
      · rcases branch with ⟨-, rfl⟩ | ⟨hlb, v, b, -, hb, rfl⟩
        · cases ho
        · rw [List.mem_singleton] at ho
          subst ho
          have hb' := hb
          unfold Instruction.executeBranch at hb'
          obtain ⟨e, hex, -⟩ := Res.bind_eq_ok.1 hb'
          rw [branch_taken hlb hex] at hb
          cases hb
          exact fine_branchState hs

theorem run_defined {Q : Prop} {src : Source} (hsrc : ∀ a, (src a 4).noUb) {d : Disassembler} :
    ∀ (n : Nat) (w w' : Work) (r : Res Unit), Flow src d w → AllFine Q d w → run src d n w = (w', r) →
      r.noUb ∨ (¬ Q ∧ ∃ a, PullAt src a) := by
  intro n
  induction n with
  | zero => intro w w' r _ _ h; cases h; left; trivial
  | succ n ih =>
    intro w w' r hf ha h
    unfold run at h
    split at h
    · cases h; left; trivial
    · rename_i w2 hs; exact ih _ _ _ (flow_step hf hs) (fine_step hf ha hs) h
    · cases h; left; trivial
    · rename_i u hs
      rcases step_defined hsrc hf ha with h1 | h1
      · rw [hs] at h1; cases h1
      · exact .inr h1

/-! ## Calls -/

/-- All states of the listing are fine. -/
def FineListing (Q : Prop) (d : Disassembler) : Prop := ∀ a it, d.disassembly.find a = some it → Fine Q it.current

theorem begin_fine {Q : Prop} {d : Disassembler} (h : FineListing Q d) {start : Nat} {flags : StatusFlags}
    (hf : Q → (flags.m = .on ∨ flags.m = .off) ∧ (flags.x = .on ∨ flags.x = .off)) :
    AllFine Q d (begin d start flags) := by
  obtain ⟨h1, h2, -⟩ := begin_shape d start flags
  refine ⟨fun a it hl => ?_, fun a s hl => ?_⟩
  · rw [h1] at hl; exact h a it hl
  · rw [h2] at hl
    simp only [OMap.find] at hl
    split at hl
    · cases hl; exact fine_init hf
    · cases hl

theorem disassemble_defined {Q : Prop} {src : Source} (hsrc : ∀ a, (src a 4).noUb) {d : Disassembler}
    (hc : Closed src d) (h : FineListing Q d) {fuel start : Nat} (hs : start ≤ 0x1000000) {flags : StatusFlags}
    (hn : Normal flags) (hf : Q → (flags.m = .on ∨ flags.m = .off) ∧ (flags.x = .on ∨ flags.x = .off)) :
    (d.disassemble fuel src start flags).2.noUb ∨ (¬ Q ∧ ∃ a, PullAt src a) := by
  have hb := begin_fine (start := start) h hf
  have hfl := (begin_flow hc hs hn).1
  unfold disassemble
  simp only
  split
  · left; trivial
  · left; trivial
  · rename_i w u hrun
    rcases run_defined hsrc fuel _ _ _ hfl hb hrun with h | h
    · cases h
    · exact .inr h

theorem disassemble_fine {Q : Prop} {src : Source} {d d' : Disassembler}
    (hc : Closed src d) (h : FineListing Q d) {fuel start : Nat} (hs : start ≤ 0x1000000) {flags : StatusFlags}
    (hn : Normal flags) (hf : Q → (flags.m = .on ∨ flags.m = .off) ∧ (flags.x = .on ∨ flags.x = .off))
    {r : Res (OMap StatusFlags)} (hr : d.disassemble fuel src start flags = (d', r)) : FineListing Q d' := by
  unfold disassemble at hr
  simp only at hr
  split at hr
  · rename_i w hrun
    cases hr
    obtain ⟨l1, l2, l3, l4⟩ := loop_flow hc hs hn hrun
    obtain ⟨⟨-, i2⟩, -⟩ := run_invariant (src := src) (d := d) (I := fun w => Flow src d w ∧ AllFine Q d w)
      (fun w w' hw h => ⟨flow_step hw.1 h, fine_step hw.1 hw.2 h⟩) fuel (begin d start flags) w _
      ⟨(begin_flow hc hs hn).1, begin_fine h hf⟩ hrun
    obtain ⟨f1, -⟩ := finish_look hc.proper.sorted l1.tidy l2 (l4 rfl)
    intro a jt ha
    obtain ⟨it, h1, ⟨s, l, h2, h3⟩, -⟩ := f1 a jt ha
    have := i2.1 a it h1
    rw [h2]
    split
    · show Fine Q (addSuffix it).current
      rw [(addSuffix_rest it).2.2.1]; exact this
    · exact this
  · cases hr; exact h
  · cases hr; exact h

theorem noUb_of_ne {α : Type} {r : Res α} (h : ∀ u, r ≠ .ub u) : r.noUb := by
  cases r with
  | ub u => exact h u rfl
  | ok => trivial
  | err => trivial

theorem ne_of_noUb {α : Type} {r : Res α} (h : r.noUb) (u : Ub) : r ≠ .ub u := by
  rintro rfl
  exact h

/-! ## Cleanup -/

theorem nameFars_ok {d : Disassembler} : ∀ (m : OMap DisItem),
    (∀ a it, (a, it) ∈ m → ∃ t, it.instruction.farBranchTarget a = .ok t) → ∃ m', nameFars d m = .ok m' := by
  intro m
  induction m with
  | nil => intro _; exact ⟨[], rfl⟩
  | cons x m ih =>
    obtain ⟨a, it⟩ := x
    intro h
    obtain ⟨t, ht⟩ := h a it (by simp)
    obtain ⟨m', hm⟩ := ih fun b jt hb => h b jt (by simp [hb])
    have : ∃ jt, nameFar d a it = .ok jt := by
      unfold nameFar
      rw [ht, Res.bind_ok]
      cases t with
      | none => exact ⟨_, rfl⟩
      | some t =>
        simp only
        split
        · exact ⟨_, rfl⟩
        · split
          · exact ⟨_, rfl⟩
          · split <;> exact ⟨_, rfl⟩
    obtain ⟨jt, hj⟩ := this
    unfold nameFars
    rw [hj, Res.bind_ok, hm, Res.bind_ok]
    exact ⟨_, rfl⟩

theorem like_rewrite {i0 i : Instruction} (h : Like i0 i) (hp : ∀ n e, i0.arg1 ≠ .label n e) (r : List (Str × Str)) :
    Like i0 { i with arg1 := rewriteOperand r i.arg1 } := by
  refine ⟨h.1, h.2.1, h.2.2.1, ?_⟩
  rcases h.2.2.2 with h1 | ⟨hb, n, h1⟩
  · left
    simp only [h1]
    unfold rewriteOperand
    split
    · rename_i n e he; exact absurd he (hp _ _)
    · rfl
  · right
    refine ⟨hb, rewriteOf r n, ?_⟩
    simp only [h1, rewriteOperand]

theorem closed_cleanup {src : Source} {d : Disassembler} (h : Closed src d) : ∃ d', d.cleanup = .ok d' := by
  unfold cleanup
  generalize hr : renameLabels d.entryPoints 0 0 [] d.disassembly = x
  obtain ⟨named, r⟩ := x
  simp only
  obtain ⟨i1, i2, -, -⟩ := renameLabels_spec d.entryPoints d.disassembly 0 0 [] h.proper.sorted
    (fun a b it jt ha hb => h.proper.distinct a b it jt ha hb) named r hr
  have hsn : OMap.Sorted named := by
    have := h.proper.sorted
    unfold OMap.Sorted at this ⊢
    rw [← List.pairwise_map (f := Prod.fst) (R := (· < ·))] at this ⊢
    rw [i1]; exact this
  obtain ⟨m', hm⟩ := nameFars_ok (d := { d with disassembly := named.map fun n =>
      (n.1, { n.2 with instruction := { n.2.instruction with arg1 := rewriteOperand r n.2.instruction.arg1 } }) })
    (named.map fun n =>
      (n.1, { n.2 with instruction := { n.2.instruction with arg1 := rewriteOperand r n.2.instruction.arg1 } })) (by
    intro a it hm
    rw [List.mem_map] at hm
    obtain ⟨⟨b, jt⟩, hb, he⟩ := hm
    cases he
    obtain ⟨kt, h1, h2, -⟩ := i2 b jt (OMap.find_of_mem hsn hb)
    obtain ⟨bytes, i0, -, hd, hsh⟩ := (h.items b kt h1).bytes
    have hl := shows_like hsh
    rw [← h2.instruction] at hl
    refine like_far hd (like_rewrite hl ?_ r) b
    intro n e he
    rcases decode_args_shape hd with ⟨v, t, h⟩ | h <;> rw [h] at he <;> cases he)
  rw [hm, Res.bind_ok]
  exact ⟨_, rfl⟩

end Nsasm
