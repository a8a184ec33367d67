import Verif.Lemmas.DisDefined

/-! # When a round is defined, after any history with Cleanup -/

namespace Nsasm
open Spec Props Disassembler

/-- An instruction as it is in a listing that may have been cleaned up: a local branch may have a label in front of its
offset, the operand of another instruction may be a name, and ADC and SBC may have been folded. -/
def Resembles (i0 i : Instruction) : Prop :=
  (i.mnemonic = i0.mnemonic ∨ (i0.mnemonic = .adc ∧ i.mnemonic = .padd) ∨ (i0.mnemonic = .sbc ∧ i.mnemonic = .psub)) ∧
  i.mode = i0.mode ∧ i.arg2 = i0.arg2 ∧
  (i.arg1 = i0.arg1 ∨ (MayBranch i0 ∧ ∃ n, i.arg1 = .label n i0.arg1) ∨ (¬ MayBranch i0 ∧ ∃ n t, i.arg1 = .ident n t))

theorem like_resembles {i0 i : Instruction} (h : Like i0 i) : Resembles i0 i :=
  ⟨.inl h.1, h.2.1, h.2.2.1, h.2.2.2.imp_right fun h => .inl h⟩

theorem resembles_mem {i0 i : Instruction} (h : Resembles i0 i) {l : List Mnemonic} (hl : .padd ∉ l ∧ .psub ∉ l) :
    i.mnemonic ∈ l → i0.mnemonic ∈ l := by
  intro hm
  rcases h.1 with h1 | ⟨-, h1⟩ | ⟨-, h1⟩ <;> rw [h1] at hm
  · exact hm
  · exact absurd hm hl.1
  · exact absurd hm hl.2

theorem resembles_branch {i0 i : Instruction} (h : Resembles i0 i) (hb : i.isLocalBranch = true) : MayBranch i0 := by
  have := (mayBranch_iff i).1 hb
  obtain ⟨h1, h2⟩ := this
  rw [h.2.1] at h1
  refine ⟨h1, ?_⟩
  rcases h.1 with h3 | ⟨h3, -⟩ | ⟨h3, -⟩
  · rw [← h3]; exact h2
  · rw [h3]; decide
  · rw [h3]; decide

theorem ident_noUb (n : FullId) (t : NumericType) : ∃ e, (Expr.ident n t).eval nullCtx = .err e := by
  simp [Expr.eval, nullCtx]

theorem resembles_eval {bytes : List UInt8} {f : StatusFlags} {i0 i : Instruction} (hd : decode bytes f = .ok i0)
    (h : Resembles i0 i) : (i.arg1.eval nullCtx).noUb ∧ (i.arg2.eval nullCtx).noUb ∧
      (∀ v, i.arg1.eval nullCtx = .ok v → i0.arg1.eval nullCtx = .ok v) := by
  obtain ⟨-, h0, h2, h1⟩ := h
  rcases h1 with h1 | h1 | ⟨-, n, t, h1⟩
  · obtain ⟨e1, e2, e3⟩ := like_eval (i := { i0 with arg1 := i.arg1, arg2 := i.arg2 }) hd ⟨rfl, rfl, h2, .inl h1⟩
    exact ⟨e1, e2, e3⟩
  · obtain ⟨e1, e2, e3⟩ := like_eval (i := { i0 with arg1 := i.arg1, arg2 := i.arg2 }) hd ⟨rfl, rfl, h2, .inr h1⟩
    exact ⟨e1, e2, e3⟩
  · obtain ⟨e, he⟩ := ident_noUb n t
    rw [h1, he, h2]
    exact ⟨trivial, arg_noUb (decode_arg2_shape hd), fun v hv => by cases hv⟩

theorem resembles_execute {Q : Prop} {bytes : List UInt8} {f : StatusFlags} {i0 i : Instruction} {s : ExecutionState}
    (hd : decode bytes f = .ok i0) (h : Resembles i0 i) (hs : Fine Q s) :
    (i.execute s nullCtx).noUb ∨ (¬ Q ∧ i0.mnemonic ∈ [.pla, .plx, .ply]) := by
  obtain ⟨e1, e2, e3⟩ := resembles_eval hd h
  have hmv : i.mnemonic = .mvn ∨ i.mnemonic = .mvp → ∀ v, i.arg1.eval nullCtx = .ok v →
      -2147483648 + 65536 ≤ v ∧ v < 2147483647 - 65536 := by
    intro hm v hv
    have hm0 : i0.mnemonic ∈ [Mnemonic.mvn, .mvp] := resembles_mem h (by decide) (by simpa using hm)
    obtain ⟨w, hw, h0, h1⟩ := (decode_bounds hd).1 (decode_move hd (by simpa using hm0))
    have := e3 v hv
    rw [hw] at this
    simp only [Expr.eval, Res.ok.injEq] at this
    omega
  by_cases hp : i0.mnemonic ∈ [Mnemonic.pla, .plx, .ply]
  · by_cases hq : Q
    · obtain ⟨⟨k1, k2⟩, -⟩ := hs.2 hq
      exact .inl (execute_noUb hs.1 ⟨e1, e2, hmv, fun _ hb => k1 hb.1, fun _ hb => k2 hb.1, fun _ hb => k2 hb.1⟩)
    · exact .inr ⟨hq, hp⟩
  · left
    have hp' : i.mnemonic ∉ [Mnemonic.pla, .plx, .ply] := fun hm => hp (resembles_mem h (by decide) hm)
    simp only [List.mem_cons, List.not_mem_nil, or_false, not_or] at hp'
    exact execute_noUb hs.1 ⟨e1, e2, hmv, fun h => absurd h hp'.1, fun h => absurd h hp'.2.1, fun h => absurd h hp'.2.2⟩

theorem resembles_far {bytes : List UInt8} {f : StatusFlags} {i0 i : Instruction} (hd : decode bytes f = .ok i0)
    (h : Resembles i0 i) (a : Nat) : ∃ t, i.farBranchTarget a = .ok t := by
  obtain ⟨e1, -, e3⟩ := resembles_eval hd h
  refine far_ok ?_ ?_
  · intro u hu; rw [hu] at e1; exact e1
  · intro hm v hv
    rw [h.2.1] at hm
    obtain ⟨w, hw, h0, h1⟩ := (decode_bounds hd).2 hm
    have := e3 v hv
    rw [hw] at this
    simp only [Expr.eval, Res.ok.injEq] at this
    omega

theorem resembles_offset {bytes : List UInt8} {f : StatusFlags} {i0 i : Instruction} (hd : decode bytes f = .ok i0)
    (h : Resembles i0 i) (hb : i.isLocalBranch = true) : ∃ v, evalUnchecked i.arg1 = .ok v := by
  have hb0 := resembles_branch h hb
  obtain ⟨v, t, h4⟩ := decode_offset hd hb0
  unfold evalUnchecked
  rcases h.2.2.2 with h1 | ⟨-, n, h1⟩ | ⟨h1, -⟩
  · rw [h1, h4]; simp [Expr.mkLit, Expr.eval]
  · rw [h1, h4]; simp [Expr.mkLit, Expr.eval]
  · exact absurd hb0 h1

theorem resembles_branch_noUb {Q : Prop} {bytes : List UInt8} {f : StatusFlags} {i0 i : Instruction} {s : ExecutionState}
    (hd : decode bytes f = .ok i0) (h : Resembles i0 i) (hs : Fine Q s) (hb : i.isLocalBranch = true) :
    (i.executeBranch s).noUb := by
  have hnp : i0.mnemonic ∉ [Mnemonic.pla, .plx, .ply] := by
    intro hp
    have hm := decode_pull_mode hd hp
    have := (resembles_branch h hb).1
    rw [hm] at this
    simp at this
  unfold Instruction.executeBranch
  rcases resembles_execute hd h hs with h1 | ⟨-, h1⟩
  · refine Res.noUb_bind h1 fun e he => ?_
    have := branch_taken hb he
    unfold Instruction.executeBranch at this
    rw [he, Res.bind_ok] at this
    rw [this]; trivial
  · exact absurd h1 hnp

/-- An entry of a listing, after any history: its address can be read, and its instruction is one that was decoded. -/
structure WasDecoded (src : Source) (a : Nat) (it : DisItem) : Prop where
  read : ∃ bytes, src a 4 = .ok bytes
  ret : ∀ f, it.instruction.ret = .yields f → FlagsWritten f
  decoded : ∃ b bytes f i0, src b 4 = .ok bytes ∧ decode bytes f = .ok i0 ∧ Resembles i0 it.instruction

theorem kept_of_ok {src : Source} {a : Nat} {it : DisItem} (h : ItemOk src a it) : WasDecoded src a it := by
  obtain ⟨bytes, i0, hb, hd, hsh⟩ := h.bytes
  exact ⟨⟨bytes, hb⟩, h.ret, a, bytes, _, i0, hb, hd, like_resembles (shows_like hsh)⟩

theorem WasDecoded.instr {src : Source} {a : Nat} {it jt : DisItem} (h : WasDecoded src a it)
    (hi : ∃ s, jt.instruction = { it.instruction with suffix := s }) : WasDecoded src a jt := by
  obtain ⟨s, hi⟩ := hi
  obtain ⟨b, bytes, f, i0, h1, h2, h3⟩ := h.decoded
  refine ⟨h.read, fun f hf => h.ret f (by rw [hi] at hf; exact hf), b, bytes, f, i0, h1, h2, ?_⟩
  rw [hi]; exact h3

theorem visitOld_kept {Q : Prop} {src : Source} {w : Work} {pc : Nat}
    {s : ExecutionState} (hs : Fine Q s) {di : DisItem} (hi : WasDecoded src pc di) :
    (visitOld src w pc s di).noUb ∨ (¬ Q ∧ ∃ a, PullAt src a) := by
  obtain ⟨bytes', hb'⟩ := hi.read
  obtain ⟨b, bytes, f, i0, hb, hd, hl⟩ := hi.decoded
  rcases resembles_execute hd hl (fine_merge (t := di.current) hs) with h1 | ⟨h1, h2⟩
  · left
    unfold visitOld
    simp only
    split
    · trivial
    · refine Res.noUb_bind ?_ fun _ _ => Res.noUb_bind h1 fun nx _ => ?_
      · unfold redecode
        rw [hb']
        exact Res.noUb_bind (decode_noUb _ _) fun _ _ => trivial
      · refine Res.noUb_bind ?_ fun w' _ => ?_
        · unfold farRevisit
          obtain ⟨t, ht⟩ := resembles_far hd hl pc
          rw [ht, Res.bind_ok]
          cases t <;> trivial
        · unfold branchRevisit
          split
          · rename_i hbr
            refine Res.noUb_bind (resembles_branch_noUb hd hl hs hbr) fun _ _ => ?_
            obtain ⟨v, hv⟩ := resembles_offset hd hl hbr
            rw [hv]; trivial
          · trivial
  · exact .inr ⟨h1, b, bytes, _, i0, hb, hd, h2⟩

/-- What holds in a call. -/
structure Going (Q : Prop) (src : Source) (d : Disassembler) (w : Work) : Prop where
  tidy : Tidy d w
  named : Named d w
  table : TableWritten d
  kept : ∀ a it, look d w.fresh a = some it → WasDecoded src a it
  fine : AllFine Q d w

theorem going_defined {Q : Prop} {src : Source} (hsrc : ∀ a, (src a 4).noUb) {d : Disassembler} {w : Work}
    (hg : Going Q src d w) : (step src d w).noUb ∨ (¬ Q ∧ ∃ a, PullAt src a) := by
  unfold step
  split
  · left; trivial
  · rename_i pc s rest hst
    have hs : Fine Q s := hg.fine.2 pc s (by rw [hst]; simp [OMap.find])
    simp only
    have hl := getInstruction_look d { w with stack := rest } pc
    split
    · rename_i w1 hg
      rcases visitNew_defined (d := d) (w := w1) (pc := pc) hsrc hs with h | ⟨h1, h2⟩
      · exact .inl (Res.noUb_bind h fun _ _ => trivial)
      · exact .inr ⟨h1, _, h2⟩
    · rename_i di w1 hgi
      rw [hgi] at hl
      rcases visitOld_kept (w := w1) hs (hg.kept pc di hl.symm) with h | h
      · exact .inl (Res.noUb_bind h fun _ _ => trivial)
      · exact .inr h

theorem going_step {Q : Prop} {src : Source} {d : Disassembler} {w w' : Work}
    (hg : Going Q src d w) (h : step src d w = .ok (some w')) : Going Q src d w' := by
  have ha := hg.fine
  obtain ⟨pc, s, rest, it, outs, hst, hr, he⟩ := step_round hg.tidy.fresh h
  obtain ⟨-, -, -, -, hc⟩ := round_outs hg.tidy hst hr he
  have hs : Fine Q s := ha.2 pc s (by rw [hst]; simp [OMap.find])
  have hsorted := hg.tidy.stack
  rw [hst] at hsorted
  have hrest : OMap.Sorted rest := by
    unfold OMap.Sorted at hsorted; rw [List.pairwise_cons] at hsorted; exact hsorted.2
  have hrf : ∀ a s, OMap.find rest a = some s → Fine Q s := by
    intro a t hat
    refine ha.2 a t ?_
    rw [hst]
    unfold OMap.Sorted at hsorted
    rw [List.pairwise_cons] at hsorted
    have := hsorted.1 _ (OMap.mem_of_find hat)
    simp only at this
    rw [OMap.find, if_neg (by omega)]
    exact hat
  have hself : look d w'.fresh pc = some it := by rw [he.look, if_pos rfl]
  have hcur : Fine Q it.current := by
    rw [hc]
    split
    · exact fine_merge hs
    · exact hs
  suffices hpc : WasDecoded src pc it ∧ ∀ a s, w'.stack.find a = some s → Fine Q s by
    refine ⟨(tidy_step hg.tidy h).1, named_step hg.tidy hg.named h, hg.table, fun a jt hl => ?_, fun a jt hl => ?_, hpc.2⟩
    · by_cases hpa : pc = a
      · subst hpa; rw [hself] at hl; cases hl; exact hpc.1
      · rw [he.look, if_neg hpa] at hl; exact hg.kept a jt hl
    · by_cases hpa : pc = a
      · subst hpa; rw [hself] at hl; cases hl; exact hcur
      · rw [he.look, if_neg hpa] at hl; exact ha.1 a jt hl
  cases hr with
  | skip seen same far labels sym =>
    rw [he.stack]
    exact ⟨hg.kept pc it seen, hrf⟩
  | first unseen read decoded executed visit =>
    have hok := first_ok hg.table read decoded executed visit
    have hnx : Fine Q it.next := fine_execute hok.ret hok.next hcur
    refine ⟨kept_of_ok hok, ?_⟩
    obtain ⟨bo, he', hbo⟩ := first_effect hg.tidy.fresh visit
    rw [he'.stack]
    refine pushAll_fine _ hrest hrf ?_
    intro o ho
    rw [List.mem_append] at ho
    rcases ho with ho | ho
    · rcases hbo with ⟨hb0, v, b, -, hnm, hb, rfl⟩ | ⟨-, rfl⟩
      · rw [List.mem_singleton] at ho
        subst ho
        have hlb : it.instruction.isLocalBranch = true := by rw [hnm]; exact hb0
        have hex : ∃ e, it.instruction.execute s nullCtx = .ok e := by
          unfold Instruction.executeBranch at hb
          obtain ⟨e, h1, -⟩ := Res.bind_eq_ok.1 hb
          exact ⟨e, h1⟩
        obtain ⟨e, hex⟩ := hex
        rw [branch_taken hlb hex] at hb
        cases hb
        exact fine_branchState hs
      · cases ho
    · obtain ⟨-, rfl⟩ := nextOuts_mem ho
      exact hnx
  | again seen change read decoded executed far branch labels sym =>
    have hk := hg.kept pc _ seen
    refine ⟨⟨hk.read, hk.ret, hk.decoded⟩, ?_⟩
    have hnx := fine_execute hk.ret executed hcur
    rw [he.stack]
    refine pushAll_fine _ hrest hrf ?_
    intro o ho
    rw [List.mem_append] at ho
    rcases ho with ho | ho
    · obtain ⟨-, rfl⟩ := nextOuts_mem ho
      exact hnx
    · rcases branch with ⟨-, rfl⟩ | ⟨hlb, v, b, -, hb, rfl⟩
      · cases ho
      · rw [List.mem_singleton] at ho
        subst ho
        have hb' := hb
        unfold Instruction.executeBranch at hb'
        obtain ⟨e, hex, -⟩ := Res.bind_eq_ok.1 hb'
        rw [branch_taken hlb hex] at hb
        cases hb
        exact fine_branchState hs

theorem going_run {Q : Prop} {src : Source} (hsrc : ∀ a, (src a 4).noUb) {d : Disassembler} :
    ∀ (n : Nat) (w w' : Work) (r : Res Unit), Going Q src d w → run src d n w = (w', r) →
      r.noUb ∨ (¬ Q ∧ ∃ a, PullAt src a) := by
  intro n
  induction n with
  | zero => intro w w' r _ h; cases h; left; trivial
  | succ n ih =>
    intro w w' r hg h
    unfold run at h
    split at h
    · cases h; left; trivial
    · rename_i w2 hs; exact ih _ _ _ (going_step hg hs) h
    · cases h; left; trivial
    · rename_i u hs
      rcases going_defined hsrc hg with h1 | h1
      · rw [hs] at h1; cases h1
      · exact .inr h1

/-! ## Calls -/

/-- What holds between calls, after any history. -/
structure Steadied (Q : Prop) (src : Source) (d : Disassembler) : Prop where
  proper : Proper d
  table : TableWritten d
  kept : ∀ a it, d.disassembly.find a = some it → WasDecoded src a it
  fine : FineListing Q d

theorem steadied_begin {Q : Prop} {src : Source} {d : Disassembler} (h : Steadied Q src d) {start : Nat}
    (hs : start ≤ 0x1000000) {flags : StatusFlags} (hn : Normal flags)
    (hf : Q → (flags.m = .on ∨ flags.m = .off) ∧ (flags.x = .on ∨ flags.x = .off)) :
    Going Q src d (begin d start flags) := by
  refine ⟨begin_tidy h.proper hs hn, begin_named h.proper start flags, h.table, fun a it ha => ?_, begin_fine h.fine hf⟩
  rw [(begin_shape d start flags).1] at ha
  exact h.kept a it ha

theorem steadied_defined {Q : Prop} {src : Source} (hsrc : ∀ a, (src a 4).noUb) {d : Disassembler}
    (h : Steadied Q src d) {fuel start : Nat} (hs : start ≤ 0x1000000) {flags : StatusFlags}
    (hn : Normal flags) (hf : Q → (flags.m = .on ∨ flags.m = .off) ∧ (flags.x = .on ∨ flags.x = .off)) :
    (d.disassemble fuel src start flags).2.noUb ∨ (¬ Q ∧ ∃ a, PullAt src a) := by
  have hb := steadied_begin h hs hn hf
  unfold disassemble
  simp only
  split
  · left; trivial
  · left; trivial
  · rename_i w u hrun
    rcases going_run hsrc fuel _ _ _ hb hrun with h | h
    · cases h
    · exact .inr h

theorem steadied_call {Q : Prop} {src : Source} {d d' : Disassembler}
    (h : Steadied Q src d) {fuel start : Nat} (hs : start ≤ 0x1000000) {flags : StatusFlags}
    (hn : Normal flags) (hf : Q → (flags.m = .on ∨ flags.m = .off) ∧ (flags.x = .on ∨ flags.x = .off))
    {r : Res (OMap StatusFlags)} (hr : d.disassemble fuel src start flags = (d', r)) : Steadied Q src d' := by
  have hp := disassemble_proper h.proper hs hn hr
  unfold disassemble at hr
  simp only at hr
  split at hr
  · rename_i w hrun
    cases hr
    obtain ⟨g, hst⟩ := run_invariant (src := src) (d := d) (I := Going Q src d)
      (fun w w' hw h => going_step hw h) fuel (begin d start flags) w _ (steadied_begin h hs hn hf) hrun
    obtain ⟨f1, -⟩ := finish_look h.proper.sorted g.tidy g.named (hst rfl)
    refine ⟨hp, h.table, ?_, ?_⟩
    · intro a jt ha
      obtain ⟨it, h1, ⟨s, l, h2, h3⟩, -⟩ := f1 a jt ha
      exact (g.kept a it h1).instr ⟨s, h3⟩
    · intro a jt ha
      obtain ⟨it, h1, ⟨s, l, h2, h3⟩, -⟩ := f1 a jt ha
      have := g.fine.1 a it h1
      rw [h2]
      split
      · show Fine Q (addSuffix it).current
        rw [(addSuffix_rest it).2.2.1]; exact this
      · exact this
  · cases hr; exact ⟨hp, h.table, h.kept, h.fine⟩
  · cases hr; exact ⟨hp, h.table, h.kept, h.fine⟩

/-! ## Cleanup -/

theorem resembles_rewrite {bytes : List UInt8} {f : StatusFlags} {i0 i : Instruction} (hd : decode bytes f = .ok i0)
    (h : Resembles i0 i) (r : List (Str × Str)) : Resembles i0 { i with arg1 := rewriteOperand r i.arg1 } := by
  refine ⟨h.1, h.2.1, h.2.2.1, ?_⟩
  rcases h.2.2.2 with h1 | ⟨hb, n, h1⟩ | ⟨hb, n, t, h1⟩
  · left
    simp only [h1]
    unfold rewriteOperand
    split
    · rename_i n e he
      rcases decode_args_shape hd with ⟨v, t, h⟩ | h <;> rw [h] at he <;> cases he
    · rfl
  · right; left
    refine ⟨hb, rewriteOf r n, ?_⟩
    simp only [h1, rewriteOperand]
  · right; right
    refine ⟨hb, n, t, ?_⟩
    simp only [h1, rewriteOperand]

theorem steadied_cleanup_ok {Q : Prop} {src : Source} {d : Disassembler} (h : Steadied Q src d) : ∃ d', d.cleanup = .ok d' := by
  unfold cleanup
  generalize hr : renameLabels d.entryPoints 0 0 [] d.disassembly = x
  obtain ⟨named, r⟩ := x
  simp only
  obtain ⟨i1, i2, -, -⟩ := renameLabels_spec d.entryPoints d.disassembly 0 0 [] h.proper.sorted
    (fun a b it jt ha hb => h.proper.distinct a b it jt ha hb) named r hr
  have hsn : OMap.Sorted named := by
    have := h.proper.sorted
    unfold OMap.Sorted at this ⊢
    rw [← List.pairwise_map (f := Prod.fst) (R := (· < ·))] at this ⊢
    rw [i1]; exact this
  obtain ⟨m', hm⟩ := nameFars_ok (d := { d with disassembly := named.map fun n =>
      (n.1, { n.2 with instruction := { n.2.instruction with arg1 := rewriteOperand r n.2.instruction.arg1 } }) })
    (named.map fun n =>
      (n.1, { n.2 with instruction := { n.2.instruction with arg1 := rewriteOperand r n.2.instruction.arg1 } })) (by
    intro a it hm
    rw [List.mem_map] at hm
    obtain ⟨⟨b, jt⟩, hb, he⟩ := hm
    cases he
    obtain ⟨kt, h1, h2, -⟩ := i2 b jt (OMap.find_of_mem hsn hb)
    obtain ⟨c, bytes, f, i0, -, hd, hl⟩ := (h.kept b kt h1).decoded
    rw [← h2.instruction] at hl
    exact resembles_far hd (resembles_rewrite hd hl r) b)
  rw [hm, Res.bind_ok]
  exact ⟨_, rfl⟩

theorem kept_tidied {src : Source} {d : Disassembler} {r : List (Str × Str)} {a : Nat} {it jt : DisItem}
    (h : WasDecoded src a it) (ht : Tidied r d a it jt) : WasDecoded src a jt := by
  obtain ⟨b, bytes, f, i0, h1, h2, h3⟩ := h.decoded
  refine ⟨h.read, fun f hf => h.ret f (by rw [(tidied_kind ht).2.2.1] at hf; exact hf), b, bytes, f, i0, h1, h2, ?_⟩
  rcases ht.instruction with hi | ⟨t, n, ty, hf, -, hi⟩
  · rw [hi]; exact resembles_rewrite h2 h3 r
  · rw [hi]
    refine ⟨h3.1, h3.2.1, h3.2.2.1, .inr (.inr ⟨?_, _, _, rfl⟩)⟩
    intro hb
    have hlb : ({ it.instruction with arg1 := rewriteOperand r it.instruction.arg1 } : Instruction).isLocalBranch = true := by
      refine (mayBranch_iff _).2 ⟨?_, ?_⟩
      · show it.instruction.mode = _ ∨ it.instruction.mode = _
        rw [h3.2.1]; exact hb.1
      · show it.instruction.mnemonic ≠ _
        rcases h3.1 with h4 | ⟨-, h4⟩ | ⟨-, h4⟩ <;> rw [h4]
        · exact hb.2
        · decide
        · decide
    rw [branch_no_far hlb] at hf
    cases hf

theorem steadied_cleanup {Q : Prop} {src : Source} {d d' : Disassembler} (h : Steadied Q src d) (hc : d.cleanup = .ok d') :
    Steadied Q src d' := by
  have hp := cleanup_proper h.proper hc
  obtain ⟨r, ops, fars, h1, rfl, h3, -, -, h4, h5⟩ := cleanup_inv h.proper.sorted h.proper.distinct hc
  obtain ⟨f1, -⟩ := fold_spec fars h1
  have hk : ∀ a jt, OMap.find fars a = some jt → WasDecoded src a jt := by
    intro a jt ha
    obtain ⟨it, g1, g2⟩ := h4 a jt ha
    exact kept_tidied (h.kept a it g1) g2
  refine ⟨hp, h.table, ?_, ?_⟩
  · intro a jt ha
    obtain ⟨it, g1, g2⟩ := f1 a jt ha
    rcases g2 with rfl | ⟨b, sc, mn, g3, -, -, g4, rfl⟩
    · exact hk a _ g1
    · obtain ⟨c, bytes, f, i0, k1, k2, k3⟩ := (hk b sc g3).decoded
      refine ⟨(hk a it g1).read, (hk b sc g3).ret, c, bytes, f, i0, k1, k2, ?_, k3.2.1, k3.2.2.1, k3.2.2.2⟩
      obtain ⟨-, hm⟩ := foldPair_spec g4
      rcases hm with ⟨-, h6, rfl⟩ | ⟨-, h6, rfl⟩
      · have := resembles_mem k3 (l := [.adc]) (by decide) (by simp [h6])
        exact .inr (.inl ⟨by simpa using this, rfl⟩)
      · have := resembles_mem k3 (l := [.sbc]) (by decide) (by simp [h6])
        exact .inr (.inr ⟨by simpa using this, rfl⟩)
  · intro a jt ha
    obtain ⟨it, g1, g2⟩ := f1 a jt ha
    rw [(folded_rest g2).2.2]
    obtain ⟨it', g3, g4⟩ := h4 a it g1
    rw [g4.current]
    exact h.fine a it' g3

end Nsasm
