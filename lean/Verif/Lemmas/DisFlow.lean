import Verif.Lemmas.Rounds
import Verif.Lemmas.FirstPass

/-! # What the entries of the disassembler's maps say about the program -/

namespace Nsasm
open Spec Props Disassembler

/-- The recorded state at an address. -/
def seen (d : Disassembler) (w : Work) (a : Nat) : Option ExecutionState :=
  (look d w.fresh a).map DisItem.current

/-- An entry is what the source and its recorded state say. -/
structure ItemOk (src : Source) (a : Nat) (it : DisItem) : Prop where
  bytes : ∃ bytes i0, src a 4 = .ok bytes ∧ decode bytes it.current.flags = .ok i0 ∧ Shows i0 it.instruction
  ret : ∀ f, it.instruction.ret = .yields f → FlagsWritten f
  next : it.instruction.execute it.current nullCtx = .ok it.next

/-- The conventions installed are ones that can be written down. -/
def TableWritten (d : Disassembler) : Prop := ∀ a f, d.conventions.find a = some (.yields f) → FlagsWritten f

theorem decode_args_shape {bytes : List UInt8} {f : StatusFlags} {i : Instruction} (h : decode bytes f = .ok i) :
    (∃ v t, i.arg1 = .mkLit v t) ∨ i.arg1 = .null := by
  rw [decode_ok_iff] at h
  obtain ⟨op, l, a, a1, a2, -, -, -, -, h, rfl⟩ := h
  simp only
  unfold decodeArgs at h
  split at h <;> first
    | (split at h <;> first | (cases h; exact .inl ⟨_, _, rfl⟩) | cases h)
    | (cases h; exact .inr rfl)

theorem decode_applyLabel {bytes : List UInt8} {f : StatusFlags} {i : Instruction} (h : decode bytes f = .ok i)
    (name : Str) : i.arg1.applyLabel name = .label name i.arg1 := by
  rcases decode_args_shape h with ⟨v, t, h⟩ | h <;> rw [h] <;> rfl

theorem first_ok {src : Source} {d : Disassembler} {w w' : Work} {pc : Nat} {s : ExecutionState}
    {bytes : List UInt8} {i0 : Instruction} {nx0 : ExecutionState} {it : DisItem}
    (hw : TableWritten d) (read : src pc 4 = .ok bytes)
    (decoded : decode bytes s.flags = .ok i0) (executed : i0.execute s nullCtx = .ok nx0)
    (h : FirstVisit d w pc s i0 nx0 w' it) : ItemOk src pc it := by
  have hdr := decode_ret decoded
  cases h with
  | branch isBranch value target named taken =>
    subst named
    refine ⟨⟨bytes, i0, read, decoded, ⟨rfl, rfl, rfl, fun _ => ⟨_, decode_applyLabel decoded _⟩, fun hn =>
      absurd ((mayBranch_iff i0).1 isBranch) hn⟩⟩, ?_, execute_relabel _ isBranch executed⟩
    intro f hf
    simp only at hf
    rw [hdr.1] at hf; cases hf
  | plain noBranch noTarget =>
    refine ⟨⟨bytes, i0, read, decoded, ⟨rfl, rfl, rfl, fun hb => ?_, fun _ => rfl⟩⟩, ?_, executed⟩
    · rw [← mayBranch_iff, noBranch] at hb; cases hb
    · intro f hf
      simp only at hf
      rw [hdr.1] at hf; cases hf
  | far noBranch target convention looked =>
    have hm := far_mnemonic target
    rcases convention with rfl | ⟨-, r, hr, rfl⟩
    · refine ⟨⟨bytes, _, read, decoded, ⟨rfl, rfl, rfl, fun hb => ?_, fun _ => rfl⟩⟩, ?_, ?_⟩
      · rw [← mayBranch_iff, noBranch] at hb; cases hb
      · intro f hf
        simp only at hf
        rw [hdr.1] at hf; cases hf
      · simp only
        rw [hdr.1]
        exact executed
    · refine ⟨⟨bytes, i0, read, decoded, ⟨rfl, rfl, rfl, fun hb => ?_, fun _ => rfl⟩⟩, ?_, ?_⟩
      · rw [← mayBranch_iff, noBranch] at hb; cases hb
      · intro f hf
        simp only at hf
        subst hf
        exact hw _ f hr
      · exact convention_applied hm hdr.1 executed fun f hf => by subst hf; exact hw _ f hr

/-- The invariant of the loop. -/
structure Flow (src : Source) (d : Disassembler) (w : Work) : Prop where
  tidy : Tidy d w
  table : TableWritten d
  items : ∀ a it, look d w.fresh a = some it → ItemOk src a it
  next : ∀ a it, look d w.fresh a = some it → it.instruction.isExitInstruction = false →
    Has (seen d w) w.stack (nextAddr a it.instruction) it.next
  branch : ∀ a it v, look d w.fresh a = some it → it.instruction.isLocalBranch = true →
    it.instruction.arg1.eval nullCtx = .ok v →
    Has (seen d w) w.stack (Address.addWrapped (nextAddr a it.instruction) v) (branchState it.instruction it.current)

theorem item_normal {src : Source} {d : Disassembler} {w : Work} (h : Tidy d w) {a : Nat} {it : DisItem}
    (hl : look d w.fresh a = some it) (hi : ItemOk src a it) :
    NormalState it.current ∧ NormalState it.next := by
  have hc : NormalState it.current := h.states.1 a it.current (by simp only [hl, Option.map_some])
  exact ⟨hc, normal_execute (fun f hf => h.rets a it f hl hf) hi.next hc⟩

/-- What a round pushes, an address has afterwards. -/
theorem has_outs {d : Disassembler} {w' : Work} (ht' : Tidy d w')
    {rest : OMap ExecutionState} {outs : List (Nat × ExecutionState)} (hrest : OMap.Sorted rest)
    (hrn : ∀ a s, rest.find a = some s → NormalState s)
    (hst : w'.stack = pushAll rest outs) (hn : ∀ o ∈ outs, NormalState o.2) {o : Nat × ExecutionState}
    (ho : o ∈ outs) : Has (seen d w') w'.stack o.1 o.2 := by
  rw [hst]
  exact (pushAll_props (V := seen d w') outs hrest ⟨ht'.states.1, hrn⟩ hn).2.2.2 o ho

theorem has_join {V : Nat → Option ExecutionState} {st : OMap ExecutionState} (h : AllNormal V st) {a : Nat}
    {x y : ExecutionState} (hx : NormalState x) (hy : NormalState y) (h1 : Has V st a x) (h2 : Has V st a y) :
    Has V st a (x.merge y) := by
  obtain ⟨t, ht, hx'⟩ := h1
  obtain ⟨t', ht', hy'⟩ := h2
  rw [ht] at ht'
  cases ht'
  exact ⟨t, ht, above_join (total_normal h ht) hx hy hx' hy'⟩

theorem flow_step {src : Source} {d : Disassembler} {w w' : Work} (hf : Flow src d w)
    (h : step src d w = .ok (some w')) : Flow src d w' := by
  obtain ⟨ht', hmono⟩ := tidy_step hf.tidy h
  obtain ⟨pc, s, rest, it, outs, hst, hr, he⟩ := step_round hf.tidy.fresh h
  have ht := hf.tidy
  have hsn : NormalState s := ht.states.2 pc s (by rw [hst]; simp [OMap.find])
  have hsorted := ht.stack
  rw [hst] at hsorted
  have hrest : OMap.Sorted rest := by
    unfold OMap.Sorted at hsorted; rw [List.pairwise_cons] at hsorted; exact hsorted.2
  have hrn : ∀ a s, OMap.find rest a = some s → NormalState s := by
    intro a t hat
    refine ht.states.2 a t ?_
    rw [hst]
    unfold OMap.Sorted at hsorted
    rw [List.pairwise_cons] at hsorted
    have := hsorted.1 _ (OMap.mem_of_find hat)
    simp only at this
    rw [OMap.find, if_neg (by omega)]
    exact hat
  have hself : look d w'.fresh pc = some it := by rw [he.look, if_pos rfl]
  have hother : ∀ a, pc ≠ a → look d w'.fresh a = look d w.fresh a := fun a ha => by rw [he.look, if_neg ha]
  -- it is enough to look at `pc`
  suffices hpc : ItemOk src pc it ∧
      (it.instruction.isExitInstruction = false → Has (seen d w') w'.stack (nextAddr pc it.instruction) it.next) ∧
      (∀ v, it.instruction.isLocalBranch = true → it.instruction.arg1.eval nullCtx = .ok v →
        Has (seen d w') w'.stack (Address.addWrapped (nextAddr pc it.instruction) v)
          (branchState it.instruction it.current)) by
    refine ⟨ht', hf.table, ?_, ?_, ?_⟩
    · intro a jt hl
      by_cases ha : pc = a
      · subst ha; rw [hself] at hl; cases hl; exact hpc.1
      · rw [hother a ha] at hl; exact hf.items a jt hl
    · intro a jt hl hx
      by_cases ha : pc = a
      · subst ha; rw [hself] at hl; cases hl; exact hpc.2.1 hx
      · rw [hother a ha] at hl
        exact hmono _ _ (item_normal ht hl (hf.items a jt hl)).2 (hf.next a jt hl hx)
    · intro a jt v hl hx hv
      by_cases ha : pc = a
      · subst ha; rw [hself] at hl; cases hl; exact hpc.2.2 v hx hv
      · rw [hother a ha] at hl
        exact hmono _ _ (branchState_normal (item_normal ht hl (hf.items a jt hl)).1) (hf.branch a jt v hl hx hv)
  cases hr with
  | skip seen' same far labels sym =>
    have hi := hf.items pc it seen'
    have hn := item_normal ht seen' hi
    exact ⟨hi, fun hx => hmono _ _ hn.2 (hf.next pc it seen' hx),
      fun v hx hv => hmono _ _ (branchState_normal hn.1) (hf.branch pc it v seen' hx hv)⟩
  | first unseen read decoded executed visit =>
    rename_i bytes i0 nx0
    have hi := first_ok hf.table read decoded executed visit
    obtain ⟨hi1, -, -, hi4, hi5, -⟩ := first_item visit
    have hn := item_normal ht' hself hi
    obtain ⟨bo, he', hbo⟩ := first_effect ht.fresh visit
    have hln : ∀ b, it.instruction.executeBranch s = .ok b →
        NormalState b := fun b hb => normal_executeBranch (fun f hf => ht'.rets pc it f hself hf) hb hsn
    have hon : ∀ o ∈ bo ++ nextOuts pc it.instruction it.next, NormalState o.2 := by
      intro o ho
      rw [List.mem_append] at ho
      rcases ho with ho | ho
      · rcases hbo with ⟨-, v, b, -, -, hb, rfl⟩ | ⟨-, rfl⟩
        · rw [List.mem_singleton] at ho; subst ho; exact hln b hb
        · cases ho
      · obtain ⟨-, rfl⟩ := nextOuts_mem ho; exact hn.2
    refine ⟨hi, fun hx => ?_, fun v hx hv => ?_⟩
    · refine has_outs ht' hrest hrn he'.stack hon (o := (nextAddr pc it.instruction, it.next)) ?_
      rw [List.mem_append]
      right
      unfold nextOuts
      rw [if_neg (by rw [hx]; simp)]
      simp
    · have hb0 : i0.isLocalBranch = true := by
        simp only [Instruction.isLocalBranch] at hx ⊢
        rw [← hi4, ← hi5]; exact hx
      rcases hbo with ⟨-, v', b, hv', hnm, hb, rfl⟩ | ⟨hnb, -⟩
      · have hvv : v = v' := by
          rw [hnm] at hv
          simp only at hv
          rw [decode_applyLabel decoded] at hv
          have : i0.arg1.eval nullCtx = .ok v := by
            simp only [Expr.eval] at hv
            split at hv
            · cases hv
            · exact hv
          rw [hv'] at this; cases this; rfl
        subst hvv
        have htk := branch_taken hx (hi1 ▸ hi.next)
        rw [htk] at hb
        cases hb
        rw [hi1, show nextAddr pc it.instruction = nextAddr pc i0 by unfold nextAddr; rw [hi5]]
        exact has_outs ht' hrest hrn he'.stack hon
          (o := (Address.addWrapped (nextAddr pc i0) v, branchState it.instruction s)) (by simp)
      · rw [hb0] at hnb; cases hnb
  | again seen' change read decoded executed far branch labels sym =>
    rename_i di bytes i0 nx bo
    have hdi := hf.items pc di seen'
    have hdn := item_normal ht seen' hdi
    have hret : ∀ f, di.instruction.ret = .yields f → Normal f := fun f hf => ht.rets pc di f seen' hf
    have hi : ItemOk src pc { di with current := s.merge di.current, next := nx } := by
      refine ⟨?_, hdi.ret, executed⟩
      obtain ⟨bytes', j, hb', hj, hsh⟩ := hdi.bytes
      rw [read] at hb'
      cases hb'
      have := decode_merged hdn.1.1 decoded
      rw [hj] at this
      cases this
      exact ⟨bytes, _, read, decoded, hsh⟩
    have hn := item_normal ht' hself hi
    have hon : ∀ o ∈ nextOuts pc di.instruction nx ++ bo, NormalState o.2 := by
      intro o ho
      rw [List.mem_append] at ho
      rcases ho with ho | ho
      · obtain ⟨-, rfl⟩ := nextOuts_mem ho; exact hn.2
      · rcases branch with ⟨-, rfl⟩ | ⟨-, v, b, -, hb, rfl⟩
        · cases ho
        · rw [List.mem_singleton] at ho; subst ho; exact normal_executeBranch hret hb hsn
    refine ⟨hi, fun hx => ?_, fun v hx hv => ?_⟩
    · refine has_outs ht' hrest hrn he.stack hon (o := (nextAddr pc di.instruction, nx)) ?_
      rw [List.mem_append]
      left
      unfold nextOuts
      simp only at hx
      rw [if_neg (by rw [hx]; simp)]
      simp
    · simp only at hx hv ⊢
      rcases branch with ⟨hnb, -⟩ | ⟨-, v', b, hv', hb, rfl⟩
      · rw [hx] at hnb; cases hnb
      · rw [hv] at hv'
        cases hv'
        have hold := hmono _ _ (branchState_normal hdn.1) (hf.branch pc di v seen' hx hv)
        have hnew := has_outs ht' hrest hrn he.stack hon
          (o := (Address.addWrapped (nextAddr pc di.instruction) v, b)) (by simp)
        have hbs : b = branchState di.instruction s := by
          unfold Instruction.executeBranch at hb
          obtain ⟨e, he1, -⟩ := Res.bind_eq_ok.1 hb
          have := branch_taken hx he1
          have hb2 := hb
          change di.instruction.executeBranch s = .ok b at hb2
          rw [this] at hb2
          cases hb2; rfl
        subst hbs
        rw [branchState_merge]
        exact has_join ht'.states (branchState_normal hsn) (branchState_normal hdn.1) hnew hold
