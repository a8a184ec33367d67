import Verif.Spec.Plain
import Verif.Props.MoreTools
import Verif.Props.Instruction
import Verif.Lemmas.AnyOrder
import Verif.Lemmas.FirstPass

/-!
# The plain disassembler shows the code that is in the ROM

C85.
-/

namespace Nsasm.Props
open Nsasm Nsasm.Spec Tools

namespace Plain

/-- The table of branch targets holds the last branch to each. -/
structure Noted (jumps : OMap ExecutionState) (shown : List Shown) : Prop where
  sorted : jumps.Sorted
  find : ∀ t st, jumps.find t = some st ↔ LastBranch shown t st

theorem branchesTo_unique {s : Shown} {t t' : Addr} (h : s.BranchesTo t) (h' : s.BranchesTo t') : t = t' := by
  obtain ⟨-, v, hv, rfl⟩ := h
  obtain ⟨-, v', hv', rfl⟩ := h'
  rw [hv] at hv'
  cases hv'
  rfl

theorem lastBranch_nil {t : Addr} {st : ExecutionState} : ¬ LastBranch [] t st := by
  rintro ⟨above, s, below, h, -⟩
  cases above <;> cases h

theorem lastBranch_snoc {shown : List Shown} {s : Shown} {t : Addr} {st : ExecutionState} :
    LastBranch (shown ++ [s]) t st ↔ (s.BranchesTo t ∧ s.after = st) ∨ (¬ s.BranchesTo t ∧ LastBranch shown t st) := by
  constructor
  · rintro ⟨above, r, below, h, hb, ha, hn⟩
    rcases List.eq_nil_or_concat below with rfl | ⟨below, x, rfl⟩
    · obtain ⟨-, h⟩ := List.append_inj' h rfl
      cases h
      exact .inl ⟨hb, ha⟩
    · rw [show above ++ r :: below.concat x = (above ++ r :: below) ++ [x] by simp] at h
      obtain ⟨h1, h⟩ := List.append_inj' h rfl
      cases h
      exact .inr ⟨hn s (by simp), above, r, below, h1, hb, ha, fun y hy => hn y (by simp [hy])⟩
  · rintro (⟨hb, ha⟩ | ⟨hn, above, r, below, rfl, hb, ha, hbelow⟩)
    · exact ⟨shown, s, [], rfl, hb, ha, fun _ h => absurd h (by simp)⟩
    · refine ⟨above, r, below ++ [s], by simp, hb, ha, fun y hy => ?_⟩
      rcases List.mem_append.mp hy with hy | hy
      · exact hbelow y hy
      · rw [List.mem_singleton.mp hy]; exact hn

theorem noted_nil : Noted [] [] := ⟨List.Pairwise.nil, fun _ _ => ⟨fun h => (by cases h), fun h => absurd h lastBranch_nil⟩⟩

theorem noteBranch_noted {jumps jumps' : OMap ExecutionState} {shown : List Shown} (hn : Noted jumps shown) {a : Addr}
    {i : Instruction} {st : ExecutionState} {text : Str}
    (h : noteBranch jumps (Address.addWrapped a (instructionLength i.mode)) i st = .ok (text, jumps')) :
    Noted jumps' (shown ++ [⟨a, i, st⟩]) ∧ BranchRemark shown ⟨a, i, st⟩ text := by
  unfold noteBranch at h
  split at h
  · next hb =>
    obtain ⟨v, hv, h⟩ := Res.bind_eq_ok.mp h
    simp only [Res.ok.injEq, Prod.mk.injEq] at h
    obtain ⟨ht, hj⟩ := h
    have hv' : i.arg1.eval nullCtx = .ok v := by
      unfold Disassembler.evalUnchecked at hv
      split at hv <;> cases hv
      assumption
    have hto : (⟨a, i, st⟩ : Shown).BranchesTo (Address.addWrapped (following a i) v) :=
      ⟨(mayBranch_iff i).mp hb, v, hv', rfl⟩
    have hto' : ∀ t, (⟨a, i, st⟩ : Shown).BranchesTo t ↔ Address.addWrapped (following a i) v = t :=
      fun t => ⟨fun h => branchesTo_unique hto h, fun h => h ▸ hto⟩
    refine ⟨⟨?_, fun t st' => ?_⟩, ?_⟩
    · rw [← hj]; exact OMap.sorted_upsert hn.sorted _ _
    · rw [← hj, lastBranch_snoc, OMap.set, OMap.find_upsert hn.sorted, hto']
      show (if Address.addWrapped (following a i) v = t then _ else _) = _ ↔ _
      by_cases he : Address.addWrapped (following a i) v = t
      · rw [if_pos he]
        constructor
        · intro h
          refine .inl ⟨he, ?_⟩
          cases hf : jumps.find (Address.addWrapped (Address.addWrapped a (instructionLength i.mode)) v) with
          | none => rw [hf] at h; exact Option.some.inj h
          | some w => rw [hf] at h; exact Option.some.inj h
        · rintro (⟨-, h⟩ | ⟨h, -⟩)
          · cases hf : jumps.find (Address.addWrapped (Address.addWrapped a (instructionLength i.mode)) v) with
            | none => exact congrArg some h
            | some w => exact congrArg some h
          · exact absurd he h
      · rw [if_neg he, hn.find]
        exact ⟨fun h => .inr ⟨he, h⟩, fun h => h.elim (fun h => absurd h.1 he) (·.2)⟩
    · rw [← ht]
      cases hf : jumps.find (Address.addWrapped (Address.addWrapped a (instructionLength i.mode)) v) with
      | none =>
        have := BranchRemark.new (above := shown) hto fun st' hl => by
          have := (hn.find _ _).mpr hl
          rw [show following a i = Address.addWrapped a (instructionLength i.mode) from rfl, hf] at this
          cases this
        exact this
      | some w =>
        have := BranchRemark.again (above := shown) hto ((hn.find _ _).mp hf)
        simpa [following] using this
  · next hb =>
    simp only [Res.ok.injEq, Prod.mk.injEq] at h
    obtain ⟨rfl, rfl⟩ := h
    have hno : ¬ MayBranch i := fun h => hb ((mayBranch_iff i).mpr h)
    refine ⟨⟨hn.sorted, fun t st' => ?_⟩, .none hno⟩
    rw [hn.find, lastBranch_snoc]
    exact ⟨fun h => .inr ⟨fun hb => hno hb.1, h⟩, fun h => h.elim (fun h => absurd h.1.1 hno) (·.2)⟩

theorem lowerBound_none {jumps : OMap ExecutionState} {shown : List Shown} (hn : Noted jumps shown) {a : Addr}
    (h : lowerBound jumps a = none) (t : Addr) (st : ExecutionState) (ht : a ≤ t) : ¬ LastBranch shown t st := by
  intro hl
  have hm := OMap.mem_of_find ((hn.find t st).mpr hl)
  have := List.find?_eq_none.mp h _ hm
  simp only [decide_eq_true_eq] at this
  exact this ht

theorem lowerBound_some {jumps : OMap ExecutionState} {shown : List Shown} (hn : Noted jumps shown) {a t : Addr}
    {st : ExecutionState} (h : lowerBound jumps a = some (t, st)) : Nearest shown a t st := by
  obtain ⟨hp, before, after', he, hb⟩ := List.find?_eq_some_iff_append.mp h
  simp only [decide_eq_true_eq] at hp
  have hm : (t, st) ∈ jumps := by rw [he]; simp
  refine ⟨hp, (hn.find t st).mp (OMap.find_of_mem hn.sorted hm), fun t' st' hl ha => ?_⟩
  have hm' := OMap.mem_of_find ((hn.find t' st').mpr hl)
  rw [he, List.mem_append, List.mem_cons] at hm'
  rcases hm' with hm' | hm' | hm'
  · have := hb _ hm'
    simp only [Bool.not_eq_true', decide_eq_false_iff_not] at this
    exact absurd ha this
  · cases hm'; exact Nat.le_refl _
  · have hs := hn.sorted
    rw [he] at hs
    have := (List.pairwise_cons.mp (List.pairwise_append.mp hs).2.1).1 _ hm'
    exact Nat.le_of_lt this

theorem earliest_remark {jumps : OMap ExecutionState} {shown : List Shown} (hn : Noted jumps shown) :
    LastRemark shown (earliest jumps) := by
  cases jumps with
  | nil => exact .none fun t st hl => by have := (hn.find t st).mpr hl; cases this
  | cons x rest =>
    obtain ⟨t, st⟩ := x
    refine .first (t := t) (st := st) ⟨Nat.zero_le _, (hn.find t st).mp (by simp [OMap.find]), fun t' st' hl _ => ?_⟩
    have hm' := OMap.mem_of_find ((hn.find t' st').mpr hl)
    rw [List.mem_cons] at hm'
    rcases hm' with hm' | hm'
    · cases hm'; exact Nat.le_refl _
    · exact Nat.le_of_lt ((List.pairwise_cons.mp hn.sorted).1 _ hm')

theorem dumbLoop_prints {msg : Err → Str} {rom : Rom} {start : Addr} {f : StatusFlags} : ∀ (n : Nat) (shown : List Shown)
    (a : Addr) (st : ExecutionState) (jumps : OMap ExecutionState) (ls : List Str) (out : Outcome),
    StraightLine rom start f shown a st → Noted jumps shown → PlainLines shown ls →
    dumbLoop msg rom n a st jumps = .ok out → PlainListing msg rom start f (ls ++ out.lines) out.status := by
  intro n
  induction n with
  | zero => intro _ _ _ _ _ _ _ _ _ h; cases h
  | succ n ih =>
    intro shown a st jumps ls out hw hn hl h
    unfold dumbLoop at h
    simp only at h
    cases hr : rom.read a 4 with
    | ub u => rw [hr] at h; cases h
    | err e =>
      rw [hr] at h
      simp only [Res.ok.injEq] at h
      subst h
      exact .failed hw (.inl hr) hl
    | ok bytes =>
      rw [hr] at h
      simp only at h
      cases hd : decode bytes st.flags with
      | ub u => rw [hd] at h; cases h
      | err e =>
        rw [hd] at h
        simp only [Res.ok.injEq] at h
        subst h
        exact .failed hw (.inr ⟨bytes, hr, .inl hd⟩) hl
      | ok i =>
        rw [hd] at h
        simp only at h
        cases hx : i.execute st nullCtx with
        | ub u => rw [hx] at h; cases h
        | err e =>
          rw [hx] at h
          simp only [Res.ok.injEq] at h
          subst h
          exact .failed hw (.inr ⟨bytes, hr, .inr ⟨i, hd, hx⟩⟩) hl
        | ok st' =>
          rw [hx] at h
          simp only at h
          obtain ⟨⟨text, jumps'⟩, hnb, h⟩ := Res.bind_eq_ok.mp h
          simp only at h
          obtain ⟨hn', hrem⟩ := noteBranch_noted hn hnb
          have hc : HasCode rom a st i st' := ⟨bytes, hr, hd, hx⟩
          have hl' := PlainLines.more hl hrem
          split at h
          · next hexit =>
            have hs : Stops (.instr i) := (stops_iff i).mpr hexit
            cases hb : lowerBound jumps' (Address.addWrapped a (instructionLength i.mode)) with
            | none =>
              rw [hb] at h
              simp only [Res.ok.injEq] at h
              subst h
              have := PlainListing.complete (msg := msg) hw hc hs hl' (.all fun t s ht => lowerBound_none hn' hb t s ht)
                (earliest_remark hn')
              simpa using this
            | some x =>
              obtain ⟨t, s⟩ := x
              rw [hb] at h
              have hnear := lowerBound_some hn' hb
              simp only at h
              split at h
              · next hgt =>
                simp only [Res.ok.injEq] at h
                subst h
                have := PlainListing.complete (msg := msg) hw hc hs hl' (.gap hnear hgt) (earliest_remark hn')
                simpa using this
              · next hgt =>
                obtain ⟨r, hrec, h⟩ := Res.bind_eq_ok.mp h
                simp only [Res.ok.injEq] at h
                subst h
                have ht : t = following a i := Nat.le_antisymm (Nat.not_lt.mp hgt) hnear.1
                have := ih _ _ _ _ _ _ (.target hw hc hs (ht ▸ hnear.2.1)) hn' hl' hrec
                simpa using this
          · next hexit =>
            obtain ⟨r, hrec, h⟩ := Res.bind_eq_ok.mp h
            simp only [Res.ok.injEq] at h
            subst h
            have := ih _ _ _ _ _ _ (.next hw hc fun hs => hexit ((stops_iff i).mp hs)) hn' hl' hrec
            simpa using this

theorem line_lt {rom : Rom} {start : Addr} {f : StatusFlags} (hs : start < 0x1000000) {shown : List Shown} {a : Addr}
    {st : ExecutionState} (h : StraightLine rom start f shown a st) : a < 0x1000000 := by
  cases h with
  | start => exact hs
  | next _ _ _ => exact addWrapped_lt _ _
  | target _ _ _ _ => exact addWrapped_lt _ _

theorem shown_code {rom : Rom} {start : Addr} {f : StatusFlags} (hs : start < 0x1000000) {shown : List Shown} {a : Addr}
    {st : ExecutionState} (h : StraightLine rom start f shown a st) :
    ∀ s ∈ shown, s.address < 0x1000000 ∧ ∃ st, HasCode rom s.address st s.instruction s.after := by
  induction h with
  | start => intro s hs; cases hs
  | next before code _ ih =>
    intro s h
    rcases List.mem_append.mp h with h | h
    · exact ih s h
    · rw [List.mem_singleton.mp h]; exact ⟨line_lt hs before, _, code⟩
  | target before code _ _ ih =>
    intro s h
    rcases List.mem_append.mp h with h | h
    · exact ih s h
    · rw [List.mem_singleton.mp h]; exact ⟨line_lt hs before, _, code⟩

end Plain

/-- **What the plain disassembler prints.** -/
theorem C85_prints {msg : Err → Str} {fuel : Nat} {rom : Rom} {start : Nat} {mode : Str} {f : StatusFlags} {out : Outcome}
    (hf : StatusFlags.fromName mode = some f) (h : dumbRom msg fuel rom start mode = .ok out) :
    PlainListing msg rom start f out.lines out.status := by
  unfold dumbRom at h
  simp only [hf] at h
  obtain ⟨a, ha, h1⟩ := Res.bind_eq_ok.mp h
  have : a = start := by have := (ofInt_eq_ok.mp ha).1; omega
  subst this
  exact Plain.dumbLoop_prints fuel [] a (.init f) [] [] out .start Plain.noted_nil .nil h1

/-- **Every instruction shown is the one in the ROM**: assembling it gives the bytes at its address, where a branch is given
its target. -/
theorem C85_bytes {rom : Rom} {start : Addr} {f : StatusFlags} {shown : List Shown} {a : Addr} {st : ExecutionState}
    (hs : start < 0x1000000) (h : StraightLine rom start f shown a st) (ctx : Ctx) :
    ∀ s ∈ shown, ∃ bytes, rom.read s.address 4 = .ok bytes ∧ s.address < 0x1000000 ∧
      (¬ Relative s.instruction.mode → s.instruction.assemble s.address ctx logSink [] =
        ([(s.address, bytes.take s.instruction.serializedSize)], .ok ())) ∧
      (Relative s.instruction.mode → ∃ o, s.instruction.arg1.eval nullCtx = .ok o ∧
        ∀ t, { s.instruction with arg1 := .lit (offsetTarget s.address s.instruction.serializedSize o) t }.assemble
          s.address ctx logSink [] = ([(s.address, bytes.take s.instruction.serializedSize)], .ok ())) := by
  intro s hmem
  obtain ⟨hlt, _, bytes, hr, hd, _⟩ := Plain.shown_code hs h s hmem
  obtain ⟨_, h1, h2⟩ := C07_assemble_decoded bytes _ _ _ hlt ctx hd
  exact ⟨bytes, hr, hlt, h1, h2⟩

/-- A loop, a way out of it that is branched over, and code after it. -/
example : dumbRom (fun _ => []) 20 ⟨.loRom, [0xd0, 0x01, 0x60, 0xc2, 0x20, 0xa9, 0x34, 0x12, 0x30, 0xf6, 0x80, 0x02, 0, 0, 0, 0]⟩
    0x8000 cs!"m8x8" = .ok { status := 0, lines := [
      cs!"$008000 -                          bne 1 ; m8x8 to $008003 (new)",
      cs!"$008002 -                            rts ; m8x8",
      cs!"$008003 -                       rep #$20 ; m16x8",
      cs!"$008005 -                     lda #$1234 ; m16x8",
      cs!"$008008 -                        bmi -10 ; m16x8 to $008000 (new)",
      cs!"$00800a -                          bra 2 ; m16x8 to $00800e (new)",
      cs!"Gap found here.  Nearest local jump target is $00800e (m16x8).",
      cs!"Earliest branch target $008000 (m16x8)."] } := by decide +kernel

end Nsasm.Props
