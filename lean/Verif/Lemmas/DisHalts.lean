import Verif.Lemmas.Rounds

/-! # The disassembler's loop ends -/

namespace Nsasm
open Spec Props Disassembler

/-- The byte source itself answers (it does not stand for an exhausted step bound). -/
def Answers (src : Source) : Prop := ∀ a n, src a n ≠ .err .steps

theorem decodeArgs_noSteps (m : Mode) (l : List UInt8) : (decodeArgs m l).NoSteps := by
  unfold decodeArgs
  split <;> first | trivial | (split <;> trivial)

theorem decode_noSteps (bytes : List UInt8) (f : StatusFlags) : (decode bytes f).NoSteps := by
  unfold decode
  split
  · trivial
  · simp only
    refine Res.noSteps_bind ?_ fun _ _ => Res.noSteps_bind (decodeArgs_noSteps _ _) fun ⟨_, _⟩ _ => trivial
    refine noSteps_ite (fun _ => ?_) fun _ => trivial
    split <;> trivial

theorem addrOfInt_noSteps (v : Int) : (Address.ofInt v).NoSteps := by
  unfold Address.ofInt; exact noSteps_ite (fun _ => trivial) (fun _ => trivial)

theorem far_noSteps (i : Instruction) (a : Nat) : (i.farBranchTarget a).NoSteps := by
  unfold Instruction.farBranchTarget
  refine noSteps_ite (fun _ => ?_) fun _ => noSteps_ite (fun _ => ?_) fun _ => trivial
  · split
    · exact Res.noSteps_bind (addrOfInt_noSteps _) fun _ _ => trivial
    · trivial
    · trivial
  · split <;> trivial

theorem unchecked_noSteps (e : Expr) : (evalUnchecked e).NoSteps := by
  unfold evalUnchecked; split <;> trivial

theorem src_noSteps {src : Source} (h : Answers src) (a : Nat) (n : Int) : (src a n).NoSteps := by
  have := h a n
  revert this
  cases src a n with
  | ok v => intro _; trivial
  | err e => cases e <;> simp [Res.NoSteps]
  | ub u => intro _; trivial

theorem disStep_noSteps {src : Source} (h : Answers src) (d : Disassembler) (w : Work) :
    (step src d w).NoSteps := by
  unfold step
  split
  · trivial
  · simp only
    split
    · refine Res.noSteps_bind ?_ fun _ _ => trivial
      unfold visitNew
      refine Res.noSteps_bind (src_noSteps h _ _) fun _ _ => Res.noSteps_bind (decode_noSteps _ _) fun _ _ => ?_
      refine Res.noSteps_bind (execute_noSteps _ _ _) fun _ _ => Res.noSteps_bind ?_ fun ⟨_, _, _⟩ _ => ?_
      · unfold farVisit
        refine Res.noSteps_bind (far_noSteps _ _) fun t _ => ?_
        cases t <;> trivial
      · simp only
        refine Res.noSteps_bind ?_ fun ⟨_, _⟩ _ => noSteps_ite (fun _ => trivial) fun _ => trivial
        unfold branchVisit
        refine noSteps_ite (fun _ => ?_) fun _ => trivial
        refine Res.noSteps_bind (unchecked_noSteps _) fun _ _ => ?_
        exact Res.noSteps_bind (executeBranch_noSteps _ _) fun _ _ => trivial
    · refine Res.noSteps_bind ?_ fun _ _ => trivial
      unfold visitOld
      simp only
      refine noSteps_ite (fun _ => trivial) fun _ => Res.noSteps_bind ?_ fun _ _ => ?_
      · unfold redecode
        split
        · exact Res.noSteps_bind (decode_noSteps _ _) fun _ _ => trivial
        · trivial
        · trivial
      · refine Res.noSteps_bind (execute_noSteps _ _ _) fun _ _ => Res.noSteps_bind ?_ fun _ _ => ?_
        · unfold farRevisit
          refine Res.noSteps_bind (far_noSteps _ _) fun t _ => ?_
          cases t <;> trivial
        · unfold branchRevisit
          refine noSteps_ite (fun _ => ?_) fun _ => trivial
          refine Res.noSteps_bind (executeBranch_noSteps _ _) fun _ _ => ?_
          exact Res.noSteps_bind (unchecked_noSteps _) fun _ _ => trivial

/-! ## The measure -/

/-- How many addresses below `B` have no instruction yet. -/
def unseen (d : Disassembler) (B : Nat) (w : Work) : Nat :=
  ((List.range B).filter fun a => (look d w.fresh a).isNone).length

/-- How much is known at the addresses below `B`. -/
def knowledge (d : Disassembler) (B : Nat) (w : Work) : Nat :=
  ((List.range B).map fun a => match look d w.fresh a with | some it => it.current.rank | none => 0).sum

theorem filter_lt {p q : Nat → Bool} {k : Nat} : ∀ {l : List Nat}, (∀ a ∈ l, a ≠ k → q a = p a) → k ∈ l →
    p k = true → q k = false → (l.filter q).length < (l.filter p).length := by
  intro l
  induction l with
  | nil => intro _ h; cases h
  | cons b l ih =>
    intro h hk hp hq
    have hle : ∀ {l : List Nat}, (∀ a ∈ l, a ≠ k → q a = p a) → (l.filter q).length ≤ (l.filter p).length := by
      intro l
      induction l with
      | nil => intro _; simp
      | cons c l ih =>
        intro h
        have := ih fun a ha => h a (by simp [ha])
        by_cases hc : c = k
        · subst hc
          rw [List.filter_cons_of_pos (p := p) hp, List.filter_cons_of_neg (p := q) (by simp [hq])]
          simp only [List.length_cons]; omega
        · have hqp := h c (by simp) hc
          rw [List.filter_cons, List.filter_cons, hqp]
          split <;> (try simp only [List.length_cons]) <;> omega
    by_cases hb : b = k
    · subst hb
      rw [List.filter_cons_of_pos (p := p) hp, List.filter_cons_of_neg (p := q) (by simp [hq])]
      have := hle (l := l) fun a ha => h a (by simp [ha])
      simp only [List.length_cons]; omega
    · have hk' : k ∈ l := by
        rw [List.mem_cons] at hk
        rcases hk with hk | hk
        · exact absurd hk.symm hb
        · exact hk
      have := ih (fun a ha => h a (by simp [ha])) hk' hp hq
      rw [List.filter_cons, List.filter_cons, h b (by simp) hb]
      split <;> (try simp only [List.length_cons]) <;> omega

theorem sum_lt {p q : Nat → Nat} {k : Nat} : ∀ {l : List Nat}, (∀ a ∈ l, a ≠ k → q a = p a) → k ∈ l →
    q k < p k → (l.map q).sum < (l.map p).sum := by
  intro l
  induction l with
  | nil => intro _ h; cases h
  | cons b l ih =>
    intro h hk hp
    have hle : ∀ {l : List Nat}, (∀ a ∈ l, a ≠ k → q a = p a) → (l.map q).sum ≤ (l.map p).sum := by
      intro l
      induction l with
      | nil => intro _; simp
      | cons c l ih =>
        intro h
        have := ih fun a ha => h a (by simp [ha])
        simp only [List.map_cons, List.sum_cons]
        by_cases hc : c = k
        · subst hc; omega
        · rw [h c (by simp) hc]; omega
    simp only [List.map_cons, List.sum_cons]
    by_cases hb : b = k
    · subst hb
      have := hle (l := l) fun a ha => h a (by simp [ha])
      omega
    · have hk' : k ∈ l := by
        rw [List.mem_cons] at hk
        rcases hk with hk | hk
        · exact absurd hk.symm hb
        · exact hk
      have := ih (fun a ha => h a (by simp [ha])) hk' hp
      rw [h b (by simp) hb]
      omega

/-- A round finds a new address, or forgets something about a known one, or empties the stack a
little. -/
theorem round_progress {src : Source} {d : Disassembler} {w w' : Work} (ht : Tidy d w) {B : Nat}
    (hB : ∀ a s, w.stack.find a = some s → a < B) (h : step src d w = .ok (some w')) :
    unseen d B w' < unseen d B w ∨
    (unseen d B w' = unseen d B w ∧ (knowledge d B w' < knowledge d B w ∨
      (knowledge d B w' = knowledge d B w ∧ w'.stack.length < w.stack.length))) := by
  obtain ⟨pc, s, rest, it, outs, hst, hr, he⟩ := step_round ht.fresh h
  have hfind : w.stack.find pc = some s := by rw [hst]; simp [OMap.find]
  have hpc : pc ∈ List.range B := by rw [List.mem_range]; exact hB pc s hfind
  have hsn : NormalState s := ht.states.2 pc s hfind
  have hother : ∀ a, a ≠ pc → look d w'.fresh a = look d w.fresh a := by
    intro a ha; rw [he.look, if_neg (fun h => ha h.symm)]
  have hself : look d w'.fresh pc = some it := by rw [he.look, if_pos rfl]
  cases hr with
  | skip seen same far labels sym =>
    have hall : ∀ a, look d w'.fresh a = look d w.fresh a := by
      intro a
      by_cases ha : a = pc
      · subst ha; rw [hself, seen]
      · exact hother a ha
    have hu : unseen d B w' = unseen d B w := by unfold unseen; simp only [hall]
    have hk : knowledge d B w' = knowledge d B w := by unfold knowledge; simp only [hall]
    refine .inr ⟨hu, .inr ⟨hk, ?_⟩⟩
    rw [he.stack, hst]
    simp [pushAll]
  | first unseen' read decoded executed visit =>
    refine .inl ?_
    unfold unseen
    refine filter_lt (k := pc) (fun a _ ha => by rw [hother a ha]) hpc ?_ ?_
    · rw [unseen']; rfl
    · rw [hself]; rfl
  | again seen change read decoded executed far branch labels sym =>
    rename_i di bytes i0 nx bo
    have hu : unseen d B w' = unseen d B w := by
      unfold unseen
      congr 1
      refine List.filter_congr fun a _ => ?_
      by_cases ha : a = pc
      · subst ha; rw [hself, seen]; rfl
      · rw [hother a ha]
    refine .inr ⟨hu, .inl ?_⟩
    unfold knowledge
    refine sum_lt (k := pc) (fun a _ ha => by rw [hother a ha]) hpc ?_
    rw [hself, seen]
    simp only
    have hdn : NormalState di.current := ht.states.1 pc di.current (by simp only [seen, Option.map_some])
    rw [C15_state_comm] at change ⊢
    rcases state_rank hdn hsn with h | h
    · exact absurd h change
    · exact h

/-- With enough rounds the bound plays no role. -/
def RunHalts (src : Source) (d : Disassembler) (w : Work) : Prop :=
  ∃ N r, r.2 ≠ .err .steps ∧ ∀ n, N ≤ n → run src d n w = r

theorem run_halts {src : Source} (ha : Answers src) {d : Disassembler} (w : Work) (ht : Tidy d w) :
    RunHalts src d w := by
  let μ : Work → Nat × Nat × Nat := fun w => (unseen d 0x1000001 w, knowledge d 0x1000001 w, w.stack.length)
  have wf : WellFounded (InvImage (Prod.Lex (· < ·) (Prod.Lex (· < ·) (· < ·))) μ) :=
    InvImage.wf μ (Prod.lex Nat.lt_wfRel (Prod.lex Nat.lt_wfRel Nat.lt_wfRel)).wf
  revert ht
  refine wf.induction (C := fun w => Tidy d w → RunHalts src d w) w ?_
  intro w ih ht
  have hns := disStep_noSteps ha d w
  cases hstep : step src d w with
  | err e =>
    rw [hstep] at hns
    refine ⟨1, (w, .err e), ?_, fun n hn => ?_⟩
    · intro h; cases h; exact hns
    · obtain ⟨k, rfl⟩ := Nat.exists_eq_add_of_le' hn
      simp only [run, hstep]
  | ub u =>
    refine ⟨1, (w, .ub u), by simp, fun n hn => ?_⟩
    obtain ⟨k, rfl⟩ := Nat.exists_eq_add_of_le' hn
    simp only [run, hstep]
  | ok o =>
    cases o with
    | none =>
      refine ⟨1, (w, .ok ()), by simp, fun n hn => ?_⟩
      obtain ⟨k, rfl⟩ := Nat.exists_eq_add_of_le' hn
      simp only [run, hstep]
    | some w' =>
      have hlow : ∀ a s, w.stack.find a = some s → a < 0x1000001 := fun a s h => by
        have := ht.low a s h; omega
      have hprog := round_progress ht hlow hstep
      have hlt : InvImage (Prod.Lex (· < ·) (Prod.Lex (· < ·) (· < ·))) μ w' w := by
        show Prod.Lex _ _ (μ w') (μ w)
        simp only [μ]
        rcases hprog with h | ⟨h1, h | ⟨h2, h⟩⟩
        · exact Prod.Lex.left _ _ h
        · rw [h1]; exact Prod.Lex.right _ (Prod.Lex.left _ _ h)
        · rw [h1, h2]; exact Prod.Lex.right _ (Prod.Lex.right _ h)
      obtain ⟨N, r, hr, hN⟩ := ih w' hlt (tidy_step ht hstep).1
      refine ⟨N + 1, r, hr, fun n hn => ?_⟩
      obtain ⟨k, rfl⟩ := Nat.exists_eq_add_of_le' hn
      simp only [run, hstep]
      exact hN (k + N) (by omega)
