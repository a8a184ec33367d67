import Verif.Lemmas.Link

/-! # Assembling does not depend on the sink that takes the writes -/

namespace Nsasm
open Spec

theorem feeds_append {σ : Type} {sink : Sink σ} {s s'' : σ} {v w : Writes} (h : Feeds sink s (v ++ w) s'') :
    ∃ s', Feeds sink s v s' ∧ Feeds sink s' w s'' := by
  induction v generalizing s with
  | nil => exact ⟨s, .nil _, h⟩
  | cons x v ih =>
    cases h with
    | cons h1 h2 =>
      obtain ⟨s', h3, h4⟩ := ih h2
      exact ⟨s', .cons h1 h3, h4⟩

/-- When `F` succeeds, it has made certain writes, at addresses that fit in 24 bits, and it succeeds with
the same result on every sink that takes these. -/
def Oblivious {α : Type} (F : (σ : Type) → Sink σ → σ → σ × Res α) : Prop :=
  ∀ (σ : Type) (sink : Sink σ) (s s' : σ) (r : α), F σ sink s = (s', .ok r) →
    ∃ ws, Feeds sink s ws s' ∧ (∀ w ∈ ws, w.1 < 0x1000000) ∧ ∀ (τ : Type) (k : Sink τ) (t t' : τ), Feeds k t ws t' → F τ k t = (t', .ok r)

theorem claim_low {o o' : Module.Out} {a n : Nat} (hn : 0 < n) (h : Module.claim o a n = .ok o') : a < 0x1000000 := by
  unfold Module.claim at h
  obtain ⟨⟨owned, ok⟩, hx, h⟩ := Res.bind_eq_ok.mp h
  rw [DataRange.claimBytes, dif_pos (by omega)] at hx
  obtain ⟨stop, hs, -⟩ := Res.bind_eq_ok.mp hx
  simp only [Address.addUnwrapped, Address.ofInt] at hs
  split at hs
  · simp only [Address.bankAddress] at *; omega
  · cases hs

theorem writeLine_oblivious (l : Line) (ctx : Ctx) (o : Module.Out) (hs : l.statement.serializedSize > 0) :
    Oblivious fun _ sink s => Module.writeLine l ctx sink s o := by
  intro σ sink s s' r h
  simp only [Module.writeLine] at h ⊢
  cases hv : l.value with
  | none => rw [hv] at h; cases h
  | some v =>
    rw [hv] at h
    simp only at h ⊢
    cases ha : Address.ofInt v with
    | err e => rw [ha] at h; cases h
    | ub u => rw [ha] at h; cases h
    | ok a =>
      rw [ha] at h
      simp only [Statement.assemble] at h ⊢
      cases hb : l.statement.assembleBytes a ctx with
      | err e => rw [hb] at h; cases h
      | ub u => rw [hb] at h; cases h
      | ok b =>
        rw [hb] at h
        cases b with
        | none =>
          simp only [Prod.mk.injEq] at h
          obtain ⟨rfl, h⟩ := h
          refine ⟨[], .nil _, by simp, fun τ k t t' hf => ?_⟩
          cases hf
          simp only [h]
        | some bs =>
          simp only at h
          rcases hsk : sink s a bs with ⟨s1, r1⟩
          rw [hsk] at h
          cases r1 with
          | err e => cases h
          | ub u => cases h
          | ok u =>
            simp only [Prod.mk.injEq] at h
            obtain ⟨rfl, h⟩ := h
            refine ⟨[(a, bs)], .cons hsk (.nil _), by simpa using claim_low hs h, fun τ k t t' hf => ?_⟩
            cases hf with
            | cons h1 h2 =>
              cases h2
              simp only [h1, h]

theorem assembleLine_oblivious (m : Module) (externs : Ctx) (l : Line) (o : Module.Out) :
    Oblivious fun _ sink s => m.assembleLine externs sink l s o := by
  intro σ sink s s' r h
  simp only [Module.assembleLine] at h ⊢
  by_cases hs : l.statement.serializedSize > 0
  · simp only [if_pos hs, Prod.mk.injEq] at h ⊢
    obtain ⟨e, h⟩ := h
    obtain ⟨o1, h1, h⟩ := Res.bind_eq_ok.mp h
    obtain ⟨ws, hf, hlow, hall⟩ := writeLine_oblivious l (m.lookup l.scopes externs) o hs σ sink s s' o1 (Prod.ext e h1)
    refine ⟨ws, hf, hlow, fun τ k t t' hk => ?_⟩
    have := hall τ k t t' hk
    simp only at this
    rw [this]
    exact ⟨rfl, by rw [Res.bind_ok, h]⟩
  · simp only [if_neg hs] at h ⊢
    refine ⟨[], ?_⟩
    cases hst : l.statement with
    | instr i =>
      rw [hst] at h
      simp only [Prod.mk.injEq] at h
      obtain ⟨rfl, h⟩ := h
      refine ⟨.nil _, by simp, fun τ k t t' hk => ?_⟩
      cases hk
      simp only [h]
    | dir d =>
      rw [hst] at h
      simp only [Prod.mk.injEq] at h
      obtain ⟨rfl, h⟩ := h
      refine ⟨.nil _, by simp, fun τ k t t' hk => ?_⟩
      cases hk
      simp only [h]

theorem assembleLines_oblivious (m : Module) (externs : Ctx) : ∀ (ls : List Line) (o : Module.Out),
    Oblivious fun _ sink s => m.assembleLines externs sink ls s o := by
  intro ls
  induction ls with
  | nil =>
    intro o σ sink s s' r h
    simp only [Module.assembleLines, Prod.mk.injEq] at h
    obtain ⟨rfl, h⟩ := h
    refine ⟨[], .nil _, by simp, fun τ k t t' hk => ?_⟩
    cases hk
    simp only [Module.assembleLines, h]
  | cons l ls ih =>
    intro o σ sink s s' r h
    simp only [Module.assembleLines] at h ⊢
    rcases h1 : m.assembleLine externs sink l s o with ⟨s1, r1⟩
    rw [h1] at h
    cases r1 with
    | err e => cases h
    | ub u => cases h
    | ok o1 =>
      obtain ⟨w, hf, hlow, hall⟩ := assembleLine_oblivious m externs l o σ sink s s1 o1 h1
      obtain ⟨ws, hfs, hlow', hall'⟩ := ih o1 σ sink s1 s' r h
      refine ⟨w ++ ws, hf.trans hfs, fun x hx => (List.mem_append.mp hx).elim (hlow x) (hlow' x), fun τ k t t' hk => ?_⟩
      obtain ⟨t1, hk1, hk2⟩ := feeds_append hk
      have e1 := hall τ k t t1 hk1
      have e2 := hall' τ k t1 t' hk2
      simp only at e1 e2
      rw [e1]
      exact e2

theorem module_oblivious (m : Module) (externs : Ctx) : Oblivious fun _ sink s => m.assemble externs sink s := by
  intro σ sink s s' r h
  simp only at h ⊢
  unfold Module.assemble at h ⊢
  rcases h1 : m.assembleLines externs sink m.lines s ⟨m.owned, m.targets, m.conventions⟩ with ⟨s1, r1⟩
  rw [h1] at h
  simp only [Prod.mk.injEq] at h
  obtain ⟨rfl, h⟩ := h
  obtain ⟨o, rfl, h⟩ := Res.bind_eq_ok.mp h
  obtain ⟨ws, hf, hlow, hall⟩ := assembleLines_oblivious m externs m.lines _ σ sink s s1 o h1
  refine ⟨ws, hf, hlow, fun τ k t t' hk => ?_⟩
  have e1 := hall τ k t t' hk
  simp only at e1
  rw [e1]
  simp only [Res.bind_ok, h]

theorem finalPasses_oblivious : ∀ (order : List Nat) (a : Assembler),
    Oblivious fun _ sink s => Assembler.finalPasses sink a order s := by
  intro order
  induction order with
  | nil =>
    intro a σ sink s s' r h
    simp only [Assembler.finalPasses, Prod.mk.injEq] at h
    obtain ⟨rfl, h⟩ := h
    refine ⟨[], .nil _, by simp, fun τ k t t' hk => ?_⟩
    cases hk
    simp only [Assembler.finalPasses, h]
  | cons i is ih =>
    intro a σ sink s s' r h
    simp only [Assembler.finalPasses] at h ⊢
    cases hm : a.modules[i]? with
    | none => rw [hm] at h; cases h
    | some m =>
      rw [hm] at h
      simp only at h ⊢
      rcases h1 : m.assemble (Assembler.lookup a.modules a.names) sink s with ⟨s1, r1⟩
      rw [h1] at h
      cases r1 with
      | err e => cases h
      | ub u => cases h
      | ok m1 =>
        simp only at h
        obtain ⟨w, hf, hlow, hall⟩ := module_oblivious m _ σ sink s s1 m1 h1
        rcases h2 : a.memory.insert m1.owned i with ⟨mem, ok⟩
        rw [h2] at h
        cases ok with
        | false => cases h
        | true =>
          simp only at h
          obtain ⟨ws, hfs, hlow', hall'⟩ := ih _ σ sink s1 s' r h
          refine ⟨w ++ ws, hf.trans hfs, fun x hx => (List.mem_append.mp hx).elim (hlow x) (hlow' x), fun τ k t t' hk => ?_⟩
          obtain ⟨t1, hk1, hk2⟩ := feeds_append hk
          have e1 := hall τ k t t1 hk1
          have e2 := hall' τ k t1 t' hk2
          simp only at e1 e2
          rw [e1]
          simp only [h2]
          exact e2

theorem assembleFiles_oblivious (fuel : Nat) (files : List (List Str)) :
    Oblivious fun _ sink s => Assembler.assembleFiles fuel files sink s := by
  intro σ sink s s' r h
  simp only [Assembler.assembleFiles, Assembler.assemble] at h ⊢
  cases h1 : Assembler.loadAll files with
  | err e => rw [h1] at h; cases h
  | ub u => rw [h1] at h; cases h
  | ok ms =>
    rw [h1] at h
    simp only at h ⊢
    cases h2 : Assembler.prepare fuel ms with
    | err e => rw [h2] at h; cases h
    | ub u => rw [h2] at h; cases h
    | ok p =>
      obtain ⟨a, order⟩ := p
      rw [h2] at h
      exact finalPasses_oblivious order a σ sink s s' r h

end Nsasm
