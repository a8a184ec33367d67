import Verif.Spec.Link
import Verif.Lemmas.SecondPass
import Verif.Props.Ranges
import Verif.Props.Sizes
import Verif.Props.Instruction

/-! # Lemmas: what assembling writes and claims -/

namespace Nsasm

open Spec Props

theorem Spec.Feeds.trans {σ : Type} {sink : Sink σ} {s s' s'' : σ} {v w : Writes}
    (h : Feeds sink s v s') (h' : Feeds sink s' w s'') : Feeds sink s (v ++ w) s'' := by
  induction h with
  | nil s => exact h'
  | cons h1 _ ih => exact .cons h1 (ih h')

theorem statement_bytes_length {st : Statement} {a : Addr} {ctx : Ctx} {bs : List UInt8}
    (h : st.assembleBytes a ctx = .ok (some bs)) : bs.length = st.serializedSize := by
  cases st with
  | instr i =>
    replace h := Res.bind_eq_ok.mp h
    obtain ⟨b, hb, h⟩ := h
    injection h with h; injection h with h; subst h
    rcases C05_assemble_writes_declared_size i a ctx with ⟨bs', hl, h'⟩ | ⟨r, hr, h'⟩
    · have := h' (List UInt8) (fun _ _ bs => (bs, .ok ())) []
      simp [Instruction.assemble, hb] at this
      rw [this]; exact hl
    · have := h' Unit (fun s _ bs => (s, .ok ())) ()
      simp [Instruction.assemble, hb] at this
      exact absurd this.symm hr
  | dir d =>
    have h : d.assembleBytes ctx = .ok (some bs) := h
    obtain ⟨h1, h2⟩ := C54_data_directive d ctx
    by_cases hn : d.name = .db ∨ d.name = .dw ∨ d.name = .dl
    · obtain ⟨bs', g, e, -, -, hl⟩ := (h1 hn).1 _ h
      injection e with e; subst e; exact hl
    · rw [(h2 hn).1] at h; cases h

theorem statement_bytes_some {st : Statement} {a : Addr} {ctx : Ctx} {r : Option (List UInt8)}
    (h : st.assembleBytes a ctx = .ok r) (hs : st.serializedSize > 0) : ∃ bs, r = some bs := by
  cases st with
  | instr i =>
    replace h := Res.bind_eq_ok.mp h
    obtain ⟨b, hb, h⟩ := h
    injection h with h; exact ⟨b, h.symm⟩
  | dir d =>
    have h : d.assembleBytes ctx = .ok r := h
    obtain ⟨h1, h2⟩ := C54_data_directive d ctx
    by_cases hn : d.name = .db ∨ d.name = .dw ∨ d.name = .dl
    · obtain ⟨bs', g, e, -⟩ := (h1 hn).1 _ h
      exact ⟨bs', e⟩
    · have := (h2 hn).2
      simp only [Statement.serializedSize] at hs; omega

/-- A set of claimed addresses grows by exactly these, all new and distinct. -/
structure Claims (r r' : DataRange) (l : List Nat) : Prop where
  canonical : Canonical r'.ranges
  exact : ∀ x, r'.contains x = true ↔ r.contains x = true ∨ x ∈ l
  fresh : ∀ x ∈ l, r.contains x = false
  nodup : l.Nodup

theorem Claims.nil {r : DataRange} (h : Canonical r.ranges) : Claims r r [] :=
  ⟨h, by simp, by simp, .nil⟩

theorem Claims.trans {r r' r'' : DataRange} {l l' : List Nat} (h : Claims r r' l)
    (h' : Claims r' r'' l') : Claims r r'' (l ++ l') := by
  refine ⟨h'.canonical, fun x => ?_, fun x hx => ?_, ?_⟩
  · rw [h'.exact, h.exact, List.mem_append, or_assoc]
  · rcases List.mem_append.1 hx with hx | hx
    · exact h.fresh x hx
    · have := h'.fresh x hx
      by_contra hc
      have : r'.contains x = true := (h.exact x).2 (.inl (by simpa using hc))
      simp_all
  · refine List.nodup_append.2 ⟨h.nodup, h'.nodup, fun x hx y hy hxy => ?_⟩
    subst hxy
    have h1 := h'.fresh x hy
    have h2 := (h.exact x).2 (.inr hx)
    simp_all

theorem claim_grows {o o' : Module.Out} {a n : Nat} (hc : Canonical o.owned.ranges)
    (hn : 0 < n) (h : Module.claim o a n = .ok o') :
    Claims o.owned o'.owned ((List.range n).map (wrapped a)) ∧
      o'.targets = o.targets ∧ o'.conventions = o.conventions := by
  unfold Module.claim at h
  replace h := Res.bind_eq_ok.mp h
  obtain ⟨⟨owned, ok⟩, hx, h⟩ := h
  have hlt : a < 0x1000000 := by
    rw [DataRange.claimBytes, dif_pos (by omega)] at hx
    replace hx := Res.bind_eq_ok.mp hx
    obtain ⟨stop, hs, -⟩ := hx
    simp only [Address.addUnwrapped, Address.ofInt] at hs
    split at hs
    · simp only [Address.bankAddress] at *; omega
    · cases hs
  obtain ⟨r', ok', he, h1, h2, h3⟩ := C25_claim_bytes hc hlt n
  rw [hx] at he
  injection he with he; injection he with e1 e2; subst e1 e2
  cases ok with
  | false => simp at h
  | true =>
    simp only [if_true, Res.ok.injEq] at h
    subst h
    obtain ⟨f1, f2⟩ := h3.1 rfl
    refine ⟨⟨h1, fun x => ?_, ?_, ?_⟩, rfl, rfl⟩
    · rw [h2]
      simp only [List.mem_map, List.mem_range]
      constructor
      · rintro (h | ⟨i, hi, rfl⟩); exacts [.inl h, .inr ⟨i, hi, rfl⟩]
      · rintro (h | ⟨i, hi, rfl⟩); exacts [.inl h, .inr ⟨i, hi, rfl⟩]
    · simp only [List.mem_map, List.mem_range]
      rintro x ⟨i, hi, rfl⟩; exact f1 i hi
    · refine (List.nodup_range).map_on ?_
      intro i hi j hj e
      simp only [List.mem_range] at hi hj
      rcases Nat.lt_trichotomy i j with hlt | rfl | hlt
      · exact absurd e.symm (f2 j hj i hlt)
      · rfl
      · exact absurd e (f2 i hi j hlt)

theorem noteTarget_owned {l : Line} {o o' : Module.Out} (h : Module.noteTarget l o = .ok o') :
    o'.owned = o.owned := by
  unfold Module.noteTarget at h
  split at h
  · injection h with h; rw [h]
  · replace h := Res.bind_eq_ok.mp h
    obtain ⟨src, -, h⟩ := h
    replace h := Res.bind_eq_ok.mp h
    obtain ⟨t, -, h⟩ := h
    cases t <;> (simp only [Res.ok.injEq] at h; rw [← h])

theorem assembleNote_owned {d : Directive} {v : Option Int} {ctx : Ctx} {o o' : Module.Out}
    (h : Module.assembleNote d v ctx o = .ok o') : o'.owned = o.owned := by
  unfold Module.assembleNote at h
  split at h
  · split at h
    · cases h
    · replace h := Res.bind_eq_ok.mp h
      obtain ⟨_, -, h⟩ := h
      injection h with h; rw [← h]
  · split at h
    · replace h := Res.bind_eq_ok.mp h
      obtain ⟨_, -, h⟩ := h
      replace h := Res.bind_eq_ok.mp h
      obtain ⟨_, -, h⟩ := h
      injection h with h; rw [← h]
    · injection h with h; rw [h]

theorem writeLine_ok {σ : Type} {l : Line} {ctx : Ctx} {sink : Sink σ} {s s' : σ}
    {o o' : Module.Out} (hs : 0 < l.statement.serializedSize) (hc : Canonical o.owned.ranges)
    (h : Module.writeLine l ctx sink s o = (s', .ok o')) :
    ∃ (a : Nat) (bs : List UInt8), l.value = some (a : Int) ∧
      l.statement.assembleBytes a ctx = .ok (some bs) ∧
      bs.length = l.statement.serializedSize ∧ sink s a bs = (s', .ok ()) ∧
      Claims o.owned o'.owned (filled (a, bs)) ∧ o'.targets = o.targets ∧
      o'.conventions = o.conventions := by
  unfold Module.writeLine at h
  cases hv : l.value with
  | none => rw [hv] at h; cases h
  | some v =>
    rw [hv] at h
    simp only at h
    cases ha : Address.ofInt v with
    | err e => rw [ha] at h; cases h
    | ub u => rw [ha] at h; cases h
    | ok a =>
      rw [ha] at h
      have hva : v = (a : Int) := by
        simp only [Address.ofInt] at ha
        split at ha
        · injection ha with ha; omega
        · cases ha
      subst hva
      simp only [Statement.assemble] at h
      cases hb : l.statement.assembleBytes a ctx with
      | err e => rw [hb] at h; cases h
      | ub u => rw [hb] at h; cases h
      | ok r =>
        obtain ⟨bs, rfl⟩ := statement_bytes_some hb hs
        rw [hb] at h
        simp only at h
        have hlen := statement_bytes_length hb
        rcases hsk : sink s a bs with ⟨s1, r1⟩
        rw [hsk] at h
        cases r1 with
        | err e => cases h
        | ub u => cases h
        | ok u =>
          simp only [Prod.mk.injEq] at h
          obtain ⟨rfl, hcl⟩ := h
          obtain ⟨g, t1, t2⟩ := claim_grows hc hs hcl
          refine ⟨a, bs, rfl, hb, hlen, hsk, ?_, t1, t2⟩
          unfold filled; rw [hlen]; exact g

theorem assembleLine_ok {σ : Type} {m : Module} {externs : Ctx} {sink : Sink σ} {l : Line}
    {s s' : σ} {o o' : Module.Out} (hc : Canonical o.owned.ranges)
    (h : m.assembleLine externs sink l s o = (s', .ok o')) :
    ∃ w, LineWrites (m.lookup l.scopes externs) l w ∧ Feeds sink s w s' ∧ Claims o.owned o'.owned (allFilled w) := by
  unfold Module.assembleLine at h
  by_cases hs : l.statement.serializedSize > 0
  · simp only [if_pos hs, Prod.mk.injEq] at h
    obtain ⟨e, h⟩ := h
    replace h := Res.bind_eq_ok.mp h
    obtain ⟨o1, h1, h⟩ := h
    obtain ⟨a, bs, hv, hb, hlen, hsk, g, -, -⟩ :=
      writeLine_ok hs hc (Prod.ext e h1 :
        Module.writeLine l (m.lookup l.scopes externs) sink s o = (s', .ok o1))
    have hne : bs ≠ [] := by rintro rfl; simp at hlen; omega
    refine ⟨[(a, bs)], .inr ⟨a, bs, hv, hb, hlen, hne, rfl⟩, .cons hsk (.nil _), ?_⟩
    rw [noteTarget_owned h]; simpa [allFilled] using g
  · have h0 : l.statement.serializedSize = 0 := by omega
    simp only [if_neg hs] at h
    refine ⟨[], .inl ⟨h0, rfl⟩, ?_⟩
    cases hst : l.statement with
    | instr i =>
      rw [hst] at h
      simp only [Prod.mk.injEq] at h
      obtain ⟨rfl, h⟩ := h
      replace h := Res.bind_eq_ok.mp h
      obtain ⟨o1, h1, h⟩ := h
      injection h1 with h1; subst h1
      exact ⟨.nil _, by rw [noteTarget_owned h]; exact .nil hc⟩
    | dir d =>
      rw [hst] at h
      simp only [Prod.mk.injEq] at h
      obtain ⟨rfl, h⟩ := h
      replace h := Res.bind_eq_ok.mp h
      obtain ⟨o1, h1, h⟩ := h
      exact ⟨.nil _, by rw [noteTarget_owned h, assembleNote_owned h1]; exact .nil hc⟩

theorem allFilled_append (v w : Writes) : allFilled (v ++ w) = allFilled v ++ allFilled w := by
  simp [allFilled]

theorem assembleLines_ok {σ : Type} {m : Module} {externs : Ctx} {sink : Sink σ} {ls : List Line}
    {s s' : σ} {o o' : Module.Out} (hc : Canonical o.owned.ranges)
    (h : m.assembleLines externs sink ls s o = (s', .ok o')) :
    ∃ ws, List.Forall₂ (fun l w => LineWrites (m.lookup l.scopes externs) l w) ls ws ∧ Feeds sink s ws.flatten s' ∧
      Claims o.owned o'.owned (allFilled ws.flatten) := by
  induction ls generalizing s o with
  | nil =>
    simp only [Module.assembleLines, Prod.mk.injEq, Res.ok.injEq] at h
    obtain ⟨rfl, rfl⟩ := h
    exact ⟨[], .nil, .nil _, .nil hc⟩
  | cons l ls ih =>
    simp only [Module.assembleLines] at h
    rcases h1 : m.assembleLine externs sink l s o with ⟨s1, r1⟩
    rw [h1] at h
    cases r1 with
    | err e => cases h
    | ub u => cases h
    | ok o1 =>
      obtain ⟨w, hw, hf, hg⟩ := assembleLine_ok hc h1
      obtain ⟨ws, hws, hfs, hgs⟩ := ih hg.canonical h
      refine ⟨w :: ws, .cons hw hws, hf.trans hfs, ?_⟩
      rw [List.flatten_cons, allFilled_append]
      exact hg.trans hgs

theorem assemble_parts {σ : Type} {m m' : Module} {externs : Ctx} {sink : Sink σ} {s s' : σ}
    (h : m.assemble externs sink s = (s', .ok m')) :
    ∃ o names, m.assembleLines externs sink m.lines s ⟨m.owned, m.targets, m.conventions⟩ =
        (s', .ok o) ∧ m.nameAddresses m.addrNames m.globals = .ok names ∧
      m' = { m with owned := o.owned, targets := o.targets, conventions := o.conventions,
                    addrNames := names } := by
  unfold Module.assemble at h
  rcases h1 : m.assembleLines externs sink m.lines s ⟨m.owned, m.targets, m.conventions⟩ with
    ⟨s1, r1⟩
  rw [h1] at h
  simp only [Prod.mk.injEq] at h
  obtain ⟨rfl, h⟩ := h
  replace h := Res.bind_eq_ok.mp h
  obtain ⟨o, rfl, h⟩ := h
  replace h := Res.bind_eq_ok.mp h
  obtain ⟨names, hn, h⟩ := h
  injection h with h
  exact ⟨o, names, rfl, hn, h.symm⟩

end Nsasm
