import Verif.Lemmas.Confluent
import Verif.Model.Print

/-! # Listings that say the same are printed the same -/

namespace Nsasm.Confluent
open Nsasm Spec Props Disassembler

/-- Two maps with the same keys and related entries. -/
abbrev Par {α β : Type} (P : Nat → α → β → Prop) (m : OMap α) (n : OMap β) : Prop :=
  List.Forall₂ (fun x y => x.1 = y.1 ∧ P x.1 x.2 y.2) m n

theorem par_of_find {α β : Type} {P : Nat → α → β → Prop} : ∀ {m : OMap α} {n : OMap β}, OMap.Sorted m → OMap.Sorted n →
    (∀ a v, m.find a = some v → ∃ w, n.find a = some w ∧ P a v w) →
    (∀ a w, n.find a = some w → ∃ v, m.find a = some v) → Par P m n := by
  intro m
  induction m with
  | nil =>
    intro n _ _ _ h'
    cases n with
    | nil => exact .nil
    | cons y n =>
      obtain ⟨v, hv⟩ := h' y.1 y.2 (by rw [OMap.find, if_pos rfl])
      cases hv
  | cons x m ih =>
    intro n hs hs' h h'
    obtain ⟨a, v⟩ := x
    cases n with
    | nil =>
      obtain ⟨w, hw, -⟩ := h a v (by rw [OMap.find, if_pos rfl])
      cases hw
    | cons y n =>
      obtain ⟨b, w⟩ := y
      obtain ⟨s1, s2⟩ := List.pairwise_cons.1 hs
      obtain ⟨s1', s2'⟩ := List.pairwise_cons.1 hs'
      obtain ⟨w1, g1, g2⟩ := h a v (by rw [OMap.find, if_pos rfl])
      obtain ⟨v1, g3⟩ := h' b w (by rw [OMap.find, if_pos rfl])
      have hab : a = b := by
        have m1 := OMap.mem_of_find g1
        have m2 := OMap.mem_of_find g3
        rw [List.mem_cons] at m1 m2
        rcases m1 with m1 | m1
        · cases m1; rfl
        · rcases m2 with m2 | m2
          · cases m2; rfl
          · have := s1 _ m2
            have := s1' _ m1
            simp only at *
            omega
      subst hab
      rw [OMap.find, if_pos rfl] at g1
      cases g1
      refine .cons ⟨rfl, g2⟩ (ih s2 s2' (fun c u hc => ?_) (fun c u hc => ?_))
      · have hne : a ≠ c := by
          have := s1 _ (OMap.mem_of_find hc)
          simp only at this
          omega
        obtain ⟨x, hx, hp⟩ := h c u (by rw [OMap.find, if_neg hne]; exact hc)
        rw [OMap.find, if_neg hne] at hx
        exact ⟨x, hx, hp⟩
      · have hne : a ≠ c := by
          have := s1' _ (OMap.mem_of_find hc)
          simp only at this
          omega
        obtain ⟨x, hx⟩ := h' c u (by rw [OMap.find, if_neg hne]; exact hc)
        rw [OMap.find, if_neg hne] at hx
        exact ⟨x, hx⟩

theorem par_find {α β : Type} {P : Nat → α → β → Prop} {m : OMap α} {n : OMap β} (h : Par P m n) (a : Nat) :
    (m.find a = none ∧ n.find a = none) ∨ ∃ v w, m.find a = some v ∧ n.find a = some w ∧ P a v w := by
  induction h with
  | nil => exact .inl ⟨rfl, rfl⟩
  | cons hxy hrest ih =>
    rename_i x y m n
    obtain ⟨b, v⟩ := x
    obtain ⟨c, w⟩ := y
    obtain ⟨rfl, hp⟩ := hxy
    simp only at hp
    by_cases hba : b = a
    · subst hba
      exact .inr ⟨v, w, by rw [OMap.find, if_pos rfl], by rw [OMap.find, if_pos rfl], hp⟩
    · rw [OMap.find, if_neg hba, OMap.find, if_neg hba]
      exact ih

theorem par_imp {α β : Type} {P Q : Nat → α → β → Prop} {m : OMap α} {n : OMap β}
    (h : Par P m n) (hpq : ∀ a v w, (a, v) ∈ m → (a, w) ∈ n → P a v w → Q a v w) : Par Q m n := by
  induction h with
  | nil => exact .nil
  | cons hxy hrest ih =>
    rename_i x y m n
    refine .cons ⟨hxy.1, hpq x.1 x.2 y.2 (by simp) ?_ hxy.2⟩
      (ih fun a v w hv hw => hpq a v w (List.mem_cons_of_mem _ hv) (List.mem_cons_of_mem _ hw))
    rw [hxy.1]; simp

/-! ## Labels -/

/-- Before the names are changed. -/
structure Twin (K : Prop) (it jt : DisItem) : Prop where
  code : SameCode it.instruction jt.instruction
  ret : it.instruction.ret = jt.instruction.ret
  suffix : K → it.instruction.suffix = jt.instruction.suffix
  before : it.current.flags = jt.current.flags
  after : it.next.flags = jt.next.flags
  named : it.label = [] ↔ jt.label = []
  entry : it.isEntry = jt.isEntry

theorem renameLabels_par {K : Prop} {e e' : OMap Unit} (he : ∀ a, (e.find a).isSome = (e'.find a).isSome) :
    ∀ {m n : OMap DisItem}, Par (fun _ => Twin K) m n → ∀ nl ne r r',
    Par (fun _ it jt => Twin K it jt ∧ it.label = jt.label) (renameLabels e nl ne r m).1 (renameLabels e' nl ne r' n).1 := by
  intro m n h
  induction h with
  | nil => intro nl ne r r'; exact .nil
  | cons hxy hrest ih =>
    rename_i x y m n
    obtain ⟨a, it⟩ := x
    obtain ⟨b, jt⟩ := y
    obtain ⟨rfl, ht⟩ := hxy
    simp only at ht
    intro nl ne r r'
    unfold renameLabels
    by_cases hl : it.label = []
    · rw [if_pos hl, if_pos (ht.named.1 hl)]
      exact .cons ⟨rfl, ht, by rw [hl, ht.named.1 hl]⟩ (ih nl ne r r')
    · rw [if_neg hl, if_neg (fun h => hl (ht.named.2 h)), ← he a]
      split
      · exact .cons ⟨rfl, ⟨ht.code, ht.ret, ht.suffix, ht.before, ht.after, Iff.rfl, rfl⟩, rfl⟩ (ih nl (ne + 1) _ _)
      · exact .cons ⟨rfl, ⟨ht.code, ht.ret, ht.suffix, ht.before, ht.after, Iff.rfl, rfl⟩, rfl⟩ (ih (nl + 1) ne _ _)

/-! ## After the names are changed -/

/-- The same but for the suffix and for what is not shown of the states. -/
structure Same (K : Prop) (it jt : DisItem) : Prop where
  label : it.label = jt.label
  entry : it.isEntry = jt.isEntry
  code : ({ it.instruction with suffix := .none } : Instruction) = { jt.instruction with suffix := .none }
  suffix : K → it.instruction.suffix = jt.instruction.suffix
  before : it.current.flags = jt.current.flags
  after : it.next.flags = jt.next.flags

theorem Same.parts {K : Prop} {it jt : DisItem} (h : Same K it jt) :
    it.instruction.mnemonic = jt.instruction.mnemonic ∧ it.instruction.mode = jt.instruction.mode ∧
    it.instruction.arg1 = jt.instruction.arg1 ∧ it.instruction.arg2 = jt.instruction.arg2 ∧
    it.instruction.ret = jt.instruction.ret := by
  have := h.code
  rw [Instruction.mk.injEq] at this
  exact ⟨this.1, this.2.2.1, this.2.2.2.1, this.2.2.2.2.1, this.2.2.2.2.2⟩

theorem same_mk {K : Prop} {it jt : DisItem} (h1 : it.label = jt.label) (h2 : it.isEntry = jt.isEntry)
    (h3 : it.instruction.mnemonic = jt.instruction.mnemonic) (h4 : it.instruction.mode = jt.instruction.mode)
    (h5 : it.instruction.arg1 = jt.instruction.arg1) (h6 : it.instruction.arg2 = jt.instruction.arg2)
    (h7 : it.instruction.ret = jt.instruction.ret) (h8 : K → it.instruction.suffix = jt.instruction.suffix)
    (h9 : it.current.flags = jt.current.flags) (h10 : it.next.flags = jt.next.flags) : Same K it jt :=
  ⟨h1, h2, by simp only [h3, h4, h5, h6, h7], h8, h9, h10⟩

theorem nameForAddress_par {K : Prop} {d d' : Disassembler}
    (he : ∀ a, (d.entryPoints.find a).isSome = (d'.entryPoints.find a).isSome)
    (h : Par (fun _ => Same K) d.disassembly d'.disassembly) (t : Nat) : nameForAddress d t = nameForAddress d' t := by
  unfold nameForAddress
  rw [he t]
  rcases par_find h t with ⟨h1, h2⟩ | ⟨v, w, h1, h2, h3⟩
  · rw [h1, h2]
  · rw [h1, h2]; simp only [h3.label]

theorem nameFar_par {K : Prop} {d d' : Disassembler} (hn : ∀ t, nameForAddress d t = nameForAddress d' t) (a : Nat)
    {it jt kt : DisItem} (h : Same K it jt) (hk : nameFar d a it = .ok kt) :
    ∃ lt, nameFar d' a jt = .ok lt ∧ Same K kt lt := by
  obtain ⟨p1, p2, p3, p4, p5⟩ := h.parts
  have hf : jt.instruction.farBranchTarget a = it.instruction.farBranchTarget a := by
    unfold Instruction.farBranchTarget
    rw [p1, p2, p3]
  unfold nameFar at hk ⊢
  rw [hf, ← p2]
  obtain ⟨t, ht, hk⟩ := Res.bind_eq_ok.1 hk
  rw [ht, Res.bind_ok]
  cases t with
  | none => cases hk; exact ⟨jt, rfl, h⟩
  | some t =>
    simp only at hk ⊢
    rw [← hn t]
    cases hx : nameForAddress d t with
    | none => rw [hx] at hk; cases hk; exact ⟨jt, rfl, h⟩
    | some n =>
      rw [hx] at hk
      simp only at hk ⊢
      split at hk
      · rename_i hm
        rw [if_pos hm]
        cases hk
        exact ⟨_, rfl, same_mk h.label h.entry p1 p2 rfl p4 p5 h.suffix h.before h.after⟩
      · rename_i hm
        rw [if_neg hm]
        split at hk
        · rename_i hm
          rw [if_pos hm]
          cases hk
          exact ⟨_, rfl, same_mk h.label h.entry p1 p2 rfl p4 p5 h.suffix h.before h.after⟩
        · rename_i hm
          rw [if_neg hm]
          cases hk
          exact ⟨_, rfl, h⟩

theorem nameFars_par {K : Prop} {d d' : Disassembler} (hn : ∀ t, nameForAddress d t = nameForAddress d' t) :
    ∀ {m n : OMap DisItem}, Par (fun _ => Same K) m n → ∀ m', nameFars d m = .ok m' →
      ∃ n', nameFars d' n = .ok n' ∧ Par (fun _ => Same K) m' n' := by
  intro m n h
  induction h with
  | nil => intro m' h; cases h; exact ⟨[], rfl, .nil⟩
  | cons hxy hrest ih =>
    rename_i x y m n
    obtain ⟨a, it⟩ := x
    obtain ⟨b, jt⟩ := y
    obtain ⟨rfl, ht⟩ := hxy
    simp only at ht
    intro m' h
    unfold nameFars at h
    obtain ⟨kt, h1, h⟩ := Res.bind_eq_ok.1 h
    obtain ⟨m1, h2, h⟩ := Res.bind_eq_ok.1 h
    cases h
    obtain ⟨lt, g1, g2⟩ := nameFar_par hn a ht h1
    obtain ⟨n1, g3, g4⟩ := ih m1 h2
    refine ⟨(a, lt) :: n1, ?_, .cons ⟨rfl, g2⟩ g4⟩
    unfold nameFars
    simp only [g1, g3, Res.bind_ok]

theorem fold_par {K : Prop} : ∀ (k : Nat) {m n : OMap DisItem}, m.length = k → Par (fun _ => Same K) m n →
    Par (fun _ => Same K) (fold m) (fold n) := by
  intro k
  induction k using Nat.strongRecOn with
  | _ k ih =>
    intro m n hk h
    cases h with
    | nil => simp [fold]
    | cons h1 h =>
    cases h with
    | nil => simp only [fold]; exact .cons h1 .nil
    | cons h2 h3 =>
      rename_i x y x2 y2 m n
      obtain ⟨a, i1⟩ := x
      obtain ⟨a', j1⟩ := y
      obtain ⟨b, i2⟩ := x2
      obtain ⟨b', j2⟩ := y2
      obtain ⟨rfl, h1⟩ := h1
      obtain ⟨rfl, h2⟩ := h2
      simp only at h1 h2
      have hp : foldPair j1 j2 = foldPair i1 i2 := by
        unfold foldPair
        rw [h1.parts.1, h2.parts.1, h2.label]
      rw [fold, fold, hp]
      cases hf : foldPair i1 i2 with
      | some mn =>
        simp only
        refine ih (m.length + 1) (by simp at hk; omega) (by simp) (.cons ⟨rfl, ?_⟩ h3)
        obtain ⟨p1, p2, p3, p4, p5⟩ := h2.parts
        exact same_mk h1.label h1.entry rfl p2 p3 p4 p5 h2.suffix h1.before h2.after
      | none =>
        simp only
        exact .cons ⟨rfl, h1⟩ (ih (m.length + 1) (by simp at hk; omega) (by simp) (.cons ⟨rfl, h2⟩ h3))

/-! ## Cleanup -/

/-- Operands that are not labels stay. -/
theorem plain_operand {src : Source} {a : Nat} {it : DisItem} (h : ItemOk src a it)
    (hb : it.instruction.isLocalBranch = false) (r : List (Str × Str)) :
    rewriteOperand r it.instruction.arg1 = it.instruction.arg1 := by
  obtain ⟨bytes, i0, -, hd, hs⟩ := h.bytes
  have : ¬ MayBranch i0 := by
    rw [← mayBranch_iff]
    unfold Instruction.isLocalBranch at hb ⊢
    rw [← hs.mnemonic, ← hs.mode, hb]
    simp
  rw [hs.plain this]
  rcases decode_args_shape hd with ⟨v, t, h⟩ | h <;> rw [h] <;> rfl

theorem sizeBit_suffix {it jt : DisItem} (hm : it.instruction.mnemonic = jt.instruction.mnemonic)
    (hf : it.current.flags = jt.current.flags) (h : NeatInstr it.instruction ∧ SuffixSays it)
    (h' : NeatInstr jt.instruction ∧ SuffixSays jt)
    (hk : (AsWideAsA it.instruction.mnemonic → it.current.flags.m = .on ∨ it.current.flags.m = .off) ∧
      (AsWideAsX it.instruction.mnemonic → it.current.flags.x = .on ∨ it.current.flags.x = .off)) :
    it.instruction.suffix = jt.instruction.suffix := by
  have hM : ∀ m, flagControllingInstructionSize m = .usesM → AsWideAsA m := by unfold AsWideAsA; decide +kernel
  have hX : ∀ m, flagControllingInstructionSize m = .usesX → AsWideAsX m := by unfold AsWideAsX; decide +kernel
  obtain ⟨n1, n2, n3⟩ := h
  obtain ⟨m1, m2, m3⟩ := h'
  rw [← hm, ← hf] at m2 m3
  cases hc : flagControllingInstructionSize it.instruction.mnemonic with
  | notVariable =>
    have e1 : it.instruction.suffix = .none := by
      by_contra hne
      exact n1.suffix hne hc
    have e2 : jt.instruction.suffix = .none := by
      by_contra hne
      exact m1.suffix hne (hm ▸ hc)
    rw [e1, e2]
  | usesM =>
    have hs : sizeBit it.instruction.mnemonic it.current.flags = it.current.flags.m := by unfold sizeBit; rw [hc]
    rw [hs] at n2 n3 m2 m3
    rcases hk.1 (hM _ hc) with h | h
    · rw [n2 h, m2 h]
    · rw [n3 h, m3 h]
  | usesX =>
    have hs : sizeBit it.instruction.mnemonic it.current.flags = it.current.flags.x := by unfold sizeBit; rw [hc]
    rw [hs] at n2 n3 m2 m3
    rcases hk.2 (hX _ hc) with h | h
    · rw [n2 h, m2 h]
    · rw [n3 h, m3 h]

theorem cleanup_same {src : Source} {conv : OMap ReturnConvention} (hs : OMap.Sorted conv)
    (ht : TableOk FlagsWritten conv) {asked asked' : List (Addr × StatusFlags)} {d d' c : Disassembler}
    (h : Disassembled src conv asked d) (h' : Disassembled src conv asked' d') (hsame : ∀ p, p ∈ asked ↔ p ∈ asked')
    (hc : d.cleanup = .ok c) :
    ∃ c', d'.cleanup = .ok c' ∧ Par (fun _ => Same (SizesKnownIn d.disassembly)) c.disassembly c'.disassembly := by
  have hse := (disassembled_session hs ht h).1
  have hse' := (disassembled_session hs ht h').1
  have hB := (disassembled_bound hs ht h).closed
  have hB' := (disassembled_bound hs ht h').closed
  obtain ⟨he, hi⟩ := disassembled_same hs ht h h' hsame
  obtain ⟨-, hi'⟩ := disassembled_same hs ht h' h fun p => (hsame p).symm
  have hu := session_unmarked hse
  have hu' := session_unmarked hse'
  have hn := session_neat hse
  have hn' := session_neat hse'
  have h0 : Par (fun _ => Twin (SizesKnownIn d.disassembly)) d.disassembly d'.disassembly := by
    refine par_of_find hB.proper.sorted hB'.proper.sorted (fun a it ha => ?_) (fun a jt ha => ?_)
    · obtain ⟨jt, h1, h2, h3⟩ := hi a it ha
      exact ⟨jt, h1, h2, h3.convention, fun hk => sizeBit_suffix h3.mnemonic h3.before (hn a it ha) (hn' a jt h1)
        (hk a it ha), h3.before, h3.after, h3.named, by rw [hu a it ha, hu' a jt h1]⟩
    · obtain ⟨it, h1, -⟩ := hi' a jt ha
      exact ⟨it, h1⟩
  unfold cleanup at hc ⊢
  have hr := renameLabels_par he h0 0 0 [] []
  generalize hx : renameLabels d.entryPoints 0 0 [] d.disassembly = p at hc hr
  generalize hx' : renameLabels d'.entryPoints 0 0 [] d'.disassembly = p' at hr ⊢
  obtain ⟨named, r⟩ := p
  obtain ⟨named', r'⟩ := p'
  simp only at hc hr ⊢
  obtain ⟨s1, s2, s3, -⟩ := renameLabels_spec d.entryPoints d.disassembly 0 0 [] hB.proper.sorted hB.proper.distinct named r hx
  obtain ⟨s1', s2', s3', -⟩ := renameLabels_spec d'.entryPoints d'.disassembly 0 0 [] hB'.proper.sorted hB'.proper.distinct
    named' r' hx'
  obtain ⟨k1, k2⟩ := OMap.sorted_keys s1
  obtain ⟨k1', k2'⟩ := OMap.sorted_keys s1'
  have hsn := k1 hB.proper.sorted
  have hsn' := k1' hB'.proper.sorted
  -- the rewritten operands are the same
  have hops : Par (fun _ => Same (SizesKnownIn d.disassembly))
      (named.map fun n => (n.1, { n.2 with
        instruction := { n.2.instruction with arg1 := rewriteOperand r n.2.instruction.arg1 } }))
      (named'.map fun n => (n.1, { n.2 with
        instruction := { n.2.instruction with arg1 := rewriteOperand r' n.2.instruction.arg1 } })) := by
    unfold Par
    rw [List.forall₂_map_left_iff, List.forall₂_map_right_iff]
    refine par_imp (Q := fun _ it jt => Same (SizesKnownIn d.disassembly)
      { it with instruction := { it.instruction with arg1 := rewriteOperand r it.instruction.arg1 } }
      { jt with instruction := { jt.instruction with arg1 := rewriteOperand r' jt.instruction.arg1 } }) hr ?_
    rintro a it jt hit hjt ⟨tw, hl⟩
    obtain ⟨it0, f1, f2, -⟩ := s2 a it (OMap.find_of_mem hsn hit)
    obtain ⟨jt0, f1', f2', -⟩ := s2' a jt (OMap.find_of_mem hsn' hjt)
    refine same_mk hl tw.entry tw.code.mnemonic.symm tw.code.mode.symm ?_ tw.code.arg2.symm tw.ret tw.suffix tw.before
      tw.after
    simp only
    cases hb : it.instruction.isLocalBranch with
    | false =>
      have e1 := plain_operand (hB.items a it0 f1) (by rw [← f2.instruction]; exact hb) r
      have e2 := plain_operand (hB'.items a jt0 f1')
        (by rw [← f2'.instruction]; exact tw.code.isBranch.trans hb) r'
      rw [f2.instruction, e1, f2'.instruction, e2, ← f2.instruction, ← f2'.instruction, tw.code.plain hb]
    | true =>
      obtain ⟨name, e, v, kt, p1, p2, p3, p4, p5, p6⟩ := hB.proper.branches a it0 f1 (by rw [← f2.instruction]; exact hb)
      obtain ⟨name', e', v', kt', p1', p2', p3', p4', p5', p6'⟩ := hB'.proper.branches a jt0 f1'
        (by rw [← f2'.instruction]; exact tw.code.isBranch.trans hb)
      obtain ⟨e0, n1, n2, q1, q2⟩ := tw.code.branch hb
      rw [f2.instruction, p1] at q1
      rw [f2'.instruction, p1'] at q2
      cases q1
      cases q2
      rw [p3] at p3'
      cases p3'
      have hnx : nextAddr a jt0.instruction = nextAddr a it0.instruction := by
        unfold nextAddr
        rw [← f2'.instruction, ← f2.instruction, tw.code.mode]
      rw [hnx] at p4'
      -- the names of the target
      obtain ⟨lt, l1⟩ := Option.isSome_iff_exists.1 (by rw [k2, p4]; rfl :
        (OMap.find named (Address.addWrapped (nextAddr a it0.instruction) v)).isSome)
      obtain ⟨kt1, l2, l3, -⟩ := s2 _ lt l1
      rw [p4] at l2
      cases l2
      obtain ⟨lt', l1'⟩ := Option.isSome_iff_exists.1 (by rw [k2', p4']; rfl :
        (OMap.find named' (Address.addWrapped (nextAddr a it0.instruction) v)).isSome)
      obtain ⟨kt1', l2', l3', -⟩ := s2' _ lt' l1'
      rw [p4'] at l2'
      cases l2'
      have hlab : lt.label = lt'.label := by
        rcases par_find hr (Address.addWrapped (nextAddr a it0.instruction) v) with ⟨g, -⟩ | ⟨x, y, g1, g2, g3⟩
        · rw [l1] at g; cases g
        · rw [l1] at g1
          rw [l1'] at g2
          cases g1
          cases g2
          exact g3.2
      have hr1 := l3.named (by rw [p5]; exact p6)
      have hr2 := l3'.named (by rw [p5']; exact p6')
      rw [p5] at hr1
      rw [p5'] at hr2
      rw [f2.instruction, f2'.instruction, p1, p1']
      simp only [rewriteOperand, rewriteOf, hr1, hr2, hlab]
  obtain ⟨fars, g1, g2⟩ := Res.bind_eq_ok.1 hc
  cases g2
  have hnf : ∀ t, nameForAddress { d with disassembly := named.map fun n => (n.1, { n.2 with
        instruction := { n.2.instruction with arg1 := rewriteOperand r n.2.instruction.arg1 } }) } t =
      nameForAddress { d' with disassembly := named'.map fun n => (n.1, { n.2 with
        instruction := { n.2.instruction with arg1 := rewriteOperand r' n.2.instruction.arg1 } }) } t :=
    nameForAddress_par he hops
  obtain ⟨fars', g3, g4⟩ := nameFars_par hnf hops fars g1
  refine ⟨{ d' with disassembly := fold fars' }, ?_, fold_par _ rfl g4⟩
  rw [g3]
  rfl

/-! ## Printing -/

theorem toStr_dep {K : Prop} {it jt : DisItem} (h : Same K it jt) (hk : K) : it.instruction = jt.instruction := by
  obtain ⟨p1, p2, p3, p4, p5⟩ := h.parts
  have := h.suffix hk
  cases hi : it.instruction
  cases hj : jt.instruction
  rw [hi, hj] at p1 p2 p3 p4 p5 this
  simp only at p1 p2 p3 p4 p5 this
  rw [p1, p2, p3, p4, p5, this]

theorem body_par : ∀ {m n : OMap DisItem}, Par (fun _ => Same True) m n → ∀ pc, Print.body pc m = Print.body pc n := by
  intro m n h
  induction h with
  | nil => intro pc; rfl
  | cons hxy hrest ih =>
    rename_i x y m n
    obtain ⟨a, it⟩ := x
    obtain ⟨b, jt⟩ := y
    obtain ⟨rfl, ht⟩ := hxy
    simp only at ht
    intro pc
    have hi := toStr_dep ht trivial
    unfold Print.body
    rw [hi, ih]
    congr 1
    unfold Print.itemLines Print.entryLine Print.codeLine Print.lineLabel
    rw [ht.entry, ht.label, ht.before, ht.after, hi]

theorem listing_par {m n : OMap DisItem} (h : Par (fun _ => Same True) m n) : Print.listing m = Print.listing n := by
  have hlen := h.length_eq
  have hb := body_par h
  cases h with
  | nil => rfl
  | cons hxy h =>
    rename_i x y m n
    obtain ⟨a, it⟩ := x
    obtain ⟨b, jt⟩ := y
    obtain ⟨rfl, ht⟩ := hxy
    unfold Print.listing
    simp only [hb a, hlen]

theorem without_par {K : Prop} {m n : OMap DisItem} (h : Par (fun _ => Same K) m n) :
    Par (fun _ => Same True) (withoutSuffixes m) (withoutSuffixes n) := by
  unfold withoutSuffixes Par
  rw [List.forall₂_map_left_iff, List.forall₂_map_right_iff]
  refine par_imp (Q := fun _ (it jt : DisItem) => Same True
    { it with instruction := { it.instruction with suffix := .none } }
    { jt with instruction := { jt.instruction with suffix := .none } }) h ?_
  intro a it jt _ _ hs
  exact ⟨hs.label, hs.entry, hs.code, fun _ => rfl, hs.before, hs.after⟩

end Nsasm.Confluent
