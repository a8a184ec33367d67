import Verif.Lemmas.Assembles
import Verif.Lemmas.Reached

/-! # The states recorded in a listing fit together after Cleanup -/

namespace Nsasm
open Spec Props Disassembler Parse

/-! ## Instructions that execute alike -/

def Immediate (m : Mode) : Prop := m ∈ [Mode.imm_b, .imm_fx, .imm_fm, .imm_w]

instance (m : Mode) : Decidable (Immediate m) := inferInstanceAs (Decidable (_ ∈ _))

/-- The mnemonics whose execution looks at the operand. -/
def readers : List Mnemonic := [.rep, .sep, .lda, .ldx, .ldy, .mvn, .mvp, .pea]

theorem execute_like {i j : Instruction} {s t : ExecutionState} (hm : j.mnemonic = i.mnemonic) (hr : j.ret = i.ret)
    (harg : (j.arg1 = i.arg1 ∧ j.arg2 = i.arg2) ∨ i.mnemonic ∉ readers)
    (hmode : j.mode = i.mode ∨ (Immediate j.mode ∧ Immediate i.mode))
    (hc : j.checkConsistency s.flags = .ok ()) (h : i.execute s nullCtx = .ok t) : j.execute s nullCtx = .ok t := by
  have hci := checkConsistency_of_execute' h
  unfold Instruction.execute at h ⊢
  rw [hci, Res.bind_ok] at h
  rw [hc, Res.bind_ok]
  rw [← h]
  have hid : j.executeIncDec s = i.executeIncDec s := by
    unfold Instruction.executeIncDec
    rw [hm]
    rcases hmode with e | ⟨e1, e2⟩
    · rw [e]
    · have : ∀ m, Immediate m → m ≠ .acc ∧ m ≠ .imp := by intro m; cases m <;> decide
      rw [if_pos (this _ e1), if_pos (this _ e2)]
  simp only [hm, hr, hid]
  rcases harg with ⟨h1, h2⟩ | hn
  · have hld : j.executeLoad s nullCtx = i.executeLoad s nullCtx := by
      unfold Instruction.executeLoad
      rw [hm, h1]
      rcases hmode with e | ⟨e1, e2⟩
      · rw [e]
      · unfold Immediate at e1 e2
        rw [if_pos e1, if_pos e2]
    have hmv : j.executeMove s nullCtx = i.executeMove s nullCtx := by
      unfold Instruction.executeMove
      rw [hm, h1, h2]
    rw [h1, hld, hmv]
  · simp only [readers, List.mem_cons, List.not_mem_nil, or_false, not_or] at hn
    obtain ⟨n1, n2, n3, n4, n5, n6, n7, n8⟩ := hn
    simp only [n1, n2, n3, n4, n5, n6, n7, n8, or_self, if_false, List.mem_cons, List.not_mem_nil]

theorem sized_legal : ∀ m : Mnemonic,
    (SizedByM m → isLegalCombination (if m = .padd ∨ m = .psub then Mnemonic.adc else m) .imm_fm = true) ∧
    (SizedByX m → isLegalCombination (if m = .padd ∨ m = .psub then Mnemonic.adc else m) .imm_fx = true) := by
  intro m; cases m <;> decide +kernel

/-- An operand read back with an open size is one whose size depends on the flag. -/
theorem readBack_sized {i i0 : Instruction} (h : ReadBack i i0) :
    (i0.mode = .imm_fm → SizedByM i.mnemonic) ∧ (i0.mode = .imm_fx → SizedByX i.mnemonic) := by
  obtain ⟨e, hf⟩ := h
  have key : ∀ g, SizeAgrees i.mnemonic i.mode g → i0.fixAddressingMode g = .ok (asWritten i) := hf
  have hbw : i0.mode = .imm_fm ∨ i0.mode = .imm_fx → i.mode = .imm_b ∨ i.mode = .imm_w := by
    intro hm
    rcases (readBack_same ⟨e, hf⟩).2.2.2.2 with ⟨-, h⟩ | h
    · exact h
    · exfalso
      have := key _ (agreeing_agrees i.mnemonic i.mode)
      rw [h] at this hm
      unfold Instruction.fixAddressingMode at this
      rw [if_pos hm] at this
      split at this
      · have := congrArg Instruction.mode (Res.ok.inj this)
        simp only at this
        rcases hm with hm | hm <;> rw [hm] at this <;> cases this
      · have := congrArg Instruction.mode (Res.ok.inj this)
        simp only at this
        rcases hm with hm | hm <;> rw [hm] at this <;> cases this
      · cases this
  constructor
  · intro hm
    by_contra hn
    have hx := agreeing_agrees i.mnemonic i.mode
    rcases hbw (.inl hm) with hb | hb
    · have := key { agreeing i.mode with m := .off } ⟨fun h => absurd h hn, hx.2⟩
      unfold Instruction.fixAddressingMode at this
      rw [if_pos (.inl hm), if_pos hm] at this
      have := congrArg Instruction.mode (Res.ok.inj this)
      simp only [asWritten, hb] at this
      cases this
    · have := key { agreeing i.mode with m := .on } ⟨fun h => absurd h hn, hx.2⟩
      unfold Instruction.fixAddressingMode at this
      rw [if_pos (.inl hm), if_pos hm] at this
      have := congrArg Instruction.mode (Res.ok.inj this)
      simp only [asWritten, hb] at this
      cases this
  · intro hm
    by_contra hn
    have hx := agreeing_agrees i.mnemonic i.mode
    have hne : ¬ i0.mode = .imm_fm := by rw [hm]; decide
    rcases hbw (.inr hm) with hb | hb
    · have := key { agreeing i.mode with x := .off } ⟨hx.1, fun h => absurd h hn⟩
      unfold Instruction.fixAddressingMode at this
      rw [if_pos (.inr hm), if_neg hne] at this
      have := congrArg Instruction.mode (Res.ok.inj this)
      simp only [asWritten, hb] at this
      cases this
    · have := key { agreeing i.mode with x := .on } ⟨hx.1, fun h => absurd h hn⟩
      unfold Instruction.fixAddressingMode at this
      rw [if_pos (.inr hm), if_neg hne] at this
      have := congrArg Instruction.mode (Res.ok.inj this)
      simp only [asWritten, hb] at this
      cases this

/-- An instruction read back is consistent where the listed one is. -/
theorem readBack_consistent {i i0 : Instruction} (h : ReadBack i i0) {f : StatusFlags} (hc : i.checkConsistency f = .ok ())
    (ha : SizeAgrees i.mnemonic i.mode f) : i0.checkConsistency f = .ok () := by
  obtain ⟨h1, h2, -, -, h5⟩ := readBack_same h
  rcases h5 with ⟨hm, hb⟩ | h5
  · obtain ⟨z1, z2⟩ := readBack_sized h
    unfold Instruction.checkConsistency at hc ⊢
    simp only [h1] at hc ⊢
    generalize heff : (if i.mnemonic = .padd ∨ i.mnemonic = .psub then Mnemonic.adc else i.mnemonic) = eff at hc ⊢
    split at hc
    · cases hc
    · obtain ⟨⟨⟩, hs, -⟩ := Res.bind_eq_ok.1 hc
      have hs' : i0.checkSuffix eff f = .ok () := by
        unfold Instruction.checkSuffix at hs ⊢
        rw [h2]; exact hs
      rcases hm with hm | hm
      · have hl := (sized_legal i.mnemonic).1 (z1 hm)
        rw [heff] at hl
        rw [hm, hl, hs']
        simp only [Bool.not_true, Bool.false_eq_true, if_false, Res.bind_ok]
        unfold Instruction.checkImmediate
        rw [if_pos hm, if_neg]
        rcases hb with hb | hb
        · simp [((ha.1 (z1 hm)).1 hb)]
        · simp [((ha.1 (z1 hm)).2 hb)]
      · have hl := (sized_legal i.mnemonic).2 (z2 hm)
        rw [heff] at hl
        rw [hm, hl, hs']
        simp only [Bool.not_true, Bool.false_eq_true, if_false, Res.bind_ok]
        unfold Instruction.checkImmediate
        rw [if_neg (by rw [hm]; decide), if_pos hm, if_neg]
        rcases hb with hb | hb
        · simp [((ha.2 (z2 hm)).1 hb)]
        · simp [((ha.2 (z2 hm)).2 hb)]
  · rw [h5]; exact hc

/-- An instruction read back does what the listed one does. -/
theorem readBack_executes {i i0 : Instruction} (h : ReadBack i i0) {s t : ExecutionState}
    (ha : SizeAgrees i.mnemonic i.mode s.flags) (harg : writtenOperand i.arg1 = i.arg1 ∨ i.mnemonic ∉ readers)
    (hx : i.execute s nullCtx = .ok t) : i0.execute s nullCtx = .ok t := by
  have hc := readBack_consistent h (checkConsistency_of_execute' hx) ha
  obtain ⟨h1, h2, h3, h4, h5⟩ := readBack_same h
  have h6 : i0.arg2 = i.arg2 := by rw [h.1]; rfl
  refine execute_like h1 h4 ?_ ?_ hc hx
  · rcases harg with e | e
    · exact .inl ⟨h3.trans e, h6⟩
    · exact .inr e
  · rcases h5 with ⟨hm, hb⟩ | h5
    · right
      constructor
      · rcases hm with hm | hm <;> rw [hm] <;> decide
      · rcases hb with hm | hm <;> rw [hm] <;> decide
    · left; rw [h5]; rfl

/-! ## Cleanup, entry by entry -/

theorem renameLabels_entry (entries : OMap Unit) : ∀ (m : OMap DisItem) (nl ne : Nat) (r : List (Str × Str)) m' r',
    renameLabels entries nl ne r m = (m', r') → ∀ a jt, OMap.find m' a = some jt → jt.label ≠ [] →
    jt.isEntry = (entries.find a).isSome := by
  intro m
  induction m with
  | nil => intro nl ne r m' r' h; cases h; simp [OMap.find]
  | cons x m ih =>
    intro nl ne r m' r' h a jt ha hl
    obtain ⟨k, it⟩ := x
    unfold renameLabels at h
    by_cases hb : it.label = []
    · rw [if_pos hb] at h
      generalize hrr : renameLabels entries nl ne r m = p at h
      obtain ⟨m1, r1⟩ := p
      cases h
      rw [OMap.find] at ha
      split at ha
      · cases ha; exact absurd hb hl
      · exact ih _ _ _ _ _ hrr a jt ha hl
    · rw [if_neg hb] at h
      by_cases he : (entries.find k).isSome
      · rw [if_pos he] at h
        simp only at h
        generalize hrr : renameLabels entries nl (ne + 1) ((it.label, cs!"entry" ++ decimal (ne + 1)) :: r) m = p at h
        obtain ⟨m1, r1⟩ := p
        cases h
        rw [OMap.find] at ha
        split at ha
        · rename_i hka; cases ha; rw [← hka, he]
        · exact ih _ _ _ _ _ hrr a jt ha hl
      · rw [if_neg he] at h
        simp only at h
        generalize hrr : renameLabels entries (nl + 1) ne ((it.label, cs!"label" ++ decimal (nl + 1)) :: r) m = p at h
        obtain ⟨m1, r1⟩ := p
        cases h
        rw [OMap.find] at ha
        split at ha
        · rename_i hka; cases ha; rw [← hka]; simpa using he
        · exact ih _ _ _ _ _ hrr a jt ha hl

theorem cleanup_entry {d d' : Disassembler} (hs : OMap.Sorted d.disassembly) (hd : DistinctLabels d.disassembly)
    (h : d.cleanup = .ok d') {a : Nat}
    {jt : DisItem} (ha : d'.disassembly.find a = some jt) (hl : jt.label ≠ []) :
    jt.isEntry = (d.entryPoints.find a).isSome := by
  unfold cleanup at h
  generalize hr : renameLabels d.entryPoints 0 0 [] d.disassembly = p at h
  obtain ⟨named, r⟩ := p
  simp only at h
  obtain ⟨fars, hf, h⟩ := Res.bind_eq_ok.1 h
  cases h
  have hk := (renameLabels_spec d.entryPoints d.disassembly 0 0 [] hs hd named r hr).1
  obtain ⟨f1, f2⟩ := nameFars_spec _ _ hf
  have hkeys : fars.map Prod.fst = d.disassembly.map Prod.fst := by
    rw [f1, ← hk, List.map_map]
    rfl
  obtain ⟨it, h1, h2⟩ := (fold_spec fars ((OMap.sorted_keys hkeys).1 hs)).1 a jt ha
  obtain ⟨e1, e2, -⟩ := folded_rest h2
  obtain ⟨x, hx, hfn⟩ := f2 a it h1
  rw [OMap.find_map (fun it : DisItem =>
    ({ it with instruction := { it.instruction with arg1 := rewriteOperand r it.instruction.arg1 } } : DisItem))] at hx
  obtain ⟨y, hy, rfl⟩ := Option.map_eq_some_iff.1 hx
  rw [e1, hfn.label] at hl
  rw [e2, hfn.isEntry]
  exact renameLabels_entry d.entryPoints d.disassembly 0 0 [] named r hr a y hy hl

/-- A pair that can be folded is folded. -/
theorem fold_pair : ∀ (m : OMap DisItem), OMap.Sorted m → ∀ a b first second mn, OMap.find m a = some first →
    OMap.find m b = some second → a < b → (∀ c x, OMap.find m c = some x → ¬ (a < c ∧ c < b)) →
    foldPair first second = some mn → OMap.find (fold m) b = none := by
  intro m
  induction hn : m.length using Nat.strongRecOn generalizing m with
  | _ n ih =>
    intro hs a b first second mn ha hb hab hbt hp
    match m, hn, hs with
    | [], _, _ => cases ha
    | [x], _, _ =>
      obtain ⟨k, it⟩ := x
      rw [OMap.find] at ha hb
      split at ha
      · split at hb
        · omega
        · cases hb
      · cases ha
    | (k, x) :: (l, y) :: rest, hn, hs =>
      have hs1 := (OMap.sorted_cons hs).1
      have hs2 := (OMap.sorted_cons hs1).1
      have hkl : k < l := by
        unfold OMap.Sorted at hs; rw [List.pairwise_cons] at hs; exact hs.1 (l, y) (by simp)
      have hrest : ∀ y' ∈ rest, l < y'.1 := by
        unfold OMap.Sorted at hs1; rw [List.pairwise_cons] at hs1; exact fun y hy => hs1.1 y hy
      have hlr : ∀ c z, OMap.find rest c = some z → l < c := fun c z hc => hrest _ (OMap.mem_of_find hc)
      have hup : ∀ c z, OMap.find rest c = some z → OMap.find ((k, x) :: (l, y) :: rest) c = some z := by
        intro c z hc
        have := hlr c z hc
        rw [OMap.find, if_neg (by omega), OMap.find, if_neg (by omega)]
        exact hc
      have hup1 : ∀ c z, OMap.find ((l, y) :: rest) c = some z → OMap.find ((k, x) :: (l, y) :: rest) c = some z :=
        fun c z hc => (OMap.find_cons_of_tail hs hc).1
      have hcases : ∀ c z, OMap.find ((k, x) :: (l, y) :: rest) c = some z →
          (c = k ∧ z = x) ∨ (c = l ∧ z = y) ∨ OMap.find rest c = some z := by
        intro c z hc
        rw [OMap.find] at hc
        split at hc
        · rename_i h; cases hc; exact .inl ⟨h.symm, rfl⟩
        · rw [OMap.find] at hc
          split at hc
          · rename_i h; cases hc; exact .inr (.inl ⟨h.symm, rfl⟩)
          · exact .inr (.inr hc)
      have hl : OMap.find ((k, x) :: (l, y) :: rest) l = some y := by
        rw [OMap.find, if_neg (by omega)]; simp [OMap.find]
      have hnone : ∀ c, (∀ z, OMap.find rest c ≠ some z) → OMap.find (fold rest) c = none := by
        intro c hc
        cases hf : OMap.find (fold rest) c with
        | none => rfl
        | some z =>
          obtain ⟨it', h1, -⟩ := (fold_spec rest hs2).1 c z hf
          exact absurd h1 (hc it')
      obtain ⟨-, hmn⟩ := foldPair_spec hp
      have hfirst : first.instruction.mnemonic = .clc ∨ first.instruction.mnemonic = .sec := by
        rcases hmn with ⟨h, -⟩ | ⟨h, -⟩ <;> simp [h]
      cases hq : foldPair x y with
      | some mn' =>
        obtain ⟨-, hmn'⟩ := foldPair_spec hq
        have hf : fold ((k, x) :: (l, y) :: rest) =
            (k, { x with instruction := { y.instruction with mnemonic := mn' }, next := y.next }) :: fold rest := by
          rw [fold, hq]
          refine fold_head _ _ ?_ _
          simp only
          rcases hmn' with ⟨-, -, rfl⟩ | ⟨-, -, rfl⟩ <;> simp
        rw [hf]
        rcases hcases a first ha with ⟨rfl, rfl⟩ | ⟨rfl, rfl⟩ | har
        · have hbl : b = l := by
            rcases hcases b second hb with ⟨rfl, -⟩ | ⟨rfl, -⟩ | hbr
            · omega
            · rfl
            · exact absurd ⟨hkl, hlr b second hbr⟩ (hbt l y hl)
          subst hbl
          rw [OMap.find, if_neg (by omega)]
          refine hnone b fun z hz => ?_
          have := hlr b z hz
          omega
        · exfalso
          rcases hmn' with ⟨-, h, -⟩ | ⟨-, h, -⟩ <;> rw [h] at hfirst <;> simp at hfirst
        · have hla := hlr a first har
          have hbr : OMap.find rest b = some second := by
            rcases hcases b second hb with ⟨rfl, -⟩ | ⟨rfl, -⟩ | hbr
            · omega
            · omega
            · exact hbr
          rw [OMap.find, if_neg (by omega)]
          exact ih rest.length (by simp at hn; omega) rest rfl hs2 a b first second mn har hbr hab
            (fun c z hc => hbt c z (hup c z hc)) hp
      | none =>
        have hf : fold ((k, x) :: (l, y) :: rest) = (k, x) :: fold ((l, y) :: rest) := by
          rw [fold, hq]
        rw [hf]
        by_cases hak : a = k
        · exfalso
          subst hak
          rw [OMap.find, if_pos rfl] at ha
          cases ha
          have hbl : b = l := by
            rcases hcases b second hb with ⟨rfl, -⟩ | ⟨rfl, -⟩ | hbr
            · omega
            · rfl
            · exact absurd ⟨hkl, hlr b second hbr⟩ (hbt l y hl)
          subst hbl
          rw [hl] at hb
          cases hb
          rw [hq] at hp; cases hp
        · rw [OMap.find, if_neg (fun h => hak h.symm)] at ha
          have hla : l ≤ a := by
            rw [OMap.find] at ha
            split at ha
            · omega
            · exact Nat.le_of_lt (hlr a first ha)
          rw [OMap.find, if_neg (by omega)] at hb
          rw [OMap.find, if_neg (by omega)]
          exact ih ((l, y) :: rest).length (by simp at hn ⊢; omega) ((l, y) :: rest) rfl hs1 a b first second mn ha hb hab
            (fun c z hc => hbt c z (hup1 c z hc)) hp

end Nsasm
