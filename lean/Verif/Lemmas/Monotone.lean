import Verif.Lemmas.Closed

/-! # A state with more specific flags keeps more specific flags

The values tracked for A, X, Y and DBR do not affect the flags, so they are left out here
(incrementing a known A in an unknown size is not monotone). -/

namespace Nsasm
open Spec Props Disassembler

/-! ## The parts of a state -/

def BitAbove (b c : BitState) : Prop := b = c ∨ b = .unknown

instance (b c : BitState) : Decidable (BitAbove b c) := inferInstanceAs (Decidable (_ ∨ _))

structure FlagsAbove (f g : StatusFlags) : Prop where
  e : BitAbove f.e g.e
  m : BitAbove f.m g.m
  x : BitAbove f.x g.x
  c : BitAbove f.c g.c

/-- The register an entry of unknown size was pushed from. -/
def varOf : StackValue → Option RegName
  | .var r _ => some r
  | _ => none

theorem isVarSize_varOf (v : StackValue) : v.isVarSize = (varOf v).isSome := by cases v <;> rfl

/-- A stack entry that says no more about the flags than another. -/
structure EntryAbove (v w : StackValue) : Prop where
  var : varOf v = varOf w
  flags : ∀ f, v = .flags f → ∃ g, w = .flags g ∧ FlagsAbove f g

inductive StackAbove : Stack → Stack → Prop
  | abandoned {s : Stack} : StackAbove .abandoned s
  | live {l r : List StackValue} (h : List.Forall₂ EntryAbove l r) : StackAbove (.live l) (.live r)

structure StateAbove (t s : ExecutionState) : Prop where
  flags : FlagsAbove t.flags s.flags
  stack : StackAbove t.stack s.stack

theorem BitAbove.rfl' {b : BitState} : BitAbove b b := .inl rfl
theorem BitAbove.unk {b : BitState} : BitAbove .unknown b := .inr rfl
theorem FlagsAbove.rfl' {f : StatusFlags} : FlagsAbove f f := ⟨.rfl', .rfl', .rfl', .rfl'⟩

theorem BitAbove.trans {a b c : BitState} (h : BitAbove a b) (h' : BitAbove b c) : BitAbove a c := by
  rcases h with rfl | rfl
  · exact h'
  · exact .unk

theorem FlagsAbove.trans {a b c : StatusFlags} (h : FlagsAbove a b) (h' : FlagsAbove b c) : FlagsAbove a c :=
  ⟨h.e.trans h'.e, h.m.trans h'.m, h.x.trans h'.x, h.c.trans h'.c⟩

theorem EntryAbove.trans {a b c : StackValue} (h : EntryAbove a b) (h' : EntryAbove b c) : EntryAbove a c := by
  refine ⟨h.var.trans h'.var, fun f hf => ?_⟩
  obtain ⟨g, hg, h1⟩ := h.flags f hf
  obtain ⟨k, hk, h2⟩ := h'.flags g hg
  exact ⟨k, hk, h1.trans h2⟩

theorem EntryAbove.same {v : StackValue} : EntryAbove v v := ⟨rfl, fun f hf => ⟨f, hf, .rfl'⟩⟩

theorem EntryAbove.plain {v w : StackValue} (h : varOf v = varOf w) (h' : ∀ f, v ≠ .flags f) : EntryAbove v w :=
  ⟨h, fun f hf => absurd hf (h' f)⟩

theorem entries_trans {a b c : List StackValue} (h : List.Forall₂ EntryAbove a b) (h' : List.Forall₂ EntryAbove b c) :
    List.Forall₂ EntryAbove a c := by
  induction h generalizing c with
  | nil => cases h'; exact .nil
  | cons h1 _ ih => cases h' with | cons h2 h3 => exact .cons (h1.trans h2) (ih h3)

theorem StackAbove.trans {a b c : Stack} (h : StackAbove a b) (h' : StackAbove b c) : StackAbove a c := by
  cases h with
  | abandoned => exact .abandoned
  | live h => cases h' with | live h' => exact .live (entries_trans h h')

theorem StateAbove.trans {a b c : ExecutionState} (h : StateAbove a b) (h' : StateAbove b c) : StateAbove a c :=
  ⟨h.flags.trans h'.flags, h.stack.trans h'.stack⟩

theorem bit_above_iff (b c : BitState) : b.merge c = b ↔ BitAbove b c := by
  cases b <;> cases c <;> decide

theorem constrained_above : ∀ e e' m m' : BitState, constrainedForEBit m e = m → constrainedForEBit m' e' = m' →
    e.merge e' = e → constrainedForEBit (m.merge m') e = m → BitAbove m m' := by
  intro e e' m m'
  cases e <;> cases e' <;> cases m <;> cases m' <;> decide

theorem flags_above {f g : StatusFlags} (hf : Normal f) (hg : Normal g) (h : f.merge g = f) : FlagsAbove f g := by
  obtain ⟨e, m, x, c⟩ := f
  obtain ⟨e', m', x', c'⟩ := g
  simp only [Normal] at hf hg
  simp only [StatusFlags.merge, StatusFlags.make, StatusFlags.mk.injEq] at h
  obtain ⟨he, hm, hx, hc⟩ := h
  rw [he] at hm hx
  exact ⟨(bit_above_iff _ _).1 he, constrained_above _ _ _ _ hf.1 hg.1 he hm,
      constrained_above _ _ _ _ hf.2 hg.2 he hx, (bit_above_iff _ _).1 hc⟩

theorem entry_above {v w : StackValue} (hv : NormalEntry v) (hw : NormalEntry w)
    (h1 : v.canMergeWith w = true) (h2 : v.merge w = v) : EntryAbove v w := by
  constructor
  · cases v <;> cases w <;>
      simp [StackValue.canMergeWith, StackValue.sameType, StackValue.isVarSize, varOf] at h1 ⊢
    exact h1
  · rintro f rfl
    cases w <;> simp [StackValue.merge, StackValue.sameType] at h2 ⊢
    exact flags_above hv hw h2

theorem mergeList_above {l r : List StackValue} (hl : ∀ v ∈ l, NormalEntry v) (hr : ∀ v ∈ r, NormalEntry v)
    (h : Stack.mergeList l r = some l) : List.Forall₂ EntryAbove l r := by
  induction l generalizing r with
  | nil => cases r with
    | nil => exact .nil
    | cons => cases h
  | cons v l ih =>
    cases r with
    | nil => cases h
    | cons w r =>
      simp only [Stack.mergeList] at h
      split at h
      · rename_i hc
        cases hm : Stack.mergeList l r with
        | none => rw [hm] at h; cases h
        | some o =>
          rw [hm] at h
          simp only [Option.map_some, Option.some.injEq, List.cons.injEq] at h
          obtain ⟨h1, rfl⟩ := h
          exact .cons (entry_above (hl v (by simp)) (hr w (by simp)) hc h1)
            (ih (fun u hu => hl u (by simp [hu])) (fun u hu => hr u (by simp [hu])) hm)
      · cases h

theorem stack_above {s t : Stack} (hs : NormalStack s) (ht : NormalStack t) (h : s.merge t = s) : StackAbove s t := by
  cases s with
  | abandoned => exact .abandoned
  | live l =>
    cases t with
    | abandoned => simp [Stack.merge] at h
    | live r =>
      refine .live (mergeList_above hs ht ?_)
      simp only [Stack.merge] at h
      split at h
      · rename_i h'; rw [h']; simpa using h
      · cases h

theorem Above.state {t s : ExecutionState} (ht : NormalState t) (hs : NormalState s) (h : Above t s) : StateAbove t s :=
  ⟨flags_above ht.1 hs.1 (congrArg ExecutionState.flags h), stack_above ht.2 hs.2 (congrArg ExecutionState.stack h)⟩

/-! ## States merged -/

theorem constrained_join : ∀ e e' e'' m m' m'' : BitState, constrainedForEBit m e = m → constrainedForEBit m' e' = m' →
    constrainedForEBit m'' e'' = m'' →
    BitAbove e e' → BitAbove e e'' → BitAbove m m' → BitAbove m m'' →
    BitAbove m (constrainedForEBit (m'.merge m'') (e'.merge e'')) := by
  intro e e' e'' m m' m''
  cases e <;> cases e' <;> cases e'' <;> cases m <;> cases m' <;> cases m'' <;> decide

theorem bit_join {b c d : BitState} (h : BitAbove b c) (h' : BitAbove b d) : BitAbove b (c.merge d) := by
  revert h h'; cases b <;> cases c <;> cases d <;> decide

theorem flags_join {f g k : StatusFlags} (hf : Normal f) (hg : Normal g) (hk : Normal k)
    (h : FlagsAbove f g) (h' : FlagsAbove f k) : FlagsAbove f (g.merge k) :=
  ⟨bit_join h.e h'.e, constrained_join _ _ _ _ _ _ hf.1 hg.1 hk.1 h.e h'.e h.m h'.m,
    constrained_join _ _ _ _ _ _ hf.2 hg.2 hk.2 h.e h'.e h.x h'.x, bit_join h.c h'.c⟩

theorem entry_join {u v w : StackValue} (hu : NormalEntry u) (hv : NormalEntry v) (hw : NormalEntry w)
    (h : EntryAbove u v) (h' : EntryAbove u w) : v.canMergeWith w = true ∧ EntryAbove u (v.merge w) := by
  have e := h.var.symm.trans h'.var
  constructor
  · cases v <;> cases w <;> simp_all [varOf, StackValue.canMergeWith, StackValue.sameType, StackValue.isVarSize]
  · constructor
    · rw [h.var]
      clear h h'
      unfold StackValue.merge
      by_cases hs : v.sameType w = true
      · simp only [hs, Bool.not_true, Bool.false_eq_true, if_false]
        cases v <;> cases w <;> first | rfl | (simp only; split <;> rfl) | (simp [StackValue.sameType] at hs)
      · simp only [hs]
        cases v <;> cases w <;> first | rfl | (simp [varOf] at e; subst e; simp [StackValue.sameType] at hs) | (cases e)
    · rintro f rfl
      obtain ⟨g, rfl, h1⟩ := h.flags f rfl
      obtain ⟨k, rfl, h2⟩ := h'.flags f rfl
      exact ⟨g.merge k, by simp [StackValue.merge, StackValue.sameType], flags_join hu hv hw h1 h2⟩

theorem entries_join {a b c : List StackValue} (ha : ∀ v ∈ a, NormalEntry v) (hb : ∀ v ∈ b, NormalEntry v)
    (hc : ∀ v ∈ c, NormalEntry v) (h : List.Forall₂ EntryAbove a b) (h' : List.Forall₂ EntryAbove a c) :
    ∃ d, Stack.mergeList b c = some d ∧ List.Forall₂ EntryAbove a d := by
  induction h generalizing c with
  | nil => cases h'; exact ⟨[], rfl, .nil⟩
  | cons h1 _ ih =>
    cases h' with
    | cons h2 h3 =>
      obtain ⟨d, e, h4⟩ := ih (fun v hv => ha v (by simp [hv])) (fun v hv => hb v (by simp [hv]))
        (fun v hv => hc v (by simp [hv])) h3
      obtain ⟨h5, h6⟩ := entry_join (ha _ (by simp)) (hb _ (by simp)) (hc _ (by simp)) h1 h2
      exact ⟨_, by simp only [Stack.mergeList, h5, if_true, e, Option.map_some], .cons h6 h4⟩

theorem stack_join {a b c : Stack} (ha : NormalStack a) (hb : NormalStack b) (hc : NormalStack c)
    (h : StackAbove a b) (h' : StackAbove a c) : StackAbove a (b.merge c) := by
  cases h with
  | abandoned => exact .abandoned
  | live h =>
    cases h' with
    | live h' =>
      obtain ⟨d, e, h1⟩ := entries_join ha hb hc h h'
      simp only [Stack.merge, e]
      exact .live h1

/-- A state over two states is over what they merge to. -/
theorem state_join {a b c : ExecutionState} (ha : NormalState a) (hb : NormalState b) (hc : NormalState c)
    (h : StateAbove a b) (h' : StateAbove a c) : StateAbove a (b.merge c) :=
  ⟨flags_join ha.1 hb.1 hc.1 h.flags h'.flags, stack_join ha.2 hb.2 hc.2 h.stack h'.stack⟩

/-! ## The parts of execution -/

theorem constrained_mono : ∀ m m' e e' : BitState, BitAbove m m' → BitAbove e e' →
    BitAbove (constrainedForEBit m e) (constrainedForEBit m' e') := by
  intro m m' e e'
  cases m <;> cases m' <;> cases e <;> cases e' <;> decide

theorem setC_mono {f g : StatusFlags} (h : FlagsAbove f g) {b c : BitState} (hb : BitAbove b c) :
    FlagsAbove (f.setC b) (g.setC c) := ⟨h.e, h.m, h.x, hb⟩

theorem setM_mono {f g : StatusFlags} (h : FlagsAbove f g) {b c : BitState} (hb : BitAbove b c) :
    FlagsAbove (f.setM b) (g.setM c) := ⟨h.e, constrained_mono _ _ _ _ hb h.e, h.x, h.c⟩

theorem setX_mono {f g : StatusFlags} (h : FlagsAbove f g) {b c : BitState} (hb : BitAbove b c) :
    FlagsAbove (f.setX b) (g.setX c) := ⟨h.e, h.m, constrained_mono _ _ _ _ hb h.e, h.c⟩

theorem exchangeCE_mono {f g : StatusFlags} (h : FlagsAbove f g) : FlagsAbove f.exchangeCE g.exchangeCE :=
  ⟨h.c, constrained_mono _ _ _ _ h.m h.c, constrained_mono _ _ _ _ h.x h.c, h.e⟩

/-- What REP and SEP do to one bit when their argument is not known: it stays if it is `t` already. -/
theorem guarded_mono {b c : BitState} (h : BitAbove b c) {f g u v : StatusFlags} {t : BitState} (ht : t ≠ .unknown)
    (hs : FlagsAbove f g) (hu : FlagsAbove u v) (hug : FlagsAbove u g) :
    FlagsAbove (if b ≠ t then u else f) (if c ≠ t then v else g) := by
  by_cases hb : b = t
  · have hc : c = t := by
      rcases h with h | h
      · exact h ▸ hb
      · exact absurd (hb.symm.trans h) ht
    simp only [hb, hc, ne_eq, not_true, if_false]; exact hs
  · rw [if_pos hb]
    split
    · exact hu
    · exact hug

theorem unk_m {f g : StatusFlags} (hg : Normal g) (h : FlagsAbove f g) : FlagsAbove (f.setM .unknown) g := by
  have := setM_mono h (b := .unknown) (c := g.m) .unk
  have e : g.setM g.m = g := by unfold StatusFlags.setM; rw [hg.1]
  rwa [e] at this

theorem unk_x {f g : StatusFlags} (hg : Normal g) (h : FlagsAbove f g) : FlagsAbove (f.setX .unknown) g := by
  have := setX_mono h (b := .unknown) (c := g.x) .unk
  have e : g.setX g.x = g := by unfold StatusFlags.setX; rw [hg.2]
  rwa [e] at this

theorem repSep_mono {f g : StatusFlags} (hg : Normal g) (h : FlagsAbove f g) {t : BitState} (ht : t ≠ .unknown)
    (arg : Option Int) : FlagsAbove (Instruction.executeRepSep f t arg) (Instruction.executeRepSep g t arg) := by
  cases arg with
  | none =>
    unfold Instruction.executeRepSep
    have h1 := guarded_mono h.c ht h (setC_mono h (b := .unknown) (c := .unknown) .unk) (u := f.setC .unknown)
      ⟨h.e, h.m, h.x, .unk⟩
    simp only
    generalize hf1 : (if f.c ≠ t then f.setC .unknown else f) = f1 at h1 ⊢
    generalize hg1 : (if g.c ≠ t then g.setC .unknown else g) = g1 at h1 ⊢
    have hn1 : Normal g1 := by rw [← hg1]; split <;> exact hg
    have h2 := guarded_mono h1.x ht h1 (setX_mono h1 (b := .unknown) (c := .unknown) .unk) (unk_x hn1 h1)
    generalize hf2 : (if f1.x ≠ t then f1.setX .unknown else f1) = f2 at h2 ⊢
    generalize hg2 : (if g1.x ≠ t then g1.setX .unknown else g1) = g2 at h2 ⊢
    have hn2 : Normal g2 := by rw [← hg2]; split; exact normal_setX hn1 _; exact hn1
    exact guarded_mono h2.m ht h2 (setM_mono h2 (b := .unknown) (c := .unknown) .unk) (unk_m hn2 h2)
  | some v =>
    unfold Instruction.executeRepSep
    simp only
    have h1 : FlagsAbove (if Instruction.bitSet v 0 then f.setC t else f) (if Instruction.bitSet v 0 then g.setC t else g) := by
      split
      · exact setC_mono h .rfl'
      · exact h
    generalize (if Instruction.bitSet v 0 then f.setC t else f) = f1 at h1 ⊢
    generalize (if Instruction.bitSet v 0 then g.setC t else g) = g1 at h1 ⊢
    have h2 : FlagsAbove (if Instruction.bitSet v 4 then f1.setX t else f1) (if Instruction.bitSet v 4 then g1.setX t else g1) := by
      split
      · exact setX_mono h1 .rfl'
      · exact h1
    generalize (if Instruction.bitSet v 4 then f1.setX t else f1) = f2 at h2 ⊢
    generalize (if Instruction.bitSet v 4 then g1.setX t else g1) = g2 at h2 ⊢
    split
    · exact setM_mono h2 .rfl'
    · exact h2

theorem push_mono {s t : Stack} (h : StackAbove s t) {v w : StackValue} (hv : EntryAbove v w) :
    StackAbove (s.push v) (t.push w) := by
  cases h with
  | abandoned => exact .abandoned
  | live h => exact .live (.cons hv h)

theorem pushWord_mono {s t : Stack} (h : StackAbove s t) (o : Option Int) :
    StackAbove (s.pushWord o) (t.pushWord o) := by
  cases o
  · exact push_mono (push_mono h .same) .same
  · exact push_mono (push_mono h .same) .same

theorem ofLo_mono (b c : RegisterValue) (r : RegName) : EntryAbove (StackValue.ofLo r b) (StackValue.ofLo r c) := by
  refine .plain ?_ ?_
  · cases b <;> cases c <;> rfl
  · cases b <;> intro f h <;> cases h

theorem ofHi_mono (b c : RegisterValue) (r : RegName) : EntryAbove (StackValue.ofHi r b) (StackValue.ofHi r c) := by
  refine .plain ?_ ?_
  · cases b <;> cases c <;> rfl
  · cases b <;> intro f h <;> cases h

theorem ofVar_mono (b c : RegisterValue) (r : RegName) : EntryAbove (StackValue.ofVar r b) (StackValue.ofVar r c) :=
  .plain rfl (fun f h => by cases h)

theorem pushReg_mono {s t : Stack} (h : StackAbove s t) (b c : RegisterValue) {p q : BitState}
    (hb : BitAbove p q) (r : RegName) : StackAbove (s.pushReg r b p) (t.pushReg r c q) := by
  cases h with
  | abandoned => exact .abandoned
  | live h =>
    rcases hb with rfl | rfl
    · cases p
      · exact .live (.cons (ofLo_mono b c r) (.cons (ofHi_mono b c r) h))
      · exact .live (.cons (ofLo_mono b c r) h)
      · exact .live (.cons (ofVar_mono b c r) h)
      · exact .abandoned
    · exact .abandoned

/-- Pulling a byte. -/
theorem pullByte_mono {s t : Stack} (h : StackAbove s t) :
    StackAbove s.pullByte.2 t.pullByte.2 ∧ EntryAbove s.pullByte.1 t.pullByte.1 := by
  have key : varOf t.pullByte.1 = none := by
    unfold Stack.pullByte
    split
    · split
      · rfl
      · rename_i h; rw [isVarSize_varOf] at h; simpa using h
    · rfl
  cases h with
  | abandoned => exact ⟨.abandoned, .plain key.symm (fun f h => by cases h)⟩
  | live h =>
    cases h with
    | nil => exact ⟨.abandoned, .same⟩
    | cons hv h =>
      rename_i v w l r
      simp only [Stack.pullByte, isVarSize_varOf, hv.var]
      split
      · exact ⟨.abandoned, .same⟩
      · exact ⟨.live h, hv⟩

theorem pullFlags_mono {s t : ExecutionState} (h : StateAbove s t) : StateAbove s.pullFlags t.pullFlags := by
  obtain ⟨h1, h2⟩ := pullByte_mono h.stack
  unfold ExecutionState.pullFlags
  simp only
  generalize s.stack.pullByte.1 = v at h2 ⊢
  generalize t.stack.pullByte.1 = w at h2 ⊢
  have hany : ∀ m x c, FlagsAbove (.make s.flags.e .unknown .unknown .unknown) (.make t.flags.e m x c) := fun m x c =>
    ⟨h.flags.e, constrained_mono _ _ _ _ .unk h.flags.e, constrained_mono _ _ _ _ .unk h.flags.e, .unk⟩
  cases v
  case flags f =>
    obtain ⟨g, rfl, hf⟩ := h2.flags f rfl
    exact ⟨⟨h.flags.e, constrained_mono _ _ _ _ hf.m h.flags.e,
        constrained_mono _ _ _ _ hf.x h.flags.e, hf.c⟩, h1⟩
  all_goals cases w <;> exact ⟨hany _ _ _, h1⟩

/-- A register value that fits the register. -/
def SmallReg : RegisterValue → Prop
  | .value v => v < 0x10000
  | _ => True

structure Small (s : ExecutionState) : Prop where
  a : SmallReg s.a
  x : SmallReg s.x
  y : SmallReg s.y

def onVal (r : RegName) : StackValue → RegisterValue
  | .lo r' => if r' = r then .original else .unknown
  | .byte v => .value v.toNat
  | _ => .unknown

def offVal (r : RegName) : StackValue → StackValue → RegisterValue
  | .lo r', .hi r'' => if r' = r ∧ r'' = r then .original else .unknown
  | .byte l, .byte h => .value (l.toNat * 0x100 + h.toNat)
  | _, _ => .unknown

theorem pullReg_on (l : List StackValue) (r : RegName) : (Stack.live l).pullReg r .on =
    .ok (onVal r (Stack.live l).pullByte.1, (Stack.live l).pullByte.2) := by
  simp only [Stack.pullReg]
  generalize (Stack.live l).pullByte = p
  obtain ⟨p1, p2⟩ := p
  cases p1 <;> simp only [onVal]
  split <;> rfl

theorem pullReg_off (l : List StackValue) (r : RegName) : (Stack.live l).pullReg r .off =
    .ok (offVal r (Stack.live l).pullByte.1 (Stack.live l).pullByte.2.pullByte.1,
      (Stack.live l).pullByte.2.pullByte.2) := by
  simp only [Stack.pullReg]
  generalize (Stack.live l).pullByte = p
  obtain ⟨p1, p2⟩ := p
  simp only
  generalize p2.pullByte = q
  obtain ⟨q1, q2⟩ := q
  cases p1 <;> cases q1 <;> simp only [offVal]
  split <;> rfl

theorem onVal_small (r : RegName) (v : StackValue) : SmallReg (onVal r v) := by
  cases v <;> try trivial
  · rename_i x; have := x.toNat_lt; show _ < _; omega
  · simp only [onVal]; split <;> trivial

theorem offVal_small (r : RegName) (v w : StackValue) : SmallReg (offVal r v w) := by
  cases v <;> cases w <;> try trivial
  · rename_i x y; have := x.toNat_lt; have := y.toNat_lt; show _ < _; omega
  · simp only [offVal]; split <;> trivial

theorem pullReg_mono {s t : Stack} (h : StackAbove s t) {r : RegName} {b : BitState} (hb : b = .on ∨ b = .off)
    {v : RegisterValue} {s' : Stack} (hp : s.pullReg r b = .ok (v, s')) :
    ∃ w t', t.pullReg r b = .ok (w, t') ∧ StackAbove s' t' ∧ SmallReg w := by
  cases h with
  | abandoned =>
    cases hp
    cases t with
    | abandoned => exact ⟨_, _, rfl, .abandoned, trivial⟩
    | live l =>
      rcases hb with rfl | rfl
      · exact ⟨_, _, pullReg_on l r, .abandoned, onVal_small _ _⟩
      · exact ⟨_, _, pullReg_off l r, .abandoned, offVal_small _ _ _⟩
  | live h =>
    rename_i l l'
    obtain ⟨k1, -⟩ := pullByte_mono (.live h)
    rcases hb with rfl | rfl
    · rw [pullReg_on] at hp
      cases hp
      exact ⟨_, _, pullReg_on l' r, k1, onVal_small _ _⟩
    · rw [pullReg_off] at hp
      cases hp
      obtain ⟨k3, -⟩ := pullByte_mono k1
      exact ⟨_, _, pullReg_off l' r, k3, offVal_small _ _ _⟩

theorem small_merge {s t : ExecutionState} (h : Small s) (h' : Small t) : Small (s.merge t) := by
  have : ∀ v w : RegisterValue, SmallReg v → SmallReg (v.merge w) := by
    intro v w hv
    unfold RegisterValue.merge
    split
    · exact hv
    · trivial
  exact ⟨this _ _ h.a, this _ _ h.x, this _ _ h.y⟩

theorem ofInt_small (v : Int) : SmallReg (RegisterValue.ofInt v) := by
  show (v % 0x10000).toNat < 0x10000
  omega

/-- Adding a small offset to a register. -/
theorem add_small {w : RegisterValue} (hs : SmallReg w) {o : Int} (ho : -0x1000 ≤ o ∧ o ≤ 0x1000) {q : Nat}
    (hq : q = 0xff ∨ q = 0xffff) : ∃ w', w.add o q = .ok w' ∧ SmallReg w' := by
  cases w with
  | value v =>
    have hv : v < 0x10000 := hs
    refine ⟨.value ((v + o) % (q + 1 : Nat)).toNat, ?_, ?_⟩
    · unfold RegisterValue.add
      simp only
      rw [show i32 ((v : Int) + o) = .ok ((v : Int) + o) by unfold i32; rw [if_pos (by unfold InInt; omega)]]
      rfl
    · show _ < _
      rcases hq with rfl | rfl <;> omega
  | _ => exact ⟨.unknown, rfl, trivial⟩

/-! ## Execution -/

theorem checkConsistency_of_execute' {i : Instruction} {es es' : ExecutionState} {ctx : Ctx}
    (h : i.execute es ctx = .ok es') : i.checkConsistency es.flags = .ok () := by
  unfold Instruction.execute at h
  obtain ⟨⟨⟩, hx, -⟩ := Res.bind_eq_ok.1 h
  exact hx

/-- The size an instruction depends on is known. -/
def BitKnownHere (b : BitState) : Prop := b = .on ∨ b = .off

theorem BitAbove.known {b c : BitState} (h : BitAbove b c) (hb : BitKnownHere b) : c = b := by
  rcases h with rfl | rfl
  · rfl
  · rcases hb with h | h <;> cases h

/-- Where a suffix is written, or a register is pulled, its size is known. -/
structure SizesKnown (i : Instruction) (f : StatusFlags) : Prop where
  m : (i.suffix ≠ .none ∧ flagControllingInstructionSize i.mnemonic = .usesM) ∨ i.mnemonic = .pla → BitKnownHere f.m
  x : (i.suffix ≠ .none ∧ flagControllingInstructionSize i.mnemonic = .usesX) ∨ i.mnemonic = .plx ∨ i.mnemonic = .ply →
    BitKnownHere f.x

theorem checkConsistency_mono {i : Instruction} {f g : StatusFlags} (h : FlagsAbove f g) (hk : SizesKnown i f)
    (hc : i.checkConsistency f = .ok ()) : i.checkConsistency g = .ok () := by
  unfold Instruction.checkConsistency at hc ⊢
  simp only at hc ⊢
  have heff : flagControllingInstructionSize (if i.mnemonic = .padd ∨ i.mnemonic = .psub then Mnemonic.adc else i.mnemonic) =
      flagControllingInstructionSize i.mnemonic := by
    split
    · rename_i h; rcases h with h | h <;> rw [h] <;> rfl
    · rfl
  generalize (if i.mnemonic = .padd ∨ i.mnemonic = .psub then Mnemonic.adc else i.mnemonic) = eff at hc heff ⊢
  split at hc
  · cases hc
  · rename_i hl
    rw [if_neg hl]
    obtain ⟨⟨⟩, h1, h2⟩ := Res.bind_eq_ok.1 hc
    have h1' : i.checkSuffix eff g = .ok () := by
      unfold Instruction.checkSuffix at h1 ⊢
      split at h1
      · rename_i hs; rw [if_pos hs]
      · rename_i hs
        rw [if_neg hs]
        rw [heff] at h1 ⊢
        cases hu : flagControllingInstructionSize i.mnemonic with
        | notVariable => rw [hu] at h1; cases h1
        | usesM =>
          rw [hu] at h1
          simp only [if_true] at h1 ⊢
          rw [h.m.known (hk.m (.inl ⟨hs, hu⟩))]
          exact h1
        | usesX =>
          rw [hu] at h1
          simp only [reduceCtorEq, if_false] at h1 ⊢
          rw [h.x.known (hk.x (.inl ⟨hs, hu⟩))]
          exact h1
    rw [h1', Res.bind_ok]
    unfold Instruction.checkImmediate at h2 ⊢
    split at h2
    · rename_i hm
      rw [if_pos hm]
      split at h2
      · cases h2
      · rename_i hn
        rw [h.m.known (by unfold BitKnownHere; tauto), if_neg hn]
    · rename_i hm
      rw [if_neg hm]
      split at h2
      · rename_i hm
        rw [if_pos hm]
        split at h2
        · cases h2
        · rename_i hn
          rw [h.x.known (by unfold BitKnownHere; tauto), if_neg hn]
      · rename_i hm'
        rw [if_neg hm']
        split at h2
        · rename_i hbw
          rw [if_pos hbw]
          simp only at h2 ⊢
          split at h2
          · rename_i hu
            rw [if_pos hu]
            have hkn : BitKnownHere (if immediateArgumentUsesMBit i.mnemonic = true then f.m else f.x) := by
              generalize (if immediateArgumentUsesMBit i.mnemonic = true then f.m else f.x) = b at h2
              unfold BitKnownHere
              cases b <;> simp at h2 ⊢
            have he : (if immediateArgumentUsesMBit i.mnemonic = true then g.m else g.x) =
                (if immediateArgumentUsesMBit i.mnemonic = true then f.m else f.x) := by
              split
              · rename_i hb; rw [if_pos hb] at hkn; exact h.m.known hkn
              · rename_i hb; rw [if_neg hb] at hkn; exact h.x.known hkn
            rw [he]
            exact h2
          · rename_i hu
            rw [if_neg hu]
        · rename_i hbw
          rw [if_neg hbw]

/-- An argument of a block move is a byte. -/
def MoveArg (i : Instruction) : Prop :=
  i.mnemonic = .mvn ∨ i.mnemonic = .mvp → ∀ v, i.arg1.eval nullCtx = .ok v → 0 ≤ v ∧ v < 256

/-- What the second computes is below what the first computes. -/
def Sim (x y : Res ExecutionState) : Prop :=
  ∀ t, x = .ok t → ∃ s, y = .ok s ∧ StateAbove t s ∧ Small s

theorem sim_ok {t s : ExecutionState} (h : StateAbove t s) (hs : Small s) : Sim (.ok t) (.ok s) := by
  intro t' ht; cases ht; exact ⟨s, rfl, h, hs⟩

theorem sim_ite {c : Prop} [Decidable c] {a b a' b' : Res ExecutionState} (h : c → Sim a b) (h' : ¬ c → Sim a' b') :
    Sim (if c then a else a') (if c then b else b') := by
  split
  · rename_i hc; exact h hc
  · rename_i hc; exact h' hc

theorem sim_bind {α : Type} {x : Res α} {f g : α → Res ExecutionState} (h : ∀ v, x = .ok v → Sim (f v) (g v)) :
    Sim (x >>= f) (x >>= g) := by
  intro t ht
  obtain ⟨v, hv, ht⟩ := Res.bind_eq_ok.1 ht
  rw [hv, Res.bind_ok]
  exact h v hv t ht

theorem execute_mono {i : Instruction} {t s t' : ExecutionState} (h : StateAbove t s) (hn : NormalState s)
    (hsm : Small s) (hk : SizesKnown i t.flags) (hmv : MoveArg i) (hx : i.execute t nullCtx = .ok t') :
    ∃ s', i.execute s nullCtx = .ok s' ∧ StateAbove t' s' ∧ Small s' := by
  have hcc := checkConsistency_mono h.flags hk (checkConsistency_of_execute' hx)
  have hct := checkConsistency_of_execute' hx
  refine (?_ : Sim (i.execute t nullCtx) (i.execute s nullCtx)) t' hx
  unfold Instruction.execute
  rw [hcc, hct, Res.bind_ok, Res.bind_ok]
  extract_lets m
  have hmm : m = i.mnemonic := rfl
  clear_value m
  have hmask : ∀ b : BitState, (if b = .on then 0xff else 0xffff : Nat) = 0xff ∨ (if b = .on then 0xff else 0xffff : Nat) = 0xffff := by
    intro b; split <;> simp
  refine sim_ite (fun g => sim_ok ⟨setC_mono h.flags .rfl', h.stack⟩ ⟨hsm.1, hsm.2, hsm.3⟩) (fun _ => ?_)
  refine sim_ite (fun g => sim_ok ⟨setC_mono h.flags .rfl', h.stack⟩ ⟨hsm.1, hsm.2, hsm.3⟩) (fun _ => ?_)
  refine sim_ite (fun g => sim_bind fun arg _ => sim_ok ⟨repSep_mono hn.1 h.flags (by split <;> simp) _, h.stack⟩
    ⟨hsm.1, hsm.2, hsm.3⟩) (fun _ => ?_)
  refine sim_ite (fun g => sim_ok ⟨setC_mono h.flags .rfl', h.stack⟩ ⟨trivial, hsm.2, hsm.3⟩) (fun _ => ?_)
  refine sim_ite (fun g => sim_ok ⟨setC_mono h.flags .rfl', h.stack⟩ ⟨hsm.1, hsm.2, hsm.3⟩) (fun _ => ?_)
  refine sim_ite (fun g => sim_ok ⟨h.flags, h.stack⟩ ⟨trivial, hsm.2, hsm.3⟩) (fun _ => ?_)
  refine sim_ite (fun g => ?_) (fun _ => ?_)
  · -- increments and decrements
    unfold Instruction.executeIncDec
    refine sim_ite (fun _ => sim_ok h hsm) (fun _ => ?_)
    extract_lets o
    have ho : -0x1000 ≤ o ∧ o ≤ 0x1000 := by show -0x1000 ≤ (if _ then _ else _) ∧ (if _ then _ else _) ≤ _; split <;> omega
    clear_value o
    refine sim_ite (fun _ => ?_) (fun _ => sim_ite (fun _ => ?_) (fun _ => ?_))
    · intro t' ht
      obtain ⟨v, -, ht⟩ := Res.bind_eq_ok.1 ht
      cases ht
      obtain ⟨w, hw, hws⟩ := add_small hsm.a ho (hmask s.flags.m)
      rw [hw, Res.bind_ok]
      exact ⟨_, rfl, ⟨h.flags, h.stack⟩, hws, hsm.2, hsm.3⟩
    · intro t' ht
      obtain ⟨v, -, ht⟩ := Res.bind_eq_ok.1 ht
      cases ht
      obtain ⟨w, hw, hws⟩ := add_small hsm.x ho (hmask s.flags.x)
      rw [hw, Res.bind_ok]
      exact ⟨_, rfl, ⟨h.flags, h.stack⟩, hsm.1, hws, hsm.3⟩
    · intro t' ht
      obtain ⟨v, -, ht⟩ := Res.bind_eq_ok.1 ht
      cases ht
      obtain ⟨w, hw, hws⟩ := add_small hsm.y ho (hmask s.flags.x)
      rw [hw, Res.bind_ok]
      exact ⟨_, rfl, ⟨h.flags, h.stack⟩, hsm.1, hsm.2, hws⟩
  refine sim_ite (fun g => ?_) (fun _ => ?_)
  · -- loads
    unfold Instruction.executeLoad
    refine sim_ite (fun _ => sim_bind fun arg _ => ?_) (fun _ => sim_ok h hsm)
    extract_lets v
    have hv : SmallReg v := by
      cases arg
      · trivial
      · exact ofInt_small _
    clear_value v
    exact sim_ite (fun _ => sim_ok ⟨h.flags, h.stack⟩ ⟨hv, hsm.2, hsm.3⟩) (fun _ =>
      sim_ite (fun _ => sim_ok ⟨h.flags, h.stack⟩ ⟨hsm.1, hv, hsm.3⟩) (fun _ =>
        sim_ok ⟨h.flags, h.stack⟩ ⟨hsm.1, hsm.2, hv⟩))
  refine sim_ite (fun g => ?_) (fun _ => ?_)
  · -- block moves
    have harg := hmv (hmm ▸ g)
    unfold Instruction.executeMove
    refine sim_bind fun arg ha => ?_
    intro t' ht
    dsimp only at ht ⊢
    obtain ⟨⟨x, y⟩, -, ht⟩ := Res.bind_eq_ok.1 ht
    obtain ⟨db, hdb, ht⟩ := Res.bind_eq_ok.1 ht
    cases ht
    have ha' : SmallReg (match s.flags.m with | .on => .value 0xff | .off => .value 0xffff | _ => .unknown) := by
      split
      · show (255 : Nat) < 65536; omega
      · show (65535 : Nat) < 65536; omega
      · trivial
    cases arg with
    | none =>
      dsimp only
      rw [Res.bind_ok, hdb, Res.bind_ok]
      exact ⟨_, rfl, ⟨h.flags, h.stack⟩, ha', trivial, trivial⟩
    | some v =>
      have hv : i.arg1.eval nullCtx = .ok v := by
        unfold Instruction.maybeArg at ha
        split at ha <;> simp_all
      have hb := harg v hv
      have ho : -0x1000 ≤ (if i.mnemonic = .mvn then 1 + v else -1 - v) ∧ (if i.mnemonic = .mvn then 1 + v else -1 - v) ≤ 0x1000 := by
        split <;> omega
      obtain ⟨x', h1, h2⟩ := add_small hsm.x ho (hmask s.flags.x)
      obtain ⟨y', h3, h4⟩ := add_small hsm.y ho (hmask s.flags.x)
      have hi : i32 (if i.mnemonic = .mvn then 1 + v else -1 - v) = .ok (if i.mnemonic = .mvn then 1 + v else -1 - v) := by
        unfold i32; rw [if_pos (by unfold InInt; omega)]
      dsimp only
      rw [hi, Res.bind_ok, h1, Res.bind_ok, h3, Res.bind_ok, Res.bind_ok, hdb, Res.bind_ok]
      exact ⟨_, rfl, ⟨h.flags, h.stack⟩, ha', h2, h4⟩
  refine sim_ite (fun g => sim_bind fun arg _ => sim_ok ⟨h.flags, pushWord_mono h.stack _⟩ ⟨hsm.1, hsm.2, hsm.3⟩) (fun _ => ?_)
  refine sim_ite (fun g => sim_ok ⟨h.flags, pushWord_mono h.stack none⟩ ⟨hsm.1, hsm.2, hsm.3⟩) (fun _ => ?_)
  refine sim_ite (fun g => sim_ok ⟨h.flags, pushReg_mono h.stack _ _ h.flags.m _⟩ ⟨hsm.1, hsm.2, hsm.3⟩) (fun _ => ?_)
  refine sim_ite (fun g => sim_ok ⟨h.flags, pushReg_mono h.stack _ _ h.flags.x _⟩ ⟨hsm.1, hsm.2, hsm.3⟩) (fun _ => ?_)
  refine sim_ite (fun g => sim_ok ⟨h.flags, pushReg_mono h.stack _ _ h.flags.x _⟩ ⟨hsm.1, hsm.2, hsm.3⟩) (fun _ => ?_)
  refine sim_ite (fun g => ?_) (fun _ => ?_)
  · intro t' ht
    obtain ⟨⟨v, st⟩, hp, ht⟩ := Res.bind_eq_ok.1 ht
    cases ht
    have hkn := hk.m (.inr (hmm ▸ g))
    obtain ⟨w, st', h1, h2, h3⟩ := pullReg_mono h.stack hkn hp
    rw [h.flags.m.known hkn, h1, Res.bind_ok]
    exact ⟨_, rfl, ⟨h.flags, h2⟩, h3, hsm.2, hsm.3⟩
  refine sim_ite (fun g => ?_) (fun _ => ?_)
  · intro t' ht
    obtain ⟨⟨v, st⟩, hp, ht⟩ := Res.bind_eq_ok.1 ht
    cases ht
    have hkn := hk.x (.inr (.inl (hmm ▸ g)))
    obtain ⟨w, st', h1, h2, h3⟩ := pullReg_mono h.stack hkn hp
    rw [h.flags.x.known hkn, h1, Res.bind_ok]
    exact ⟨_, rfl, ⟨h.flags, h2⟩, hsm.1, h3, hsm.3⟩
  refine sim_ite (fun g => ?_) (fun _ => ?_)
  · intro t' ht
    obtain ⟨⟨v, st⟩, hp, ht⟩ := Res.bind_eq_ok.1 ht
    cases ht
    have hkn := hk.x (.inr (.inr (hmm ▸ g)))
    obtain ⟨w, st', h1, h2, h3⟩ := pullReg_mono h.stack hkn hp
    rw [h.flags.x.known hkn, h1, Res.bind_ok]
    exact ⟨_, rfl, ⟨h.flags, h2⟩, hsm.1, hsm.2, h3⟩
  refine sim_ite (fun g => sim_ok ⟨h.flags, push_mono h.stack ⟨rfl, fun f hf => by cases hf; exact ⟨_, rfl, h.flags⟩⟩⟩
    ⟨hsm.1, hsm.2, hsm.3⟩) (fun _ => ?_)
  refine sim_ite (fun g => sim_ok (pullFlags_mono h) ?_) (fun _ => ?_)
  · unfold ExecutionState.pullFlags
    simp only
    split <;> exact ⟨hsm.1, hsm.2, hsm.3⟩
  refine sim_ite (fun g => sim_ok ⟨exchangeCE_mono h.flags, h.stack⟩ ⟨hsm.1, hsm.2, hsm.3⟩) (fun _ => ?_)
  refine sim_ite (fun g => sim_ok ⟨?_, h.stack⟩ ⟨hsm.1, hsm.2, hsm.3⟩) (fun _ => sim_ok h hsm)
  show FlagsAbove ((i.ret.yieldFlags.getD t.flags).setC .unknown) ((i.ret.yieldFlags.getD s.flags).setC .unknown)
  cases i.ret.yieldFlags with
  | none => exact setC_mono h.flags .rfl'
  | some f => exact setC_mono .rfl' .rfl'

theorem executeBranch_mono {i : Instruction} {t s t' : ExecutionState} (h : StateAbove t s) (hn : NormalState s)
    (hsm : Small s) (hk : SizesKnown i t.flags) (hmv : MoveArg i) (hx : i.executeBranch t = .ok t') :
    ∃ s', i.executeBranch s = .ok s' ∧ StateAbove t' s' ∧ Small s' := by
  refine (?_ : Sim (i.executeBranch t) (i.executeBranch s)) t' hx
  unfold Instruction.executeBranch at hx ⊢
  intro u hu
  obtain ⟨v, hv, hu⟩ := Res.bind_eq_ok.1 hu
  obtain ⟨w, hw, h1, h2⟩ := execute_mono h hn hsm hk hmv hv
  rw [hw, Res.bind_ok]
  split at hu
  · rename_i hb
    rw [if_pos hb]
    cases hu
    exact ⟨_, rfl, ⟨setC_mono h1.flags .rfl', h1.stack⟩, h2.1, h2.2, h2.3⟩
  · rename_i hb
    rw [if_neg hb]
    split at hu
    · rename_i hb
      rw [if_pos hb]
      cases hu
      exact ⟨_, rfl, ⟨setC_mono h1.flags .rfl', h1.stack⟩, h2.1, h2.2, h2.3⟩
    · rename_i hb
      rw [if_neg hb]
      cases hu
      exact ⟨_, rfl, h1, h2⟩

end Nsasm
