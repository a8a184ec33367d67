import Verif.Spec.Cpu
import Mathlib.Tactic.Common

/-!
# Properties of tracked processor states (C15–C17)
-/

namespace Nsasm.Props

open Nsasm Nsasm.Spec

/-! ## The emulation-mode invariant -/

/-- States obtainable through the public operations, from the default state. -/
inductive Obtainable : StatusFlags → Prop
  | default : Obtainable .default
  | make (e m x c : BitState) : Obtainable (.make e m x c)
  | name {s : Str} {f : StatusFlags} : StatusFlags.fromName s = some f → Obtainable f
  | setM {f : StatusFlags} (s : BitState) : Obtainable f → Obtainable (f.setM s)
  | setX {f : StatusFlags} (s : BitState) : Obtainable f → Obtainable (f.setX s)
  | setC {f : StatusFlags} (s : BitState) : Obtainable f → Obtainable (f.setC s)
  | setIncoming {f : StatusFlags} : Obtainable f → Obtainable f.setIncoming
  | exchangeCE {f : StatusFlags} : Obtainable f → Obtainable f.exchangeCE
  | merge {f g : StatusFlags} : Obtainable f → Obtainable g → Obtainable (f.merge g)

/-- M and X are what emulation mode allows. -/
def Normal (f : StatusFlags) : Prop :=
  constrainedForEBit f.m f.e = f.m ∧ constrainedForEBit f.x f.e = f.x

instance (f : StatusFlags) : Decidable (Normal f) := by unfold Normal; infer_instance

theorem constrained_idem (m e : BitState) :
    constrainedForEBit (constrainedForEBit m e) e = constrainedForEBit m e := by
  cases m <;> cases e <;> rfl

theorem normal_make (e m x c : BitState) : Normal (.make e m x c) :=
  ⟨constrained_idem m e, constrained_idem x e⟩

theorem normal_setM {f : StatusFlags} (h : Normal f) (s : BitState) : Normal (f.setM s) :=
  ⟨constrained_idem s f.e, h.2⟩

theorem normal_setX {f : StatusFlags} (h : Normal f) (s : BitState) : Normal (f.setX s) :=
  ⟨h.1, constrained_idem s f.e⟩

theorem normal_setC {f : StatusFlags} (h : Normal f) (s : BitState) : Normal (f.setC s) := h

theorem normal_setIncoming {f : StatusFlags} (h : Normal f) : Normal f.setIncoming := by
  obtain ⟨e, m, x, c⟩ := f
  revert h
  cases e <;> cases m <;> cases x <;> simp [Normal, StatusFlags.setIncoming, StatusFlags.incomingBit,
    constrainedForEBit]

theorem normal_exchangeCE (f : StatusFlags) : Normal f.exchangeCE :=
  ⟨constrained_idem f.m f.c, constrained_idem f.x f.c⟩

theorem normal_fromName {s : Str} {f : StatusFlags} (h : StatusFlags.fromName s = some f) : Normal f := by
  unfold StatusFlags.fromName at h
  simp only at h
  split at h
  · cases h; exact normal_make _ _ _ _
  split at h
  · cases h; exact normal_make _ _ _ _
  split at h
  · cases h; exact normal_make _ _ _ _
  split at h
  · simp at h
  split at h
  · simp at h
  split at h
  · simp at h
  split at h
  · cases h; exact normal_make _ _ _ _
  · simp at h

theorem obtainable_normal {f : StatusFlags} (h : Obtainable f) : Normal f := by
  induction h with
  | default => exact normal_make _ _ _ _
  | make e m x c => exact normal_make e m x c
  | name h => exact normal_fromName h
  | setM s _ ih => exact normal_setM ih s
  | setX s _ ih => exact normal_setX ih s
  | setC s _ ih => exact ih
  | setIncoming _ ih => exact normal_setIncoming ih
  | exchangeCE _ _ => exact normal_exchangeCE _
  | merge _ _ _ _ => exact normal_make _ _ _ _

/-- In every obtainable flag state: known emulation mode means M and X are known on, and
M or X is known off only in known native mode. -/
theorem C16_emulation_forces_8bit {f : StatusFlags} (h : Obtainable f) :
    (f.e = .on → f.m = .on ∧ f.x = .on) ∧ (f.m = .off → f.e = .off) ∧ (f.x = .off → f.e = .off) := by
  have hn := obtainable_normal h
  obtain ⟨e, m, x, c⟩ := f
  revert hn
  cases e <;> cases m <;> cases x <;> simp [Normal, constrainedForEBit]

example : Obtainable (((StatusFlags.make .off .off .off .on).exchangeCE).setM .off) ∧
    (((StatusFlags.make .off .off .off .on).exchangeCE).setM .off).m = .on :=
  ⟨.setM _ (.exchangeCE (.make _ _ _ _)), by decide⟩

/-! ## Merging -/

theorem bit_merge_comm (a b : BitState) : a.merge b = b.merge a := by
  cases a <;> cases b <;> rfl

theorem bit_merge_assoc (a b c : BitState) : (a.merge b).merge c = a.merge (b.merge c) := by
  cases a <;> cases b <;> cases c <;> rfl

theorem bit_merge_self (a : BitState) : a.merge a = a := by cases a <;> rfl

/-- Constraining by E before a further merge makes no difference. -/
theorem constrained_merge (m m' m'' e e' e'' : BitState) (h : constrainedForEBit m e = m)
    (h' : constrainedForEBit m' e' = m') (h'' : constrainedForEBit m'' e'' = m'') :
    constrainedForEBit ((constrainedForEBit (m.merge m') (e.merge e')).merge m'')
        ((e.merge e').merge e'') =
      constrainedForEBit (m.merge (constrainedForEBit (m'.merge m'') (e'.merge e'')))
        (e.merge (e'.merge e'')) := by
  revert h h' h''
  cases m <;> cases m' <;> cases m'' <;> cases e <;> cases e' <;> cases e'' <;> decide

/-- Merging flag states is commutative. -/
theorem C15_flags_comm (f g : StatusFlags) : f.merge g = g.merge f := by
  unfold StatusFlags.merge
  rw [bit_merge_comm f.e, bit_merge_comm f.m, bit_merge_comm f.x, bit_merge_comm f.c]

/-- Merging obtainable flag states is idempotent. -/
theorem C15_flags_idem {f : StatusFlags} (h : Normal f) : f.merge f = f := by
  unfold StatusFlags.merge StatusFlags.make
  simp only [bit_merge_self, h.1, h.2]

/-- Merging obtainable flag states is associative. -/
theorem C15_flags_assoc {f g k : StatusFlags} (hf : Normal f) (hg : Normal g) (hk : Normal k) :
    (f.merge g).merge k = f.merge (g.merge k) := by
  unfold StatusFlags.merge StatusFlags.make
  simp only [StatusFlags.mk.injEq]
  exact ⟨bit_merge_assoc _ _ _, constrained_merge _ _ _ _ _ _ hf.1 hg.1 hk.1,
    constrained_merge _ _ _ _ _ _ hf.2 hg.2 hk.2, bit_merge_assoc _ _ _⟩

theorem bitIs_merge_left {o : Bool → Prop} {a b : BitState} {v : Bool} (h : BitIs o a v) :
    BitIs o (a.merge b) v := by
  unfold BitState.merge
  split
  · exact h
  · trivial

theorem good_asIn {entry : Cpu} (h : entry.Ok) : (Meaning.asIn entry).Good := by
  obtain ⟨e, m, x, c, s⟩ := entry
  simp only [Cpu.Ok] at h
  constructor <;> simp only [Meaning.asIn, Cpu.aBytes, Cpu.iBytes]
  · rintro a b rfl rfl; cases a <;> cases b <;> simp_all [forced]
  · rintro a b rfl rfl; cases a <;> cases b <;> simp_all [forced]
  · rintro _ rfl; rfl
  · rintro _ rfl; rfl

theorem good_anything : Meaning.anything.Good :=
  ⟨fun _ _ _ _ => trivial, fun _ _ _ _ => trivial, fun _ _ => trivial, fun _ _ => trivial⟩

theorem bitIs_constrained {o oe : Bool → Prop} {m e : BitState} {v ve : Bool}
    (h : BitIs o m v) (he : BitIs oe e ve) (hok : ve = true → v = true) :
    BitIs o (constrainedForEBit m e) v := by
  cases m <;> cases e <;> simp_all [constrainedForEBit, BitIs]

/-- Whatever is described by a flag state is described by its merge with another. -/
theorem C15_flags_sound {o : Meaning} {p : Cpu} (hp : p.Ok) {f : StatusFlags}
    (h : FlagsDescribe o f p) (g : StatusFlags) :
    FlagsDescribe o (f.merge g) p ∧ FlagsDescribe o (g.merge f) p := by
  have key : FlagsDescribe o (f.merge g) p := by
    obtain ⟨h1, h2, h3, h4⟩ := h
    refine ⟨bitIs_merge_left h1, ?_, ?_, ?_⟩
    · exact bitIs_constrained (bitIs_merge_left h2) (bitIs_merge_left h1)
        (fun h => (hp h).1)
    · exact bitIs_constrained (bitIs_merge_left h3) (bitIs_merge_left h1)
        (fun h => (hp h).2)
    · simp only [StatusFlags.merge, StatusFlags.make, BitState.merge]
      split
      · exact h4
      · trivial
  exact ⟨key, by rw [C15_flags_comm]; exact key⟩

example : Normal (StatusFlags.make .off .on .off .unknown) ∧
    (StatusFlags.make .off .on .off .unknown).merge (.make .off .off .off .on) =
      .make .off .unknown .off .unknown ∧
    (StatusFlags.make .on .on .on .unknown).merge (.make .off .off .on .on) =
      .make .unknown .unknown .on .unknown := by decide

/-! ### Stacks and whole states -/

/-- Every saved status register on the stack is a normal flag state. -/
def NormalEntry : StackValue → Prop
  | .flags f => Normal f
  | _ => True

def NormalStack : Stack → Prop
  | .abandoned => True
  | .live l => ∀ v ∈ l, NormalEntry v

/-- A state whose flags, and the flags saved on its stack, are normal. -/
def NormalState (s : ExecutionState) : Prop := Normal s.flags ∧ NormalStack s.stack

theorem entry_merge_comm (a b : StackValue) : a.merge b = b.merge a := by
  cases a <;> cases b <;> simp [StackValue.merge, StackValue.sameType]
  · split_ifs <;> simp_all
  · exact C15_flags_comm _ _
  all_goals split_ifs <;> simp_all

theorem entry_canMerge_comm (a b : StackValue) : a.canMergeWith b = b.canMergeWith a := by
  cases a <;> cases b <;> simp [StackValue.canMergeWith, StackValue.sameType, StackValue.isVarSize, eq_comm]

theorem entry_merge_self {a : StackValue} (h : NormalEntry a) : a.merge a = a := by
  cases a <;> simp [StackValue.merge, StackValue.sameType]
  exact C15_flags_idem h

theorem entry_canMerge_self (a : StackValue) : a.canMergeWith a = true := by
  cases a <;> simp [StackValue.canMergeWith, StackValue.sameType]

theorem entry_merge_assoc {a b c : StackValue} (ha : NormalEntry a) (hb : NormalEntry b)
    (hc : NormalEntry c) (hab : a.canMergeWith b = true) (hbc : b.canMergeWith c = true) :
    (a.merge b).merge c = a.merge (b.merge c) := by
  cases a <;> cases b <;> simp [StackValue.canMergeWith, StackValue.sameType, StackValue.isVarSize] at hab <;>
    cases c <;> simp [StackValue.canMergeWith, StackValue.sameType, StackValue.isVarSize] at hbc <;>
    simp [StackValue.merge, StackValue.sameType]
  all_goals
    first
    | exact C15_flags_assoc ha hb hc
    | (split_ifs <;> simp_all [StackValue.sameType])

theorem entry_canMerge_merge {a b : StackValue} (c : StackValue) (hab : a.canMergeWith b = true) :
    (a.merge b).canMergeWith c = b.canMergeWith c := by
  cases a <;> cases b <;> simp [StackValue.canMergeWith, StackValue.sameType, StackValue.isVarSize] at hab <;>
    cases c <;> simp [StackValue.canMergeWith, StackValue.merge, StackValue.sameType, StackValue.isVarSize]
  all_goals (split_ifs <;> simp_all [StackValue.sameType])

theorem normal_entry_merge {a b : StackValue} : NormalEntry (a.merge b) := by
  unfold StackValue.merge
  cases hs : StackValue.sameType a b with
  | false => trivial
  | true =>
    simp only [Bool.not_true, Bool.false_eq_true, if_false]
    cases a <;> cases b <;> simp only [StackValue.sameType, Bool.false_eq_true] at hs <;> simp only
    all_goals
      first
      | trivial
      | exact normal_make _ _ _ _
      | (split <;> trivial)

theorem mergeList_comm (l r : List StackValue) : Stack.mergeList l r = Stack.mergeList r l := by
  induction l generalizing r with
  | nil => cases r <;> rfl
  | cons a l ih =>
    cases r with
    | nil => rfl
    | cons b r => simp only [Stack.mergeList, entry_canMerge_comm a b, entry_merge_comm a b, ih]

theorem mergeList_self {l : List StackValue} (h : ∀ v ∈ l, NormalEntry v) :
    Stack.mergeList l l = some l := by
  induction l with
  | nil => rfl
  | cons a l ih =>
    simp only [Stack.mergeList, entry_canMerge_self, if_true,
      ih (fun v hv => h v (List.mem_cons_of_mem _ hv)), Option.map_some,
      entry_merge_self (h a (by simp))]

theorem mergeList_assoc {l m r : List StackValue} (hl : ∀ v ∈ l, NormalEntry v)
    (hm : ∀ v ∈ m, NormalEntry v) (hr : ∀ v ∈ r, NormalEntry v) :
    (Stack.mergeList l m).bind (Stack.mergeList · r) = (Stack.mergeList m r).bind (Stack.mergeList l ·) := by
  induction l generalizing m r with
  | nil => cases m <;> cases r <;> simp [Stack.mergeList]
           split_ifs
           · cases Stack.mergeList _ _ <;> simp [Stack.mergeList]
           · rfl
  | cons a l ih =>
    cases m with
    | nil => cases r <;> simp [Stack.mergeList]
    | cons b m =>
      cases r with
      | nil =>
        simp only [Stack.mergeList, Option.bind_none]
        split_ifs
        · cases Stack.mergeList l m <;> simp [Stack.mergeList]
        · rfl
      | cons c r =>
        have hi := ih (m := m) (r := r) (fun v hv => hl v (List.mem_cons_of_mem _ hv))
          (fun v hv => hm v (List.mem_cons_of_mem _ hv)) (fun v hv => hr v (List.mem_cons_of_mem _ hv))
        simp only [Stack.mergeList]
        by_cases hab : a.canMergeWith b = true
        · by_cases hbc : b.canMergeWith c = true
          · have h1 : (a.merge b).canMergeWith c = true := by rw [entry_canMerge_merge c hab, hbc]
            have h2 : a.canMergeWith (b.merge c) = true := by
              rw [entry_canMerge_comm, entry_merge_comm, entry_canMerge_merge a (by rw [entry_canMerge_comm]; exact hbc),
                entry_canMerge_comm]; exact hab
            have h3 := entry_merge_assoc (hl a (by simp)) (hm b (by simp)) (hr c (by simp)) hab hbc
            simp only [hab, hbc, if_true]
            cases hlm : Stack.mergeList l m with
            | none =>
              rw [hlm] at hi
              cases hmr : Stack.mergeList m r with
              | none => simp
              | some mr =>
                rw [hmr] at hi
                simp only [Option.bind_none, Option.bind_some] at hi
                simp [Stack.mergeList, ← hi]
            | some lm =>
              rw [hlm] at hi
              simp only [Option.bind_some] at hi
              cases hmr : Stack.mergeList m r with
              | none =>
                rw [hmr] at hi
                simp only [Option.bind_none] at hi
                simp [Stack.mergeList, hi]
              | some mr =>
                rw [hmr] at hi
                simp only [Option.bind_some] at hi
                simp only [Option.map_some, Option.bind_some, Stack.mergeList, h1, h2, if_true, hi, h3]
          · simp only [hab, if_true, if_neg hbc, Option.bind_none]
            cases Stack.mergeList l m with
            | none => rfl
            | some lm =>
              simp only [Option.map_some, Option.bind_some, Stack.mergeList]
              rw [entry_canMerge_merge c hab, if_neg hbc]
        · rw [if_neg hab]
          simp only [Option.bind_none]
          by_cases hbc : b.canMergeWith c = true
          · simp only [hbc, if_true]
            have h2 : ¬ a.canMergeWith (b.merge c) = true := by
              rw [entry_canMerge_comm, entry_merge_comm, entry_canMerge_merge a (by rw [entry_canMerge_comm]; exact hbc),
                entry_canMerge_comm]; exact hab
            cases Stack.mergeList m r with
            | none => rfl
            | some mr => simp only [Option.map_some, Option.bind_some, Stack.mergeList, if_neg h2]
          · simp only [if_neg hbc, Option.bind_none]

theorem stack_merge_assoc {s t u : Stack} (hs : NormalStack s) (ht : NormalStack t) (hu : NormalStack u) :
    (s.merge t).merge u = s.merge (t.merge u) := by
  cases s with
  | abandoned => cases t <;> cases u <;> simp [Stack.merge]
  | live l =>
    cases t with
    | abandoned => cases u <;> simp [Stack.merge]
    | live m =>
      cases u with
      | abandoned => simp only [Stack.merge]; cases Stack.mergeList l m <;> rfl
      | live r =>
        have h := mergeList_assoc (l := l) (m := m) (r := r) hs ht hu
        simp only [Stack.merge]
        cases hlm : Stack.mergeList l m with
        | none =>
          rw [hlm] at h
          cases hmr : Stack.mergeList m r with
          | none => rfl
          | some mr =>
            rw [hmr] at h
            simp only [Option.bind_none, Option.bind_some] at h
            simp [Stack.merge, ← h]
        | some lm =>
          rw [hlm] at h
          cases hmr : Stack.mergeList m r with
          | none =>
            rw [hmr] at h
            simp only [Option.bind_none, Option.bind_some] at h
            simp [Stack.merge, h]
          | some mr =>
            rw [hmr] at h
            simp only [Option.bind_some] at h
            simp [Stack.merge, h]

theorem reg_merge_comm (a b : RegisterValue) : a.merge b = b.merge a := by
  unfold RegisterValue.merge; split_ifs <;> simp_all

theorem reg_merge_self (a : RegisterValue) : a.merge a = a := by simp [RegisterValue.merge]

theorem reg_merge_assoc (a b c : RegisterValue) : (a.merge b).merge c = a.merge (b.merge c) := by
  unfold RegisterValue.merge
  cases a <;> cases b <;> cases c <;> simp <;> split_ifs <;> simp_all

/-- Merging execution states, with stacks of any depth, is commutative. -/
theorem C15_state_comm (s t : ExecutionState) : s.merge t = t.merge s := by
  unfold ExecutionState.merge
  rw [reg_merge_comm s.a, reg_merge_comm s.x, reg_merge_comm s.y, reg_merge_comm s.dbr,
    C15_flags_comm s.flags]
  congr 1
  cases s.stack <;> cases t.stack <;> simp [Stack.merge]
  rw [mergeList_comm]

/-- Merging an execution state with itself changes nothing. -/
theorem C15_state_idem {s : ExecutionState} (h : NormalState s) : s.merge s = s := by
  obtain ⟨a, x, y, d, f, st⟩ := s
  obtain ⟨h1, h2⟩ := h
  unfold ExecutionState.merge
  simp only [reg_merge_self, C15_flags_idem h1]
  congr 1
  cases st with
  | abandoned => rfl
  | live l => simp [Stack.merge, mergeList_self h2]

/-- Merging execution states is associative. -/
theorem C15_state_assoc {s t u : ExecutionState} (hs : NormalState s) (ht : NormalState t)
    (hu : NormalState u) : (s.merge t).merge u = s.merge (t.merge u) := by
  unfold ExecutionState.merge
  simp only [reg_merge_assoc, C15_flags_assoc hs.1 ht.1 hu.1, stack_merge_assoc hs.2 ht.2 hu.2]

theorem bitKnown_merge_left {a b : BitState} {v : Bool} (h : BitKnown a v) : BitKnown (a.merge b) v := by
  unfold BitState.merge
  split
  · exact h
  · trivial

theorem bitIs_merge_constrained {o : Bool → Prop} {m m' e e' : BitState} {v : Bool}
    (hn : constrainedForEBit m e = m) (h : BitIs o m v) :
    BitIs o (constrainedForEBit (m.merge m') (e.merge e')) v := by
  cases m <;> cases m' <;> cases e <;> cases e' <;>
    simp_all [constrainedForEBit, BitState.merge, BitIs]

theorem entry_sound {o : Meaning} {a b : StackValue} (hc : a.canMergeWith b = true) (ha : NormalEntry a)
    {bs : List UInt8} (h : EntryDescribes o a bs) : EntryDescribes o (a.merge b) bs := by
  have key : ∀ f : StatusFlags, EntryDescribes o (.flags f) bs → bs.length = 1 := by
    rintro f ⟨b, rfl, -⟩; rfl
  by_cases hs : a.sameType b = true
  · cases a <;> cases b <;> simp only [StackValue.sameType, Bool.false_eq_true, decide_eq_true_eq] at hs
    case flags.flags f g =>
      obtain ⟨v, rfl, h1, h2, h3⟩ := h
      exact ⟨v, rfl, bitIs_merge_constrained ha.1 h1, bitIs_merge_constrained ha.2 h2,
        bitKnown_merge_left h3⟩
    case var.var r w r' w' =>
      subst hs
      simp only [StackValue.merge, StackValue.sameType, decide_true, Bool.not_true, Bool.false_eq_true,
        if_false]
      split_ifs <;> cases r <;> exact h
    case byte.byte v v' =>
      simp only [StackValue.merge, StackValue.sameType, Bool.not_true, Bool.false_eq_true, if_false]
      split_ifs <;> exact h
    all_goals
      (try subst hs)
      simp only [StackValue.merge, StackValue.sameType, decide_true, Bool.not_true, Bool.false_eq_true,
        if_false]
      exact h
  · have hv : a.isVarSize = false := by
      simp only [StackValue.canMergeWith, Bool.or_eq_true, Bool.and_eq_true, Bool.not_eq_true'] at hc
      exact (hc.resolve_left hs).1
    have hu : a.merge b = .unknown := by
      unfold StackValue.merge
      rw [if_pos (by simpa using hs)]
    rw [hu]
    show bs.length = 1
    cases a <;> first | exact key _ h | exact h | simp [StackValue.isVarSize] at hv

theorem stack_sound {o : Meaning} {l r m : List StackValue} (hl : ∀ v ∈ l, NormalEntry v)
    (hm : Stack.mergeList l r = some m) {s : List UInt8} (h : StackDescribes o l s) :
    StackDescribes o m s := by
  induction l generalizing r m s with
  | nil =>
    cases r with
    | nil => simp [Stack.mergeList] at hm; subst hm; trivial
    | cons b r => simp [Stack.mergeList] at hm
  | cons a l ih =>
    cases r with
    | nil => simp [Stack.mergeList] at hm
    | cons b r =>
      simp only [Stack.mergeList] at hm
      split at hm
      · rename_i hc
        cases hlr : Stack.mergeList l r with
        | none => rw [hlr] at hm; simp at hm
        | some m' =>
          rw [hlr] at hm
          simp only [Option.map_some, Option.some.injEq] at hm
          subst hm
          obtain ⟨bs, rest, rfl, h1, h2⟩ := h
          exact ⟨bs, rest, rfl, entry_sound hc (hl a (by simp)) h1,
            ih (fun v hv => hl v (List.mem_cons_of_mem _ hv)) hlr h2⟩
      · simp at hm

/-- Every processor state described by one of two states is described by their merge. -/
theorem C15_state_sound {o : Meaning} {p : Cpu} {s : ExecutionState} (hs : NormalState s)
    (h : Describes o s p) (t : ExecutionState) :
    Describes o (s.merge t) p ∧ Describes o (t.merge s) p := by
  have key : Describes o (s.merge t) p := by
    obtain ⟨h1, h2, h3⟩ := h
    refine ⟨h1, (C15_flags_sound h1 h2 t.flags).1, ?_⟩
    obtain ⟨-, hs2⟩ := hs
    simp only [ExecutionState.merge]
    cases hst : s.stack with
    | abandoned => simp [Stack.merge]
    | live l =>
      cases htt : t.stack with
      | abandoned => simp [Stack.merge]
      | live r =>
        simp only [Stack.merge]
        cases hm : Stack.mergeList l r with
        | none => trivial
        | some m =>
          rw [hst] at h3 hs2
          exact stack_sound hs2 hm h3
  exact ⟨key, by rw [C15_state_comm]; exact key⟩

/-- Merging keeps states normal. -/
theorem normal_merge {s t : ExecutionState} (_hs : NormalState s) : NormalState (s.merge t) := by
  refine ⟨normal_make _ _ _ _, ?_⟩
  simp only [ExecutionState.merge]
  cases s.stack with
  | abandoned => simp [Stack.merge, NormalStack]
  | live l =>
    cases t.stack with
    | abandoned => simp [Stack.merge, NormalStack]
    | live r =>
      simp only [Stack.merge]
      have : ∀ l r m, Stack.mergeList l r = some m → ∀ v ∈ m, NormalEntry v := by
        intro l
        induction l with
        | nil => intro r m h; cases r <;> simp [Stack.mergeList] at h; subst h; simp
        | cons a l ih =>
          intro r m h
          cases r with
          | nil => simp [Stack.mergeList] at h
          | cons b r =>
            simp only [Stack.mergeList] at h
            split at h
            · cases hlr : Stack.mergeList l r with
              | none => rw [hlr] at h; simp at h
              | some m' =>
                rw [hlr] at h
                simp only [Option.map_some, Option.some.injEq] at h
                subst h
                intro v hv
                rcases List.mem_cons.1 hv with rfl | hv
                · exact normal_entry_merge
                · exact ih r m' hlr v hv
            · simp at h
      cases hm : Stack.mergeList l r with
      | none => trivial
      | some m => exact this l r m hm

/-- Merging two states with non-empty stacks that hold saved flags. -/
example :
    let s : ExecutionState := ⟨.value 1, .unknown, .unknown, .unknown, .make .off .on .off .on,
      .live [.flags (.make .off .on .on .unknown), .byte 7]⟩
    let t : ExecutionState := ⟨.value 2, .unknown, .unknown, .unknown, .make .off .on .on .on,
      .live [.flags (.make .off .off .on .unknown), .byte 7]⟩
    NormalState s ∧ (s.merge t).stack = .live [.flags (.make .off .unknown .on .unknown), .byte 7] ∧
      Describes (.asIn ⟨false, false, false, false, []⟩) s ⟨false, true, false, true, [0x30, 7]⟩ := by
  refine ⟨⟨by decide, ?_⟩, by decide, ?_⟩
  · intro v hv
    simp at hv
    rcases hv with rfl | rfl
    · exact normal_make _ _ _ _
    · trivial
  · refine ⟨by intro h; simp at h, ⟨rfl, rfl, rfl, rfl⟩, ?_⟩
    exact ⟨[0x30], [7], rfl, ⟨0x30, rfl, rfl, rfl, trivial⟩, [7], [], rfl, rfl, trivial⟩

/-! ## Names -/

/-- The documented spellings of flag states, and what they mean. -/
def documented : List (Str × StatusFlags) :=
  [(cs!"unk", ⟨.unknown, .unknown, .unknown, .unknown⟩),
   (cs!"emu", ⟨.on, .on, .on, .unknown⟩),
   (cs!"native", ⟨.off, .unknown, .unknown, .unknown⟩),
   (cs!"m8", ⟨.off, .on, .unknown, .unknown⟩),
   (cs!"m16", ⟨.off, .off, .unknown, .unknown⟩),
   (cs!"x8", ⟨.off, .unknown, .on, .unknown⟩),
   (cs!"x16", ⟨.off, .unknown, .off, .unknown⟩),
   (cs!"m8x8", ⟨.off, .on, .on, .unknown⟩),
   (cs!"m8x16", ⟨.off, .on, .off, .unknown⟩),
   (cs!"m16x8", ⟨.off, .off, .on, .unknown⟩),
   (cs!"m16x16", ⟨.off, .off, .off, .unknown⟩)]

theorem consumeNamePart_iff (s : Str) (b : BitState) (rest : Str) :
    StatusFlags.consumeNamePart s = some (b, rest) ↔
      (b = .on ∧ s = '8' :: rest) ∨ (b = .off ∧ s = '1' :: '6' :: rest) := by
  constructor
  · intro h
    unfold StatusFlags.consumeNamePart at h
    split at h <;> simp only [Option.some.injEq, Prod.mk.injEq, reduceCtorEq] at h
    · exact Or.inl ⟨h.1.symm, by rw [h.2]⟩
    · exact Or.inr ⟨h.1.symm, by rw [h.2]⟩
  · rintro (⟨rfl, rfl⟩ | ⟨rfl, rfl⟩) <;> rfl

theorem consumeField_iff (ch : Char) (s : Str) (b : BitState) (rest : Str) :
    StatusFlags.consumeField ch s = some (b, rest) ↔
      (b = .on ∧ s = ch :: '8' :: rest) ∨ (b = .off ∧ s = ch :: '1' :: '6' :: rest) ∨
      (b = .unknown ∧ s = rest ∧ ∀ t, s ≠ ch :: t) := by
  unfold StatusFlags.consumeField
  cases s with
  | nil =>
    simp only [StatusFlags.consumeByte, Option.some.injEq, Prod.mk.injEq]
    constructor
    · rintro ⟨rfl, rfl⟩; simp
    · rintro (⟨-, h⟩ | ⟨-, h⟩ | ⟨rfl, rfl, -⟩)
      · simp at h
      · simp at h
      · exact ⟨rfl, rfl⟩
  | cons a t =>
    simp only [StatusFlags.consumeByte]
    by_cases ha : a = ch
    · subst ha
      simp only [if_true]
      rw [consumeNamePart_iff]
      simp
    · simp only [if_neg ha, Option.some.injEq, Prod.mk.injEq, List.cons.injEq, ha, false_and, and_false,
        false_or]
      constructor
      · rintro ⟨rfl, rfl⟩; exact ⟨rfl, rfl, by simp [ha]⟩
      · intro h; simp_all

/-- A name is accepted exactly when, ignoring case, it is one of the eleven documented
spellings, and it then means what is documented. -/
theorem C17_accepted_iff (s : Str) (f : StatusFlags) :
    StatusFlags.fromName s = some f ↔ (lower s, f) ∈ documented := by
  unfold StatusFlags.fromName
  generalize lower s = l
  simp only
  by_cases h1 : l = cs!"unk"
  · subst h1; simp [documented, StatusFlags.make, constrainedForEBit]; exact eq_comm
  by_cases h2 : l = cs!"emu"
  · subst h2; simp [documented, StatusFlags.make, constrainedForEBit]; exact eq_comm
  by_cases h3 : l = cs!"native"
  · subst h3; simp [documented, StatusFlags.make, constrainedForEBit]; exact eq_comm
  rw [if_neg h1, if_neg h2, if_neg h3]
  constructor
  · intro h
    split at h
    · simp at h
    · rename_i hne
      split at h
      · simp at h
      · rename_i m l' hm
        split at h
        · simp at h
        · rename_i x l'' hx
          split at h
          · rename_i hemp
            rw [List.isEmpty_iff] at hemp
            subst hemp
            simp only [Option.some.injEq] at h
            subst h
            rw [consumeField_iff] at hm hx
            rcases hx with ⟨rfl, rfl⟩ | ⟨rfl, rfl⟩ | ⟨rfl, rfl, -⟩ <;>
              rcases hm with ⟨rfl, rfl⟩ | ⟨rfl, rfl⟩ | ⟨rfl, rfl, -⟩ <;>
              first
              | (simp at hne; done)
              | decide
          · simp at h
  · intro h
    simp only [documented, List.mem_cons, Prod.mk.injEq, h1, h2, h3, false_and, false_or,
      List.not_mem_nil, or_false] at h
    rcases h with ⟨rfl, rfl⟩ | ⟨rfl, rfl⟩ | ⟨rfl, rfl⟩ | ⟨rfl, rfl⟩ | ⟨rfl, rfl⟩ | ⟨rfl, rfl⟩ |
      ⟨rfl, rfl⟩ | ⟨rfl, rfl⟩ <;> decide

theorem toLowerC_idem (c : Char) : toLowerC (toLowerC c) = toLowerC c := by
  unfold toLowerC
  split
  · rename_i h
    have hc : c = Char.ofNat c.toNat := (Char.ofNat_toNat c).symm
    have h1 : 65 ≤ c.toNat := h.1
    have h2 : c.toNat ≤ 90 := h.2
    have key : ∀ n, 65 ≤ n → n ≤ 90 → toLowerC (Char.ofNat (n + 32)) = Char.ofNat (n + 32) := by
      intro n h1 h2
      have : n ∈ List.range' 65 26 := by rw [List.mem_range']; exact ⟨n - 65, by omega, by omega⟩
      have hall : ∀ n ∈ List.range' 65 26, toLowerC (Char.ofNat (n + 32)) = Char.ofNat (n + 32) := by
        decide
      exact hall n this
    exact key _ h1 h2
  · rfl

/-- Parsing a name ignores case. -/
theorem C17_case_insensitive (s : Str) : StatusFlags.fromName (lower s) = StatusFlags.fromName s := by
  have h : lower (lower s) = lower s := by
    unfold lower
    rw [List.map_map]
    apply List.map_congr_left
    intro c _
    exact toLowerC_idem c
  apply Option.ext
  intro f
  simp only [C17_accepted_iff, h]

/-- Parsing the printed name of a flag state gives back E and, in native mode, exactly
what was known about M and X (in emulation mode both are on).  When E is not known the
name says nothing. -/
theorem C17_name_round_trip {f : StatusFlags} (h : Normal f) :
    ∃ g, StatusFlags.fromName f.toName = some g ∧ g.c = .unknown ∧
      (f.e = .on → g.e = .on ∧ g.m = f.m ∧ g.x = f.x) ∧
      (f.e = .off → g.e = .off ∧
        (f.m = .on ∨ f.m = .off → g.m = f.m) ∧ (f.x = .on ∨ f.x = .off → g.x = f.x) ∧
        (f.m = .original ∨ f.m = .unknown → g.m = .unknown) ∧
        (f.x = .original ∨ f.x = .unknown → g.x = .unknown)) ∧
      (f.e = .original ∨ f.e = .unknown → g = .default) := by
  have key : ∀ e m x : BitState, Normal ⟨e, m, x, .unknown⟩ →
      ∃ g, StatusFlags.fromName (StatusFlags.toName ⟨e, m, x, .unknown⟩) = some g ∧ g.c = .unknown ∧
      (e = .on → g.e = .on ∧ g.m = m ∧ g.x = x) ∧
      (e = .off → g.e = .off ∧
        (m = .on ∨ m = .off → g.m = m) ∧ (x = .on ∨ x = .off → g.x = x) ∧
        (m = .original ∨ m = .unknown → g.m = .unknown) ∧
        (x = .original ∨ x = .unknown → g.x = .unknown)) ∧
      (e = .original ∨ e = .unknown → g = .default) := by
    intro e m x hn
    cases e <;> cases m <;> cases x <;>
      first
      | (exfalso; revert hn; decide)
      | (refine ⟨_, rfl, ?_⟩; decide)
  obtain ⟨e, m, x, c⟩ := f
  exact key e m x h

/-- Names cannot express an M or X known on in an unknown mode: two obtainable states
that differ there have the same name. -/
theorem C17_name_loses_m : ∃ f g : StatusFlags, Obtainable f ∧ Obtainable g ∧ f.m ≠ g.m ∧
    f.toName = g.toName :=
  ⟨.make .unknown .on .unknown .unknown, .make .unknown .unknown .unknown .unknown,
    .make _ _ _ _, .make _ _ _ _, by decide, by decide⟩

example : StatusFlags.fromName (cs!"M8x16") = some ⟨.off, .on, .off, .unknown⟩ ∧
    StatusFlags.fromName (cs!"x8m8") = none ∧
    (StatusFlags.make .off .off .on .on).toName = cs!"m16x8" := by decide

end Nsasm.Props
