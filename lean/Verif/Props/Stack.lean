import Verif.Props.Execute

/-!
# The tracked stack: registers, saved flags, undefined behaviour (C19, C20, C21)
-/

namespace Nsasm.Props

open Nsasm Nsasm.Spec

set_option linter.unusedSimpArgs false

/-! ## C19 -/

/-- The instruction that pushes, and the one that pulls, a register. -/
def pushOf : RegName → Instruction
  | .a => plain .pha | .x => plain .phx | .y => plain .phy

def pullOf : RegName → Instruction
  | .a => plain .pla | .x => plain .plx | .y => plain .ply

/-- A register of a tracked state, and the flag that gives its size. -/
def regOf : RegName → ExecutionState → RegisterValue
  | .a, es => es.a | .x, es => es.x | .y, es => es.y

def sizeBit : RegName → StatusFlags → BitState
  | .a, f => f.m | _, f => f.x

def withReg : RegName → ExecutionState → RegisterValue → ExecutionState
  | .a, es, v => { es with a := v }
  | .x, es, v => { es with x := v }
  | .y, es, v => { es with y := v }

theorem execute_push (r : RegName) (es : ExecutionState) (ctx : Ctx) :
    (pushOf r).execute es ctx = .ok { es with stack := es.stack.pushReg r (regOf r es) (sizeBit r es.flags) } := by
  have h : ∀ mn ∈ [Mnemonic.pha, .phx, .phy], (plain mn).checkConsistency es.flags = .ok () := by
    intro mn hmn
    unfold Instruction.checkConsistency Instruction.checkSuffix Instruction.checkImmediate plain
    simp only [List.mem_cons, List.not_mem_nil, or_false] at hmn
    have : ∀ mn ∈ [Mnemonic.pha, .phx, .phy], isLegalCombination mn .imp = true := by decide +kernel
    rcases hmn with rfl | rfl | rfl <;> simp [this]
  cases r <;> unfold Instruction.execute <;> simp only [pushOf] <;> rw [h _ (by simp)] <;> rfl

theorem execute_pull (r : RegName) (es : ExecutionState) (ctx : Ctx) :
    (pullOf r).execute es ctx = (es.stack.pullReg r (sizeBit r es.flags)).bind
      fun (v, s) => .ok (withReg r { es with stack := s } v) := by
  have h : ∀ mn ∈ [Mnemonic.pla, .plx, .ply], (plain mn).checkConsistency es.flags = .ok () := by
    intro mn hmn
    unfold Instruction.checkConsistency Instruction.checkSuffix Instruction.checkImmediate plain
    simp only [List.mem_cons, List.not_mem_nil, or_false] at hmn
    have : ∀ mn ∈ [Mnemonic.pla, .plx, .ply], isLegalCombination mn .imp = true := by decide +kernel
    rcases hmn with rfl | rfl | rfl <;> simp [this]
  cases r <;> unfold Instruction.execute <;> simp only [pullOf] <;> rw [h _ (by simp)] <;> rfl

/-- What a register is tracked as after it has been pushed and pulled: bytes come back
swapped when the register is 16 bits wide. -/
def pulledBack (bit : BitState) : RegisterValue → RegisterValue
  | .value v => if bit = .on then .value (v % 256) else .value (v % 256 * 256 + v / 256 % 256)
  | v => v

theorem push_pull (r : RegName) (v : RegisterValue) (l : List StackValue) {b : BitState}
    (hb : b = .on ∨ b = .off) :
    ((Stack.live l).pushReg r v b).pullReg r b = .ok (pulledBack b v, .live l) := by
  rcases hb with rfl | rfl
  · cases v <;> simp [Stack.pushReg, Stack.pullReg, StackValue.ofLo, Stack.pullByte, StackValue.isVarSize,
      pulledBack]
  · cases v <;> simp [Stack.pushReg, Stack.pullReg, StackValue.ofLo, StackValue.ofHi, Stack.pullByte,
      StackValue.isVarSize, pulledBack]

/-- Where the size of the register is known and the stack is tracked, pushing it and
pulling it again is accepted, leaves the stack, the flags and all other registers as they
were, and restores the register exactly in these cases: its value is not known, or it is 8 bits
wide and its value fits, or it is 16 bits wide and both bytes of its value are equal. -/
theorem C19_push_pull_partial (r : RegName) (es : ExecutionState) (ctx : Ctx) (l : List StackValue)
    (hl : es.stack = .live l) (hb : sizeBit r es.flags = .on ∨ sizeBit r es.flags = .off) :
    ∃ es1 es2, (pushOf r).execute es ctx = .ok es1 ∧ (pullOf r).execute es1 ctx = .ok es2 ∧
      es2 = withReg r es (regOf r es2) ∧
      (es2 = es ↔ ∀ v, regOf r es = .value v →
        (sizeBit r es.flags = .on → v < 256) ∧
        (sizeBit r es.flags = .off → v < 65536 ∧ v % 256 = v / 256)) := by
  refine ⟨_, withReg r es (pulledBack (sizeBit r es.flags) (regOf r es)), execute_push r es ctx, ?_, ?_, ?_⟩
  · rw [execute_pull]
    have h1 : sizeBit r ({ es with stack := es.stack.pushReg r (regOf r es) (sizeBit r es.flags) } : ExecutionState).flags
        = sizeBit r es.flags := rfl
    rw [h1]
    show Res.bind ((es.stack.pushReg r (regOf r es) (sizeBit r es.flags)).pullReg r _) _ = _
    rw [hl, push_pull r _ l hb]
    obtain ⟨a, x, y, d, f, s⟩ := es
    simp only at hl
    subst hl
    cases r <;> rfl
  · cases r <;> rfl
  · have h1 : withReg r es (pulledBack (sizeBit r es.flags) (regOf r es)) = es ↔
        pulledBack (sizeBit r es.flags) (regOf r es) = regOf r es := by
      obtain ⟨a, x, y, d, f, s⟩ := es
      cases r <;> simp [withReg, regOf]
    rw [h1]
    cases hv : regOf r es with
    | unknown => simp [pulledBack]
    | original => simp [pulledBack]
    | value v =>
      rcases hb with h | h <;> rw [h] <;> simp [pulledBack] <;> omega

example : (⟨.value 0x12, .unknown, .unknown, .unknown, .make .off .on .off .unknown,
    .live [.byte 1]⟩ : ExecutionState).stack = .live [.byte 1] ∧
    sizeBit .a (StatusFlags.make .off .on .off .unknown) = .on := by decide

/-- A 16-bit accumulator that holds `$1234` is taken to hold `$3412` afterwards. -/
theorem C19_violated : ∃ (es es1 es2 : ExecutionState), es.stack = .live [] ∧ es.flags.m = .off ∧
    es.a = .value 0x1234 ∧ (pushOf .a).execute es nullCtx = .ok es1 ∧
    (pullOf .a).execute es1 nullCtx = .ok es2 ∧ es2.a = .value 0x3412 :=
  ⟨⟨.value 0x1234, .unknown, .unknown, .unknown, .make .off .off .off .unknown, .live []⟩,
   ⟨.value 0x1234, .unknown, .unknown, .unknown, .make .off .off .off .unknown, .live [.byte 0x34, .byte 0x12]⟩,
   ⟨.value 0x3412, .unknown, .unknown, .unknown, .make .off .off .off .unknown, .live []⟩,
   rfl, rfl, rfl, by decide +kernel, by decide +kernel, rfl⟩

/-- When the size is as on entry and unknown, pulling the register back is undefined; when it is
unknown the stack is not tracked any more. -/
theorem C19_violated_other_sizes (r : RegName) (es : ExecutionState) (ctx : Ctx) (l : List StackValue)
    (hl : es.stack = .live l) :
    ∃ es1, (pushOf r).execute es ctx = .ok es1 ∧
      (sizeBit r es.flags = .original → (pullOf r).execute es1 ctx = .ub .assertFail) ∧
      (sizeBit r es.flags = .unknown → es1.stack = .abandoned) := by
  refine ⟨_, execute_push r es ctx, ?_, ?_⟩
  · intro h
    rw [execute_pull]
    simp only [h, hl, Stack.pushReg]
    have : sizeBit r es.flags = .original := h
    simp [Stack.pullReg, Stack.pullVarsize, StackValue.ofVar, StackValue.isVarSize, this, Res.bind]
  · intro h
    simp [h, hl, Stack.pushReg]

/-! ## C20 -/

/-- The number of bytes an instruction pushes, if the analysis can tell. -/
def pushed (f : StatusFlags) : Mnemonic → Option Nat
  | .pha => match f.m with | .on => some 1 | .off => some 2 | _ => none
  | .phx | .phy => match f.x with | .on => some 1 | .off => some 2 | _ => none
  | .php => some 1
  | .pea | .pei | .per => some 2
  | .phb | .phk => some 1
  | .phd => some 2
  | _ => none

/-- The number of bytes an instruction pulls. -/
def pulled (f : StatusFlags) : Mnemonic → Option Nat
  | .pla => match f.m with | .on => some 1 | .off => some 2 | _ => none
  | .plx | .ply => match f.x with | .on => some 1 | .off => some 2 | _ => none
  | .plp => some 1
  | .plb => some 1
  | .pld => some 2
  | _ => none

/-- The instructions that use the stack. -/
def usesStack (mn : Mnemonic) : Prop :=
  mn ∈ [Mnemonic.pha, .phx, .phy, .php, .pea, .pei, .per, .phb, .phk, .phd,
        .pla, .plx, .ply, .plp, .plb, .pld, .txs, .tcs]

instance (mn : Mnemonic) : Decidable (usesStack mn) := by unfold usesStack; infer_instance

/-- Balanced sequences: every push is matched by a later pull of as many bytes, and the
pushes and pulls are properly nested.  A push of the data bank, program bank or direct
page register is matched by a pull of one of them. -/
inductive Balanced (ctx : Ctx) : ExecutionState → List Instruction → ExecutionState → Prop
  | nil {es} : Balanced ctx es [] es
  | other {es es' i} (hi : ¬ usesStack i.mnemonic) (h : i.execute es ctx = .ok es') :
      Balanced ctx es [i] es'
  | pair {es es1 es2 es3 i body j n} (hi : i.execute es ctx = .ok es1) (hb : Balanced ctx es1 body es2)
      (hj : j.execute es2 ctx = .ok es3) (hpush : pushed es.flags i.mnemonic = some n)
      (hpull : pulled es2.flags j.mnemonic = some n)
      (hkind : Untracked i.mnemonic ↔ Untracked j.mnemonic) :
      Balanced ctx es (i :: (body ++ [j])) es3
  | append {es es1 es2 a b} (ha : Balanced ctx es a es1) (hb : Balanced ctx es1 b es2) :
      Balanced ctx es (a ++ b) es2

/-- What one instruction does to the tracked stack. -/
theorem execute_stack {i : Instruction} {es es' : ExecutionState} {ctx : Ctx}
    (h : i.execute es ctx = .ok es') (hns : ¬ usesStack i.mnemonic ∨ Untracked i.mnemonic) :
    es'.stack = es.stack := by
  unfold Instruction.execute at h
  obtain ⟨-, -, h⟩ := Res.bind_eq_ok.1 h
  extract_lets m at h
  subst m
  rcases ite_cases h with ⟨hm, h⟩ | ⟨-, h⟩
  · cases h; rfl
  rcases ite_cases h with ⟨hm, h⟩ | ⟨-, h⟩
  · cases h; rfl
  rcases ite_cases h with ⟨hm, h⟩ | ⟨-, h⟩
  · obtain ⟨_, -, h⟩ := Res.bind_eq_ok.1 h
    cases h; rfl
  rcases ite_cases h with ⟨hm, h⟩ | ⟨-, h⟩
  · cases h; rfl
  rcases ite_cases h with ⟨hm, h⟩ | ⟨-, h⟩
  · cases h; rfl
  rcases ite_cases h with ⟨hm, h⟩ | ⟨-, h⟩
  · cases h; rfl
  rcases ite_cases h with ⟨hm, h⟩ | ⟨-, h⟩
  · unfold Instruction.executeIncDec at h
    split at h
    · cases h; rfl
    · simp only at h
      split at h
      · obtain ⟨a, -, h⟩ := Res.bind_eq_ok.1 h; cases h; rfl
      split at h
      · obtain ⟨a, -, h⟩ := Res.bind_eq_ok.1 h; cases h; rfl
      · obtain ⟨a, -, h⟩ := Res.bind_eq_ok.1 h; cases h; rfl
  rcases ite_cases h with ⟨hm, h⟩ | ⟨-, h⟩
  · unfold Instruction.executeLoad at h
    split at h
    · obtain ⟨a, -, h⟩ := Res.bind_eq_ok.1 h
      simp only at h
      split at h
      · cases h; rfl
      split at h
      · cases h; rfl
      · cases h; rfl
    · cases h; rfl
  rcases ite_cases h with ⟨hm, h⟩ | ⟨-, h⟩
  · unfold Instruction.executeMove at h
    obtain ⟨_, -, h⟩ := Res.bind_eq_ok.1 h
    obtain ⟨⟨_, _⟩, -, h⟩ := Res.bind_eq_ok.1 h
    obtain ⟨_, -, h⟩ := Res.bind_eq_ok.1 h
    cases h; rfl
  rcases ite_cases h with ⟨hm, h⟩ | ⟨-, h⟩
  · exfalso; rw [hm] at hns; revert hns; decide
  rcases ite_cases h with ⟨hm, h⟩ | ⟨-, h⟩
  · exfalso; rcases hm with hm | hm <;> rw [hm] at hns <;> revert hns <;> decide
  rcases ite_cases h with ⟨hm, h⟩ | ⟨-, h⟩
  · exfalso; rw [hm] at hns; revert hns; decide
  rcases ite_cases h with ⟨hm, h⟩ | ⟨-, h⟩
  · exfalso; rw [hm] at hns; revert hns; decide
  rcases ite_cases h with ⟨hm, h⟩ | ⟨-, h⟩
  · exfalso; rw [hm] at hns; revert hns; decide
  rcases ite_cases h with ⟨hm, h⟩ | ⟨-, h⟩
  · exfalso; rw [hm] at hns; revert hns; decide
  rcases ite_cases h with ⟨hm, h⟩ | ⟨-, h⟩
  · exfalso; rw [hm] at hns; revert hns; decide
  rcases ite_cases h with ⟨hm, h⟩ | ⟨-, h⟩
  · exfalso; rw [hm] at hns; revert hns; decide
  rcases ite_cases h with ⟨hm, h⟩ | ⟨-, h⟩
  · exfalso; rw [hm] at hns; revert hns; decide
  rcases ite_cases h with ⟨hm, h⟩ | ⟨-, h⟩
  · exfalso; rw [hm] at hns; revert hns; decide
  rcases ite_cases h with ⟨hm, h⟩ | ⟨-, h⟩
  · cases h; rfl
  rcases ite_cases h with ⟨hm, h⟩ | ⟨-, h⟩
  · cases h; rfl
  · cases h; rfl

theorem execute_tail {i : Instruction} {es es' : ExecutionState} {ctx : Ctx}
    (h : i.execute es ctx = .ok es') :
    (i.mnemonic = .pea → ∃ arg, es'.stack = es.stack.pushWord arg) ∧
    (i.mnemonic = .pei → es'.stack = es.stack.pushWord none) ∧
    (i.mnemonic = .per → es'.stack = es.stack.pushWord none) ∧
    (i.mnemonic = .pha → es'.stack = es.stack.pushReg .a es.a es.flags.m) ∧
    (i.mnemonic = .phx → es'.stack = es.stack.pushReg .x es.x es.flags.x) ∧
    (i.mnemonic = .phy → es'.stack = es.stack.pushReg .y es.y es.flags.x) ∧
    (i.mnemonic = .pla → ∃ v, es.stack.pullReg .a es.flags.m = .ok (v, es'.stack)) ∧
    (i.mnemonic = .plx → ∃ v, es.stack.pullReg .x es.flags.x = .ok (v, es'.stack)) ∧
    (i.mnemonic = .ply → ∃ v, es.stack.pullReg .y es.flags.x = .ok (v, es'.stack)) ∧
    (i.mnemonic = .php → es' = es.pushFlags) ∧
    (i.mnemonic = .plp → es' = es.pullFlags) := by
  unfold Instruction.execute at h
  obtain ⟨-, -, h⟩ := Res.bind_eq_ok.1 h
  extract_lets m at h
  subst m
  refine ⟨?_, ?_, ?_, ?_, ?_, ?_, ?_, ?_, ?_, ?_, ?_⟩ <;> intro hm <;> rw [hm] at h <;> simp at h
  · obtain ⟨arg, -, h⟩ := Res.bind_eq_ok.1 h
    cases h
    exact ⟨arg, rfl⟩
  · rw [← h]; rfl
  · rw [← h]; rfl
  · rw [← h]
  · rw [← h]
  · rw [← h]
  · obtain ⟨⟨v, s⟩, h1, h2⟩ := Res.bind_eq_ok.1 h
    cases h2
    exact ⟨v, h1⟩
  · obtain ⟨⟨v, s⟩, h1, h2⟩ := Res.bind_eq_ok.1 h
    cases h2
    exact ⟨v, h1⟩
  · obtain ⟨⟨v, s⟩, h1, h2⟩ := Res.bind_eq_ok.1 h
    cases h2
    exact ⟨v, h1⟩
  · exact h.symm
  · exact h.symm

theorem pushReg_live (r : RegName) (v : RegisterValue) (l : List StackValue) {b : BitState} {n : Nat}
    (hb : (match b with | .on => some 1 | .off => some 2 | _ => none) = some n) :
    ∃ vs, (Stack.live l).pushReg r v b = .live (vs ++ l) ∧ vs.length = n ∧ ∀ w ∈ vs, w.isVarSize = false := by
  cases b <;> simp at hb <;> subst hb
  · refine ⟨[.ofLo r v, .ofHi r v], rfl, rfl, ?_⟩
    cases v <;> simp [StackValue.ofLo, StackValue.ofHi, StackValue.isVarSize]
  · refine ⟨[.ofLo r v], rfl, rfl, ?_⟩
    cases v <;> simp [StackValue.ofLo, StackValue.isVarSize]

theorem pushWord_live (arg : Option Int) (l : List StackValue) :
    ∃ vs, (Stack.live l).pushWord arg = .live (vs ++ l) ∧ vs.length = 2 ∧ ∀ w ∈ vs, w.isVarSize = false := by
  cases arg with
  | none => exact ⟨[.unknown, .unknown], rfl, rfl, by simp [StackValue.isVarSize]⟩
  | some v => exact ⟨[.byte _, .byte _], rfl, rfl, by simp [StackValue.isVarSize]⟩

theorem pullReg_live (r : RegName) {vs l : List StackValue} {b : BitState} {v : RegisterValue} {s : Stack}
    (hb : (match b with | .on => some 1 | .off => some 2 | _ => none) = some vs.length)
    (hv : ∀ w ∈ vs, w.isVarSize = false)
    (h : (Stack.live (vs ++ l)).pullReg r b = .ok (v, s)) : s = .live l := by
  cases b <;> simp at hb
  · obtain ⟨w1, w2, rfl⟩ : ∃ a b, vs = [a, b] := by
      match vs, hb.symm with
      | [a, b], _ => exact ⟨a, b, rfl⟩
    simp only [List.mem_cons, List.not_mem_nil, or_false, forall_eq_or_imp, forall_eq] at hv
    simp only [Stack.pullReg, Stack.pullByte, List.cons_append, List.nil_append, hv.1, hv.2,
      Bool.false_eq_true, if_false] at h
    split at h
    · split at h <;> simp at h <;> exact h.2.symm
    · simp at h; exact h.2.symm
    · simp at h; exact h.2.symm
  · obtain ⟨w1, rfl⟩ := List.length_eq_one_iff.1 hb.symm
    simp only [List.mem_cons, List.not_mem_nil, or_false, forall_eq_or_imp, forall_eq] at hv
    simp only [Stack.pullReg, Stack.pullByte, List.cons_append, List.nil_append, hv,
      Bool.false_eq_true, if_false] at h
    split at h
    · split at h <;> simp at h <;> exact h.2.symm
    · simp at h; exact h.2.symm
    · simp at h; exact h.2.symm

theorem push_live {i : Instruction} {es es' : ExecutionState} {ctx : Ctx} {n : Nat} {l : List StackValue}
    (h : i.execute es ctx = .ok es') (hp : pushed es.flags i.mnemonic = some n)
    (hu : ¬ Untracked i.mnemonic) (hl : es.stack = .live l) :
    ∃ vs, es'.stack = .live (vs ++ l) ∧ vs.length = n ∧ ∀ w ∈ vs, w.isVarSize = false := by
  obtain ⟨t1, t2, t3, t4, t5, t6, -, -, -, t7, -⟩ := execute_tail h
  rw [hl] at t1 t2 t3 t4 t5 t6
  clear h
  generalize i.mnemonic = mn at *
  cases mn <;> simp only [pushed, Option.some.injEq, reduceCtorEq] at hp <;>
    first
    | (exfalso; revert hu; decide)
    | (rw [t4 rfl]; exact pushReg_live _ _ _ hp)
    | (rw [t5 rfl]; exact pushReg_live _ _ _ hp)
    | (rw [t6 rfl]; exact pushReg_live _ _ _ hp)
    | (subst hp; obtain ⟨arg, ha⟩ := t1 rfl; rw [ha]; exact pushWord_live _ _)
    | (subst hp; rw [t2 rfl]; exact pushWord_live _ _)
    | (subst hp; rw [t3 rfl]; exact pushWord_live _ _)
    | (subst hp; rw [t7 rfl]; exact ⟨[.flags es.flags], by simp [ExecutionState.pushFlags, hl, Stack.push], rfl,
        by simp [StackValue.isVarSize]⟩)

theorem pull_live {i : Instruction} {es es' : ExecutionState} {ctx : Ctx} {vs l : List StackValue}
    (h : i.execute es ctx = .ok es') (hp : pulled es.flags i.mnemonic = some vs.length)
    (hu : ¬ Untracked i.mnemonic) (hl : es.stack = .live (vs ++ l))
    (hv : ∀ w ∈ vs, w.isVarSize = false) : es'.stack = .live l := by
  obtain ⟨-, -, -, -, -, -, t4, t5, t6, -, t7⟩ := execute_tail h
  rw [hl] at t4 t5 t6
  clear h
  generalize i.mnemonic = mn at *
  cases mn <;> simp only [pulled, Option.some.injEq, reduceCtorEq] at hp <;>
    first
    | (exfalso; revert hu; decide)
    | (obtain ⟨v, h⟩ := t4 rfl; exact pullReg_live _ hp hv h)
    | (obtain ⟨v, h⟩ := t5 rfl; exact pullReg_live _ hp hv h)
    | (obtain ⟨v, h⟩ := t6 rfl; exact pullReg_live _ hp hv h)
    | (obtain ⟨w1, rfl⟩ := List.length_eq_one_iff.1 hp.symm
       rw [t7 rfl]
       simp only [List.mem_cons, List.not_mem_nil, or_false, forall_eq_or_imp, forall_eq] at hv
       unfold ExecutionState.pullFlags
       simp only [hl, Stack.pullByte, List.cons_append, List.nil_append, hv, Bool.false_eq_true, if_false]
       split <;> rfl)

/-- A balanced sequence leaves the tracked stack exactly as it was. -/
theorem C20_balanced_stack {ctx : Ctx} {es es' : ExecutionState} {is : List Instruction}
    (h : Balanced ctx es is es') : ∀ l, es.stack = .live l → es'.stack = .live l := by
  induction h with
  | nil => exact fun l h => h
  | other hi h => intro l hl; rw [execute_stack h (Or.inl hi)]; exact hl
  | @pair es es1 es2 es3 i body j n hi hb hj hpush hpull hkind ih =>
    intro l hl
    by_cases hu : Untracked i.mnemonic
    · rw [execute_stack hj (Or.inr (hkind.1 hu))]
      exact ih l (by rw [execute_stack hi (Or.inr hu)]; exact hl)
    · obtain ⟨vs, h1, h2, h3⟩ := push_live hi hpush hu hl
      rw [← h2] at hpull
      exact pull_live hj hpull (fun h => hu (hkind.2 h)) (ih _ h1) h3
  | append ha hb iha ihb => exact fun l hl => ihb l (iha l hl)

/-- PHP, a balanced sequence, PLP: the stack is as it was, and so are the carry and, if
the E bit is tracked as it was, all flags.  If native mode is known, M and X are as they
were; in emulation mode they are on; if the mode is not known, what was on is on, and what
was as on entry is so only if the E bit is as on entry.

Partial: the sequence is balanced in the sense of `Balanced`, where every push and pull
has a size the analysis knows, and the stack is tracked at the start. -/
theorem C20_php_plp_partial {ctx : Ctx} {es es1 es2 es3 : ExecutionState} {php plp : Instruction}
    {body : List Instruction} (hphp : php.mnemonic = .php) (hplp : plp.mnemonic = .plp)
    {l : List StackValue} (hl : es.stack = .live l) (hn : Normal es.flags)
    (h1 : php.execute es ctx = .ok es1) (hb : Balanced ctx es1 body es2)
    (h2 : plp.execute es2 ctx = .ok es3) :
    es3.stack = es.stack ∧ es3.flags.c = es.flags.c ∧ es3.flags.e = es2.flags.e ∧
    (es2.flags.e = es.flags.e → es3.flags = es.flags) ∧
    (es2.flags.e = .off → es3.flags.m = es.flags.m ∧ es3.flags.x = es.flags.x) ∧
    (es2.flags.e = .on → es3.flags.m = .on ∧ es3.flags.x = .on) ∧
    (es.flags.m = .on → es3.flags.m = .on) ∧ (es.flags.x = .on → es3.flags.x = .on) := by
  have e1 := (execute_tail h1).2.2.2.2.2.2.2.2.2.1 hphp
  have e3 := (execute_tail h2).2.2.2.2.2.2.2.2.2.2 hplp
  have hs1 : es1.stack = .live (.flags es.flags :: l) := by
    rw [e1]; simp [ExecutionState.pushFlags, hl, Stack.push]
  have hs2 := C20_balanced_stack hb _ hs1
  have hes3 : es3 = ⟨es2.a, es2.x, es2.y, es2.dbr,
      .make es2.flags.e es.flags.m es.flags.x es.flags.c, .live l⟩ := by
    rw [e3]
    unfold ExecutionState.pullFlags
    rw [hs2]
    simp [Stack.pullByte, StackValue.isVarSize]
  subst hes3
  obtain ⟨n1, n2⟩ := hn
  refine ⟨hl.symm, rfl, rfl, ?_, ?_, ?_, ?_, ?_⟩
  · intro h
    simp [StatusFlags.make, h, n1, n2]
  · intro h
    rw [h]
    simp [StatusFlags.make, constrainedForEBit]
  · intro h
    rw [h]
    simp [StatusFlags.make, constrainedForEBit]
  · intro h
    rw [h]
    cases es2.flags.e <;> simp [StatusFlags.make, constrainedForEBit]
  · intro h
    rw [h]
    cases es2.flags.e <;> simp [StatusFlags.make, constrainedForEBit]

/-- Not balanced in that sense: PHP, PHB, PLA, PLP with an 8-bit accumulator.  The
processor restores its flags, the analysis forgets them. -/
theorem C20_violated : ∃ (es es' : ExecutionState), es.stack = .live [] ∧ es.flags.m = .on ∧
    (((plain .php).execute es nullCtx).bind fun es => ((plain .phb).execute es nullCtx).bind fun es =>
      ((plain .pla).execute es nullCtx).bind fun es => (plain .plp).execute es nullCtx) = .ok es' ∧
    es'.flags.m = .unknown ∧ es'.stack = .abandoned :=
  ⟨⟨.unknown, .unknown, .unknown, .unknown, .make .off .on .off .unknown, .live []⟩,
   ⟨.unknown, .unknown, .unknown, .unknown, .make .off .unknown .unknown .unknown, .abandoned⟩,
   rfl, rfl, by decide +kernel, rfl, rfl⟩

/-- A balanced sequence with nested pushes of different registers: PHA, SEP #$30, PHB,
PLB, PHX, PLY, REP #$20, PLX with 16-bit X pulling what a 16-bit A pushed. -/
example : ∃ es', Balanced nullCtx
    ⟨.value 0x1234, .unknown, .unknown, .unknown, .make .off .off .off .unknown, .live [.byte 9]⟩
    [plain .pha, immB .sep 0x30, plain .phx, plain .ply, immB .rep 0x30, plain .plx] es' := by
  refine ⟨⟨.value 0x1234, .value 0x3412, .unknown, .unknown, .make .off .off .off .unknown,
    .live [.byte 9]⟩, ?_⟩
  refine .pair (es1 := ⟨.value 0x1234, .unknown, .unknown, .unknown, .make .off .off .off .unknown,
      .live [.byte 0x34, .byte 0x12, .byte 9]⟩)
    (es2 := ⟨.value 0x1234, .unknown, .unknown, .unknown, .make .off .off .off .unknown,
      .live [.byte 0x34, .byte 0x12, .byte 9]⟩)
    (body := [immB .sep 0x30, plain .phx, plain .ply, immB .rep 0x30]) (n := 2)
    (by decide +kernel) ?_ (by decide +kernel) rfl rfl (by decide)
  refine .append (a := [immB .sep 0x30]) (es1 := ⟨.value 0x1234, .unknown, .unknown, .unknown,
      .make .off .on .on .unknown, .live [.byte 0x34, .byte 0x12, .byte 9]⟩)
    (.other (by decide) (by decide +kernel)) ?_
  refine .append (a := [plain .phx, plain .ply]) (es1 := ⟨.value 0x1234, .unknown, .unknown, .unknown,
      .make .off .on .on .unknown, .live [.byte 0x34, .byte 0x12, .byte 9]⟩) ?_ ?_
  · exact .pair (body := []) (n := 1) (es1 := ⟨.value 0x1234, .unknown, .unknown, .unknown,
      .make .off .on .on .unknown, .live [.unknown, .byte 0x34, .byte 0x12, .byte 9]⟩)
      (by decide +kernel) .nil (by decide +kernel) rfl rfl (by decide)
  · exact .other (by decide) (by decide +kernel)

/-! ## C21 -/

/-- Execute a list of instructions, one after the other. -/
def executeAll (ctx : Ctx) : List Instruction → ExecutionState → Res ExecutionState
  | [], es => .ok es
  | i :: is, es => (i.execute es ctx).bind (executeAll ctx is)

/-- Every tracked register value is a 16-bit value. -/
def Small16 (es : ExecutionState) : Prop :=
  (∀ v, es.a = .value v → v < 65536) ∧ (∀ v, es.x = .value v → v < 65536) ∧
  (∀ v, es.y = .value v → v < 65536) ∧ (∀ v, es.dbr = .value v → v < 65536)

theorem add_small {r r' : RegisterValue} {o : Int} {mask : Nat} (hm : mask ≤ 65535)
    (h : r.add o mask = .ok r') : ∀ v, r' = .value v → v < 65536 := by
  cases r with
  | value w =>
    simp only [RegisterValue.add] at h
    obtain ⟨s, -, h⟩ := Res.bind_eq_ok.1 h
    cases h
    intro v hv
    cases hv
    have := Int.emod_lt_of_pos s (b := (mask + 1 : Nat)) (by omega)
    have := Int.emod_nonneg s (b := (mask + 1 : Nat)) (by omega)
    omega
  | unknown => cases h; simp
  | original => cases h; simp

theorem ofInt_small (o : Int) : ∀ v, RegisterValue.ofInt o = .value v → v < 65536 := by
  intro v h
  cases h
  omega

theorem pullReg_small {s s' : Stack} {r : RegName} {b : BitState} {x : RegisterValue}
    (h : s.pullReg r b = .ok (x, s')) : ∀ v, x = .value v → v < 65536 := by
  intro v hv
  subst hv
  cases s with
  | abandoned => simp [Stack.pullReg] at h
  | live l =>
    cases b with
    | unknown => simp [Stack.pullReg] at h
    | original =>
      simp only [Stack.pullReg] at h
      obtain ⟨⟨w, s''⟩, -, h⟩ := Res.bind_eq_ok.1 h
      simp only at h
      split at h
      · split at h <;> simp at h
      · simp at h
    | on =>
      simp only [Stack.pullReg] at h
      split at h
      · split at h <;> simp at h
      · rename_i b _
        simp at h
        have := b.toNat_lt
        omega
      · simp at h
    | off =>
      simp only [Stack.pullReg] at h
      split at h
      · split at h <;> simp at h
      · rename_i a b _ _
        simp at h
        have := a.toNat_lt
        have := b.toNat_lt
        omega
      · simp at h

theorem execute_small {i : Instruction} {es es' : ExecutionState} {ctx : Ctx}
    (h : i.execute es ctx = .ok es') (hs : Small16 es) : Small16 es' := by
  obtain ⟨ha, hx, hy, hd⟩ := hs
  unfold Instruction.execute at h
  obtain ⟨-, -, h⟩ := Res.bind_eq_ok.1 h
  extract_lets m at h
  subst m
  have hu : ∀ v, RegisterValue.unknown = .value v → v < 65536 := by intro v h; cases h
  rcases ite_cases h with ⟨hm, h⟩ | ⟨-, h⟩
  · cases h; exact ⟨ha, hx, hy, hd⟩
  rcases ite_cases h with ⟨hm, h⟩ | ⟨-, h⟩
  · cases h; exact ⟨ha, hx, hy, hd⟩
  rcases ite_cases h with ⟨hm, h⟩ | ⟨-, h⟩
  · obtain ⟨_, -, h⟩ := Res.bind_eq_ok.1 h
    cases h; exact ⟨ha, hx, hy, hd⟩
  rcases ite_cases h with ⟨hm, h⟩ | ⟨-, h⟩
  · cases h; exact ⟨hu, hx, hy, hd⟩
  rcases ite_cases h with ⟨hm, h⟩ | ⟨-, h⟩
  · cases h; exact ⟨ha, hx, hy, hd⟩
  rcases ite_cases h with ⟨hm, h⟩ | ⟨-, h⟩
  · cases h; exact ⟨hu, hx, hy, hd⟩
  rcases ite_cases h with ⟨hm, h⟩ | ⟨-, h⟩
  · unfold Instruction.executeIncDec at h
    split at h
    · cases h; exact ⟨ha, hx, hy, hd⟩
    · simp only at h
      split at h
      · obtain ⟨a, h1, h⟩ := Res.bind_eq_ok.1 h; cases h
        exact ⟨add_small (by split <;> omega) h1, hx, hy, hd⟩
      split at h
      · obtain ⟨a, h1, h⟩ := Res.bind_eq_ok.1 h; cases h
        exact ⟨ha, add_small (by split <;> omega) h1, hy, hd⟩
      · obtain ⟨a, h1, h⟩ := Res.bind_eq_ok.1 h; cases h
        exact ⟨ha, hx, add_small (by split <;> omega) h1, hd⟩
  rcases ite_cases h with ⟨hm, h⟩ | ⟨-, h⟩
  · unfold Instruction.executeLoad at h
    split at h
    · obtain ⟨a, -, h⟩ := Res.bind_eq_ok.1 h
      simp only at h
      have hv : ∀ v, (match a with | none => RegisterValue.unknown | some v => .ofInt v) = .value v →
          v < 65536 := by
        cases a with
        | none => exact hu
        | some w => exact ofInt_small w
      split at h
      · cases h; exact ⟨hv, hx, hy, hd⟩
      split at h
      · cases h; exact ⟨ha, hv, hy, hd⟩
      · cases h; exact ⟨ha, hx, hv, hd⟩
    · cases h; exact ⟨ha, hx, hy, hd⟩
  rcases ite_cases h with ⟨hm, h⟩ | ⟨-, h⟩
  · unfold Instruction.executeMove at h
    obtain ⟨ini, -, h⟩ := Res.bind_eq_ok.1 h
    obtain ⟨⟨x, y⟩, hxy, h⟩ := Res.bind_eq_ok.1 h
    obtain ⟨dbr, -, h⟩ := Res.bind_eq_ok.1 h
    cases h
    have hxy' : (∀ v, x = .value v → v < 65536) ∧ (∀ v, y = .value v → v < 65536) := by
      cases ini with
      | none => cases hxy; exact ⟨hu, hu⟩
      | some w =>
        obtain ⟨o, -, hxy⟩ := Res.bind_eq_ok.1 hxy
        obtain ⟨x', h1, hxy⟩ := Res.bind_eq_ok.1 hxy
        obtain ⟨y', h2, hxy⟩ := Res.bind_eq_ok.1 hxy
        cases hxy
        exact ⟨add_small (by split <;> omega) h1, add_small (by split <;> omega) h2⟩
    refine ⟨?_, hxy'.1, hxy'.2, ?_⟩
    · intro v hv
      simp only at hv
      split at hv <;> cases hv <;> omega
    · intro v hv
      cases dbr with
      | none => cases hv
      | some w => exact ofInt_small w v hv
  rcases ite_cases h with ⟨hm, h⟩ | ⟨-, h⟩
  · obtain ⟨arg, -, h⟩ := Res.bind_eq_ok.1 h
    cases h; exact ⟨ha, hx, hy, hd⟩
  rcases ite_cases h with ⟨hm, h⟩ | ⟨-, h⟩
  · cases h; exact ⟨ha, hx, hy, hd⟩
  rcases ite_cases h with ⟨hm, h⟩ | ⟨-, h⟩
  · cases h; exact ⟨ha, hx, hy, hd⟩
  rcases ite_cases h with ⟨hm, h⟩ | ⟨-, h⟩
  · cases h; exact ⟨ha, hx, hy, hd⟩
  rcases ite_cases h with ⟨hm, h⟩ | ⟨-, h⟩
  · cases h; exact ⟨ha, hx, hy, hd⟩
  rcases ite_cases h with ⟨hm, h⟩ | ⟨-, h⟩
  · obtain ⟨⟨v, s⟩, h1, h⟩ := Res.bind_eq_ok.1 h
    cases h; exact ⟨pullReg_small h1, hx, hy, hd⟩
  rcases ite_cases h with ⟨hm, h⟩ | ⟨-, h⟩
  · obtain ⟨⟨v, s⟩, h1, h⟩ := Res.bind_eq_ok.1 h
    cases h; exact ⟨ha, pullReg_small h1, hy, hd⟩
  rcases ite_cases h with ⟨hm, h⟩ | ⟨-, h⟩
  · obtain ⟨⟨v, s⟩, h1, h⟩ := Res.bind_eq_ok.1 h
    cases h; exact ⟨ha, hx, pullReg_small h1, hd⟩
  rcases ite_cases h with ⟨hm, h⟩ | ⟨-, h⟩
  · cases h; exact ⟨ha, hx, hy, hd⟩
  rcases ite_cases h with ⟨hm, h⟩ | ⟨-, h⟩
  · cases h
    unfold ExecutionState.pullFlags
    simp only
    split <;> exact ⟨ha, hx, hy, hd⟩
  rcases ite_cases h with ⟨hm, h⟩ | ⟨-, h⟩
  · cases h; exact ⟨ha, hx, hy, hd⟩
  rcases ite_cases h with ⟨hm, h⟩ | ⟨-, h⟩
  · cases h; exact ⟨ha, hx, hy, hd⟩
  · cases h; exact ⟨ha, hx, hy, hd⟩

theorem executeAll_small {ctx : Ctx} {is : List Instruction} {es es' : ExecutionState}
    (h : executeAll ctx is es = .ok es') (hs : Small16 es) : Small16 es' := by
  induction is generalizing es with
  | nil => cases h; exact hs
  | cons i is ih =>
    obtain ⟨e1, h1, h2⟩ := Res.bind_eq_ok.1 h
    exact ih h2 (execute_small h1 hs)

/-- Pulling a register is undefined exactly if its size is as on entry and unknown, and
the stack is empty or has the same register, pushed at that size, on top. -/
def BadPull (r : RegName) (es : ExecutionState) : Prop :=
  sizeBit r es.flags = .original ∧
    (es.stack = .live [] ∨ ∃ o l, es.stack = .live (.var r o :: l))

theorem pullReg_ub_iff (r : RegName) (s : Stack) (b : BitState) :
    ¬ (s.pullReg r b).noUb ↔ b = .original ∧ (s = .live [] ∨ ∃ o l, s = .live (.var r o :: l)) := by
  cases s with
  | abandoned => simp [Stack.pullReg, Res.noUb]
  | live l =>
    cases b with
    | unknown => simp [Stack.pullReg, Res.noUb]
    | on =>
      simp only [Stack.pullReg]
      constructor
      · intro h; exfalso; apply h
        split
        · split <;> trivial
        · trivial
        · trivial
      · simp
    | off =>
      simp only [Stack.pullReg]
      constructor
      · intro h; exfalso; apply h
        split
        · split <;> trivial
        · trivial
        · trivial
      · simp
    | original =>
      cases l with
      | nil => simp [Stack.pullReg, Stack.pullVarsize, Res.noUb]
      | cons w l =>
        cases w <;> simp [Stack.pullReg, Stack.pullVarsize, Res.noUb, StackValue.isVarSize]
        rename_i r' o
        by_cases h : r' = r
        · simp [h]
        · simp [h]

/-- PLA, PLX and PLY are undefined in exactly those states. -/
theorem C21_pull_undefined_iff (r : RegName) (es : ExecutionState) (ctx : Ctx) :
    ¬ ((pullOf r).execute es ctx).noUb ↔ BadPull r es := by
  rw [execute_pull, BadPull, ← pullReg_ub_iff]
  cases es.stack.pullReg r (sizeBit r es.flags) <;> simp [Res.bind, Res.noUb]

theorem noUb_ite {α : Type} {c : Prop} [Decidable c] {a b : Res α} (ha : c → a.noUb) (hb : ¬c → b.noUb) :
    (if c then a else b).noUb := by
  split
  · exact ha ‹_›
  · exact hb ‹_›

theorem checkConsistency_noUb (i : Instruction) (f : StatusFlags) : (i.checkConsistency f).noUb := by
  unfold Instruction.checkConsistency
  simp only
  generalize (if i.mnemonic = .padd ∨ i.mnemonic = .psub then Mnemonic.adc else i.mnemonic) = eff
  split
  · trivial
  · refine Res.noUb_bind ?_ fun _ _ => ?_
    · unfold Instruction.checkSuffix
      split
      · trivial
      · split
        · trivial
        · simp only
          split_ifs <;> trivial
    · unfold Instruction.checkImmediate
      simp only
      split_ifs <;> trivial

theorem maybeArg_noUb {e : Expr} {ctx : Ctx} (h : (e.eval ctx).noUb) : (Instruction.maybeArg e ctx).noUb := by
  unfold Instruction.maybeArg
  split <;> simp_all [Res.noUb]

theorem maybeArg_some {e : Expr} {ctx : Ctx} {v : Int} (h : Instruction.maybeArg e ctx = .ok (some v)) :
    e.eval ctx = .ok v := by
  unfold Instruction.maybeArg at h
  split at h <;> simp_all

theorem i32_noUb {v : Int} (h : InInt v) : (i32 v).noUb := by
  unfold i32
  rw [if_pos h]
  trivial

theorem add_noUb {r : RegisterValue} {o : Int} {mask : Nat} (hr : ∀ v, r = .value v → v < 65536)
    (ho : -2147483648 ≤ o ∧ o ≤ 2147483647 - 65535) : (r.add o mask).noUb := by
  cases r with
  | value v =>
    have := hr v rfl
    exact Res.noUb_bind (i32_noUb ⟨by omega, by omega⟩) fun _ _ => trivial
  | unknown => trivial
  | original => trivial

/-- The conditions under which executing one instruction is defined:

* evaluating its arguments is defined (no overflow);
* the argument of MVN, MVP is not within 65536 of the ends of the 32-bit range;
* PLA, PLX, PLY are not executed in one of the states `BadPull` lists. -/
def DefinedHere (ctx : Ctx) (i : Instruction) (es : ExecutionState) : Prop :=
  (i.arg1.eval ctx).noUb ∧ (i.arg2.eval ctx).noUb ∧
  (i.mnemonic = .mvn ∨ i.mnemonic = .mvp → ∀ v, i.arg1.eval ctx = .ok v →
    -2147483648 + 65536 ≤ v ∧ v < 2147483647 - 65536) ∧
  (i.mnemonic = .pla → ¬ BadPull .a es) ∧ (i.mnemonic = .plx → ¬ BadPull .x es) ∧
  (i.mnemonic = .ply → ¬ BadPull .y es)

theorem execute_noUb {ctx : Ctx} {i : Instruction} {es : ExecutionState} (hs : Small16 es)
    (hd : DefinedHere ctx i es) : (i.execute es ctx).noUb := by
  obtain ⟨ha, hx, hy, -⟩ := hs
  obtain ⟨h1, h2, h3, h4, h5, h6⟩ := hd
  unfold Instruction.execute
  refine Res.noUb_bind (checkConsistency_noUb _ _) fun _ _ => ?_
  extract_lets m
  subst m
  iterate 2
    refine noUb_ite (fun _ => trivial) fun _ => ?_
  refine noUb_ite (fun _ => Res.noUb_bind (maybeArg_noUb h1) fun _ _ => trivial) fun _ => ?_
  iterate 3
    refine noUb_ite (fun _ => trivial) fun _ => ?_
  refine noUb_ite (fun _ => ?_) fun _ => ?_
  · unfold Instruction.executeIncDec
    have ho : ∀ c : Prop, [Decidable c] → -2147483648 ≤ (if c then (-1 : Int) else 1) ∧
        (if c then (-1 : Int) else 1) ≤ 2147483647 - 65535 := by
      intro c _; split <;> omega
    refine noUb_ite (fun _ => trivial) fun _ => ?_
    simp only
    refine noUb_ite (fun _ => Res.noUb_bind (add_noUb ha (ho _)) fun _ _ => trivial) fun _ => ?_
    refine noUb_ite (fun _ => Res.noUb_bind (add_noUb hx (ho _)) fun _ _ => trivial) fun _ => ?_
    exact Res.noUb_bind (add_noUb hy (ho _)) fun _ _ => trivial
  refine noUb_ite (fun _ => ?_) fun _ => ?_
  · unfold Instruction.executeLoad
    refine noUb_ite (fun _ => ?_) fun _ => trivial
    refine Res.noUb_bind (maybeArg_noUb h1) fun _ _ => ?_
    simp only
    refine noUb_ite (fun _ => trivial) fun _ => ?_
    exact noUb_ite (fun _ => trivial) fun _ => trivial
  refine noUb_ite (fun hm => ?_) fun _ => ?_
  · unfold Instruction.executeMove
    refine Res.noUb_bind (maybeArg_noUb h1) fun ini hini => ?_
    refine Res.noUb_bind ?_ fun ⟨_, _⟩ _ => ?_
    · cases ini with
      | none => trivial
      | some v =>
        have hv := h3 hm v (maybeArg_some hini)
        have hoff : ∀ o, i32 (if i.mnemonic = .mvn then 1 + v else -1 - v) = .ok o →
            -2147483648 ≤ o ∧ o ≤ 2147483647 - 65535 := by
          intro o ho
          unfold i32 at ho
          rcases ite_cases ho with ⟨-, ho⟩ | ⟨-, ho⟩
          · cases ho
            split <;> omega
          · cases ho
        refine Res.noUb_bind (i32_noUb ?_) fun o ho => ?_
        · split <;> constructor <;> omega
        · refine Res.noUb_bind (add_noUb hx (hoff o ho)) fun _ _ => ?_
          exact Res.noUb_bind (add_noUb hy (hoff o ho)) fun _ _ => trivial
    · exact Res.noUb_bind (maybeArg_noUb h2) fun _ _ => trivial
  refine noUb_ite (fun _ => Res.noUb_bind (maybeArg_noUb h1) fun _ _ => trivial) fun _ => ?_
  iterate 4
    refine noUb_ite (fun _ => trivial) fun _ => ?_
  refine noUb_ite (fun hm => ?_) fun _ => ?_
  · refine Res.noUb_bind ?_ fun ⟨_, _⟩ _ => trivial
    exact Classical.byContradiction fun h => h4 hm ((pullReg_ub_iff _ _ _).1 h)
  refine noUb_ite (fun hm => ?_) fun _ => ?_
  · refine Res.noUb_bind ?_ fun ⟨_, _⟩ _ => trivial
    exact Classical.byContradiction fun h => h5 hm ((pullReg_ub_iff _ _ _).1 h)
  refine noUb_ite (fun hm => ?_) fun _ => ?_
  · refine Res.noUb_bind ?_ fun ⟨_, _⟩ _ => trivial
    exact Classical.byContradiction fun h => h6 hm ((pullReg_ub_iff _ _ _).1 h)
  iterate 4
    refine noUb_ite (fun _ => trivial) fun _ => ?_
  trivial

/-- After any sequence of accepted instructions from an entry point, executing one more
instruction is defined, provided it is `DefinedHere`.

Partial: the claim is false without the conditions in `DefinedHere`. -/
theorem C21_defined_partial {ctx : Ctx} {f : StatusFlags} {is : List Instruction} {es : ExecutionState}
    (h : executeAll ctx is (.init f) = .ok es) {i : Instruction} (hd : DefinedHere ctx i es) :
    (i.execute es ctx).noUb :=
  execute_noUb (executeAll_small h (by
    refine ⟨?_, ?_, ?_, ?_⟩ <;> (intro v h; cases h))) hd

/-- Programs on which the analysis has undefined behaviour. -/
theorem C21_violated :
    -- `.entry native`, PLA
    (∃ f, StatusFlags.fromName (cs!"native") = some f ∧
      (plain .pla).execute (.init f) nullCtx = .ub .emptyAccess) ∧
    -- `.entry native`, PHA, PLA
    (∃ f, StatusFlags.fromName (cs!"native") = some f ∧
      executeAll nullCtx [plain .pha, plain .pla] (.init f) = .ub .assertFail) ∧
    -- `.entry m8x8`, MVN $7fffffff, 0
    (∃ f, StatusFlags.fromName (cs!"m8x8") = some f ∧
      executeAll nullCtx [⟨.mvn, .none, .mov, .lit 0x7fffffff .unknown, .lit 0 .unknown, .default⟩]
        (.init f) = .ub .overflow) :=
  ⟨⟨⟨.off, .unknown, .unknown, .unknown⟩, by decide +kernel, by decide +kernel⟩,
   ⟨⟨.off, .unknown, .unknown, .unknown⟩, by decide +kernel, by decide +kernel⟩,
   ⟨⟨.off, .on, .on, .unknown⟩, by decide +kernel, by decide +kernel⟩⟩

example : DefinedHere nullCtx (plain .pla)
    ⟨.unknown, .unknown, .unknown, .unknown, .make .off .on .off .unknown, .live []⟩ := by
  refine ⟨trivial, trivial, ?_, ?_, ?_, ?_⟩ <;> simp [plain, BadPull, sizeBit, StatusFlags.make, constrainedForEBit]

/-! ### Sizes that are known on entry stay free of `original` -/

/-- The ways an instruction can change the flags and the stack. -/
inductive Change (ret : ReturnConvention) (es : ExecutionState) : StatusFlags → Stack → Prop
  | none : Change ret es es.flags es.stack
  | carry (b : BitState) : Change ret es (es.flags.setC b) es.stack
  | repSep (t : BitState) (ht : t = .on ∨ t = .off) (arg : Option Int) :
      Change ret es (Instruction.executeRepSep es.flags t arg) es.stack
  | pushWord (arg : Option Int) : Change ret es es.flags (es.stack.pushWord arg)
  | pushReg (r : RegName) (v : RegisterValue) (b : BitState) : Change ret es es.flags (es.stack.pushReg r v b)
  | pullReg (r : RegName) (v : RegisterValue) (b : BitState) (s : Stack) (h : es.stack.pullReg r b = .ok (v, s)) :
      Change ret es es.flags s
  | php : Change ret es es.pushFlags.flags es.pushFlags.stack
  | plp : Change ret es es.pullFlags.flags es.pullFlags.stack
  | xce : Change ret es es.flags.exchangeCE es.stack
  | call (f : StatusFlags) (hf : f = es.flags ∨ ret = .yields f) :
      Change ret es (f.setC .unknown) es.stack

theorem execute_change {i : Instruction} {es es' : ExecutionState} {ctx : Ctx}
    (h : i.execute es ctx = .ok es') : Change i.ret es es'.flags es'.stack := by
  unfold Instruction.execute at h
  obtain ⟨-, -, h⟩ := Res.bind_eq_ok.1 h
  extract_lets m at h
  subst m
  rcases ite_cases h with ⟨hm, h⟩ | ⟨-, h⟩
  · cases h; exact .carry _
  rcases ite_cases h with ⟨hm, h⟩ | ⟨-, h⟩
  · cases h; exact .carry _
  rcases ite_cases h with ⟨hm, h⟩ | ⟨-, h⟩
  · obtain ⟨_, -, h⟩ := Res.bind_eq_ok.1 h
    cases h; exact .repSep _ (by split <;> simp) _
  rcases ite_cases h with ⟨hm, h⟩ | ⟨-, h⟩
  · cases h; exact .carry _
  rcases ite_cases h with ⟨hm, h⟩ | ⟨-, h⟩
  · cases h; exact .carry _
  rcases ite_cases h with ⟨hm, h⟩ | ⟨-, h⟩
  · cases h; exact .none
  rcases ite_cases h with ⟨hm, h⟩ | ⟨-, h⟩
  · unfold Instruction.executeIncDec at h
    split at h
    · cases h; exact .none
    · simp only at h
      split at h
      · obtain ⟨a, h1, h⟩ := Res.bind_eq_ok.1 h; cases h; exact .none
      split at h
      · obtain ⟨a, h1, h⟩ := Res.bind_eq_ok.1 h; cases h; exact .none
      · obtain ⟨a, h1, h⟩ := Res.bind_eq_ok.1 h; cases h; exact .none
  rcases ite_cases h with ⟨hm, h⟩ | ⟨-, h⟩
  · unfold Instruction.executeLoad at h
    split at h
    · obtain ⟨a, -, h⟩ := Res.bind_eq_ok.1 h
      simp only at h
      split at h
      · cases h; exact .none
      split at h
      · cases h; exact .none
      · cases h; exact .none
    · cases h; exact .none
  rcases ite_cases h with ⟨hm, h⟩ | ⟨-, h⟩
  · unfold Instruction.executeMove at h
    obtain ⟨ini, -, h⟩ := Res.bind_eq_ok.1 h
    obtain ⟨⟨x, y⟩, hxy, h⟩ := Res.bind_eq_ok.1 h
    obtain ⟨dbr, -, h⟩ := Res.bind_eq_ok.1 h
    cases h; exact .none
  rcases ite_cases h with ⟨hm, h⟩ | ⟨-, h⟩
  · obtain ⟨arg, -, h⟩ := Res.bind_eq_ok.1 h
    cases h; exact .pushWord _
  rcases ite_cases h with ⟨hm, h⟩ | ⟨-, h⟩
  · cases h; exact .pushWord .none
  rcases ite_cases h with ⟨hm, h⟩ | ⟨-, h⟩
  · cases h; exact .pushReg _ _ _
  rcases ite_cases h with ⟨hm, h⟩ | ⟨-, h⟩
  · cases h; exact .pushReg _ _ _
  rcases ite_cases h with ⟨hm, h⟩ | ⟨-, h⟩
  · cases h; exact .pushReg _ _ _
  rcases ite_cases h with ⟨hm, h⟩ | ⟨-, h⟩
  · obtain ⟨⟨v, s⟩, h1, h⟩ := Res.bind_eq_ok.1 h
    cases h; exact .pullReg _ _ _ _ h1
  rcases ite_cases h with ⟨hm, h⟩ | ⟨-, h⟩
  · obtain ⟨⟨v, s⟩, h1, h⟩ := Res.bind_eq_ok.1 h
    cases h; exact .pullReg _ _ _ _ h1
  rcases ite_cases h with ⟨hm, h⟩ | ⟨-, h⟩
  · obtain ⟨⟨v, s⟩, h1, h⟩ := Res.bind_eq_ok.1 h
    cases h; exact .pullReg _ _ _ _ h1
  rcases ite_cases h with ⟨hm, h⟩ | ⟨-, h⟩
  · cases h; exact .php
  rcases ite_cases h with ⟨hm, h⟩ | ⟨-, h⟩
  · cases h; exact .plp
  rcases ite_cases h with ⟨hm, h⟩ | ⟨-, h⟩
  · cases h; exact .xce
  rcases ite_cases h with ⟨hm, h⟩ | ⟨-, h⟩
  · have hfl : es' = { es with flags := ((i.ret.yieldFlags).getD es.flags).setC .unknown } := by
      cases h; rfl
    clear h
    subst hfl
    refine .call _ ?_
    cases i.ret <;> simp [ReturnConvention.yieldFlags]
  · cases h; exact .none

/-- A property of flags that survives everything but REP, SEP, XCE, PLP and calls, together
with the same property of the flags saved on the stack. -/
def Keeps (P : StatusFlags → Prop) (es : ExecutionState) : Prop :=
  P es.flags ∧ ∀ l, es.stack = .live l → ∀ f, .flags f ∈ l → P f

theorem pullByte_mem {s s' : Stack} {v : StackValue} (h : s.pullByte = (v, s')) :
    (∀ l', s' = .live l' → ∃ w l, s = .live (w :: l) ∧ l' = l ∧ v = w) := by
  intro l' hl'
  subst hl'
  unfold Stack.pullByte at h
  split at h
  · split at h
    · cases h
    · cases h; exact ⟨_, _, rfl, rfl, rfl⟩
  · cases h

theorem keeps_change {P : StatusFlags → Prop} (hC : ∀ f b, P f → P (f.setC b))
    (hRS : ∀ f t arg, t = .on ∨ t = .off → P f → P (Instruction.executeRepSep f t arg))
    (hmake : ∀ f g, P f → P g → P (.make f.e g.m g.x g.c))
    (hmake' : ∀ f, P f → P (.make f.e .unknown .unknown .unknown))
    (hxce : ∀ f, P f → P f.exchangeCE)
    {ret : ReturnConvention} (hret : ∀ f, ret = .yields f → P f)
    {es : ExecutionState} {f : StatusFlags} {s : Stack} (h : Change ret es f s) (hk : Keeps P es) :
    P f ∧ ∀ l, s = .live l → ∀ f, .flags f ∈ l → P f := by
  obtain ⟨h1, h2⟩ := hk
  have hpb : ∀ {s : Stack} {v : StackValue} {s' : Stack}, s.pullByte = (v, s') →
      (∀ l, s = .live l → ∀ f, .flags f ∈ l → P f) → ∀ l, s' = .live l → ∀ f, .flags f ∈ l → P f := by
    intro s v s' hp hs l hl f hf
    obtain ⟨w, l0, rfl, rfl, -⟩ := pullByte_mem hp l hl
    exact hs _ rfl f (List.mem_cons_of_mem _ hf)
  cases h with
  | none => exact ⟨h1, h2⟩
  | carry b => exact ⟨hC _ b h1, h2⟩
  | repSep t ht arg => exact ⟨hRS _ t arg ht h1, h2⟩
  | pushWord arg =>
    refine ⟨h1, ?_⟩
    intro l hl f hf
    cases hs : es.stack with
    | abandoned => rw [hs] at hl; cases arg <;> simp [Stack.pushWord, Stack.pushUnknownWord, Stack.push, Stack.pushByte] at hl
    | live l0 =>
      rw [hs] at hl
      refine h2 l0 hs f ?_
      cases arg <;> simp [Stack.pushWord, Stack.pushUnknownWord, Stack.push, Stack.pushByte] at hl <;>
        subst hl <;> simpa using hf
  | pushReg r v b =>
    refine ⟨h1, ?_⟩
    intro l hl f hf
    cases hs : es.stack with
    | abandoned => rw [hs] at hl; simp [Stack.pushReg] at hl
    | live l0 =>
      rw [hs] at hl
      refine h2 l0 hs f ?_
      cases b <;> simp [Stack.pushReg] at hl <;> subst hl
      · cases v <;> simpa [StackValue.ofLo, StackValue.ofHi] using hf
      · cases v <;> simpa [StackValue.ofLo, StackValue.ofHi] using hf
      · simpa [StackValue.ofVar] using hf
  | pullReg r v b s h =>
    refine ⟨h1, ?_⟩
    cases hs : es.stack with
    | abandoned => rw [hs] at h; simp [Stack.pullReg] at h; rw [← h.2]; intro l hl; cases hl
    | live l0 =>
      rw [hs] at h h2
      cases b with
      | unknown => simp [Stack.pullReg] at h; rw [← h.2]; intro l hl; cases hl
      | original =>
        simp only [Stack.pullReg] at h
        obtain ⟨⟨w, s''⟩, -, h⟩ := Res.bind_eq_ok.1 h
        simp only at h
        have : s = .abandoned := by
          split at h
          · split at h <;> simp at h
            exact h.2.symm
          · simp at h; exact h.2.symm
        rw [this]; intro l hl; cases hl
      | on =>
        have : s = (Stack.live l0).pullByte.2 := by
          simp only [Stack.pullReg] at h
          split at h
          · split at h <;> simp only [Res.ok.injEq, Prod.mk.injEq] at h <;> exact h.2.symm
          · simp only [Res.ok.injEq, Prod.mk.injEq] at h; exact h.2.symm
          · simp only [Res.ok.injEq, Prod.mk.injEq] at h; exact h.2.symm
        exact hpb (v := (Stack.live l0).pullByte.1) (by rw [this]) h2
      | off =>
        have : s = (Stack.live l0).pullByte.2.pullByte.2 := by
          simp only [Stack.pullReg] at h
          split at h
          · split at h <;> simp only [Res.ok.injEq, Prod.mk.injEq] at h <;> exact h.2.symm
          · simp only [Res.ok.injEq, Prod.mk.injEq] at h; exact h.2.symm
          · simp only [Res.ok.injEq, Prod.mk.injEq] at h; exact h.2.symm
        exact hpb (v := (Stack.live l0).pullByte.2.pullByte.1) (by rw [this])
          (hpb (v := (Stack.live l0).pullByte.1) (s' := (Stack.live l0).pullByte.2) rfl h2)
  | php =>
    refine ⟨h1, ?_⟩
    intro l hl f hf
    cases hs : es.stack with
    | abandoned => simp [ExecutionState.pushFlags, hs, Stack.push] at hl
    | live l0 =>
      simp [ExecutionState.pushFlags, hs, Stack.push] at hl
      subst hl
      rcases List.mem_cons.1 hf with h | h
      · cases h; exact h1
      · exact h2 l0 hs f h
  | plp =>
    cases hp : es.stack.pullByte with
    | mk v s' =>
      have hs' := hpb hp h2
      unfold ExecutionState.pullFlags
      simp only [hp]
      split
      · rename_i f
        refine ⟨hmake _ _ h1 ?_, hs'⟩
        unfold Stack.pullByte at hp
        split at hp
        · rename_i w l hst
          split at hp
          · cases hp
          · cases hp; exact h2 _ hst f (by simp)
        · cases hp
      · exact ⟨hmake' _ h1, hs'⟩
  | xce => exact ⟨hxce _ h1, h2⟩
  | call f hf =>
    refine ⟨hC _ _ ?_, h2⟩
    rcases hf with rfl | h
    · exact h1
    · exact hret f h

theorem repSep_cases (f : StatusFlags) (t : BitState) (arg : Option Int) :
    ((Instruction.executeRepSep f t arg).e = f.e) ∧
    ((Instruction.executeRepSep f t arg).m = f.m ∨ (Instruction.executeRepSep f t arg).m = constrainedForEBit t f.e ∨
      (Instruction.executeRepSep f t arg).m = constrainedForEBit .unknown f.e) ∧
    ((Instruction.executeRepSep f t arg).x = f.x ∨ (Instruction.executeRepSep f t arg).x = constrainedForEBit t f.e ∨
      (Instruction.executeRepSep f t arg).x = constrainedForEBit .unknown f.e) := by
  cases arg <;> simp only [Instruction.executeRepSep] <;> split_ifs <;>
    simp [StatusFlags.setC, StatusFlags.setM, StatusFlags.setX]

/-- Executing an instruction keeps a state normal. -/
theorem normal_execute {i : Instruction} {es es' : ExecutionState} {ctx : Ctx}
    (hret : ∀ f, i.ret = .yields f → Normal f)
    (h : i.execute es ctx = .ok es') (hn : NormalState es) : NormalState es' := by
  have hk : Keeps Normal es := by
    refine ⟨hn.1, ?_⟩
    intro l hl f hf
    have := hn.2
    rw [hl] at this
    exact this _ hf
  have hidem : ∀ a b, constrainedForEBit (constrainedForEBit a b) b = constrainedForEBit a b := by
    intro a b; cases a <;> cases b <;> rfl
  have := keeps_change (P := Normal) (fun _ _ h => h) (fun f t arg _ h => by
      obtain ⟨he, hm, hx⟩ := repSep_cases f t arg
      constructor
      · rw [he]
        rcases hm with hm | hm | hm <;> rw [hm]
        · exact h.1
        · exact hidem _ _
        · exact hidem _ _
      · rw [he]
        rcases hx with hm | hm | hm <;> rw [hm]
        · exact h.2
        · exact hidem _ _
        · exact hidem _ _)
    (fun _ _ _ _ => normal_make _ _ _ _) (fun _ _ => normal_make _ _ _ _) (fun _ _ => normal_exchangeCE _)
    hret (execute_change h) hk
  refine ⟨this.1, ?_⟩
  cases hs : es'.stack with
  | abandoned => trivial
  | live l =>
    intro v hv
    cases v <;> try trivial
    exact this.2 l hs _ hv

/-- M and X are not tracked as `original`. -/
def SizesNotOriginal (f : StatusFlags) : Prop := f.m ≠ .original ∧ f.x ≠ .original

theorem constrained_ne_original {a : BitState} (h : a ≠ .original) (e : BitState) :
    constrainedForEBit a e ≠ .original := by
  cases a <;> cases e <;> simp_all [constrainedForEBit]

theorem sizes_execute {i : Instruction} {es es' : ExecutionState} {ctx : Ctx}
    (hret : ∀ f, i.ret = .yields f → SizesNotOriginal f)
    (h : i.execute es ctx = .ok es') (hn : Keeps SizesNotOriginal es) : Keeps SizesNotOriginal es' := by
  have hu : ∀ e, constrainedForEBit .unknown e ≠ .original := fun e => constrained_ne_original (by simp) e
  exact keeps_change (P := SizesNotOriginal) (fun _ _ h => h) (fun f t arg ht h => by
      have htt : t ≠ .original := by rcases ht with rfl | rfl <;> simp
      obtain ⟨-, hm, hx⟩ := repSep_cases f t arg
      constructor
      · rcases hm with hm | hm | hm <;> rw [hm]
        · exact h.1
        · exact constrained_ne_original htt _
        · exact hu _
      · rcases hx with hm | hm | hm <;> rw [hm]
        · exact h.2
        · exact constrained_ne_original htt _
        · exact hu _)
    (fun _ _ _ h => ⟨constrained_ne_original h.1 _, constrained_ne_original h.2 _⟩)
    (fun _ _ => ⟨hu _, hu _⟩)
    (fun _ h => ⟨constrained_ne_original h.1 _, constrained_ne_original h.2 _⟩)
    hret (execute_change h) hn

/-- From an entry point that gives the sizes of A and of X and Y, no pull is ever
undefined: after any sequence of accepted instructions, executing one more is defined if its
arguments are (and MVN, MVP have a reasonable argument). -/
theorem C21_known_sizes_partial {ctx : Ctx} {f : StatusFlags} (hm : f.m = .on ∨ f.m = .off)
    (hx : f.x = .on ∨ f.x = .off) {is : List Instruction} {es : ExecutionState}
    (hret : ∀ i ∈ is, ∀ g, i.ret = .yields g → ∃ s, StatusFlags.fromName s = some g)
    (h : executeAll ctx is (.init f) = .ok es) {i : Instruction}
    (h1 : (i.arg1.eval ctx).noUb) (h2 : (i.arg2.eval ctx).noUb)
    (hmv : i.mnemonic = .mvn ∨ i.mnemonic = .mvp → ∀ v, i.arg1.eval ctx = .ok v →
      -2147483648 + 65536 ≤ v ∧ v < 2147483647 - 65536) :
    (i.execute es ctx).noUb := by
  have hk : ∀ (is : List Instruction) (es0 : ExecutionState),
      (∀ i ∈ is, ∀ g, i.ret = .yields g → ∃ s, StatusFlags.fromName s = some g) →
      executeAll ctx is es0 = .ok es → Keeps SizesNotOriginal es0 → Keeps SizesNotOriginal es := by
    intro is
    induction is with
    | nil => intro es0 _ h hk; cases h; exact hk
    | cons j js ih =>
      intro es0 hr h hk
      obtain ⟨e1, h1, h2⟩ := Res.bind_eq_ok.1 h
      refine ih e1 (fun i hi => hr i (List.mem_cons_of_mem _ hi)) h2 (sizes_execute ?_ h1 hk)
      intro g hg
      obtain ⟨s, hs⟩ := hr j (by simp) g hg
      exact ⟨(fromName_bits hs).2.2.1, (fromName_bits hs).2.2.2⟩
  have hfin := hk is _ hret h (by
    refine ⟨⟨?_, ?_⟩, ?_⟩
    · show StatusFlags.incomingBit f.m ≠ _
      rcases hm with h | h <;> rw [h] <;> decide
    · show StatusFlags.incomingBit f.x ≠ _
      rcases hx with h | h <;> rw [h] <;> decide
    · intro l hl f hf; cases hl; simp at hf)
  refine C21_defined_partial h ⟨h1, h2, hmv, ?_, ?_, ?_⟩ <;> intro _ hb
  · exact hfin.1.1 hb.1
  · exact hfin.1.2 hb.1
  · exact hfin.1.2 hb.1

example : (StatusFlags.make .off .on .off .unknown).m = .on ∧
    executeAll nullCtx [plain .pha, plain .php, plain .plp, plain .pla] (.init (.make .off .on .off .unknown)) =
      .ok ⟨.unknown, .unknown, .unknown, .unknown, ⟨.off, .on, .off, .original⟩, .live []⟩ := by
  decide +kernel

end Nsasm.Props
