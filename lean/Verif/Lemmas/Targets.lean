import Verif.Lemmas.Link
import Verif.Lemmas.Explore
import Verif.Props.Flags

/-! # Lemmas: the jump targets modules report -/

namespace Nsasm

open Spec Props

/-- Whatever the first flags describe, the second do. -/
def FlagsBelow (g f : StatusFlags) : Prop :=
  ∀ (o : Meaning) (p : Cpu), p.Ok → FlagsDescribe o g p → FlagsDescribe o f p

theorem FlagsBelow.refl (f : StatusFlags) : FlagsBelow f f := fun _ _ _ h => h

theorem FlagsBelow.trans {a b c : StatusFlags} (h : FlagsBelow a b) (h' : FlagsBelow b c) :
    FlagsBelow a c := fun o p hp hd => h' o p hp (h o p hp hd)

theorem FlagsBelow.left (a b : StatusFlags) : FlagsBelow a (a.merge b) :=
  fun _ _ hp hd => (C15_flags_sound hp hd b).1

theorem FlagsBelow.right (a b : StatusFlags) : FlagsBelow b (a.merge b) :=
  fun _ _ hp hd => (C15_flags_sound hp hd a).2

/-- One of the four flags. -/
def IsFlag (sel : StatusFlags → BitState) : Prop :=
  sel = StatusFlags.e ∨ sel = StatusFlags.m ∨ sel = StatusFlags.x ∨ sel = StatusFlags.c

theorem merge_agrees {f g : StatusFlags} (hf : Normal f) (hg : Normal g) {sel : StatusFlags → BitState} (hs : IsFlag sel)
    {b : BitState} (hb : b = .on ∨ b = .off) (h1 : sel f = b) (h2 : sel g = b) : sel (f.merge g) = b := by
  obtain ⟨fe, fm, fx, fc⟩ := f
  obtain ⟨ge, gm, gx, gc⟩ := g
  unfold Normal at hf hg
  rcases hs with rfl | rfl | rfl | rfl <;> simp only at h1 h2 hf hg <;> subst h1 <;> subst h2
  · exact bit_merge_self _
  · obtain ⟨hf, -⟩ := hf
    obtain ⟨hg, -⟩ := hg
    show constrainedForEBit (gm.merge gm) (fe.merge ge) = gm
    rcases hb with rfl | rfl <;> cases fe <;> cases ge <;> simp_all [constrainedForEBit, BitState.merge]
  · obtain ⟨-, hf⟩ := hf
    obtain ⟨-, hg⟩ := hg
    show constrainedForEBit (gx.merge gx) (fe.merge ge) = gx
    rcases hb with rfl | rfl <;> cases fe <;> cases ge <;> simp_all [constrainedForEBit, BitState.merge]
  · exact bit_merge_self _

/-- A table of targets holds exactly the given ones, with flags that cover theirs, their
flags if they all have the same, and each known flag that all have. -/
structure Reports (T : OMap StatusFlags) (S : Nat → StatusFlags → Prop) : Prop where
  sorted : T.Sorted
  keys : ∀ x, (∃ f, T.find x = some f) ↔ ∃ g, S x g
  covers : ∀ x f g, T.find x = some f → S x g → FlagsBelow g f
  tight : ∀ x f g, T.find x = some f → Normal g → (∀ g', S x g' → g' = g) → f = g
  bits : ∀ x f, T.find x = some f → (∀ g, S x g → Normal g) →
    Normal f ∧ ∀ sel, IsFlag sel → ∀ b, b = .on ∨ b = .off → (∀ g, S x g → sel g = b) → sel f = b

theorem Reports.congr {T : OMap StatusFlags} {S S' : Nat → StatusFlags → Prop} (h : Reports T S)
    (he : ∀ x g, S x g ↔ S' x g) : Reports T S' := by
  have : S = S' := by funext x g; exact propext (he x g)
  rw [← this]; exact h

theorem holds_nil : Reports [] (fun _ _ => False) :=
  ⟨List.Pairwise.nil, by simp [OMap.find], by simp, by simp [OMap.find], by simp [OMap.find]⟩

theorem holds_add_set {T : OMap StatusFlags} {S : Nat → StatusFlags → Prop} (h : Reports T S)
    (a : Nat) (f : StatusFlags) (G : StatusFlags → Prop) (hne : ∃ g, G g)
    (hcov : ∀ g, G g → FlagsBelow g f)
    (ht : ∀ g, Normal g → (∀ g', G g' → g' = g) → f = g)
    (hb : (∀ g, G g → Normal g) → Normal f ∧ ∀ sel, IsFlag sel → ∀ b, b = .on ∨ b = .off → (∀ g, G g → sel g = b) → sel f = b) :
    Reports (Module.addTarget T a f) (fun x g => S x g ∨ (x = a ∧ G g)) := by
  unfold Module.addTarget
  refine ⟨OMap.sorted_upsert h.sorted _ _, fun x => ?_, fun x f' g hf hs => ?_,
    fun x f' g hf hn hall => ?_, fun x f' hf hn => ?_⟩
  · rw [OMap.find_upsert h.sorted]
    split
    · next e =>
      subst e
      simp only [Option.some.injEq, exists_eq', true_iff]
      obtain ⟨g, hg⟩ := hne
      exact ⟨g, .inr ⟨trivial, hg⟩⟩
    · next hne =>
      rw [h.keys]
      constructor
      · rintro ⟨g, hg⟩; exact ⟨g, .inl hg⟩
      · rintro ⟨g, hg | ⟨rfl, -⟩⟩
        · exact ⟨g, hg⟩
        · exact absurd rfl hne
  · rw [OMap.find_upsert h.sorted] at hf
    split at hf
    · next e =>
      subst e
      injection hf with hf
      cases ht : OMap.find T a with
      | none =>
        rw [ht] at hf; simp only at hf
        rcases hs with hs | ⟨-, hg⟩
        · obtain ⟨w, hw⟩ := (h.keys a).2 ⟨g, hs⟩
          rw [hw] at ht; cases ht
        · rw [← hf]; exact hcov g hg
      | some w =>
        rw [ht] at hf; simp only at hf
        rw [← hf]
        rcases hs with hs | ⟨-, hg⟩
        · exact (h.covers a w g ht hs).trans (.left _ _)
        · exact (hcov g hg).trans (.right _ _)
    · next hne =>
      rcases hs with hs | ⟨rfl, -⟩
      · exact h.covers x f' g hf hs
      · exact absurd rfl hne
  · rw [OMap.find_upsert h.sorted] at hf
    split at hf
    · next e =>
      subst e
      injection hf with hf
      have hfg : f = g := ht g hn fun g' hg' => hall g' (.inr ⟨rfl, hg'⟩)
      cases ht : OMap.find T a with
      | none => rw [ht] at hf; simp only at hf; rw [← hf, hfg]
      | some w =>
        rw [ht] at hf; simp only at hf
        have hw := h.tight a w g ht hn fun g' hg' => hall g' (.inl hg')
        rw [← hf, hw, hfg, C15_flags_idem hn]
    · exact h.tight x f' g hf hn fun g' hg' => hall g' (.inl hg')
  · rw [OMap.find_upsert h.sorted] at hf
    split at hf
    · next e =>
      subst e
      injection hf with hf
      obtain ⟨n1, b1⟩ := hb fun g hg => hn g (.inr ⟨rfl, hg⟩)
      cases ht : OMap.find T a with
      | none =>
        rw [ht] at hf; simp only at hf
        rw [← hf]
        exact ⟨n1, fun sel hs b hk hall => b1 sel hs b hk fun g hg => hall g (.inr ⟨rfl, hg⟩)⟩
      | some w =>
        rw [ht] at hf; simp only at hf
        obtain ⟨n2, b2⟩ := h.bits a w ht fun g hg => hn g (.inl hg)
        rw [← hf]
        exact ⟨normal_make _ _ _ _, fun sel hs b hk hall => merge_agrees n2 n1 hs hk
          (b2 sel hs b hk fun g hg => hall g (.inl hg)) (b1 sel hs b hk fun g hg => hall g (.inr ⟨rfl, hg⟩))⟩
    · next hne =>
      obtain ⟨n2, b2⟩ := h.bits x f' hf fun g hg => hn g (.inl hg)
      exact ⟨n2, fun sel hs b hk hall => b2 sel hs b hk fun g hg => hall g (.inl hg)⟩

theorem holds_add {T : OMap StatusFlags} {S : Nat → StatusFlags → Prop} (h : Reports T S) (a : Nat)
    (f : StatusFlags) : Reports (Module.addTarget T a f) (fun x g => S x g ∨ (x = a ∧ g = f)) :=
  holds_add_set h a f (· = f) ⟨f, rfl⟩ (by rintro g rfl; exact .refl _)
    (fun g _ hall => hall f rfl) (fun hn => ⟨hn f rfl, fun _ _ _ _ hall => hall f rfl⟩)

theorem assembleNote_holds {m : Module} {externs : Ctx} {l : Line} {d : Directive}
    (hd : l.statement = .dir d) {o o' : Module.Out} {S : Nat → StatusFlags → Prop}
    (h : Module.assembleNote d l.value (m.lookup l.scopes externs) o = .ok o')
    (hS : Reports o.targets S) :
    Reports o'.targets (fun x g => S x g ∨ TransfersTo (m.lookup l.scopes externs) l x g) := by
  unfold Module.assembleNote at h
  split at h
  · next hn =>
    have hno : ∀ x g, ¬ TransfersTo (m.lookup l.scopes externs) l x g := by
      rintro x g (⟨h1, -⟩ | ⟨h1, -⟩ | ⟨h1, h2, -⟩)
      · rw [hd] at h1; cases h1
      · rw [hd] at h1; cases h1
      · rw [hd] at h1; cases h1; rw [hn] at h2; cases h2
    split at h
    · cases h
    · replace h := Res.bind_eq_ok.mp h
      obtain ⟨_, -, h⟩ := h
      injection h with h; subst h
      exact hS.congr fun x g => by simp [hno]
  · split at h
    · next hn =>
      replace h := Res.bind_eq_ok.mp h
      obtain ⟨v, hv, h⟩ := h
      replace h := Res.bind_eq_ok.mp h
      obtain ⟨a, ha, h⟩ := h
      injection h with h; subst h
      have hva : v = (a : Int) := by
        simp only [Address.ofInt] at ha
        split at ha
        · injection ha with ha; omega
        · cases ha
      subst hva
      refine (holds_add hS a d.flags).congr fun x g => or_congr_right ?_
      constructor
      · rintro ⟨rfl, rfl⟩; exact .remote hd hn hv
      · rintro (⟨h1, -⟩ | ⟨h1, -⟩ | ⟨h1, h2, h3⟩)
        · rw [hd] at h1; cases h1
        · rw [hd] at h1; cases h1
        · rw [hd] at h1; cases h1
          rw [hv] at h3
          injection h3 with h3
          exact ⟨by omega, rfl⟩
    · next hn =>
      injection h with h; subst h
      refine hS.congr fun x g => ?_
      have hno : ¬ TransfersTo (m.lookup l.scopes externs) l x g := by
        rintro (⟨h1, -⟩ | ⟨h1, -⟩ | ⟨h1, h2, -⟩)
        · rw [hd] at h1; cases h1
        · rw [hd] at h1; cases h1
        · rw [hd] at h1; cases h1; exact hn h2
      simp [hno]

theorem noteTarget_holds {m : Module} {externs : Ctx} {l : Line} {i : Instruction}
    (hi : l.statement = .instr i) {o o' : Module.Out} {S : Nat → StatusFlags → Prop}
    (hlt : i.mode = .dir_w → ∀ a : Nat, l.value = some (a : Int) → a < 0x1000000)
    (h : Module.noteTarget l o = .ok o') (hS : Reports o.targets S) :
    Reports o'.targets (fun x g => S x g ∨ TransfersTo (m.lookup l.scopes externs) l x g) := by
  unfold Module.noteTarget at h
  rw [hi] at h
  simp only at h
  replace h := Res.bind_eq_ok.mp h
  obtain ⟨src, hsrc, h⟩ := h
  replace h := Res.bind_eq_ok.mp h
  obtain ⟨t, ht, h⟩ := h
  have hval : l.value = some (src : Int) := by
    unfold Module.toAddress at hsrc
    split at hsrc
    · cases hsrc
    · next v hv =>
      simp only [Address.ofInt] at hsrc
      split at hsrc
      · injection hsrc with hsrc; rw [hv]; congr; omega
      · cases hsrc
  have hsrclt := fun hw => hlt hw src hval
  have key : ∀ x g, TransfersTo (m.lookup l.scopes externs) l x g ↔ t = some x ∧ g = l.incoming.flags := by
    intro x g
    unfold Instruction.farBranchTarget at ht
    constructor
    · rintro (⟨h1, h2, h3, h4⟩ | ⟨h1, h2, h3, h4, h5⟩ | ⟨h1, -⟩)
      · rw [hi] at h1; cases h1
        rw [if_pos ⟨h2, h3⟩, h4] at ht
        simp only at ht
        replace ht := Res.bind_eq_ok.mp ht
        obtain ⟨y, hy, ht⟩ := ht
        injection ht with ht
        simp only [Address.ofInt] at hy
        split at hy
        · injection hy with hy
          simp at hy; subst hy; exact ⟨ht.symm, rfl⟩
        · cases hy
      · rw [hi] at h1; cases h1
        rw [if_neg (by rw [h2]; simp), if_pos ⟨h2, h3⟩, h4] at ht
        simp only [Res.ok.injEq] at ht
        rw [hval] at h5; injection h5 with h5
        have h5 : src = _ := Int.ofNat.inj h5
        subst h5
        refine ⟨?_, rfl⟩
        rw [← ht]
        have := hsrclt h2
        simp only [Address.ofBank, Address.bank, Option.some.injEq]
        omega
      · rw [hi] at h1; cases h1
    · rintro ⟨rfl, rfl⟩
      split at ht
      · next hc =>
        cases he : i.arg1.eval nullCtx with
        | err e => rw [he] at ht; cases ht
        | ub u => rw [he] at ht; cases ht
        | ok v =>
          rw [he] at ht
          simp only at ht
          replace ht := Res.bind_eq_ok.mp ht
          obtain ⟨y, hy, ht⟩ := ht
          injection ht with ht; injection ht with ht; subst ht
          simp only [Address.ofInt] at hy
          split at hy
          · injection hy with hy
            refine .long hi hc.1 hc.2 ?_
            rw [he]; congr; omega
          · cases hy
      · split at ht
        · next hc =>
          cases he : i.arg1.eval nullCtx with
          | err e => rw [he] at ht; cases ht
          | ub u => rw [he] at ht; cases ht
          | ok v =>
            rw [he] at ht
            simp only [Res.ok.injEq, Option.some.injEq] at ht
            have hx : x = src / 0x10000 * 0x10000 + (v % 0x10000).toNat := by
              have := hsrclt hc.1
              rw [← ht]; simp only [Address.ofBank, Address.bank]; omega
            rw [hx]
            exact .near hi hc.1 hc.2 he hval
        · cases ht
  cases t with
  | none =>
    simp only [Res.ok.injEq] at h; subst h
    refine hS.congr fun x g => ?_
    rw [key]; simp
  | some y =>
    simp only [Res.ok.injEq] at h; subst h
    refine (holds_add hS y l.incoming.flags).congr fun x g => ?_
    rw [key]
    simp [eq_comm]

theorem noteTarget_dir {l : Line} {d : Directive} (hd : l.statement = .dir d) {o o' : Module.Out}
    (h : Module.noteTarget l o = .ok o') : o' = o := by
  unfold Module.noteTarget at h
  rw [hd] at h
  injection h with h
  exact h.symm

theorem assembleLine_holds {σ : Type} {m : Module} {externs : Ctx} {sink : Sink σ} {l : Line}
    {s s' : σ} {o o' : Module.Out} {S : Nat → StatusFlags → Prop} (hc : Canonical o.owned.ranges)
    (h : m.assembleLine externs sink l s o = (s', .ok o')) (hS : Reports o.targets S) :
    Reports o'.targets (fun x g => S x g ∨ TransfersTo (m.lookup l.scopes externs) l x g) := by
  unfold Module.assembleLine at h
  cases hst : l.statement with
  | instr i =>
    by_cases hpos : l.statement.serializedSize > 0
    rotate_left
    · simp only [if_neg hpos] at h
      simp only [hst, Prod.mk.injEq] at h
      obtain ⟨-, h⟩ := h
      replace h := Res.bind_eq_ok.mp h
      obtain ⟨o1, h1, h⟩ := h
      injection h1 with h1; subst h1
      refine noteTarget_holds hst (fun hm => ?_) h hS
      rw [hst] at hpos
      have : 0 < instructionLength i.mode := by rw [hm]; decide
      simp only [Statement.serializedSize, Instruction.serializedSize] at hpos
      omega
    simp only [if_pos hpos, Prod.mk.injEq] at h
    obtain ⟨e, h⟩ := h
    replace h := Res.bind_eq_ok.mp h
    obtain ⟨o1, h1, h⟩ := h
    have hw := (Prod.ext e h1 :
        Module.writeLine l (m.lookup l.scopes externs) sink s o = (s', .ok o1))
    obtain ⟨a, bs, hv, hb, hlen, hsk, g, ht, -⟩ := writeLine_ok hpos hc hw
    refine noteTarget_holds hst ?_ h (by rw [ht]; exact hS)
    intro _ a' ha'
    rw [hv] at ha'
    injection ha' with ha'
    have ha' : a = a' := Int.ofNat.inj ha'
    subst ha'
    -- the claim succeeded, so the address is inside the address space
    unfold Module.writeLine at hw
    rw [hv] at hw
    simp only at hw
    cases ha : Address.ofInt (a : Int) with
    | err e => rw [ha] at hw; cases hw
    | ub u => rw [ha] at hw; cases hw
    | ok a1 =>
      have : a1 = a := by
        simp only [Address.ofInt] at ha
        split at ha
        · injection ha with ha; omega
        · cases ha
      subst this
      rw [ha] at hw
      simp only at hw
      simp only [Statement.assemble, hb, hsk, Prod.mk.injEq, true_and] at hw
      unfold Module.claim at hw
      replace hw := Res.bind_eq_ok.mp hw
      obtain ⟨x, hx, -⟩ := hw
      rw [DataRange.claimBytes, dif_pos (by omega)] at hx
      replace hx := Res.bind_eq_ok.mp hx
      obtain ⟨stop, hs, -⟩ := hx
      simp only [Address.addUnwrapped, Address.ofInt] at hs
      split at hs
      · simp only [Address.bankAddress] at *; omega
      · cases hs
  | dir d =>
    have hno : d.name ≠ .remote → ∀ x g, ¬ TransfersTo (m.lookup l.scopes externs) l x g := by
      rintro hn x g (⟨h1, -⟩ | ⟨h1, -⟩ | ⟨h1, h2, -⟩)
      · rw [hst] at h1; cases h1
      · rw [hst] at h1; cases h1
      · rw [hst] at h1; cases h1; exact hn h2
    by_cases hpos : l.statement.serializedSize > 0
    · simp only [if_pos hpos, Prod.mk.injEq] at h
      obtain ⟨e, h⟩ := h
      replace h := Res.bind_eq_ok.mp h
      obtain ⟨o1, h1, h⟩ := h
      obtain ⟨a, bs, hv, hb, hlen, hsk, g, ht, -⟩ :=
        writeLine_ok hpos hc (Prod.ext e h1 :
          Module.writeLine l (m.lookup l.scopes externs) sink s o = (s', .ok o1))
      rw [noteTarget_dir hst h, ht]
      refine hS.congr fun x g => ?_
      have : d.name ≠ .remote := by
        intro hn
        rw [hst] at hpos
        simp [Statement.serializedSize, Directive.serializedSize, hn] at hpos
      simp [hno this]
    · simp only [if_neg hpos] at h
      simp only [hst, Prod.mk.injEq] at h
      obtain ⟨-, h⟩ := h
      replace h := Res.bind_eq_ok.mp h
      obtain ⟨o1, h1, h⟩ := h
      rw [noteTarget_dir hst h]
      exact assembleNote_holds hst h1 hS

theorem assembleLines_holds {σ : Type} {m : Module} {externs : Ctx} {sink : Sink σ}
    {ls : List Line} {s s' : σ} {o o' : Module.Out} {S : Nat → StatusFlags → Prop}
    (hc : Canonical o.owned.ranges)
    (h : m.assembleLines externs sink ls s o = (s', .ok o')) (hS : Reports o.targets S) :
    Reports o'.targets (fun x g => S x g ∨ ∃ l ∈ ls, TransfersTo (m.lookup l.scopes externs) l x g) := by
  induction ls generalizing s o S with
  | nil =>
    simp only [Module.assembleLines, Prod.mk.injEq, Res.ok.injEq] at h
    obtain ⟨rfl, rfl⟩ := h
    exact hS.congr fun x g => by simp
  | cons l ls ih =>
    simp only [Module.assembleLines] at h
    rcases h1 : m.assembleLine externs sink l s o with ⟨s1, r1⟩
    rw [h1] at h
    cases r1 with
    | err e => cases h
    | ub u => cases h
    | ok o1 =>
      obtain ⟨w, hw, hf, hg⟩ := assembleLine_ok hc h1
      refine (ih hg.canonical h (assembleLine_holds hc h1 hS)).congr fun x g => ?_
      simp [or_assoc]

/-! ## All modules -/

theorem finalPasses_targets {σ : Type} {sink : Sink σ} : ∀ {order : List Nat} {a a' : Assembler}
    {s s' : σ}, a.memory.Inv → order.Nodup →
    (∀ i ∈ order, ∀ m, a.modules[i]? = some m → m.owned = .empty ∧ m.targets = []) →
    Assembler.finalPasses sink a order s = (s', .ok a') →
    ∀ (i : Nat) (m' : Module), a'.modules[i]? = some m' →
      (i ∈ order → Reports m'.targets fun x g => ∃ l ∈ m'.lines,
        TransfersTo (m'.lookup l.scopes (Assembler.lookup a'.modules a'.names)) l x g) ∧
      (i ∉ order → a.modules[i]? = some m') := by
  intro order
  induction order with
  | nil =>
    intro a a' s s' hI _ _ h
    simp only [Assembler.finalPasses, Prod.mk.injEq, Res.ok.injEq] at h
    obtain ⟨rfl, rfl⟩ := h
    exact fun i m' h => ⟨by simp, fun _ => h⟩
  | cons i is ih =>
    intro a a' s s' hI hnd hemp h
    have hall := finalPasses_ok hI hnd (fun j hj m hm => (hemp j hj m hm).1) h
    rw [Assembler.finalPasses] at h
    cases hm : a.modules[i]? with
    | none => rw [hm] at h; cases h
    | some m =>
      rw [hm] at h
      simp only at h
      rcases ha : m.assemble (Assembler.lookup a.modules a.names) sink s with ⟨s1, r⟩
      rw [ha] at h
      cases r with
      | err e => cases h
      | ub u => cases h
      | ok m1 =>
        simp only at h
        rcases hi : a.memory.insert m1.owned i with ⟨mem, ok⟩
        rw [hi] at h
        cases ok with
        | false => cases h
        | true =>
          simp only at h
          obtain ⟨o, names, hl, -, hm1⟩ := assemble_parts ha
          obtain ⟨hE, hT⟩ := hemp i (by simp) m hm
          have hcan : Canonical m.owned.ranges := by
            rw [hE]; exact ⟨by simp [DataRange.empty], by simp [DataRange.empty]⟩
          obtain ⟨ws, hws, hf, hg⟩ := assembleLines_ok hcan hl
          have hsame : SameSource m m1 := by rw [hm1]; exact ⟨rfl, rfl, rfl, rfl⟩
          have hrep := assembleLines_holds (S := fun _ _ => False) hcan hl
            (by simp only [hT]; exact holds_nil)
          rw [hE] at hg
          have hown : m1.owned = o.owned := by rw [hm1]
          rw [← hown] at hg
          obtain ⟨hI', hg'⟩ := insert_grows hI hg hi
          have hnd' := List.nodup_cons.1 hnd
          intro j q hq
          obtain ⟨e1, e2⟩ := ih (a := { a with
              modules := a.modules.set i m1, memory := mem }) hI' hnd'.2 (by
            intro j hj q hq
            have hne : i ≠ j := by rintro rfl; exact hnd'.1 hj
            rw [List.getElem?_set_ne hne] at hq
            exact hemp j (by simp [hj]) q hq) h j q hq
          by_cases hij : i = j
          · subst hij
            have hq' := e2 hnd'.1
            have hlt := (List.getElem?_eq_some_iff.mp hm).1
            simp only [List.getElem?_set_self hlt, Option.some.injEq] at hq'
            subst hq'
            refine ⟨fun _ => ?_, fun hc => absurd (by simp) hc⟩
            have ht : m1.targets = o.targets := by rw [hm1]
            rw [ht]
            refine hrep.congr fun x g => ?_
            rw [lookup_same hall.2.1, hall.1, hsame.2.1, hsame.lookup]
            simp only [false_or]
          · rw [List.getElem?_set_ne hij] at e2
            refine ⟨fun hj => e1 ?_, fun hj => e2 ?_⟩
            · simpa [Ne.symm hij] using hj
            · simp at hj; exact hj.2

theorem sorted_tail_find {k : Nat} {f : StatusFlags} {E : OMap StatusFlags}
    (h : OMap.Sorted ((k, f) :: E)) : OMap.find E k = none := by
  unfold OMap.Sorted at h
  rw [List.pairwise_cons] at h
  exact OMap.find_none_of_lt fun y hy => h.1 y hy

theorem addTargets_holds (a : Assembler) : ∀ {E ret : OMap StatusFlags}
    {S S' : Nat → StatusFlags → Prop}, Reports E S' → Reports ret S →
    Reports (a.addTargets ret E) (fun x g => S x g ∨ (a.contains x = false ∧ S' x g)) := by
  intro E
  induction E with
  | nil =>
    intro ret S S' hE hr
    have hno : ∀ x g, ¬ S' x g := by
      intro x g hs
      obtain ⟨f, hf⟩ := (hE.keys x).2 ⟨g, hs⟩
      cases hf
    exact hr.congr fun x g => by simp [hno]
  | cons e E ih =>
    obtain ⟨k, f⟩ := e
    intro ret S S' hE hr
    have hk := sorted_tail_find hE.sorted
    have hfind : ∀ x, OMap.find ((k, f) :: E) x = if k = x then some f else OMap.find E x :=
      fun x => by rw [OMap.find]
    have hrest : Reports E (fun x g => x ≠ k ∧ S' x g) := by
      refine ⟨?_, fun x => ?_, fun x f' g hf hs => ?_, fun x f' g hf hn hall => ?_, fun x f' hf hn => ?_⟩
      · have := hE.sorted
        unfold OMap.Sorted at this ⊢
        exact (List.pairwise_cons.1 this).2
      · have := hE.keys x
        rw [hfind] at this
        by_cases hx : x = k
        · subst hx; rw [hk]; simp
        · rw [if_neg (Ne.symm hx)] at this
          rw [this]; simp [hx]
      · refine hE.covers x f' g ?_ hs.2
        rw [hfind, if_neg (Ne.symm hs.1)]; exact hf
      · have hx : x ≠ k := by rintro rfl; rw [hk] at hf; cases hf
        refine hE.tight x f' g ?_ hn fun g' hg' => hall g' ⟨hx, hg'⟩
        rw [hfind, if_neg (Ne.symm hx)]; exact hf
      · have hx : x ≠ k := by rintro rfl; rw [hk] at hf; cases hf
        obtain ⟨n, b⟩ := hE.bits x f' (by rw [hfind, if_neg (Ne.symm hx)]; exact hf) fun g hg => hn g ⟨hx, hg⟩
        exact ⟨n, fun sel hs v hk hall => b sel hs v hk fun g hg => hall g ⟨hx, hg⟩⟩
    have hkf : OMap.find ((k, f) :: E) k = some f := by rw [hfind, if_pos rfl]
    rw [Assembler.addTargets]
    split
    · next hc =>
      refine (ih hrest hr).congr fun x g => or_congr_right ?_
      constructor
      · rintro ⟨h1, -, h2⟩; exact ⟨h1, h2⟩
      · rintro ⟨h1, h2⟩
        refine ⟨h1, ?_, h2⟩
        rintro rfl; rw [hc] at h1; cases h1
    · next hc =>
      have hadd := holds_add_set hr k f (S' k) ((hE.keys k).1 ⟨f, hkf⟩)
        (fun g hg => hE.covers k f g hkf hg) (fun g hn hall => hE.tight k f g hkf hn hall)
        (fun hn => hE.bits k f hkf hn)
      refine (ih hrest hadd).congr fun x g => ?_
      have hc : a.contains k = false := by simpa using hc
      constructor
      · rintro ((h | ⟨rfl, h⟩) | ⟨h1, -, h2⟩)
        · exact .inl h
        · exact .inr ⟨hc, h⟩
        · exact .inr ⟨h1, h2⟩
      · rintro (h | ⟨h1, h2⟩)
        · exact .inl (.inl h)
        · by_cases hx : x = k
          · subst hx; exact .inl (.inr ⟨rfl, h2⟩)
          · exact .inr ⟨h1, hx, h2⟩

theorem jumpTargets_holds (a : Assembler) (D : Module → Nat → StatusFlags → Prop)
    (h : ∀ m ∈ a.modules, Reports m.targets (D m)) :
    Reports a.jumpTargets (fun x g => a.contains x = false ∧ ∃ m ∈ a.modules, D m x g) := by
  have key : ∀ (ms : List Module) (ret : OMap StatusFlags) (S : Nat → StatusFlags → Prop),
      (∀ m ∈ ms, Reports m.targets (D m)) → Reports ret S →
      Reports (ms.foldl (fun ret m => a.addTargets ret m.targets) ret)
        (fun x g => S x g ∨ (a.contains x = false ∧ ∃ m ∈ ms, D m x g)) := by
    intro ms
    induction ms with
    | nil => intro ret S _ hr; exact hr.congr fun x g => by simp
    | cons m ms ih =>
      intro ret S hms hr
      rw [List.foldl_cons]
      refine (ih _ _ (fun q hq => hms q (by simp [hq]))
        (addTargets_holds a (hms m (by simp)) hr)).congr fun x g => ?_
      simp only [List.mem_cons, exists_eq_or_imp]
      tauto
  exact (key a.modules [] _ h holds_nil).congr fun x g => by simp

end Nsasm
