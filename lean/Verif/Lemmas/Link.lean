import Verif.Lemmas.Emit
import Verif.Lemmas.Order
import Verif.Lemmas.Loader

/-! # Lemmas: the passes of the assembler over all modules -/

namespace Nsasm

open Spec Props

/-! ## What the second pass leaves alone -/

theorem evalEqu_fields {externs : Ctx} {m m' : Module} {i : Nat} {l : Line}
    (h : Module.evalEqu externs m i l = .ok m') : ∃ lines, m' = { m with lines := lines } := by
  unfold Module.evalEqu at h
  split at h
  · injection h with h; subst h; exact ⟨m.lines, rfl⟩
  · split at h
    · replace h := Res.bind_eq_ok.mp h
      obtain ⟨v, -, h⟩ := h
      injection h with h; subst h; exact ⟨_, rfl⟩
    · injection h with h; subst h; exact ⟨m.lines, rfl⟩

theorem secondLoop_fields {externs : Ctx} : ∀ (n i : Nat) (m m' : Module),
    Module.secondLoop externs n i m = .ok m' → ∃ lines, m' = { m with lines := lines } := by
  intro n
  induction n with
  | zero =>
    intro i m m' h
    injection h with h; subst h; exact ⟨m.lines, rfl⟩
  | succ n ih =>
    intro i m m' h
    rw [Module.secondLoop] at h
    split at h
    · cases h
    · replace h := Res.bind_eq_ok.mp h
      obtain ⟨m1, h1, h⟩ := h
      obtain ⟨ls, rfl⟩ := evalEqu_fields h1
      obtain ⟨ls', rfl⟩ := ih _ _ _ h
      exact ⟨ls', rfl⟩

theorem secondPass_fields {externs : Ctx} {m m' : Module}
    (h : m.runSecondPass externs = .ok m') : ∃ lines, m' = { m with lines := lines } :=
  secondLoop_fields _ _ _ _ h

/-! ## The passes, module by module -/

/-- The lists have related elements at every index, and the same length. -/
def Pointwise {α β : Type} (R : Nat → α → β → Prop) (l : List α) (l' : List β) : Prop :=
  l.length = l'.length ∧ ∀ (i : Nat) (a : α) (b : β), l[i]? = some a → l'[i]? = some b → R i a b

theorem pointwise_set {α : Type} {R : Nat → α → α → Prop} (hr : ∀ i a, R i a a) {l : List α}
    {i : Nat} {a b : α} (ha : l[i]? = some a) (hab : R i a b) : Pointwise R l (l.set i b) := by
  refine ⟨by simp, fun j x y hx hy => ?_⟩
  rw [List.getElem?_set] at hy
  split at hy
  · next e =>
    subst e
    rw [hx] at ha; cases ha
    split at hy
    · cases hy; exact hab
    · cases hy
  · rw [hx] at hy; cases hy; exact hr _ _

theorem pointwise_trans {α : Type} {R : Nat → α → α → Prop}
    (ht : ∀ i a b c, R i a b → R i b c → R i a c) {l l' l'' : List α} (h : Pointwise R l l')
    (h' : Pointwise R l' l'') : Pointwise R l l'' := by
  refine ⟨h.1.trans h'.1, fun i a c ha hc => ?_⟩
  have hi : i < l'.length := by
    have := (List.getElem?_eq_some_iff.mp ha).1
    rw [← h.1]; exact this
  exact ht i a _ c (h.2 i a _ ha (List.getElem?_eq_getElem hi))
    (h'.2 i _ c (List.getElem?_eq_getElem hi) hc)

/-- The module differs only in its lines. -/
def SameTables (m m' : Module) : Prop := ∃ lines, m' = { m with lines := lines }

theorem SameTables.trans {a b c : Module} (h : SameTables a b) (h' : SameTables b c) :
    SameTables a c := by
  obtain ⟨l, rfl⟩ := h
  obtain ⟨l', rfl⟩ := h'
  exact ⟨l', rfl⟩

theorem firstPasses_same {fuel : Nat} : ∀ {order : List Nat} {ms ms' : List Module},
    Assembler.firstPasses fuel ms order = .ok ms' → Pointwise (fun _ => SameTables) ms ms' := by
  intro order
  induction order with
  | nil =>
    intro ms ms' h
    injection h with h; subst h
    exact ⟨rfl, fun i a b ha hb => by rw [ha] at hb; cases hb; exact ⟨a.lines, rfl⟩⟩
  | cons i is ih =>
    intro ms ms' h
    rw [Assembler.firstPasses] at h
    split at h
    · cases h
    · next m hm =>
      replace h := Res.bind_eq_ok.mp h
      obtain ⟨m1, h1, h⟩ := h
      obtain ⟨_, _, ls, _, _, _, hls⟩ := firstPass_parts h1
      exact pointwise_trans (R := fun _ => SameTables) (fun _ _ _ _ => SameTables.trans)
        (pointwise_set (R := fun _ => SameTables) (fun _ a => ⟨a.lines, rfl⟩) hm ⟨_, hls⟩) (ih h)

theorem secondPasses_same {names : HMap FullId Nat} : ∀ {order : List Nat} {ms ms' : List Module},
    Assembler.secondPasses names ms order = .ok ms' → Pointwise (fun _ => SameTables) ms ms' := by
  intro order
  induction order with
  | nil =>
    intro ms ms' h
    injection h with h; subst h
    exact ⟨rfl, fun i a b ha hb => by rw [ha] at hb; cases hb; exact ⟨a.lines, rfl⟩⟩
  | cons i is ih =>
    intro ms ms' h
    rw [Assembler.secondPasses] at h
    split at h
    · cases h
    · next m hm =>
      replace h := Res.bind_eq_ok.mp h
      obtain ⟨m1, h1, h⟩ := h
      exact pointwise_trans (R := fun _ => SameTables) (fun _ _ _ _ => SameTables.trans)
        (pointwise_set (R := fun _ => SameTables) (fun _ a => ⟨a.lines, rfl⟩) hm (secondPass_fields h1)) (ih h)

theorem prepare_parts {fuel : Nat} {ms : List Module} {a : Assembler} {order : List Nat}
    (h : Assembler.prepare fuel ms = .ok (a, order)) :
    ∃ o ms₁, Assembler.findAssemblyOrder ms = .ok o ∧ order = o.order ∧ a.names = o.exported ∧
      a.memory = .empty ∧ Assembler.firstPasses fuel ms o.order = .ok ms₁ ∧
      Assembler.secondPasses o.exported ms₁ o.order = .ok a.modules := by
  unfold Assembler.prepare at h
  replace h := Res.bind_eq_ok.mp h
  obtain ⟨o, ho, h⟩ := h
  replace h := Res.bind_eq_ok.mp h
  obtain ⟨ms1, h1, h⟩ := h
  replace h := Res.bind_eq_ok.mp h
  obtain ⟨ms2, h2, h⟩ := h
  simp only [Res.ok.injEq, Prod.mk.injEq] at h
  obtain ⟨rfl, rfl⟩ := h
  exact ⟨o, ms1, ho, rfl, rfl, rfl, h1, h2⟩

/-! ## The final pass -/

/-- The module differs only in what assembling adds to it. -/
def SameSource (m m' : Module) : Prop :=
  m'.name = m.name ∧ m'.lines = m.lines ∧ m'.globals = m.globals ∧ m'.deps = m.deps

theorem SameSource.refl (m : Module) : SameSource m m := ⟨rfl, rfl, rfl, rfl⟩

theorem SameSource.trans {a b c : Module} (h : SameSource a b) (h' : SameSource b c) :
    SameSource a c :=
  ⟨h'.1.trans h.1, h'.2.1.trans h.2.1, h'.2.2.1.trans h.2.2.1, h'.2.2.2.trans h.2.2.2⟩

theorem SameSource.localIndex {m m' : Module} (h : SameSource m m') (name : Str)
    (scopes : List Nat) : m'.localIndex name scopes = m.localIndex name scopes := by
  induction scopes with
  | nil => simp only [Module.localIndex, h.2.2.1]
  | cons s ss ih => simp only [Module.localIndex, Module.localsAt, h.2.1, ih]

theorem SameSource.localLookup {m m' : Module} (h : SameSource m m') :
    m'.localLookup = m.localLookup := by
  funext i
  simp only [Module.localLookup, h.2.1]

theorem SameSource.valueForName {m m' : Module} (h : SameSource m m') :
    m'.valueForName = m.valueForName := by
  funext id
  simp only [Module.valueForName, h.1, h.2.2.1, h.localLookup]

theorem SameSource.lookup {m m' : Module} (h : SameSource m m') : m'.lookup = m.lookup := by
  funext scopes externs id
  unfold Module.lookup
  simp only [h.1, h.localIndex, h.localLookup]

theorem lookup_same {ms ms' : List Module} (h : Pointwise (fun _ => SameSource) ms ms')
    (names : HMap FullId Nat) : Assembler.lookup ms' names = Assembler.lookup ms names := by
  funext id
  unfold Assembler.lookup
  split
  · rfl
  · split
    · rfl
    · next i _ =>
      by_cases hi : i < ms.length
      · have hi' : i < ms'.length := by rw [← h.1]; exact hi
        rw [List.getElem?_eq_getElem hi, List.getElem?_eq_getElem hi']
        exact congrFun (h.2 i _ _ (List.getElem?_eq_getElem hi)
          (List.getElem?_eq_getElem hi')).valueForName id
      · have := h.1
        rw [List.getElem?_eq_none (l := ms) (by omega), List.getElem?_eq_none (l := ms') (by omega)]

theorem inv_contains {τ : Type} {r : RangeMap τ} (h : r.Inv) (x : Nat) :
    r.contains x = true ↔ r.lookup x ≠ none := by
  unfold RangeMap.contains
  rw [contains_iff h.used, h.covered, Option.ne_none_iff_exists']
  constructor
  · rintro ⟨e, he, hin⟩; exact ⟨e.2, (RangeMap.lookup_iff h x e.2).2 ⟨e, he, hin, rfl⟩⟩
  · rintro ⟨w, hw⟩
    obtain ⟨e, he, hin, -⟩ := (RangeMap.lookup_iff h x w).1 hw
    exact ⟨e, he, hin⟩

theorem insert_grows {τ : Type} {r r' : RangeMap τ} (h : r.Inv) {range : DataRange}
    {l : List Nat} (hg : Claims .empty range l) {v : τ} (hi : r.insert range v = (r', true)) :
    r'.Inv ∧ Claims r.used r'.used l := by
  obtain ⟨h1, h2, h3⟩ := insert_spec h hg.canonical v (f := r.lookup) (fun _ => rfl)
  rw [hi] at h1 h2 h3
  have hin : ∀ x, range.contains x = true ↔ x ∈ l := fun x => by
    rw [hg.exact]; simp [DataRange.empty, DataRange.contains, DataRange.before]
  have hno : ¬ ∃ a, range.contains a = true ∧ r.lookup a ≠ none := by
    intro hc; simp only [AMap.insert, if_pos hc] at h2; cases h2
  simp only [AMap.insert, if_neg hno] at h3
  refine ⟨h1, h1.used, fun x => ?_, fun x hx => ?_, hg.nodup⟩
  · have e1 := inv_contains h1 x
    have e2 := inv_contains h x
    unfold RangeMap.contains at e1 e2
    rw [e1, e2, h3]
    by_cases hx : range.contains x = true
    · simp [hx, (hin x).1 hx]
    · simp [hx, mt (hin x).2 hx]
  · by_contra hc
    refine hno ⟨x, (hin x).2 hx, (inv_contains h x).1 (by simpa [RangeMap.contains] using hc)⟩

theorem empty_inv {τ : Type} : (RangeMap.empty : RangeMap τ).Inv :=
  ⟨⟨by simp [RangeMap.empty, DataRange.empty], by simp [RangeMap.empty, DataRange.empty]⟩,
    by simp [RangeMap.empty], by simp [RangeMap.empty],
    by simp [RangeMap.empty, DataRange.empty, Covers]⟩

/-- What the final passes do. -/
theorem finalPasses_ok {σ : Type} {sink : Sink σ} : ∀ {order : List Nat} {a a' : Assembler}
    {s s' : σ}, a.memory.Inv → order.Nodup →
    (∀ i ∈ order, ∀ m, a.modules[i]? = some m → m.owned = .empty) →
    Assembler.finalPasses sink a order s = (s', .ok a') →
    a'.names = a.names ∧ Pointwise (fun _ => SameSource) a.modules a'.modules ∧
    ∃ wss : List (List Writes),
      List.Forall₂ (fun i ws => ∃ m, a.modules[i]? = some m ∧
        List.Forall₂ (fun l w => LineWrites (m.lookup l.scopes
          (Assembler.lookup a.modules a.names)) l w) m.lines ws) order wss ∧
      Feeds sink s wss.flatten.flatten s' ∧
      Claims a.memory.used a'.memory.used (allFilled wss.flatten.flatten) := by
  intro order
  induction order with
  | nil =>
    intro a a' s s' hI _ _ h
    simp only [Assembler.finalPasses, Prod.mk.injEq, Res.ok.injEq] at h
    obtain ⟨rfl, rfl⟩ := h
    exact ⟨rfl, ⟨rfl, fun i x y hx hy => by rw [hx] at hy; cases hy; exact .refl _⟩,
      [], .nil, .nil _, .nil hI.used⟩
  | cons i is ih =>
    intro a a' s s' hI hnd hemp h
    rw [Assembler.finalPasses] at h
    cases hm : a.modules[i]? with
    | none => rw [hm] at h; cases h
    | some m =>
      rw [hm] at h
      simp only at h
      rcases ha : m.assemble (Assembler.lookup a.modules a.names) sink s with ⟨s1, r⟩
      rw [ha] at h
      cases r with
      | err e => cases h
      | ub u => cases h
      | ok m1 =>
        simp only at h
        rcases hi : a.memory.insert m1.owned i with ⟨mem, ok⟩
        rw [hi] at h
        cases ok with
        | false => cases h
        | true =>
          simp only at h
          obtain ⟨o, names, hl, -, hm1⟩ := assemble_parts ha
          have hE : m.owned = .empty := hemp i (by simp) m hm
          obtain ⟨ws, hws, hf, hg⟩ := assembleLines_ok (by
            rw [hE]; exact ⟨by simp [DataRange.empty], by simp [DataRange.empty]⟩) hl
          have hsame : SameSource m m1 := by rw [hm1]; exact ⟨rfl, rfl, rfl, rfl⟩
          rw [hE] at hg
          have hown : m1.owned = o.owned := by rw [hm1]
          rw [← hown] at hg
          obtain ⟨hI', hg'⟩ := insert_grows hI hg hi
          have hset : Pointwise (fun _ => SameSource) a.modules (a.modules.set i m1) :=
            pointwise_set (R := fun _ => SameSource) (fun _ a => .refl a) hm hsame
          have hnd' := List.nodup_cons.1 hnd
          obtain ⟨e1, e2, wss, e3, e4, e5⟩ := ih (a := { a with
              modules := a.modules.set i m1, memory := mem }) hI' hnd'.2 (by
            intro j hj q hq
            have hne : i ≠ j := by rintro rfl; exact hnd'.1 hj
            rw [List.getElem?_set_ne hne] at hq
            exact hemp j (by simp [hj]) q hq) h
          refine ⟨e1, pointwise_trans (R := fun _ => SameSource) (fun _ _ _ _ => SameSource.trans) hset e2, ws :: wss,
            .cons ⟨m, hm, hws⟩ ?_, ?_, ?_⟩
          · have hmem : ∀ j ∈ is, i ≠ j := by rintro j hj rfl; exact hnd'.1 hj
            simp only [lookup_same hset] at e3
            clear hnd hnd' hemp ih e1 e2 e4 e5 h
            induction e3 with
            | nil => exact .nil
            | cons hx _ ih' =>
              obtain ⟨q, hq, hx⟩ := hx
              refine .cons ⟨q, ?_, hx⟩ (ih' fun j hj => hmem j (by simp [hj]))
              rw [List.getElem?_set_ne (hmem _ (by simp))] at hq
              exact hq
          · simpa using hf.trans e4
          · rw [List.flatten_cons, List.flatten_append, allFilled_append]
            exact hg'.trans e5

/-! ## What each module went through -/

theorem firstPasses_each {fuel : Nat} : ∀ {order : List Nat} {ms ms' : List Module},
    order.Nodup → Assembler.firstPasses fuel ms order = .ok ms' →
    ms'.length = ms.length ∧
    ∀ (i : Nat) (m' : Module), ms'[i]? = some m' → ∃ m, ms[i]? = some m ∧
      ((i ∈ order ∧ m.runFirstPass fuel = .ok m') ∨ (i ∉ order ∧ m' = m)) := by
  intro order
  induction order with
  | nil =>
    intro ms ms' _ h
    injection h with h; subst h
    exact ⟨rfl, fun i m' h => ⟨m', h, .inr ⟨by simp, rfl⟩⟩⟩
  | cons i is ih =>
    intro ms ms' hnd h
    rw [Assembler.firstPasses] at h
    cases hm : ms[i]? with
    | none => rw [hm] at h; cases h
    | some m =>
      rw [hm] at h
      simp only at h
      replace h := Res.bind_eq_ok.mp h
      obtain ⟨m1, h1, h⟩ := h
      obtain ⟨hni, hnd⟩ := List.nodup_cons.1 hnd
      obtain ⟨e1, e2⟩ := ih hnd h
      refine ⟨by rw [e1]; simp, fun j q hq => ?_⟩
      obtain ⟨p, hp, hpq⟩ := e2 j q hq
      by_cases hij : i = j
      · subst hij
        have hlt := (List.getElem?_eq_some_iff.mp hm).1
        rw [List.getElem?_set_self hlt] at hp; cases hp
        rcases hpq with ⟨hin, -⟩ | ⟨-, rfl⟩
        · exact absurd hin hni
        · exact ⟨m, hm, .inl ⟨by simp, h1⟩⟩
      · rw [List.getElem?_set_ne hij] at hp
        refine ⟨p, hp, ?_⟩
        rcases hpq with ⟨hin, h⟩ | ⟨hin, rfl⟩
        · exact .inl ⟨by simp [hin], h⟩
        · exact .inr ⟨by simp [hin, Ne.symm hij], rfl⟩

/-- The `.equ` lines of the module have no values yet. -/
def Unvalued (m : Module) : Prop :=
  ∀ (j : Nat) (l : Line) (d : Directive), m.lines[j]? = some l → l.statement = .dir d →
    d.name = .equ → l.value = none

theorem unvalued_first {file : List Str} {fuel : Nat} {m m₁ : Module}
    (hm : Module.loadAsmFile file = .ok m) (h1 : m.runFirstPass fuel = .ok m₁) : Unvalued m₁ := by
  obtain ⟨items, -, hI, -, -⟩ := loadAsmFile_ok hm
  intro j l d hl hd hq
  obtain ⟨l₀, h0, -, -, -, -, hv⟩ := firstPass_line h1 hl
  rw [hv ((isDir_iff _ _).mpr ⟨d, hd, hq⟩)]
  exact (hI.line j l₀ h0).2.2.2

theorem MoreValues.valueForName {m m' : Module} (h : MoreValues m m') {id : FullId} {v : Int}
    (hv : m.valueForName id = .ok v) : m'.valueForName id = .ok v := by
  unfold Module.valueForName at hv ⊢
  rw [h.name, h.globals]
  split at hv
  · cases hv
  · next hn =>
    rw [if_neg hn]
    split at hv
    · cases hv
    · exact h.localLookup hv

theorem lookup_more {ms ms' : List Module} (h : Pointwise (fun _ => MoreValues) ms ms')
    (names : HMap FullId Nat) {id : FullId} {v : Int}
    (hv : Assembler.lookup ms names id = .ok v) : Assembler.lookup ms' names id = .ok v := by
  unfold Assembler.lookup at hv ⊢
  split at hv
  · cases hv
  · next hn =>
    rw [if_neg hn]
    split at hv
    · cases hv
    · next i hi =>
      split at hv
      · cases hv
      · next m hm =>
        have hlt := (List.getElem?_eq_some_iff.mp hm).1
        have hlt' : i < ms'.length := by rw [← h.1]; exact hlt
        rw [List.getElem?_eq_getElem hlt']
        exact (h.2 i m _ hm (List.getElem?_eq_getElem hlt')).valueForName hv

theorem lookup_mono (m : Module) (scopes : List Nat) {externs externs' : Ctx}
    (h : ∀ id v, externs id = .ok v → externs' id = .ok v) (id : FullId) (v : Int)
    (hv : m.lookup scopes externs id = .ok v) : m.lookup scopes externs' id = .ok v := by
  unfold Module.lookup at hv ⊢
  cases hid : id.module with
  | none =>
    rw [hid] at hv
    simp only at hv ⊢
    cases hl : m.localIndex id.name scopes with
    | none => rw [hl] at hv; exact h _ _ hv
    | some t => rw [hl] at hv; exact hv
  | some q =>
    rw [hid] at hv
    simp only at hv ⊢
    split at hv
    · next e =>
      rw [if_pos e]
      cases hl : m.localIndex id.name [] with
      | none => rw [hl] at hv; exact h _ _ hv
      | some t => rw [hl] at hv; exact hv
    · next e => rw [if_neg e]; exact h _ _ hv

theorem secondPasses_each {names : HMap FullId Nat} : ∀ {order : List Nat} {ms ms' : List Module},
    order.Nodup → (∀ i ∈ order, ∀ m, ms[i]? = some m → Unvalued m) →
    Assembler.secondPasses names ms order = .ok ms' →
    Pointwise (fun _ => MoreValues) ms ms' ∧
    ∀ (i : Nat) (m' : Module), ms'[i]? = some m' → ∃ m, ms[i]? = some m ∧
      ((i ∈ order ∧ ∃ externs : Ctx, m.runSecondPass externs = .ok m' ∧
          ∀ id v, externs id = .ok v → Assembler.lookup ms' names id = .ok v) ∨
        (i ∉ order ∧ m' = m)) := by
  intro order
  induction order with
  | nil =>
    intro ms ms' _ _ h
    injection h with h; subst h
    exact ⟨⟨rfl, fun i a b ha hb => by rw [ha] at hb; cases hb; exact .refl _⟩,
      fun i m' h => ⟨m', h, .inr ⟨by simp, rfl⟩⟩⟩
  | cons i is ih =>
    intro ms ms' hnd hun h
    rw [Assembler.secondPasses] at h
    cases hm : ms[i]? with
    | none => rw [hm] at h; cases h
    | some m =>
      rw [hm] at h
      simp only at h
      replace h := Res.bind_eq_ok.mp h
      obtain ⟨m1, h1, h⟩ := h
      obtain ⟨hni, hnd⟩ := List.nodup_cons.1 hnd
      obtain ⟨hmore, -, -⟩ := secondLoop_spec _ 0 m m1 h1
        (fun j l d _ => hun i (by simp) m hm j l d)
      have hset : Pointwise (fun _ => MoreValues) ms (ms.set i m1) :=
        pointwise_set (R := fun _ => MoreValues) (fun _ a => .refl a) hm hmore
      obtain ⟨e1, e2⟩ := ih hnd (by
        intro j hj q hq
        have hne : i ≠ j := by rintro rfl; exact hni hj
        rw [List.getElem?_set_ne hne] at hq
        exact hun j (by simp [hj]) q hq) h
      have hall := pointwise_trans (R := fun _ => MoreValues)
        (fun _ _ _ _ => MoreValues.trans) hset e1
      refine ⟨hall, fun j q hq => ?_⟩
      obtain ⟨p, hp, hpq⟩ := e2 j q hq
      by_cases hij : i = j
      · subst hij
        have hlt := (List.getElem?_eq_some_iff.mp hm).1
        rw [List.getElem?_set_self hlt] at hp; cases hp
        rcases hpq with ⟨hin, -⟩ | ⟨-, rfl⟩
        · exact absurd hin hni
        · exact ⟨m, hm, .inl ⟨by simp, _, h1, fun id v hv => lookup_more hall names hv⟩⟩
      · rw [List.getElem?_set_ne hij] at hp
        refine ⟨p, hp, ?_⟩
        rcases hpq with ⟨hin, h⟩ | ⟨hin, rfl⟩
        · exact .inl ⟨by simp [hin], h⟩
        · exact .inr ⟨by simp [hin, Ne.symm hij], rfl⟩

end Nsasm
