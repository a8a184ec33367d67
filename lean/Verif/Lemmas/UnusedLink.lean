import Verif.Lemmas.UnusedPasses
import Verif.Lemmas.Faults
import Verif.Props.AnyOrder
import Verif.Props.Separate

/-! # A label that nothing refers to: the assembler -/

namespace Nsasm.Unused
open Spec Parse Props

variable {n : Str}

/-! ## The order -/

/-- The names of all modules, without one. -/
def dropIds (n : Str) (m : HMap FullId Nat) : HMap FullId Nat := m.filter fun p => p.1.name ≠ n

theorem find_dropIds (m : HMap FullId Nat) {k : FullId} (hk : k.name ≠ n) : HMap.find (dropIds n m) k = HMap.find m k := by
  induction m with
  | nil => rfl
  | cons p m ih =>
    unfold dropIds at ih ⊢
    by_cases hp : p.1.name = n
    · rw [List.filter_cons_of_neg (by simp [hp]), ih]
      show _ = if p.1 = k then some p.2 else HMap.find m k
      rw [if_neg (fun e : p.1 = k => hk (e ▸ hp))]
    · rw [List.filter_cons_of_pos (by simp [hp])]
      show (if p.1 = k then some p.2 else HMap.find (m.filter _) k) = if p.1 = k then some p.2 else HMap.find m k
      rw [ih]

theorem find_dropIds_self (m : HMap FullId Nat) {k : FullId} (hk : k.name = n) : HMap.find (dropIds n m) k = none := by
  induction m with
  | nil => rfl
  | cons p m ih =>
    unfold dropIds at ih ⊢
    by_cases hp : p.1.name = n
    · rw [List.filter_cons_of_neg (by simp [hp]), ih]
    · rw [List.filter_cons_of_pos (by simp [hp])]
      show (if p.1 = k then some p.2 else HMap.find (m.filter _) k) = none
      rw [if_neg (fun e : p.1 = k => hp (e ▸ hk)), ih]

theorem has_dropIds (m : HMap FullId Nat) {k : FullId} (hk : k.name ≠ n) : HMap.has (dropIds n m) k = HMap.has m k := by
  rw [HMap.has, find_dropIds m hk, HMap.has]

/-- The ids with another name. -/
def otherIds (n : Str) (ns : List FullId) : List FullId := ns.filter fun id => id.name ≠ n

theorem addExports_drop (i : Nat) : ∀ (ns : List FullId) (ex : HMap FullId Nat), (ns.filter fun id => id.name = n).length ≤ 1 →
    ((∃ id ∈ ns, id.name = n) → ∀ id, id.name = n → HMap.find ex id = none) →
    Assembler.addExports i (dropIds n ex) (otherIds n ns) = dropIds n <$> Assembler.addExports i ex ns := by
  intro ns
  induction ns with
  | nil => intro ex _ _; rfl
  | cons k ns ih =>
    intro ex h1 h2
    by_cases hk : k.name = n
    · have hno : ∀ q ∈ ns, q.name ≠ n := by
        intro q hq e
        rw [List.filter_cons_of_pos (by simpa using hk), List.length_cons] at h1
        have : q ∈ ns.filter fun id => id.name = n := List.mem_filter.mpr ⟨hq, by simpa using e⟩
        have := List.length_pos_of_mem this
        omega
      have e : otherIds n (k :: ns) = otherIds n ns := by
        unfold otherIds; rw [List.filter_cons_of_neg (by simpa using hk)]
      have hx := h2 ⟨k, by simp, hk⟩ k hk
      rw [e, Assembler.addExports, if_neg (by rw [HMap.has, hx]; simp)]
      have e2 : dropIds n ex = dropIds n (HMap.insertNew ex k i) := by
        simp [dropIds, HMap.insertNew, List.filter_append, hk]
      rw [e2]
      refine ih _ ?_ fun ⟨q, hq, e⟩ => absurd e (hno q hq)
      rw [List.filter_eq_nil_iff.mpr fun q hq => by simpa using hno q hq]
      simp
    · have e : otherIds n (k :: ns) = k :: otherIds n ns := by
        unfold otherIds; rw [List.filter_cons_of_pos (by simpa using hk)]
      rw [e, Assembler.addExports, Assembler.addExports, has_dropIds _ hk]
      refine ite_ren Iff.rfl (fun _ => rfl) fun _ => ?_
      have e2 : HMap.insertNew (dropIds n ex) k i = dropIds n (HMap.insertNew ex k i) := by
        simp [dropIds, HMap.insertNew, List.filter_append, hk]
      rw [e2]
      refine ih _ ?_ fun ⟨q, hq, e⟩ id hid => ?_
      · rwa [List.filter_cons_of_neg (by simpa using hk)] at h1
      · unfold HMap.insertNew
        rw [find_append, h2 ⟨q, by simp [hq], e⟩ id hid]
        have : k ≠ id := fun e => hk (e ▸ hid)
        simp [HMap.find, this]

def dropOrder (n : Str) (o : Assembler.Ordering) : Assembler.Ordering := { o with exported := dropIds n o.exported }

/-- What is known of the module with number `i`: only the one with number `z` may have the name. -/
structure Linked (n : Str) (z : Nat) (i : Nat) (m : Module) : Prop where
  nodup : NamesNodup m
  deps : ∀ d ∈ m.deps, d.name ≠ n
  only : (∃ t, (n, t) ∈ m.globals) → i = z

/-- Nothing exported so far has the name, or it comes from the module with number `z`. -/
def Sound (n : Str) (z : Nat) (o : Assembler.Ordering) : Prop :=
  ∀ id, id.name = n → HMap.find o.exported id ≠ none → z ∈ o.order

theorem exportedNames_drop (m : Module) : (dropName n m).exportedNames = otherIds n m.exportedNames := by
  simp only [Module.exportedNames, dropName, drop, otherIds, List.filter_map]
  rfl

theorem consider_drop {z : Nat} {o : Assembler.Ordering} (ho : Sound n z o) {i : Nat} {m : Module} (hm : Linked n z i m) :
    Assembler.consider (dropOrder n o) i (dropName n m) = dropOrder n <$> Assembler.consider o i m ∧
      ∀ o', Assembler.consider o i m = .ok o' → Sound n z o' := by
  have hd : ((dropName n m).deps.all fun d => (dropOrder n o).exported.has d) = m.deps.all fun d => o.exported.has d := by
    show (m.deps.all fun d => HMap.has (dropIds n o.exported) d) = _
    rw [Bool.eq_iff_iff, List.all_eq_true, List.all_eq_true]
    exact forall₂_congr fun d hd => by rw [has_dropIds _ (hm.deps d hd)]
  have hnd := exportedNames_nodup hm.nodup
  have honce : (m.exportedNames.filter fun id => id.name = n).length ≤ 1 := by
    have h1 : ∀ a ∈ m.exportedNames.filter fun id => id.name = n, a = ⟨some m.name, n⟩ := by
      intro a ha
      rw [List.mem_filter] at ha
      obtain ⟨h1, -⟩ := mem_exportedNames.mp ha.1
      have h2 : a.name = n := by simpa using ha.2
      cases a
      simp_all
    have h2 := hnd.filter fun id : FullId => decide (id.name = n)
    generalize m.exportedNames.filter (fun id => id.name = n) = L at h1 h2
    match L, h1, h2 with
    | [], _, _ => simp
    | [_], _, _ => simp
    | a :: b :: L, h1, h2 =>
      have := h1 a (by simp)
      have := h1 b (by simp)
      simp_all
  constructor
  · unfold Assembler.consider
    by_cases hi : i ∈ o.order
    · rw [if_pos hi, if_pos (show i ∈ (dropOrder n o).order from hi)]; rfl
    rw [if_neg hi, if_neg (show i ∉ (dropOrder n o).order from hi), hd, exportedNames_drop]
    refine ite_ren Iff.rfl (fun _ => ?_) fun _ => rfl
    refine bind_ren (addExports_drop i _ _ honce ?_) fun _ => rfl
    rintro ⟨id, hid, hn⟩ id' hn'
    obtain ⟨-, t, ht⟩ := mem_exportedNames.mp hid
    rw [hn] at ht
    have := hm.only ⟨t, ht⟩
    subst this
    by_contra hc
    exact hi (ho id' hn' hc)
  · intro o' h
    unfold Assembler.consider at h
    split at h
    · cases h; exact ho
    · split at h
      · obtain ⟨ex, hex, h⟩ := Res.bind_eq_ok.mp h
        cases h
        intro id hid hf
        obtain ⟨-, h2⟩ := addExports_ok hex
        simp only at hf
        rw [h2] at hf
        show z ∈ o.order ++ [i]
        by_cases h3 : HMap.find o.exported id = none
        · by_cases h4 : id ∈ m.exportedNames
          · obtain ⟨-, t, ht⟩ := mem_exportedNames.mp h4
            rw [hid] at ht
            have := hm.only ⟨t, ht⟩
            simp [this]
          · rw [h3, if_neg h4] at hf; exact absurd rfl hf
        · exact List.mem_append_left _ (ho id hid h3)
      · cases h; exact ho

theorem round_drop {z : Nat} : ∀ (ms : List Module) {o : Assembler.Ordering} (_ : Sound n z o) (i : Nat),
    (∀ k m, ms[k]? = some m → Linked n z (i + k) m) →
    Assembler.round (dropOrder n o) i (ms.map (dropName n)) = dropOrder n <$> Assembler.round o i ms ∧
      ∀ o', Assembler.round o i ms = .ok o' → Sound n z o' := by
  intro ms
  induction ms with
  | nil => intro o ho i _; exact ⟨rfl, fun o' h => by cases h; exact ho⟩
  | cons m ms ih =>
    intro o ho i hl
    obtain ⟨h1, h2⟩ := consider_drop ho (hl 0 m rfl)
    have hr : ∀ k q, ms[k]? = some q → Linked n z (i + 1 + k) q := by
      intro k q hq
      have := hl (k + 1) q hq
      rwa [show i + (k + 1) = i + 1 + k by omega] at this
    rw [List.map_cons, Assembler.round, Assembler.round]
    constructor
    · exact bind_on h1 fun o' ho' => (ih (h2 o' ho') (i + 1) hr).1
    · intro o' h
      obtain ⟨o1, ho1, h⟩ := Res.bind_eq_ok.mp h
      exact (ih (h2 o1 ho1) (i + 1) hr).2 o' h

theorem orderLoop_drop {z : Nat} {ms : List Module} (hl : ∀ k m, ms[k]? = some m → Linked n z k m) :
    ∀ (k : Nat) {o : Assembler.Ordering}, Sound n z o →
    Assembler.orderLoop (ms.map (dropName n)) k (dropOrder n o) = dropOrder n <$> Assembler.orderLoop ms k o := by
  intro k
  induction k with
  | zero => intro o _; rfl
  | succ k ih =>
    intro o ho
    obtain ⟨h1, h2⟩ := round_drop ms ho 0 (by simpa using hl)
    rw [Assembler.orderLoop, Assembler.orderLoop, List.length_map]
    refine ite_ren Iff.rfl (fun _ => ?_) fun _ => rfl
    refine bind_on h1 fun o' ho' => ?_
    exact ite_ren Iff.rfl (fun _ => rfl) fun _ => ih (h2 o' ho')

theorem findAssemblyOrder_drop {z : Nat} {ms : List Module} (hl : ∀ k m, ms[k]? = some m → Linked n z k m) :
    Assembler.findAssemblyOrder (ms.map (dropName n)) = dropOrder n <$> Assembler.findAssemblyOrder ms := by
  unfold Assembler.findAssemblyOrder
  rw [List.length_map]
  exact orderLoop_drop hl _ (o := ⟨[], []⟩) fun id _ h => absurd rfl h

/-! ## The passes -/

theorem valueForName_without {m m' : Module} (h : Without n m m') {id : FullId} (hid : id.name ≠ n) :
    m.valueForName id = m'.valueForName id := by
  unfold Module.valueForName
  rw [h.name, h.globals, find_drop _ hid]
  have : ∀ i, m.localLookup i = m'.localLookup i := by
    intro i
    unfold Module.localLookup
    rw [h.lines, List.getElem?_map]
    cases m'.lines[i]? <;> rfl
  simp only [this]

/-- All modules of the one list are those of the other without the name. -/
def AllWithout (n : Str) (ms ms' : List Module) : Prop := List.Forall₂ (Without n) ms ms'

theorem AllWithout.at {ms ms' : List Module} (h : AllWithout n ms ms') (i : Nat) :
    (ms[i]? = none ∧ ms'[i]? = none) ∨ ∃ m m', ms[i]? = some m ∧ ms'[i]? = some m' ∧ Without n m m' := by
  induction h generalizing i with
  | nil => exact .inl ⟨rfl, rfl⟩
  | cons hm _ ih =>
    cases i with
    | zero => exact .inr ⟨_, _, rfl, rfl, hm⟩
    | succ i => exact ih i

theorem AllWithout.set {ms ms' : List Module} (h : AllWithout n ms ms') (i : Nat) {m m' : Module} (hm : Without n m m') :
    AllWithout n (ms.set i m) (ms'.set i m') := by
  induction h generalizing i with
  | nil => exact .nil
  | cons hq hr ih =>
    cases i with
    | zero => exact .cons hm hr
    | succ i => exact .cons hq (ih i)

theorem allWithout_map (ms : List Module) : AllWithout n (ms.map (dropName n)) ms := by
  induction ms with
  | nil => exact .nil
  | cons m ms ih => exact .cons (without_self m) ih

theorem lookup_without {ms ms' : List Module} (h : AllWithout n ms ms') (names : HMap FullId Nat) :
    Agree n (Assembler.lookup ms (dropIds n names)) (Assembler.lookup ms' names) := by
  intro id hid
  unfold Assembler.lookup
  rw [find_dropIds _ hid]
  cases names.find id with
  | none => rfl
  | some i =>
    rcases h.at i with ⟨h1, h2⟩ | ⟨m, m', h1, h2, hm⟩
    · simp only [h1, h2]
    · simp only [h1, h2, valueForName_without hm hid]

theorem fit_set {ms : List Module} (h : ∀ m ∈ ms, Fit n m) (i : Nat) {m : Module} (hm : Fit n m) : ∀ q ∈ ms.set i m, Fit n q := by
  intro q hq
  rcases List.mem_or_eq_of_mem_set hq with hq | rfl
  · exact h q hq
  · exact hm

theorem firstPasses_drop (fuel : Nat) : ∀ (is : List Nat) {ms : List Module}, (∀ m ∈ ms, Fit n m) →
    Assembler.firstPasses fuel (ms.map (dropName n)) is = List.map (dropName n) <$> Assembler.firstPasses fuel ms is ∧
      ∀ ms', Assembler.firstPasses fuel ms is = .ok ms' → ∀ m ∈ ms', Fit n m := by
  intro is
  induction is with
  | nil => intro ms h; exact ⟨rfl, fun ms' e => by cases e; exact h⟩
  | cons i is ih =>
    intro ms h
    rw [Assembler.firstPasses, Assembler.firstPasses, List.getElem?_map]
    cases hm : ms[i]? with
    | none => exact ⟨rfl, fun ms' e => by cases e⟩
    | some m =>
      obtain ⟨h1, h2⟩ := runFirstPass_drop fuel (h m (List.mem_of_getElem? hm))
      constructor
      · refine bind_on h1 fun m' hm' => ?_
        rw [← (ih (fit_set h i (h2 m' hm'))).1, List.map_set]
      · intro ms' e
        obtain ⟨m', hm', e⟩ := Res.bind_eq_ok.mp e
        exact (ih (fit_set h i (h2 m' hm'))).2 ms' e

theorem secondPasses_drop (names : HMap FullId Nat) : ∀ (is : List Nat) {ms : List Module}, (∀ m ∈ ms, Fit n m) →
    Assembler.secondPasses (dropIds n names) (ms.map (dropName n)) is =
      List.map (dropName n) <$> Assembler.secondPasses names ms is ∧
      ∀ ms', Assembler.secondPasses names ms is = .ok ms' → ∀ m ∈ ms', Fit n m := by
  intro is
  induction is with
  | nil => intro ms h; exact ⟨rfl, fun ms' e => by cases e; exact h⟩
  | cons i is ih =>
    intro ms h
    rw [Assembler.secondPasses, Assembler.secondPasses, List.getElem?_map]
    cases hm : ms[i]? with
    | none => exact ⟨rfl, fun ms' e => by cases e⟩
    | some m =>
      obtain ⟨h1, h2⟩ := runSecondPass_drop (lookup_without (allWithout_map ms) names) (h m (List.mem_of_getElem? hm))
      constructor
      · refine bind_on h1 fun m' hm' => ?_
        rw [← (ih (fit_set h i (h2 m' hm'))).1, List.map_set]
      · intro ms' e
        obtain ⟨m', hm', e⟩ := Res.bind_eq_ok.mp e
        exact (ih (fit_set h i (h2 m' hm'))).2 ms' e

/-- The one assembler is the other without the name. -/
structure Minus (n : Str) (a b : Assembler) : Prop where
  modules : AllWithout n a.modules b.modules
  names : a.names = dropIds n b.names
  memory : a.memory = b.memory
  fit : ∀ m ∈ b.modules, Fit n m

theorem prepare_drop {z : Nat} (fuel : Nat) {ms : List Module} (hl : ∀ k m, ms[k]? = some m → Linked n z k m)
    (hf : ∀ m ∈ ms, Fit n m) :
    Assembler.prepare fuel (ms.map (dropName n)) = (fun x => (⟨x.1.modules.map (dropName n), dropIds n x.1.names, x.1.memory⟩, x.2))
      <$> Assembler.prepare fuel ms ∧ ∀ x, Assembler.prepare fuel ms = .ok x → ∀ m ∈ x.1.modules, Fit n m := by
  unfold Assembler.prepare
  constructor
  · refine bind_ren (findAssemblyOrder_drop hl) fun o => ?_
    obtain ⟨h1, h2⟩ := firstPasses_drop fuel o.order hf
    refine bind_on h1 fun ms1 hms1 => ?_
    obtain ⟨h3, h4⟩ := secondPasses_drop o.exported o.order (h2 ms1 hms1)
    exact bind_ren h3 fun _ => rfl
  · intro x h
    obtain ⟨o, -, h⟩ := Res.bind_eq_ok.mp h
    obtain ⟨ms1, hms1, h⟩ := Res.bind_eq_ok.mp h
    obtain ⟨ms2, hms2, h⟩ := Res.bind_eq_ok.mp h
    cases h
    exact (secondPasses_drop o.exported o.order ((firstPasses_drop fuel o.order hf).2 ms1 hms1)).2 ms2 hms2

/-- Two outcomes, the first without the label: both succeed in the same way, both fail, or only the second, on the value of
the label. -/
inductive Near {σ : Type} (n : Str) : σ × Res Assembler → σ × Res Assembler → Prop
  | ok {s : σ} {a b : Assembler} (h : Minus n a b) : Near n (s, .ok a) (s, .ok b)
  | value {x y : σ × Res Assembler} (h : y.2 = .err .noValue ∨ y.2 = .ub .assertFail) : Near n x y
  | fail {x y : σ × Res Assembler} (hx : ∀ a, x.2 ≠ .ok a) (hy : ∀ b, y.2 ≠ .ok b) : Near n x y

theorem finalPasses_drop {σ : Type} (sink : Sink σ) : ∀ (is : List Nat) {a b : Assembler} (_ : Minus n a b) (s : σ),
    Near n (Assembler.finalPasses sink a is s) (Assembler.finalPasses sink b is s) := by
  intro is
  induction is with
  | nil => intro a b h s; exact .ok h
  | cons i is ih =>
    intro a b h s
    rw [Assembler.finalPasses, Assembler.finalPasses]
    rcases h.modules.at i with ⟨h1, h2⟩ | ⟨m, m', h1, h2, hm⟩
    · rw [h1, h2]
      exact .fail (fun _ h => by cases h) (fun _ h => by cases h)
    · rw [h1, h2]
      simp only
      have hA : Agree n (Assembler.lookup a.modules a.names) (Assembler.lookup b.modules b.names) := by
        rw [h.names]; exact lookup_without h.modules b.names
      obtain ⟨e1, e2⟩ := assemble_drop hm (h.fit m' (List.mem_of_getElem? h2)) hA sink s
      rcases hx : m.assemble (Assembler.lookup a.modules a.names) sink s with ⟨sx, rx⟩
      rcases hy : m'.assemble (Assembler.lookup b.modules b.names) sink s with ⟨sy, ry⟩
      rw [hx, hy] at e1 e2
      simp only at e1 e2
      subst e1
      rcases e2 with ⟨q, q', rfl, rfl, hq, hf⟩ | ⟨q, rfl, hq⟩ | ⟨f1, f2⟩
      · simp only [h.memory, hq.owned]
        rcases b.memory.insert q'.owned i with ⟨mem, ok⟩
        cases ok with
        | false => exact .fail (fun _ h => by cases h) (fun _ h => by cases h)
        | true =>
          exact ih (a := { a with modules := a.modules.set i q, memory := mem })
            (b := { b with modules := b.modules.set i q', memory := mem })
            ⟨h.modules.set i hq, h.names, rfl, fit_set h.fit i hf⟩ sx
      · rcases hq with rfl | rfl
        · exact .value (.inl rfl)
        · exact .value (.inr rfl)
      · refine .fail (fun c hc => ?_) (fun c hc => ?_)
        · cases rx with
          | ok q => exact f1 q rfl
          | err _ => cases hc
          | ub _ => cases hc
        · cases ry with
          | ok q => exact f2 q rfl
          | err _ => cases hc
          | ub _ => cases hc

theorem assembler_drop {σ : Type} {z : Nat} (fuel : Nat) {ms : List Module} (hl : ∀ k m, ms[k]? = some m → Linked n z k m)
    (hf : ∀ m ∈ ms, Fit n m) (sink : Sink σ) (s : σ) :
    Near n (Assembler.assemble fuel (ms.map (dropName n)) sink s) (Assembler.assemble fuel ms sink s) := by
  unfold Assembler.assemble
  obtain ⟨h1, h2⟩ := prepare_drop fuel hl hf
  rw [h1]
  cases hp : Assembler.prepare fuel ms with
  | err _ => exact .fail (fun _ h => by cases h) (fun _ h => by cases h)
  | ub _ => exact .fail (fun _ h => by cases h) (fun _ h => by cases h)
  | ok x =>
    exact finalPasses_drop sink x.2
      (a := ⟨x.1.modules.map (dropName n), dropIds n x.1.names, x.1.memory⟩) ⟨allWithout_map _, rfl, rfl, h2 x hp⟩ s

/-! ## Loading -/

theorem parse_free {ts : Toks} (hn : NamesNonempty ts) (ha : Token.ident n ∉ ts) {items : List Item}
    (h : parse ts = .ok items) : ∀ it ∈ items, FreeItem n it := by
  have labels : ∀ (k : Nat) {ts : Toks} {items : List Item}, NamesNonempty ts → Token.ident n ∉ ts →
      parseLoop k ts = .ok items → ∀ l, Item.label l ∈ items → l.name ≠ n := by
    intro k
    induction k with
    | zero => intro ts items _ _ h; cases h
    | succ k ih =>
      intro ts items hn ha h l hl
      rw [parseLoop] at h
      split at h
      · cases h; cases hl
      obtain ⟨⟨lab, colon, r⟩, h1, h⟩ := Res.bind_eq_ok.mp h
      have hs := lineLabel_suffix h1
      have hnr := names_suffix hn hs
      have har : Token.ident n ∉ r := fun h => ha (hs.subset h)
      have hlab : ∀ l, Item.label l ∈ (lab.map Item.label).toList → l.name ≠ n := by
        rintro l hl rfl
        rcases lineLabel_ok h1 with ⟨rfl, -, -⟩ | ⟨x, rfl, -, rfl⟩ | ⟨x, rfl, -, rfl, -⟩
        · simp at hl
        · simp at hl; subst hl; exact ha (by simp [Spec.labelTokens])
        · simp at hl; subst hl; exact ha (by simp [Spec.labelTokens])
      simp only at h
      split at h
      · obtain ⟨rest, h2, h⟩ := Res.bind_eq_ok.mp h
        cases h
        rcases List.mem_append.mp hl with h3 | h3
        · exact hlab l h3
        · exact ih hnr har h2 l h3
      · obtain ⟨o, ho, h⟩ := Res.bind_eq_ok.mp h
        cases o with
        | none => cases h; exact hlab l hl
        | some q =>
          obtain ⟨st', us⟩ := q
          have h2 := lineStatement_suffix hnr ho
          simp only at h
          obtain ⟨rest, h3, h⟩ := Res.bind_eq_ok.mp h
          cases h
          rcases List.mem_append.mp hl with h4 | h4
          · exact hlab l h4
          · rcases List.mem_cons.mp h4 with h4 | h4
            · cases h4
            · exact ih (names_suffix hnr h2) (fun h => har (h2.subset h)) h3 l h4
  intro it hit
  cases it with
  | label l => exact labels _ hn ha h l hit
  | stmt st =>
    have := (parseLoop_blames (ts.length + 1) hn).2 _ h st hit
    cases st with
    | instr i => exact ⟨segOr_free this.1 ha, segOr_free this.2.1 ha⟩
    | dir d => exact ⟨segOr_free this.1 ha, fun e he => seg_free (this.2 e he) ha⟩

theorem loadLines_drop : ∀ {f : List Str} (_ : Absent n f) {ld : Module.Loading}, Ready n ld →
    Module.loadLines (dropLoading n ld) f = dropLoading n <$> Module.loadLines ld f ∧
      ∀ ld', Module.loadLines ld f = .ok ld' → Ready n ld' := by
  intro f
  induction f with
  | nil => intro _ ld hr; exact ⟨rfl, fun ld' h => by cases h; exact hr⟩
  | cons line f ih =>
    intro ha ld hr
    have ih' := fun {ld} => ih (fun x hx => ha x (by simp [hx])) (ld := ld)
    rw [Module.loadLines, Module.loadLines]
    cases ht : tokenize line with
    | err e => exact ⟨rfl, fun ld' h => by cases h⟩
    | ub u => exact ⟨rfl, fun ld' h => by cases h⟩
    | ok ts =>
      rw [Res.bind_ok, Res.bind_ok]
      cases hp : parse ts with
      | err e => exact ⟨rfl, fun ld' h => by cases h⟩
      | ub u => exact ⟨rfl, fun ld' h => by cases h⟩
      | ok items =>
        rw [Res.bind_ok, Res.bind_ok]
        obtain ⟨h1, h2⟩ := loadItems_drop items hr
          (parse_free (tokenize_names line ts ht) (ha line (by simp) ts ht) hp)
        constructor
        · exact bind_on h1 fun ld1 hld1 => (ih' (h2 ld1 hld1)).1
        · intro ld' h
          obtain ⟨ld1, hld1, h⟩ := Res.bind_eq_ok.mp h
          exact (ih' (h2 ld1 hld1)).2 ld' h

theorem dependencies_drop {m : Module} (hf : FreeLines n m.lines) : (dropName n m).dependencies = m.dependencies := by
  unfold Module.dependencies
  show (m.lines.map (dropLine n)).flatMap _ = _
  rw [List.flatMap_map]
  apply List.flatMap_congr
  intro l hl
  have := hf l hl
  show (match l.statement with
    | .dir d => if d.name = DirectiveName.equ then d.argument.externalNames ((dropName n m).isLocal l.scopes) else []
    | .instr _ => []) = _
  cases hs : l.statement with
  | instr i => rfl
  | dir d =>
    rw [hs] at this
    simp only [externalNames_free (fun id hid => isLocal_drop m l.scopes id hid) this.1]

theorem finishLoad_drop {ld : Module.Loading} (hr : Ready n ld) :
    Module.finishLoad (dropLoading n ld) = dropName n <$> Module.finishLoad ld := by
  unfold Module.finishLoad
  show (match ld.scopes with
    | _ :: _ => Res.err .unclosedScope
    | [] => .ok { dropName n ld.m with deps := (dropName n ld.m).dependencies }) = _
  cases ld.scopes with
  | cons _ _ => rfl
  | nil => rw [dependencies_drop hr.free]; rfl

theorem finishLoad_fit {ld : Module.Loading} (hr : Ready n ld) {m : Module} (h : Module.finishLoad ld = .ok m) :
    FreeLines n m.lines ∧ ∀ d ∈ m.deps, d.name ≠ n := by
  unfold Module.finishLoad at h
  split at h
  · cases h
  · cases h
    refine ⟨hr.free, fun d hd => ?_⟩
    simp only [Module.dependencies, List.mem_flatMap] at hd
    obtain ⟨l, hl, hd⟩ := hd
    have := hr.free l hl
    cases hs : l.statement with
    | instr i => rw [hs] at hd; cases hd
    | dir d' =>
      rw [hs] at hd this
      simp only at hd
      split at hd
      · exact mem_externalNames_free this.1 hd
      · cases hd

theorem ready_empty : Ready n ⟨Module.empty, [], []⟩ :=
  ⟨by simp [AtMostOnce], by simp, fun l hl => by cases hl⟩

theorem drop_empty : dropLoading n ⟨Module.empty, [], []⟩ = ⟨Module.empty, [], []⟩ := rfl

/-- A file without the name. -/
theorem loadAsmFile_absent {f : List Str} (h : Absent n f) {m : Module} (hm : Module.loadAsmFile f = .ok m) :
    dropName n m = m ∧ FreeLines n m.lines ∧ ∀ d ∈ m.deps, d.name ≠ n := by
  obtain ⟨ld, hld, hfin⟩ := Res.bind_eq_ok.mp hm
  obtain ⟨h1, h2⟩ := loadLines_drop h (ready_empty (n := n))
  rw [drop_empty, hld] at h1
  have e : dropLoading n ld = ld := by injection h1 with h1; exact h1.symm
  have h3 := finishLoad_drop (h2 ld hld)
  rw [e, hfin] at h3
  exact ⟨by injection h3 with h3; exact h3.symm, finishLoad_fit (h2 ld hld) hfin⟩

/-- A file with the label added. -/
theorem loadAsmFile_added {above below : List Str} {line : Str} {label : ParsedLabel} (hl : LabelLine label line)
    (h1 : Absent label.name above) (h2 : Absent label.name below) :
    Module.loadAsmFile (above ++ below) = dropName label.name <$> Module.loadAsmFile (above ++ line :: below) ∧
      ∀ m, Module.loadAsmFile (above ++ line :: below) = .ok m →
        FreeLines label.name m.lines ∧ ∀ d ∈ m.deps, d.name ≠ label.name := by
  obtain ⟨ts, ht, hp⟩ := hl
  unfold Module.loadAsmFile
  rw [Module.loadLines_append, Module.loadLines_append]
  obtain ⟨e1, r1⟩ := loadLines_drop h1 (ready_empty (n := label.name))
  rw [drop_empty] at e1
  cases hld : Module.loadLines ⟨Module.empty, [], []⟩ above with
  | err e => exact ⟨rfl, fun m h => by cases h⟩
  | ub u => exact ⟨rfl, fun m h => by cases h⟩
  | ok ld =>
    rw [hld] at e1
    have e : dropLoading label.name ld = ld := by injection e1 with e1; exact e1.symm
    have hr0 := r1 ld hld
    rw [Res.bind_ok, Res.bind_ok, Module.loadLines, ht, Res.bind_ok, hp, Res.bind_ok]
    simp only [Module.loadItems, Res.bind_ok]
    have hpend : ∀ l ∈ ld.pending, l.name ≠ label.name := by
      intro l hl
      have : others label.name ld.pending = ld.pending := congrArg Module.Loading.pending e
      rw [← this] at hl
      simpa [others] using (List.mem_filter.mp hl).2
    have hm : dropName label.name ld.m = ld.m := congrArg Module.Loading.m e
    have hr : Ready label.name { ld with pending := ld.pending ++ [label] } := by
      refine ⟨?_, fun _ => ⟨?_, fun i => ?_⟩, hr0.free⟩
      · unfold AtMostOnce
        rw [List.filter_append, List.filter_eq_nil_iff.mpr fun q hq => by simpa using hpend q hq]
        simp
      · show HMap.find ld.m.globals label.name = none
        rw [← hm]; exact find_drop_self _
      · show HMap.find (ld.m.localsAt i) label.name = none
        rw [← hm, localsAt_drop]; exact find_drop_self _
    have e2 : dropLoading label.name { ld with pending := ld.pending ++ [label] } = ld := by
      have : others label.name (ld.pending ++ [label]) = ld.pending := by
        unfold others
        rw [List.filter_append, List.filter_eq_self.mpr fun q hq => by simpa using hpend q hq]
        simp
      show (⟨dropName label.name ld.m, others label.name (ld.pending ++ [label]), ld.scopes⟩ : Module.Loading) = ld
      rw [this, hm]
    obtain ⟨e3, r3⟩ := loadLines_drop h2 hr
    rw [e2] at e3
    constructor
    · exact bind_on e3 fun ld' hld' => finishLoad_drop (r3 ld' hld')
    · intro m h
      obtain ⟨ld', hld', h⟩ := Res.bind_eq_ok.mp h
      exact finishLoad_fit (r3 ld' hld') h

theorem loadAll_absent : ∀ {fs : List (List Str)}, (∀ f ∈ fs, Absent n f) →
    Assembler.loadAll fs = List.map (dropName n) <$> Assembler.loadAll fs := by
  intro fs
  induction fs with
  | nil => intro _; rfl
  | cons f fs ih =>
    intro h
    rw [Assembler.loadAll]
    cases hf : Module.loadAsmFile f with
    | err e => rfl
    | ub u => rfl
    | ok m =>
      rw [Res.bind_ok]
      have e := (loadAsmFile_absent (h f (by simp)) hf).1
      have := ih fun g hg => h g (by simp [hg])
      cases hr : Assembler.loadAll fs with
      | err e => rfl
      | ub u => rfl
      | ok ms =>
        rw [hr] at this
        have e2 : ms = ms.map (dropName n) := by injection this
        show Res.ok (m :: ms) = Res.ok ((m :: ms).map (dropName n))
        rw [List.map_cons, e, ← e2]

theorem loadAll_added {line : Str} {label : ParsedLabel} (hl : LabelLine label line) {files files' : List (List Str)}
    (hadd : LineAdded line files files') (ha : ∀ f ∈ files, Absent label.name f) :
    Assembler.loadAll files = List.map (dropName label.name) <$> Assembler.loadAll files' ∧
      ∀ ms, Assembler.loadAll files' = .ok ms → (∃ z, ∀ k m, ms[k]? = some m → Linked label.name z k m) ∧
        ∀ m ∈ ms, Fit label.name m := by
  obtain ⟨pre, above, below, post, rfl, rfl⟩ := hadd
  have hab := ha (above ++ below) (by simp)
  have h1 : Absent label.name above := fun x hx => hab x (by simp [hx])
  have h2 : Absent label.name below := fun x hx => hab x (by simp [hx])
  obtain ⟨e1, f1⟩ := loadAsmFile_added hl h1 h2
  constructor
  · clear f1
    induction pre with
    | nil =>
      rw [List.nil_append, List.nil_append, Assembler.loadAll, Assembler.loadAll]
      refine bind_ren e1 fun m => ?_
      exact bind_ren (loadAll_absent fun f hf => ha f (by simp [hf])) fun _ => rfl
    | cons f pre ih =>
      rw [List.cons_append, List.cons_append, Assembler.loadAll, Assembler.loadAll]
      have ef : Module.loadAsmFile f = dropName label.name <$> Module.loadAsmFile f := by
        cases hf : Module.loadAsmFile f with
        | err e => rfl
        | ub u => rfl
        | ok m =>
          show Res.ok m = Res.ok (dropName label.name m)
          rw [(loadAsmFile_absent (ha f (by simp)) hf).1]
      refine bind_ren ef fun m => ?_
      exact bind_ren (ih (fun g hg => ha g (List.mem_cons_of_mem _ hg))) fun _ => rfl
  · intro ms hms
    have hall := loadAll_iff.mp hms
    have hget : ∀ (k : Nat) (m : Module), ms[k]? = some m → ∃ f, (pre ++ (above ++ line :: below) :: post)[k]? = some f ∧
        Module.loadAsmFile f = .ok m := by
      intro k m hk
      have hlen := hall.length_eq
      have hk' := (List.getElem?_eq_some_iff.mp hk).1
      refine ⟨_, List.getElem?_eq_getElem (by omega), ?_⟩
      have := List.forall₂_iff_get.mp hall
      have h3 := this.2 k (by omega) hk'
      have h4 : ms[k] = m := (List.getElem?_eq_some_iff.mp hk).2
      simpa [h4] using h3
    have hfacts : ∀ (k : Nat) (m : Module), ms[k]? = some m → Linked label.name pre.length k m ∧ Fit label.name m := by
      intro k m hk
      obtain ⟨f, hf, hload⟩ := hget k m hk
      by_cases hkp : k = pre.length
      · subst hkp
        rw [List.getElem?_append_right (le_refl _)] at hf
        simp at hf
        subst hf
        obtain ⟨g1, g2⟩ := f1 m hload
        exact ⟨⟨loaded_namesNodup hload, g2, fun _ => rfl⟩, g1, loaded_globals_lt hload⟩
      · have hfa : Absent label.name f := by
          have hmem : f ∈ pre ∨ f ∈ post := by
            rw [List.getElem?_append] at hf
            split at hf
            · exact .inl (List.mem_of_getElem? hf)
            · obtain ⟨j, hj⟩ : ∃ j, k - pre.length = j + 1 := ⟨k - pre.length - 1, by omega⟩
              rw [hj] at hf
              exact .inr (List.mem_of_getElem? hf)
          rcases hmem with h | h
          · exact ha f (by simp [h])
          · exact ha f (by simp [h])
        obtain ⟨g0, g1, g2⟩ := loadAsmFile_absent hfa hload
        refine ⟨⟨loaded_namesNodup hload, g2, fun ⟨t, ht⟩ => ?_⟩, g1, loaded_globals_lt hload⟩
        rw [← g0] at ht
        have := (List.mem_filter.mp ht).2
        simp at this
    exact ⟨⟨pre.length, fun k m hk => (hfacts k m hk).1⟩, fun m hm => by
      obtain ⟨k, hk, rfl⟩ := List.mem_iff_getElem.mp hm
      exact (hfacts k _ (List.getElem?_eq_getElem hk)).2⟩

theorem assembleFiles_near {σ : Type} {line : Str} {label : ParsedLabel} (hl : LabelLine label line)
    {files files' : List (List Str)} (hadd : LineAdded line files files') (ha : ∀ f ∈ files, Absent label.name f) (fuel : Nat)
    (sink : Sink σ) (s : σ) :
    Near label.name (Assembler.assembleFiles fuel files sink s) (Assembler.assembleFiles fuel files' sink s) := by
  obtain ⟨h1, h2⟩ := loadAll_added hl hadd ha
  unfold Assembler.assembleFiles
  rw [h1]
  cases hf : Assembler.loadAll files' with
  | err _ => exact .fail (fun _ h => by cases h) (fun _ h => by cases h)
  | ub _ => exact .fail (fun _ h => by cases h) (fun _ h => by cases h)
  | ok ms =>
    obtain ⟨⟨z, h3⟩, h4⟩ := h2 ms hf
    exact assembler_drop fuel h3 h4 sink s

/-! ## What can be asked afterwards -/

theorem foldl_without {β : Type} {f : β → Module → β} (hf : ∀ b m m', Without n m m' → f b m = f b m') :
    ∀ {ms ms' : List Module}, AllWithout n ms ms' → ∀ b, ms.foldl f b = ms'.foldl f b := by
  intro ms ms' h
  induction h with
  | nil => intro b; rfl
  | cons hh _ ih => intro b; simp only [List.foldl_cons, hf b _ _ hh, ih]

theorem Minus.same {a b : Assembler} (h : Minus n a b) : SameBut n a b where
  memory := h.memory.symm
  lookup := fun id hid => by rw [h.names]; exact (lookup_without h.modules b.names id hid).symm
  unknown := by
    intro id hid v hv
    unfold Assembler.lookup at hv
    rw [h.names, find_dropIds_self _ hid] at hv
    split at hv <;> cases hv
  jumpTargets := by
    unfold Assembler.jumpTargets
    have e : ∀ ts ret, a.addTargets ret ts = b.addTargets ret ts := by
      intro ts
      induction ts with
      | nil => intro ret; rfl
      | cons t ts ih =>
        intro ret
        rw [Assembler.addTargets, Assembler.addTargets, ih, ih]
        simp only [Assembler.contains, h.memory]
        rfl
    simp only [e]
    exact (foldl_without (fun r m m' hm => by rw [hm.targets]) h.modules []).symm
  conventions := by
    unfold Assembler.jumpTargetReturnConventions
    rw [foldl_without (fun r m m' hm => by rw [hm.conventions]) h.modules]

end Nsasm.Unused
