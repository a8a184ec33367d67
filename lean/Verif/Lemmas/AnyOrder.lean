import Verif.Spec.AnyOrder
import Verif.Props.Order
import Verif.Lemmas.Link

/-! # Nothing but the names of addresses depends on the order of iteration -/

namespace Nsasm
open Spec Props

/-! ## The order of the files -/

/-- Two tables with the same entries. -/
def SameFind {κ ν : Type} [DecidableEq κ] (m n : HMap κ ν) : Prop := ∀ k, HMap.find m k = HMap.find n k

theorem addExports_alike {i : Nat} {ex ey : HMap FullId Nat} (hf : SameFind ex ey) {ns ns' : List FullId} (hp : ns'.Perm ns)
    (hnd : ns.Nodup) :
    (∃ ex' ey', Assembler.addExports i ex ns = .ok ex' ∧ Assembler.addExports i ey ns' = .ok ey' ∧ SameFind ex' ey') ∨
      (Assembler.addExports i ex ns = .err .duplicateExport ∧ Assembler.addExports i ey ns' = .err .duplicateExport) := by
  by_cases hn : ∀ n ∈ ns, HMap.find ex n = none
  · obtain ⟨ex', hx⟩ := addExports_succeeds (i := i) hnd hn
    obtain ⟨ey', hy⟩ := addExports_succeeds (i := i) (hp.symm.nodup hnd) (ex := ey) fun n h => by
      rw [← hf]; exact hn n (hp.mem_iff.mp h)
    refine .inl ⟨ex', ey', hx, hy, fun k => ?_⟩
    rw [(addExports_ok hx).2, (addExports_ok hy).2, hf]
    simp [hp.mem_iff]
  · refine .inr ⟨?_, ?_⟩
    · rcases addExports_outcome i ns ex with ⟨ex', h⟩ | h
      · exact absurd (addExports_ok h).1 hn
      · exact h
    · rcases addExports_outcome i ns' ey with ⟨ex', h⟩ | h
      · refine absurd (fun n hm => ?_) hn
        rw [hf]
        exact (addExports_ok h).1 n (hp.mem_iff.mpr hm)
      · exact h

/-- Two orders with tables that have the same entries, or the same failure. -/
inductive OrderAlike : Res Assembler.Ordering → Res Assembler.Ordering → Prop
  | ok {o o' : Assembler.Ordering} (order : o'.order = o.order) (names : SameFind o.exported o'.exported) :
      OrderAlike (.ok o) (.ok o')
  | err (e : Err) : OrderAlike (.err e) (.err e)
  | ub (u : Ub) : OrderAlike (.ub u) (.ub u)

theorem OrderAlike.bind {x y : Res Assembler.Ordering} (h : OrderAlike x y) {f g : Assembler.Ordering → Res Assembler.Ordering}
    (hfg : ∀ o o', o'.order = o.order → SameFind o.exported o'.exported → OrderAlike (f o) (g o')) :
    OrderAlike (x >>= f) (y >>= g) := by
  cases h with
  | ok h1 h2 => exact hfg _ _ h1 h2
  | err e => exact .err e
  | ub u => exact .ub u

theorem consider_alike {it : Iteration} (hit : IsOrder it) {o o' : Assembler.Ordering} (h1 : o'.order = o.order)
    (h2 : SameFind o.exported o'.exported) (i : Nat) {m : Module} (hnd : NamesNodup m) :
    OrderAlike (Assembler.consider o i m) (Assembler.considerIn it o' i m) := by
  unfold Assembler.consider Assembler.considerIn
  rw [h1]
  by_cases hi : i ∈ o.order
  · rw [if_pos hi, if_pos hi]; exact .ok h1 h2
  rw [if_neg hi, if_neg hi]
  have : (fun d => HMap.has o'.exported d) = fun d => HMap.has o.exported d := by
    funext d; simp only [HMap.has, h2 d]
  rw [this]
  by_cases hd : m.deps.all (fun d => HMap.has o.exported d) = true
  swap
  · rw [if_neg hd, if_neg hd]; exact .ok h1 h2
  rw [if_pos hd, if_pos hd]
  have hp : ((it.exports i m.globals).map fun n => (⟨some m.name, n.1⟩ : FullId)).Perm m.exportedNames :=
    (hit i m.globals).1.map _
  rcases addExports_alike (i := i) h2 hp (exportedNames_nodup hnd) with ⟨ex, ey, a, b, c⟩ | ⟨a, b⟩
  · rw [a, b]; exact .ok rfl c
  · rw [a, b]; exact .err _

theorem round_alike {it : Iteration} (hit : IsOrder it) : ∀ {ms : List Module} (i : Nat) {o o' : Assembler.Ordering},
    (∀ m ∈ ms, NamesNodup m) → o'.order = o.order → SameFind o.exported o'.exported →
    OrderAlike (Assembler.round o i ms) (Assembler.roundIn it o' i ms) := by
  intro ms
  induction ms with
  | nil => intro i o o' _ h1 h2; exact .ok h1 h2
  | cons m ms ih =>
    intro i o o' hnd h1 h2
    rw [Assembler.round, Assembler.roundIn]
    exact (consider_alike hit h1 h2 i (hnd m (by simp))).bind fun _ _ h1 h2 => ih _ (fun q hq => hnd q (by simp [hq])) h1 h2

theorem orderLoop_alike {it : Iteration} (hit : IsOrder it) {ms : List Module} (hnd : ∀ m ∈ ms, NamesNodup m) :
    ∀ (n : Nat) {o o' : Assembler.Ordering}, o'.order = o.order → SameFind o.exported o'.exported →
    OrderAlike (Assembler.orderLoop ms n o) (Assembler.orderLoopIn it ms n o') := by
  intro n
  induction n with
  | zero => intro o o' _ _; exact .err _
  | succ n ih =>
    intro o o' h1 h2
    rw [Assembler.orderLoop, Assembler.orderLoopIn, h1]
    by_cases hl : o.order.length < ms.length
    swap
    · rw [if_neg hl, if_neg hl]; exact .ok h1 h2
    rw [if_pos hl, if_pos hl]
    refine (round_alike hit 0 hnd h1 h2).bind fun p p' h3 h4 => ?_
    rw [h3]
    by_cases hc : p.order.length = o.order.length
    · rw [if_pos hc, if_pos hc]; exact .err _
    · rw [if_neg hc, if_neg hc]; exact ih h3 h4

/-! ## The names of the addresses -/

/-- The value of a line is an address. -/
def AddressOf (m : Module) (t : Nat) (x : Nat) : Prop := ∃ l, m.lines[t]? = some l ∧ l.value = some (x : Int) ∧ x ≤ 0x1000000

theorem ofInt_eq_ok {v : Int} {x : Nat} : Address.ofInt v = .ok x ↔ v = x ∧ x ≤ 0x1000000 := by
  unfold Address.ofInt
  constructor
  · intro h
    split at h
    · cases h; omega
    · cases h
  · rintro ⟨rfl, h⟩
    rw [if_pos (by omega)]; rfl

theorem ofInt_outcome (v : Int) : (∃ x, Address.ofInt v = .ok x) ∨ Address.ofInt v = .ub .assertFail := by
  unfold Address.ofInt
  split
  · exact .inl ⟨_, rfl⟩
  · exact .inr rfl

theorem nameAddresses_iff {m : Module} : ∀ {gs : List (Str × Nat)} (names : HMap Nat Str),
    (∃ names', m.nameAddresses names gs = .ok names') ↔ ∀ g ∈ gs, ∃ x, AddressOf m g.2 x := by
  intro gs
  induction gs with
  | nil => intro names; simp [Module.nameAddresses]
  | cons g gs ih =>
    intro names
    obtain ⟨name, t⟩ := g
    rw [Module.nameAddresses]
    constructor
    · rintro ⟨names', h⟩
      cases hl : m.lines[t]? with
      | none => rw [hl] at h; cases h
      | some l =>
        rw [hl] at h
        simp only at h
        cases hv : l.value with
        | none => rw [hv] at h; cases h
        | some v =>
          rw [hv] at h
          simp only at h
          obtain ⟨x, hx, hrest⟩ := Res.bind_eq_ok.mp h
          obtain ⟨hvx, hle⟩ := ofInt_eq_ok.mp hx
          rw [hvx] at hv
          intro g hg
          rcases List.mem_cons.mp hg with rfl | hg
          · exact ⟨x, l, hl, hv, hle⟩
          · exact (ih _).mp ⟨names', hrest⟩ g hg
    · intro h
      obtain ⟨x, l, hl, hv, hx⟩ := h (name, t) (by simp)
      simp only at hl
      rw [hl]
      simp only [hv]
      rw [ofInt_eq_ok.mpr ⟨rfl, hx⟩, Res.bind_ok]
      exact (ih _).mpr fun g hg => h g (by simp [hg])

theorem nameAddresses_fails {m : Module} : ∀ {gs : List (Str × Nat)} (names : HMap Nat Str),
    (∀ g ∈ gs, g.2 < m.lines.length) → (∃ names', m.nameAddresses names gs = .ok names') ∨
      m.nameAddresses names gs = .err .noValue ∨ m.nameAddresses names gs = .ub .assertFail := by
  intro gs
  induction gs with
  | nil => intro names _; exact .inl ⟨names, rfl⟩
  | cons g gs ih =>
    intro names hb
    obtain ⟨name, t⟩ := g
    have ht := hb (name, t) (by simp)
    rw [Module.nameAddresses, List.getElem?_eq_getElem ht]
    simp only
    cases m.lines[t].value with
    | none => exact .inr (.inl rfl)
    | some v =>
      simp only
      rcases ofInt_outcome v with ⟨x, hx⟩ | hx
      · rw [hx, Res.bind_ok]
        exact ih _ fun g hg => hb g (by simp [hg])
      · rw [hx]; exact .inr (.inr rfl)

/-- An address has a name in the table if and only if a name has it as its value, and then it is such a name. -/
theorem nameAddresses_names {m : Module} : ∀ {gs : List (Str × Nat)} {names names' : HMap Nat Str},
    m.nameAddresses names gs = .ok names' → ∀ x,
    (HMap.find names' x = none ↔ HMap.find names x = none ∧ ∀ g ∈ gs, ¬ AddressOf m g.2 x) ∧
    ∀ n, HMap.find names' x = some n → HMap.find names x = some n ∨ ∃ t, (n, t) ∈ gs ∧ AddressOf m t x := by
  intro gs
  induction gs with
  | nil =>
    intro names names' h x
    simp [Module.nameAddresses] at h
    subst h
    exact ⟨by simp, fun n hn => .inl hn⟩
  | cons g gs ih =>
    intro names names' h x
    obtain ⟨name, t⟩ := g
    obtain ⟨y, l, hl, hv, hy⟩ := (nameAddresses_iff names).mp ⟨names', h⟩ (name, t) (by simp)
    simp only at hl
    rw [Module.nameAddresses, hl] at h
    simp only [hv] at h
    rw [ofInt_eq_ok.mpr ⟨rfl, hy⟩, Res.bind_ok] at h
    have huniq : ∀ z, AddressOf m t z → z = y := by
      rintro z ⟨l', h1, h2, -⟩
      rw [hl] at h1; cases h1
      rw [hv] at h2
      have : (y : Int) = z := by injection h2
      omega
    have hown : AddressOf m t y := ⟨l, hl, hv, hy⟩
    obtain ⟨h1, h2⟩ := ih h x
    have hf : HMap.find (if HMap.has names y = true then names else HMap.insertNew names y name) x =
        (HMap.find names x).or (if y = x then some name else none) := by
      by_cases hh : HMap.has names y = true
      · rw [if_pos hh]
        by_cases hx : y = x
        · subst hx
          obtain ⟨w, hw⟩ := Option.isSome_iff_exists.mp hh
          rw [hw]; rfl
        · rw [if_neg hx]; simp
      · rw [if_neg hh]
        unfold HMap.insertNew
        rw [find_append]
        simp [HMap.find]
    rw [hf] at h1 h2
    constructor
    · rw [h1, Option.or_eq_none_iff]
      constructor
      · rintro ⟨⟨a, b⟩, c⟩
        refine ⟨a, fun g hg hx => ?_⟩
        rcases List.mem_cons.mp hg with rfl | hg
        · rw [if_pos (huniq x hx).symm] at b; cases b
        · exact c g hg hx
      · rintro ⟨a, b⟩
        refine ⟨⟨a, ?_⟩, fun g hg => b g (by simp [hg])⟩
        rw [if_neg]
        rintro rfl
        exact b (name, t) (by simp) hown
    · intro n hn
      rcases h2 n hn with h3 | ⟨u, h3, h4⟩
      · cases hz : HMap.find names x with
        | some w => rw [hz] at h3; exact .inl h3
        | none =>
          rw [hz] at h3
          by_cases hx : y = x
          · subst hx
            rw [if_pos rfl] at h3
            cases h3
            exact .inr ⟨t, by simp, hown⟩
          · rw [if_neg hx] at h3; cases h3
      · exact .inr ⟨u, by simp [h3], h4⟩

/-! ## The third pass -/

/-- The same module but for the names of addresses. -/
def SameButNames (m m' : Module) : Prop := m' = { m with addrNames := m'.addrNames }

theorem SameButNames.refl (m : Module) : SameButNames m m := rfl

/-- The names of the addresses in a module are names that it defines. -/
def NamesRight (m : Module) : Prop := ∀ x,
  (HMap.find m.addrNames x = none ↔ ∀ g ∈ m.globals, ¬ AddressOf m g.2 x) ∧
  ∀ n, HMap.find m.addrNames x = some n → ∃ t, (n, t) ∈ m.globals ∧ AddressOf m t x

/-- Two ways to fail on the names of a module. -/
inductive NameFails : Res Module → Res Module → Prop
  | one : NameFails (.err .noValue) (.ub .assertFail)
  | other : NameFails (.ub .assertFail) (.err .noValue)

/-- Two modules, assembled with the names in different orders. -/
inductive ModuleAlike : Res Module → Res Module → Prop
  | ok {m m' : Module} (same : SameButNames m m') (right : NamesRight m) (right' : NamesRight m') : ModuleAlike (.ok m) (.ok m')
  | err (e : Err) : ModuleAlike (.err e) (.err e)
  | ub (u : Ub) : ModuleAlike (.ub u) (.ub u)
  | names {r r' : Res Module} (h : NameFails r r') : ModuleAlike r r'

theorem assembleIn_alike {σ : Type} {m : Module} {gs gs' : List (Str × Nat)} (hp : gs.Perm m.globals) (hp' : gs'.Perm m.globals)
    (hb : ∀ g ∈ m.globals, g.2 < m.lines.length) (hno : m.addrNames = []) (externs : Ctx) (sink : Sink σ) (s : σ) :
    (m.assembleIn gs externs sink s).1 = (m.assembleIn gs' externs sink s).1 ∧
      ModuleAlike (m.assembleIn gs externs sink s).2 (m.assembleIn gs' externs sink s).2 := by
  unfold Module.assembleIn
  rcases hr : m.assembleLines externs sink m.lines s ⟨m.owned, m.targets, m.conventions⟩ with ⟨s', r⟩
  refine ⟨rfl, ?_⟩
  simp only
  cases r with
  | err e => exact .err e
  | ub u => exact .ub u
  | ok o =>
    rw [Res.bind_ok, Res.bind_ok]
    have right : ∀ {gs : List (Str × Nat)} {names : HMap Nat Str}, gs.Perm m.globals →
        m.nameAddresses m.addrNames gs = .ok names → NamesRight
        { m with owned := o.owned, targets := o.targets, conventions := o.conventions, addrNames := names } := by
      intro gs names hp h x
      obtain ⟨h1, h2⟩ := nameAddresses_names h x
      rw [hno] at h1 h2
      refine ⟨h1.trans ⟨fun h g hg => h.2 g (hp.mem_iff.mpr hg), fun h => ⟨rfl, fun g hg => h g (hp.mem_iff.mp hg)⟩⟩, ?_⟩
      intro n hn
      rcases h2 n hn with h3 | ⟨t, h3, h4⟩
      · cases h3
      · exact ⟨t, hp.mem_iff.mp h3, h4⟩
    rcases nameAddresses_fails (m := m) (gs := gs) m.addrNames fun g hg => hb g (hp.mem_iff.mp hg) with ⟨n, h⟩ | h | h
    · obtain ⟨n', h'⟩ := (nameAddresses_iff (m := m) (gs := gs') m.addrNames).mpr fun g hg =>
        (nameAddresses_iff (m := m) (gs := gs) m.addrNames).mp ⟨n, h⟩ g (hp.mem_iff.mpr (hp'.mem_iff.mp hg))
      have e1 := right hp h
      have e2 := right hp' h'
      rw [h, h']
      exact .ok rfl e1 e2
    all_goals
      have hno' : ¬ ∃ n', m.nameAddresses m.addrNames gs' = .ok n' := by
        intro hx
        have := (nameAddresses_iff (m := m) (gs := gs) m.addrNames).mpr fun g hg =>
          (nameAddresses_iff (m := m) (gs := gs') m.addrNames).mp hx g (hp'.mem_iff.mpr (hp.mem_iff.mp hg))
        obtain ⟨n, hn⟩ := this
        rw [h] at hn; cases hn
      rcases nameAddresses_fails (m := m) (gs := gs') m.addrNames fun g hg => hb g (hp'.mem_iff.mp hg) with h' | h' | h'
      · exact absurd h' hno'
      · rw [h, h']
        first | exact .err _ | exact .names .other
      · rw [h, h']
        first | exact .ub _ | exact .names .one

/-- What two assemblers have in common while the modules `rest` are still to be assembled. -/
structure Parallel (rest : List Nat) (a b : Assembler) : Prop where
  memory : b.memory = a.memory
  names : SameFind a.names b.names
  modules : Pointwise (fun _ => SameButNames) a.modules b.modules
  open_ : ∀ i ∈ rest, b.modules[i]? = a.modules[i]?
  done : ∀ (i : Nat) (m m' : Module), i ∉ rest → a.modules[i]? = some m → b.modules[i]? = some m' → NamesRight m ∧ NamesRight m'

theorem valueForName_same {m m' : Module} (h : SameButNames m m') (id : FullId) : m'.valueForName id = m.valueForName id := by
  unfold SameButNames at h
  rw [h]; rfl

theorem lookup_alike {ms ms' : List Module} {names names' : HMap FullId Nat} (hn : SameFind names names')
    (hm : Pointwise (fun _ => SameButNames) ms ms') : Assembler.lookup ms' names' = Assembler.lookup ms names := by
  funext id
  unfold Assembler.lookup
  rw [← hn id]
  split
  · rfl
  cases HMap.find names id with
  | none => rfl
  | some i =>
    simp only
    cases h : ms[i]? with
    | none =>
      have : ms'[i]? = none := by
        rw [List.getElem?_eq_none_iff] at h ⊢
        rw [← hm.1]; exact h
      rw [this]
    | some m =>
      have hi : i < ms'.length := by
        rw [← hm.1]; exact (List.getElem?_eq_some_iff.mp h).1
      rw [List.getElem?_eq_getElem hi]
      exact valueForName_same (hm.2 i m _ h (List.getElem?_eq_getElem hi)) id

/-- Two outcomes of the third pass. -/
inductive FinalAlike : Res Assembler → Res Assembler → Prop
  | ok {a b : Assembler} (h : Parallel [] a b) : FinalAlike (.ok a) (.ok b)
  | err (e : Err) : FinalAlike (.err e) (.err e)
  | ub (u : Ub) : FinalAlike (.ub u) (.ub u)
  | one : FinalAlike (.err .noValue) (.ub .assertFail)
  | other : FinalAlike (.ub .assertFail) (.err .noValue)

theorem pointwise_set_both {α : Type} {R : Nat → α → α → Prop} {l l' : List α} (h : Pointwise R l l') {i : Nat} {a b : α}
    (hab : R i a b) : Pointwise R (l.set i a) (l'.set i b) := by
  refine ⟨by simp [h.1], fun j x y hx hy => ?_⟩
  rw [List.getElem?_set] at hx hy
  by_cases e : i = j
  · subst e
    rw [if_pos rfl] at hx hy
    split at hx
    · split at hy
      · cases hx; cases hy; exact hab
      · cases hy
    · cases hx
  · rw [if_neg e] at hx hy
    exact h.2 j x y hx hy

theorem finalPasses_alike {σ : Type} {it it' : Iteration} (hit : IsOrder it) (hit' : IsOrder it') (sink : Sink σ) :
    ∀ {order : List Nat} {a b : Assembler} (s : σ), order.Nodup → Parallel order a b →
    (∀ i ∈ order, ∀ m, a.modules[i]? = some m → m.addrNames = [] ∧ ∀ g ∈ m.globals, g.2 < m.lines.length) →
    (Assembler.finalPassesIn it sink a order s).1 = (Assembler.finalPassesIn it' sink b order s).1 ∧
      FinalAlike (Assembler.finalPassesIn it sink a order s).2 (Assembler.finalPassesIn it' sink b order s).2 := by
  intro order
  induction order with
  | nil => intro a b s _ h _; exact ⟨rfl, .ok h⟩
  | cons i order ih =>
    intro a b s hnd h hf
    rw [Assembler.finalPassesIn, Assembler.finalPassesIn, h.open_ i (by simp), lookup_alike h.names h.modules]
    cases hm : a.modules[i]? with
    | none => exact ⟨rfl, .ub _⟩
    | some m =>
      obtain ⟨hno, hb⟩ := hf i (by simp) m hm
      obtain ⟨h1, h2⟩ := assembleIn_alike (hit i m.globals).2 (hit' i m.globals).2 hb hno
        (Assembler.lookup a.modules a.names) sink s
      simp only
      rcases hx : m.assembleIn (it.names i m.globals) (Assembler.lookup a.modules a.names) sink s with ⟨sx, rx⟩
      rcases hy : m.assembleIn (it'.names i m.globals) (Assembler.lookup a.modules a.names) sink s with ⟨sy, ry⟩
      rw [hx, hy] at h1 h2
      simp only at h1 h2
      subst h1
      cases h2 with
      | err e => exact ⟨rfl, .err e⟩
      | ub u => exact ⟨rfl, .ub u⟩
      | names hn => cases hn with
        | one => exact ⟨rfl, .one⟩
        | other => exact ⟨rfl, .other⟩
      | @ok q q' same right right' =>
        have howned : q'.owned = q.owned := by rw [same]
        simp only [howned, h.memory]
        rcases hins : a.memory.insert q.owned i with ⟨mem, ok⟩
        cases ok with
        | false => exact ⟨rfl, .err _⟩
        | true =>
          refine ih sx (List.nodup_cons.mp hnd).2 ⟨rfl, h.names, pointwise_set_both h.modules same, ?_, ?_⟩ ?_
          · intro j hj
            have hij : i ≠ j := fun e => (List.nodup_cons.mp hnd).1 (e ▸ hj)
            simp only [List.getElem?_set_ne hij]
            exact h.open_ j (by simp [hj])
          · intro j x y hj hx hy
            by_cases e : i = j
            · subst e
              simp only at hx hy
              rw [List.getElem?_set] at hx hy
              rw [if_pos rfl] at hx hy
              split at hx
              · split at hy
                · cases hx; cases hy; exact ⟨right, right'⟩
                · cases hy
              · cases hx
            · simp only [List.getElem?_set_ne e] at hx hy
              exact h.done j x y (by simp [hj, Ne.symm e]) hx hy
          · intro j hj x hx
            have hij : i ≠ j := fun e => (List.nodup_cons.mp hnd).1 (e ▸ hj)
            simp only [List.getElem?_set_ne hij] at hx
            exact hf j (by simp [hj]) x hx

/-! ## What can be asked afterwards -/

theorem nameForAddress_same : ∀ {ms ms' : List Module}, List.Forall₂ (fun m m' => SameButNames m m' ∧ NamesRight m ∧ NamesRight m')
    ms ms' → ∀ x, (ms'.findSome? (·.nameForAddress x) = none ↔ ms.findSome? (·.nameForAddress x) = none) ∧
    ∀ n n', ms.findSome? (·.nameForAddress x) = some n → ms'.findSome? (·.nameForAddress x) = some n' → n'.module = n.module := by
  intro ms ms' h x
  induction h with
  | nil => simp
  | @cons m m' ms ms' hh _ ih =>
    obtain ⟨h1, h2, h3⟩ := hh
    have hname : m'.name = m.name := by rw [h1]
    have hnone : HMap.find m'.addrNames x = none ↔ HMap.find m.addrNames x = none := by
      rw [(h2 x).1, (h3 x).1]
      have hg : m'.globals = m.globals := by rw [h1]
      have hl : m'.lines = m.lines := by rw [h1]
      unfold AddressOf
      rw [hg, hl]
    simp only [List.findSome?_cons]
    unfold Module.nameForAddress at ih ⊢
    rw [hname]
    by_cases he : m.name.isEmpty = true
    · simp only [if_pos he]; exact ih
    · simp only [if_neg he]
      cases hx : HMap.find m.addrNames x with
      | none =>
        rw [hnone.mpr hx]
        simpa using ih
      | some n =>
        cases hy : HMap.find m'.addrNames x with
        | none => rw [hnone.mp hy] at hx; cases hx
        | some n' => simp

theorem foldl_same {β : Type} (f : β → Module → β) (hf : ∀ b m m', SameButNames m m' → f b m' = f b m) :
    ∀ {ms ms' : List Module}, List.Forall₂ (fun m m' => SameButNames m m' ∧ NamesRight m ∧ NamesRight m') ms ms' →
    ∀ b, ms'.foldl f b = ms.foldl f b := by
  intro ms ms' h
  induction h with
  | nil => intro b; rfl
  | cons hh _ ih => intro b; simp only [List.foldl_cons, hf b _ _ hh.1, ih]

theorem finalPassesIn_source {σ : Type} {it : Iteration} {sink : Sink σ} : ∀ {order : List Nat} {a a' : Assembler} {s s' : σ},
    Assembler.finalPassesIn it sink a order s = (s', .ok a') → a'.names = a.names ∧ Pointwise (fun _ => SameSource) a.modules a'.modules := by
  intro order
  induction order with
  | nil =>
    intro a a' s s' h
    cases h
    exact ⟨rfl, rfl, fun i x y hx hy => by rw [hx] at hy; cases hy; exact .refl _⟩
  | cons i order ih =>
    intro a a' s s' h
    rw [Assembler.finalPassesIn] at h
    cases hm : a.modules[i]? with
    | none => rw [hm] at h; cases h
    | some m =>
      rw [hm] at h
      simp only at h
      rcases hx : m.assembleIn (it.names i m.globals) (Assembler.lookup a.modules a.names) sink s with ⟨t, r⟩
      rw [hx] at h
      cases r with
      | err e => cases h
      | ub u => cases h
      | ok q =>
        simp only at h
        have hq : SameSource m q := by
          unfold Module.assembleIn at hx
          rcases hr : m.assembleLines (Assembler.lookup a.modules a.names) sink m.lines s ⟨m.owned, m.targets, m.conventions⟩ with ⟨s1, r1⟩
          rw [hr] at hx
          simp only [Prod.mk.injEq] at hx
          obtain ⟨-, hx⟩ := hx
          obtain ⟨o, -, hx⟩ := Res.bind_eq_ok.mp hx
          obtain ⟨n, -, hx⟩ := Res.bind_eq_ok.mp hx
          cases hx
          exact ⟨rfl, rfl, rfl, rfl⟩
        rcases hins : a.memory.insert q.owned i with ⟨mem, ok⟩
        rw [hins] at h
        cases ok with
        | false => cases h
        | true =>
          obtain ⟨h1, h2, h3⟩ := ih h
          refine ⟨h1, by rw [← h2]; simp, fun j x y hx hy => ?_⟩
          by_cases e : i = j
          · subst e
            rw [hm] at hx; cases hx
            refine hq.trans (h3 i q y ?_ hy)
            simp only
            rw [List.getElem?_set_self (List.getElem?_eq_some_iff.mp hm).1]
          · refine h3 j x y ?_ hy
            simp only
            rw [List.getElem?_set_ne e]; exact hx

end Nsasm
