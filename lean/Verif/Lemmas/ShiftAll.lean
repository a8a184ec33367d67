import Verif.Lemmas.ShiftLoad

/-! # A line more in some files: linking them -/

namespace Nsasm.Shift
open Spec Parse Props

/-- A module, and the same or with a new line. -/
def Rel0 (m m' : Module) : Prop :=
  m' = m ∨ ∃ p φ good nst nl, m' = insModule p φ nl m ∧ Near p good nst m.lines nl

/-- A module, and the same or with a new line, before the first pass. -/
def RelQ (m m' : Module) : Prop :=
  m' = m ∨ ∃ p φ good nst, Site p φ good nst ∧ Loaded p φ good nst m m'

/-- A module, and the same or with a new line, after the first pass. -/
def Rel1 (m m' : Module) : Prop :=
  m' = m ∨ ∃ p φ good nst, Site p φ good nst ∧ Laid p φ good nst m m'

theorem Rel1.zero {m m' : Module} (h : Rel1 m m') : Rel0 m m' := by
  rcases h with h | ⟨p, φ, good, nst, S, nl, h, hn, -⟩
  · exact .inl h
  · exact .inr ⟨p, φ, good, nst, nl, h, hn⟩

theorem RelQ.zero {m m' : Module} (h : RelQ m m') : Rel0 m m' := by
  rcases h with h | ⟨p, φ, good, nst, S, nl, h, hn, -⟩
  · exact .inl h
  · exact .inr ⟨p, φ, good, nst, nl, h, hn⟩

/-- What is the same of the two. -/
theorem Rel0.same {m m' : Module} (h : Rel0 m m') : m'.name = m.name ∧ m'.deps = m.deps ∧ m'.exportedNames = m.exportedNames ∧
    m'.owned = m.owned ∧ m'.addrNames = m.addrNames ∧ m'.targets = m.targets ∧ m'.conventions = m.conventions ∧
    ∀ id, m'.valueForName id = m.valueForName id := by
  rcases h with rfl | ⟨p, φ, good, nst, nl, rfl, hn⟩
  · exact ⟨rfl, rfl, rfl, rfl, rfl, rfl, rfl, fun _ => rfl⟩
  · refine ⟨rfl, rfl, ?_, rfl, rfl, rfl, rfl, fun id => ?_⟩
    · show (shMap p m.globals).map _ = m.globals.map _
      unfold shMap
      rw [List.map_map]
      rfl
    · unfold Module.valueForName
      show (if id.module ≠ some m.name then Except.error Err.undefinedName
        else match HMap.find (shMap p m.globals) id.name with
          | none => .error Err.undefinedName
          | some i => (insModule p φ nl m).localLookup i) = _
      rw [find_shMap]
      split
      · rfl
      · cases HMap.find m.globals id.name with
        | none => rfl
        | some i => exact localLookup_ins hn.le i

/-- The modules of two runs; those in `D` have had their first pass. -/
structure Pair (D : Nat → Prop) (ms ms' : List Module) : Prop where
  length : ms'.length = ms.length
  rel : ∀ i m m', ms[i]? = some m → ms'[i]? = some m' → Rel0 m m' ∧ (D i → Rel1 m m') ∧ (¬ D i → RelQ m m') ∧
    Canonical m.owned.ranges

theorem Pair.get {D : Nat → Prop} {ms ms' : List Module} (h : Pair D ms ms') (i : Nat) :
    (ms[i]? = none ∧ ms'[i]? = none) ∨ ∃ m m', ms[i]? = some m ∧ ms'[i]? = some m' ∧ Rel0 m m' ∧ (D i → Rel1 m m') ∧
      (¬ D i → RelQ m m') ∧ Canonical m.owned.ranges := by
  cases hi : ms[i]? with
  | none =>
    left
    rw [List.getElem?_eq_none_iff] at hi
    exact ⟨rfl, by rw [List.getElem?_eq_none_iff, h.length]; exact hi⟩
  | some m =>
    right
    have hlt : i < ms'.length := by rw [h.length]; exact (List.getElem?_eq_some_iff.mp hi).1
    exact ⟨m, ms'[i], rfl, List.getElem?_eq_getElem hlt, h.rel i m _ hi (List.getElem?_eq_getElem hlt)⟩

theorem Pair.set {D D' : Nat → Prop} {ms ms' : List Module} (h : Pair D ms ms') {i : Nat} {m m' : Module} (hm : Rel1 m m')
    (hc : Canonical m.owned.ranges) (hD : ∀ j, D' j ↔ j = i ∨ D j) : Pair D' (ms.set i m) (ms'.set i m') where
  length := by simp [h.length]
  rel := by
    intro j x x' hx hx'
    rw [List.getElem?_set] at hx hx'
    by_cases hij : i = j
    · subst hij
      rw [if_pos rfl] at hx hx'
      split at hx
      · split at hx'
        · cases hx; cases hx'
          exact ⟨hm.zero, fun _ => hm, fun h => absurd ((hD i).mpr (.inl rfl)) h, hc⟩
        · cases hx'
      · cases hx
    · rw [if_neg hij] at hx hx'
      obtain ⟨h1, h2, h3, h4⟩ := h.rel j x x' hx hx'
      exact ⟨h1, fun hd => h2 (((hD j).mp hd).resolve_left (fun e => hij e.symm)), fun hd => h3 fun h => hd ((hD j).mpr (.inr h)), h4⟩

theorem lookup_pair {D : Nat → Prop} {ms ms' : List Module} (h : Pair D ms ms') (names : HMap FullId Nat) :
    Assembler.lookup ms' names = Assembler.lookup ms names := by
  funext id
  unfold Assembler.lookup
  split
  · rfl
  · cases names.find id with
    | none => rfl
    | some i =>
      simp only
      rcases h.get i with ⟨h1, h2⟩ | ⟨m, m', h1, h2, h3, -⟩
      · rw [h1, h2]
      · rw [h1, h2]; exact h3.same.2.2.2.2.2.2.2 id

theorem round_pair : ∀ {ms ms' : List Module}, List.Forall₂ Rel0 ms ms' → ∀ (o : Assembler.Ordering) (i : Nat),
    Assembler.round o i ms' = Assembler.round o i ms := by
  intro ms ms' h
  induction h with
  | nil => intro o i; rfl
  | @cons m m' _ _ hx _ ih =>
    intro o i
    rw [Assembler.round, Assembler.round]
    have : ∀ o, Assembler.consider o i m' = Assembler.consider o i m := fun o => by
      unfold Assembler.consider
      rw [hx.same.2.1, hx.same.2.2.1]
    rw [this]
    simp only [ih]

theorem Pair.forall {D : Nat → Prop} {ms ms' : List Module} (h : Pair D ms ms') : List.Forall₂ Rel0 ms ms' := by
  rw [List.forall₂_iff_get]
  refine ⟨h.length.symm, fun i h1 h2 => ?_⟩
  exact (h.rel i _ _ (List.getElem?_eq_getElem h1) (List.getElem?_eq_getElem h2)).1

theorem order_pair {D : Nat → Prop} {ms ms' : List Module} (h : Pair D ms ms') :
    Assembler.findAssemblyOrder ms' = Assembler.findAssemblyOrder ms := by
  unfold Assembler.findAssemblyOrder
  rw [h.length]
  have : ∀ n o, Assembler.orderLoop ms' n o = Assembler.orderLoop ms n o := by
    intro n
    induction n with
    | zero => intro o; rfl
    | succ n ih =>
      intro o
      rw [Assembler.orderLoop, Assembler.orderLoop, h.length, round_pair h.forall]
      simp only [ih]
  exact this _ _

theorem Both.refl {α : Type} (x : Res α) : Both (fun a b => b = a) x x := by
  cases x with
  | ok a => exact .ok rfl
  | err e => exact .fail (fun _ h => nomatch h) fun _ h => nomatch h
  | ub e => exact .fail (fun _ h => nomatch h) fun _ h => nomatch h

theorem firstPass_rel {m m' : Module} (h : RelQ m m') (fuel : Nat) : Both Rel1 (m.runFirstPass fuel) (m'.runFirstPass fuel) := by
  rcases h with rfl | ⟨p, φ, good, nst, S, h⟩
  · exact (Both.refl _).mono fun a b _ h => .inl h
  · exact (runFirstPass_ins S h fuel).mono fun a b _ h => .inr ⟨p, φ, good, nst, S, h⟩

theorem secondPass_rel {m m' : Module} (h : Rel1 m m') (E : Ctx) : Both Rel1 (m.runSecondPass E) (m'.runSecondPass E) := by
  rcases h with rfl | ⟨p, φ, good, nst, S, h⟩
  · exact (Both.refl _).mono fun a b _ h => .inl h
  · exact (runSecondPass_ins S E h).mono fun a b _ h => .inr ⟨p, φ, good, nst, S, h⟩

theorem firstPass_owned {m m' : Module} {fuel : Nat} (h : m.runFirstPass fuel = .ok m') : m'.owned = m.owned := by
  unfold Module.runFirstPass at h
  obtain ⟨P, -, h⟩ := Res.bind_eq_ok.mp h
  obtain ⟨ls, -, h⟩ := Res.bind_eq_ok.mp h
  obtain ⟨ls', -, h⟩ := Res.bind_eq_ok.mp h
  cases h; rfl

theorem secondPass_owned {m m' : Module} {E : Ctx} (h : m.runSecondPass E = .ok m') : m'.owned = m.owned := by
  have : ∀ (n i : Nat) {m m' : Module}, Module.secondLoop E n i m = .ok m' → m'.owned = m.owned := by
    intro n
    induction n with
    | zero => intro i m m' h; cases h; rfl
    | succ n ih =>
      intro i m m' h
      rw [Module.secondLoop] at h
      split at h
      · cases h
      · obtain ⟨m1, h1, h⟩ := Res.bind_eq_ok.mp h
        rw [ih _ h]
        unfold Module.evalEqu at h1
        split at h1
        · cases h1; rfl
        · split at h1
          · obtain ⟨v, -, h1⟩ := Res.bind_eq_ok.mp h1
            cases h1; rfl
          · cases h1; rfl
  exact this _ _ h

theorem firstPasses_pair (fuel : Nat) : ∀ (is : List Nat) {D : Nat → Prop} {ms ms' : List Module}, Pair D ms ms' → is.Nodup →
    (∀ i ∈ is, ¬ D i) →
    Both (Pair fun i => i ∈ is ∨ D i) (Assembler.firstPasses fuel ms is) (Assembler.firstPasses fuel ms' is) := by
  intro is
  induction is with
  | nil => intro D ms ms' h _ _; exact .ok ⟨h.length, fun i m m' h1 h2 => by simpa using h.rel i m m' h1 h2⟩
  | cons i is ih =>
    intro D ms ms' h hnd hD
    rw [Assembler.firstPasses, Assembler.firstPasses]
    rw [List.nodup_cons] at hnd
    rcases h.get i with ⟨h1, h2⟩ | ⟨m, m', h1, h2, -, -, h4, h5⟩
    · rw [h1, h2]; exact .fail (fun _ h => nomatch h) fun _ h => nomatch h
    · rw [h1, h2]
      refine (firstPass_rel (h4 (hD i (by simp))) fuel).bind fun a b ha hab => ?_
      refine (ih (D := fun j => j = i ∨ D j) (h.set hab (by rw [firstPass_owned ha]; exact h5) fun j => Iff.rfl) hnd.2 ?_).mono
        fun x y _ hxy => ?_
      · rintro j hj (rfl | hd)
        · exact hnd.1 hj
        · exact hD j (by simp [hj]) hd
      · have he : (fun j => j ∈ is ∨ j = i ∨ D j) = fun j => j ∈ i :: is ∨ D j := by
          funext j
          rw [List.mem_cons]
          apply propext
          constructor
          · rintro (h | h | h)
            · exact .inl (.inr h)
            · exact .inl (.inl h)
            · exact .inr h
          · rintro ((h | h) | h)
            · exact .inr (.inl h)
            · exact .inl h
            · exact .inr (.inr h)
        rw [he] at hxy
        exact hxy

theorem secondPasses_pair (names : HMap FullId Nat) : ∀ (is : List Nat) {D : Nat → Prop} {ms ms' : List Module}, Pair D ms ms' →
    (∀ i ∈ is, D i) → Both (Pair D) (Assembler.secondPasses names ms is) (Assembler.secondPasses names ms' is) := by
  intro is
  induction is with
  | nil => intro D ms ms' h _; exact .ok h
  | cons i is ih =>
    intro D ms ms' h hD
    rw [Assembler.secondPasses, Assembler.secondPasses, lookup_pair h]
    rcases h.get i with ⟨h1, h2⟩ | ⟨m, m', h1, h2, -, h4, -, h5⟩
    · rw [h1, h2]; exact .fail (fun _ h => nomatch h) fun _ h => nomatch h
    · rw [h1, h2]
      refine (secondPass_rel (h4 (hD i (by simp))) _).bind fun a b ha hab => ?_
      exact ih (h.set hab (by rw [secondPass_owned ha]; exact h5) fun j => ⟨.inr, fun h => h.elim (fun e => e ▸ hD i (by simp)) id⟩) fun j hj => hD j (by simp [hj])

theorem assemble_rel {m m' : Module} (h : Rel1 m m') (hc : Canonical m.owned.ranges) (E : Ctx) {s s' : Writes} (hs : Parted s s') :
    Emits (fun a b => Rel1 a b ∧ Canonical a.owned.ranges) (m.assemble E recorder s) (m'.assemble E recorder s') := by
  rcases h with hm | ⟨p, φ, good, nst, S, h⟩
  · subst m'
    have hl := lines_emits (m := m) (E := E) (ls := m.lines) (o := ⟨m.owned, m.targets, m.conventions⟩) hs hc
    unfold Module.assemble
    show Emits _ ((Module.assembleLines m E recorder m.lines s ⟨m.owned, m.targets, m.conventions⟩).1,
      (Module.assembleLines m E recorder m.lines s ⟨m.owned, m.targets, m.conventions⟩).2 >>= _)
      ((Module.assembleLines m E recorder m.lines s' ⟨m.owned, m.targets, m.conventions⟩).1,
      (Module.assembleLines m E recorder m.lines s' ⟨m.owned, m.targets, m.conventions⟩).2 >>= _)
    rcases hl with ⟨o, o', h1, h2, ⟨rfl, hc1⟩, h4⟩ | ⟨h1, h2⟩
    · rw [h1, h2, Res.bind_ok]
      cases m.nameAddresses m.addrNames m.globals with
      | err e => exact .inr ⟨(fun _ h => nomatch h), (fun _ h => nomatch h)⟩
      | ub e => exact .inr ⟨(fun _ h => nomatch h), (fun _ h => nomatch h)⟩
      | ok names => exact .inl ⟨_, _, rfl, rfl, ⟨.inl rfl, hc1⟩, h4⟩
    · refine .inr ⟨fun a ha => ?_, fun a ha => ?_⟩
      · obtain ⟨x, hx, -⟩ := Res.bind_eq_ok.mp ha; exact h1 x hx
      · obtain ⟨x, hx, -⟩ := Res.bind_eq_ok.mp ha; exact h2 x hx
  · rcases assemble_ins S h hc E hs with ⟨a, b, h1, h2, ⟨h3, h4⟩, h5⟩ | hf
    · exact .inl ⟨a, b, h1, h2, ⟨.inr ⟨p, φ, good, nst, S, h3⟩, h4⟩, h5⟩
    · exact .inr hf

/-- Two assemblers with such modules. -/
structure PairAsm (D : Nat → Prop) (a a' : Assembler) : Prop where
  modules : Pair D a.modules a'.modules
  names : a'.names = a.names
  memory : a'.memory = a.memory

theorem finalPasses_pair : ∀ (is : List Nat) {D : Nat → Prop} {a a' : Assembler} {s s' : Writes}, PairAsm D a a' → (∀ i ∈ is, D i) →
    Parted s s' → Emits (PairAsm D) (Assembler.finalPasses recorder a is s) (Assembler.finalPasses recorder a' is s') := by
  intro is
  induction is with
  | nil => intro D a a' s s' h _ hs; exact .inl ⟨a, a', rfl, rfl, h, hs⟩
  | cons i is ih =>
    intro D a a' s s' h hD hs
    rw [Assembler.finalPasses, Assembler.finalPasses, h.names, lookup_pair h.modules, h.memory]
    rcases h.modules.get i with ⟨h1, h2⟩ | ⟨m, m', h1, h2, -, h4, -, h5⟩
    · rw [h1, h2]; exact .inr ⟨(fun _ h => nomatch h), (fun _ h => nomatch h)⟩
    · rw [h1, h2]
      simp only
      have hr := assemble_rel (h4 (hD i (by simp))) h5 (Assembler.lookup a.modules a.names) hs
      rcases hx : m.assemble (Assembler.lookup a.modules a.names) recorder s with ⟨s1, r⟩
      rcases hy : m'.assemble (Assembler.lookup a.modules a.names) recorder s' with ⟨s1', r'⟩
      rw [hx, hy] at hr
      rcases hr with ⟨b, b', e1, e2, ⟨e3, e4⟩, e5⟩ | ⟨e1, e2⟩
      · simp only at e1 e2
        subst e1 e2
        simp only
        rw [e3.zero.same.2.2.2.1]
        rcases a.memory.insert b.owned i with ⟨mem, ok⟩
        cases ok with
        | false => exact .inr ⟨(fun _ h => nomatch h), (fun _ h => nomatch h)⟩
        | true =>
          refine ih (D := D) ⟨h.modules.set e3 e4 fun j => ⟨.inr, fun h => h.elim (fun e => e ▸ hD i (by simp)) id⟩, rfl, rfl⟩ (fun j hj => hD j (by simp [hj])) e5
      · right
        cases r with
        | ok a => exact absurd rfl (e1 a)
        | err e =>
          cases r' with
          | ok a => exact absurd rfl (e2 a)
          | err e => exact ⟨(fun _ h => nomatch h), (fun _ h => nomatch h)⟩
          | ub e => exact ⟨(fun _ h => nomatch h), (fun _ h => nomatch h)⟩
        | ub e =>
          cases r' with
          | ok a => exact absurd rfl (e2 a)
          | err e => exact ⟨(fun _ h => nomatch h), (fun _ h => nomatch h)⟩
          | ub e => exact ⟨(fun _ h => nomatch h), (fun _ h => nomatch h)⟩

/-- The same questions are answered the same. -/
theorem answers_pair {D : Nat → Prop} {a a' : Assembler} (h : PairAsm D a a') : (∀ x, a'.contains x = a.contains x) ∧
    (∀ x, a'.nameForAddress x = a.nameForAddress x) ∧ a'.jumpTargets = a.jumpTargets ∧
    a'.jumpTargetReturnConventions = a.jumpTargetReturnConventions ∧
    Assembler.lookup a'.modules a'.names = Assembler.lookup a.modules a.names := by
  have hc : ∀ x, a'.contains x = a.contains x := by intro x; unfold Assembler.contains; rw [h.memory]
  have hf := h.modules.forall
  have hadd : ∀ ts r, a'.addTargets r ts = a.addTargets r ts := by
    intro ts
    induction ts with
    | nil => intro r; rfl
    | cons t ts ih => intro r; obtain ⟨x, f⟩ := t; rw [Assembler.addTargets, Assembler.addTargets, hc, ih, ih]
  refine ⟨hc, fun x => ?_, ?_, ?_, by rw [h.names]; exact lookup_pair h.modules a.names⟩
  · unfold Assembler.nameForAddress
    generalize a.modules = ms at hf
    generalize a'.modules = ms' at hf
    induction hf with
    | nil => rfl
    | @cons m m' _ _ hm _ ih =>
      have : m'.nameForAddress x = m.nameForAddress x := by
        unfold Module.nameForAddress
        rw [hm.same.1, hm.same.2.2.2.2.1]
      rw [List.findSome?_cons, List.findSome?_cons, this, ih]
  · unfold Assembler.jumpTargets
    generalize ([] : OMap StatusFlags) = r
    generalize a.modules = ms at hf
    generalize a'.modules = ms' at hf
    induction hf generalizing r with
    | nil => rfl
    | cons hm _ ih => rw [List.foldl_cons, List.foldl_cons, hm.same.2.2.2.2.2.1, hadd, ih]
  · unfold Assembler.jumpTargetReturnConventions
    generalize ([] : OMap ReturnConvention) = r
    generalize a.modules = ms at hf
    generalize a'.modules = ms' at hf
    induction hf generalizing r with
    | nil => rfl
    | cons hm _ ih => rw [List.foldl_cons, List.foldl_cons, hm.same.2.2.2.2.2.2.1, ih]

theorem assemble_pair {ms ms' : List Module} (h : Pair (fun _ => False) ms ms') (fuel : Nat) {s s' : Writes} (hs : Parted s s') :
    Emits (fun a a' => ∃ D, PairAsm D a a') (Assembler.assemble fuel ms recorder s) (Assembler.assemble fuel ms' recorder s') := by
  have hp : Both (fun x y => (∃ D, PairAsm D x.1 y.1 ∧ ∀ i ∈ x.2, D i) ∧ y.2 = x.2) (Assembler.prepare fuel ms) (Assembler.prepare fuel ms') := by
    unfold Assembler.prepare
    rw [order_pair h]
    cases ho : Assembler.findAssemblyOrder ms with
    | err e => exact .fail (fun _ h => nomatch h) fun _ h => nomatch h
    | ub e => exact .fail (fun _ h => nomatch h) fun _ h => nomatch h
    | ok o =>
      simp only [Res.bind_ok]
      obtain ⟨hperm, -⟩ := C45_order_sound ho
      refine (firstPasses_pair fuel o.order h (hperm.symm.nodup List.nodup_range) fun _ _ => id).bind fun x y _ hxy => ?_
      refine (secondPasses_pair o.exported o.order hxy fun i hi => .inl hi).bind fun x y _ hxy => ?_
      exact .ok ⟨⟨_, ⟨hxy, rfl, rfl⟩, fun i hi => .inl hi⟩, rfl⟩
  unfold Assembler.assemble
  rcases hp with ⟨⟨a, is⟩, ⟨a', is'⟩, h1, h2, ⟨D, h3, h4⟩, h5⟩ | ⟨h1, h2⟩
  · rw [h1, h2]
    simp only at h5
    subst h5
    rcases finalPasses_pair is' h3 h4 hs with ⟨a, b, e1, e2, e3, e4⟩ | hf
    · exact .inl ⟨a, b, e1, e2, ⟨D, e3⟩, e4⟩
    · exact .inr hf
  · right
    cases hx : Assembler.prepare fuel ms with
    | ok a => exact absurd hx (h1 a)
    | err e =>
      cases hy : Assembler.prepare fuel ms' with
      | ok a => exact absurd hy (h2 a)
      | err e => exact ⟨(fun _ h => nomatch h), (fun _ h => nomatch h)⟩
      | ub e => exact ⟨(fun _ h => nomatch h), (fun _ h => nomatch h)⟩
    | ub e =>
      cases hy : Assembler.prepare fuel ms' with
      | ok a => exact absurd hy (h2 a)
      | err e => exact ⟨(fun _ h => nomatch h), (fun _ h => nomatch h)⟩
      | ub e => exact ⟨(fun _ h => nomatch h), (fun _ h => nomatch h)⟩

theorem loadAll_pair {files files' : List (List Str)}
    (h : List.Forall₂ (fun f f' => Both RelQ (Module.loadAsmFile f) (Module.loadAsmFile f')) files files') :
    Both (Pair fun _ => False) (Assembler.loadAll files) (Assembler.loadAll files') := by
  have : Both (List.Forall₂ fun m m' => RelQ m m' ∧ Canonical m.owned.ranges) (Assembler.loadAll files) (Assembler.loadAll files') := by
    induction h with
    | nil => exact .ok .nil
    | cons hf _ ih =>
      rw [Assembler.loadAll, Assembler.loadAll]
      refine hf.bind fun m m' hm hmm => ih.bind fun ms ms' _ hms => .ok (.cons ⟨hmm, ?_⟩ hms)
      obtain ⟨items, -, hinv, -⟩ := loadAsmFile_ok hm
      rw [hinv.fresh.1]
      exact ⟨by simp [DataRange.empty], .nil⟩
  refine this.mono fun ms ms' _ hms => ?_
  rw [List.forall₂_iff_get] at hms
  refine ⟨hms.1.symm, fun i m m' h1 h2 => ?_⟩
  obtain ⟨l1, rfl⟩ := List.getElem?_eq_some_iff.mp h1
  obtain ⟨l2, rfl⟩ := List.getElem?_eq_some_iff.mp h2
  have := hms.2 i l1 l2
  exact ⟨this.1.zero, fun h => h.elim, fun _ => this.1, this.2⟩

theorem assembleFiles_pair {files files' : List (List Str)}
    (h : List.Forall₂ (fun f f' => Both RelQ (Module.loadAsmFile f) (Module.loadAsmFile f')) files files') (fuel : Nat) :
    Emits (fun a a' => ∃ D, PairAsm D a a') (Assembler.assembleFiles fuel files recorder []) (Assembler.assembleFiles fuel files' recorder []) := by
  unfold Assembler.assembleFiles
  rcases loadAll_pair h with ⟨ms, ms', h1, h2, h3⟩ | ⟨h1, h2⟩
  · rw [h1, h2]; exact assemble_pair h3 fuel .nil
  · right
    cases hx : Assembler.loadAll files with
    | ok a => exact absurd hx (h1 a)
    | err e =>
      cases hy : Assembler.loadAll files' with
      | ok a => exact absurd hy (h2 a)
      | err e => exact ⟨(fun _ h => nomatch h), (fun _ h => nomatch h)⟩
      | ub e => exact ⟨(fun _ h => nomatch h), (fun _ h => nomatch h)⟩
    | ub e =>
      cases hy : Assembler.loadAll files' with
      | ok a => exact absurd hy (h2 a)
      | err e => exact ⟨(fun _ h => nomatch h), (fun _ h => nomatch h)⟩
      | ub e => exact ⟨(fun _ h => nomatch h), (fun _ h => nomatch h)⟩

/-! ## Data in two parts -/

theorem split_rel {file file' : List Str} (h : SplitFile file file') :
    Both RelQ (Module.loadAsmFile file) (Module.loadAsmFile file') := by
  obtain ⟨A, B, d, es, es', hd, hl, hne, hne', hF, hF'⟩ := h
  let φ : Statement → Statement := fun st => if st = .dir d then .dir { d with list := es } else st
  have hφ : φ (.dir d) = .dir { d with list := es } := if_pos rfl
  have hnames : ∀ n : DirectiveName, n ∉ [DirectiveName.db, .dw, .dl] → d.name ≠ n := by
    intro n hn he; rw [← he] at hn; exact hn hd
  have hS : ∀ p, p ≠ 0 → Site p φ (fun st => st = .dir d) (.dir { d with list := es' }) := by
    intro p hp
    refine ⟨⟨fun i => rfl, fun d' => ?_⟩, ?_, ?_, (fun i i' f h => nomatch h), fun h => absurd h hp, ?_, ⟨_, rfl, .inl hd⟩⟩
    · by_cases he : d' = d
      · subst he; exact ⟨es, hφ⟩
      · refine ⟨d'.list, ?_⟩
        show (if Statement.dir d' = .dir d then _ else _) = _
        rw [if_neg (fun h => he (by cases h; rfl))]
    · rintro s rfl
      simpa [Statement.isDir] using hnames .entry (by decide)
    · rintro s rfl
      rw [hφ]
      simp only [Statement.serializedSize, Directive.serializedSize, hl, List.length_append, Nat.mul_add]
    · rintro s rfl
      exact .inr ⟨d, es, es', rfl, hd, hl, hne, hne', hφ, rfl⟩
  have hstrong : ∀ st, st = .dir d → Strong st := by
    rintro s rfl
    refine .inr fun es a h => ?_
    simp only [Statement.execute, Directive.execute] at h
    rw [if_pos] at h
    · cases h
    · simp only [List.mem_cons, List.not_mem_nil, or_false] at hd ⊢
      rcases hd with h | h | h <;> simp [h]
  have hopen : ∀ x : Directive, x.name = d.name → x.name ≠ .module_ ∧ x.name ≠ .begin_ ∧ x.name ≠ .end_ := by
    intro x hx
    rw [hx]
    exact ⟨hnames _ (by decide), hnames _ (by decide), hnames _ (by decide)⟩
  obtain ⟨p, S, hb⟩ := load_two (φ := φ) (good := fun st => st = .dir d) (st := .dir d) hF (by rw [hφ]; exact hF') rfl hS hstrong
    (fun x hx => hopen x (by cases hx; rfl)) (fun x hx => hopen x (by rw [hφ] at hx; cases hx; rfl))
  exact hb.mono fun m m' _ hm => .inr ⟨p, φ, _, _, S, hm⟩

end Nsasm.Shift
