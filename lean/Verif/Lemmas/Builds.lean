import Verif.Lemmas.Separate

/-! # When assembling files succeeds -/

namespace Nsasm
open Spec Props

/-- A module after the two analysis passes, when `E` gives the values of names of other modules. -/
def after (fuel : Nat) (E : Ctx) (m : Module) : Res Module := do
  let m₁ ← m.runFirstPass fuel
  m₁.runSecondPass E

/-- What a module writes, when `E` gives the values of names of other modules. -/
def made (fuel : Nat) (E : Ctx) (m : Module) : Writes :=
  match after fuel E m with
  | .ok m₂ => (m₂.assemble E recorder []).1
  | _ => []

/-- The modules can be assembled, with `E` giving the values of the names they export. -/
structure Builds (fuel : Nat) (ms : List Module) (E : Ctx) : Prop where
  linkable : Linkable ms
  offers : ∀ id v, E id = .ok v ↔ ∃ m ∈ ms, ∃ m₂, after fuel E m = .ok m₂ ∧ m₂.valueForName id = .ok v
  works : ∀ m ∈ ms, ∃ m₂ m₃, after fuel E m = .ok m₂ ∧ m₂.assemble E recorder [] = (made fuel E m, .ok m₃)
  apart : (allFilled (ms.flatMap (made fuel E))).Nodup

theorem after_parts {fuel : Nat} {E : Ctx} {m m₂ : Module} (h : after fuel E m = .ok m₂) :
    ∃ m₁, m.runFirstPass fuel = .ok m₁ ∧ m₁.runSecondPass E = .ok m₂ := Res.bind_eq_ok.mp h

theorem after_fields {fuel : Nat} {E : Ctx} {m m₂ : Module} (h : after fuel E m = .ok m₂) :
    m₂.name = m.name ∧ m₂.globals = m.globals ∧ m₂.owned = m.owned ∧ m₂.targets = m.targets ∧
      m₂.conventions = m.conventions ∧ m₂.addrNames = m.addrNames := by
  obtain ⟨m₁, h1, h2⟩ := after_parts h
  obtain ⟨ls, rfl⟩ := secondPass_fields h2
  obtain ⟨e1, e2, -, e3, e4, e5, e6⟩ := firstPass_name h1
  exact ⟨e1, e2, e3, e5, e6, e4⟩

theorem exports_of_value {m : Module} {id : FullId} {v : Int} (h : m.valueForName id = .ok v) : Exports m id := by
  unfold Module.valueForName at h
  split at h
  · cases h
  · next hn =>
    cases hf : m.globals.find id.name with
    | none => rw [hf] at h; cases h
    | some t => exact ⟨by simpa using hn, t, find_mem hf⟩

/-! ## What follows from success -/

/-- What the module with this index writes. -/
def wrote (a : Assembler) (i : Nat) : Writes :=
  match a.modules[i]? with
  | some m => (m.assemble (Assembler.lookup a.modules a.names) recorder []).1
  | none => []

theorem finalPasses_runs : ∀ {order : List Nat} {a a' : Assembler} {s s' : Writes}, order.Nodup →
    Assembler.finalPasses recorder a order s = (s', .ok a') →
    (∀ i ∈ order, ∃ m m₃, a.modules[i]? = some m ∧
      m.assemble (Assembler.lookup a.modules a.names) recorder [] = (wrote a i, .ok m₃)) ∧
    s' = s ++ order.flatMap (wrote a) := by
  intro order
  induction order with
  | nil =>
    intro a a' s s' _ h
    simp only [Assembler.finalPasses, Prod.mk.injEq, Res.ok.injEq] at h
    obtain ⟨rfl, rfl⟩ := h
    exact ⟨by simp, by simp⟩
  | cons i is ih =>
    intro a a' s s' hnd h
    rw [Assembler.finalPasses] at h
    cases hm : a.modules[i]? with
    | none => rw [hm] at h; cases h
    | some m =>
      rw [hm] at h
      simp only at h
      rcases ha : m.assemble (Assembler.lookup a.modules a.names) recorder s with ⟨s1, r⟩
      rw [ha] at h
      cases r with
      | err e => cases h
      | ub u => cases h
      | ok m1 =>
        simp only at h
        rcases hi : a.memory.insert m1.owned i with ⟨mem, ok⟩
        rw [hi] at h
        cases ok with
        | false => cases h
        | true =>
          simp only at h
          obtain ⟨o, names, hl, -, hm1⟩ := assemble_parts ha
          have hsame : SameSource m m1 := by rw [hm1]; exact ⟨rfl, rfl, rfl, rfl⟩
          have hset : Pointwise (fun _ => SameSource) a.modules (a.modules.set i m1) :=
            pointwise_set (R := fun _ => SameSource) (fun _ a => .refl a) hm hsame
          have hnd' := List.nodup_cons.1 hnd
          obtain ⟨e1, e2⟩ := ih hnd'.2 h
          have hw : ∀ j ∈ is, wrote { a with modules := a.modules.set i m1, memory := mem } j = wrote a j := by
            intro j hj
            have hne : i ≠ j := by rintro rfl; exact hnd'.1 hj
            unfold wrote
            simp only [List.getElem?_set_ne hne, lookup_same hset]
          obtain ⟨w, rfl, hfr⟩ := assemble_frame ha
          have hwi : wrote a i = w := by unfold wrote; rw [hm]; simp only; rw [hfr]; rfl
          refine ⟨fun j hj => ?_, ?_⟩
          · rcases List.mem_cons.1 hj with rfl | hj
            · exact ⟨m, m1, hm, by rw [hwi, hfr]; rfl⟩
            · obtain ⟨q, q', h1, h2⟩ := e1 j hj
              have hne : i ≠ j := by rintro rfl; exact hnd'.1 hj
              simp only [List.getElem?_set_ne hne, lookup_same hset] at h1 h2
              exact ⟨q, q', h1, by rw [← hw j hj]; exact h2⟩
          · rw [e2, List.flatMap_cons, hwi, List.append_assoc]
            congr 2
            exact List.flatMap_congr hw

theorem builds_of_assembles {fuel : Nat} {files : List (List Str)} {ws : Writes} {a : Assembler}
    (h : Assembles fuel files ws a) : ∃ ms, Assembler.loadAll files = .ok ms ∧ Builds fuel ms (Assembler.lookup a.modules a.names) ∧
      ws.Perm (ms.flatMap (made fuel (Assembler.lookup a.modules a.names))) := by
  have h0 := h
  unfold Assembles at h h0
  unfold Assembler.assembleFiles at h
  cases hl : Assembler.loadAll files with
  | err e => rw [hl] at h; cases h
  | ub u => rw [hl] at h; cases h
  | ok ms =>
    rw [hl] at h
    simp only at h
    unfold Assembler.assemble at h
    cases hp : Assembler.prepare fuel ms with
    | err e => rw [hp] at h; cases h
    | ub u => rw [hp] at h; cases h
    | ok r =>
      obtain ⟨a₀, order⟩ := r
      rw [hp] at h
      simp only at h
      obtain ⟨o, ms₁, ho, rfl, hnames, hmem, hf, hs⟩ := prepare_parts hp
      obtain ⟨hperm, hip, hlo, huniq, hexp⟩ := C45_order_sound ho
      have hload := loadAll_iff.mp hl
      have hnd : o.order.Nodup := hperm.symm.nodup List.nodup_range
      have hin : ∀ (i : Nat) (m : Module), ms[i]? = some m → i ∈ o.order := fun i m hm =>
        hperm.mem_iff.2 (List.mem_range.2 (List.getElem?_eq_some_iff.mp hm).1)
      have hfile : ∀ (i : Nat) (m : Module), ms[i]? = some m →
          ∃ f, Module.loadAsmFile f = .ok m := fun i m hm =>
        (forall2_getElem? hload hm).imp fun f hf => hf.2
      obtain ⟨hl1, he1⟩ := firstPasses_each hnd hf
      have hun : ∀ i ∈ o.order, ∀ m, ms₁[i]? = some m → Unvalued m := by
        intro i hi m hm
        obtain ⟨m0, hm0, ⟨-, hp⟩ | ⟨hc, -⟩⟩ := he1 i m hm
        · obtain ⟨f, hf⟩ := hfile i m0 hm0
          exact unvalued_first hf hp
        · exact absurd hi hc
      obtain ⟨hmore, he2⟩ := secondPasses_each hnd hun hs
      have hlen : a₀.modules.length = ms.length := by rw [← hmore.1, hl1]
      have hafter : ∀ (i : Nat) (m : Module), ms[i]? = some m → ∃ m₂, a₀.modules[i]? = some m₂ ∧
          after fuel (Assembler.lookup a₀.modules a₀.names) m = .ok m₂ := by
        intro i m hm
        have hlt := (List.getElem?_eq_some_iff.mp hm).1
        have hg := List.getElem?_eq_getElem (l := a₀.modules) (by rw [hlen]; exact hlt)
        refine ⟨_, hg, ?_⟩
        obtain ⟨m1, h1, ⟨-, externs, hrun, hext⟩ | ⟨hc, -⟩⟩ := he2 i _ hg
        · obtain ⟨m0, hm0, ⟨-, hrun0⟩ | ⟨hc, -⟩⟩ := he1 i m1 h1
          · rw [hm] at hm0; cases hm0
            obtain ⟨f, hf⟩ := hfile i m hm
            refine Res.bind_eq_ok.mpr ⟨m1, hrun0, secondPass_within (D := fun _ => True) ?_ ?_ hrun⟩
            · intro id _ v hv; rw [hnames]; exact hext id v hv
            · intro l hl d hd hq; exact ⟨(needs_first hf hrun0 l hl d hd hq).1, fun _ _ => trivial⟩
          · exact absurd (hin i m hm) hc
        · exact absurd (hin i m hm) hc
      obtain ⟨hworks, hws⟩ := finalPasses_runs hnd h
      have hmade : ∀ (i : Nat) (m : Module), ms[i]? = some m →
          wrote a₀ i = made fuel (Assembler.lookup a₀.modules a₀.names) m := by
        intro i m hm
        obtain ⟨m₂, h2, h3⟩ := hafter i m hm
        unfold wrote made
        rw [h2, h3]
      have hflat : ∀ (l : List Nat), l.flatMap (wrote a₀) =
          (l.filterMap fun i => ms[i]?).flatMap (made fuel (Assembler.lookup a₀.modules a₀.names)) := by
        intro l
        induction l with
        | nil => rfl
        | cons i l ih =>
          rw [List.flatMap_cons, ih]
          cases hm : ms[i]? with
          | none =>
            have : wrote a₀ i = [] := by
              unfold wrote
              rw [List.getElem?_eq_none_iff.2 (by rw [hlen]; exact List.getElem?_eq_none_iff.1 hm)]
            rw [this, List.filterMap_cons_none hm]; rfl
          | some m => rw [List.filterMap_cons_some hm, List.flatMap_cons, hmade i m hm]
      have hpw : ws.Perm (ms.flatMap (made fuel (Assembler.lookup a₀.modules a₀.names))) := by
        rw [hws, List.nil_append, hflat]
        exact hip.flatMap_right _
      have hI : a₀.memory.Inv := by rw [hmem]; exact empty_inv
      have hemp : ∀ i ∈ o.order, ∀ m, a₀.modules[i]? = some m → m.owned = .empty := by
        intro j _ q hq
        have hlt := (List.getElem?_eq_some_iff.mp hq).1
        rw [hlen] at hlt
        obtain ⟨q', h1, h2⟩ := hafter j _ (List.getElem?_eq_getElem hlt)
        rw [hq] at h1; cases h1
        obtain ⟨f, hf⟩ := hfile j _ (List.getElem?_eq_getElem hlt)
        obtain ⟨items, -, hI, -, -⟩ := loadAsmFile_ok hf
        rw [(after_fields h2).2.2.1]
        exact hI.fresh.1
      obtain ⟨k1, k2, -⟩ := finalPasses_ok hI hnd hemp h
      have hlook : Assembler.lookup a.modules a.names = Assembler.lookup a₀.modules a₀.names := by
        rw [k1]; exact lookup_same k2 _
      rw [hlook]
      refine ⟨ms, rfl, ⟨⟨huniq, _, hip, hlo⟩, ?_, ?_, ?_⟩, hpw⟩
      · intro id v
        constructor
        · intro hv
          unfold Assembler.lookup at hv
          split at hv
          · cases hv
          · split at hv
            · cases hv
            · next i hi =>
              split at hv
              · cases hv
              · next m₂ hm₂ =>
                have hlt := (List.getElem?_eq_some_iff.mp hm₂).1
                rw [hlen] at hlt
                obtain ⟨q, hq, hq'⟩ := hafter i _ (List.getElem?_eq_getElem hlt)
                rw [hm₂] at hq; cases hq
                exact ⟨_, List.getElem_mem hlt, m₂, hq', hv⟩
        · rintro ⟨m, hm, m₂, h2, hv⟩
          obtain ⟨i, hi⟩ := List.mem_iff_getElem?.1 hm
          obtain ⟨q, hq, hq'⟩ := hafter i m hi
          rw [h2] at hq'; cases hq'
          have hx := exports_of_value hv
          have hf := (hexp id i).2 ⟨m, hi, (exports_congr (after_fields h2).1 (after_fields h2).2.1 id).1 hx⟩
          unfold Assembler.lookup
          rw [if_neg (by rw [hx.1]; simp), hnames, hf]
          simp only [hq]
          exact hv
      · intro m hm
        obtain ⟨i, hi⟩ := List.mem_iff_getElem?.1 hm
        obtain ⟨m₂, hq, hq'⟩ := hafter i m hi
        obtain ⟨q, m₃, h1, h2⟩ := hworks i (hin i m hi)
        rw [hq] at h1; cases h1
        exact ⟨m₂, m₃, hq', by rw [← hmade i m hi]; exact h2⟩
      · obtain ⟨vs, hfe, hn, -⟩ := C44_written_once h0
        have := feeds_recorder_eq hfe
        rw [List.nil_append] at this
        subst this
        exact (hpw.flatMap_right filled).nodup_iff.1 hn

/-! ## What success follows from -/

theorem firstPasses_succeeds {fuel : Nat} : ∀ {order : List Nat} {ms : List Module}, order.Nodup →
    (∀ i ∈ order, ∃ m m₁, ms[i]? = some m ∧ m.runFirstPass fuel = .ok m₁) →
    ∃ ms', Assembler.firstPasses fuel ms order = .ok ms' := by
  intro order
  induction order with
  | nil => intro ms _ _; exact ⟨ms, rfl⟩
  | cons i is ih =>
    intro ms hnd h
    obtain ⟨m, m₁, hm, h1⟩ := h i (by simp)
    have hnd' := List.nodup_cons.1 hnd
    obtain ⟨ms', h2⟩ := ih (ms := ms.set i m₁) hnd'.2 (fun j hj => by
      have hne : i ≠ j := by rintro rfl; exact hnd'.1 hj
      rw [List.getElem?_set_ne hne]
      exact h j (by simp [hj]))
    exact ⟨ms', by rw [Assembler.firstPasses, hm]; simp only; rw [h1, Res.bind_ok]; exact h2⟩

theorem unique_exporter {ms : List Module} (h : UniqueExports ms) {m q : Module} (hm : m ∈ ms) (hq : q ∈ ms)
    {id : FullId} (h1 : Exports m id) (h2 : Exports q id) : m = q := by
  by_contra hne
  have : Std.Symm fun (a b : Module) => ∀ id, Exports a id → ¬ Exports b id := ⟨fun a b hab id ha hb => hab id hb ha⟩
  exact List.Pairwise.forall h hm hq hne id h1 h2

/-- Some of the modules have been through the second pass. -/
def Midway (fuel : Nat) (E : Ctx) (ms : List Module) (done : List Nat) (cur : List Module) : Prop :=
  cur.length = ms.length ∧ ∀ (i : Nat) (m q : Module), ms[i]? = some m → cur[i]? = some q →
    (i ∈ done → after fuel E m = .ok q) ∧ (i ∉ done → m.runFirstPass fuel = .ok q)

theorem secondPasses_succeeds {fuel : Nat} {E : Ctx} {files : List (List Str)} {ms : List Module}
    (hload : Assembler.loadAll files = .ok ms) (hB : Builds fuel ms E) {o : Assembler.Ordering}
    (ho : Assembler.findAssemblyOrder ms = .ok o) : ∀ (rest done : List Nat) (cur : List Module),
    o.order = done ++ rest → Midway fuel E ms done cur →
    ∃ fin, Assembler.secondPasses o.exported cur rest = .ok fin ∧ Midway fuel E ms o.order fin := by
  obtain ⟨hperm, hip, hlo, huniq, hexp⟩ := C45_order_sound ho
  have hnd : o.order.Nodup := hperm.symm.nodup List.nodup_range
  intro rest
  induction rest with
  | nil =>
    intro done cur hd hM
    rw [List.append_nil] at hd
    exact ⟨cur, rfl, by rw [hd]; exact hM⟩
  | cons i is ih =>
    intro done cur hd hM
    have hi : i < ms.length := List.mem_range.1 (hperm.mem_iff.1 (by rw [hd]; simp))
    have hm := List.getElem?_eq_getElem hi
    have hc := List.getElem?_eq_getElem (l := cur) (by rw [hM.1]; exact hi)
    set m := ms[i] with hmdef
    set q := cur[i]'(by rw [hM.1]; exact hi) with hqdef
    have hni : i ∉ done := by
      rw [hd] at hnd
      intro hin
      exact (List.disjoint_of_nodup_append hnd) hin (by simp)
    have hq1 := (hM.2 i m q hm hc).2 hni
    obtain ⟨m₂, m₃, ha, -⟩ := hB.works m (List.mem_of_getElem? hm)
    obtain ⟨m₁, h1, h2⟩ := after_parts ha
    rw [hq1] at h1; cases h1
    obtain ⟨f, -, hf⟩ := loadAll_mem hload m (List.mem_of_getElem? hm)
    have hrun : q.runSecondPass (Assembler.lookup cur o.exported) = .ok m₂ := by
      refine secondPass_within ?_ (needs_first hf hq1) h2
      intro id hid v hv
      -- the module that exports the name has been through the second pass
      have hsplit : inOrder ms o.order = inOrder ms done ++ m :: inOrder ms is := by
        unfold inOrder
        rw [hd, List.filterMap_append, List.filterMap_cons_some hm]
      obtain ⟨p, hp, hpx⟩ := hlo _ m _ hsplit id hid
      obtain ⟨j, hj, hpj⟩ := List.mem_filterMap.1 hp
      obtain ⟨m', hm', m'₂, ha', hv'⟩ := (hB.offers id v).1 hv
      have hx' : Exports m' id := (exports_congr (after_fields ha').1 (after_fields ha').2.1 id).1 (exports_of_value hv')
      have : m' = p := unique_exporter huniq hm' (List.mem_of_getElem? hpj) hx' hpx
      subst this
      have hjl := (List.getElem?_eq_some_iff.mp hpj).1
      have hcj := List.getElem?_eq_getElem (l := cur) (by rw [hM.1]; exact hjl)
      have := (hM.2 j _ _ hpj hcj).1 hj
      rw [ha'] at this
      cases this
      unfold Assembler.lookup
      rw [if_neg (by rw [hx'.1]; simp), (hexp id j).2 ⟨m', hpj, hx'⟩]
      simp only [hcj]
      exact hv'
    obtain ⟨fin, hfin, hMf⟩ := ih (done ++ [i]) (cur.set i m₂) (by rw [hd]; simp) (by
      refine ⟨by simp [hM.1], fun j p r hp hr => ?_⟩
      by_cases hij : i = j
      · subst hij
        rw [List.getElem?_set_self (by rw [hM.1]; exact hi)] at hr
        cases hr
        rw [hm] at hp; cases hp
        exact ⟨fun _ => ha, fun hn => absurd (by simp) hn⟩
      · rw [List.getElem?_set_ne hij] at hr
        have := hM.2 j p r hp hr
        refine ⟨fun hj => this.1 ?_, fun hj => this.2 fun h => hj (by simp [h])⟩
        rcases List.mem_append.1 hj with hj | hj
        · exact hj
        · simp at hj; exact absurd hj.symm hij)
    refine ⟨fin, ?_, hMf⟩
    rw [Assembler.secondPasses, hc]
    simp only
    rw [hrun, Res.bind_ok]
    exact hfin

theorem insert_succeeds {τ : Type} {r : RangeMap τ} (h : r.Inv) {range : DataRange} {l : List Nat}
    (hg : Claims .empty range l) (hd : ∀ x ∈ l, r.used.contains x = false) (v : τ) :
    ∃ r', r.insert range v = (r', true) := by
  obtain ⟨-, h2, -⟩ := insert_spec h hg.canonical v (f := r.lookup) (fun _ => rfl)
  have hno : ¬ ∃ a, range.contains a = true ∧ r.lookup a ≠ none := by
    rintro ⟨x, hx, hl⟩
    rw [hg.exact] at hx
    have hx' : x ∈ l := by simpa [DataRange.empty, DataRange.contains, DataRange.before] using hx
    have := (inv_contains h x).2 hl
    unfold RangeMap.contains at this
    rw [hd x hx'] at this; cases this
  simp only [AMap.insert, if_neg hno] at h2
  exact ⟨(r.insert range v).1, by rw [← h2]⟩

theorem finalPasses_succeeds : ∀ {order : List Nat} {a : Assembler} (s : Writes), a.memory.Inv → order.Nodup →
    (∀ i ∈ order, ∃ m m₃, a.modules[i]? = some m ∧ m.owned = .empty ∧
      m.assemble (Assembler.lookup a.modules a.names) recorder [] = (wrote a i, .ok m₃)) →
    (allFilled (order.flatMap (wrote a))).Nodup →
    (∀ x ∈ allFilled (order.flatMap (wrote a)), a.memory.used.contains x = false) →
    ∃ s' a', Assembler.finalPasses recorder a order s = (s', .ok a') := by
  intro order
  induction order with
  | nil => intro a s _ _ _ _ _; exact ⟨s, a, rfl⟩
  | cons i is ih =>
    intro a s hI hnd hw hn hfree
    obtain ⟨m, m1, hm, hE, ha⟩ := hw i (by simp)
    have hnd' := List.nodup_cons.1 hnd
    obtain ⟨o, names, hl, -, hm1⟩ := assemble_parts ha
    have hsame : SameSource m m1 := by rw [hm1]; exact ⟨rfl, rfl, rfl, rfl⟩
    have hset : Pointwise (fun _ => SameSource) a.modules (a.modules.set i m1) :=
      pointwise_set (R := fun _ => SameSource) (fun _ a => .refl a) hm hsame
    obtain ⟨ws, -, hf, hg⟩ := assembleLines_ok (by
      rw [hE]; exact ⟨by simp [DataRange.empty], by simp [DataRange.empty]⟩) hl
    rw [hE] at hg
    have hown : m1.owned = o.owned := by rw [hm1]
    rw [← hown] at hg
    have hwi : ws.flatten = wrote a i := by
      have := feeds_recorder_eq hf
      rw [List.nil_append] at this
      exact this.symm
    rw [hwi] at hg
    rw [List.flatMap_cons, allFilled_append] at hn hfree
    have hn' := List.nodup_append.1 hn
    obtain ⟨mem, hins⟩ := insert_succeeds hI hg (fun x hx => hfree x (List.mem_append_left _ hx)) i
    obtain ⟨hI', hg'⟩ := insert_grows hI hg hins
    have hww : ∀ j ∈ is, wrote { a with modules := a.modules.set i m1, memory := mem } j = wrote a j := by
      intro j hj
      have hne : i ≠ j := by rintro rfl; exact hnd'.1 hj
      unfold wrote
      simp only [List.getElem?_set_ne hne, lookup_same hset]
    have hflat : is.flatMap (wrote { a with modules := a.modules.set i m1, memory := mem }) = is.flatMap (wrote a) :=
      List.flatMap_congr hww
    obtain ⟨w, he, hfr⟩ := assemble_frame ha
    obtain ⟨s', a', hfin⟩ := ih (a := { a with modules := a.modules.set i m1, memory := mem }) (s ++ w) hI' hnd'.2
      (fun j hj => by
        obtain ⟨q, q', h1, h2, h3⟩ := hw j (by simp [hj])
        have hne : i ≠ j := by rintro rfl; exact hnd'.1 hj
        refine ⟨q, q', by simp only [List.getElem?_set_ne hne]; exact h1, h2, ?_⟩
        rw [hww j hj]
        simp only [lookup_same hset]
        exact h3)
      (by rw [hflat]; exact hn'.2.1)
      (fun x hx => by
        rw [hflat] at hx
        by_contra hc
        rw [Bool.not_eq_false] at hc
        rcases (hg'.exact x).1 hc with h | h
        · rw [hfree x (List.mem_append_right _ hx)] at h; cases h
        · exact hn'.2.2 x h x hx rfl)
    refine ⟨s', a', ?_⟩
    rw [Assembler.finalPasses, hm]
    simp only
    rw [hfr s]
    simp only
    rw [hins]
    exact hfin

theorem assembles_of_builds {fuel : Nat} {files : List (List Str)} {ms : List Module} {E : Ctx}
    (hload : Assembler.loadAll files = .ok ms) (hB : Builds fuel ms E) :
    ∃ ws a, Assembles fuel files ws a ∧ ws.Perm (ms.flatMap (made fuel E)) := by
  obtain ⟨o, ho⟩ := (C45_order_found_iff hload).2 hB.linkable
  obtain ⟨hperm, hip, hlo, huniq, hexp⟩ := C45_order_sound ho
  have hnd : o.order.Nodup := hperm.symm.nodup List.nodup_range
  have hin : ∀ (i : Nat), i ∈ o.order ↔ i < ms.length := fun i => by rw [hperm.mem_iff, List.mem_range]
  obtain ⟨ms₁, hf⟩ := firstPasses_succeeds (fuel := fuel) (ms := ms) hnd (fun i hi => by
    have hlt := (hin i).1 hi
    obtain ⟨m₂, m₃, ha, -⟩ := hB.works _ (List.getElem_mem hlt)
    obtain ⟨m₁, h1, -⟩ := after_parts ha
    exact ⟨_, m₁, List.getElem?_eq_getElem hlt, h1⟩)
  obtain ⟨hl1, he1⟩ := firstPasses_each hnd hf
  obtain ⟨ms₂, hs, hM⟩ := secondPasses_succeeds hload hB ho o.order [] ms₁ (by simp) ⟨hl1, fun i m q hm hq => by
    obtain ⟨m', hm', ⟨-, hr⟩ | ⟨hc, -⟩⟩ := he1 i q hq
    · rw [hm] at hm'; cases hm'; exact ⟨fun h => by simp at h, fun _ => hr⟩
    · exact absurd ((hin i).2 (List.getElem?_eq_some_iff.mp hm).1) hc⟩
  have hafter : ∀ (i : Nat) (m : Module), ms[i]? = some m → ∃ m₂, ms₂[i]? = some m₂ ∧ after fuel E m = .ok m₂ := by
    intro i m hm
    have hlt := (List.getElem?_eq_some_iff.mp hm).1
    have hg := List.getElem?_eq_getElem (l := ms₂) (by rw [hM.1]; exact hlt)
    exact ⟨_, hg, (hM.2 i m _ hm hg).1 ((hin i).2 hlt)⟩
  -- the names have the values that `E` gives
  have hE : ∀ id v, E id = .ok v → Assembler.lookup ms₂ o.exported id = .ok v := by
    intro id v hv
    obtain ⟨m, hm, m₂, ha, hv⟩ := (hB.offers id v).1 hv
    obtain ⟨i, hi⟩ := List.mem_iff_getElem?.1 hm
    obtain ⟨q, hq, hq'⟩ := hafter i m hi
    rw [ha] at hq'; cases hq'
    have hx := exports_of_value hv
    have hfd := (hexp id i).2 ⟨m, hi, (exports_congr (after_fields ha).1 (after_fields ha).2.1 id).1 hx⟩
    unfold Assembler.lookup
    rw [if_neg (by rw [hx.1]; simp), hfd]
    simp only [hq]
    exact hv
  have hworks : ∀ (i : Nat) (m : Module), ms[i]? = some m → ∃ m₂ m₃, ms₂[i]? = some m₂ ∧ m₂.owned = .empty ∧
      m₂.assemble (Assembler.lookup ms₂ o.exported) recorder [] = (made fuel E m, .ok m₃) := by
    intro i m hm
    obtain ⟨m₂, h2, ha⟩ := hafter i m hm
    obtain ⟨q, m₃, ha', hw⟩ := hB.works m (List.mem_of_getElem? hm)
    rw [ha] at ha'; cases ha'
    obtain ⟨f, -, hfl⟩ := loadAll_mem hload m (List.mem_of_getElem? hm)
    obtain ⟨items, -, hI, -, -⟩ := loadAsmFile_ok hfl
    refine ⟨m₂, m₃, h2, by rw [(after_fields ha).2.2.1]; exact hI.fresh.1, ?_⟩
    exact assemble_within (fun l _ e _ v hv => eval_mono (lookup_mono m₂ l.scopes hE) e v hv) hw
  have hmade : ∀ (i : Nat) (m : Module), ms[i]? = some m → wrote ⟨ms₂, o.exported, .empty⟩ i = made fuel E m := by
    intro i m hm
    obtain ⟨m₂, m₃, h1, -, h2⟩ := hworks i m hm
    unfold wrote
    simp only [h1]
    rw [h2]
  have hlen : ms₂.length = ms.length := hM.1
  have hflat : ∀ (l : List Nat), l.flatMap (wrote ⟨ms₂, o.exported, .empty⟩) =
      (l.filterMap fun i => ms[i]?).flatMap (made fuel E) := by
    intro l
    induction l with
    | nil => rfl
    | cons i l ih =>
      rw [List.flatMap_cons, ih]
      cases hm : ms[i]? with
      | none =>
        have : wrote ⟨ms₂, o.exported, .empty⟩ i = [] := by
          unfold wrote
          simp only
          rw [List.getElem?_eq_none_iff.2 (by rw [hlen]; exact List.getElem?_eq_none_iff.1 hm)]
        rw [this, List.filterMap_cons_none hm]; rfl
      | some m => rw [List.filterMap_cons_some hm, List.flatMap_cons, hmade i m hm]
  have hpw : (o.order.flatMap (wrote ⟨ms₂, o.exported, .empty⟩)).Perm (ms.flatMap (made fuel E)) := by
    rw [hflat]; exact hip.flatMap_right _
  obtain ⟨s', a', hfin⟩ := finalPasses_succeeds (order := o.order) (a := ⟨ms₂, o.exported, .empty⟩) [] empty_inv hnd
    (fun i hi => by
      have hlt := (hin i).1 hi
      obtain ⟨m₂, m₃, h1, h2, h3⟩ := hworks i _ (List.getElem?_eq_getElem hlt)
      exact ⟨m₂, m₃, h1, h2, by rw [hmade i _ (List.getElem?_eq_getElem hlt)]; exact h3⟩)
    ((hpw.flatMap_right filled).nodup_iff.2 hB.apart)
    (fun x _ => by simp [RangeMap.empty, DataRange.empty, DataRange.contains, DataRange.before])
  refine ⟨s', a', ?_, ?_⟩
  · unfold Assembles Assembler.assembleFiles
    rw [hload]
    simp only
    unfold Assembler.assemble Assembler.prepare
    rw [ho, Res.bind_ok, hf, Res.bind_ok, hs, Res.bind_ok]
    exact hfin
  · rw [(finalPasses_runs hnd hfin).2, List.nil_append]
    exact hpw

end Nsasm
