import Verif.Lemmas.Order
import Verif.Props.Module

/-! # C45, C46: the order in which modules are linked -/

namespace Nsasm.Props
open Nsasm Nsasm.Spec

theorem loaded_namesNodup {file : List Str} {m : Module} (h : Module.loadAsmFile file = .ok m) :
    NamesNodup m := by
  obtain ⟨items, -, hI, -, -⟩ := loadAsmFile_ok h
  unfold NamesNodup
  rw [hI.globals]
  have h1 : ((tableOf none (defs (program [] items))).map (·.1)) =
      ((keys (program [] items)).filter (fun k => k.1 = none)).map (·.2) := by
    unfold tableOf keys
    generalize defs (program [] items) = D
    induction D with
    | nil => rfl
    | cons d D ih =>
      obtain ⟨s, n, t⟩ := d
      by_cases hs : s = none
      · simp_all [defKey]
      · simp_all [defKey]
  rw [h1]
  refine List.Nodup.map_on ?_ (hI.nodup.filter _)
  intro a ha b hb e
  simp at ha hb
  exact Prod.ext (ha.2.trans hb.2.symm) e

theorem loadAll_mem : ∀ {files : List (List Str)} {ms : List Module},
    Assembler.loadAll files = .ok ms → ∀ m ∈ ms, ∃ f ∈ files, Module.loadAsmFile f = .ok m := by
  intro files
  induction files with
  | nil => intro ms h; simp [Assembler.loadAll] at h; subst h; simp
  | cons f fs ih =>
    intro ms h
    rw [Assembler.loadAll] at h
    replace h := Res.bind_eq_ok.mp h
    obtain ⟨m0, h0, h⟩ := h
    replace h := Res.bind_eq_ok.mp h
    obtain ⟨ms0, h1, h⟩ := h
    cases h
    intro m hm
    rcases List.mem_cons.mp hm with rfl | hm
    · exact ⟨f, by simp, h0⟩
    · obtain ⟨g, hg, h2⟩ := ih h1 m hm
      exact ⟨g, by simp [hg], h2⟩

theorem mem_externalNames {isLocal : FullId → Bool} {id : FullId} : ∀ {e : Expr},
    id ∈ e.externalNames isLocal ↔ ∃ x, Uses x e ∧ isLocal x = false ∧ id = qualified x := by
  intro e
  induction e with
  | null => simp only [Expr.externalNames, List.not_mem_nil, false_iff]; rintro ⟨x, h, -⟩; cases h
  | lit v t => simp only [Expr.externalNames, List.not_mem_nil, false_iff]; rintro ⟨x, h, -⟩; cases h
  | label n h _ => simp only [Expr.externalNames, List.not_mem_nil, false_iff]; rintro ⟨x, h, -⟩; cases h
  | ident y t =>
    constructor
    · intro h
      refine ⟨y, .name t, ?_⟩
      obtain ⟨m, n⟩ := y
      simp only [Expr.externalNames] at h
      cases hl : isLocal ⟨m, n⟩ <;> cases m <;> simp_all [qualified]
    · rintro ⟨x, h, hl, rfl⟩
      cases h
      obtain ⟨m, n⟩ := y
      cases m <;> simp_all [Expr.externalNames, qualified]
  | un op a ih =>
    rw [Expr.externalNames, ih]
    constructor
    · rintro ⟨x, h, r⟩; exact ⟨x, .arg h, r⟩
    · rintro ⟨x, h, r⟩; cases h with | arg h => exact ⟨x, h, r⟩
  | bin op l r ihl ihr =>
    rw [Expr.externalNames, List.mem_append, ihl, ihr]
    constructor
    · rintro (⟨x, h, r⟩ | ⟨x, h, r⟩)
      · exact ⟨x, .left h, r⟩
      · exact ⟨x, .right h, r⟩
    · rintro ⟨x, h, r⟩
      cases h with
      | left h => exact .inl ⟨x, h, r⟩
      | right h => exact .inr ⟨x, h, r⟩

/-- **What a module depends on** are the names its constants are defined with, in so far as they
are not names of the module where they are used. -/
theorem C45_dependencies {file : List Str} {m : Module} (h : Module.loadAsmFile file = .ok m) :
    ∃ items, FileItems file items ∧
      ∀ id, id ∈ m.deps ↔ Needs (program [] items) m.name id := by
  obtain ⟨items, h1, h2, -, hd⟩ := loadAsmFile_ok h
  refine ⟨items, h1, fun id => ?_⟩
  have hloc : ∀ (i : Nat) (hi : i < (program [] items).length) (x : FullId),
      m.isLocal (openAt (program [] items) i) x = false ↔ Foreign (program [] items) m.name i x := by
    intro i hi x
    have none_iff : ∀ (o : Option Nat) {p : Nat → Prop}, (∀ t, o = some t ↔ p t) →
        (o.isSome = false ↔ ∀ t, ¬ p t) := by
      intro o p hp
      cases o with
      | none => simp only [reduceCtorEq, false_iff] at hp; simp [hp]
      | some t => simp only [Option.isSome_some, Bool.true_eq_false, false_iff]; exact fun h => h t ((hp t).mp rfl)
    obtain ⟨mod, n⟩ := x
    cases mod with
    | none => exact none_iff _ fun t => localIndex_resolves h2 n t i (by omega)
    | some mod =>
      unfold Module.isLocal Foreign
      simp only
      by_cases hm : mod = m.name
      · subst hm
        simp only [ne_eq, not_true_eq_false, if_false, false_or]
        exact none_iff _ fun t => by
          rw [Module.localIndex, h2.globals, find_tableOf h2.nodup]
      · simp [hm]
  rw [hd]
  unfold Module.dependencies
  rw [List.mem_flatMap]
  constructor
  · rintro ⟨l, hl, hid⟩
    obtain ⟨i, hi, rfl⟩ := List.mem_iff_getElem.mp hl
    obtain ⟨⟨pl, hpl, hst⟩, hsc, -⟩ := h2.line i _ (List.getElem?_eq_getElem hi)
    cases hs : m.lines[i].statement with
    | instr _ => rw [hs] at hid; cases hid
    | dir d =>
      rw [hs] at hid
      simp only at hid
      split at hid
      swap
      · cases hid
      next hequ =>
        obtain ⟨x, hx, hl, rfl⟩ := mem_externalNames.mp hid
        rw [hsc] at hl
        exact ⟨i, pl, d, hpl, by rw [← hst, hs], hequ, x, hx,
          (hloc i (by rw [← h2.length]; exact hi) x).mp hl, rfl⟩
  · rintro ⟨i, pl, d, hpl, hst, hequ, x, hx, hf, rfl⟩
    have hi : i < m.lines.length := by
      rw [h2.length]; exact (List.getElem?_eq_some_iff.mp hpl).1
    obtain ⟨⟨pl', hpl', hst'⟩, hsc, -⟩ := h2.line i _ (List.getElem?_eq_getElem hi)
    rw [hpl] at hpl'; cases hpl'
    refine ⟨_, List.getElem_mem hi, ?_⟩
    rw [hst', hst]
    simp only [if_pos hequ]
    refine mem_externalNames.mpr ⟨x, hx, ?_, rfl⟩
    rw [hsc]
    exact (hloc i (by rw [← h2.length]; exact hi) x).mpr hf

/-- A constant in a scope, defined with a name of the scope, one of another module, and one that
only another scope has. -/
example : ∃ m, Module.loadAsmFile [cs!".module here", cs!"{", cs!"one .equ 1",
      cs!"two .equ one + there::val + other", cs!"}", cs!"{", cs!"other .equ 2", cs!"}"] = .ok m ∧
    m.deps = [⟨some cs!"there", cs!"val"⟩, ⟨some [], cs!"other"⟩] := by
  refine ⟨_, rfl, ?_⟩
  decide +kernel

/-- The modules in the order `o`. -/
def inOrder (ms : List Module) (o : List Nat) : List Module := o.filterMap fun i => ms[i]?

theorem filterMap_range (ms : List Module) :
    (List.range ms.length).filterMap (fun i => ms[i]?) = ms := by
  induction ms with
  | nil => rfl
  | cons m ms ih =>
    rw [List.length_cons, List.range_succ_eq_map, List.filterMap_cons]
    simp only [List.getElem?_cons_zero]
    rw [List.filterMap_map]
    congr 1

/-- **A found order is a link order.**  If an order is found it lists every module exactly once,
every module after modules that export the names it depends on, no name is exported twice, and
every exported name is assigned to the module that exports it. -/
theorem C45_order_sound {ms : List Module} {o : Assembler.Ordering}
    (h : Assembler.findAssemblyOrder ms = .ok o) :
    o.order.Perm (List.range ms.length) ∧ (inOrder ms o.order).Perm ms ∧
    LinkOrder (inOrder ms o.order) ∧ UniqueExports ms ∧
    ∀ id i, HMap.find o.exported id = some i ↔ ∃ m, ms[i]? = some m ∧ Exports m id := by
  rcases orderLoop_cases (ms.length + 1) ⟨[], []⟩ (orderInv_init ms) (by simp) with
    ⟨o', ho, hI, hl⟩ | ho | ⟨ho, -⟩
  · unfold Assembler.findAssemblyOrder at h
    rw [h] at ho; cases ho
    have hperm := inv_perm hI hl
    have hall : ∀ (i : Nat) (m : Module), ms[i]? = some m → i ∈ o.order := by
      intro i m hm
      exact hperm.mem_iff.mpr (List.mem_range.mpr (List.getElem?_eq_some_iff.mp hm).1)
    refine ⟨hperm, ?_, ?_, ?_, ?_⟩
    · have := hperm.filterMap fun i => ms[i]?
      rw [filterMap_range] at this
      exact this
    · intro pre m post hsplit id hid
      unfold inOrder at hsplit
      obtain ⟨a, b, hab, rfl, hb⟩ := List.filterMap_eq_append_iff.mp hsplit
      obtain ⟨b1, i, b2, rfl, hnone, hi, rfl⟩ := List.filterMap_eq_cons_iff.mp hb
      have : o.order = (a ++ b1) ++ i :: b2 := by rw [hab]; simp
      obtain ⟨j, hj, q, hq, he⟩ := hI.deps (a ++ b1) i b2 m this hi id hid
      refine ⟨q, ?_, he⟩
      rw [List.mem_filterMap]
      rcases List.mem_append.mp hj with hj | hj
      · exact ⟨j, hj, hq⟩
      · rw [hnone j hj] at hq; cases hq
    · unfold UniqueExports
      rw [List.pairwise_iff_getElem]
      intro i j hi hj hij id h1 h2
      have a := (hI.names id i).mpr ⟨hall i _ (List.getElem?_eq_getElem hi), _, List.getElem?_eq_getElem hi, h1⟩
      have b := (hI.names id j).mpr ⟨hall j _ (List.getElem?_eq_getElem hj), _, List.getElem?_eq_getElem hj, h2⟩
      rw [a] at b; cases b; omega
    · intro id i
      rw [hI.names]
      exact ⟨fun h => h.2, fun ⟨m, hm, he⟩ => ⟨hall i m hm, m, hm, he⟩⟩
  · unfold Assembler.findAssemblyOrder at h; rw [h] at ho; cases ho
  · unfold Assembler.findAssemblyOrder at h; rw [h] at ho; cases ho

theorem consider_unique {ms : List Module} (hu : UniqueExports ms) (hn : ∀ m ∈ ms, NamesNodup m)
    {o : Assembler.Ordering} (hI : OrderInv ms o) {i : Nat} {m : Module} (hm : ms[i]? = some m) :
    ∃ o', Assembler.consider o i m = .ok o' := by
  unfold Assembler.consider
  by_cases hi : i ∈ o.order
  · rw [if_pos hi]; exact ⟨_, rfl⟩
  rw [if_neg hi]
  split
  swap
  · exact ⟨_, rfl⟩
  obtain ⟨ex, hex⟩ := addExports_succeeds (i := i) (ex := o.exported)
    (exportedNames_nodup (hn m (List.mem_of_getElem? hm))) (by
      intro n hne
      cases hf : HMap.find o.exported n with
      | none => rfl
      | some j =>
        exfalso
        obtain ⟨hj, q, hq, he⟩ := (hI.names n j).mp hf
        have he' := mem_exportedNames.mp hne
        obtain ⟨hjl, rfl⟩ := List.getElem?_eq_some_iff.mp hq
        obtain ⟨hil, rfl⟩ := List.getElem?_eq_some_iff.mp hm
        rcases Nat.lt_trichotomy i j with h | h | h
        · exact List.pairwise_iff_getElem.mp hu i j hil hjl h n he' he
        · subst h; exact hi hj
        · exact List.pairwise_iff_getElem.mp hu j i hjl hil h n he he')
  rw [hex]
  exact ⟨_, rfl⟩

theorem round_unique {ms : List Module} (hu : UniqueExports ms) (hn : ∀ m ∈ ms, NamesNodup m) :
    ∀ (rest done : List Module), ms = done ++ rest → ∀ {o : Assembler.Ordering}, OrderInv ms o →
      ∃ o', Assembler.round o done.length rest = .ok o' := by
  intro rest
  induction rest with
  | nil => intro done _ o _; exact ⟨o, rfl⟩
  | cons m rest ih =>
    intro done hms o hI
    have hm : ms[done.length]? = some m := by rw [hms]; simp
    obtain ⟨o1, h1⟩ := consider_unique hu hn hI hm
    rw [Assembler.round, h1, Res.bind_ok]
    have := ih (done ++ [m]) (by simp [hms]) (consider_cases hI hm h1).1
    simpa using this

theorem orderLoop_unique {ms : List Module} (hu : UniqueExports ms) (hn : ∀ m ∈ ms, NamesNodup m) :
    ∀ (n : Nat) {o : Assembler.Ordering}, OrderInv ms o →
      Assembler.orderLoop ms n o ≠ .err .duplicateExport := by
  intro n
  induction n with
  | zero => intro o _ h; cases h
  | succ n ih =>
    intro o hI h
    rw [Assembler.orderLoop] at h
    split at h
    swap
    · cases h
    obtain ⟨o', ho⟩ := round_unique hu hn ms [] rfl hI
    have ho' : Assembler.round o 0 ms = .ok o' := ho
    rw [ho', Res.bind_ok] at h
    split at h
    · cases h
    · exact ih (round_grows hI ho').1 h

/-- **An order is found exactly when there is one.**  For modules loaded from files, linking finds
an order if and only if no name is exported twice and the modules can be ordered so that each comes
after modules that export what it depends on. -/
theorem C45_order_found_iff {files : List (List Str)} {ms : List Module}
    (hload : Assembler.loadAll files = .ok ms) :
    (∃ o, Assembler.findAssemblyOrder ms = .ok o) ↔ Linkable ms := by
  have hn : ∀ m ∈ ms, NamesNodup m := by
    intro m hm
    obtain ⟨f, -, hf⟩ := loadAll_mem hload m hm
    exact loaded_namesNodup hf
  constructor
  · rintro ⟨o, ho⟩
    obtain ⟨-, h1, h2, h3, -⟩ := C45_order_sound ho
    exact ⟨h3, _, h1, h2⟩
  · rintro ⟨hu, l, hl, hlo⟩
    rcases orderLoop_cases (ms.length + 1) ⟨[], []⟩ (orderInv_init ms) (by simp) with
      ⟨o', ho, -, -⟩ | ho | ⟨-, o', hI, hlt, hst⟩
    · exact ⟨o', ho⟩
    · exact absurd ho (orderLoop_unique hu hn _ (orderInv_init ms))
    · exfalso
      -- some module is left
      obtain ⟨i, hi, hno⟩ : ∃ i, i < ms.length ∧ i ∉ o'.order := by
        by_contra hc
        simp only [not_exists, not_and, not_not] at hc
        have hs : List.range ms.length ⊆ o'.order := fun i hi => hc i (List.mem_range.mp hi)
        have := (List.subperm_of_subset List.nodup_range hs).length_le
        simp at this; omega
      -- modules that are left
      have hex : ∃ m ∈ l, ∃ i, ms[i]? = some m ∧ i ∉ o'.order :=
        ⟨ms[i], hl.mem_iff.mpr (List.getElem_mem hi), i, List.getElem?_eq_getElem hi, hno⟩
      -- the first of them in the link order
      have hfirst : ∀ k : List Module, (∃ m ∈ k, ∃ i, ms[i]? = some m ∧ i ∉ o'.order) →
          ∃ pre m post, k = pre ++ m :: post ∧ (∃ i, ms[i]? = some m ∧ i ∉ o'.order) ∧
            ∀ q ∈ pre, ∀ j, ms[j]? = some q → j ∈ o'.order := by
        intro k
        induction k with
        | nil => rintro ⟨m, hm, -⟩; simp at hm
        | cons x k ih =>
          intro hk
          by_cases hx : ∃ i, ms[i]? = some x ∧ i ∉ o'.order
          · exact ⟨[], x, k, rfl, hx, by simp⟩
          · obtain ⟨m, hm, hmi⟩ := hk
            rcases List.mem_cons.mp hm with rfl | hm
            · exact absurd hmi hx
            · obtain ⟨pre, m', post, rfl, h1, h2⟩ := ih ⟨m, hm, hmi⟩
              refine ⟨x :: pre, m', post, rfl, h1, fun q hq j hj => ?_⟩
              rcases List.mem_cons.mp hq with rfl | hq
              · by_contra hj'; exact hx ⟨j, hj, hj'⟩
              · exact h2 q hq j hj
      obtain ⟨pre, m, post, hsplit, ⟨i', hm', hi'⟩, hpre⟩ := hfirst l hex
      obtain ⟨d, hd, hnone⟩ := hst i' m hm' hi'
      obtain ⟨q, hq, he⟩ := hlo pre m post hsplit d hd
      have hqm : q ∈ ms := hl.mem_iff.mp (by rw [hsplit]; simp [hq])
      obtain ⟨j, hj, rfl⟩ := List.mem_iff_getElem.mp hqm
      have hj' := List.getElem?_eq_getElem hj
      have := (hI.names d j).mpr ⟨hpre _ hq j hj', _, hj', he⟩
      rw [hnone] at this; cases this

/-- **Looking for an order always ends**, with an order or with one of two errors: a name exported
twice, or dependencies that cannot be met.  The bound the model puts on the number of rounds is not
reached. -/
theorem C45_bound_not_reached (ms : List Module) :
    (∃ o, Assembler.findAssemblyOrder ms = .ok o) ∨
    Assembler.findAssemblyOrder ms = .err .duplicateExport ∨
    Assembler.findAssemblyOrder ms = .err .cyclic := by
  rcases orderLoop_cases (ms.length + 1) ⟨[], []⟩ (orderInv_init ms) (by simp) with
    ⟨o', ho, -, -⟩ | ho | ⟨ho, -⟩
  · exact .inl ⟨o', ho⟩
  · exact .inr (.inl ho)
  · exact .inr (.inr ho)

theorem linkable_perm {ms ms' : List Module} (h : ms.Perm ms') : Linkable ms → Linkable ms' := by
  rintro ⟨hu, l, hl, hlo⟩
  exact ⟨(h.pairwise_iff (fun hab id h1 h2 => hab id h2 h1)).mp hu, l, hl.trans h, hlo⟩

theorem loadAll_iff : ∀ {files : List (List Str)} {ms : List Module},
    Assembler.loadAll files = .ok ms ↔
      List.Forall₂ (fun f m => Module.loadAsmFile f = .ok m) files ms := by
  intro files
  induction files with
  | nil =>
    intro ms
    simp [Assembler.loadAll, eq_comm]
  | cons f fs ih =>
    intro ms
    rw [Assembler.loadAll, Res.bind_eq_ok]
    constructor
    · rintro ⟨m, hm, h⟩
      obtain ⟨ms0, h1, h⟩ := Res.bind_eq_ok.mp h
      cases h
      exact .cons hm (ih.mp h1)
    · intro h
      cases h with
      | cons h1 h2 =>
        refine ⟨_, h1, ?_⟩
        rw [ih.mpr h2]
        rfl

theorem loadAll_perm {files files' : List (List Str)} (hp : files.Perm files') :
    ∀ {ms : List Module}, Assembler.loadAll files = .ok ms →
      ∃ ms', Assembler.loadAll files' = .ok ms' ∧ ms.Perm ms' := by
  induction hp with
  | nil => intro ms h; exact ⟨ms, h, .refl _⟩
  | cons f _ ih =>
    intro ms h
    cases loadAll_iff.mp h with
    | cons h1 h2 =>
      obtain ⟨ms', h3, h4⟩ := ih (loadAll_iff.mpr h2)
      exact ⟨_, loadAll_iff.mpr (.cons h1 (loadAll_iff.mp h3)), h4.cons _⟩
  | swap f g fs =>
    intro ms h
    cases loadAll_iff.mp h with
    | cons h1 h2 =>
      cases h2 with
      | cons h2 h3 => exact ⟨_, loadAll_iff.mpr (.cons h2 (.cons h1 h3)), .swap _ _ _⟩
  | trans _ _ ih1 ih2 =>
    intro ms h
    obtain ⟨ms', h1, h2⟩ := ih1 h
    obtain ⟨ms'', h3, h4⟩ := ih2 h1
    exact ⟨ms'', h3, h2.trans h4⟩

/-- **The order of the files does not matter** for whether the files load and an assembly order is
found. -/
theorem C46_order_independent {files files' : List (List Str)} (hp : files.Perm files') :
    (∃ ms o, Assembler.loadAll files = .ok ms ∧ Assembler.findAssemblyOrder ms = .ok o) ↔
    (∃ ms o, Assembler.loadAll files' = .ok ms ∧ Assembler.findAssemblyOrder ms = .ok o) := by
  have key : ∀ {fs gs : List (List Str)}, fs.Perm gs →
      (∃ ms o, Assembler.loadAll fs = .ok ms ∧ Assembler.findAssemblyOrder ms = .ok o) →
      (∃ ms o, Assembler.loadAll gs = .ok ms ∧ Assembler.findAssemblyOrder ms = .ok o) := by
    rintro fs gs hp ⟨ms, o, h, ho⟩
    obtain ⟨ms', h', hm⟩ := loadAll_perm hp h
    obtain ⟨o', ho'⟩ := (C45_order_found_iff h').mpr
      (linkable_perm hm ((C45_order_found_iff h).mp ⟨o, ho⟩))
    exact ⟨ms', o', h', ho'⟩
  exact ⟨key hp, key hp.symm⟩

/-- Three files whose only order is the reverse of the one given. -/
example : ∃ ms o, Assembler.loadAll
      [[cs!".module c", cs!"three .equ b::two + 1"], [cs!".module b", cs!"two .equ d::one + 1"],
       [cs!".module d", cs!"one .equ 1"]] = .ok ms ∧
    Assembler.findAssemblyOrder ms = .ok o ∧ o.order = [2, 1, 0] := by
  refine ⟨_, _, rfl, rfl, ?_⟩
  decide +kernel

/-- Two files that depend on each other cannot be linked. -/
example : ∃ ms, Assembler.loadAll
      [[cs!".module c", cs!"three .equ b::two + 1"], [cs!".module b", cs!"two .equ c::three + 1"]]
        = .ok ms ∧ Assembler.findAssemblyOrder ms = .err .cyclic := by
  refine ⟨_, rfl, ?_⟩
  decide +kernel

/-! ## Looking up names of other modules -/

/-- While a module evaluates its names it asks the assembler only for names it does not export
itself.  (So it does not matter that the model shows the assembler's lookup the module as it was
before the pass.) -/
theorem lookup_not_self {ms : List Module} {o : Assembler.Ordering}
    (h : Assembler.findAssemblyOrder ms = .ok o) {i : Nat} {m : Module} (hm : ms[i]? = some m)
    (scopes : List Nat) (externs externs' : Ctx)
    (he : ∀ id, HMap.find o.exported id ≠ some i → externs id = externs' id) (m' : Module)
    (hn : m'.name = m.name) (hg : m'.globals = m.globals) :
    m'.lookup scopes externs = m'.lookup scopes externs' := by
  obtain ⟨-, -, -, -, hnames⟩ := C45_order_sound h
  have hglob : ∀ ss name, m'.localIndex name ss = none → m.globals.find name = none := by
    intro ss
    induction ss with
    | nil => intro name h; rw [Module.localIndex, hg] at h; exact h
    | cons s ss ih =>
      intro name h
      rw [Module.localIndex] at h
      split at h
      · cases h
      · exact ih name h
  have hself : ∀ id : FullId, id.module = some m.name → HMap.find o.exported id = some i →
      m.globals.find id.name ≠ none := by
    intro id _ hf
    obtain ⟨q, hq, -, t, ht⟩ := (hnames id i).mp hf
    rw [hm] at hq; cases hq
    intro hnone
    exact find_none.mp hnone t ht
  funext id
  unfold Module.lookup
  cases hmod : id.module with
  | some mod =>
    simp only
    split
    · next hmm =>
      cases hli : m'.localIndex id.name [] with
      | some t => rfl
      | none =>
        refine he id fun hf => hself id (by rw [hmod, hmm, hn]) hf (hglob [] _ hli)
    · next hmm =>
      refine he id fun hf => ?_
      obtain ⟨q, hq, hx, -⟩ := (hnames id i).mp hf
      rw [hm] at hq; cases hq
      rw [hmod] at hx; cases hx
      exact hmm hn.symm
  | none =>
    simp only
    cases hli : m'.localIndex id.name scopes with
    | some t => rfl
    | none =>
      refine he _ fun hf => ?_
      obtain ⟨q, hq, hx, t, ht⟩ := (hnames _ i).mp hf
      rw [hm] at hq; cases hq
      exact find_none.mp (hglob scopes _ hli) t ht

end Nsasm.Props
