import Verif.Lemmas.Builds
import Verif.Spec.Separate

/-!
# Assembling files together and apart
-/

namespace Nsasm.Props
open Nsasm Nsasm.Spec

/-! ## More files -/

theorem made_of_works {fuel : Nat} {E : Ctx} {m m₂ : Module} (h : after fuel E m = .ok m₂) :
    made fuel E m = (m₂.assemble E recorder []).1 := by
  unfold made; rw [h]

/-- With more modules, the ones before are given the same addresses and values. -/
theorem after_grows {fuel : Nat} {files : List (List Str)} {ms ms' : List Module} {E E' : Ctx}
    (hload : Assembler.loadAll files = .ok ms)
    (hB : Builds fuel ms E) (hB' : Builds fuel ms' E') (hsub : ∀ m ∈ ms, m ∈ ms') :
    ∀ m ∈ ms, ∀ m₂, after fuel E m = .ok m₂ → after fuel E' m = .ok m₂ := by
  obtain ⟨huniq, l, hl, hlo⟩ := hB.linkable
  have key : ∀ (n : Nat) (m : Module), l[n]? = some m → ∀ m₂, after fuel E m = .ok m₂ → after fuel E' m = .ok m₂ := by
    intro n
    induction n using Nat.strong_induction_on with
    | _ n ih =>
      intro m hm m₂ ha
      have hmem : m ∈ ms := hl.mem_iff.1 (List.mem_of_getElem? hm)
      obtain ⟨f, -, hf⟩ := loadAll_mem hload m hmem
      obtain ⟨m₁, h1, h2⟩ := after_parts ha
      refine Res.bind_eq_ok.mpr ⟨m₁, h1, secondPass_within ?_ (needs_first hf h1) h2⟩
      intro id hid v hv
      obtain ⟨hlt, hget⟩ := List.getElem?_eq_some_iff.mp hm
      have hsplit : l = l.take n ++ m :: l.drop (n + 1) := by
        rw [← hget, List.getElem_cons_drop, List.take_append_drop]
      obtain ⟨p, hp, hpx⟩ := hlo _ m _ hsplit id hid
      obtain ⟨q, hq, q₂, ha', hv'⟩ := (hB.offers id v).1 hv
      have hx' := (exports_congr (after_fields ha').1 (after_fields ha').2.1 id).1 (exports_of_value hv')
      have hpm : p ∈ ms := hl.mem_iff.1 (List.mem_of_mem_take hp)
      have : q = p := unique_exporter huniq hq hpm hx' hpx
      subst this
      obtain ⟨j, hj⟩ := List.mem_iff_getElem?.1 hp
      rw [List.getElem?_take] at hj
      split at hj
      · next hjn => exact (hB'.offers id v).2 ⟨q, hsub q hpm, q₂, ih j hjn q hj q₂ ha', hv'⟩
      · cases hj
  intro m hm
  obtain ⟨n, hn⟩ := List.mem_iff_getElem?.1 (hl.mem_iff.2 hm)
  exact key n m hn

theorem values_grow {fuel : Nat} {files : List (List Str)} {ms ms' : List Module} {E E' : Ctx}
    (hload : Assembler.loadAll files = .ok ms)
    (hB : Builds fuel ms E) (hB' : Builds fuel ms' E') (hsub : ∀ m ∈ ms, m ∈ ms') :
    ∀ id v, E id = .ok v → E' id = .ok v := by
  intro id v hv
  obtain ⟨m, hm, m₂, ha, hv⟩ := (hB.offers id v).1 hv
  exact (hB'.offers id v).2 ⟨m, hsub m hm, m₂, after_grows hload hB hB' hsub m hm m₂ ha, hv⟩

theorem made_grows {fuel : Nat} {files : List (List Str)} {ms ms' : List Module} {E E' : Ctx}
    (hload : Assembler.loadAll files = .ok ms)
    (hB : Builds fuel ms E) (hB' : Builds fuel ms' E') (hsub : ∀ m ∈ ms, m ∈ ms') :
    ∀ m ∈ ms, made fuel E' m = made fuel E m := by
  intro m hm
  obtain ⟨m₂, m₃, ha, hw⟩ := hB.works m hm
  rw [made_of_works (after_grows hload hB hB' hsub m hm m₂ ha),
    assemble_within (fun l _ e _ v hv =>
      eval_mono (lookup_mono m₂ l.scopes (values_grow hload hB hB' hsub)) e v hv) hw]

theorem loadAll_append {fs gs : List (List Str)} : ∀ {ms : List Module}, Assembler.loadAll (fs ++ gs) = .ok ms →
    ∃ ms₁ ms₂, ms = ms₁ ++ ms₂ ∧ Assembler.loadAll fs = .ok ms₁ ∧ Assembler.loadAll gs = .ok ms₂ := by
  intro ms h
  have h := loadAll_iff.mp h
  refine ⟨ms.take fs.length, ms.drop fs.length, (List.take_append_drop _ _).symm, loadAll_iff.mpr ?_, loadAll_iff.mpr ?_⟩
  · have := List.forall₂_take fs.length h
    rwa [List.take_left] at this
  · have := List.forall₂_drop fs.length h
    rwa [List.drop_left] at this

theorem append_loadAll {fs gs : List (List Str)} {ms₁ ms₂ : List Module} (h1 : Assembler.loadAll fs = .ok ms₁)
    (h2 : Assembler.loadAll gs = .ok ms₂) : Assembler.loadAll (fs ++ gs) = .ok (ms₁ ++ ms₂) :=
  loadAll_iff.mpr (List.rel_append (loadAll_iff.mp h1) (loadAll_iff.mp h2))

theorem fileExports_iff {files : List (List Str)} {ms : List Module} (h : Assembler.loadAll files = .ok ms) (id : FullId) :
    (∃ f ∈ files, FileExports f id) ↔ ∃ m ∈ ms, Exports m id := by
  constructor
  · rintro ⟨f, hf, m, hm, hx⟩
    obtain ⟨i, hi⟩ := List.mem_iff_getElem?.1 hf
    have hF := loadAll_iff.mp h
    have hlt := (List.getElem?_eq_some_iff.mp hi).1
    have hg := List.getElem?_eq_getElem (l := ms) (i := i) (by rw [← hF.length_eq]; exact hlt)
    obtain ⟨f', hf', hm'⟩ := forall2_getElem? hF hg
    rw [hi] at hf'; cases hf'
    rw [hm] at hm'; cases hm'
    exact ⟨_, List.mem_of_getElem? hg, hx⟩
  · rintro ⟨m, hm, hx⟩
    obtain ⟨f, hf, hm'⟩ := loadAll_mem h m hm
    exact ⟨f, hf, m, hm', hx⟩

/-- **Adding files changes nothing.**  If some files assemble, and also together with further files, then the writes
made for both together are those made for the former alone and further ones, and the exported names have the
values they have without the further files. -/
theorem C79_added {fuel : Nat} {fs gs : List (List Str)} {ws ws' : Writes} {a a' : Assembler}
    (h : Assembles fuel fs ws a) (h' : Assembles fuel (fs ++ gs) ws' a') :
    (∃ more, ws'.Perm (ws ++ more)) ∧
    ∀ externs externs', Publishes a.modules externs → Publishes a'.modules externs' →
      ∀ id v, externs id = .ok v → externs' id = .ok v := by
  obtain ⟨ms, hl, hB, hp⟩ := builds_of_assembles h
  obtain ⟨ms', hl', hB', hp'⟩ := builds_of_assembles h'
  obtain ⟨ms₁, ms₂, rfl, h1, h2⟩ := loadAll_append hl'
  rw [hl] at h1; cases h1
  have hsub : ∀ m ∈ ms, m ∈ ms ++ ms₂ := fun m hm => List.mem_append_left _ hm
  refine ⟨⟨ms₂.flatMap (made fuel (Assembler.lookup a'.modules a'.names)), ?_⟩, ?_⟩
  · rw [List.flatMap_append, List.flatMap_congr (made_grows hl hB hB' hsub)] at hp'
    exact hp'.trans (hp.symm.append_right _)
  · intro externs externs' he he' id v hv
    obtain ⟨o, wss, hA⟩ := assembled h
    obtain ⟨o', wss', hA'⟩ := assembled h'
    exact (he' id v).2 ((assembled_publishes hA' id v).1 (values_grow hl hB hB' hsub id v
      ((assembled_publishes hA id v).2 ((he id v).1 hv))))

/-- A file that needs nothing. -/
def libFile : List Str := [cs!" .module lib", cs!"size .equ 3", cs!" .org $8000", cs!"init .entry m8x8", cs!" rts"]

/-- A file that needs the other. -/
def userFile : List Str :=
  [cs!" .module user", cs!"twice .equ lib::size * 2", cs!" .org $8100", cs!" .entry m8x8", cs!" lda #twice",
    cs!" jsr lib::init", cs!" rts"]

/-- A file that neither needs the others nor is needed by them. -/
def dataFile : List Str := [cs!" .module data", cs!" .org $8200", cs!"table .db 1, 2"]

theorem assembles_lib : ∃ a, Assembles 30 [libFile] [(0x8000, [0x60])] a := by
  obtain ⟨ws, a, h, hc⟩ := assembles_of_check (fuel := 30) (files := [libFile])
    (fun ws _ => decide (ws = [(0x8000, [0x60])])) (by decide +kernel)
  exact ⟨a, of_decide_eq_true hc ▸ h⟩

/-- The file alone, and with one that uses its names: the write for the former is among those for both. -/
example : (∃ a, Assembles 30 [libFile] [(0x8000, [0x60])] a) ∧
    ∃ a, Assembles 30 ([libFile] ++ [userFile])
      [(0x8000, [0x60]), (0x8100, [0xa9, 6]), (0x8102, [0x20, 0, 0x80]), (0x8105, [0x60])] a := by
  refine ⟨assembles_lib, ?_⟩
  obtain ⟨ws, a, h, hc⟩ := assembles_of_check (fuel := 30) (files := [libFile] ++ [userFile])
    (fun ws _ => decide (ws = [(0x8000, [0x60]), (0x8100, [0xa9, 6]), (0x8102, [0x20, 0, 0x80]), (0x8105, [0x60])]))
    (by decide +kernel)
  exact ⟨a, of_decide_eq_true hc ▸ h⟩

/-! ## Putting files together -/

theorem linkable_append {ms₁ ms₂ : List Module} (h1 : Linkable ms₁) (h2 : Linkable ms₂)
    (hd : ∀ m ∈ ms₁, ∀ q ∈ ms₂, ∀ id, Exports m id → ¬ Exports q id) : Linkable (ms₁ ++ ms₂) := by
  obtain ⟨u1, l1, p1, o1⟩ := h1
  obtain ⟨u2, l2, p2, o2⟩ := h2
  refine ⟨List.pairwise_append.2 ⟨u1, u2, hd⟩, l1 ++ l2, p1.append p2, ?_⟩
  intro pre m post he id hid
  rcases List.append_eq_append_iff.1 he with ⟨s, rfl, h⟩ | ⟨s, h, h'⟩
  · obtain ⟨q, hq, hx⟩ := o2 s m post h id hid
    exact ⟨q, List.mem_append_right _ hq, hx⟩
  · cases s with
    | nil =>
      rw [List.nil_append] at h'
      obtain ⟨q, hq, -⟩ := o2 [] m post h'.symm id hid
      cases hq
    | cons m' s =>
      simp only [List.cons_append, List.cons.injEq] at h'
      obtain ⟨rfl, -⟩ := h'
      exact o1 pre m s h id hid

theorem builds_append {fuel : Nat} {fs gs : List (List Str)} {ms₁ ms₂ : List Module} {E₁ E₂ : Ctx}
    (hl1 : Assembler.loadAll fs = .ok ms₁) (hl2 : Assembler.loadAll gs = .ok ms₂)
    (h1 : Builds fuel ms₁ E₁) (h2 : Builds fuel ms₂ E₂)
    (hd : ∀ m ∈ ms₁, ∀ q ∈ ms₂, ∀ id, Exports m id → ¬ Exports q id)
    (hdis : ∀ x ∈ allFilled (ms₁.flatMap (made fuel E₁)), x ∉ allFilled (ms₂.flatMap (made fuel E₂))) :
    ∃ E, Builds fuel (ms₁ ++ ms₂) E := by
  have hx1 : ∀ id v, E₁ id = .ok v → ∃ m ∈ ms₁, Exports m id := by
    intro id v hv
    obtain ⟨m, hm, m₂, ha, hv⟩ := (h1.offers id v).1 hv
    exact ⟨m, hm, (exports_congr (after_fields ha).1 (after_fields ha).2.1 id).1 (exports_of_value hv)⟩
  have hx2 : ∀ id v, E₂ id = .ok v → ∃ m ∈ ms₂, Exports m id := by
    intro id v hv
    obtain ⟨m, hm, m₂, ha, hv⟩ := (h2.offers id v).1 hv
    exact ⟨m, hm, (exports_congr (after_fields ha).1 (after_fields ha).2.1 id).1 (exports_of_value hv)⟩
  let E : Ctx := fun id => match E₁ id with
    | .ok v => .ok v
    | .error _ => E₂ id
  have e1 : ∀ id v, E₁ id = .ok v → E id = .ok v := by
    intro id v hv
    show (match E₁ id with | .ok v => Except.ok v | .error _ => E₂ id) = _
    rw [hv]
  have e2 : ∀ id v, E₂ id = .ok v → E id = .ok v := by
    intro id v hv
    show (match E₁ id with | .ok v => Except.ok v | .error _ => E₂ id) = _
    cases h : E₁ id with
    | error _ => exact hv
    | ok w =>
      obtain ⟨m, hm, hmx⟩ := hx1 id w h
      obtain ⟨q, hq, hqx⟩ := hx2 id v hv
      exact absurd hqx (hd m hm q hq id hmx)
  have e3 : ∀ id v, E id = .ok v → E₁ id = .ok v ∨ E₂ id = .ok v := by
    intro id v hv
    change (match E₁ id with | .ok v => Except.ok v | .error _ => E₂ id) = _ at hv
    cases h : E₁ id with
    | error _ => rw [h] at hv; exact .inr hv
    | ok w => rw [h] at hv; exact .inl hv
  have wider : ∀ {E₀ : Ctx} {files : List (List Str)} {ms : List Module}, Assembler.loadAll files = .ok ms →
      (∀ id v, E₀ id = .ok v → E id = .ok v) → ∀ m ∈ ms, ∀ m₂, after fuel E₀ m = .ok m₂ → after fuel E m = .ok m₂ := by
    intro E₀ files ms hl he m hm m₂ ha
    obtain ⟨f, -, hf⟩ := loadAll_mem hl m hm
    obtain ⟨m₁, k1, k2⟩ := after_parts ha
    exact Res.bind_eq_ok.mpr ⟨m₁, k1, secondPass_within (fun id _ v hv => he id v hv) (needs_first hf k1) k2⟩
  have wworks : ∀ {E₀ : Ctx} {files : List (List Str)} {ms : List Module}, Assembler.loadAll files = .ok ms →
      Builds fuel ms E₀ → (∀ id v, E₀ id = .ok v → E id = .ok v) → ∀ m ∈ ms, made fuel E m = made fuel E₀ m ∧
        ∃ m₂ m₃, after fuel E m = .ok m₂ ∧ m₂.assemble E recorder [] = (made fuel E m, .ok m₃) := by
    intro E₀ files ms hl hB he m hm
    obtain ⟨m₂, m₃, ha, hw⟩ := hB.works m hm
    have ha' := wider hl he m hm m₂ ha
    have hw' := assemble_within (fun l _ e _ v hv => eval_mono (lookup_mono m₂ l.scopes he) e v hv) hw
    have hmd : made fuel E m = made fuel E₀ m := by rw [made_of_works ha', hw']
    exact ⟨hmd, m₂, m₃, ha', by rw [hmd]; exact hw'⟩
  refine ⟨E, linkable_append h1.linkable h2.linkable hd, ?_, ?_, ?_⟩
  · intro id v
    constructor
    · intro hv
      rcases e3 id v hv with hv | hv
      · obtain ⟨m, hm, m₂, ha, hv⟩ := (h1.offers id v).1 hv
        exact ⟨m, List.mem_append_left _ hm, m₂, wider hl1 e1 m hm m₂ ha, hv⟩
      · obtain ⟨m, hm, m₂, ha, hv⟩ := (h2.offers id v).1 hv
        exact ⟨m, List.mem_append_right _ hm, m₂, wider hl2 e2 m hm m₂ ha, hv⟩
    · rintro ⟨m, hm, m₂, ha, hv⟩
      rcases List.mem_append.1 hm with hm | hm
      · obtain ⟨q, -, ha', -⟩ := h1.works m hm
        have := wider hl1 e1 m hm q ha'
        rw [ha] at this; cases this
        exact e1 id v ((h1.offers id v).2 ⟨m, hm, m₂, ha', hv⟩)
      · obtain ⟨q, -, ha', -⟩ := h2.works m hm
        have := wider hl2 e2 m hm q ha'
        rw [ha] at this; cases this
        exact e2 id v ((h2.offers id v).2 ⟨m, hm, m₂, ha', hv⟩)
  · intro m hm
    rcases List.mem_append.1 hm with hm | hm
    · exact (wworks hl1 h1 e1 m hm).2
    · exact (wworks hl2 h2 e2 m hm).2
  · rw [List.flatMap_append, List.flatMap_congr (fun m hm => (wworks hl1 h1 e1 m hm).1),
      List.flatMap_congr (fun m hm => (wworks hl2 h2 e2 m hm).1), allFilled_append]
    exact List.nodup_append.2 ⟨h1.apart, h2.apart, fun x hx y hy he => hdis x hx (he ▸ hy)⟩

/-- **Two programs can be put together** exactly if no name is exported by both and no address is written by both,
and what is written for both together is what is written for each of them. -/
theorem C79_combined {fuel : Nat} {fs gs : List (List Str)} {ws₁ ws₂ : Writes} {a₁ a₂ : Assembler}
    (h1 : Assembles fuel fs ws₁ a₁) (h2 : Assembles fuel gs ws₂ a₂) :
    ((∃ ws a, Assembles fuel (fs ++ gs) ws a) ↔
      (∀ f ∈ fs, ∀ g ∈ gs, ∀ id, FileExports f id → ¬ FileExports g id) ∧
      ∀ x ∈ allFilled ws₁, x ∉ allFilled ws₂) ∧
    ∀ ws a, Assembles fuel (fs ++ gs) ws a → ws.Perm (ws₁ ++ ws₂) := by
  obtain ⟨ms₁, hl1, hB1, hp1⟩ := builds_of_assembles h1
  obtain ⟨ms₂, hl2, hB2, hp2⟩ := builds_of_assembles h2
  have hboth : ∀ ws a, Assembles fuel (fs ++ gs) ws a → ws.Perm (ws₁ ++ ws₂) := by
    intro ws a h
    obtain ⟨ms, hl, hB, hp⟩ := builds_of_assembles h
    rw [append_loadAll hl1 hl2] at hl; cases hl
    rw [List.flatMap_append, List.flatMap_congr (made_grows hl1 hB1 hB fun m hm => List.mem_append_left _ hm),
      List.flatMap_congr (made_grows hl2 hB2 hB fun m hm => List.mem_append_right _ hm)] at hp
    exact hp.trans (hp1.symm.append hp2.symm)
  refine ⟨⟨?_, ?_⟩, hboth⟩
  · rintro ⟨ws, a, h⟩
    constructor
    · intro f hf g hg id hx hy
      obtain ⟨ms, hl, hB, -⟩ := builds_of_assembles h
      rw [append_loadAll hl1 hl2] at hl; cases hl
      obtain ⟨m, hm, hmx⟩ := (fileExports_iff hl1 id).1 ⟨f, hf, hx⟩
      obtain ⟨q, hq, hqx⟩ := (fileExports_iff hl2 id).1 ⟨g, hg, hy⟩
      exact (List.pairwise_append.1 hB.linkable.1).2.2 m hm q hq id hmx hqx
    · intro x hx hy
      obtain ⟨vs, hf, hn, -⟩ := C44_written_once h
      have hvs := feeds_recorder_eq hf
      rw [List.nil_append] at hvs
      subst hvs
      have := ((hboth _ _ h).flatMap_right filled).nodup_iff.1 hn
      rw [List.flatMap_append] at this
      exact (List.nodup_append.1 this).2.2 x hx x hy rfl
  · rintro ⟨hd, hdis⟩
    obtain ⟨E, hB⟩ := builds_append hl1 hl2 hB1 hB2
      (fun m hm q hq id hx hy => by
        obtain ⟨f, hf, hfx⟩ := (fileExports_iff hl1 id).2 ⟨m, hm, hx⟩
        obtain ⟨g, hg, hgx⟩ := (fileExports_iff hl2 id).2 ⟨q, hq, hy⟩
        exact hd f hf g hg id hfx hgx)
      (fun x hx hy => hdis x ((hp1.flatMap_right filled).mem_iff.2 hx) ((hp2.flatMap_right filled).mem_iff.2 hy))
    obtain ⟨ws, a, h, -⟩ := assembles_of_builds (append_loadAll hl1 hl2) hB
    exact ⟨ws, a, h⟩

theorem assembles_data : ∃ a, Assembles 30 [dataFile] [(0x8200, [1, 2])] a := by
  obtain ⟨ws, a, h, hc⟩ := assembles_of_check (fuel := 30) (files := [dataFile])
    (fun ws _ => decide (ws = [(0x8200, [1, 2])])) (by decide +kernel)
  exact ⟨a, of_decide_eq_true hc ▸ h⟩

/-- The names the file exports, as the model has them. -/
theorem exports_listed {file : List Str} {m : Module} (hf : Module.loadAsmFile file = .ok m) {id : FullId}
    (h : FileExports file id) : id ∈ m.globals.map fun e => ⟨some m.name, e.1⟩ := by
  obtain ⟨m', hm', hx, t, ht⟩ := h
  rw [hf] at hm'; cases hm'
  exact List.mem_map.2 ⟨_, ht, by rw [← hx]⟩

theorem exports_of_check {file : List Str} (P : FullId → Bool)
    (h : (match Module.loadAsmFile file with
      | .ok m => m.globals.all fun e => P ⟨some m.name, e.1⟩
      | _ => false) = true) {id : FullId} (hx : FileExports file id) : P id = true := by
  split at h
  · next m hm =>
    obtain ⟨e, he, rfl⟩ := List.mem_map.1 (exports_listed hm hx)
    exact List.all_eq_true.1 h e he
  · cases h

/-- The two files can be put together. -/
example : (∀ f ∈ [libFile], ∀ g ∈ [dataFile], ∀ id, FileExports f id → ¬ FileExports g id) ∧
    ∀ x ∈ allFilled [(0x8000, [0x60])], x ∉ allFilled [(0x8200, [1, 2])] := by
  refine ⟨?_, by decide +kernel⟩
  intro f hf g hg id h1 h2
  cases List.mem_singleton.1 hf
  cases List.mem_singleton.1 hg
  have e1 := exports_of_check (fun id => decide (id.module = some cs!"lib")) (by decide +kernel) h1
  have e2 := exports_of_check (fun id => decide (id.module = some cs!"data")) (by decide +kernel) h2
  have e1 := of_decide_eq_true e1
  have e2 := of_decide_eq_true e2
  rw [e1] at e2
  exact absurd e2 (by decide +kernel)

/-! ## The order of the files -/

/-- **The order of the files** matters neither for success nor for what is written where. -/
theorem C79_permuted {fuel : Nat} {fs gs : List (List Str)} {ws : Writes} {a : Assembler} (hp : fs.Perm gs)
    (h : Assembles fuel fs ws a) : ∃ ws' a', Assembles fuel gs ws' a' ∧ ws.Perm ws' := by
  obtain ⟨ms, hl, hB, hw⟩ := builds_of_assembles h
  obtain ⟨ms', hl', hpm⟩ := loadAll_perm hp hl
  have hB' : Builds fuel ms' (Assembler.lookup a.modules a.names) :=
    ⟨linkable_perm hpm hB.linkable,
     fun id v => (hB.offers id v).trans ⟨fun ⟨m, hm, r⟩ => ⟨m, hpm.mem_iff.1 hm, r⟩, fun ⟨m, hm, r⟩ => ⟨m, hpm.mem_iff.2 hm, r⟩⟩,
     fun m hm => hB.works m (hpm.mem_iff.2 hm),
     ((hpm.flatMap_right _).flatMap_right filled).nodup_iff.1 hB.apart⟩
  obtain ⟨ws', a', h', hw'⟩ := assembles_of_builds hl' hB'
  exact ⟨ws', a', h', hw.trans ((hpm.flatMap_right _).trans hw'.symm)⟩

/-- The file that needs the other may come first. -/
example : ∃ a, Assembles 30 [userFile, libFile]
      [(0x8000, [0x60]), (0x8100, [0xa9, 6]), (0x8102, [0x20, 0, 0x80]), (0x8105, [0x60])] a := by
  obtain ⟨ws, a, h, hc⟩ := assembles_of_check (fuel := 30) (files := [userFile, libFile])
    (fun ws _ => decide (ws = [(0x8000, [0x60]), (0x8100, [0xa9, 6]), (0x8102, [0x20, 0, 0x80]), (0x8105, [0x60])]))
    (by decide +kernel)
  exact ⟨a, of_decide_eq_true hc ▸ h⟩

/-! ## Leaving files out -/

theorem isLocal_foreign {items : List Item} {m : Module} (h2 : LoadInv (program [] items) m) {i : Nat}
    (hi : i < (program [] items).length) (x : FullId) :
    m.isLocal (openAt (program [] items) i) x = false ↔ Foreign (program [] items) m.name i x := by
  have none_iff : ∀ (o : Option Nat) {p : Nat → Prop}, (∀ t, o = some t ↔ p t) →
      (o.isSome = false ↔ ∀ t, ¬ p t) := by
    intro o p hp
    cases o with
    | none => simp only [reduceCtorEq, false_iff] at hp; simp [hp]
    | some t => simp only [Option.isSome_some, Bool.true_eq_false, false_iff]; exact fun h => h t ((hp t).mp rfl)
  obtain ⟨mod, n⟩ := x
  cases mod with
  | none => exact none_iff _ fun t => localIndex_resolves h2 n t i (by omega)
  | some mod =>
    unfold Module.isLocal Foreign
    simp only
    by_cases hm : mod = m.name
    · subst hm
      simp only [ne_eq, not_true_eq_false, if_false, false_or]
      exact none_iff _ fun t => by
        rw [Module.localIndex, h2.globals, find_tableOf h2.nodup]
    · simp [hm]

theorem operands_eq (st : Statement) : operands st = statementExprs st := by cases st <;> rfl

theorem firstPass_exprs {fuel : Nat} {m m' : Module} (h : m.runFirstPass fuel = .ok m') {k : Nat} {l : Line}
    (hl : m'.lines[k]? = some l) : ∃ l₀, m.lines[k]? = some l₀ ∧ l.scopes = l₀.scopes ∧
      statementExprs l.statement = statementExprs l₀.statement := by
  obtain ⟨p, l1, l2, he, hfix, hlay, rfl⟩ := firstPass_parts h
  have hS : SameLines m p := explored_same he
  obtain ⟨b, hb, hlr⟩ := forall2_getElem? (layout_rel hlay) hl
  obtain ⟨c, hc, hfr⟩ := forall2_getElem? (fixLines_rel hfix) hb
  obtain ⟨l₀, h0, hbare⟩ := getElem?_bare hS hc
  obtain ⟨e1, e2, e3, e4, e5⟩ := bare_fields hbare
  refine ⟨l₀, h0, ?_⟩
  unfold FixRel at hfr
  split at hfr
  · next d hd =>
    subst hfr
    exact ⟨by rw [hlr, ← e4], by rw [hlr, ← e1]⟩
  · next i hi =>
    obtain ⟨-, j, hj, hb⟩ := hfr
    refine ⟨by rw [hlr, hb, ← e4], ?_⟩
    rw [hlr, hb, ← e1, hi]
    simp only [statementExprs]
    unfold Instruction.fixAddressingMode at hj
    split at hj
    · split at hj
      · cases hj; rfl
      · cases hj; rfl
      · cases hj
    · cases hj; rfl

theorem after_exprs {file : List Str} {fuel : Nat} {E : Ctx} {m m₂ : Module} (hf : Module.loadAsmFile file = .ok m)
    (h : after fuel E m = .ok m₂) {k : Nat} {l : Line} (hl : m₂.lines[k]? = some l) :
    ∃ l₀, m.lines[k]? = some l₀ ∧ l.scopes = l₀.scopes ∧ statementExprs l.statement = statementExprs l₀.statement := by
  obtain ⟨m₁, h1, h2⟩ := after_parts h
  obtain ⟨hmore, -, -⟩ := secondLoop_spec _ 0 m₁ m₂ h2 (fun j l d _ => unvalued_first hf h1 j l d)
  obtain ⟨l₁, hl1, hv⟩ := getElem?_valueless hmore.lines.symm hl
  obtain ⟨l₀, h0, e1, e2⟩ := firstPass_exprs h1 hl1
  have hv := hv
  simp only [valueless, Line.mk.injEq] at hv
  exact ⟨l₀, h0, by rw [← e1]; simp [hv], by rw [← e2]; simp [hv]⟩

/-- What a line of a loaded module takes from elsewhere, the file refers to. -/
theorem wants_refers {file : List Str} {m : Module} (hf : Module.loadAsmFile file = .ok m) {k : Nat} {l : Line}
    (hl : m.lines[k]? = some l) {e : Expr} (he : e ∈ statementExprs l.statement) {id : FullId} (hw : Wants m l e id) :
    FileRefers file id := by
  obtain ⟨items, hF, hI, -, -⟩ := loadAsmFile_ok hf
  obtain ⟨⟨pl, hpl, hst⟩, hsc, -⟩ := hI.line k l hl
  obtain ⟨x, hu, hloc, rfl⟩ := hw
  rw [hsc] at hloc
  exact ⟨m, items, hf, hF, k, pl, hpl, e, by rw [operands_eq, ← hst]; exact he, x, hu,
    (isLocal_foreign hI (List.getElem?_eq_some_iff.mp hpl).1 x).1 hloc, rfl⟩

/-- The names a file refers to, as the model has them. -/
theorem refers_listed {file : List Str} {m : Module} (hf : Module.loadAsmFile file = .ok m) {id : FullId}
    (h : FileRefers file id) : id ∈ m.lines.flatMap fun l =>
      (statementExprs l.statement).flatMap fun e => e.externalNames (m.isLocal l.scopes) := by
  obtain ⟨m', items, hm', hF, k, pl, hpl, e, he, x, hu, hfo, rfl⟩ := h
  rw [hf] at hm'; cases hm'
  obtain ⟨items', hF', hI, -, -⟩ := loadAsmFile_ok hf
  rw [fileItems_unique hF hF'] at hpl hfo
  have hk : k < m.lines.length := by rw [hI.length]; exact (List.getElem?_eq_some_iff.mp hpl).1
  obtain ⟨⟨pl', hpl', hst⟩, hsc, -⟩ := hI.line k _ (List.getElem?_eq_getElem hk)
  rw [hpl] at hpl'; cases hpl'
  refine List.mem_flatMap.2 ⟨_, List.getElem_mem hk, List.mem_flatMap.2 ⟨e, ?_, mem_externalNames.2 ⟨x, hu, ?_, rfl⟩⟩⟩
  · rw [hst, ← operands_eq]; exact he
  · rw [hsc]; exact (isLocal_foreign hI (List.getElem?_eq_some_iff.mp hpl).1 x).2 hfo

theorem linkable_part {ms₁ ms₂ : List Module} (h : Linkable (ms₁ ++ ms₂))
    (hd : ∀ m ∈ ms₁, ∀ id ∈ m.deps, ∀ q ∈ ms₂, ¬ Exports q id) : Linkable ms₁ := by
  obtain ⟨hu, l, hl, hlo⟩ := h
  have hul : UniqueExports l := (hl.symm.pairwise_iff (fun hab id h1 h2 => hab id h2 h1)).mp hu
  have hsp : ms₁.Subperm l :=
    List.Subperm.trans (List.sublist_append_left ms₁ ms₂).subperm hl.symm.subperm
  obtain ⟨l', hp, hs⟩ := hsp
  refine ⟨(List.pairwise_append.1 hu).1, l', hp, ?_⟩
  intro pre m post he id hid
  subst he
  obtain ⟨r₁, r₂, rfl, hs1, hs2⟩ := List.append_sublist_iff.1 hs
  obtain ⟨t₁, t₂, rfl, hm, hs3⟩ := List.cons_sublist_iff.1 hs2
  obtain ⟨u, v, rfl⟩ := List.append_of_mem hm
  obtain ⟨q, hq, hx⟩ := hlo (r₁ ++ u) m (v ++ t₂) (by simp) id hid
  have hqm : q ∈ pre ++ m :: post := by
    have : q ∈ ms₁ ++ ms₂ := hl.mem_iff.1 (by
      rcases List.mem_append.1 hq with h | h <;> simp [h])
    rcases List.mem_append.1 this with h | h
    · exact hp.mem_iff.2 h
    · exact absurd hx (hd m (hp.mem_iff.1 (by simp)) id hid q h)
  have hul' : UniqueExports ((r₁ ++ u) ++ (m :: (v ++ t₂))) := by simpa using hul
  rcases List.mem_append.1 hqm with h | h
  · exact ⟨q, h, hx⟩
  · refine absurd hx ((List.pairwise_append.1 hul').2.2 q hq q ?_ id hx)
    rcases List.mem_cons.1 h with rfl | h
    · simp
    · simp [hs3.subset h]

/-- **Files nothing refers to can be left out.**  If files assemble, and some of them refer to no name the others
export, then those assemble without the others. -/
theorem C79_removed {fuel : Nat} {fs gs : List (List Str)} {ws : Writes} {a : Assembler}
    (h : Assembles fuel (fs ++ gs) ws a)
    (hr : ∀ f ∈ fs, ∀ g ∈ gs, ∀ id, FileRefers f id → ¬ FileExports g id) :
    ∃ ws₁ a₁, Assembles fuel fs ws₁ a₁ := by
  obtain ⟨ms, hl, hB, -⟩ := builds_of_assembles h
  obtain ⟨ms₁, ms₂, rfl, hl1, hl2⟩ := loadAll_append hl
  set E := Assembler.lookup a.modules a.names with hE
  classical
  let E₁ : Ctx := fun id => if ∃ m ∈ ms₁, Exports m id then E id else .error .undefinedName
  have e1 : ∀ {id v}, E₁ id = .ok v ↔ (∃ m ∈ ms₁, Exports m id) ∧ E id = .ok v := by
    intro id v
    show (if ∃ m ∈ ms₁, Exports m id then E id else .error .undefinedName) = _ ↔ _
    split
    · next hc => exact ⟨fun h => ⟨hc, h⟩, fun h => h.2⟩
    · next hc => exact ⟨(fun h => by cases h), fun h => absurd h.1 hc⟩
  -- a name referred to is one of the files that are left
  have own : ∀ m ∈ ms₁, ∀ f, f ∈ fs → Module.loadAsmFile f = .ok m → ∀ id v, FileRefers f id → E id = .ok v →
      E₁ id = .ok v := by
    intro m hm f hf _ id v hrf hv
    refine e1.2 ⟨?_, hv⟩
    obtain ⟨q, hq, q₂, ha, hv⟩ := (hB.offers id v).1 hv
    have hx := (exports_congr (after_fields ha).1 (after_fields ha).2.1 id).1 (exports_of_value hv)
    rcases List.mem_append.1 hq with hq | hq
    · exact ⟨q, hq, hx⟩
    · obtain ⟨g, hg, hgx⟩ := (fileExports_iff hl2 id).2 ⟨q, hq, hx⟩
      exact absurd hgx (hr f hf g hg id hrf)
  have deps : ∀ m f, Module.loadAsmFile f = .ok m → ∀ id ∈ m.deps, FileRefers f id := by
    intro m f hf id hid
    obtain ⟨items, hF, hN⟩ := C45_dependencies hf
    obtain ⟨i, line, d, hp, hs, hq, x, hx, hfo, rfl⟩ := (hN id).1 hid
    exact ⟨m, items, hf, hF, i, line, hp, d.argument, by rw [hs]; simp [operands, hq], x, hx, hfo, rfl⟩
  have step : ∀ m ∈ ms₁, ∀ m₂, after fuel E m = .ok m₂ → after fuel E₁ m = .ok m₂ := by
    intro m hm m₂ ha
    obtain ⟨f, hff, hf⟩ := loadAll_mem hl1 m hm
    obtain ⟨m₁, k1, k2⟩ := after_parts ha
    exact Res.bind_eq_ok.mpr ⟨m₁, k1, secondPass_within
      (fun id hid v hv => own m hm f hff hf id v (deps m f hf id hid) hv) (needs_first hf k1) k2⟩
  have works : ∀ m ∈ ms₁, made fuel E₁ m = made fuel E m ∧
      ∃ m₂ m₃, after fuel E₁ m = .ok m₂ ∧ m₂.assemble E₁ recorder [] = (made fuel E₁ m, .ok m₃) := by
    intro m hm
    obtain ⟨f, hff, hf⟩ := loadAll_mem hl1 m hm
    obtain ⟨m₂, m₃, ha, hw⟩ := hB.works m (List.mem_append_left _ hm)
    have ha' := step m hm m₂ ha
    obtain ⟨m₁, k1, k2⟩ := after_parts ha
    obtain ⟨hmore, -, -⟩ := secondLoop_spec _ 0 m₁ m₂ k2 (fun j l d _ => unvalued_first hf k1 j l d)
    have hw' : m₂.assemble E₁ recorder [] = (made fuel E m, .ok m₃) := by
      refine assemble_within (fun l hlm e he v hv => ?_) hw
      obtain ⟨k, hk⟩ := List.mem_iff_getElem?.1 hlm
      obtain ⟨l₀, h0, e1, e2⟩ := after_exprs hf ha hk
      rw [e2] at he
      refine line_eval (loaded_source hf l₀ (List.mem_of_getElem? h0) e he) ?_ hv
      rintro id ⟨x, hu, hloc, rfl⟩ w hw
      refine own m hm f hff hf _ w (wants_refers hf h0 he ⟨x, hu, ?_, rfl⟩) hw
      rw [← e1, ← isLocal_same (m := m) (m' := m₂) (after_fields ha).1]
      · exact hloc
      · intro name scopes
        rw [hmore.localIndex, firstPass_localIndex k1]
    have hmd : made fuel E₁ m = made fuel E m := by rw [made_of_works ha', hw']
    exact ⟨hmd, m₂, m₃, ha', by rw [hmd]; exact hw'⟩
  have hB1 : Builds fuel ms₁ E₁ := by
    refine ⟨linkable_part hB.linkable ?_, ?_, fun m hm => (works m hm).2, ?_⟩
    · intro m hm id hid q hq hx
      obtain ⟨f, hff, hf⟩ := loadAll_mem hl1 m hm
      obtain ⟨g, hg, hgx⟩ := (fileExports_iff hl2 id).2 ⟨q, hq, hx⟩
      exact hr f hff g hg id (deps m f hf id hid) hgx
    · intro id v
      rw [e1]
      constructor
      · rintro ⟨⟨m, hm, hx⟩, hv⟩
        obtain ⟨q, hq, q₂, ha, hv⟩ := (hB.offers id v).1 hv
        have hqx := (exports_congr (after_fields ha).1 (after_fields ha).2.1 id).1 (exports_of_value hv)
        have : q = m := unique_exporter hB.linkable.1 hq (List.mem_append_left _ hm) hqx hx
        subst this
        exact ⟨q, hm, q₂, step q hm q₂ ha, hv⟩
      · rintro ⟨m, hm, m₂, ha, hv⟩
        have hx := (exports_congr (after_fields ha).1 (after_fields ha).2.1 id).1 (exports_of_value hv)
        obtain ⟨q, -, ha', -⟩ := hB.works m (List.mem_append_left _ hm)
        have := step m hm q ha'
        rw [ha] at this; cases this
        exact ⟨⟨m, hm, hx⟩, (hB.offers id v).2 ⟨m, List.mem_append_left _ hm, m₂, ha', hv⟩⟩
    · rw [List.flatMap_congr (fun m hm => (works m hm).1)]
      have := hB.apart
      rw [List.flatMap_append, allFilled_append] at this
      exact (List.nodup_append.1 this).1
  obtain ⟨ws₁, a₁, h1, -⟩ := assembles_of_builds hl1 hB1
  exact ⟨ws₁, a₁, h1⟩

theorem refers_of_check {file : List Str} (P : FullId → Bool)
    (h : (match Module.loadAsmFile file with
      | .ok m => m.lines.all fun l => (statementExprs l.statement).all fun e =>
          (e.externalNames (m.isLocal l.scopes)).all P
      | _ => false) = true) {id : FullId} (hx : FileRefers file id) : P id = true := by
  split at h
  · next m hm =>
    obtain ⟨l, hl, he⟩ := List.mem_flatMap.1 (refers_listed hm hx)
    obtain ⟨e, he, hid⟩ := List.mem_flatMap.1 he
    exact List.all_eq_true.1 (List.all_eq_true.1 (List.all_eq_true.1 h l hl) e he) id hid
  · cases h

/-- Two files of three, one of which refers to the other, and neither to the third. -/
example : (∃ ws a, Assembles 30 ([userFile, libFile] ++ [dataFile]) ws a) ∧
    (FileRefers userFile ⟨some cs!"lib", cs!"init"⟩) ∧
    ∀ f ∈ [userFile, libFile], ∀ g ∈ [dataFile], ∀ id, FileRefers f id → ¬ FileExports g id := by
  refine ⟨?_, ?_, ?_⟩
  · obtain ⟨ws, a, h, -⟩ := assembles_of_check (fuel := 30) (files := [userFile, libFile] ++ [dataFile])
      (fun _ _ => true) (by decide +kernel)
    exact ⟨ws, a, h⟩
  · obtain ⟨m, hm⟩ : ∃ m, Module.loadAsmFile userFile = .ok m := ⟨_, rfl⟩
    cases hm
    exact wants_refers rfl (k := 5) rfl (List.mem_cons_self ..) ⟨_, .name _, by decide +kernel, rfl⟩
  · intro f hf g hg id h1 h2
    cases List.mem_singleton.1 hg
    have e2 := of_decide_eq_true
      (exports_of_check (fun id => decide (id.module = some cs!"data")) (by decide +kernel) h2)
    have e1 : id.module = some cs!"lib" := by
      rcases List.mem_cons.1 hf with rfl | hf
      · exact of_decide_eq_true
          (refers_of_check (fun id => decide (id.module = some cs!"lib")) (by decide +kernel) h1)
      · cases List.mem_singleton.1 hf
        exact of_decide_eq_true
          (refers_of_check (fun id => decide (id.module = some cs!"lib")) (by decide +kernel) h1)
    rw [e1] at e2
    exact absurd e2 (by decide +kernel)

end Nsasm.Props
