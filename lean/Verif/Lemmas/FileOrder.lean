import Verif.Props.Join
import Verif.Props.Answers
import Verif.Lemmas.Exact
import Mathlib.Data.List.Perm.Basic
import Mathlib.Data.List.Forall2

/-! # Lemmas: the modules an assembly ends with, and the order of the files -/

namespace Nsasm
open Spec Props

/-! ## The modules an assembly ends with -/

/-- The module that a file becomes, when `E` gives the values of names of other modules. -/
def Becomes (fuel : Nat) (E : Ctx) (m m₃ : Module) : Prop :=
  ∃ m₂ w, after fuel E m = .ok m₂ ∧ m₂.assemble E recorder [] = (w, .ok m₃)

theorem becomes_unique {fuel : Nat} {E : Ctx} {m a b : Module} (h : Becomes fuel E m a) (h' : Becomes fuel E m b) : a = b := by
  obtain ⟨m₂, w, h1, h2⟩ := h
  obtain ⟨m₂', w', h1', h2'⟩ := h'
  rw [h1] at h1'; cases h1'
  rw [h2] at h2'; cases h2'; rfl

theorem becomes_more {fuel : Nat} {E : Ctx} {m a : Module} (h : Becomes fuel E m a) (j : Nat) : Becomes (fuel + j) E m a := by
  obtain ⟨m₂, w, h1, h2⟩ := h
  exact ⟨m₂, w, after_more h1 j, h2⟩

theorem made_more {fuel : Nat} {ms : List Module} {E : Ctx} (hB : Builds fuel ms E) (j : Nat) :
    ∀ m ∈ ms, made (fuel + j) E m = made fuel E m := by
  intro m hm
  obtain ⟨m₂, m₃, h1, -⟩ := hB.works m hm
  rw [made_of_works (after_more h1 j), made_of_works h1]

theorem builds_more {fuel : Nat} {ms : List Module} {E : Ctx} (hB : Builds fuel ms E) (j : Nat) : Builds (fuel + j) ms E := by
  refine ⟨hB.linkable, fun id v => (hB.offers id v).trans ⟨?_, ?_⟩, fun m hm => ?_, ?_⟩
  · rintro ⟨m, hm, m₂, h1, h2⟩
    exact ⟨m, hm, m₂, after_more h1 j, h2⟩
  · rintro ⟨m, hm, m₂, h1, h2⟩
    obtain ⟨q, -, h3, -⟩ := hB.works m hm
    rw [after_more h3 j] at h1; cases h1
    exact ⟨m, hm, _, h3, h2⟩
  · obtain ⟨m₂, m₃, h1, h2⟩ := hB.works m hm
    exact ⟨m₂, m₃, after_more h1 j, by rw [made_more hB j m hm]; exact h2⟩
  · rw [List.flatMap_congr (made_more hB j)]; exact hB.apart

theorem becomes_of_assembles {fuel : Nat} {files : List (List Str)} {ws : Writes} {a : Assembler} {ms : List Module}
    (h : Assembles fuel files ws a) (hl : Assembler.loadAll files = .ok ms) :
    List.Forall₂ (Becomes fuel (Assembler.lookup a.modules a.names)) ms a.modules := by
  unfold Assembles Assembler.assembleFiles at h
  rw [hl] at h
  simp only at h
  unfold Assembler.assemble at h
  cases hp : Assembler.prepare fuel ms with
  | err e => rw [hp] at h; cases h
  | ub u => rw [hp] at h; cases h
  | ok r =>
    obtain ⟨a₀, order⟩ := r
    rw [hp] at h
    simp only at h
    obtain ⟨o, ms₁, ho, rfl, hnames, hmem, hf, hs⟩ := prepare_parts hp
    obtain ⟨hperm, hip, hlo, huniq, hexp⟩ := C45_order_sound ho
    have hload := loadAll_iff.mp hl
    have hnd : o.order.Nodup := hperm.symm.nodup List.nodup_range
    have hin : ∀ (i : Nat) (m : Module), ms[i]? = some m → i ∈ o.order := fun i m hm =>
      hperm.mem_iff.2 (List.mem_range.2 (List.getElem?_eq_some_iff.mp hm).1)
    have hfile : ∀ (i : Nat) (m : Module), ms[i]? = some m →
        ∃ f, Module.loadAsmFile f = .ok m := fun i m hm =>
      (forall2_getElem? hload hm).imp fun f hf => hf.2
    obtain ⟨hl1, he1⟩ := firstPasses_each hnd hf
    have hun : ∀ i ∈ o.order, ∀ m, ms₁[i]? = some m → Unvalued m := by
      intro i hi m hm
      obtain ⟨m0, hm0, ⟨-, hp⟩ | ⟨hc, -⟩⟩ := he1 i m hm
      · obtain ⟨f, hf⟩ := hfile i m0 hm0
        exact unvalued_first hf hp
      · exact absurd hi hc
    obtain ⟨hmore, he2⟩ := secondPasses_each hnd hun hs
    have hlen : a₀.modules.length = ms.length := by rw [← hmore.1, hl1]
    have hafter : ∀ (i : Nat) (m : Module), ms[i]? = some m → ∃ m₂, a₀.modules[i]? = some m₂ ∧
        after fuel (Assembler.lookup a₀.modules a₀.names) m = .ok m₂ := by
      intro i m hm
      have hlt := (List.getElem?_eq_some_iff.mp hm).1
      have hg := List.getElem?_eq_getElem (l := a₀.modules) (by rw [hlen]; exact hlt)
      refine ⟨_, hg, ?_⟩
      obtain ⟨m1, h1, ⟨-, externs, hrun, hext⟩ | ⟨hc, -⟩⟩ := he2 i _ hg
      · obtain ⟨m0, hm0, ⟨-, hrun0⟩ | ⟨hc, -⟩⟩ := he1 i m1 h1
        · rw [hm] at hm0; cases hm0
          obtain ⟨f, hf⟩ := hfile i m hm
          refine Res.bind_eq_ok.mpr ⟨m1, hrun0, secondPass_within (D := fun _ => True) ?_ ?_ hrun⟩
          · intro id _ v hv; rw [hnames]; exact hext id v hv
          · intro l hl d hd hq; exact ⟨(needs_first hf hrun0 l hl d hd hq).1, fun _ _ => trivial⟩
        · exact absurd (hin i m hm) hc
      · exact absurd (hin i m hm) hc
    have hI : a₀.memory.Inv := by rw [hmem]; exact empty_inv
    have hemp : ∀ i ∈ o.order, ∀ m, a₀.modules[i]? = some m → m.owned = .empty := by
      intro j _ q hq
      have hlt := (List.getElem?_eq_some_iff.mp hq).1
      rw [hlen] at hlt
      obtain ⟨q', h1, h2⟩ := hafter j _ (List.getElem?_eq_getElem hlt)
      rw [hq] at h1; cases h1
      obtain ⟨f, hf⟩ := hfile j _ (List.getElem?_eq_getElem hlt)
      obtain ⟨items, -, hI, -, -⟩ := loadAsmFile_ok hf
      rw [(after_fields h2).2.2.1]
      exact hI.fresh.1
    obtain ⟨k1, k2, -⟩ := finalPasses_ok hI hnd hemp h
    have hpass := finalPasses_passed hI hnd hemp h
    have hlook : Assembler.lookup a.modules a.names = Assembler.lookup a₀.modules a₀.names := by
      rw [k1]; exact lookup_same k2 _
    have hlen' : a.modules.length = ms.length := by rw [← k2.1, hlen]
    refine List.forall₂_iff_get.2 ⟨hlen'.symm, fun i h1 h2 => ?_⟩
    have hm : ms[i]? = some (ms.get ⟨i, h1⟩) := by simp [h1]
    have hm' : a.modules[i]? = some (a.modules.get ⟨i, h2⟩) := by simp [h2]
    obtain ⟨m₂, e1, e2⟩ := hafter i _ hm
    obtain ⟨q, s1, s2, e3, e4⟩ := (hpass i _ hm').1 (hin i _ hm)
    rw [e1] at e3; cases e3
    obtain ⟨w, -, hw⟩ := assemble_frame e4
    exact ⟨m₂, _, by rw [hlook]; exact e2, hw []⟩

/-! ## Another order -/

theorem becomes_grows {fuel : Nat} {files : List (List Str)} {ms ms' : List Module} {E E' : Ctx}
    (hload : Assembler.loadAll files = .ok ms) (hB : Builds fuel ms E) (hB' : Builds fuel ms' E')
    (hsub : ∀ m ∈ ms, m ∈ ms') {m m₃ : Module} (hm : m ∈ ms) (h : Becomes fuel E m m₃) : Becomes fuel E' m m₃ := by
  obtain ⟨m₂, w, h1, h2⟩ := h
  exact ⟨m₂, w, after_grows hload hB hB' hsub m hm m₂ h1, assemble_within (fun l _ e _ v hv =>
    eval_mono (lookup_mono m₂ l.scopes (values_grow hload hB hB' hsub)) e v hv) h2⟩

theorem forall2_unique {α β : Type} {R : α → β → Prop} (hR : ∀ a b c, R a b → R a c → b = c) {l : List α} :
    ∀ {m n : List β}, List.Forall₂ R l m → List.Forall₂ R l n → m = n := by
  induction l with
  | nil => intro m n h h'; cases h; cases h'; rfl
  | cons x l ih =>
    intro m n h h'
    cases h with
    | cons h1 h2 => cases h' with
      | cons h3 h4 => rw [hR _ _ _ h1 h3, ih h2 h4]

theorem forall2_imp_mem {α β : Type} {R R' : α → β → Prop} {l : List α} {m : List β} (h : List.Forall₂ R l m)
    (hR : ∀ a ∈ l, ∀ b, R a b → R' a b) : List.Forall₂ R' l m := by
  induction h with
  | nil => exact .nil
  | cons h1 h2 ih => exact .cons (hR _ (by simp) _ h1) (ih fun a ha => hR a (by simp [ha]))

/-- The modules an assembly ends with are the same for another order of the files, in that order. -/
theorem modules_perm {fuel k : Nat} {files files' : List (List Str)} {ws ws' : Writes} {a a' : Assembler}
    (hp : files.Perm files') (h : Assembles fuel files ws a) (h' : Assembles k files' ws' a') :
    a.modules.Perm a'.modules ∧ ws.Perm ws' := by
  obtain ⟨ms, hl, hB, hw⟩ := builds_of_assembles h
  obtain ⟨ms', hl', hB', hw'⟩ := builds_of_assembles h'
  obtain ⟨q, hq, hpm⟩ := loadAll_perm hp hl
  rw [hl'] at hq; cases hq
  have hM := builds_more hB k
  have hM' := builds_more hB' fuel
  rw [Nat.add_comm] at hM'
  have f1 := forall2_imp_mem (becomes_of_assembles h hl) fun m _ m₃ hb => becomes_more hb k
  have f3 := forall2_imp_mem (becomes_of_assembles h' hl') fun m hm m₃ hb => by
    have hb := becomes_more hb fuel
    rw [Nat.add_comm] at hb
    exact becomes_grows hl' hM' hM (fun m hm => hpm.mem_iff.2 hm) hm hb
  obtain ⟨l, g1, g2⟩ := List.perm_comp_forall₂ hpm f3
  have hu := forall2_unique (R := Becomes (fuel + k) (Assembler.lookup a.modules a.names))
    (fun _ _ _ h h' => becomes_unique h h') f1 g1
  rw [hu]
  refine ⟨g2, hw.trans ((hpm.flatMap_right _).trans ?_)⟩
  refine List.Perm.trans (List.Perm.of_eq ?_) hw'.symm
  refine List.flatMap_congr fun m hm => ?_
  have e1 := made_more hB k m (hpm.mem_iff.2 hm)
  have e2 := made_more hB' fuel m hm
  rw [Nat.add_comm] at e2
  rw [← e1, ← e2]
  exact made_grows hl' hM' hM (fun m hm => hpm.mem_iff.2 hm) m hm

/-! ## The reported flags -/

/-- A table of obtainable flag states. -/
structure NeatTargets (T : OMap StatusFlags) : Prop where
  sorted : T.Sorted
  normal : ∀ x g, T.find x = some g → Normal g

theorem merge_normal (f g : StatusFlags) : Normal (f.merge g) := normal_make _ _ _ _

theorem neat_add {T : OMap StatusFlags} (h : NeatTargets T) (a : Nat) {f : StatusFlags} (hf : Normal f) :
    NeatTargets (Module.addTarget T a f) := by
  refine ⟨OMap.sorted_upsert h.sorted _ _, fun x g hg => ?_⟩
  unfold Module.addTarget at hg
  rw [OMap.find_upsert h.sorted] at hg
  split at hg
  · cases ht : OMap.find T a with
    | none => rw [ht] at hg; cases hg; exact hf
    | some w => rw [ht] at hg; cases hg; exact merge_normal w f
  · exact h.normal x g hg

theorem omap_ext {ν : Type} {m m' : OMap ν} (h : m.Sorted) (h' : m'.Sorted) (he : ∀ x, m.find x = m'.find x) : m = m' := by
  induction m generalizing m' with
  | nil =>
    cases m' with
    | nil => rfl
    | cons e m' => have := he e.1; simp [OMap.find] at this
  | cons e m ih =>
    cases m' with
    | nil => have := he e.1; simp [OMap.find] at this
    | cons e' m' =>
      obtain ⟨s1, n1⟩ := OMap.sorted_cons h
      obtain ⟨s2, n2⟩ := OMap.sorted_cons h'
      unfold OMap.Sorted at h h'
      rw [List.pairwise_cons] at h h'
      obtain ⟨k, v⟩ := e
      obtain ⟨k', v'⟩ := e'
      have hkk : k = k' := by
        rcases Nat.lt_trichotomy k k' with hlt | rfl | hlt
        · have h1 := he k
          rw [OMap.find_none_of_lt (m := (k', v') :: m') (by
            intro x hx
            rcases List.mem_cons.1 hx with rfl | hx
            · exact hlt
            · exact Nat.lt_trans hlt (h'.1 x hx))] at h1
          simp [OMap.find] at h1
        · rfl
        · have h1 := he k'
          rw [OMap.find_none_of_lt (m := (k, v) :: m) (by
            intro x hx
            rcases List.mem_cons.1 hx with rfl | hx
            · exact hlt
            · exact Nat.lt_trans hlt (h.1 x hx))] at h1
          simp [OMap.find] at h1
      subst hkk
      have hv := he k
      simp [OMap.find] at hv
      subst hv
      rw [ih s1 s2 fun x => ?_]
      by_cases hx : x = k
      · subst hx; rw [n1, n2]
      · have := he x
        simpa [OMap.find, Ne.symm hx] using this

theorem addTarget_comm {T : OMap StatusFlags} (h : NeatTargets T) (a b : Nat) {f g : StatusFlags} (hf : Normal f)
    (hg : Normal g) : Module.addTarget (Module.addTarget T a f) b g = Module.addTarget (Module.addTarget T b g) a f := by
  have ha := (neat_add h a hf).sorted
  have hb := (neat_add h b hg).sorted
  refine omap_ext (OMap.sorted_upsert ha _ _) (OMap.sorted_upsert hb _ _) fun x => ?_
  unfold Module.addTarget at *
  rw [OMap.find_upsert ha, OMap.find_upsert hb, OMap.find_upsert h.sorted, OMap.find_upsert h.sorted,
    OMap.find_upsert h.sorted, OMap.find_upsert h.sorted]
  by_cases hab : a = b
  · subst hab
    by_cases hx : a = x
    · subst hx
      simp only [if_true]
      cases ht : OMap.find T a with
      | none => simp only [Option.some.injEq]; exact C15_flags_comm f g
      | some w =>
        have hw := h.normal a w ht
        simp only [Option.some.injEq]
        rw [C15_flags_assoc hw hf hg, C15_flags_comm f g, C15_flags_assoc hw hg hf]
    · simp [hx]
  · by_cases hx : a = x
    · subst hx; simp [Ne.symm hab]
    · by_cases hy : b = x
      · subst hy; simp [hab]
      · simp [hx, hy]

theorem addAll_perm {l l' : List (Nat × StatusFlags)} (hp : l.Perm l') : ∀ {T : OMap StatusFlags}, NeatTargets T →
    (∀ e ∈ l, Normal e.2) → l.foldl (fun T e => Module.addTarget T e.1 e.2) T = l'.foldl (fun T e => Module.addTarget T e.1 e.2) T := by
  induction hp with
  | nil => intro T _ _; rfl
  | cons x _ ih =>
    intro T h hn
    exact ih (neat_add h _ (hn x (by simp))) fun e he => hn e (by simp [he])
  | swap x y l =>
    intro T h hn
    simp only [List.foldl_cons]
    rw [addTarget_comm h _ _ (hn y (by simp)) (hn x (by simp))]
  | trans h1 _ ih1 ih2 =>
    intro T h hn
    rw [ih1 h hn, ih2 h fun e he => hn e (h1.mem_iff.2 he)]

theorem addTargets_fold (a : Assembler) : ∀ (E ret : OMap StatusFlags), a.addTargets ret E =
    (E.filter fun e => !a.contains e.1).foldl (fun T e => Module.addTarget T e.1 e.2) ret := by
  intro E
  induction E with
  | nil => intro ret; rfl
  | cons e E ih =>
    intro ret
    obtain ⟨x, f⟩ := e
    rw [Assembler.addTargets]
    cases hc : a.contains x with
    | true => rw [List.filter_cons_of_neg (by simp [hc])]; exact ih ret
    | false => rw [List.filter_cons_of_pos (by simp [hc])]; exact ih _

theorem jumpTargets_fold (a : Assembler) : a.jumpTargets =
    ((a.modules.flatMap (·.targets)).filter fun e => !a.contains e.1).foldl (fun T e => Module.addTarget T e.1 e.2) [] := by
  unfold Assembler.jumpTargets
  generalize ([] : OMap StatusFlags) = ret
  generalize a.modules = ms
  induction ms generalizing ret with
  | nil => rfl
  | cons m ms ih =>
    rw [List.foldl_cons, ih, addTargets_fold, List.flatMap_cons, List.filter_append, List.foldl_append]

theorem noteTarget_neat {l : Line} {o o' : Module.Out} (h : Module.noteTarget l o = .ok o') (ho : NeatTargets o.targets)
    (hl : ∀ i, l.statement = .instr i → Normal l.incoming.flags) : NeatTargets o'.targets := by
  unfold Module.noteTarget at h
  cases hst : l.statement with
  | dir d => rw [hst] at h; cases h; exact ho
  | instr i =>
    rw [hst] at h
    simp only at h
    obtain ⟨src, -, h⟩ := Res.bind_eq_ok.mp h
    obtain ⟨t, -, h⟩ := Res.bind_eq_ok.mp h
    cases t with
    | none => cases h; exact ho
    | some t => cases h; exact neat_add ho _ (hl i hst)

theorem assembleNote_neat {d : Directive} {v : Option Int} {ctx : Ctx} {o o' : Module.Out}
    (h : Module.assembleNote d v ctx o = .ok o') (ho : NeatTargets o.targets)
    (hd : d.name = .remote → Normal d.flags) : NeatTargets o'.targets := by
  unfold Module.assembleNote at h
  split at h
  · split at h
    · cases h
    · obtain ⟨_, -, h⟩ := Res.bind_eq_ok.mp h
      cases h; exact ho
  · split at h
    · next hn =>
      obtain ⟨_, -, h⟩ := Res.bind_eq_ok.mp h
      obtain ⟨_, -, h⟩ := Res.bind_eq_ok.mp h
      cases h; exact neat_add ho _ (hd hn)
    · cases h; exact ho

theorem claim_targets {o o' : Module.Out} {x n : Nat} (h : Module.claim o x n = .ok o') : o'.targets = o.targets := by
  unfold Module.claim at h
  obtain ⟨⟨ow, ok⟩, -, h⟩ := Res.bind_eq_ok.mp h
  simp only at h
  split at h
  · cases h; rfl
  · cases h

theorem writeLine_targets {σ : Type} {l : Line} {ctx : Ctx} {sink : Sink σ} {s s' : σ} {o o' : Module.Out}
    (h : Module.writeLine l ctx sink s o = (s', .ok o')) : o'.targets = o.targets := by
  unfold Module.writeLine at h
  split at h
  · cases h
  · split at h
    · cases h
    · cases h
    · split at h
      · simp only [Prod.mk.injEq] at h; exact claim_targets h.2
      · cases h
      · cases h

/-- The flag states a line can report are obtainable. -/
def NeatLine (l : Line) : Prop :=
  (∀ i, l.statement = .instr i → Normal l.incoming.flags) ∧
    ∀ d, l.statement = .dir d → d.name = .remote → Normal d.flags

theorem assembleLine_neat {σ : Type} {m : Module} {E : Ctx} {sink : Sink σ} {l : Line} {s s' : σ} {o o' : Module.Out}
    (h : m.assembleLine E sink l s o = (s', .ok o')) (hl : NeatLine l) (ho : NeatTargets o.targets) :
    NeatTargets o'.targets := by
  unfold Module.assembleLine at h
  simp only [Prod.mk.injEq] at h
  obtain ⟨o1, h1, h2⟩ := Res.bind_eq_ok.mp h.2
  refine noteTarget_neat h2 ?_ hl.1
  split at h1
  · rw [writeLine_targets (s' := (Module.writeLine l (m.lookup l.scopes E) sink s o).1) (Prod.ext rfl h1)]; exact ho
  · split at h1
    · next d hd => exact assembleNote_neat h1 ho (hl.2 d hd)
    · cases h1; exact ho

theorem assembleLines_neat {σ : Type} {m : Module} {E : Ctx} {sink : Sink σ} : ∀ {ls : List Line} {s s' : σ}
    {o o' : Module.Out}, m.assembleLines E sink ls s o = (s', .ok o') → (∀ l ∈ ls, NeatLine l) → NeatTargets o.targets →
    NeatTargets o'.targets := by
  intro ls
  induction ls with
  | nil => intro s s' o o' h _ ho; cases h; exact ho
  | cons l ls ih =>
    intro s s' o o' h hl ho
    rw [Module.assembleLines] at h
    split at h
    · next s1 o1 h1 =>
      exact ih h (fun q hq => hl q (by simp [hq])) (assembleLine_neat h1 (hl l (by simp)) ho)
    · cases h
    · cases h

theorem neat_first {file : List Str} {fuel : Nat} {m m' : Module} (hm : Module.loadAsmFile file = .ok m)
    (h : m.runFirstPass fuel = .ok m') : ∀ l ∈ m'.lines, NeatLine l := by
  intro l hl
  obtain ⟨k, hk⟩ := List.mem_iff_getElem?.1 hl
  obtain ⟨p, l1, l2, he, hfix, hlay, hm'⟩ := firstPass_parts h
  have hk' : l2[k]? = some l := by rw [hm'] at hk; exact hk
  obtain ⟨b, hb, hlr⟩ := forall2_getElem? (layout_rel hlay) hk'
  obtain ⟨c, hc, hfr⟩ := forall2_getElem? (fixLines_rel hfix) hb
  unfold LayRel at hlr
  unfold FixRel at hfr
  constructor
  · intro i hi
    refine (incoming_normal hm h hk ?_).1
    have hbs : b.statement = .instr i := by rw [hlr] at hi; exact hi
    cases hcs : c.statement with
    | dir d => rw [hcs] at hfr; simp only at hfr; rw [hfr, hcs] at hbs; cases hbs
    | instr i' =>
      rw [hcs] at hfr
      obtain ⟨hr, j, -, hj⟩ := hfr
      rw [hlr, hj]; exact hr
  · intro d hd hn
    have hbs : b.statement = .dir d := by rw [hlr] at hd; exact hd
    have hcs : c.statement = .dir d := by
      cases hcs : c.statement with
      | dir d' => rw [hcs] at hfr; simp only at hfr; rw [hfr, hcs] at hbs; exact hbs
      | instr i' =>
        rw [hcs] at hfr
        obtain ⟨hr, j, -, hj⟩ := hfr
        rw [hj] at hbs; cases hbs
    have hS : SameLines m p := (explore_induct (m := m) (I := fun p => SameLines m p)
      (fun p p' g hs => sameLines_step g hs) fuel _ p (by unfold SameLines; rfl) he).1
    obtain ⟨q, hq, hqs⟩ : ∃ q ∈ m.lines, q.statement = c.statement := by
      unfold SameLines at hS
      have hb : bare c ∈ m.lines.map bare := by
        rw [← hS]; exact List.mem_map_of_mem (List.mem_of_getElem? hc)
      obtain ⟨q, hq, e⟩ := List.mem_map.1 hb
      exact ⟨q, hq, (bare_fields e).1⟩
    have := loaded_written hm q hq
    rw [hqs, hcs] at this
    exact normal_written (this (by rw [hn]; simp))

theorem neat_second {file : List Str} {fuel : Nat} {E : Ctx} {m m₁ m₂ : Module} (hm : Module.loadAsmFile file = .ok m)
    (h1 : m.runFirstPass fuel = .ok m₁) (h2 : m₁.runSecondPass E = .ok m₂) : ∀ l ∈ m₂.lines, NeatLine l := by
  intro l hl
  obtain ⟨hmore, -, -⟩ := secondLoop_spec _ 0 m₁ m₂ h2 (fun j l d _ => unvalued_first hm h1 j l d)
  obtain ⟨k, hk⟩ := List.mem_iff_getElem?.1 hl
  obtain ⟨l', e1, e2⟩ := getElem?_valueless hmore.lines.symm hk
  have e3 := valueless_fields e2
  have := neat_first hm h1 l' (List.mem_of_getElem? e1)
  unfold NeatLine at *
  rw [e3.1, e3.2.2.2.2.2] at this
  exact this

theorem neat_becomes {file : List Str} {fuel : Nat} {E : Ctx} {m m₃ : Module} (hm : Module.loadAsmFile file = .ok m)
    (h : Becomes fuel E m m₃) : NeatTargets m₃.targets := by
  obtain ⟨m₂, w, h1, h2⟩ := h
  obtain ⟨m₁, h3, h4⟩ := after_parts h1
  obtain ⟨o, names, h5, -, rfl⟩ := assemble_parts h2
  obtain ⟨items, -, hI, -, -⟩ := loadAsmFile_ok hm
  refine assembleLines_neat h5 (neat_second hm h3 h4) ?_
  show NeatTargets m₂.targets
  rw [(after_fields h1).2.2.2.1, hI.fresh.2.2.1]
  exact ⟨List.Pairwise.nil, by intro x g h; cases h⟩

theorem neat_modules {fuel : Nat} {files : List (List Str)} {ws : Writes} {a : Assembler} (h : Assembles fuel files ws a) :
    ∀ m ∈ a.modules, NeatTargets m.targets := by
  intro m hm
  obtain ⟨ms, hl, -, -⟩ := builds_of_assembles h
  obtain ⟨k, hk⟩ := List.mem_iff_getElem?.1 hm
  obtain ⟨m₀, hk', hb⟩ := forall2_getElem? (becomes_of_assembles h hl) hk
  obtain ⟨f, -, hf⟩ := forall2_getElem? (loadAll_iff.mp hl) hk'
  exact neat_becomes hf hb

/-- The jump targets reported do not depend on the order of the modules. -/
theorem jumpTargets_perm {a a' : Assembler} (hp : a.modules.Perm a'.modules) (hc : ∀ x, a.contains x = a'.contains x)
    (hn : ∀ m ∈ a.modules, NeatTargets m.targets) : a.jumpTargets = a'.jumpTargets := by
  rw [jumpTargets_fold, jumpTargets_fold]
  have hfun : (fun e : Nat × StatusFlags => !a.contains e.1) = fun e => !a'.contains e.1 := by funext e; rw [hc]
  rw [hfun]
  refine addAll_perm ((hp.flatMap_right _).filter _) ⟨List.Pairwise.nil, by intro x g h; cases h⟩ fun e he => ?_
  obtain ⟨m, hm, hem⟩ := List.mem_flatMap.1 (List.mem_filter.1 he).1
  exact (hn m hm).normal e.1 e.2 (OMap.find_of_mem (hn m hm).sorted hem)

theorem findSome_perm {α β : Type} {f : α → Option β} {l l' : List α} (hp : l.Perm l') :
    (l.findSome? f).isSome = (l'.findSome? f).isSome := by
  rw [Bool.eq_iff_iff, List.findSome?_isSome_iff, List.findSome?_isSome_iff]
  exact ⟨fun ⟨x, hx, h⟩ => ⟨x, hp.mem_iff.1 hx, h⟩, fun ⟨x, hx, h⟩ => ⟨x, hp.mem_iff.2 hx, h⟩⟩

theorem publishes_perm {ms ms' : List Module} (hp : ms.Perm ms') (E : Ctx) : Publishes ms E ↔ Publishes ms' E := by
  unfold Publishes
  exact forall_congr' fun id => forall_congr' fun v => iff_congr Iff.rfl
    ⟨fun ⟨m, hm, r⟩ => ⟨m, hp.mem_iff.1 hm, r⟩, fun ⟨m, hm, r⟩ => ⟨m, hp.mem_iff.2 hm, r⟩⟩

/-- The module a file becomes is the same in another order. -/
theorem module_moves {fuel k : Nat} {files files' : List (List Str)} {ws ws' : Writes} {a a' : Assembler}
    (hp : files.Perm files') (h : Assembles fuel files ws a) (h' : Assembles k files' ws' a') {i' : Nat} {file : List Str}
    {m : Module} (hf : files'[i']? = some file) (hm : a'.modules[i']? = some m) :
    ∃ i : Nat, files[i]? = some file ∧ a.modules[i]? = some m := by
  obtain ⟨ms, hl, hB, -⟩ := builds_of_assembles h
  obtain ⟨ms', hl', hB', -⟩ := builds_of_assembles h'
  obtain ⟨q, hq, hpm⟩ := loadAll_perm hp hl
  rw [hl'] at hq; cases hq
  obtain ⟨m₀, h1, h2⟩ := forall2_getElem? (becomes_of_assembles h' hl') hm
  obtain ⟨f, e1, e2⟩ := forall2_getElem? (loadAll_iff.mp hl') h1
  rw [hf] at e1; cases e1
  obtain ⟨i, hi⟩ := List.mem_iff_getElem?.1 (hp.mem_iff.2 (List.mem_of_getElem? hf))
  have hlt := (List.getElem?_eq_some_iff.mp hi).1
  rw [(loadAll_iff.mp hl).length_eq] at hlt
  have hmi := List.getElem?_eq_getElem hlt
  obtain ⟨f, e3, e4⟩ := forall2_getElem? (loadAll_iff.mp hl) hmi
  rw [hi] at e3; cases e3
  rw [e2] at e4; cases e4
  have hlt' := hlt
  rw [(becomes_of_assembles h hl).length_eq] at hlt'
  have hai := List.getElem?_eq_getElem hlt'
  obtain ⟨q, e5, e6⟩ := forall2_getElem? (becomes_of_assembles h hl) hai
  rw [hmi] at e5; cases e5
  refine ⟨i, hi, ?_⟩
  have hM := builds_more hB k
  have hM' := builds_more hB' fuel
  have h2 := becomes_more h2 fuel
  rw [Nat.add_comm] at hM' h2
  rw [hai, becomes_unique (becomes_more e6 k) (becomes_grows hl' hM' hM (fun m hm => hpm.mem_iff.2 hm) (List.mem_of_getElem? h1) h2)]

end Nsasm
