import Verif.Lemmas.AnyOrder
import Verif.Spec.Answers
import Verif.Props.Link

/-! # Lemmas: what the assembler says about names and return conventions -/

namespace Nsasm

open Spec Props

/-! ## One module -/

theorem noteTarget_conventions {l : Line} {o o' : Module.Out} (h : Module.noteTarget l o = .ok o') :
    o'.conventions = o.conventions := by
  unfold Module.noteTarget at h
  cases hst : l.statement with
  | dir d => rw [hst] at h; cases h; rfl
  | instr i =>
    rw [hst] at h
    obtain ⟨src, -, h⟩ := Res.bind_eq_ok.mp h
    obtain ⟨t, -, h⟩ := Res.bind_eq_ok.mp h
    cases t with
    | none => cases h; rfl
    | some t => cases h; rfl

/-- The table of conventions after an addition. -/
theorem find_addConvention {c : OMap ReturnConvention} (hc : c.Sorted) (a : Addr) (r : ReturnConvention) :
    (Module.addConvention c a r).Sorted ∧ ∀ x r', (Module.addConvention c a r).find x = some r' ↔
      (r' = r ∧ x = a ∧ r ≠ .default) ∨ (¬ (x = a ∧ r ≠ .default) ∧ c.find x = some r') := by
  have key : r ≠ .default → Module.addConvention c a r = OMap.set c a r := by
    intro h; cases r <;> first | exact absurd rfl h | rfl
  by_cases hr : r = .default
  · subst hr
    refine ⟨hc, fun x r' => ?_⟩
    show c.find x = some r' ↔ _
    simp
  · rw [key hr]
    unfold OMap.set
    refine ⟨OMap.sorted_upsert hc _ _, fun x r' => ?_⟩
    rw [OMap.find_upsert hc]
    by_cases hx : x = a
    · subst hx
      cases hf : OMap.find c x <;> simp [hr, eq_comm]
    · simp [hx, Ne.symm hx]

/-- The effect of a line on the table of conventions. -/
def Updates (ctx : Ctx) (l : Line) (c c' : OMap ReturnConvention) : Prop :=
  c'.Sorted ∧ ∀ x r, c'.find x = some r ↔
    Declares ctx l x r ∨ ((∀ r', ¬ Declares ctx l x r') ∧ c.find x = some r)

theorem Updates.same {ctx : Ctx} {l : Line} {c : OMap ReturnConvention} (hc : c.Sorted)
    (h : ∀ d, l.statement = .dir d → d.name ≠ .entry ∧ d.name ≠ .remote) : Updates ctx l c c := by
  have hno : ∀ x r, ¬ Declares ctx l x r := by
    rintro x r ⟨-, d, hd, -, ⟨h1, -⟩ | ⟨h1, -⟩⟩
    · exact (h d hd).1 h1
    · exact (h d hd).2 h1
  exact ⟨hc, fun x r => by simp [hno]⟩

theorem updates_add {ctx : Ctx} {l : Line} {c : OMap ReturnConvention} (hc : c.Sorted) {d : Directive} {a : Nat}
    (hd : l.statement = .dir d)
    (h : ∀ x : Nat, ((d.name = .entry ∧ l.value = some (x : Int)) ∨
      (d.name = .remote ∧ d.argument.eval ctx = .ok (x : Int))) ↔ x = a) :
    Updates ctx l c (Module.addConvention c a d.ret) := by
  have key : ∀ x r, Declares ctx l x r ↔ r = d.ret ∧ x = a ∧ d.ret ≠ .default := by
    intro x r
    constructor
    · rintro ⟨h1, d', hd', rfl, h2⟩
      rw [hd] at hd'; cases hd'
      exact ⟨rfl, (h x).mp h2, h1⟩
    · rintro ⟨rfl, h2, h1⟩
      exact ⟨h1, d, hd, rfl, (h x).mpr h2⟩
  obtain ⟨h1, h2⟩ := find_addConvention hc a d.ret
  refine ⟨h1, fun x r => ?_⟩
  rw [h2]
  simp only [key]
  constructor
  · rintro (h | ⟨h, h'⟩)
    · exact .inl h
    · exact .inr ⟨fun r' hr => h hr.2, h'⟩
  · rintro (h | ⟨h, h'⟩)
    · exact .inl h
    · exact .inr ⟨fun hr => h _ ⟨rfl, hr⟩, h'⟩

theorem assembleLine_updates {σ : Type} {m : Module} {externs : Ctx} {sink : Sink σ} {l : Line} {s s' : σ}
    {o o' : Module.Out} (hc : Canonical o.owned.ranges) (hs : o.conventions.Sorted)
    (h : m.assembleLine externs sink l s o = (s', .ok o')) :
    Updates (m.lookup l.scopes externs) l o.conventions o'.conventions := by
  unfold Module.assembleLine at h
  by_cases hpos : l.statement.serializedSize > 0
  · simp only [if_pos hpos, Prod.mk.injEq] at h
    obtain ⟨e, h⟩ := h
    obtain ⟨o1, h1, h⟩ := Res.bind_eq_ok.mp h
    obtain ⟨-, -, -, -, -, -, -, -, ht⟩ := writeLine_ok hpos hc (Prod.ext e h1 :
          Module.writeLine l (m.lookup l.scopes externs) sink s o = (s', .ok o1))
    rw [noteTarget_conventions h, ht]
    refine .same hs fun d hd => ?_
    rw [hd] at hpos
    constructor <;> intro hn <;> simp [Statement.serializedSize, Directive.serializedSize, hn] at hpos
  · simp only [if_neg hpos] at h
    cases hst : l.statement with
    | instr i =>
      rw [hst] at h
      simp only [Prod.mk.injEq] at h
      obtain ⟨-, h⟩ := h
      obtain ⟨o1, h1, h⟩ := Res.bind_eq_ok.mp h
      cases h1
      rw [noteTarget_conventions h]
      exact .same hs fun d hd => by rw [hst] at hd; cases hd
    | dir d =>
      rw [hst] at h
      simp only [Prod.mk.injEq] at h
      obtain ⟨-, h⟩ := h
      obtain ⟨o1, h1, h⟩ := Res.bind_eq_ok.mp h
      rw [noteTarget_conventions h]
      unfold Module.assembleNote at h1
      by_cases hn : d.name = .entry
      · rw [if_pos hn] at h1
        cases hv : l.value with
        | none => rw [hv] at h1; cases h1
        | some v =>
          rw [hv] at h1
          obtain ⟨a, ha, h1⟩ := Res.bind_eq_ok.mp h1
          cases h1
          obtain ⟨rfl, -⟩ := ofInt_eq_ok.mp ha
          refine updates_add hs hst fun x => ?_
          rw [hn, hv]
          simp only [true_and, Option.some.injEq, reduceCtorEq, false_and, or_false]
          omega
      · rw [if_neg hn] at h1
        by_cases hn' : d.name = .remote
        · rw [if_pos hn'] at h1
          obtain ⟨v, hv, h1⟩ := Res.bind_eq_ok.mp h1
          obtain ⟨a, ha, h1⟩ := Res.bind_eq_ok.mp h1
          cases h1
          obtain ⟨rfl, -⟩ := ofInt_eq_ok.mp ha
          refine updates_add hs hst fun x => ?_
          rw [hn', hv]
          simp only [true_and, Res.ok.injEq, reduceCtorEq, false_and, false_or]
          omega
        · rw [if_neg hn'] at h1
          cases h1
          refine .same hs fun d' hd' => ?_
          rw [hst] at hd'; cases hd'
          exact ⟨hn, hn'⟩

/-- Line `k` of the lines is the last one to say something about `x`, and says `r`. -/
def LastSays (D : Line → Nat → ReturnConvention → Prop) (ls : List Line) (x : Nat) (r : ReturnConvention) : Prop :=
  ∃ (k : Nat) (l : Line), ls[k]? = some l ∧ D l x r ∧ ∀ k' l' r', k < k' → ls[k']? = some l' → ¬ D l' x r'

theorem lastSays_cons {D : Line → Nat → ReturnConvention → Prop} {l : Line} {ls : List Line} {x : Nat}
    {r : ReturnConvention} : LastSays D (l :: ls) x r ↔
      LastSays D ls x r ∨ ((∀ l' ∈ ls, ∀ r', ¬ D l' x r') ∧ D l x r) := by
  constructor
  · rintro ⟨k, l1, hk, hd, hall⟩
    cases k with
    | zero =>
      simp only [List.getElem?_cons_zero, Option.some.injEq] at hk
      subst hk
      refine .inr ⟨fun l' hl' r' => ?_, hd⟩
      obtain ⟨j, hj⟩ := List.getElem?_of_mem hl'
      exact hall (j + 1) l' r' (by omega) (by simpa using hj)
    | succ k =>
      refine .inl ⟨k, l1, by simpa using hk, hd, fun k' l' r' hlt hl' => ?_⟩
      exact hall (k' + 1) l' r' (by omega) (by simpa using hl')
  · rintro (⟨k, l1, hk, hd, hall⟩ | ⟨hall, hd⟩)
    · refine ⟨k + 1, l1, by simpa using hk, hd, fun k' l' r' hlt hl' => ?_⟩
      cases k' with
      | zero => omega
      | succ k' => exact hall k' l' r' (by omega) (by simpa using hl')
    · refine ⟨0, l, rfl, hd, fun k' l' r' hlt hl' => ?_⟩
      cases k' with
      | zero => omega
      | succ k' => exact hall l' (List.mem_of_getElem? (by simpa using hl')) r'

/-- If a line says something, some line is the last to do so. -/
theorem last_exists {D : Line → Nat → ReturnConvention → Prop} {x : Nat} : ∀ {ls : List Line} {k : Nat} {l : Line}
    {r : ReturnConvention}, ls[k]? = some l → D l x r → ∃ (k : Nat) (l : Line) (r : ReturnConvention), ls[k]? = some l ∧
      D l x r ∧ ∀ k' l' r', k < k' → ls[k']? = some l' → ¬ D l' x r' := by
  have key : ∀ (n : Nat) (ls : List Line) (k : Nat) (l : Line) (r : ReturnConvention), ls.length - k ≤ n →
      ls[k]? = some l → D l x r → ∃ (k : Nat) (l : Line) (r : ReturnConvention), ls[k]? = some l ∧
      D l x r ∧ ∀ k' l' r', k < k' → ls[k']? = some l' → ¬ D l' x r' := by
    intro n
    induction n with
    | zero =>
      intro ls k l r hn hl
      have := (List.getElem?_eq_some_iff.mp hl).1
      omega
    | succ n ih =>
      intro ls k l r hn hl hd
      by_cases hc : ∃ (k' : Nat) (l' : Line) (r' : ReturnConvention), k < k' ∧ ls[k']? = some l' ∧ D l' x r'
      · obtain ⟨k', l', r', h1, h2, h3⟩ := hc
        have := (List.getElem?_eq_some_iff.mp h2).1
        exact ih ls k' l' r' (by omega) h2 h3
      · exact ⟨k, l, r, hl, hd, fun k' l' r' h1 h2 h3 => hc ⟨k', l', r', h1, h2, h3⟩⟩
  intro ls k l r hl hd
  exact key _ ls k l r (le_refl _) hl hd

theorem assembleLines_conventions {σ : Type} {m : Module} {externs : Ctx} {sink : Sink σ} {ls : List Line} {s s' : σ}
    {o o' : Module.Out} (hc : Canonical o.owned.ranges) (hs : o.conventions.Sorted)
    (h : m.assembleLines externs sink ls s o = (s', .ok o')) :
    o'.conventions.Sorted ∧ ∀ x r, o'.conventions.find x = some r ↔
      LastSays (fun l => Declares (m.lookup l.scopes externs) l) ls x r ∨
      ((∀ l ∈ ls, ∀ r', ¬ Declares (m.lookup l.scopes externs) l x r') ∧ o.conventions.find x = some r) := by
  induction ls generalizing s o with
  | nil =>
    simp only [Module.assembleLines, Prod.mk.injEq, Res.ok.injEq] at h
    obtain ⟨rfl, rfl⟩ := h
    refine ⟨hs, fun x r => ?_⟩
    have : ¬ LastSays (fun l => Declares (m.lookup l.scopes externs) l) [] x r := by
      rintro ⟨k, l, hk, -⟩; simp at hk
    simp [this]
  | cons l ls ih =>
    simp only [Module.assembleLines] at h
    rcases h1 : m.assembleLine externs sink l s o with ⟨s1, r1⟩
    rw [h1] at h
    cases r1 with
    | err e => cases h
    | ub u => cases h
    | ok o1 =>
      obtain ⟨w, hw, hf, hg⟩ := assembleLine_ok hc h1
      obtain ⟨u1, u2⟩ := assembleLine_updates hc hs h1
      obtain ⟨i1, i2⟩ := ih hg.canonical u1 h
      refine ⟨i1, fun x r => ?_⟩
      rw [i2, u2, lastSays_cons]
      constructor
      · rintro (h | ⟨h, h' | ⟨h', h''⟩⟩)
        · exact .inl (.inl h)
        · exact .inl (.inr ⟨h, h'⟩)
        · refine .inr ⟨fun l' hl' => ?_, h''⟩
          rcases List.mem_cons.mp hl' with rfl | hl'
          · exact h'
          · exact h l' hl'
      · rintro ((h | ⟨h, h'⟩) | ⟨h, h'⟩)
        · exact .inl h
        · exact .inr ⟨h, .inl h'⟩
        · exact .inr ⟨fun l' hl' => h l' (by simp [hl']), .inr ⟨h l (by simp), h'⟩⟩

/-! ## All modules -/

/-- Every module went through the last pass, with the names of the whole assembly. -/
theorem finalPasses_passed {σ : Type} {sink : Sink σ} : ∀ {order : List Nat} {a a' : Assembler}
    {s s' : σ}, a.memory.Inv → order.Nodup →
    (∀ i ∈ order, ∀ m, a.modules[i]? = some m → m.owned = .empty) →
    Assembler.finalPasses sink a order s = (s', .ok a') →
    ∀ (i : Nat) (m' : Module), a'.modules[i]? = some m' →
      (i ∈ order → ∃ m s1 s2, a.modules[i]? = some m ∧
        m.assemble (Assembler.lookup a'.modules a'.names) sink s1 = (s2, .ok m')) ∧
      (i ∉ order → a.modules[i]? = some m') := by
  intro order
  induction order with
  | nil =>
    intro a a' s s' hI _ _ h
    simp only [Assembler.finalPasses, Prod.mk.injEq, Res.ok.injEq] at h
    obtain ⟨rfl, rfl⟩ := h
    exact fun i m' h => ⟨by simp, fun _ => h⟩
  | cons i is ih =>
    intro a a' s s' hI hnd hemp h
    have hall := finalPasses_ok hI hnd hemp h
    rw [Assembler.finalPasses] at h
    cases hm : a.modules[i]? with
    | none => rw [hm] at h; cases h
    | some m =>
      rw [hm] at h
      simp only at h
      rcases ha : m.assemble (Assembler.lookup a.modules a.names) sink s with ⟨s1, r⟩
      rw [ha] at h
      cases r with
      | err e => cases h
      | ub u => cases h
      | ok m1 =>
        simp only at h
        rcases hi : a.memory.insert m1.owned i with ⟨mem, ok⟩
        rw [hi] at h
        cases ok with
        | false => cases h
        | true =>
          simp only at h
          obtain ⟨o, names, hl, -, hm1⟩ := assemble_parts ha
          have hE := hemp i (by simp) m hm
          have hcan : Canonical m.owned.ranges := by
            rw [hE]; exact ⟨by simp [DataRange.empty], by simp [DataRange.empty]⟩
          obtain ⟨ws, hws, hf, hg⟩ := assembleLines_ok hcan hl
          rw [hE] at hg
          have hown : m1.owned = o.owned := by rw [hm1]
          rw [← hown] at hg
          obtain ⟨hI', hg'⟩ := insert_grows hI hg hi
          have hnd' := List.nodup_cons.1 hnd
          intro j q hq
          obtain ⟨e1, e2⟩ := ih (a := { a with
              modules := a.modules.set i m1, memory := mem }) hI' hnd'.2 (by
            intro j hj q hq
            have hne : i ≠ j := by rintro rfl; exact hnd'.1 hj
            rw [List.getElem?_set_ne hne] at hq
            exact hemp j (by simp [hj]) q hq) h j q hq
          by_cases hij : i = j
          · subst hij
            have hq' := e2 hnd'.1
            have hlt := (List.getElem?_eq_some_iff.mp hm).1
            simp only [List.getElem?_set_self hlt, Option.some.injEq] at hq'
            subst hq'
            refine ⟨fun _ => ⟨m, s, s1, hm, ?_⟩, fun hc => absurd (by simp) hc⟩
            rw [lookup_same hall.2.1, hall.1]
            exact ha
          · rw [List.getElem?_set_ne hij] at e1 e2
            refine ⟨fun hj => e1 ?_, fun hj => e2 ?_⟩
            · simpa [Ne.symm hij] using hj
            · simp at hj; exact hj.2

/-- Every module of a finished assembly came out of the last pass, which found the tables empty. -/
theorem assembled_last {σ : Type} {fuel : Nat} {files : List (List Str)} {sink : Sink σ} {s s' : σ}
    {a : Assembler} (h : Assembler.assembleFiles fuel files sink s = (s', .ok a)) (i : Nat) (m : Module)
    (hm : a.modules[i]? = some m) :
    ∃ (m₀ : Module) (s1 s2 : σ), m₀.assemble (Assembler.lookup a.modules a.names) sink s1 = (s2, .ok m) ∧
      m₀.owned = .empty ∧ m₀.conventions = [] ∧ m₀.addrNames = [] := by
  unfold Assembler.assembleFiles at h
  cases hl : Assembler.loadAll files with
  | err e => rw [hl] at h; cases h
  | ub u => rw [hl] at h; cases h
  | ok ms =>
    rw [hl] at h
    simp only at h
    unfold Assembler.assemble at h
    cases hp : Assembler.prepare fuel ms with
    | err e => rw [hp] at h; cases h
    | ub u => rw [hp] at h; cases h
    | ok r =>
      obtain ⟨a₀, order⟩ := r
      rw [hp] at h
      simp only at h
      obtain ⟨o, ms₁, ho, rfl, hnames, hmem, hf, hs⟩ := prepare_parts hp
      obtain ⟨hperm, -, -, huniq, hexp⟩ := C45_order_sound ho
      have hload := loadAll_iff.mp hl
      have hnd : o.order.Nodup := hperm.symm.nodup List.nodup_range
      have hsame : Pointwise (fun _ => SameTables) ms a₀.modules :=
        pointwise_trans (R := fun _ => SameTables) (fun _ _ _ _ => SameTables.trans)
          (firstPasses_same hf) (secondPasses_same hs)
      have hfresh : ∀ (i : Nat) (m : Module), a₀.modules[i]? = some m →
          m.owned = .empty ∧ m.conventions = [] ∧ m.addrNames = [] := by
        intro i m hm
        have hlt := (List.getElem?_eq_some_iff.mp hm).1
        have hlt' : i < ms.length := by rw [hsame.1]; exact hlt
        obtain ⟨ls, hls⟩ := hsame.2 i _ m (List.getElem?_eq_getElem hlt') hm
        obtain ⟨f, -, hf⟩ := forall2_getElem? hload (List.getElem?_eq_getElem hlt')
        obtain ⟨items, -, hI, -, -⟩ := loadAsmFile_ok hf
        rw [hls]
        exact ⟨hI.fresh.1, hI.fresh.2.2.2, hI.fresh.2.1⟩
      have hI : a₀.memory.Inv := by rw [hmem]; exact empty_inv
      have hemp : ∀ i ∈ o.order, ∀ m, a₀.modules[i]? = some m → m.owned = .empty :=
        fun i _ m hm => (hfresh i m hm).1
      obtain ⟨k1, k2, -⟩ := finalPasses_ok hI hnd hemp h
      obtain ⟨m0, s1, s2, h1, h2⟩ := (finalPasses_passed hI hnd hemp h i m hm).1 (by
        have hlt := (List.getElem?_eq_some_iff.mp hm).1
        refine hperm.mem_iff.2 (List.mem_range.2 ?_)
        rw [hsame.1, k2.1]; exact hlt)
      exact ⟨m0, s1, s2, h2, hfresh i m0 h1⟩

/-! ## The tables of all modules together -/

theorem find_keepAll : ∀ (c ret : OMap ReturnConvention), ret.Sorted →
    (c.foldl (fun r n => OMap.insertKeep r n.1 n.2) ret).Sorted ∧
    ∀ x, OMap.find (c.foldl (fun r n => OMap.insertKeep r n.1 n.2) ret) x = (ret.find x).or (c.find x) := by
  intro c
  induction c with
  | nil => intro ret h; exact ⟨h, fun x => by simp [OMap.find]⟩
  | cons n c ih =>
    intro ret h
    obtain ⟨k, v⟩ := n
    rw [List.foldl_cons]
    obtain ⟨h1, h2⟩ := ih (OMap.insertKeep ret k v) (OMap.sorted_upsert h _ _)
    refine ⟨h1, fun x => ?_⟩
    rw [h2, OMap.insertKeep, OMap.find_upsert h, OMap.find]
    by_cases hx : x = k
    · subst hx
      cases OMap.find ret x <;> simp
    · simp [hx, Ne.symm hx]

theorem find_conventions (a : Assembler) (x : Nat) :
    OMap.find a.jumpTargetReturnConventions x = a.modules.findSome? (fun m => OMap.find m.conventions x) := by
  have key : ∀ (ms : List Module) (ret : OMap ReturnConvention), ret.Sorted →
      OMap.find (ms.foldl (fun ret m => m.conventions.foldl (fun r n => r.insertKeep n.1 n.2) ret) ret) x =
        (ret.find x).or (ms.findSome? (fun m => OMap.find m.conventions x)) := by
    intro ms
    induction ms with
    | nil => intro ret _; simp
    | cons m ms ih =>
      intro ret hr
      obtain ⟨h1, h2⟩ := find_keepAll m.conventions ret hr
      rw [List.foldl_cons, ih _ h1, h2, List.findSome?_cons]
      cases OMap.find ret x with
      | some v => rfl
      | none => cases OMap.find m.conventions x <;> rfl
  unfold Assembler.jumpTargetReturnConventions
  rw [key a.modules [] List.Pairwise.nil]
  simp [OMap.find]

/-- The first element with an answer. -/
theorem findSome_first {α β : Type} {f : α → Option β} {l : List α} {b : β} :
    l.findSome? f = some b ↔
      ∃ (i : Nat) (x : α), l[i]? = some x ∧ f x = some b ∧ ∀ (j : Nat) (y : α), j < i → l[j]? = some y → f y = none := by
  induction l with
  | nil => simp
  | cons z l ih =>
    rw [List.findSome?_cons]
    cases hz : f z with
    | some w =>
      simp only [Option.some.injEq]
      constructor
      · rintro rfl; exact ⟨0, z, rfl, hz, fun j y hj => by omega⟩
      · rintro ⟨i, x, hx, hf, hall⟩
        cases i with
        | zero => simp at hx; subst hx; rw [hz] at hf; cases hf; rfl
        | succ i =>
          have := hall 0 z (by omega) rfl
          rw [hz] at this; cases this
    | none =>
      simp only
      rw [ih]
      constructor
      · rintro ⟨i, x, hx, hf, hall⟩
        refine ⟨i + 1, x, by simpa using hx, hf, fun j y hj hy => ?_⟩
        cases j with
        | zero => simp at hy; subst hy; exact hz
        | succ j => exact hall j y (by omega) (by simpa using hy)
      · rintro ⟨i, x, hx, hf, hall⟩
        cases i with
        | zero => simp at hx; subst hx; rw [hz] at hf; cases hf
        | succ i =>
          exact ⟨i, x, by simpa using hx, hf, fun j y hj hy => hall (j + 1) y (by omega) (by simpa using hy)⟩

/-- The tables of a module of a finished assembly. -/
theorem assembled_tables {σ : Type} {fuel : Nat} {files : List (List Str)} {sink : Sink σ} {s s' : σ}
    {a : Assembler} (h : Assembler.assembleFiles fuel files sink s = (s', .ok a)) (i : Nat) (m : Module)
    (hm : a.modules[i]? = some m) :
    NamesRight m ∧ (∀ g ∈ m.globals, ∃ x, AddressOf m g.2 x) ∧ ∀ x r, OMap.find m.conventions x = some r ↔
      LastSays (fun l => Declares (m.lookup l.scopes (Assembler.lookup a.modules a.names)) l) m.lines x r := by
  obtain ⟨m₀, s1, s2, h1, h2, h3, h4⟩ := assembled_last h i m hm
  obtain ⟨o, names, p1, p2, p3⟩ := assemble_parts h1
  have hcan : Canonical m₀.owned.ranges := by
    rw [h2]; exact ⟨by simp [DataRange.empty], by simp [DataRange.empty]⟩
  have hlines : m.lines = m₀.lines := by rw [p3]
  have hglob : m.globals = m₀.globals := by rw [p3]
  have hnames : m.addrNames = names := by rw [p3]
  have hconv : m.conventions = o.conventions := by rw [p3]
  have hlook : m.lookup = m₀.lookup := by
    have hs : SameSource m₀ m := by rw [p3]; exact ⟨rfl, rfl, rfl, rfl⟩
    exact hs.lookup
  have haddr : ∀ t x, AddressOf m t x ↔ AddressOf m₀ t x := by
    intro t x; unfold AddressOf; rw [hlines]
  refine ⟨fun x => ?_, fun g hg => ?_, fun x r => ?_⟩
  · obtain ⟨n1, n2⟩ := nameAddresses_names p2 x
    rw [h4] at n1 n2
    simp only [hnames, hglob, haddr]
    refine ⟨by rw [n1]; simp [HMap.find], fun n hn => ?_⟩
    rcases n2 n hn with hc | hc
    · cases hc
    · exact hc
  · rw [hglob] at hg
    obtain ⟨x, hx⟩ := (nameAddresses_iff _).mp ⟨names, p2⟩ g hg
    exact ⟨x, (haddr _ _).mpr hx⟩
  · obtain ⟨c1, c2⟩ := assembleLines_conventions (o := ⟨m₀.owned, m₀.targets, m₀.conventions⟩) hcan
      (by simp only [h3]; exact List.Pairwise.nil) p1
    rw [hconv, c2, hlook, hlines]
    simp [h3, OMap.find]

end Nsasm
