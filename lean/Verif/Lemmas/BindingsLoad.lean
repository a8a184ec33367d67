import Verif.Lemmas.Bindings
import Verif.Props.Link

/-! # Only what the names stand for matters: loading -/

namespace Nsasm.Bindings
open Spec

/-- The name of the module after a statement. -/
def stepName (n : Str) : Statement → Str
  | .dir d => if d.name = .module_ then d.argument.simpleIdentifier.getD n else n
  | .instr _ => n

def Fresh (m : Module) : Prop := ∀ l ∈ m.lines, l.incoming = .default

theorem addLabel_fresh {m m' : Module} {sc : List Nat} {l : ParsedLabel} {t : Nat} (h : m.addLabel sc l t = .ok m') :
    m'.name = m.name ∧ (Fresh m → Fresh m') := by
  unfold Module.addLabel at h
  generalize (if l.exported = true then [] else sc) = s at h
  cases s with
  | nil =>
    simp only at h
    split at h
    · cases h
    · cases h; exact ⟨rfl, fun hf => hf⟩
  | cons s r =>
    simp only at h
    split at h
    · cases h
    · cases h
      refine ⟨rfl, fun hf q hq => ?_⟩
      obtain ⟨k, hk⟩ := List.getElem?_of_mem hq
      simp only [Module.addLocal, List.getElem?_modify] at hk
      cases hl : m.lines[k]? with
      | none => rw [hl] at hk; simp at hk
      | some x =>
        have hx := hf x (List.mem_of_getElem? hl)
        rw [hl] at hk
        by_cases e : s = k
        · simp [e] at hk; subst hk; exact hx
        · simp [e] at hk; subst hk; exact hx

theorem addLabels_fresh {sc : List Nat} {t : Nat} : ∀ {ls : List ParsedLabel} {m m' : Module}, m.addLabels sc t ls = .ok m' →
    m'.name = m.name ∧ (Fresh m → Fresh m') := by
  intro ls
  induction ls with
  | nil => intro m m' h; cases h; exact ⟨rfl, fun h => h⟩
  | cons l ls ih =>
    intro m m' h
    rw [Module.addLabels] at h
    obtain ⟨m1, h1, h2⟩ := Res.bind_eq_ok.mp h
    obtain ⟨a1, a2⟩ := addLabel_fresh h1
    obtain ⟨b1, b2⟩ := ih h2
    exact ⟨b1.trans a1, fun h => b2 (a2 h)⟩

theorem loadStatement_fresh {ld ld' : Module.Loading} {st : Statement} (h : Module.loadStatement ld st = .ok ld') :
    ld'.m.name = stepName ld.m.name st ∧ (Fresh ld.m → Fresh ld'.m) := by
  unfold Module.loadStatement at h
  obtain ⟨m1, h1, h2⟩ := Res.bind_eq_ok.mp h
  obtain ⟨a1, a2⟩ := addLabels_fresh h1
  have a3 : Fresh ld.m → Fresh m1 := by
    refine fun hf => a2 fun q hq => ?_
    rcases List.mem_append.mp hq with hq | hq
    · exact hf q hq
    · cases List.mem_singleton.mp hq; rfl
  cases st with
  | instr i => cases h2; exact ⟨a1, a3⟩
  | dir d =>
    simp only [Module.loadDirective] at h2
    simp only [stepName]
    by_cases hm : d.name = .module_
    · rw [if_pos hm] at h2 ⊢
      split at h2
      · cases h2
      · cases hs : d.argument.simpleIdentifier with
        | none => rw [hs] at h2; cases h2
        | some id => rw [hs] at h2; cases h2; exact ⟨rfl, a3⟩
    · rw [if_neg hm] at h2 ⊢
      split at h2
      · cases h2; exact ⟨a1, a3⟩
      · split at h2
        · cases hs : ld.scopes with
          | nil => simp only [hs] at h2; cases h2
          | cons _ _ => simp only [hs] at h2; cases h2; exact ⟨a1, a3⟩
        · cases h2; exact ⟨a1, a3⟩

theorem loadItems_fresh {items : List Item} : ∀ {ld ld' : Module.Loading} (ls : List ParsedLabel), Module.loadItems ld items = .ok ld' →
    ld'.m.name = (program ls items).foldl (fun n (l : ProgLine) => stepName n l.statement) ld.m.name ∧ (Fresh ld.m → Fresh ld'.m) := by
  induction items with
  | nil => intro ld ld' ls h; cases h; exact ⟨rfl, fun h => h⟩
  | cons it items ih =>
    intro ld ld' ls h
    cases it with
    | label l => exact ih (ld := { ld with pending := ld.pending ++ [l] }) (ls ++ [l]) h
    | stmt st =>
      rw [Module.loadItems] at h
      obtain ⟨ld1, h1, h2⟩ := Res.bind_eq_ok.mp h
      obtain ⟨a1, a2⟩ := loadStatement_fresh h1
      obtain ⟨b1, b2⟩ := ih [] h2
      rw [a1] at b1
      exact ⟨b1, fun h => b2 (a2 h)⟩

theorem load_fresh {file : List Str} {m : Module} {items : List Item} (hF : FileItems file items) (h : Module.loadAsmFile file = .ok m) :
    m.name = (program [] items).foldl (fun n (l : ProgLine) => stepName n l.statement) [] ∧ Fresh m ∧ LoadInv (program [] items) m ∧
      m.deps = m.dependencies := by
  obtain ⟨items', hF', hI, -, hd⟩ := loadAsmFile_ok h
  cases Props.fileItems_unique hF hF'
  unfold Module.loadAsmFile at h
  obtain ⟨ld, h1, h2⟩ := Res.bind_eq_ok.mp h
  obtain ⟨its, hF2, hl⟩ := (loadLines_ok file _ _).mp h1
  cases Props.fileItems_unique hF hF2
  obtain ⟨a1, a2⟩ := loadItems_fresh [] hl
  have a3 : Fresh ld.m := a2 fun l hl => by simp [Module.empty] at hl
  unfold Module.finishLoad at h2
  cases hs : ld.scopes with
  | cons _ _ => rw [hs] at h2; cases h2
  | nil => rw [hs] at h2; cases h2; exact ⟨a1, a3, hI, hd⟩

section
variable {P P' : Program} {m m' : Module}

theorem wideTable (P : Program) : tableOf none (defs P) = (List.range P.length).flatMap fun k =>
    match P[k]? with
    | some line => ((wideLabels P k line).map (·.name)).map fun n => (n, k)
    | none => [] := by
  unfold tableOf defs
  rw [List.filterMap_flatMap]
  apply List.flatMap_congr
  intro k hk
  have hk' : k ≤ P.length := by have := List.mem_range.mp hk; omega
  cases P[k]? with
  | none => rfl
  | some line =>
    simp only [lineDefs, wideLabels]
    induction line.labels with
    | nil => rfl
    | cons l ls ih =>
      simp only [List.map_cons, List.filterMap_cons, List.filter_cons]
      by_cases hs : scopeOf P l k = none
      · rw [if_pos hs, if_pos (by simpa using (inScope_iff hk' none).mpr hs)]
        simp [ih]
      · rw [if_neg hs, if_neg (by simpa using fun h => hs ((inScope_iff hk' none).mp h))]
        exact ih

theorem alike_stepName {R : FullId → FullId → Prop} {st st' : Statement} (h : AlikeStatement R st st') (n : Str) :
    stepName n st' = stepName n st := by
  cases h with
  | instr _ _ => rfl
  | dir hn _ _ => simp only [stepName, if_neg hn]
  | module_ _ => rfl

theorem pointwise_foldl {P P' : Program} (hl : P'.length = P.length)
    (h : ∀ (k : Nat) (a b : ProgLine), P[k]? = some a → P'[k]? = some b → ∀ n, stepName n b.statement = stepName n a.statement) (n : Str) :
    P'.foldl (fun n (l : ProgLine) => stepName n l.statement) n = P.foldl (fun n (l : ProgLine) => stepName n l.statement) n := by
  induction P generalizing P' n with
  | nil => cases List.length_eq_zero_iff.mp hl; rfl
  | cons a P ih =>
    cases P' with
    | nil => cases hl
    | cons b P' =>
      rw [List.foldl_cons, List.foldl_cons, h 0 a b rfl rfl]
      exact ih (by simpa using hl) (fun k x y h1 h2 => h (k + 1) x y (by simpa using h1) (by simpa using h2)) _

theorem forall2_of_get {α β : Type} {R : α → β → Prop} {xs : List α} {ys : List β} (hl : ys.length = xs.length)
    (h : ∀ (k : Nat) x y, xs[k]? = some x → ys[k]? = some y → R x y) : List.Forall₂ R xs ys := by
  induction xs generalizing ys with
  | nil => cases List.length_eq_zero_iff.mp hl; exact .nil
  | cons a xs ih =>
    cases ys with
    | nil => cases hl
    | cons b ys =>
      exact .cons (h 0 a b rfl rfl) (ih (by simpa using hl) fun k x y h1 h2 => h (k + 1) x y (by simpa using h1) (by simpa using h2))

theorem sameThing_tied (hI : LoadInv P m) (hI' : LoadInv P' m') {k : Nat} (hk : k ≤ P.length) (hk' : k ≤ P'.length) {id id' : FullId}
    (h : SameThing P P' k id id') : Tied m.localIndex m'.localIndex (openAt P k) (openAt P' k) id id' := by
  have none_of : ∀ {P : Program} {m : Module} (_ : LoadInv P m) (_ : k ≤ P.length) {n : Str}, (∀ t, ¬ Resolves P k n t) →
      m.localIndex n (openAt P k) = none := by
    intro P m hI hk n hn
    cases hx : m.localIndex n (openAt P k) with
    | none => rfl
    | some t => exact absurd ((Props.localIndex_resolves hI n t k hk).mp hx) (hn t)
  cases h with
  | own h1 h2 =>
    have e1 := (Props.localIndex_resolves hI _ _ k hk).mpr h1
    have e2 := (Props.localIndex_resolves hI' _ _ k hk').mpr h2
    exact .own (e2.trans e1.symm) fun hn => by rw [hn] at e1; cases e1
  | foreign h1 h2 => exact .own ((none_of hI' hk' h2).trans (none_of hI hk h1).symm) fun _ => rfl
  | qualified q n => exact .qualified q n

theorem isLocal_tied (hn : m'.name = m.name) (hg : m'.globals = m.globals) {sc sc' : List Nat} {id id' : FullId}
    (h : Tied m.localIndex m'.localIndex sc sc' id id') : m'.isLocal sc' id' = m.isLocal sc id := by
  cases h with
  | own h1 h2 => simp only [Module.isLocal, h1]
  | qualified q n => simp only [Module.isLocal, hn, Module.localIndex, hg]

theorem dependencies_twin (hn : m'.name = m.name) (hg : m'.globals = m.globals)
    (hl : List.Forall₂ (LineTwin m.localIndex m'.localIndex) m.lines m'.lines) : m'.dependencies = m.dependencies := by
  unfold Module.dependencies
  revert hl
  generalize m.lines = ls
  generalize m'.lines = ls'
  intro hl
  induction hl with
  | nil => rfl
  | @cons l l' ls ls' h _ ih =>
    rw [List.flatMap_cons, List.flatMap_cons, ih]
    congr 1
    obtain ⟨st, lb, re, inc, v, sc, lo⟩ := l
    obtain ⟨st', lb', re', inc', v', sc', lo'⟩ := l'
    have ha : AlikeStatement (Tied m.localIndex m'.localIndex sc sc') st st' := h.statement
    simp only
    cases ha with
    | instr _ _ => rfl
    | module_ hm => simp [hm]
    | dir h1 h2 h3 =>
      simp only
      split
      · refine externalNames_alike h2 (fun _ _ hi => isLocal_tied hn hg hi) fun id id' hi hf => ?_
        cases hi with
        | qualified q n => rfl
        | own h4 h5 =>
          rw [h5]
          simpa [Module.isLocal] using hf
      · rfl

theorem loaded_twin (hI : LoadInv P m) (hI' : LoadInv P' m') (hF : Fresh m) (hF' : Fresh m') (hd : m.deps = m.dependencies)
    (hd' : m'.deps = m'.dependencies) (hn : m.name = P.foldl (fun n (l : ProgLine) => stepName n l.statement) [])
    (hn' : m'.name = P'.foldl (fun n (l : ProgLine) => stepName n l.statement) []) (h : SameBindings P P') : ModuleTwin m m' := by
  have hname : m'.name = m.name := by
    rw [hn, hn']
    exact pointwise_foldl h.length (fun k a b h1 h2 n => alike_stepName (h.statement k a b h1 h2) n) []
  have hglob : m'.globals = m.globals := by
    rw [hI.globals, hI'.globals, wideTable, wideTable, h.length]
    apply List.flatMap_congr
    intro k hk
    have hk := List.mem_range.mp hk
    have e1 := List.getElem?_eq_getElem hk
    have e2 := List.getElem?_eq_getElem (l := P') (i := k) (by rw [h.length]; exact hk)
    rw [e1, e2]
    simp only [h.wide k _ _ e1 e2]
  have hlines : List.Forall₂ (LineTwin m.localIndex m'.localIndex) m.lines m'.lines := by
    refine forall2_of_get (by rw [hI.length, hI'.length, h.length]) fun k l l' h1 h2 => ?_
    obtain ⟨⟨pl, a1, a2⟩, a3, a4, a5⟩ := hI.line k l h1
    obtain ⟨⟨pl', b1, b2⟩, b3, b4, b5⟩ := hI'.line k l' h2
    refine ⟨by rw [a4, b4], by rw [hF l (List.mem_of_getElem? h1), hF' l' (List.mem_of_getElem? h2)], by rw [a5, b5], ?_⟩
    rw [a2, a3, b2, b3]
    have k1 : k ≤ P.length := by have := (List.getElem?_eq_some_iff.mp a1).1; omega
    have k2 : k ≤ P'.length := by have := (List.getElem?_eq_some_iff.mp b1).1; omega
    exact alike_mono (fun _ _ hi => sameThing_tied hI hI' k1 k2 hi) (h.statement k pl pl' a1 b1)
  obtain ⟨f1, f2, f3, f4⟩ := hI.fresh
  obtain ⟨g1, g2, g3, g4⟩ := hI'.fresh
  exact ⟨hname, hlines, by rw [hd, hd']; exact dependencies_twin hname hglob hlines, hglob, by rw [f1, g1], by rw [f2, g2],
    by rw [f3, g3], by rw [f4, g4]⟩

theorem ModuleTwin.refl (m : Module) : ModuleTwin m m where
  name := rfl
  lines := List.forall₂_same.mpr fun l _ => ⟨rfl, rfl, rfl, alike_refl (fun id => by
    obtain ⟨q, n⟩ := id
    cases q with
    | none => exact .own rfl fun _ => rfl
    | some q => exact .qualified q n) _⟩
  deps := rfl
  globals := rfl
  owned := rfl
  addrNames := rfl
  targets := rfl
  conventions := rfl

theorem load_twin {f f' : List Str} (h : SameFile f f') : Twin ModuleTwin (Module.loadAsmFile f) (Module.loadAsmFile f') := by
  rcases h with rfl | ⟨items, items', hF, hF', ⟨m, hm⟩, ⟨m', hm'⟩, hb⟩
  · cases Module.loadAsmFile f' with
    | ok m => exact .ok (.refl m)
    | err e => exact .err e
    | ub u => exact .ub u
  · rw [hm, hm']
    obtain ⟨a1, a2, a3, a4⟩ := load_fresh hF hm
    obtain ⟨b1, b2, b3, b4⟩ := load_fresh hF' hm'
    exact .ok (loaded_twin a3 b3 a2 b2 a4 b4 a1 b1 hb)

end

end Nsasm.Bindings
