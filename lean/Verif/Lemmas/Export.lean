import Verif.Lemmas.DebugPrint
import Verif.Spec.Export

namespace Nsasm.Debug
open Nsasm Nsasm.Spec Nsasm.Props

theorem addLabels_top (m : Module) (t : Nat) : ∀ (ls ls' : List ParsedLabel), ls.map (·.name) = ls'.map (·.name) → ∀ m : Module,
    m.addLabels [] t ls = m.addLabels [] t ls' := by
  intro ls
  induction ls with
  | nil => intro ls' h m; cases ls' with
    | nil => rfl
    | cons => cases h
  | cons l ls ih =>
    intro ls' h m
    cases ls' with
    | nil => cases h
    | cons l' ls' =>
      simp only [List.map_cons, List.cons.injEq] at h
      have e : ∀ m : Module, m.addLabel [] l t = m.addLabel [] l' t := by
        intro m
        unfold Module.addLabel
        simp only [ite_self, h.1]
      rw [Module.addLabels, Module.addLabels, e m]
      exact congrArg _ (funext fun m => ih _ h.2 m)

theorem loadStatement_top {ld : Module.Loading} {ls ls' : List ParsedLabel} (st : Statement) (h : ls.map (·.name) = ls'.map (·.name))
    (hs : ld.scopes = []) :
    Module.loadStatement { ld with pending := ls } st = Module.loadStatement { ld with pending := ls' } st := by
  unfold Module.loadStatement
  simp only [hs, Module.newLine, h]
  rw [addLabels_top ld.m _ ls ls' h]

/-- By how much a statement changes the number of open scopes. -/
def opens (p : ProgLine) : Int := (if IsDirective .begin_ p then 1 else 0) - (if IsDirective .end_ p then 1 else 0)

theorem level_cons (p : ProgLine) (P : Program) (k : Nat) : level (p :: P) (k + 1) = opens p + level P k := by
  unfold level opens
  rw [List.take_succ_cons, List.countP_cons, List.countP_cons]
  split <;> split <;> push_cast <;> omega

theorem loadStatement_scopes {ld ld' : Module.Loading} {p : ProgLine} (h : Module.loadStatement ld p.statement = .ok ld') :
    (ld'.scopes.length : Int) = ld.scopes.length + opens p := by
  unfold Module.loadStatement at h
  obtain ⟨m, h1, h⟩ := Res.bind_eq_ok.mp h
  unfold opens IsDirective
  obtain ⟨ls, st⟩ := p
  cases st with
  | instr i => cases h; simp
  | dir d =>
    replace h : Module.loadDirective ⟨m, [], ld.scopes⟩ ld.m.lines.length d = .ok ld' := h
    unfold Module.loadDirective at h
    split at h
    · next hn =>
      split at h
      · cases h
      · split at h
        · cases h
        · cases h; simp [hn]
    · split at h
      · next hn => cases h; simp [hn]
      · split at h
        · next hn1 hn2 hn =>
          split at h
          · cases h
          · next hs => cases h; simp only at hs; rw [hs]; simp [hn]; omega
        · next hn1 hn2 hn3 => cases h; simp [hn2, hn3]

theorem loadProgram_scopes : ∀ {P Q : Program} {ld : Module.Loading}, List.Forall₂ SameButExport P Q →
    (∀ (k : Nat) (p q : ProgLine), P[k]? = some p → Q[k]? = some q → (ld.scopes.length : Int) + level P k ≠ 0 → p = q) →
    loadProgram ld P = loadProgram ld Q := by
  intro P Q ld h
  induction h generalizing ld with
  | nil => intro _; rfl
  | @cons p q P Q h _ ih =>
    intro hk
    have e : Module.loadStatement { ld with pending := p.labels } p.statement =
        Module.loadStatement { ld with pending := q.labels } q.statement := by
      by_cases hs : ld.scopes = []
      · rw [← h.1]; exact loadStatement_top _ h.2 hs
      · have hpos := List.length_pos_iff.2 hs
        have := hk 0 p q rfl rfl (by simp [level]; omega)
        rw [this]
    rw [loadProgram, loadProgram, ← e]
    cases hl : Module.loadStatement { ld with pending := p.labels } p.statement with
    | err e => rfl
    | ub u => rfl
    | ok ld1 =>
      refine ih fun k p' q' hp hq hne => hk (k + 1) p' q' hp hq ?_
      rw [level_cons]
      have := loadStatement_scopes hl
      simp only at this
      omega

theorem load_same_scopes {f g : List Str} {is js : List Item} (hf : FileItems f is) (hg : FileItems g js)
    (h : SameInScopes (program [] is) (program [] js)) : Module.loadAsmFile f = Module.loadAsmFile g := by
  unfold Module.loadAsmFile
  rw [Shift.loadLines_items hf, Shift.loadLines_items hg]
  refine (loadItems_program is _).trans (Eq.trans ?_ (loadItems_program js _).symm)
  rw [loadProgram_scopes h.1]
  intro k p q hp hq hl
  exact h.2 k p q hp hq (by simpa using hl)

/-- The plain items have the same program, if `export` is written in no scope. -/
theorem plain_same {P : Program} (h : ExportsOutside P) :
    SameInScopes P (program [] (plainItems P)) := by
  rw [program_plain]
  refine ⟨?_, fun k p q hp hq hl => ?_⟩
  · clear h
    induction P with
    | nil => exact .nil
    | cons p P ih => exact .cons ⟨rfl, by simp⟩ ih
  · rw [List.getElem?_map, hp] at hq
    cases hq
    have : p.labels.map (fun l => ({ l with exported := false } : ParsedLabel)) = p.labels := by
      conv => rhs; rw [← List.map_id p.labels]
      refine List.map_congr_left fun l hx => ?_
      have e := h k p hp hl l hx
      obtain ⟨n, ex⟩ := l
      cases e
      rfl
    show p = { p with labels := p.labels.map fun l => { l with exported := false } }
    rw [this]

end Nsasm.Debug
