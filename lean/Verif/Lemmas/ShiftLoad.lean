import Verif.Lemmas.ShiftLink

/-! # A line more in a file: loading -/

namespace Nsasm.Shift
open Spec Parse

/-- Every line a module refers to is one of its lines. -/
structure Low (n : Nat) (m : Module) : Prop where
  globals : ∀ e ∈ m.globals, e.2 < n
  lines : ∀ l ∈ m.lines, (∀ s ∈ l.scopes, s < n) ∧ ∀ e ∈ l.locals, e.2 < n

def LowLoading (ld : Module.Loading) : Prop := Low ld.m.lines.length ld.m ∧ ∀ s ∈ ld.scopes, s < ld.m.lines.length

theorem Low.mono {n k : Nat} {m : Module} (h : Low n m) (hk : n ≤ k) : Low k m :=
  ⟨fun e he => Nat.lt_of_lt_of_le (h.globals e he) hk,
    fun l hl => ⟨fun s hs => Nat.lt_of_lt_of_le ((h.lines l hl).1 s hs) hk, fun e he => Nat.lt_of_lt_of_le ((h.lines l hl).2 e he) hk⟩⟩

theorem low_addLabel {n t : Nat} {m m' : Module} (h : Low n m) (ht : t < n) {scopes : List Nat} {l : ParsedLabel}
    (hm : m.addLabel scopes l t = .ok m') : Low n m' := by
  unfold Module.addLabel at hm
  split at hm <;> split at hm <;> cases hm
  · refine ⟨fun e he => ?_, h.lines⟩
    simp only [HMap.insertNew, List.mem_append, List.mem_singleton] at he
    rcases he with he | rfl
    · exact h.globals e he
    · exact ht
  · refine ⟨h.globals, fun x hx => ?_⟩
    simp only [Module.addLocal] at hx
    obtain ⟨i, hi⟩ := List.mem_iff_getElem?.mp hx
    rw [List.getElem?_modify] at hi
    simp only [Option.map_eq_map, Option.map_eq_some_iff] at hi
    obtain ⟨y, hy, rfl⟩ := hi
    have hly := h.lines y (List.mem_of_getElem? hy)
    split
    · refine ⟨hly.1, fun e he => ?_⟩
      simp only [HMap.insertNew, List.mem_append, List.mem_singleton] at he
      rcases he with he | rfl
      · exact hly.2 e he
      · exact ht
    · exact hly

theorem low_addLabels {n t : Nat} (ht : t < n) {scopes : List Nat} : ∀ (ls : List ParsedLabel) {m m' : Module}, Low n m →
    m.addLabels scopes t ls = .ok m' → Low n m' := by
  intro ls
  induction ls with
  | nil => intro m m' h hm; cases hm; exact h
  | cons l ls ih =>
    intro m m' h hm
    rw [Module.addLabels] at hm
    obtain ⟨m1, h1, hm⟩ := Res.bind_eq_ok.mp hm
    exact ih (low_addLabel h ht h1) hm

theorem low_loadDirective {ld ld' : Module.Loading} {i : Nat} {d : Directive} (h : LowLoading ld) (hi : i < ld.m.lines.length)
    (hd : Module.loadDirective ld i d = .ok ld') : LowLoading ld' := by
  unfold Module.loadDirective at hd
  split at hd
  · split at hd
    · cases hd
    · split at hd <;> cases hd
      exact ⟨⟨h.1.globals, h.1.lines⟩, h.2⟩
  · split at hd
    · cases hd
      refine ⟨h.1, fun s hs => ?_⟩
      rcases List.mem_cons.mp hs with rfl | hs
      · exact hi
      · exact h.2 s hs
    · split at hd
      · split at hd
        · cases hd
        · rename_i hsc
          cases hd
          exact ⟨h.1, fun s hs => h.2 s (by rw [hsc]; exact List.mem_cons_of_mem _ hs)⟩
      · cases hd; exact h

theorem low_loadStatement {ld ld' : Module.Loading} {st : Statement} (h : LowLoading ld) (hs : Module.loadStatement ld st = .ok ld') :
    LowLoading ld' := by
  unfold Module.loadStatement at hs
  obtain ⟨m, hm, hs⟩ := Res.bind_eq_ok.mp hs
  have hlen := addLabels_length _ _ _ hm
  simp only [List.length_append, List.length_cons, List.length_nil] at hlen
  have hlow : Low (ld.m.lines.length + 1) { ld.m with lines := ld.m.lines ++ [Module.newLine st ld.pending ld.scopes] } := by
    refine ⟨fun e he => Nat.lt_succ_of_lt (h.1.globals e he), fun l hl => ?_⟩
    rcases List.mem_append.mp hl with hl | hl
    · exact (h.1.mono (Nat.le_succ _)).lines l hl
    · rw [List.mem_singleton.mp hl]
      exact ⟨fun s hs => Nat.lt_succ_of_lt (h.2 s hs), fun e he => nomatch he⟩
  have hlow1 := low_addLabels (Nat.lt_succ_self _) _ hlow hm
  have hl1 : LowLoading ⟨m, [], ld.scopes⟩ := by
    refine ⟨?_, fun s hs => ?_⟩
    · show Low m.lines.length m; rw [hlen]; exact hlow1
    · show s < m.lines.length; rw [hlen]; exact Nat.lt_succ_of_lt (h.2 s hs)
  cases st with
  | instr i => cases hs; exact hl1
  | dir d => exact low_loadDirective hl1 (by show _ < m.lines.length; omega) hs

theorem low_loadItems : ∀ (items : List Item) {ld ld' : Module.Loading}, LowLoading ld → Module.loadItems ld items = .ok ld' →
    LowLoading ld' := by
  intro items
  induction items with
  | nil => intro ld ld' h hl; cases hl; exact h
  | cons it items ih =>
    intro ld ld' h hl
    cases it with
    | label l => exact ih (ld := { ld with pending := ld.pending ++ [l] }) h hl
    | stmt st =>
      rw [Module.loadItems] at hl
      obtain ⟨ld1, h1, hl⟩ := Res.bind_eq_ok.mp hl
      exact ih (low_loadStatement h h1) hl

/-! ## The last line does not matter -/

def withLast (x : Line) (m : Module) : Module := { m with lines := m.lines ++ [x] }

theorem modify_append_lt {α : Type} (g : α → α) : ∀ {ls ys : List α} {k : Nat}, k < ls.length →
    (ls ++ ys).modify k g = ls.modify k g ++ ys
  | [], _, _, h => by simp at h
  | l :: ls, ys, 0, _ => by simp
  | l :: ls, ys, k + 1, h => by
    rw [List.cons_append, List.modify_succ_cons, List.modify_succ_cons, List.cons_append, modify_append_lt g (by simpa using h)]

theorem addLabel_last (x : Line) {m : Module} {scopes : List Nat} (hs : ∀ s ∈ scopes, s < m.lines.length) (l : ParsedLabel) (t : Nat) :
    (withLast x m).addLabel scopes l t = withLast x <$> m.addLabel scopes l t := by
  unfold Module.addLabel
  have hsc : ∀ s ∈ (if l.exported then [] else scopes), s < m.lines.length := by
    intro s h
    split at h
    · cases h
    · exact hs s h
  cases hsc' : (if l.exported then [] else scopes) with
  | nil => exact ite_ren Iff.rfl (fun _ => rfl) fun _ => rfl
  | cons s r =>
    rw [hsc'] at hsc
    have hlt := hsc s (by simp)
    have hloc : (withLast x m).localsAt s = m.localsAt s := by
      unfold Module.localsAt
      show (match (m.lines ++ [x])[s]? with | some l => l.locals | none => []) = _
      rw [List.getElem?_append_left hlt]; rfl
    refine ite_ren (by rw [hloc]) (fun _ => rfl) fun _ => ?_
    show Res.ok _ = Res.ok _
    congr 1
    simp only [withLast, Module.addLocal]
    congr 1
    exact modify_append_lt _ hlt

theorem addLabels_last (x : Line) {scopes : List Nat} (t : Nat) : ∀ (ls : List ParsedLabel) {m : Module}, (∀ s ∈ scopes, s < m.lines.length) →
    (withLast x m).addLabels scopes t ls = withLast x <$> m.addLabels scopes t ls := by
  intro ls
  induction ls with
  | nil => intro m _; rfl
  | cons l ls ih =>
    intro m hs
    rw [Module.addLabels, Module.addLabels, addLabel_last x hs]
    cases hm : m.addLabel scopes l t with
    | err e => rfl
    | ub u => rfl
    | ok m1 => exact ih (by rw [addLabel_length hm]; exact hs)

/-- Loading a statement that opens or closes nothing. -/
theorem loadStatement_plain {ld : Module.Loading} (h : LowLoading ld) {st : Statement}
    (hst : ∀ d, st = .dir d → d.name ≠ .module_ ∧ d.name ≠ .begin_ ∧ d.name ≠ .end_) :
    Module.loadStatement ld st = (fun m => ⟨withLast (Module.newLine st ld.pending ld.scopes) m, [], ld.scopes⟩) <$>
      ld.m.addLabels ld.scopes ld.m.lines.length ld.pending := by
  unfold Module.loadStatement
  show ((withLast (Module.newLine st ld.pending ld.scopes) ld.m).addLabels ld.scopes ld.m.lines.length ld.pending >>= _) = _
  rw [addLabels_last (Module.newLine st ld.pending ld.scopes) _ _ h.2]
  cases ld.m.addLabels ld.scopes ld.m.lines.length ld.pending with
  | err e => rfl
  | ub u => rfl
  | ok m =>
    cases st with
    | instr i => rfl
    | dir d =>
      obtain ⟨h1, h2, h3⟩ := hst d rfl
      show Module.loadDirective _ _ d = _
      simp only [Module.loadDirective, h1, h2, h3, if_false]
      rfl

theorem shLine_low {p : Nat} {l : Line} (h : (∀ s ∈ l.scopes, s < p) ∧ ∀ e ∈ l.locals, e.2 < p) : shLine p l = l := by
  have h1 : l.scopes.map (sh p) = l.scopes := by
    conv => rhs; rw [← List.map_id l.scopes]
    exact List.map_congr_left fun s hs => sh_lt (h.1 s hs)
  have h2 : shMap p l.locals = l.locals := by
    unfold shMap
    conv => rhs; rw [← List.map_id l.locals]
    exact List.map_congr_left fun e he => by rw [sh_lt (h.2 e he)]; rfl
  unfold shLine
  rw [h1, h2]

theorem insAt_last {p : Nat} {φ : Statement → Statement} {nl x : Line} : ∀ {ls : List Line}, (∀ l ∈ ls, shLine p l = l) →
    insAt p φ nl (ls.length + 1) (ls ++ [x]) = ls ++ [markLine p φ x, nl]
  | [], _ => by simp [insAt]
  | l :: ls, h => by
    rw [List.cons_append, List.length_cons, insAt, if_neg (by omega), h l (by simp), insAt_last fun x hx => h x (by simp [hx])]
    rfl

/-- Loading a statement, or what is made of it and a new one. -/
theorem loadStatement_two {p : Nat} {φ : Statement → Statement} {good : Statement → Prop} {nst st : Statement} {ld : Module.Loading}
    (h : LowLoading ld) (hp : p = ld.m.lines.length + 1) (hg : good st)
    (hst : ∀ d, st = .dir d → d.name ≠ .module_ ∧ d.name ≠ .begin_ ∧ d.name ≠ .end_)
    (hst' : ∀ d, φ st = .dir d → d.name ≠ .module_ ∧ d.name ≠ .begin_ ∧ d.name ≠ .end_)
    (hn : ∀ d, nst = .dir d → d.name ≠ .module_ ∧ d.name ≠ .begin_ ∧ d.name ≠ .end_) :
    Both (fun a b => b = insLoading p φ (Module.newLine nst [] ld.scopes) a ∧ a.m.lines.length = p ∧
        Near p good nst a.m.lines (Module.newLine nst [] ld.scopes))
      (Module.loadStatement ld st) (Module.loadStatement ld (φ st) >>= fun ld => Module.loadStatement ld nst) := by
  rw [loadStatement_plain h hst, loadStatement_plain h hst']
  cases hm : ld.m.addLabels ld.scopes ld.m.lines.length ld.pending with
  | err e => exact .fail (fun _ h => nomatch h) fun _ h => nomatch h
  | ub u => exact .fail (fun _ h => nomatch h) fun _ h => nomatch h
  | ok m =>
    have hlen := addLabels_length _ _ _ hm
    have hlow : Low p m := low_addLabels (by omega) _ (h.1.mono (by omega)) hm
    have hsc : ∀ s ∈ ld.scopes, s < p := fun s hs => Nat.lt_of_lt_of_le (h.2 s hs) (by omega)
    have hlow1 : LowLoading ⟨withLast (Module.newLine (φ st) ld.pending ld.scopes) m, [], ld.scopes⟩ := by
      have hl : (withLast (Module.newLine (φ st) ld.pending ld.scopes) m).lines.length = p := by
        simp [withLast, hlen, hp]
      refine ⟨?_, fun s hs => by show s < (withLast _ m).lines.length; rw [hl]; exact hsc s hs⟩
      show Low (withLast _ m).lines.length _
      rw [hl]
      refine ⟨hlow.globals, fun l hl => ?_⟩
      rcases List.mem_append.mp hl with hl | hl
      · exact hlow.lines l hl
      · rw [List.mem_singleton.mp hl]; exact ⟨hsc, fun e he => nomatch he⟩
    show Both _ (Res.ok _) (Module.loadStatement
      ⟨withLast (Module.newLine (φ st) ld.pending ld.scopes) m, [], ld.scopes⟩ nst)
    rw [loadStatement_plain hlow1 hn]
    show Both _ (Res.ok _) (Res.ok _)
    refine .ok ⟨?_, by simp [withLast, hlen, hp], ?_⟩
    · have h1 : shMap p m.globals = m.globals := by
        unfold shMap
        conv => rhs; rw [← List.map_id m.globals]
        exact List.map_congr_left fun e he => by rw [sh_lt (hlow.globals e he)]; rfl
      have h2 : insAt p φ (Module.newLine nst [] ld.scopes) p (m.lines ++ [Module.newLine st ld.pending ld.scopes]) =
          m.lines ++ [Module.newLine (φ st) ld.pending ld.scopes, Module.newLine nst [] ld.scopes] := by
        have := insAt_last (p := p) (φ := φ) (nl := Module.newLine nst [] ld.scopes) (x := Module.newLine st ld.pending ld.scopes)
          (ls := m.lines) fun l hl => shLine_low (hlow.lines l hl)
        rw [hlen, ← hp] at this
        rw [this]
        have hx : markLine p φ (Module.newLine st ld.pending ld.scopes) = shLine p (Module.newLine (φ st) ld.pending ld.scopes) := rfl
        rw [hx, shLine_low ⟨hsc, by simp [Module.newLine]⟩]
      have h3 : ld.scopes.map (sh p) = ld.scopes := by
        conv => rhs; rw [← List.map_id ld.scopes]
        exact List.map_congr_left fun s hs => sh_lt (hsc s hs)
      simp only [insLoading, insModule, withLast, h1, h2, h3, List.append_assoc, List.cons_append, List.nil_append]
    · refine ⟨by simp [withLast, hlen, hp], fun k l hk hl => ?_, rfl⟩
      have hk' : k = m.lines.length := by omega
      subst hk'
      simp only [withLast, List.getElem?_concat_length, Option.some.injEq] at hl
      subst hl
      refine ⟨hg, .inr ?_⟩
      show ld.scopes = ld.scopes.map (sh p)
      conv => lhs; rw [← List.map_id ld.scopes]
      exact (List.map_congr_left fun s hs => sh_lt (hsc s hs)).symm

theorem near_loadStatement {p : Nat} {good : Statement → Prop} {nst st : Statement} {nl : Line} {ld ld' : Module.Loading}
    (h : Near p good nst ld.m.lines nl) (hs : Module.loadStatement ld st = .ok ld') : Near p good nst ld'.m.lines nl := by
  have haddLabel : ∀ {m m' : Module} {scopes : List Nat} {l : ParsedLabel} {t : Nat}, Near p good nst m.lines nl →
      m.addLabel scopes l t = .ok m' → Near p good nst m'.lines nl := by
    intro m m' scopes l t h hm
    unfold Module.addLabel at hm
    split at hm <;> split at hm <;> cases hm
    · exact h
    · refine ⟨by simpa [Module.addLocal] using h.le, fun k x hk hx => ?_, h.statement⟩
      simp only [Module.addLocal, List.getElem?_modify, Option.map_eq_map, Option.map_eq_some_iff] at hx
      obtain ⟨y, hy, rfl⟩ := hx
      have := h.before k y hk hy
      split <;> exact this
  have haddLabels : ∀ (ls : List ParsedLabel) {m m' : Module} {scopes : List Nat} {t : Nat}, Near p good nst m.lines nl →
      m.addLabels scopes t ls = .ok m' → Near p good nst m'.lines nl := by
    intro ls
    induction ls with
    | nil => intro m m' scopes t h hm; cases hm; exact h
    | cons l ls ih =>
      intro m m' scopes t h hm
      rw [Module.addLabels] at hm
      obtain ⟨m1, h1, hm⟩ := Res.bind_eq_ok.mp hm
      exact ih (haddLabel h h1) hm
  unfold Module.loadStatement at hs
  obtain ⟨m, hm, hs⟩ := Res.bind_eq_ok.mp hs
  have hn : Near p good nst m.lines nl := by
    refine haddLabels _ ⟨?_, fun k x hk hx => ?_, h.statement⟩ hm
    · have := h.le; simp; omega
    · have hlt : k < ld.m.lines.length := by have := h.le; omega
      simp only at hx
      rw [List.getElem?_append_left hlt] at hx
      exact h.before k x hk hx
  cases st with
  | instr i => cases hs; exact hn
  | dir d => rw [loadDirective_length hs]; exact hn

theorem near_loadItems {p : Nat} {good : Statement → Prop} {nst : Statement} {nl : Line} : ∀ (items : List Item) {ld ld' : Module.Loading},
    Near p good nst ld.m.lines nl → Module.loadItems ld items = .ok ld' → Near p good nst ld'.m.lines nl := by
  intro items
  induction items with
  | nil => intro ld ld' h hl; cases hl; exact h
  | cons it items ih =>
    intro ld ld' h hl
    cases it with
    | label l => exact ih (ld := { ld with pending := ld.pending ++ [l] }) h hl
    | stmt st =>
      rw [Module.loadItems] at hl
      obtain ⟨ld1, h1, hl⟩ := Res.bind_eq_ok.mp hl
      exact ih (near_loadStatement h h1) hl

theorem finishLoad_ins {p : Nat} {φ : Statement → Statement} {nl : Line} (hφ : Keeps φ) (hd : NoDeps nl) {ld : Module.Loading}
    (h : p ≤ ld.m.lines.length) : Module.finishLoad (insLoading p φ nl ld) = insModule p φ nl <$> Module.finishLoad ld := by
  unfold Module.finishLoad
  show (match ld.scopes.map (sh p) with
    | _ :: _ => Res.err .unclosedScope
    | [] => .ok { insModule p φ nl ld.m with deps := (insModule p φ nl ld.m).dependencies }) = _
  cases ld.scopes with
  | cons s r => rfl
  | nil =>
    show Res.ok _ = Res.ok _
    rw [dependencies_ins hφ hd h]
    rfl

theorem fileItems_unique {file : List Str} {items items' : List Item} (h : FileItems file items) (h' : FileItems file items') :
    items = items' := by
  obtain ⟨per, h1, rfl⟩ := h
  obtain ⟨per', h1', rfl⟩ := h'
  congr 1
  induction h1 generalizing per' with
  | nil => cases h1'; rfl
  | cons hx _ ih =>
    cases h1' with
    | cons hx' hr =>
      obtain ⟨ts, e1, e2⟩ := hx
      obtain ⟨ts', e1', e2'⟩ := hx'
      rw [e1] at e1'; cases e1'
      rw [e2] at e2'; cases e2'
      rw [ih _ hr]

theorem loadAsmFile_iff {file : List Str} {items : List Item} (h : FileItems file items) (m : Module) :
    Module.loadAsmFile file = .ok m ↔ (Module.loadItems ⟨Module.empty, [], []⟩ items >>= Module.finishLoad) = .ok m := by
  unfold Module.loadAsmFile
  rw [Res.bind_eq_ok, Res.bind_eq_ok]
  constructor
  · rintro ⟨ld, h1, h2⟩
    obtain ⟨items', h3, h4⟩ := (loadLines_ok file _ ld).mp h1
    rw [fileItems_unique h h3]
    exact ⟨ld, h4, h2⟩
  · rintro ⟨ld, h1, h2⟩
    exact ⟨ld, (loadLines_ok file _ ld).mpr ⟨items, h, h1⟩, h2⟩

theorem Both.iff {α β : Type} {R : α → β → Prop} {x x' : Res α} {y y' : Res β} (h : Both R x y) (hx : ∀ a, x' = .ok a ↔ x = .ok a)
    (hy : ∀ a, y' = .ok a ↔ y = .ok a) : Both R x' y' := by
  rcases h with ⟨a, b, h1, h2, h3⟩ | ⟨h1, h2⟩
  · exact .inl ⟨a, b, (hx a).mpr h1, (hy b).mpr h2, h3⟩
  · exact .inr ⟨fun a ha => h1 a ((hx a).mp ha), fun a ha => h2 a ((hy a).mp ha)⟩

/-- Loading a file with a statement, and one where it is changed and a new one follows. -/
theorem load_two {φ : Statement → Statement} {good : Statement → Prop} {nst st : Statement} {file file' : List Str} {A B : List Item}
    (hF : FileItems file (A ++ .stmt st :: B)) (hF' : FileItems file' (A ++ .stmt (φ st) :: .stmt nst :: B)) (hg : good st)
    (S : ∀ p, p ≠ 0 → Site p φ good nst) (hstrong : ∀ s, good s → Strong s)
    (hst : ∀ d, st = .dir d → d.name ≠ .module_ ∧ d.name ≠ .begin_ ∧ d.name ≠ .end_)
    (hst' : ∀ d, φ st = .dir d → d.name ≠ .module_ ∧ d.name ≠ .begin_ ∧ d.name ≠ .end_) :
    ∃ p, Site p φ good nst ∧ Both (Loaded p φ good nst) (Module.loadAsmFile file) (Module.loadAsmFile file') := by
  have hn : ∀ d, nst = .dir d → d.name ≠ .module_ ∧ d.name ≠ .begin_ ∧ d.name ≠ .end_ := by
    intro d hd
    obtain ⟨d', hd', h⟩ := (S 1 (by decide)).inert
    rw [hd] at hd'
    cases hd'
    rcases h with h | h
    · refine ⟨?_, ?_, ?_⟩ <;> (intro he; rw [he] at h; simp at h)
    · rw [h.1]; simp
  have key : ∃ p, Site p φ good nst ∧ Both (Loaded p φ good nst)
      (Module.loadItems ⟨Module.empty, [], []⟩ (A ++ .stmt st :: B) >>= Module.finishLoad)
      (Module.loadItems ⟨Module.empty, [], []⟩ (A ++ .stmt (φ st) :: .stmt nst :: B) >>= Module.finishLoad) := by
    rw [loadItems_append, loadItems_append]
    cases hA : Module.loadItems ⟨Module.empty, [], []⟩ A with
    | err e => exact ⟨1, S 1 (by decide), .fail (fun _ h => nomatch h) fun _ h => nomatch h⟩
    | ub e => exact ⟨1, S 1 (by decide), .fail (fun _ h => nomatch h) fun _ h => nomatch h⟩
    | ok ld =>
      have hlow : LowLoading ld := by
        exact low_loadItems A ⟨⟨by simp [Module.empty], by simp [Module.empty]⟩, by simp⟩ hA
      have hS := S (ld.m.lines.length + 1) (by omega)
      refine ⟨ld.m.lines.length + 1, hS, ?_⟩
      simp only [Res.bind_ok]
      rw [Module.loadItems, Module.loadItems]
      have h2 := loadStatement_two (φ := φ) (nst := nst) (good := good) hlow rfl hg hst hst' hn
      have he : (do let ld ← Module.loadStatement ld (φ st); Module.loadItems ld (.stmt nst :: B)) =
          ((Module.loadStatement ld (φ st) >>= fun ld => Module.loadStatement ld nst) >>= fun ld => Module.loadItems ld B) := by
        cases Module.loadStatement ld (φ st) <;> rfl
      rw [he]
      have h3 := h2.bind (S := fun a b => b = insLoading (ld.m.lines.length + 1) φ (Module.newLine nst [] ld.scopes) a ∧
          Near (ld.m.lines.length + 1) good nst a.m.lines (Module.newLine nst [] ld.scopes))
        (f := fun ld => Module.loadItems ld B) (g := fun ld => Module.loadItems ld B) (by
          rintro a b _ ⟨rfl, hl, hnear⟩
          refine (Both.of_map (loadItems_ins B (by omega))).mono fun a' b' ha' h => ⟨h.2, near_loadItems B hnear ha'⟩)
      refine h3.bind ?_
      rintro a b _ ⟨rfl, hnear⟩
      refine (Both.of_map (finishLoad_ins hS.keeps ?_ hnear.le)).mono fun m m' hm h => ?_
      · intro d hd he
        obtain ⟨d', hd', h⟩ := hS.inert
        have : nst = .dir d := hd
        rw [this] at hd'
        cases hd'
        rcases h with h | h
        · rw [he] at h; simp at h
        · exact h.2.2
      · refine ⟨_, h.2, ?_⟩
        unfold Module.finishLoad at hm
        split at hm
        · cases hm
        · cases hm; exact ⟨hnear, .inl fun k l hk hl => hstrong _ (hnear.before k l hk hl).1⟩
  obtain ⟨p, h1, h2⟩ := key
  exact ⟨p, h1, h2.iff (loadAsmFile_iff hF) (loadAsmFile_iff hF')⟩

/-! ## A statement more -/

/-- The statements among the items. -/
def stmtsOf (items : List Item) : List Statement := items.filterMap fun | .label _ => none | .stmt st => some st

theorem program_stmts : ∀ (items : List Item) (ls : List ParsedLabel), (program ls items).map (·.statement) = stmtsOf items
  | [], _ => rfl
  | .label l :: rest, ls => by rw [program]; exact program_stmts rest _
  | .stmt st :: rest, ls => by
    rw [program, List.map_cons, program_stmts rest]; rfl

theorem loaded_stmts {file : List Str} {items : List Item} (hF : FileItems file items) {m : Module}
    (h : Module.loadAsmFile file = .ok m) : m.lines.map (·.statement) = stmtsOf items := by
  obtain ⟨items', hF', hI, -⟩ := loadAsmFile_ok h
  rw [fileItems_unique hF' hF] at hI
  rw [← program_stmts items []]
  apply List.ext_getElem?
  intro i
  rw [List.getElem?_map, List.getElem?_map]
  cases hi : m.lines[i]? with
  | none =>
    rw [List.getElem?_eq_none_iff, hI.length] at hi
    rw [List.getElem?_eq_none_iff.mpr hi]; rfl
  | some l =>
    obtain ⟨⟨pl, h1, h2⟩, -⟩ := hI.line i l hi
    rw [h1]
    simp [h2]

theorem addLabel_statements {m m' : Module} {scopes : List Nat} {l : ParsedLabel} {t : Nat} (hm : m.addLabel scopes l t = .ok m') :
    m'.lines.map (·.statement) = m.lines.map (·.statement) := by
  unfold Module.addLabel at hm
  split at hm <;> split at hm <;> cases hm
  · rfl
  · simp only [Module.addLocal]
    apply List.ext_getElem?
    intro i
    simp only [List.getElem?_map, List.getElem?_modify]
    cases m.lines[i]? with
    | none => rfl
    | some x => simp only [Option.map_eq_map, Option.map_some]; split <;> rfl

theorem addLabels_statements {scopes : List Nat} {t : Nat} : ∀ (ls : List ParsedLabel) {m m' : Module}, m.addLabels scopes t ls = .ok m' →
    m'.lines.map (·.statement) = m.lines.map (·.statement) := by
  intro ls
  induction ls with
  | nil => intro m m' hm; cases hm; rfl
  | cons l ls ih =>
    intro m m' hm
    rw [Module.addLabels] at hm
    obtain ⟨m1, h1, hm⟩ := Res.bind_eq_ok.mp hm
    rw [ih hm, addLabel_statements h1]

theorem loadStatement_after {ld ld' : Module.Loading} {st : Statement} (h : Module.loadStatement ld st = .ok ld') :
    ld'.m.lines.map (·.statement) = ld.m.lines.map (·.statement) ++ [st] ∧ ld'.pending = [] := by
  unfold Module.loadStatement at h
  obtain ⟨m, hm, h⟩ := Res.bind_eq_ok.mp h
  have h1 := addLabels_statements _ hm
  simp only [List.map_append] at h1
  cases st with
  | instr i => cases h; exact ⟨h1, rfl⟩
  | dir d =>
    simp only at h
    refine ⟨by rw [loadDirective_length h]; exact h1, ?_⟩
    unfold Module.loadDirective at h
    split at h
    · split at h
      · cases h
      · split at h <;> cases h
        rfl
    · split at h
      · cases h; rfl
      · split at h
        · split at h
          · cases h
          · cases h; rfl
        · cases h; rfl

theorem loadItems_stmts : ∀ (items : List Item) {ld ld' : Module.Loading}, Module.loadItems ld items = .ok ld' →
    ld'.m.lines.map (·.statement) = ld.m.lines.map (·.statement) ++ stmtsOf items := by
  intro items
  induction items with
  | nil => intro ld ld' h; cases h; simp [stmtsOf]
  | cons it items ih =>
    intro ld ld' h
    cases it with
    | label l => exact ih (ld := { ld with pending := ld.pending ++ [l] }) h
    | stmt st =>
      rw [Module.loadItems] at h
      obtain ⟨ld1, h1, h⟩ := Res.bind_eq_ok.mp h
      rw [ih h, (loadStatement_after h1).1, List.append_assoc]; rfl

theorem insAt_end {p : Nat} {nl : Line} : ∀ {ls : List Line}, (∀ l ∈ ls, shLine p l = l) → insAt p id nl ls.length ls = ls ++ [nl]
  | [], _ => rfl
  | l :: ls, h => by
    have hm : markLine p id l = shLine p l := rfl
    rw [List.length_cons, insAt, hm, ite_self, h l (by simp), insAt_end fun x hx => h x (by simp [hx])]
    rfl

/-- What the new statement is: a constant that refers to nothing. -/
structure Const (nst : Statement) (d : Directive) : Prop where
  eq : nst = .dir d
  name : d.name = .equ
  value : ∀ ctx, ∃ v, d.argument.eval ctx = .ok v
  names : ∀ f, d.argument.externalNames f = []

theorem const_site {nst : Statement} {d : Directive} (h : Const nst d) (p : Nat) : Site p id (fun s => s.isDir .entry = false) nst := by
  have h0 : nst.serializedSize = 0 := by
    rw [h.eq]; simp [Statement.serializedSize, Directive.serializedSize, h.name]
  refine ⟨⟨fun i => rfl, fun d => ⟨d.list, rfl⟩⟩, fun s hs => hs, fun s _ => ?_, fun i i' f _ _ => rfl, fun _ => h0,
    fun s _ => .inl ⟨rfl, h0⟩, ⟨d, h.eq, .inr ⟨h.name, h.value, h.names⟩⟩⟩
  rw [h0]; rfl

theorem load_const {nst st : Statement} {d : Directive} (hc : Const nst d) {file file' : List Str} {A B : List Item}
    (hF : FileItems file (A ++ .stmt st :: B)) (hF' : FileItems file' (A ++ .stmt st :: .stmt nst :: B)) (hst : st.isDir .entry = false) :
    Both (fun m m' => ∃ nl, m' = insModule ((stmtsOf A).length + 1) id nl m ∧ nl.reached = false ∧
        Near ((stmtsOf A).length + 1) (fun s => s.isDir .entry = false) nst m.lines nl)
      (Module.loadAsmFile file) (Module.loadAsmFile file') := by
  have hn : ∀ d, nst = .dir d → d.name ≠ .module_ ∧ d.name ≠ .begin_ ∧ d.name ≠ .end_ := by
    intro d' hd
    rw [hc.eq] at hd
    cases hd
    rw [hc.name]
    exact ⟨by simp, by simp, by simp⟩
  have hS := const_site hc ((stmtsOf A).length + 1)
  have h0 : nst.serializedSize = 0 := by rw [hc.eq]; simp [Statement.serializedSize, Directive.serializedSize, hc.name]
  refine Both.iff ?_ (loadAsmFile_iff hF) (loadAsmFile_iff hF')
  rw [show A ++ .stmt st :: B = (A ++ [.stmt st]) ++ B by simp, show A ++ .stmt st :: .stmt nst :: B = (A ++ [.stmt st]) ++ .stmt nst :: B by simp,
    loadItems_append, loadItems_append (A ++ [Item.stmt st]) (Item.stmt nst :: B)]
  cases hA : Module.loadItems ⟨Module.empty, [], []⟩ (A ++ [.stmt st]) with
  | err e => exact .fail (fun _ h => nomatch h) fun _ h => nomatch h
  | ub e => exact .fail (fun _ h => nomatch h) fun _ h => nomatch h
  | ok ld =>
    have hlow : LowLoading ld := low_loadItems _ ⟨⟨by simp [Module.empty], by simp [Module.empty]⟩, by simp⟩ hA
    have hstm := loadItems_stmts _ hA
    have hstm' : ld.m.lines.map (·.statement) = stmtsOf A ++ [st] := by
      rw [hstm]; simp [Module.empty, stmtsOf]
    have hlen : ld.m.lines.length = (stmtsOf A).length + 1 := by
      have := congrArg List.length hstm'
      simpa using this
    have hpend : ld.pending = [] := by
      rw [loadItems_append] at hA
      obtain ⟨ld0, -, hA⟩ := Res.bind_eq_ok.mp hA
      rw [Module.loadItems] at hA
      obtain ⟨ld1, h1, hA⟩ := Res.bind_eq_ok.mp hA
      cases hA
      exact (loadStatement_after h1).2
    rw [← hlen]
    rw [← hlen] at hS
    simp only [Res.bind_ok]
    rw [Module.loadItems, loadStatement_plain hlow hn, hpend]
    have hins : (⟨withLast (Module.newLine nst [] ld.scopes) ld.m, [], ld.scopes⟩ : Module.Loading) =
        insLoading ld.m.lines.length id (Module.newLine nst [] ld.scopes) ld := by
      have h1 : shMap ld.m.lines.length ld.m.globals = ld.m.globals := by
        unfold shMap
        conv => rhs; rw [← List.map_id ld.m.globals]
        exact List.map_congr_left fun e he => by rw [sh_lt (hlow.1.globals e he)]; rfl
      have h3 : ld.scopes.map (sh ld.m.lines.length) = ld.scopes := by
        conv => rhs; rw [← List.map_id ld.scopes]
        exact List.map_congr_left fun s hs => sh_lt (hlow.2 s hs)
      simp only [insLoading, insModule, withLast, h1, h3, hpend,
        insAt_end fun l hl => shLine_low (hlow.1.lines l hl)]
    have hnear : Near ld.m.lines.length (fun s => s.isDir .entry = false) nst ld.m.lines (Module.newLine nst [] ld.scopes) := by
      refine ⟨Nat.le_refl _, fun k l hk hl => ⟨?_, .inl h0⟩, rfl⟩
      have : (ld.m.lines.map (·.statement))[k]? = some l.statement := by rw [List.getElem?_map, hl]; rfl
      rw [hstm', List.getElem?_append_right (by omega), show k - (stmtsOf A).length = 0 by omega] at this
      cases this
      exact hst
    show Both _ _ ((Module.loadItems ⟨withLast (Module.newLine nst [] ld.scopes) ld.m, [], ld.scopes⟩ B) >>= Module.finishLoad)
    rw [hins]
    have h3 : Both (fun a b => b = insLoading ld.m.lines.length id (Module.newLine nst [] ld.scopes) a ∧
          Near ld.m.lines.length (fun s => s.isDir .entry = false) nst a.m.lines (Module.newLine nst [] ld.scopes))
        (Module.loadItems ld B) (Module.loadItems (insLoading ld.m.lines.length id (Module.newLine nst [] ld.scopes) ld) B) :=
      (Both.of_map (loadItems_ins B (Nat.le_refl _))).mono fun a' b' ha' h => ⟨h.2, near_loadItems B hnear ha'⟩
    refine h3.bind ?_
    rintro a b _ ⟨rfl, hnear⟩
    refine (Both.of_map (finishLoad_ins hS.keeps ?_ hnear.le)).mono fun m m' hm h => ?_
    · intro d' hd he
      have : nst = .dir d' := hd
      rw [hc.eq] at this
      cases this
      exact hc.names
    · refine ⟨_, h.2, rfl, ?_⟩
      unfold Module.finishLoad at hm
      split at hm
      · cases hm
      · cases hm; exact hnear

/-- Statements that cannot be reached: directives, and then data, an `.org` or the end of the file. -/
def IdleStmts : List Statement → Prop
  | [] => True
  | st :: ls => ∃ d, st = .dir d ∧ d.name ≠ .halt ∧ (d.name ∈ [DirectiveName.db, .dl, .dw, .org] ∨ IdleStmts ls)

theorem idleLines_iff : ∀ ls : List Line, IdleLines ls ↔ IdleStmts (ls.map (·.statement))
  | [] => Iff.rfl
  | l :: ls => by
    simp only [IdleLines, List.map_cons, IdleStmts, idleLines_iff ls]

theorem load_quiet {nst st : Statement} {d : Directive} (hc : Const nst d) {file file' : List Str} {A B : List Item}
    (hF : FileItems file (A ++ .stmt st :: B)) (hF' : FileItems file' (A ++ .stmt st :: .stmt nst :: B)) (hst : st.isDir .entry = false)
    (hq : Strong st ∨ IdleStmts (stmtsOf B)) :
    Both (Loaded ((stmtsOf A).length + 1) id (fun s => s.isDir .entry = false) nst) (Module.loadAsmFile file) (Module.loadAsmFile file') := by
  refine (load_const hc hF hF' hst).mono fun m m' hm ⟨nl, h1, h2, h3⟩ => ⟨nl, h1, h3, ?_⟩
  have hstm := loaded_stmts hF hm
  have hst' : stmtsOf (A ++ .stmt st :: B) = stmtsOf A ++ st :: stmtsOf B := by simp [stmtsOf]
  rw [hst'] at hstm
  rcases hq with hq | hq
  · left
    intro k l hk hl
    have : (m.lines.map (·.statement))[k]? = some l.statement := by rw [List.getElem?_map, hl]; rfl
    rw [hstm, List.getElem?_append_right (by omega), show k - (stmtsOf A).length = 0 by omega] at this
    cases this
    exact hq
  · right
    refine ⟨?_, ?_, loaded_written hm, h2, d, h3.statement.trans hc.eq, hc.name⟩
    · rw [idleLines_iff, List.map_drop, hstm, ← List.drop_drop, List.drop_left]
      exact hq
    · intro k l hl
      obtain ⟨items, -, hI, -⟩ := loadAsmFile_ok hm
      exact (hI.line k l hl).2.2.1

end Nsasm.Shift
