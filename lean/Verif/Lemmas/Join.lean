import Verif.Lemmas.Builds

/-! # Facts about two files put together: loading and analysis -/

namespace Nsasm.Joined
open Spec Props

/-- Names with the lines they are at, `n` lines further down. -/
def moveNames (n : Nat) (g : HMap Str Nat) : HMap Str Nat := g.map fun p => (p.1, p.2 + n)

/-- A line that is `n` lines further down. -/
def moveLine (n : Nat) (l : Line) : Line :=
  { l with scopes := l.scopes.map (· + n), locals := moveNames n l.locals }

/-- The loaded lines `b` put after the module `a`. -/
def put (a b : Module) : Module :=
  { a with lines := a.lines ++ b.lines.map (moveLine a.lines.length)
           globals := a.globals ++ moveNames a.lines.length b.globals }

theorem find_move (n : Nat) (g : HMap Str Nat) (k : Str) :
    HMap.find (moveNames n g) k = (HMap.find g k).map (· + n) := by
  induction g with
  | nil => rfl
  | cons p g ih =>
    obtain ⟨k', v⟩ := p
    simp only [moveNames, List.map_cons, HMap.find]
    split
    · rfl
    · exact ih

theorem find_append (g h : HMap Str Nat) (k : Str) :
    HMap.find (g ++ h) k = (HMap.find g k).or (HMap.find h k) := by
  induction g with
  | nil => rfl
  | cons p g ih =>
    obtain ⟨k', v⟩ := p
    simp only [List.cons_append, HMap.find]
    split
    · rfl
    · exact ih

theorem localsAt_put_right (a b : Module) (i : Nat) :
    (put a b).localsAt (i + a.lines.length) = moveNames a.lines.length (b.localsAt i) := by
  unfold Module.localsAt put
  simp only
  rw [List.getElem?_append_right (by omega), Nat.add_sub_cancel, List.getElem?_map]
  cases b.lines[i]? with
  | none => rfl
  | some l => rfl

theorem has_move (n : Nat) (g : HMap Str Nat) (k : Str) : HMap.has (moveNames n g) k = HMap.has g k := by
  unfold HMap.has; rw [find_move]; cases HMap.find g k <;> rfl

theorem addLabel_put {a b b' : Module} {scopes : List Nat} {l : ParsedLabel} {t : Nat}
    (h : b.addLabel scopes l t = .ok b') (hd : ∀ g ∈ b'.globals, HMap.find a.globals g.1 = none) :
    (put a b).addLabel (scopes.map (· + a.lines.length)) l (t + a.lines.length) = .ok (put a b') := by
  unfold Module.addLabel at h ⊢
  have e : (if l.exported = true then [] else scopes.map (· + a.lines.length)) =
      (if l.exported = true then [] else scopes).map (· + a.lines.length) := by
    split <;> rfl
  rw [e]
  cases hs : (if l.exported = true then [] else scopes) with
  | nil =>
    rw [hs] at h
    simp only [List.map_nil] at h ⊢
    split at h
    · cases h
    · next hh =>
      cases h
      have h1 := hd (l.name, t) (by simp [HMap.insertNew])
      simp only at h1
      have : (put a b).globals.has l.name = false := by
        unfold HMap.has put
        simp only
        rw [find_append, h1, find_move, Option.none_or]
        unfold HMap.has at hh
        cases hf : HMap.find b.globals l.name with
        | none => rfl
        | some v => rw [hf] at hh; simp at hh
      rw [if_neg (by rw [this]; simp)]
      simp [put, HMap.insertNew, moveNames]
  | cons s rest =>
    rw [hs] at h
    simp only [List.map_cons] at h ⊢
    rw [localsAt_put_right, has_move]
    split at h
    · cases h
    · next hh =>
      cases h
      rw [if_neg hh]
      congr 1
      simp only [put, Module.mk.injEq, true_and, and_true]
      unfold Module.addLocal
      refine List.ext_getElem? fun k => ?_
      rw [List.getElem?_modify]
      by_cases hk : k < a.lines.length
      · rw [List.getElem?_append_left hk, List.getElem?_append_left hk]
        simp [show s + a.lines.length ≠ k by omega]
      · rw [List.getElem?_append_right (by omega), List.getElem?_append_right (by omega), List.getElem?_map,
          List.getElem?_map, List.getElem?_modify]
        cases b.lines[k - a.lines.length]? with
        | none => rfl
        | some x =>
          by_cases he : s + a.lines.length = k
          · simp [show k - a.lines.length + a.lines.length = k by omega, show s = k - a.lines.length by omega, moveLine, moveNames, HMap.insertNew]
          · simp [he, show s ≠ k - a.lines.length by omega]

theorem addLabel_grows {b b' : Module} {scopes : List Nat} {l : ParsedLabel} {t : Nat}
    (h : b.addLabel scopes l t = .ok b') : (∀ g ∈ b.globals, g ∈ b'.globals) ∧ b'.lines.length = b.lines.length := by
  unfold Module.addLabel at h
  split at h
  · split at h
    · cases h
    · cases h
      exact ⟨fun g hg => List.mem_append_left _ hg, rfl⟩
  · split at h
    · cases h
    · cases h
      exact ⟨fun g hg => hg, by simp [Module.addLocal]⟩

theorem addLabels_grows : ∀ {ls : List ParsedLabel} {b b' : Module} {scopes : List Nat} {t : Nat},
    b.addLabels scopes t ls = .ok b' → (∀ g ∈ b.globals, g ∈ b'.globals) ∧ b'.lines.length = b.lines.length
  | [], b, b', scopes, t, h => by cases h; exact ⟨fun _ h => h, rfl⟩
  | l :: ls, b, b', scopes, t, h => by
    unfold Module.addLabels at h
    obtain ⟨b1, h1, h⟩ := Res.bind_eq_ok.mp h
    obtain ⟨g1, l1⟩ := addLabel_grows h1
    obtain ⟨g2, l2⟩ := addLabels_grows h
    exact ⟨fun g hg => g2 g (g1 g hg), l2.trans l1⟩

theorem addLabels_put {a : Module} : ∀ {ls : List ParsedLabel} {b b' : Module} {scopes : List Nat} {t : Nat},
    b.addLabels scopes t ls = .ok b' → (∀ g ∈ b'.globals, HMap.find a.globals g.1 = none) →
    (put a b).addLabels (scopes.map (· + a.lines.length)) (t + a.lines.length) ls = .ok (put a b')
  | [], b, b', scopes, t, h, _ => by cases h; rfl
  | l :: ls, b, b', scopes, t, h, hd => by
    unfold Module.addLabels at h ⊢
    obtain ⟨b1, h1, h⟩ := Res.bind_eq_ok.mp h
    refine Res.bind_eq_ok.mpr ⟨_, addLabel_put h1 fun g hg => hd g ((addLabels_grows h).1 g hg), ?_⟩
    exact addLabels_put h hd

/-- A loader that has read `b` after the module `a`. -/
def putLoading (a : Module) (ld : Module.Loading) : Module.Loading :=
  ⟨put a ld.m, ld.pending, ld.scopes.map (· + a.lines.length)⟩

/-- The statement is not `.module`. -/
def NotModule : Item → Prop
  | .stmt (.dir d) => d.name ≠ .module_
  | _ => True

theorem loadDirective_grows {ld ld' : Module.Loading} {i : Nat} {d : Directive} (h : Module.loadDirective ld i d = .ok ld') :
    (∀ g ∈ ld.m.globals, g ∈ ld'.m.globals) := by
  unfold Module.loadDirective at h
  repeat' split at h
  all_goals first
    | cases h; exact fun _ h => h
    | cases h

theorem loadStatement_grows {ld ld' : Module.Loading} {st : Statement} (h : Module.loadStatement ld st = .ok ld') :
    (∀ g ∈ ld.m.globals, g ∈ ld'.m.globals) := by
  unfold Module.loadStatement at h
  obtain ⟨m, h1, h⟩ := Res.bind_eq_ok.mp h
  have h1 := (addLabels_grows h1).1
  cases st with
  | instr i => cases h; exact h1
  | dir d => exact fun g hg => loadDirective_grows h g (h1 g hg)

theorem loadItems_grows : ∀ {items : List Item} {ld ld' : Module.Loading}, Module.loadItems ld items = .ok ld' →
    (∀ g ∈ ld.m.globals, g ∈ ld'.m.globals)
  | [], ld, ld', h => by cases h; exact fun _ h => h
  | .label l :: rest, ld, ld', h => loadItems_grows (ld := { ld with pending := ld.pending ++ [l] }) h
  | .stmt st :: rest, ld, ld', h => by
    unfold Module.loadItems at h
    obtain ⟨ld1, h1, h⟩ := Res.bind_eq_ok.mp h
    exact fun g hg => loadItems_grows h g (loadStatement_grows h1 g hg)

theorem loadStatement_put {a : Module} {ld ld' : Module.Loading} {st : Statement}
    (hm : NotModule (.stmt st)) (h : Module.loadStatement ld st = .ok ld')
    (hd : ∀ g ∈ ld'.m.globals, HMap.find a.globals g.1 = none) :
    Module.loadStatement (putLoading a ld) st = .ok (putLoading a ld') := by
  unfold Module.loadStatement at h ⊢
  obtain ⟨m, h1, h⟩ := Res.bind_eq_ok.mp h
  have hm' : ∀ g ∈ m.globals, HMap.find a.globals g.1 = none := by
    cases st with
    | instr i => cases h; exact hd
    | dir d => exact fun g hg => hd g (loadDirective_grows h g hg)
  have h2 := addLabels_put (a := a) h1 hm'
  have e1 : (putLoading a ld).m.lines.length = ld.m.lines.length + a.lines.length := by
    simp [putLoading, put, Nat.add_comm]
  have e2 : ({ (putLoading a ld).m with lines := (putLoading a ld).m.lines ++
      [Module.newLine st (putLoading a ld).pending (putLoading a ld).scopes] } : Module) =
      put a { ld.m with lines := ld.m.lines ++ [Module.newLine st ld.pending ld.scopes] } := by
    simp [putLoading, put, Module.newLine, moveLine, moveNames]
  refine Res.bind_eq_ok.mpr ⟨put a m, ?_, ?_⟩
  · rw [e2, e1]; exact h2
  · cases st with
    | instr i => cases h; rfl
    | dir d =>
      have hn : d.name ≠ .module_ := hm
      simp only at h ⊢
      unfold Module.loadDirective at h ⊢
      rw [if_neg hn] at h ⊢
      split at h
      · next hb =>
        cases h
        rw [e1, if_pos hb]
        simp [putLoading]
      · next hb =>
        rw [if_neg hb]
        split at h
        · next he =>
          rw [if_pos he]
          cases hs : ld.scopes with
          | nil => rw [hs] at h; cases h
          | cons s r =>
            rw [hs] at h; cases h
            simp [putLoading, hs]
        · next he => rw [if_neg he]; cases h; rfl

theorem loadItems_put {a : Module} : ∀ {items : List Item} {ld ld' : Module.Loading},
    (∀ it ∈ items, NotModule it) → Module.loadItems ld items = .ok ld' →
    (∀ g ∈ ld'.m.globals, HMap.find a.globals g.1 = none) →
    Module.loadItems (putLoading a ld) items = .ok (putLoading a ld')
  | [], ld, ld', _, h, _ => by cases h; rfl
  | .label l :: rest, ld, ld', hm, h, hd =>
    loadItems_put (ld := { ld with pending := ld.pending ++ [l] }) (fun it hi => hm it (List.mem_cons_of_mem _ hi)) h hd
  | .stmt st :: rest, ld, ld', hm, h, hd => by
    unfold Module.loadItems at h ⊢
    obtain ⟨ld1, h1, h⟩ := Res.bind_eq_ok.mp h
    refine Res.bind_eq_ok.mpr ⟨_, loadStatement_put (hm _ (by simp)) h1 fun g hg => hd g (loadItems_grows h g hg), ?_⟩
    exact loadItems_put (fun it hi => hm it (List.mem_cons_of_mem _ hi)) h hd

theorem loadItems_append : ∀ (xs : List Item) {ys : List Item} {ld : Module.Loading},
    Module.loadItems ld (xs ++ ys) = (Module.loadItems ld xs >>= fun ld => Module.loadItems ld ys)
  | [], ys, ld => rfl
  | .label l :: xs, ys, ld => loadItems_append xs (ld := { ld with pending := ld.pending ++ [l] })
  | .stmt st :: xs, ys, ld => by
    rw [List.cons_append, Module.loadItems, Module.loadItems]
    cases Module.loadStatement ld st with
    | err e => rfl
    | ub u => rfl
    | ok ld1 => exact loadItems_append xs

theorem loadStatement_pending {ld ld' : Module.Loading} {st : Statement} (h : Module.loadStatement ld st = .ok ld') :
    ld'.pending = [] := by
  unfold Module.loadStatement at h
  obtain ⟨m, h1, h⟩ := Res.bind_eq_ok.mp h
  cases st with
  | instr i => cases h; rfl
  | dir d =>
    unfold Module.loadDirective at h
    simp only at h
    repeat' split at h
    all_goals first
      | cases h; rfl
      | cases h

/-- The items do not end with a label. -/
def NoLabelLast (items : List Item) : Prop := ∀ l, items.getLast? ≠ some (.label l)

theorem loadItems_pending {items : List Item} {ld ld' : Module.Loading} (hn : NoLabelLast items) (hp : ld.pending = [])
    (h : Module.loadItems ld items = .ok ld') : ld'.pending = [] := by
  rcases List.eq_nil_or_concat items with rfl | ⟨xs, it, rfl⟩
  · cases h; exact hp
  · cases it with
    | label l => exact absurd (by simp) (hn l)
    | stmt st =>
      rw [List.concat_eq_append, loadItems_append] at h
      obtain ⟨ld1, -, h⟩ := Res.bind_eq_ok.mp h
      unfold Module.loadItems at h
      obtain ⟨ld2, h1, h⟩ := Res.bind_eq_ok.mp h
      cases h
      exact loadStatement_pending h1

theorem fileItems_append {f g : List Str} {xs ys : List Item} (h : FileItems f xs) (h' : FileItems g ys) :
    FileItems (f ++ g) (xs ++ ys) := by
  obtain ⟨ps, h1, rfl⟩ := h
  obtain ⟨qs, h2, rfl⟩ := h'
  exact ⟨ps ++ qs, List.rel_append h1 h2, by simp⟩

theorem loadAsmFile_items {f : List Str} {m : Module} : Module.loadAsmFile f = .ok m ↔
    ∃ items ld, FileItems f items ∧ Module.loadItems ⟨.empty, [], []⟩ items = .ok ld ∧ ld.scopes = [] ∧
      m = { ld.m with deps := ld.m.dependencies } := by
  unfold Module.loadAsmFile
  constructor
  · intro h
    obtain ⟨ld, h1, h⟩ := Res.bind_eq_ok.mp h
    obtain ⟨items, h2, h3⟩ := (loadLines_ok f _ ld).mp h1
    unfold Module.finishLoad at h
    split at h
    · cases h
    · next hs => cases h; exact ⟨items, ld, h2, h3, hs, rfl⟩
  · rintro ⟨items, ld, h2, h3, hs, rfl⟩
    refine Res.bind_eq_ok.mpr ⟨ld, (loadLines_ok f _ ld).mpr ⟨items, h2, h3⟩, ?_⟩
    unfold Module.finishLoad
    rw [hs]

/-- The module of a file with another file put after it. -/
def join (a b : Module) : Module := { put a b with deps := (put a b).dependencies }

theorem load_join {f g : List Str} {a b : Module} (ha : Module.loadAsmFile f = .ok a) (hb : Module.loadAsmFile g = .ok b)
    (hend : ∀ items, FileItems f items → NoLabelLast items)
    (hmod : ∀ items, FileItems g items → ∀ it ∈ items, NotModule it)
    (hd : ∀ g ∈ b.globals, HMap.find a.globals g.1 = none) :
    Module.loadAsmFile (f ++ g) = .ok (join a b) := by
  obtain ⟨xs, la, f1, l1, s1, rfl⟩ := loadAsmFile_items.mp ha
  obtain ⟨ys, lb, f2, l2, s2, rfl⟩ := loadAsmFile_items.mp hb
  have hp := loadItems_pending (hend _ f1) rfl l1
  have h := loadItems_put (a := la.m) (hmod _ f2) l2 hd
  refine loadAsmFile_items.mpr ⟨xs ++ ys, putLoading la.m lb, fileItems_append f1 f2, ?_, by simp [putLoading, s2], ?_⟩
  swap
  · change ({ put la.m lb.m with deps := ({ put la.m lb.m with deps := la.m.dependencies } : Module).dependencies } : Module) = _
    rw [dependencies_deps]
    rfl
  rw [loadItems_append]
  refine Res.bind_eq_ok.mpr ⟨la, l1, ?_⟩
  rw [← h]
  congr 1
  obtain ⟨m, p, s⟩ := la
  simp only at hp s1
  subst hp s1
  simp [putLoading, put, Module.empty, moveNames]

/-! ## The analysis -/

theorem explore_more {m : Module} : ∀ {k : Nat} {p q : Module.Pass}, m.explore k p = .ok q → ∀ j, m.explore (k + j) p = .ok q
  | 0, p, q, h, j => by cases h
  | k + 1, p, q, h, j => by
    rw [Nat.succ_add]
    unfold Module.explore at h ⊢
    obtain ⟨o, h1, h⟩ := Res.bind_eq_ok.mp h
    refine Res.bind_eq_ok.mpr ⟨o, h1, ?_⟩
    cases o with
    | none => exact h
    | some p' => exact explore_more h j

theorem upsert_left {ν : Type} (f : ν → ν) (k : Nat) (v : ν) : ∀ (m w : OMap ν), (∀ e ∈ w, k < e.1) →
    OMap.upsert f (m ++ w) k v = OMap.upsert f m k v ++ w
  | [], w, h => by
    cases w with
    | nil => rfl
    | cons e w =>
      obtain ⟨k', x⟩ := e
      have := h (k', x) (by simp)
      simp only at this
      simp only [List.nil_append, OMap.upsert, if_neg (show ¬ k' < k by omega), if_neg (show ¬ k' = k by omega)]
      rfl
  | (k', x) :: m, w, h => by
    simp only [List.cons_append, OMap.upsert]
    rw [upsert_left f k v m w h]
    split
    · rfl
    · split <;> rfl

theorem upsert_right {ν : Type} (f : ν → ν) (k : Nat) (v : ν) : ∀ (m w : OMap ν), (∀ e ∈ m, e.1 < k) →
    OMap.upsert f (m ++ w) k v = m ++ OMap.upsert f w k v
  | [], w, h => rfl
  | (k', x) :: m, w, h => by
    have := h (k', x) (by simp)
    simp only at this
    simp only [List.cons_append, OMap.upsert, if_pos this]
    rw [upsert_right f k v m w fun e he => h e (List.mem_cons_of_mem _ he)]

/-- Entries for lines, `n` lines further down. -/
def moveWork {ν : Type} (n : Nat) (w : OMap ν) : OMap ν := w.map fun e => (e.1 + n, e.2)

theorem upsert_move {ν : Type} (f : ν → ν) (n k : Nat) (v : ν) : ∀ (m : OMap ν),
    OMap.upsert f (moveWork n m) (k + n) v = moveWork n (OMap.upsert f m k v)
  | [] => rfl
  | (k', x) :: m => by
    have ih := upsert_move f n k v m
    simp only [moveWork, List.map_cons, OMap.upsert, Nat.add_lt_add_iff_right, Nat.add_right_cancel_iff] at ih ⊢
    split
    · simp [ih]
    · split <;> simp

theorem upsert_keys {ν : Type} (f : ν → ν) (k : Nat) (v : ν) : ∀ (m : OMap ν),
    (∃ w, (k, w) ∈ OMap.upsert f m k v) ∧ ∀ e ∈ m, ∃ w, (e.1, w) ∈ OMap.upsert f m k v
  | [] => ⟨⟨v, by simp [OMap.upsert]⟩, by simp⟩
  | (k', x) :: m => by
    obtain ⟨⟨w, hw⟩, h2⟩ := upsert_keys f k v m
    simp only [OMap.upsert]
    split
    · refine ⟨⟨w, by simp [hw]⟩, fun e he => ?_⟩
      rcases List.mem_cons.1 he with rfl | he
      · exact ⟨x, by simp⟩
      · obtain ⟨y, hy⟩ := h2 e he; exact ⟨y, by simp [hy]⟩
    · split
      · next hk =>
        subst hk
        refine ⟨⟨f x, by simp⟩, fun e he => ?_⟩
        rcases List.mem_cons.1 he with rfl | he
        · exact ⟨f x, by simp⟩
        · exact ⟨e.2, by simp [he]⟩
      · refine ⟨⟨v, by simp⟩, fun e he => ⟨e.2, by simp at he ⊢; exact .inr he⟩⟩

/-- The entries of a work list are for lines before line `n`. -/
def Below (n : Nat) (w : OMap ExecutionState) : Prop := ∀ e ∈ w, e.1 < n

theorem below_add {n k : Nat} {s : ExecutionState} {w : OMap ExecutionState} (h : Below n (Module.addWork w k s)) :
    k < n ∧ Below n w := by
  obtain ⟨⟨x, hx⟩, h2⟩ := upsert_keys (fun old : ExecutionState => old.merge s) k s w
  refine ⟨h (k, x) hx, fun e he => ?_⟩
  obtain ⟨y, hy⟩ := h2 e he
  exact h (e.1, y) hy

theorem below_branch {n : Nat} {m : Module} {l : Line} {s : ExecutionState} {w w' : OMap ExecutionState}
    (h : m.branchWork l s w = .ok w') (hb : Below n w') : Below n w := by
  unfold Module.branchWork at h
  split at h
  · cases h; exact hb
  · split at h
    · cases h; exact hb
    · split at h
      · cases h
      · split at h
        · cases h
        · obtain ⟨nx, -, h⟩ := Res.bind_eq_ok.mp h
          cases h
          exact (below_add hb).2

/-- An analysis that ends never had an entry for a line after the last. -/
theorem explore_below {m : Module} : ∀ {k : Nat} {p q : Module.Pass}, m.explore k p = .ok q → Below p.lines.length p.work
  | 0, p, q, h => by cases h
  | k + 1, p, q, h => by
    unfold Module.explore at h
    obtain ⟨o, h1, h⟩ := Res.bind_eq_ok.mp h
    unfold Module.step at h1
    split at h1
    · next hw => rw [hw]; intro e he; cases he
    · next i s rest hw =>
      split at h1
      · cases h1
      · split at h1
        · cases h1
        · next l hl =>
          have hlt := (List.getElem?_eq_some_iff.mp hl).1
          split at h1
          · cases h1
            have ih := explore_below h
            rw [hw]
            intro e he
            rcases List.mem_cons.1 he with rfl | he
            · exact hlt
            · exact ih e he
          · obtain ⟨p', h2, h1⟩ := Res.bind_eq_ok.mp h1
            cases h1
            have ih := explore_below h
            unfold Module.visit at h2
            obtain ⟨nx, -, h2⟩ := Res.bind_eq_ok.mp h2
            obtain ⟨w, hb, h2⟩ := Res.bind_eq_ok.mp h2
            cases h2
            simp only [List.length_set] at ih
            have := below_branch hb ih
            split at this
            · exact this
            · exact (below_add this).2

/-- The names of `a` are those of `m` at lines of the first part. -/
def FirstNames (n : Nat) (a m : Module) : Prop :=
  ∀ scopes name i, (∀ s ∈ scopes, s < n) → a.localIndex name scopes = some i → m.localIndex name scopes = some i

/-- The names of `b` are those of `m` at lines of the second part. -/
def SecondNames (n : Nat) (b m : Module) : Prop :=
  ∀ scopes name i, b.localIndex name scopes = some i → m.localIndex name (scopes.map (· + n)) = some (i + n)

theorem branch_first {n : Nat} {a m : Module} (hn : FirstNames n a m) {l : Line} (hl : ∀ s ∈ l.scopes, s < n)
    {s : ExecutionState} {w w' v : OMap ExecutionState} (h : a.branchWork l s w = .ok w') (hb : Below n w')
    (hv : ∀ e ∈ v, n ≤ e.1) : m.branchWork l s (w ++ v) = .ok (w' ++ v) := by
  unfold Module.branchWork at h ⊢
  split at h
  · cases h; rfl
  · split at h
    · cases h; next hi => rw [if_pos hi]
    · next hi =>
      rw [if_neg hi]
      split at h
      · cases h
      · next t ht =>
        split at h
        · cases h
        · next i hx =>
          rw [hn _ _ _ hl hx]
          simp only
          obtain ⟨nx, h1, h⟩ := Res.bind_eq_ok.mp h
          cases h
          refine Res.bind_eq_ok.mpr ⟨nx, h1, ?_⟩
          have := (below_add hb).1
          unfold Module.addWork
          rw [upsert_left _ _ _ _ _ fun e he => by have := hv e he; omega]

theorem explore_first {a m : Module} {L : List Line} {v : OMap ExecutionState} {q : Module.Pass} {j : Nat}
    {n : Nat} (hn : FirstNames n a m) (hv : ∀ e ∈ v, n ≤ e.1) : ∀ {k : Nat} {p r : Module.Pass},
    a.explore k p = .ok r → p.lines.length = n → (∀ l ∈ p.lines, ∀ s ∈ l.scopes, s < n) →
    m.explore j ⟨r.lines ++ L, v⟩ = .ok q → m.explore (k + j) ⟨p.lines ++ L, p.work ++ v⟩ = .ok q
  | 0, p, r, h, _, _, _ => by cases h
  | k + 1, p, r, h, hlen, hsc, hj => by
    have hbelow := explore_below h
    unfold Module.explore at h
    obtain ⟨o, h1, h⟩ := Res.bind_eq_ok.mp h
    unfold Module.step at h1
    split at h1
    · next hw =>
      cases h1; cases h
      rw [hw, List.nil_append, Nat.add_comm]
      exact explore_more hj _
    · next i s rest hw =>
      split at h1
      · cases h1
      · next hi =>
        split at h1
        · cases h1
        · next l hl =>
          have hlt := (List.getElem?_eq_some_iff.mp hl).1
          have hmem := List.mem_of_getElem? hl
          rw [Nat.succ_add]
          have key : ∀ p' : Module.Pass, m.step ⟨p.lines ++ L, p.work ++ v⟩ = .ok (some ⟨p'.lines ++ L, p'.work ++ v⟩) →
              a.explore k p' = .ok r → p'.lines.length = n → (∀ l ∈ p'.lines, ∀ s ∈ l.scopes, s < n) →
              m.explore (k + j).succ ⟨p.lines ++ L, p.work ++ v⟩ = .ok q := by
            intro p' h1 h2 h3 h4
            unfold Module.explore
            exact Res.bind_eq_ok.mpr ⟨_, h1, explore_first hn hv h2 h3 h4 hj⟩
          split at h1
          · next hc =>
            cases h1
            refine key _ ?_ h hlen hsc
            unfold Module.step
            simp only [hw, List.cons_append, List.length_append]
            rw [if_neg (by omega), List.getElem?_append_left hlt, hl]
            simp only
            rw [if_pos hc]
          · next hc =>
            obtain ⟨p', h2, h1⟩ := Res.bind_eq_ok.mp h1
            cases h1
            have hb' := explore_below h
            refine key p' ?_ h ?_ ?_
            · unfold Module.step
              simp only [hw, List.cons_append, List.length_append]
              rw [if_neg (by omega), List.getElem?_append_left hlt, hl]
              simp only
              rw [if_neg hc]
              refine Res.bind_eq_ok.mpr ⟨_, ?_, rfl⟩
              unfold Module.visit at h2 ⊢
              obtain ⟨nx, h3, h2⟩ := Res.bind_eq_ok.mp h2
              obtain ⟨w, h4, h2⟩ := Res.bind_eq_ok.mp h2
              cases h2
              simp only [List.length_set, hlen] at hb'
              refine Res.bind_eq_ok.mpr ⟨nx, h3, ?_⟩
              refine Res.bind_eq_ok.mpr ⟨w ++ v, ?_, ?_⟩
              · have e : (if l.statement.isExitInstruction = true then (i, s) :: (rest ++ v)
                    else Module.addWork ((i, s) :: (rest ++ v)) (i + 1) nx) =
                    (if l.statement.isExitInstruction = true then p.work else Module.addWork p.work (i + 1) nx) ++ v := by
                  rw [← List.cons_append, ← hw]
                  have hq := below_branch h4 hb'
                  split
                  · rfl
                  · next hx =>
                    rw [if_neg hx] at hq
                    have := (below_add hq).1
                    unfold Module.addWork
                    rw [upsert_left _ _ _ _ _ fun e he => by have := hv e he; omega]
                rw [e]
                exact branch_first hn (hsc l hmem) h4 hb' hv
              · rw [List.set_append_left _ _ hlt]
            · unfold Module.visit at h2
              obtain ⟨nx, h3, h2⟩ := Res.bind_eq_ok.mp h2
              obtain ⟨w, h4, h2⟩ := Res.bind_eq_ok.mp h2
              cases h2
              simpa using hlen
            · unfold Module.visit at h2
              obtain ⟨nx, h3, h2⟩ := Res.bind_eq_ok.mp h2
              obtain ⟨w, h4, h2⟩ := Res.bind_eq_ok.mp h2
              cases h2
              intro x hx
              rcases List.mem_or_eq_of_mem_set hx with hx | rfl
              · exact hsc x hx
              · exact hsc l hmem

theorem branch_second {n : Nat} {b m : Module} (hn : SecondNames n b m) {l : Line}
    {s : ExecutionState} {w w' : OMap ExecutionState} (h : b.branchWork l s w = .ok w') :
    m.branchWork (moveLine n l) s (moveWork n w) = .ok (moveWork n w') := by
  unfold Module.branchWork at h ⊢
  simp only [moveLine]
  split at h
  · cases h; rfl
  · split at h
    · cases h; next hi => rw [if_pos hi]
    · next hi =>
      rw [if_neg hi]
      split at h
      · cases h
      · split at h
        · cases h
        · next i hx =>
          rw [hn _ _ _ hx]
          simp only
          obtain ⟨nx, h1, h⟩ := Res.bind_eq_ok.mp h
          cases h
          refine Res.bind_eq_ok.mpr ⟨nx, h1, ?_⟩
          unfold Module.addWork
          rw [upsert_move]

theorem explore_second {b m : Module} {A : List Line} (hn : SecondNames A.length b m) : ∀ {k : Nat} {p r : Module.Pass},
    b.explore k p = .ok r →
    m.explore k ⟨A ++ p.lines.map (moveLine A.length), moveWork A.length p.work⟩ =
      .ok ⟨A ++ r.lines.map (moveLine A.length), moveWork A.length r.work⟩
  | 0, p, r, h => by cases h
  | k + 1, p, r, h => by
    unfold Module.explore at h ⊢
    obtain ⟨o, h1, h⟩ := Res.bind_eq_ok.mp h
    refine Res.bind_eq_ok.mpr ⟨o.map fun p => ⟨A ++ p.lines.map (moveLine A.length), moveWork A.length p.work⟩, ?_, ?_⟩
    swap
    · cases o with
      | none => cases h; rfl
      | some p' => exact explore_second hn h
    unfold Module.step at h1 ⊢
    split at h1
    · next hw => cases h1; simp [moveWork, hw]
    · next i s rest hw =>
      split at h1
      · cases h1
      · next hi =>
        split at h1
        · cases h1
        · next l hl =>
          have hlt := (List.getElem?_eq_some_iff.mp hl).1
          have hget : (A ++ p.lines.map (moveLine A.length))[i + A.length]? = some (moveLine A.length l) := by
            rw [List.getElem?_append_right (by omega), Nat.add_sub_cancel, List.getElem?_map, hl]; rfl
          have ew : moveWork A.length p.work = (i + A.length, s) :: moveWork A.length rest := by rw [hw]; rfl
          simp only [ew, List.length_append, List.length_map]
          rw [if_neg (by omega), hget]
          simp only
          split at h1
          · next hc =>
            cases h1
            rw [if_pos (by exact hc)]
            rfl
          · next hc =>
            rw [if_neg (by exact hc)]
            obtain ⟨p', h2, h1⟩ := Res.bind_eq_ok.mp h1
            cases h1
            refine Res.bind_eq_ok.mpr ⟨_, ?_, rfl⟩
            unfold Module.visit at h2 ⊢
            obtain ⟨nx, h3, h2⟩ := Res.bind_eq_ok.mp h2
            obtain ⟨w, h4, h2⟩ := Res.bind_eq_ok.mp h2
            cases h2
            refine Res.bind_eq_ok.mpr ⟨nx, h3, ?_⟩
            refine Res.bind_eq_ok.mpr ⟨moveWork A.length w, ?_, ?_⟩
            · rw [← branch_second hn h4]
              congr 1
              simp only [← ew]
              change (if l.statement.isExitInstruction = true then _ else _) = _
              split
              · rfl
              · unfold Module.addWork
                rw [← upsert_move, Nat.add_right_comm]
            · congr 1
              simp only [Module.Pass.mk.injEq, and_true]
              rw [List.set_append_right _ _ (by omega), Nat.add_sub_cancel, List.map_set]
              rfl

theorem seeds_append : ∀ (A B : List Line) (i : Nat) (w : OMap ExecutionState),
    Module.seeds w i (A ++ B) = Module.seeds (Module.seeds w i A) (i + A.length) B
  | [], B, i, w => rfl
  | l :: A, B, i, w => by
    have e : i + (l :: A).length = i + 1 + A.length := by simp; omega
    rw [e]
    simp only [List.cons_append, Module.seeds]
    split
    · split
      · exact seeds_append A B _ _
      · exact seeds_append A B _ _
    · exact seeds_append A B _ _

theorem seeds_second {n : Nat} {v : OMap ExecutionState} (hv : Below n v) : ∀ (B : List Line) (i : Nat) (w : OMap ExecutionState),
    Module.seeds (v ++ moveWork n w) (i + n) (B.map (moveLine n)) = v ++ moveWork n (Module.seeds w i B)
  | [], i, w => rfl
  | l :: B, i, w => by
    have ih := fun w => seeds_second hv B (i + 1) w
    rw [Nat.add_right_comm] at ih
    simp only [List.map_cons, Module.seeds, moveLine]
    cases l.statement with
    | instr x => exact ih w
    | dir d =>
      simp only
      split
      · have e : Module.addWork (v ++ moveWork n w) (i + n + 1) (ExecutionState.init d.flags) =
            v ++ moveWork n (Module.addWork w (i + 1) (ExecutionState.init d.flags)) := by
          unfold Module.addWork
          rw [upsert_right _ _ _ _ _ fun e he => by have := hv e he; omega, ← upsert_move, Nat.add_right_comm]
        rw [e]
        exact ih _
      · exact ih w

theorem fixLines_append : ∀ {A B A' B' : List Line}, Module.fixLines A = .ok A' → Module.fixLines B = .ok B' →
    Module.fixLines (A ++ B) = .ok (A' ++ B')
  | [], B, A', B', h, h' => by cases h; exact h'
  | l :: A, B, A', B', h, h' => by
    simp only [List.cons_append, Module.fixLines] at h ⊢
    split at h
    · obtain ⟨x, h1, h⟩ := Res.bind_eq_ok.mp h
      cases h
      exact Res.bind_eq_ok.mpr ⟨_, fixLines_append h1 h', rfl⟩
    · split at h
      · cases h
      · next hr =>
        rw [if_neg hr]
        obtain ⟨i, h0, h⟩ := Res.bind_eq_ok.mp h
        obtain ⟨x, h1, h⟩ := Res.bind_eq_ok.mp h
        cases h
        exact Res.bind_eq_ok.mpr ⟨i, h0, Res.bind_eq_ok.mpr ⟨_, fixLines_append h1 h', rfl⟩⟩

theorem fixLines_move {n : Nat} : ∀ {B B' : List Line}, Module.fixLines B = .ok B' →
    Module.fixLines (B.map (moveLine n)) = .ok (B'.map (moveLine n))
  | [], B', h => by cases h; rfl
  | l :: B, B', h => by
    simp only [List.map_cons, Module.fixLines, moveLine] at h ⊢
    cases hst : l.statement with
    | dir d =>
      rw [hst] at h
      obtain ⟨x, h1, h⟩ := Res.bind_eq_ok.mp h
      cases h
      refine Res.bind_eq_ok.mpr ⟨_, fixLines_move h1, ?_⟩
      rw [List.map_cons, ← hst]; rfl
    | instr i =>
      rw [hst] at h
      simp only at h ⊢
      split at h
      · cases h
      · next hr =>
        rw [if_neg hr]
        obtain ⟨i, h0, h⟩ := Res.bind_eq_ok.mp h
        obtain ⟨x, h1, h⟩ := Res.bind_eq_ok.mp h
        cases h
        exact Res.bind_eq_ok.mpr ⟨i, h0, Res.bind_eq_ok.mpr ⟨_, fixLines_move h1, rfl⟩⟩

theorem layout_append : ∀ {A A' : List Line} {pc : Option Addr}, Module.layout pc A = .ok A' →
    ∃ pc', ∀ B B', Module.layout pc' B = .ok B' → Module.layout pc (A ++ B) = .ok (A' ++ B')
  | [], A', pc, h => by cases h; exact ⟨pc, fun _ _ h => h⟩
  | l :: A, A', pc, h => by
    unfold Module.layout at h
    obtain ⟨o, h1, h⟩ := Res.bind_eq_ok.mp h
    cases o with
    | none =>
      simp only at h
      split at h
      · cases h
      · next hs =>
        obtain ⟨x, h2, h⟩ := Res.bind_eq_ok.mp h
        cases h
        obtain ⟨pc', hp⟩ := layout_append h2
        refine ⟨pc', fun B B' hB => ?_⟩
        rw [List.cons_append]
        unfold Module.layout
        refine Res.bind_eq_ok.mpr ⟨_, h1, ?_⟩
        simp only
        rw [if_neg hs]
        exact Res.bind_eq_ok.mpr ⟨_, hp B B' hB, rfl⟩
    | some a =>
      simp only at h
      obtain ⟨x, h2, h⟩ := Res.bind_eq_ok.mp h
      cases h
      obtain ⟨pc', hp⟩ := layout_append h2
      refine ⟨pc', fun B B' hB => ?_⟩
      rw [List.cons_append]
      unfold Module.layout
      refine Res.bind_eq_ok.mpr ⟨_, h1, ?_⟩
      exact Res.bind_eq_ok.mpr ⟨_, hp B B' hB, rfl⟩

/-- The line `l'` is `l`, `n` lines further down, and has the value that `l` has, if it has one. -/
structure Ahead (n : Nat) (l l' : Line) : Prop where
  statement : l'.statement = l.statement
  incoming : l'.incoming = l.incoming
  scopes : l'.scopes = l.scopes.map (· + n)
  locals : l'.locals = moveNames n l.locals
  value : ∀ v, l.value = some v → l'.value = some v
  equ : l.statement.isDir .equ = true → l'.value = l.value

theorem ahead_move (n : Nat) (l : Line) : Ahead n l (moveLine n l) :=
  ⟨rfl, rfl, rfl, rfl, fun _ h => h, fun _ => rfl⟩

theorem originAt_some {o : Addr} {pc : Option Addr} {st : Statement} (h : Module.originAt none st = .ok (some o)) :
    Module.originAt pc st = .ok (some o) := by
  unfold Module.originAt at h ⊢
  split at h
  · cases h
  · split at h
    · next hd => rw [if_pos hd]; exact h
    · cases h

theorem originAt_none {pc : Option Addr} {st : Statement} (h : Module.originAt none st = .ok none) :
    Module.originAt pc st = .ok pc := by
  unfold Module.originAt at h ⊢
  split at h
  · rfl
  · split at h
    · obtain ⟨_, -, h⟩ := Res.bind_eq_ok.mp h
      obtain ⟨_, -, h⟩ := Res.bind_eq_ok.mp h
      cases h
    · next hd => rw [if_neg hd]

theorem layout_move {n : Nat} : ∀ {B B' : List Line} {pc : Option Addr}, Module.layout pc B = .ok B' →
    Module.layout pc (B.map (moveLine n)) = .ok (B'.map (moveLine n))
  | [], B', pc, h => by cases h; rfl
  | l :: B, B', pc, h => by
    rw [List.map_cons]
    unfold Module.layout at h ⊢
    obtain ⟨o, h1, h⟩ := Res.bind_eq_ok.mp h
    refine Res.bind_eq_ok.mpr ⟨o, h1, ?_⟩
    cases o with
    | none =>
      simp only at h ⊢
      split at h
      · cases h
      · next hs =>
        rw [if_neg (by exact hs)]
        obtain ⟨x, h2, h⟩ := Res.bind_eq_ok.mp h
        cases h
        exact Res.bind_eq_ok.mpr ⟨_, layout_move h2, rfl⟩
    | some a =>
      simp only at h ⊢
      obtain ⟨x, h2, h⟩ := Res.bind_eq_ok.mp h
      cases h
      refine Res.bind_eq_ok.mpr ⟨_, layout_move h2, ?_⟩
      rw [List.map_cons]
      congr 2
      change (if l.statement.isDir .equ = true then _ else _) = _
      split <;> rfl

theorem layout_second {n : Nat} : ∀ {B B' : List Line}, Module.layout none B = .ok B' → (∀ l ∈ B, l.value = none) → ∀ pc,
    ∃ Z, Module.layout pc (B.map (moveLine n)) = .ok Z ∧ List.Forall₂ (Ahead n) B' Z
  | [], B', h, _, pc => by cases h; exact ⟨[], rfl, .nil⟩
  | l :: B, B', h, hval, pc => by
    cases pc with
    | none =>
      refine ⟨_, layout_move h, ?_⟩
      rw [List.forall₂_map_right_iff]
      exact List.forall₂_same.2 fun l _ => ahead_move n l
    | some c =>
    rw [List.map_cons]
    unfold Module.layout at h ⊢
    obtain ⟨o, h1, h⟩ := Res.bind_eq_ok.mp h
    cases o with
    | none =>
      simp only at h
      split at h
      · cases h
      · next hs =>
        obtain ⟨x, h2, h⟩ := Res.bind_eq_ok.mp h
        cases h
        obtain ⟨Z, hZ, hf⟩ := layout_second h2 (fun l hl => hval l (List.mem_cons_of_mem _ hl)) (some (Address.addWrapped c l.statement.serializedSize))
        refine ⟨_, Res.bind_eq_ok.mpr ⟨some c, originAt_none h1, Res.bind_eq_ok.mpr ⟨Z, hZ, rfl⟩⟩, .cons ?_ hf⟩
        change Ahead n l (if l.statement.isDir .equ = true then _ else _)
        split
        · exact ahead_move n l
        · next he =>
          refine ⟨rfl, rfl, rfl, rfl, fun v hv => ?_, fun h => absurd h he⟩
          rw [hval l (by simp)] at hv
          cases hv
    | some a =>
      simp only at h
      obtain ⟨x, h2, h⟩ := Res.bind_eq_ok.mp h
      cases h
      refine ⟨_, Res.bind_eq_ok.mpr ⟨some a, originAt_some h1, Res.bind_eq_ok.mpr ⟨_, layout_move h2, rfl⟩⟩, .cons ?_ ?_⟩
      · change Ahead n _ (if l.statement.isDir .equ = true then _ else _)
        split
        · exact ahead_move n l
        · exact ahead_move n { l with value := some (labelOfAddress a) }
      · rw [List.forall₂_map_right_iff]
        exact List.forall₂_same.2 fun l _ => ahead_move n l

/-- `m` has the lines of `a` and then those of `b`. -/
structure Together (a b m : Module) : Prop where
  name : m.name = a.name
  same : b.name = a.name
  globals : m.globals = a.globals ++ moveNames a.lines.length b.globals
  lines : ∃ Z, m.lines = a.lines ++ Z ∧ List.Forall₂ (Ahead a.lines.length) b.lines Z
  scopes : ∀ l ∈ a.lines, ∀ s ∈ l.scopes, s < a.lines.length
  apart : ∀ g ∈ b.globals, HMap.find a.globals g.1 = none

theorem localsAt_first {a b m : Module} (h : Together a b m) {s : Nat} (hs : s < a.lines.length) :
    m.localsAt s = a.localsAt s := by
  obtain ⟨Z, hZ, -⟩ := h.lines
  unfold Module.localsAt
  rw [hZ, List.getElem?_append_left hs]

theorem localsAt_second {a b m : Module} (h : Together a b m) (s : Nat) :
    m.localsAt (s + a.lines.length) = moveNames a.lines.length (b.localsAt s) := by
  obtain ⟨Z, hZ, hf⟩ := h.lines
  unfold Module.localsAt
  rw [hZ, List.getElem?_append_right (by omega), Nat.add_sub_cancel]
  cases hb : b.lines[s]? with
  | none =>
    have : Z[s]? = none := by
      rw [List.getElem?_eq_none_iff, ← hf.length_eq]
      exact List.getElem?_eq_none_iff.1 hb
    rw [this]; rfl
  | some l =>
    have hlt : s < Z.length := by rw [← hf.length_eq]; exact (List.getElem?_eq_some_iff.mp hb).1
    obtain ⟨l', hl', hA⟩ := forall2_getElem? hf (List.getElem?_eq_getElem hlt)
    rw [hb] at hl'; cases hl'
    rw [List.getElem?_eq_getElem hlt]
    exact hA.locals

/-- Where a name used in the first part is: at a line of the first part, or it is a name of the second. -/
theorem index_first {a b m : Module} (h : Together a b m) (name : Str) : ∀ (scopes : List Nat),
    (∀ s ∈ scopes, s < a.lines.length) → m.localIndex name scopes =
      (a.localIndex name scopes).or ((HMap.find b.globals name).map (· + a.lines.length))
  | [], _ => by
    unfold Module.localIndex
    rw [h.globals, find_append, find_move]
  | s :: rest, hs => by
    unfold Module.localIndex
    rw [localsAt_first h (hs s (by simp))]
    cases (a.localsAt s).find name with
    | some i => rfl
    | none => exact index_first h name rest fun x hx => hs x (List.mem_cons_of_mem _ hx)

theorem find_none {g : HMap Str Nat} {k : Str} {i : Nat} (h : HMap.find g k = some i) : (k, i) ∈ g := by
  induction g with
  | nil => cases h
  | cons p g ih =>
    obtain ⟨k', v⟩ := p
    simp only [HMap.find] at h
    split at h
    · next he => cases h; subst he; simp
    · exact List.mem_cons_of_mem _ (ih h)

/-- Where a name used in the second part is: at a line of the second part, or it is a name of the first. -/
theorem index_second {a b m : Module} (h : Together a b m) (name : Str) : ∀ (scopes : List Nat),
    m.localIndex name (scopes.map (· + a.lines.length)) =
      ((b.localIndex name scopes).map (· + a.lines.length)).or (HMap.find a.globals name)
  | [] => by
    unfold Module.localIndex
    rw [List.map_nil]
    simp only
    rw [h.globals, find_append, find_move]
    cases hb : HMap.find b.globals name with
    | none => simp
    | some i => rw [h.apart _ (find_none hb)]; rfl
  | s :: rest => by
    rw [List.map_cons]
    unfold Module.localIndex
    rw [localsAt_second h, find_move]
    cases (b.localsAt s).find name with
    | some i => rfl
    | none => exact index_second h name rest

theorem together_join {a b : Module} (hn : b.name = a.name) (hs : ∀ l ∈ a.lines, ∀ s ∈ l.scopes, s < a.lines.length)
    (hd : ∀ g ∈ b.globals, HMap.find a.globals g.1 = none) : Together a b (join a b) :=
  ⟨rfl, hn, rfl, ⟨_, rfl, by
    rw [List.forall₂_map_right_iff]
    exact List.forall₂_same.2 fun l _ => ahead_move _ l⟩, hs, hd⟩

theorem fixed_fields {P : List Nat → Option Int → Prop} : ∀ {B B' : List Line}, List.Forall₂ FixRel B B' →
    (∀ l ∈ B, P l.scopes l.value) → ∀ l ∈ B', P l.scopes l.value := by
  intro B B' h
  induction h with
  | nil => intro _ l hl; cases hl
  | cons hr _ ih =>
    intro hB l hl
    rcases List.mem_cons.1 hl with rfl | hl
    · have := hB _ List.mem_cons_self
      unfold FixRel at hr
      split at hr
      · rw [hr]; exact this
      · obtain ⟨-, j, -, hr⟩ := hr; rw [hr]; exact this
    · exact ih (fun l hl => hB l (List.mem_cons_of_mem _ hl)) l hl

theorem explored_fields {P : List Nat → Option Int → Prop} {m : Module} {k : Nat} {w : OMap ExecutionState} {p : Module.Pass}
    (h : m.explore k ⟨m.lines, w⟩ = .ok p) (hm : ∀ l ∈ m.lines, P l.scopes l.value) :
    ∀ l ∈ p.lines, P l.scopes l.value := by
  intro l hl
  obtain ⟨i, hi⟩ := List.mem_iff_getElem?.1 hl
  obtain ⟨l', hl', hb⟩ := getElem?_bare (explored_same h) hi
  obtain ⟨-, -, e1, e2, -⟩ := bare_fields hb
  rw [e1, e2]
  exact hm l' (List.mem_of_getElem? hl')

theorem first_join {fa fb : Nat} {a b a₁ b₁ : Module} (ha : a.runFirstPass fa = .ok a₁) (hb : b.runFirstPass fb = .ok b₁)
    (hT : Together a b (join a b)) (hv : ∀ l ∈ b.lines, l.value = none) :
    ∃ m₁, (join a b).runFirstPass (fa + fb) = .ok m₁ ∧ Together a₁ b₁ m₁ := by
  obtain ⟨p, xs, xs', p1, p2, p3, rfl⟩ := firstPass_parts ha
  obtain ⟨q, ys, ys', q1, q2, q3, rfl⟩ := firstPass_parts hb
  have hlen : p.lines.length = a.lines.length := by
    have := congrArg List.length (explored_same p1)
    simpa using this
  have hlen2 : xs.length = p.lines.length := (fixLines_rel p2).length_eq.symm
  have hlen3 : xs'.length = xs.length := (layout_rel p3).length_eq.symm
  have h2 := explore_second (b := b) (m := join a b) (A := p.lines) (fun scopes name i hi => by
    rw [hlen, index_second hT, hi]; rfl) q1
  have h1 := explore_first (a := a) (m := join a b) (L := b.lines.map (moveLine a.lines.length))
    (v := moveWork a.lines.length (Module.seeds [] 0 b.lines)) (n := a.lines.length)
    (fun scopes name i hs hi => by rw [index_first hT _ _ hs, hi]; rfl)
    (fun e he => by
      obtain ⟨x, -, rfl⟩ := List.mem_map.1 he
      exact Nat.le_add_left _ _) p1 rfl hT.scopes (by rw [← hlen]; exact h2)
  simp only at h1
  have hseed : Module.seeds [] 0 (join a b).lines =
      Module.seeds [] 0 a.lines ++ moveWork a.lines.length (Module.seeds [] 0 b.lines) := by
    have := seeds_second (n := a.lines.length) (explore_below p1) b.lines 0 []
    rw [← this]
    change Module.seeds [] 0 (a.lines ++ b.lines.map (moveLine a.lines.length)) = _
    rw [seeds_append, Nat.zero_add]
    simp [moveWork]
  obtain ⟨pc', hpc⟩ := layout_append p3
  have hys : ∀ l ∈ ys, l.value = none :=
    fixed_fields (P := fun _ v => v = none) (fixLines_rel q2) (explored_fields (P := fun _ v => v = none) q1 hv)
  obtain ⟨Z, hZ, hf⟩ := layout_second (n := a.lines.length) q3 hys pc'
  refine ⟨{ join a b with lines := xs' ++ Z }, ?_, ?_⟩
  · unfold Module.runFirstPass
    refine Res.bind_eq_ok.mpr ⟨⟨p.lines ++ q.lines.map (moveLine p.lines.length), moveWork p.lines.length q.work⟩, ?_, ?_⟩
    · rw [hseed]; exact h1
    · refine Res.bind_eq_ok.mpr ⟨_, fixLines_append p2 (fixLines_move q2), ?_⟩
      rw [hlen]
      exact Res.bind_eq_ok.mpr ⟨_, hpc _ _ hZ, rfl⟩
  · have e : xs'.length = a.lines.length := by omega
    refine ⟨rfl, hT.same, ?_, ⟨Z, rfl, ?_⟩, ?_, hT.apart⟩
    · change _ = a.globals ++ moveNames xs'.length b.globals
      rw [e]; rfl
    · change List.Forall₂ (Ahead xs'.length) ys' Z
      rw [e]; exact hf
    · change ∀ l ∈ xs', ∀ s ∈ l.scopes, s < xs'.length
      rw [e]
      intro l hl
      have h3 := fixed_fields (P := fun sc _ => ∀ s ∈ sc, s < a.lines.length) (fixLines_rel p2)
        (explored_fields (P := fun sc _ => ∀ s ∈ sc, s < a.lines.length) p1 hT.scopes)
      obtain ⟨i, hi⟩ := List.mem_iff_getElem?.1 hl
      obtain ⟨l₀, hl₀, hr⟩ := forall2_getElem? (layout_rel p3) hi
      rw [hr]
      exact h3 l₀ (List.mem_of_getElem? hl₀)

end Nsasm.Joined
