import Verif.Lemmas.JoinLink

/-! # Facts about a file divided in two: loading and analysis -/

namespace Nsasm.Joined
open Spec Props

/-! ## Loading -/

/-- No global name of `b` is one of `a`. -/
def Apart (a b : Module) : Prop := ∀ g ∈ b.globals, HMap.find a.globals g.1 = none

theorem addLabel_apart {a b b' X : Module} {scopes : List Nat} {l : ParsedLabel} {t : Nat}
    (h : b.addLabel scopes l t = .ok b')
    (h' : (put a b).addLabel (scopes.map (· + a.lines.length)) l (t + a.lines.length) = .ok X) (hd : Apart a b) :
    Apart a b' := by
  unfold Module.addLabel at h h'
  have e : (if l.exported = true then [] else scopes.map (· + a.lines.length)) =
      (if l.exported = true then [] else scopes).map (· + a.lines.length) := by split <;> rfl
  rw [e] at h'
  cases hs : (if l.exported = true then [] else scopes) with
  | nil =>
    rw [hs] at h h'
    simp only [List.map_nil] at h h'
    split at h
    · cases h
    · cases h
      split at h'
      · cases h'
      · next hh =>
        intro g hg
        simp only [HMap.insertNew, List.mem_append, List.mem_singleton] at hg
        rcases hg with hg | rfl
        · exact hd g hg
        · unfold HMap.has put at hh
          simp only at hh
          rw [find_append] at hh
          simp only
          cases hf : HMap.find a.globals l.name with
          | none => rfl
          | some v => rw [hf] at hh; simp at hh
  | cons s rest =>
    rw [hs] at h
    simp only at h
    split at h
    · cases h
    · cases h; exact hd

theorem addLabels_apart {a X : Module} : ∀ {ls : List ParsedLabel} {b b' : Module} {scopes : List Nat} {t : Nat},
    b.addLabels scopes t ls = .ok b' →
    (put a b).addLabels (scopes.map (· + a.lines.length)) (t + a.lines.length) ls = .ok X → Apart a b → Apart a b'
  | [], b, b', scopes, t, h, _, hd => by cases h; exact hd
  | l :: ls, b, b', scopes, t, h, h', hd => by
    unfold Module.addLabels at h h'
    obtain ⟨b1, h1, h⟩ := Res.bind_eq_ok.mp h
    obtain ⟨X1, h1', h'⟩ := Res.bind_eq_ok.mp h'
    have hd1 := addLabel_apart h1 h1' hd
    rw [addLabel_put h1 hd1] at h1'
    cases h1'
    exact addLabels_apart h h' hd1

theorem loadStatement_apart {a : Module} {ld ld' X : Module.Loading} {st : Statement}
    (h : Module.loadStatement ld st = .ok ld') (h' : Module.loadStatement (putLoading a ld) st = .ok X)
    (hd : Apart a ld.m) : Apart a ld'.m := by
  unfold Module.loadStatement at h h'
  obtain ⟨m, h1, h⟩ := Res.bind_eq_ok.mp h
  obtain ⟨m', h1', -⟩ := Res.bind_eq_ok.mp h'
  have e1 : (putLoading a ld).m.lines.length = ld.m.lines.length + a.lines.length := by
    simp [putLoading, put, Nat.add_comm]
  have e2 : ({ (putLoading a ld).m with lines := (putLoading a ld).m.lines ++
      [Module.newLine st (putLoading a ld).pending (putLoading a ld).scopes] } : Module) =
      put a { ld.m with lines := ld.m.lines ++ [Module.newLine st ld.pending ld.scopes] } := by
    simp [putLoading, put, Module.newLine, moveLine, moveNames]
  rw [e2, e1] at h1'
  have hm : Apart a m := addLabels_apart h1 h1' hd
  cases st with
  | instr i => cases h; exact hm
  | dir d =>
    simp only at h
    unfold Module.loadDirective at h
    repeat' split at h
    all_goals first
      | cases h; exact hm
      | cases h

theorem loadItems_apart {a : Module} {X : Module.Loading} : ∀ {items : List Item} {ld ld' : Module.Loading},
    (∀ it ∈ items, NotModule it) → Module.loadItems ld items = .ok ld' →
    Module.loadItems (putLoading a ld) items = .ok X → Apart a ld.m → Apart a ld'.m
  | [], ld, ld', _, h, _, hd => by cases h; exact hd
  | .label l :: rest, ld, ld', hm, h, h', hd =>
    loadItems_apart (ld := { ld with pending := ld.pending ++ [l] }) (fun it hi => hm it (List.mem_cons_of_mem _ hi)) h h' hd
  | .stmt st :: rest, ld, ld', hm, h, h', hd => by
    unfold Module.loadItems at h h'
    obtain ⟨ld1, h1, h⟩ := Res.bind_eq_ok.mp h
    obtain ⟨X1, h1', h'⟩ := Res.bind_eq_ok.mp h'
    have hd1 := loadStatement_apart h1 h1' hd
    rw [loadStatement_put (hm _ (by simp)) h1 hd1] at h1'
    cases h1'
    exact loadItems_apart (fun it hi => hm it (List.mem_cons_of_mem _ hi)) h h' hd1

theorem load_apart {f g : List Str} {a b m : Module} (ha : Module.loadAsmFile f = .ok a) (hb : Module.loadAsmFile g = .ok b)
    (hfg : Module.loadAsmFile (f ++ g) = .ok m)
    (hend : ∀ items, FileItems f items → NoLabelLast items)
    (hmod : ∀ items, FileItems g items → ∀ it ∈ items, NotModule it) : Apart a b := by
  obtain ⟨xs, la, f1, l1, s1, rfl⟩ := loadAsmFile_items.mp ha
  obtain ⟨ys, lb, f2, l2, s2, rfl⟩ := loadAsmFile_items.mp hb
  obtain ⟨zs, lc, f3, l3, s3, rfl⟩ := loadAsmFile_items.mp hfg
  have hp := loadItems_pending (hend _ f1) rfl l1
  rw [Props.fileItems_unique f3 (fileItems_append f1 f2), loadItems_append] at l3
  obtain ⟨la', l1', l3⟩ := Res.bind_eq_ok.mp l3
  rw [l1] at l1'; cases l1'
  have e : la = putLoading la.m ⟨.empty, [], []⟩ := by
    obtain ⟨m, p, s⟩ := la
    simp only at hp s1
    subst hp s1
    simp [putLoading, put, Module.empty, moveNames]
  rw [e] at l3
  exact loadItems_apart (a := la.m) (hmod _ f2) l2 l3 (fun g hg => by cases hg)

theorem inside_loaded {f : List Str} {a : Module} (ha : Module.loadAsmFile f = .ok a) (name : Str) :
    ∀ (scopes : List Nat) (i : Nat), a.localIndex name scopes = some i → i < a.lines.length := by
  obtain ⟨items, -, hI, -, -⟩ := loadAsmFile_ok ha
  have hlt : ∀ s t, Defines (program [] items) s name t → t < a.lines.length := by
    rintro s t ⟨n, line, lab, e1, -⟩
    rw [hI.length]
    exact (List.getElem?_eq_some_iff.1 e1).1
  intro scopes
  induction scopes with
  | nil =>
    intro i hi
    rw [Module.localIndex, hI.globals, find_tableOf hI.nodup] at hi
    exact hlt _ _ hi
  | cons s rest ih =>
    intro i hi
    rw [Module.localIndex, hI.locals] at hi
    cases hf : HMap.find (tableOf (some s) (defs (program [] items))) name with
    | none => rw [hf] at hi; exact ih i hi
    | some j =>
      rw [hf] at hi; cases hi
      exact hlt _ _ ((find_tableOf hI.nodup).1 hf)

/-- `m` has the lines of `a` and then exactly those of `b`. -/
structure Exact (a b m : Module) : Prop extends Together a b m where
  exact : m.lines = a.lines ++ b.lines.map (moveLine a.lines.length)
  inside : ∀ name scopes i, a.localIndex name scopes = some i → i < a.lines.length

/-! ## The analysis -/

/-- Control cannot go on from this line, and has not come to it. -/
def Wall (l : Line) : Prop := l.reached = false ∧ ∀ s nx, l.statement.execute s ≠ .ok nx

theorem branch_keeps {m : Module} {l : Line} {s : ExecutionState} {w w' : OMap ExecutionState}
    (h : m.branchWork l s w = .ok w') : ∀ e ∈ w, ∃ x, (e.1, x) ∈ w' := by
  unfold Module.branchWork at h
  split at h
  · cases h; exact fun e he => ⟨e.2, he⟩
  · split at h
    · cases h; exact fun e he => ⟨e.2, he⟩
    · split at h
      · cases h
      · split at h
        · cases h
        · obtain ⟨nx, -, h⟩ := Res.bind_eq_ok.mp h
          cases h
          exact (upsert_keys _ _ _ _).2

theorem explore_wall {m : Module} {n : Nat} : ∀ {k : Nat} {p q : Module.Pass}, m.explore k p = .ok q →
    (∃ l, p.lines[n]? = some l ∧ Wall l) → ∀ e ∈ p.work, e.1 ≠ n
  | 0, p, q, h, _ => by cases h
  | k + 1, p, q, h, hw => by
    unfold Module.explore at h
    obtain ⟨o, h1, h⟩ := Res.bind_eq_ok.mp h
    unfold Module.step at h1
    split at h1
    · next he => rw [he]; intro e he; cases he
    · next i s rest hwk =>
      split at h1
      · cases h1
      · split at h1
        · cases h1
        · next l hl =>
          have hin : (l.reached = true ∧ l.incoming = s) ∨ (∃ nx, l.statement.execute s = .ok nx) → i ≠ n := by
            rintro hor rfl
            obtain ⟨l', hl', hwl⟩ := hw
            rw [hl] at hl'; cases hl'
            rcases hor with hor | ⟨nx, hor⟩
            · rw [hwl.1] at hor; cases hor.1
            · exact hwl.2 _ _ hor
          split at h1
          · next hc =>
            cases h1
            have ih := explore_wall h hw
            rw [hwk]
            intro e he
            rcases List.mem_cons.1 he with rfl | he
            · exact hin (.inl hc)
            · exact ih e he
          · obtain ⟨p', h2, h1⟩ := Res.bind_eq_ok.mp h1
            cases h1
            unfold Module.visit at h2
            obtain ⟨nx, h3, h2⟩ := Res.bind_eq_ok.mp h2
            obtain ⟨w, hb, h2⟩ := Res.bind_eq_ok.mp h2
            cases h2
            have hne := hin (.inr ⟨nx, h3⟩)
            have ih := explore_wall h (by
              obtain ⟨l', hl', hwl⟩ := hw
              exact ⟨l', by rw [List.getElem?_set_ne hne]; exact hl', hwl⟩)
            intro e he
            have h4 : ∃ x, (e.1, x) ∈ (if l.statement.isExitInstruction = true then p.work
                else Module.addWork p.work (i + 1) nx) := by
              split
              · exact ⟨e.2, he⟩
              · exact (upsert_keys _ _ _ _).2 e he
            obtain ⟨x, hx⟩ := h4
            obtain ⟨y, hy⟩ := branch_keeps hb _ hx
            exact ih (_, y) hy

theorem mem_upsert_key {ν : Type} (f : ν → ν) (k : Nat) (v : ν) : ∀ (m : OMap ν), ∀ e ∈ OMap.upsert f m k v,
    e.1 = k ∨ ∃ e' ∈ m, e'.1 = e.1
  | [], e, he => by simp [OMap.upsert] at he; exact .inl (by rw [he])
  | (k', x) :: m, e, he => by
    simp only [OMap.upsert] at he
    split at he
    · rcases List.mem_cons.1 he with rfl | he
      · exact .inr ⟨(k', x), by simp, rfl⟩
      · rcases mem_upsert_key f k v m e he with h | ⟨e', h, h'⟩
        · exact .inl h
        · exact .inr ⟨e', List.mem_cons_of_mem _ h, h'⟩
    · split at he
      · next hk =>
        rcases List.mem_cons.1 he with rfl | he
        · exact .inl hk
        · exact .inr ⟨e, List.mem_cons_of_mem _ he, rfl⟩
      · rcases List.mem_cons.1 he with rfl | he
        · exact .inl rfl
        · exact .inr ⟨e, he, rfl⟩

theorem below_of_add {n k : Nat} {s : ExecutionState} {w : OMap ExecutionState} (hk : k < n) (h : Below n w) :
    Below n (Module.addWork w k s) := by
  intro e he
  rcases mem_upsert_key _ _ _ _ e he with h1 | ⟨e', h1, h2⟩
  · omega
  · have := h e' h1; omega

/-- The branches of these lines go to the places that `a` has for their names. -/
def BranchesTo (f : List Nat → List Nat) (g : Option Nat → Option Nat) (a m : Module) (ls : List Line) : Prop :=
  ∀ l ∈ ls, ∀ i t, l.statement = .instr i → i.isLocalBranch = true → i.arg1.simpleIdentifier = some t →
    m.localIndex t (f l.scopes) = g (a.localIndex t l.scopes)

theorem branch_back {n : Nat} {a m : Module} {l : Line} (hi : ∀ name scopes i, a.localIndex name scopes = some i → i < n)
    (hb : ∀ i t, l.statement = .instr i → i.isLocalBranch = true → i.arg1.simpleIdentifier = some t →
      m.localIndex t l.scopes = a.localIndex t l.scopes)
    {s : ExecutionState} {w x v : OMap ExecutionState} (hw : Below n w) (hv : ∀ e ∈ v, n ≤ e.1)
    (h : m.branchWork l s (w ++ v) = .ok x) : ∃ w', a.branchWork l s w = .ok w' ∧ Below n w' ∧ x = w' ++ v := by
  unfold Module.branchWork at h ⊢
  split at h
  · cases h; next hd => exact ⟨w, rfl, hw, rfl⟩
  · next i hst =>
    split at h
    · next hc => cases h; simp only [hc, if_true]; exact ⟨w, rfl, hw, rfl⟩
    · next hc =>
      rw [if_neg hc]
      split at h
      · cases h
      · next t ht =>
        rw [hb i t hst (by simpa using hc) ht] at h
        split at h
        · cases h
        · next j hj =>
          obtain ⟨nx, h1, h⟩ := Res.bind_eq_ok.mp h
          cases h
          have hlt := hi _ _ _ hj
          refine ⟨_, Res.bind_eq_ok.mpr ⟨nx, h1, rfl⟩, below_of_add hlt hw, ?_⟩
          unfold Module.addWork
          rw [upsert_left _ _ _ _ _ fun e he => by have := hv e he; omega]

theorem explore_back {a m : Module} {l₀ : Line} {L : List Line} {n : Nat} {v : OMap ExecutionState} {q : Module.Pass}
    (hi : ∀ name scopes i, a.localIndex name scopes = some i → i < n) (hv : ∀ e ∈ v, n ≤ e.1) (hwall : Wall l₀) :
    ∀ {k : Nat} {p : Module.Pass}, p.lines.length = n → Below n p.work → BranchesTo id id a m p.lines →
    m.explore k ⟨p.lines ++ l₀ :: L, p.work ++ v⟩ = .ok q →
    ∃ r j, a.explore k p = .ok r ∧ r.lines.length = n ∧ j ≤ k ∧ m.explore j ⟨r.lines ++ l₀ :: L, v⟩ = .ok q
  | 0, p, _, _, _, h => by cases h
  | k + 1, p, hlen, hbel, hbr, h => by
    have h0 := h
    unfold Module.explore at h
    obtain ⟨o, h1, h⟩ := Res.bind_eq_ok.mp h
    cases hw : p.work with
    | nil =>
      refine ⟨p, k + 1, ?_, hlen, Nat.le_refl _, by rw [hw] at h0; exact h0⟩
      unfold Module.explore
      refine Res.bind_eq_ok.mpr ⟨none, ?_, rfl⟩
      unfold Module.step
      rw [hw]
    | cons e rest =>
      obtain ⟨i, s⟩ := e
      have hlt : i < p.lines.length := by rw [hlen]; exact hbel (i, s) (by rw [hw]; simp)
      have hget := List.getElem?_eq_getElem hlt
      have hmem := List.getElem_mem hlt
      generalize p.lines[i] = l at hget hmem
      unfold Module.step at h1
      simp only [hw, List.cons_append, List.length_append] at h1
      rw [if_neg (by omega), List.getElem?_append_left hlt, hget] at h1
      simp only at h1
      have fin : ∀ p' : Module.Pass, a.step p = .ok (some p') → p'.lines.length = n → Below n p'.work →
          BranchesTo id id a m p'.lines → m.explore k ⟨p'.lines ++ l₀ :: L, p'.work ++ v⟩ = .ok q →
          ∃ r j, a.explore (k + 1) p = .ok r ∧ r.lines.length = n ∧ j ≤ k + 1 ∧
            m.explore j ⟨r.lines ++ l₀ :: L, v⟩ = .ok q := by
        intro p' e1 e2 e3 e4 e5
        obtain ⟨r, j, k1, k2, k3, k4⟩ := explore_back hi hv hwall e2 e3 e4 e5
        refine ⟨r, j, ?_, k2, by omega, k4⟩
        unfold Module.explore
        exact Res.bind_eq_ok.mpr ⟨_, e1, k1⟩
      split at h1
      · next hc =>
        cases h1
        refine fin { p with work := rest } ?_ hlen ?_ hbr h
        · unfold Module.step
          rw [hw]
          simp only
          rw [if_neg (by omega), hget]
          simp only
          rw [if_pos hc]
        · intro e he; exact hbel e (by rw [hw]; exact List.mem_cons_of_mem _ he)
      · next hc =>
        obtain ⟨p', h2, h1⟩ := Res.bind_eq_ok.mp h1
        cases h1
        unfold Module.visit at h2
        obtain ⟨nx, h3, h2⟩ := Res.bind_eq_ok.mp h2
        obtain ⟨x, h4, h2⟩ := Res.bind_eq_ok.mp h2
        cases h2
        have hset : (p.lines ++ l₀ :: L).set i (Module.reach l s) = p.lines.set i (Module.reach l s) ++ l₀ :: L :=
          List.set_append_left _ _ hlt
        simp only [hset] at h
        have hw0 := explore_wall (n := n) h ⟨l₀, by
          rw [List.getElem?_append_right (by simp [hlen]), List.length_set, hlen, Nat.sub_self]; rfl, hwall⟩
        simp only at hw0
        have key : ∃ W, (if l.statement.isExitInstruction = true then (i, s) :: (rest ++ v)
              else Module.addWork ((i, s) :: (rest ++ v)) (i + 1) nx) = W ++ v ∧ Below n W ∧
            W = (if l.statement.isExitInstruction = true then p.work else Module.addWork p.work (i + 1) nx) := by
          refine ⟨_, ?_, ?_, rfl⟩
          · rw [← List.cons_append, ← hw]
            split
            · rfl
            · next hx =>
              rw [if_neg hx] at h4
              obtain ⟨y, hy⟩ := (upsert_keys (fun old : ExecutionState => old.merge nx) (i + 1) nx ((i, s) :: (rest ++ v))).1
              obtain ⟨z, hz⟩ := branch_keeps h4 _ hy
              have := hw0 _ hz
              simp only at this
              unfold Module.addWork
              rw [upsert_left _ _ _ _ _ fun e he => by have := hv e he; omega]
          · split
            · exact hbel
            · next hx =>
              rw [if_neg hx] at h4
              obtain ⟨y, hy⟩ := (upsert_keys (fun old : ExecutionState => old.merge nx) (i + 1) nx ((i, s) :: (rest ++ v))).1
              obtain ⟨z, hz⟩ := branch_keeps h4 _ hy
              have := hw0 _ hz
              simp only at this
              exact below_of_add (by omega) hbel
        obtain ⟨W, e1, e2, e3⟩ := key
        rw [e1] at h4
        obtain ⟨w', k1, k2, rfl⟩ := branch_back hi (fun i t => hbr l hmem i t) e2 hv h4
        refine fin ⟨p.lines.set i (Module.reach l s), w'⟩ ?_ (by simpa using hlen) k2 ?_ h
        · unfold Module.step
          rw [hw]
          simp only
          rw [if_neg (by omega), hget]
          simp only
          rw [if_neg hc]
          refine Res.bind_eq_ok.mpr ⟨_, ?_, rfl⟩
          unfold Module.visit
          refine Res.bind_eq_ok.mpr ⟨nx, h3, ?_⟩
          refine Res.bind_eq_ok.mpr ⟨w', ?_, rfl⟩
          rw [← e3]; exact k1
        · intro y hy
          rcases List.mem_or_eq_of_mem_set hy with hy | rfl
          · exact hbr y hy
          · exact hbr l hmem

theorem branch_back_second {n : Nat} {b m : Module} {l : Line}
    (hb : ∀ i t, l.statement = .instr i → i.isLocalBranch = true → i.arg1.simpleIdentifier = some t →
      m.localIndex t (l.scopes.map (· + n)) = (b.localIndex t l.scopes).map (· + n))
    {s : ExecutionState} {w x : OMap ExecutionState} (h : m.branchWork (moveLine n l) s (moveWork n w) = .ok x) :
    ∃ w', b.branchWork l s w = .ok w' ∧ x = moveWork n w' := by
  unfold Module.branchWork at h ⊢
  simp only [moveLine] at h
  split at h
  · cases h; next hd => exact ⟨w, rfl, rfl⟩
  · next i hst =>
    split at h
    · next hc => cases h; simp only [hc, if_true]; exact ⟨w, rfl, rfl⟩
    · next hc =>
      rw [if_neg hc]
      split at h
      · cases h
      · next t ht =>
        rw [hb i t hst (by simpa using hc) ht] at h
        cases hj : b.localIndex t l.scopes with
        | none => rw [hj] at h; cases h
        | some j =>
          rw [hj] at h
          simp only [Option.map_some] at h
          obtain ⟨nx, h1, h⟩ := Res.bind_eq_ok.mp h
          cases h
          refine ⟨_, Res.bind_eq_ok.mpr ⟨nx, h1, rfl⟩, ?_⟩
          unfold Module.addWork
          rw [upsert_move]

theorem explore_back_second {b m : Module} {A : List Line} {q : Module.Pass} : ∀ {k : Nat} {p : Module.Pass},
    BranchesTo (List.map (· + A.length)) (Option.map (· + A.length)) b m p.lines →
    m.explore k ⟨A ++ p.lines.map (moveLine A.length), moveWork A.length p.work⟩ = .ok q →
    ∃ r, b.explore k p = .ok r ∧ q = ⟨A ++ r.lines.map (moveLine A.length), moveWork A.length r.work⟩
  | 0, p, _, h => by cases h
  | k + 1, p, hbr, h => by
    unfold Module.explore at h
    obtain ⟨o, h1, h⟩ := Res.bind_eq_ok.mp h
    have fin : ∀ p' : Module.Pass, b.step p = .ok (some p') →
        BranchesTo (List.map (· + A.length)) (Option.map (· + A.length)) b m p'.lines →
        m.explore k ⟨A ++ p'.lines.map (moveLine A.length), moveWork A.length p'.work⟩ = .ok q →
        ∃ r, b.explore (k + 1) p = .ok r ∧ q = ⟨A ++ r.lines.map (moveLine A.length), moveWork A.length r.work⟩ := by
      intro p' e1 e2 e3
      obtain ⟨r, k1, k2⟩ := explore_back_second e2 e3
      refine ⟨r, ?_, k2⟩
      unfold Module.explore
      exact Res.bind_eq_ok.mpr ⟨_, e1, k1⟩
    cases hw : p.work with
    | nil =>
      unfold Module.step at h1
      rw [hw] at h1
      simp only [moveWork, List.map_nil] at h1
      cases h1
      cases h
      refine ⟨p, ?_, by rw [hw]⟩
      unfold Module.explore
      refine Res.bind_eq_ok.mpr ⟨none, ?_, rfl⟩
      unfold Module.step
      rw [hw]
    | cons e rest =>
      obtain ⟨i, s⟩ := e
      have ew : moveWork A.length p.work = (i + A.length, s) :: moveWork A.length rest := by rw [hw]; rfl
      unfold Module.step at h1
      simp only [ew, List.length_append, List.length_map] at h1
      split at h1
      · cases h1
      · next hne =>
        have hget : (A ++ p.lines.map (moveLine A.length))[i + A.length]? = (p.lines[i]?).map (moveLine A.length) := by
          rw [List.getElem?_append_right (by omega), Nat.add_sub_cancel, List.getElem?_map]
        rw [hget] at h1
        cases hl : p.lines[i]? with
        | none => rw [hl] at h1; cases h1
        | some l =>
          have hmem := List.mem_of_getElem? hl
          have hlt := (List.getElem?_eq_some_iff.mp hl).1
          rw [hl] at h1
          simp only [Option.map_some] at h1
          split at h1
          · next hc =>
            cases h1
            refine fin { p with work := rest } ?_ hbr h
            unfold Module.step
            rw [hw]
            simp only
            rw [if_neg (by omega), hl]
            simp only
            rw [if_pos (by exact hc)]
          · next hc =>
            obtain ⟨p', h2, h1⟩ := Res.bind_eq_ok.mp h1
            cases h1
            unfold Module.visit at h2
            obtain ⟨nx, h3, h2⟩ := Res.bind_eq_ok.mp h2
            obtain ⟨x, h4, h2⟩ := Res.bind_eq_ok.mp h2
            cases h2
            have e1 : (if (moveLine A.length l).statement.isExitInstruction = true then (i + A.length, s) :: moveWork A.length rest
                else Module.addWork ((i + A.length, s) :: moveWork A.length rest) (i + A.length + 1) nx) =
                moveWork A.length (if l.statement.isExitInstruction = true then p.work else Module.addWork p.work (i + 1) nx) := by
              rw [← ew]
              change (if l.statement.isExitInstruction = true then _ else _) = _
              split
              · rfl
              · unfold Module.addWork
                rw [← upsert_move, Nat.add_right_comm]
            rw [e1] at h4
            obtain ⟨w', k1, rfl⟩ := branch_back_second (fun i t => hbr l hmem i t) h4
            refine fin ⟨p.lines.set i (Module.reach l s), w'⟩ ?_ ?_ ?_
            · unfold Module.step
              rw [hw]
              simp only
              rw [if_neg (by omega), hl]
              simp only
              rw [if_neg (by exact hc)]
              refine Res.bind_eq_ok.mpr ⟨_, ?_, rfl⟩
              unfold Module.visit
              exact Res.bind_eq_ok.mpr ⟨nx, h3, Res.bind_eq_ok.mpr ⟨w', k1, rfl⟩⟩
            · intro y hy
              rcases List.mem_or_eq_of_mem_set hy with hy | rfl
              · exact hbr y hy
              · exact hbr l hmem
            · rw [← h]
              congr 2
              simp only
              rw [List.set_append_right _ _ (by omega), Nat.add_sub_cancel, List.map_set]
              rfl

end Nsasm.Joined
