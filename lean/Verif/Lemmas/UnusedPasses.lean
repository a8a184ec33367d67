import Verif.Lemmas.Unused

/-! # A label that nothing refers to: the passes -/

namespace Nsasm.Unused
open Spec Parse

variable {n : Str}

/-! ## First pass -/

def dropPass (n : Str) (p : Module.Pass) : Module.Pass := { p with lines := p.lines.map (dropLine n) }

theorem seeds_drop : ∀ (ls : List Line) (w : OMap ExecutionState) (i : Nat),
    Module.seeds w i (ls.map (dropLine n)) = Module.seeds w i ls := by
  intro ls
  induction ls with
  | nil => intro w i; rfl
  | cons l ls ih =>
    intro w i
    rw [List.map_cons, Module.seeds, Module.seeds]
    simp only [ih]
    rfl

theorem branchWork_drop (m : Module) {l : Line} (hf : FreeSt n l.statement) (st : ExecutionState) (w : OMap ExecutionState) :
    (dropName n m).branchWork (dropLine n l) st w = m.branchWork l st w := by
  unfold Module.branchWork
  show (match l.statement with
    | .dir _ => Res.ok w
    | .instr i =>
      if !i.isLocalBranch then .ok w
      else match i.arg1.simpleIdentifier with
        | none => .err .other
        | some target =>
          match (dropName n m).localIndex target l.scopes with
          | none => .err .undefinedName
          | some t => do
              let next ← i.executeBranch st
              .ok (Module.addWork w t next)) = _
  cases hs : l.statement with
  | dir d => rfl
  | instr i =>
    rw [hs] at hf
    simp only
    cases ht : i.arg1.simpleIdentifier with
    | none => rfl
    | some t => simp only [localIndex_drop m (simpleIdentifier_free hf.1 ht), dropLine]; rfl

theorem visit_drop (m : Module) (p : Module.Pass) (k : Nat) {l : Line} (hf : FreeSt n l.statement) (st : ExecutionState) :
    (dropName n m).visit (dropPass n p) k (dropLine n l) st = dropPass n <$> m.visit p k l st := by
  unfold Module.visit
  refine test_ren rfl fun next => ?_
  refine test_ren (branchWork_drop m hf st _) fun w => ?_
  simp [dropPass, Module.reach, dropLine, List.map_set]

theorem step_drop (m : Module) {p : Module.Pass} (hf : FreeLines n p.lines) :
    (dropName n m).step (dropPass n p) = Option.map (dropPass n) <$> m.step p := by
  unfold Module.step
  show (match p.work with
    | [] => Res.ok none
    | (k, state) :: rest =>
      if k = (p.lines.map (dropLine n)).length then .err .pastEndOfFile
      else match (p.lines.map (dropLine n))[k]? with
        | none => .ub .outOfBounds
        | some line =>
          if line.reached ∧ line.incoming = state then .ok (some { dropPass n p with work := rest })
          else do
            let p ← (dropName n m).visit (dropPass n p) k line state
            .ok (some p)) = _
  cases p.work with
  | nil => rfl
  | cons x rest =>
    simp only [List.length_map, List.getElem?_map]
    refine ite_ren Iff.rfl (fun _ => rfl) fun _ => ?_
    cases hl : p.lines[x.1]? with
    | none => rfl
    | some l =>
      simp only [Option.map_some]
      refine ite_ren Iff.rfl (fun _ => rfl) fun _ => ?_
      exact bind_ren (visit_drop m p x.1 (hf l (List.mem_of_getElem? hl)) x.2) fun _ => rfl

theorem step_free {m : Module} {p q : Module.Pass} (hf : FreeLines n p.lines) (h : m.step p = .ok (some q)) :
    FreeLines n q.lines := by
  unfold Module.step at h
  split at h
  · cases h
  · split at h
    · cases h
    · split at h
      · cases h
      · rename_i l hl
        split at h
        · cases h; exact hf
        · obtain ⟨p', hv, h⟩ := Res.bind_eq_ok.mp h
          cases h
          unfold Module.visit at hv
          obtain ⟨_, -, hv⟩ := Res.bind_eq_ok.mp hv
          obtain ⟨_, -, hv⟩ := Res.bind_eq_ok.mp hv
          cases hv
          intro x hx
          rcases List.mem_or_eq_of_mem_set hx with hx | rfl
          · exact hf x hx
          · exact hf l (List.mem_of_getElem? hl)

theorem explore_drop (m : Module) : ∀ (k : Nat) {p : Module.Pass}, FreeLines n p.lines →
    (dropName n m).explore k (dropPass n p) = dropPass n <$> m.explore k p ∧
      ∀ q, m.explore k p = .ok q → FreeLines n q.lines := by
  intro k
  induction k with
  | zero => intro p _; exact ⟨rfl, fun q h => by cases h⟩
  | succ k ih =>
    intro p hf
    rw [Module.explore, Module.explore]
    constructor
    · refine bind_on (step_drop m hf) fun q hq => ?_
      cases q with
      | none => rfl
      | some q => exact (ih (step_free hf hq)).1
    · intro q h
      obtain ⟨o, ho, h⟩ := Res.bind_eq_ok.mp h
      cases o with
      | none => cases h; exact hf
      | some q' => exact (ih (step_free hf ho)).2 q h

theorem fixLines_drop : ∀ ls : List Line, Module.fixLines (ls.map (dropLine n)) = List.map (dropLine n) <$> Module.fixLines ls := by
  intro ls
  induction ls with
  | nil => rfl
  | cons l ls ih =>
    rw [List.map_cons, Module.fixLines, Module.fixLines]
    show (match l.statement with
      | .dir _ => do
          let ls ← Module.fixLines (ls.map (dropLine n))
          Res.ok (dropLine n l :: ls)
      | .instr i =>
          if !l.reached then .err .unreached
          else do
            let i ← i.fixAddressingMode l.incoming.flags
            let ls ← Module.fixLines (ls.map (dropLine n))
            .ok ({ dropLine n l with statement := .instr i } :: ls)) = _
    cases l.statement with
    | dir d => exact bind_ren ih fun _ => rfl
    | instr i =>
      refine ite_ren Iff.rfl (fun _ => rfl) fun _ => ?_
      refine test_ren rfl fun j => ?_
      exact bind_ren ih fun _ => rfl

theorem fixAddressingMode_args {i j : Instruction} {f : StatusFlags} (h : i.fixAddressingMode f = .ok j) :
    j.arg1 = i.arg1 ∧ j.arg2 = i.arg2 := by
  unfold Instruction.fixAddressingMode at h
  split at h
  · split at h <;> cases h <;> exact ⟨rfl, rfl⟩
  · cases h; exact ⟨rfl, rfl⟩

theorem fixLines_free : ∀ {ls ls' : List Line}, FreeLines n ls → Module.fixLines ls = .ok ls' →
    FreeLines n ls' ∧ ls'.length = ls.length := by
  intro ls
  induction ls with
  | nil => intro ls' _ h; cases h; exact ⟨fun l hl => (by cases hl), rfl⟩
  | cons l ls ih =>
    intro ls' hf h
    rw [Module.fixLines] at h
    have hl := hf l (by simp)
    cases hs : l.statement with
    | dir d =>
      rw [hs] at h
      obtain ⟨r, hr, h⟩ := Res.bind_eq_ok.mp h
      cases h
      obtain ⟨h1, h2⟩ := ih (fun l hl => hf l (by simp [hl])) hr
      refine ⟨fun x hx => ?_, by simp [h2]⟩
      rcases List.mem_cons.mp hx with rfl | hx
      · exact hl
      · exact h1 x hx
    | instr i =>
      rw [hs] at h hl
      simp only at h
      split at h
      · cases h
      · obtain ⟨j, hj, h⟩ := Res.bind_eq_ok.mp h
        obtain ⟨r, hr, h⟩ := Res.bind_eq_ok.mp h
        cases h
        obtain ⟨h1, h2⟩ := ih (fun l hl => hf l (by simp [hl])) hr
        refine ⟨fun x hx => ?_, by simp [h2]⟩
        rcases List.mem_cons.mp hx with rfl | hx
        · obtain ⟨e1, e2⟩ := fixAddressingMode_args hj
          show Free n j.arg1 ∧ Free n j.arg2
          rw [e1, e2]; exact hl
        · exact h1 x hx

theorem layout_drop : ∀ (ls : List Line) (pc : Option Addr),
    Module.layout pc (ls.map (dropLine n)) = List.map (dropLine n) <$> Module.layout pc ls := by
  intro ls
  induction ls with
  | nil => intro pc; rfl
  | cons l ls ih =>
    intro pc
    rw [List.map_cons, Module.layout, Module.layout]
    refine test_ren rfl fun o => ?_
    cases o with
    | none =>
      refine ite_ren Iff.rfl (fun _ => rfl) fun _ => ?_
      exact bind_ren (ih none) fun _ => rfl
    | some a =>
      refine bind_ren (ih _) fun ls => ?_
      have hd : (dropLine n l).statement.isDir .equ = l.statement.isDir .equ := rfl
      simp only [hd]
      cases l.statement.isDir .equ <;> rfl

theorem layout_free : ∀ {ls ls' : List Line} {pc : Option Addr}, FreeLines n ls → Module.layout pc ls = .ok ls' →
    FreeLines n ls' ∧ ls'.length = ls.length := by
  intro ls
  induction ls with
  | nil => intro ls' pc _ h; cases h; exact ⟨fun l hl => (by cases hl), rfl⟩
  | cons l ls ih =>
    intro ls' pc hf h
    rw [Module.layout] at h
    obtain ⟨o, -, h⟩ := Res.bind_eq_ok.mp h
    have hl := hf l (by simp)
    have hr : ∃ pc r x, Module.layout pc ls = .ok r ∧ ls' = x :: r ∧ x.statement = l.statement := by
      cases o with
      | none =>
        simp only at h
        split at h
        · cases h
        · obtain ⟨r, hr, h⟩ := Res.bind_eq_ok.mp h
          cases h
          exact ⟨none, r, l, hr, rfl, rfl⟩
      | some a =>
        simp only at h
        obtain ⟨r, hr, h⟩ := Res.bind_eq_ok.mp h
        cases h
        refine ⟨_, r, _, hr, rfl, ?_⟩
        split <;> rfl
    obtain ⟨pc', r, x, hr, rfl, hx⟩ := hr
    obtain ⟨h1, h2⟩ := ih (fun l hl => hf l (by simp [hl])) hr
    refine ⟨fun y hy => ?_, by simp [h2]⟩
    rcases List.mem_cons.mp hy with rfl | hy
    · rw [hx]; exact hl
    · exact h1 y hy

/-- A module whose statements do not contain the name, and whose names stand on its lines. -/
def Fit (n : Str) (m : Module) : Prop := FreeLines n m.lines ∧ ∀ g ∈ m.globals, g.2 < m.lines.length

theorem explore_length {m : Module} : ∀ {k : Nat} {p q : Module.Pass}, m.explore k p = .ok q → q.lines.length = p.lines.length := by
  intro k
  induction k with
  | zero => intro p q h; cases h
  | succ k ih =>
    intro p q h
    rw [Module.explore] at h
    obtain ⟨o, ho, h⟩ := Res.bind_eq_ok.mp h
    cases o with
    | none => cases h; rfl
    | some q' =>
      rw [ih h]
      unfold Module.step at ho
      split at ho
      · cases ho
      · split at ho
        · cases ho
        · split at ho
          · cases ho
          · split at ho
            · cases ho; rfl
            · obtain ⟨p', hv, ho⟩ := Res.bind_eq_ok.mp ho
              cases ho
              unfold Module.visit at hv
              obtain ⟨_, -, hv⟩ := Res.bind_eq_ok.mp hv
              obtain ⟨_, -, hv⟩ := Res.bind_eq_ok.mp hv
              cases hv
              simp

theorem runFirstPass_drop (fuel : Nat) {m : Module} (hm : Fit n m) :
    (dropName n m).runFirstPass fuel = dropName n <$> m.runFirstPass fuel ∧
      ∀ m', m.runFirstPass fuel = .ok m' → Fit n m' := by
  unfold Module.runFirstPass
  have e : (⟨(dropName n m).lines, Module.seeds [] 0 (dropName n m).lines⟩ : Module.Pass) =
      dropPass n ⟨m.lines, Module.seeds [] 0 m.lines⟩ := by
    show (⟨m.lines.map (dropLine n), Module.seeds [] 0 (m.lines.map (dropLine n))⟩ : Module.Pass) = _
    rw [seeds_drop]; rfl
  rw [e]
  obtain ⟨h1, h2⟩ := explore_drop (n := n) m fuel (p := ⟨m.lines, Module.seeds [] 0 m.lines⟩) hm.1
  constructor
  · refine bind_on h1 fun p _ => ?_
    refine bind_ren (fixLines_drop p.lines) fun ls => ?_
    exact bind_ren (layout_drop ls none) fun _ => rfl
  · intro m' h
    obtain ⟨p, hp, h⟩ := Res.bind_eq_ok.mp h
    obtain ⟨ls, hls, h⟩ := Res.bind_eq_ok.mp h
    obtain ⟨ls', hls', h⟩ := Res.bind_eq_ok.mp h
    cases h
    obtain ⟨f1, l1⟩ := fixLines_free (h2 p hp) hls
    obtain ⟨f2, l2⟩ := layout_free f1 hls'
    refine ⟨f2, fun g hg => ?_⟩
    show g.2 < ls'.length
    rw [l2, l1, explore_length hp]
    exact hm.2 g hg

/-! ## Second pass -/

theorem setValue_drop (m : Module) (i : Nat) (v : Int) : (dropName n m).setValue i v = dropName n (m.setValue i v) := by
  have : ∀ (ls : List Line) (i : Nat), (ls.map (dropLine n)).modify i (fun l : Line => { l with value := some v }) =
      (ls.modify i (fun l : Line => { l with value := some v })).map (dropLine n) := by
    intro ls
    induction ls with
    | nil => intro i; simp
    | cons l ls ih =>
      intro i
      cases i with
      | zero => simp [dropLine]
      | succ i => simp [ih]
  simp [Module.setValue, dropName, this]

theorem setValue_fit {m : Module} (hm : Fit n m) (i : Nat) (v : Int) : Fit n (m.setValue i v) := by
  refine ⟨fun l hl => ?_, fun g hg => ?_⟩
  · simp only [Module.setValue] at hl
    obtain ⟨j, hj, rfl⟩ := List.mem_iff_getElem.mp hl
    have hj' : j < m.lines.length := by simpa using hj
    have := hm.1 m.lines[j] (List.getElem_mem hj')
    rw [List.getElem_modify]
    split <;> exact this
  · simpa [Module.setValue] using hm.2 g hg

theorem evalEqu_drop {e e' : Ctx} (h : Agree n e e') {m : Module} (hm : Fit n m) (i : Nat) {l : Line} (hl : FreeSt n l.statement) :
    Module.evalEqu e (dropName n m) i (dropLine n l) = dropName n <$> Module.evalEqu e' m i l ∧
      ∀ m', Module.evalEqu e' m i l = .ok m' → Fit n m' := by
  unfold Module.evalEqu
  constructor
  · show (match l.statement with
      | .instr _ => Res.ok (dropName n m)
      | .dir d =>
        if d.name = DirectiveName.equ ∧ l.value.isNone then do
          let v ← d.argument.eval ((dropName n m).lookup l.scopes e)
          .ok ((dropName n m).setValue i v)
        else .ok (dropName n m)) = _
    cases hs : l.statement with
    | instr _ => rfl
    | dir d =>
      rw [hs] at hl
      refine ite_ren Iff.rfl (fun _ => ?_) fun _ => rfl
      refine test_ren (eval_free (lookup_drop h m l.scopes) hl.1) fun v => ?_
      rw [setValue_drop]; rfl
  · intro m' h
    cases hs : l.statement with
    | instr _ => rw [hs] at h; cases h; exact hm
    | dir d =>
      rw [hs] at h
      simp only at h
      split at h
      · obtain ⟨v, -, h⟩ := Res.bind_eq_ok.mp h
        cases h; exact setValue_fit hm i v
      · cases h; exact hm

theorem secondLoop_drop {e e' : Ctx} (h : Agree n e e') : ∀ (k i : Nat) {m : Module}, Fit n m →
    Module.secondLoop e k i (dropName n m) = dropName n <$> Module.secondLoop e' k i m ∧
      ∀ m', Module.secondLoop e' k i m = .ok m' → Fit n m' := by
  intro k
  induction k with
  | zero => intro i m hm; exact ⟨rfl, fun m' h => by cases h; exact hm⟩
  | succ k ih =>
    intro i m hm
    rw [Module.secondLoop, Module.secondLoop, line_drop]
    cases hl : m.lines[i]? with
    | none => exact ⟨rfl, fun m' h => by cases h⟩
    | some l =>
      obtain ⟨h1, h2⟩ := evalEqu_drop h hm i (hm.1 l (List.mem_of_getElem? hl))
      constructor
      · exact bind_on h1 fun m1 hm1 => (ih (i + 1) (h2 m1 hm1)).1
      · intro m' hx
        obtain ⟨m1, hm1, hx⟩ := Res.bind_eq_ok.mp hx
        exact (ih (i + 1) (h2 m1 hm1)).2 m' hx

theorem runSecondPass_drop {e e' : Ctx} (h : Agree n e e') {m : Module} (hm : Fit n m) :
    (dropName n m).runSecondPass e = dropName n <$> m.runSecondPass e' ∧ ∀ m', m.runSecondPass e' = .ok m' → Fit n m' := by
  unfold Module.runSecondPass
  have : (dropName n m).lines.length = m.lines.length := List.length_map ..
  rw [this]
  exact secondLoop_drop h _ _ hm

/-! ## Assembly -/

/-- The module without its table of names of addresses. -/
def blank (m : Module) : Module := { m with addrNames := [] }

/-- The one module is the other without the name. -/
def Without (n : Str) (m m' : Module) : Prop := blank m = blank (dropName n m')

theorem Without.lines {m m' : Module} (h : Without n m m') : m.lines = m'.lines.map (dropLine n) := congrArg Module.lines h
theorem Without.globals {m m' : Module} (h : Without n m m') : m.globals = drop n m'.globals := congrArg Module.globals h
theorem Without.name {m m' : Module} (h : Without n m m') : m.name = m'.name := (congrArg Module.name (show blank m = blank (dropName n m') from h) :)
theorem Without.owned {m m' : Module} (h : Without n m m') : m.owned = m'.owned := (congrArg Module.owned (show blank m = blank (dropName n m') from h) :)
theorem Without.targets {m m' : Module} (h : Without n m m') : m.targets = m'.targets := (congrArg Module.targets (show blank m = blank (dropName n m') from h) :)
theorem Without.conventions {m m' : Module} (h : Without n m m') : m.conventions = m'.conventions :=
  (congrArg Module.conventions (show blank m = blank (dropName n m') from h) :)
theorem without_self (m : Module) : Without n (dropName n m) m := rfl

theorem blank_lookup (m : Module) : (blank m).lookup = m.lookup := by
  have h1 : ∀ name sc, (blank m).localIndex name sc = m.localIndex name sc := by
    intro name sc
    induction sc with
    | nil => rfl
    | cons s sc ih => rw [Module.localIndex, Module.localIndex, ih]; rfl
  have h2 : ∀ i, (blank m).localLookup i = m.localLookup i := fun _ => rfl
  funext sc e id
  unfold Module.lookup
  simp only [h1, h2]
  rfl

theorem Without.lookup {m m' : Module} (h : Without n m m') {e e' : Ctx} (he : Agree n e e') (scopes : List Nat) :
    Agree n (m.lookup scopes e) (m'.lookup scopes e') := by
  rw [← blank_lookup m, h, blank_lookup]
  exact lookup_drop he m' scopes

theorem assembleLine_drop {σ : Type} {m m' : Module} (h : Without n m m') {e e' : Ctx} (he : Agree n e e') (sink : Sink σ)
    {l : Line} (hl : FreeSt n l.statement) (s : σ) (o : Module.Out) :
    m.assembleLine e sink (dropLine n l) s o = m'.assembleLine e' sink l s o := by
  have hA := h.lookup he l.scopes
  have hw : Module.writeLine (dropLine n l) (m.lookup l.scopes e) sink s o = Module.writeLine l (m'.lookup l.scopes e') sink s o := by
    unfold Module.writeLine
    simp only [dropLine, assemble_free hA hl]
  have hd : (match l.statement with
      | .dir d => (s, Module.assembleNote d l.value (m.lookup l.scopes e) o)
      | .instr _ => (s, Res.ok o)) = (match l.statement with
      | .dir d => (s, Module.assembleNote d l.value (m'.lookup l.scopes e') o)
      | .instr _ => (s, .ok o)) := by
    cases hs : l.statement with
    | instr _ => rfl
    | dir d =>
      rw [hs] at hl
      simp only [Module.assembleNote, eval_free hA hl.1]
  have hi : (if l.statement.serializedSize > 0 then Module.writeLine (dropLine n l) (m.lookup l.scopes e) sink s o
      else match l.statement with
        | .dir d => (s, Module.assembleNote d l.value (m.lookup l.scopes e) o)
        | .instr _ => (s, Res.ok o)) =
      if l.statement.serializedSize > 0 then Module.writeLine l (m'.lookup l.scopes e') sink s o
      else match l.statement with
        | .dir d => (s, Module.assembleNote d l.value (m'.lookup l.scopes e') o)
        | .instr _ => (s, .ok o) := by
    rw [hw, hd]
  show (let (s, x) := (if l.statement.serializedSize > 0 then Module.writeLine (dropLine n l) (m.lookup l.scopes e) sink s o
      else match l.statement with
        | .dir d => (s, Module.assembleNote d l.value (m.lookup l.scopes e) o)
        | .instr _ => (s, Res.ok o)); (s, x >>= Module.noteTarget (dropLine n l))) = _
  rw [hi]
  rfl

theorem assembleLines_drop {σ : Type} {m m' : Module} (h : Without n m m') {e e' : Ctx} (he : Agree n e e') (sink : Sink σ) :
    ∀ {ls : List Line}, FreeLines n ls → ∀ (s : σ) (o : Module.Out),
    m.assembleLines e sink (ls.map (dropLine n)) s o = m'.assembleLines e' sink ls s o := by
  intro ls
  induction ls with
  | nil => intro _ s o; rfl
  | cons l ls ih =>
    intro hf s o
    rw [List.map_cons, Module.assembleLines, Module.assembleLines, assembleLine_drop h he sink (hf l (by simp))]
    rcases m'.assembleLine e' sink l s o with ⟨s', x⟩
    cases x with
    | ok o' => exact ih (fun l hl => hf l (by simp [hl])) s' o'
    | err _ => rfl
    | ub _ => rfl

theorem addressOf_drop {m m' : Module} (h : Without n m m') (t x : Nat) : AddressOf m t x ↔ AddressOf m' t x := by
  unfold AddressOf
  rw [h.lines, List.getElem?_map]
  cases m'.lines[t]? with
  | none => simp
  | some l => simp [dropLine]

/-- The third pass over a module succeeds without the name when it does with it; and the other way round, but for the value
of the label. -/
theorem assemble_drop {σ : Type} {m m' : Module} (h : Without n m m') (hm : Fit n m') {e e' : Ctx} (he : Agree n e e')
    (sink : Sink σ) (s : σ) :
    (m.assemble e sink s).1 = (m'.assemble e' sink s).1 ∧
    ((∃ q q', (m.assemble e sink s).2 = .ok q ∧ (m'.assemble e' sink s).2 = .ok q' ∧ Without n q q' ∧ Fit n q') ∨
      (∃ q, (m.assemble e sink s).2 = .ok q ∧
        ((m'.assemble e' sink s).2 = .err .noValue ∨ (m'.assemble e' sink s).2 = .ub .assertFail)) ∨
      (∀ q, (m.assemble e sink s).2 ≠ .ok q) ∧ ∀ q', (m'.assemble e' sink s).2 ≠ .ok q') := by
  unfold Module.assemble
  rw [h.lines, assembleLines_drop h he sink hm.1, h.owned, h.targets, h.conventions]
  rcases m'.assembleLines e' sink m'.lines s ⟨m'.owned, m'.targets, m'.conventions⟩ with ⟨s1, x⟩
  refine ⟨rfl, ?_⟩
  cases x with
  | err _ => exact .inr (.inr ⟨fun _ h => (by cases h), fun _ h => (by cases h)⟩)
  | ub _ => exact .inr (.inr ⟨fun _ h => (by cases h), fun _ h => (by cases h)⟩)
  | ok o =>
    simp only [Res.bind_ok]
    by_cases hn : ∃ names, m.nameAddresses m.addrNames m.globals = .ok names
    · obtain ⟨names, hnames⟩ := hn
      rw [hnames]
      rcases nameAddresses_fails (m := m') (gs := m'.globals) m'.addrNames hm.2 with ⟨names', h'⟩ | h' | h'
      · rw [h']
        refine .inl ⟨_, _, rfl, rfl, ?_, hm⟩
        have := h
        unfold Without blank dropName at this ⊢
        simp only [Module.mk.injEq] at this ⊢
        obtain ⟨h1, h2, h3, h4, -⟩ := this
        simp_all
      · rw [h']; exact .inr (.inl ⟨_, rfl, .inl rfl⟩)
      · rw [h']; exact .inr (.inl ⟨_, rfl, .inr rfl⟩)
    · have hn' : ¬ ∃ names, m'.nameAddresses m'.addrNames m'.globals = .ok names := by
        intro hx
        apply hn
        rw [nameAddresses_iff] at hx ⊢
        intro g hg
        rw [h.globals] at hg
        obtain ⟨x, hx⟩ := hx g (List.mem_filter.mp hg).1
        exact ⟨x, (addressOf_drop h _ _).mpr hx⟩
      refine .inr (.inr ⟨fun q hq => ?_, fun q hq => ?_⟩)
      · obtain ⟨names, h1, -⟩ := Res.bind_eq_ok.mp hq
        exact hn ⟨names, h1⟩
      · obtain ⟨names, h1, -⟩ := Res.bind_eq_ok.mp hq
        exact hn' ⟨names, h1⟩

end Nsasm.Unused
