import Verif.Spec.AnySink

/-! # Lemmas about what a sink can do to an assembly -/

namespace Nsasm.AnySink
open Nsasm Nsasm.Spec

/-- `F` makes the same writes and comes to the same end with every sink, but for what the sink refuses. -/
def Faithful {α : Type} (F : (σ : Type) → Sink σ → σ → σ × Res α) : Prop :=
  ∃ ws r, ∀ (σ : Type) (sink : Sink σ) (s : σ), Plays sink s ws r (F σ sink s)

/-- One step after another. -/
def next {σ α β : Type} (p : σ × Res α) (g : σ → α → σ × Res β) : σ × Res β :=
  match p with
  | (s, .ok x) => g s x
  | (s, .err e) => (s, .err e)
  | (s, .ub u) => (s, .ub u)

/-- The end of the second step, or the first if that failed. -/
theorem plays_ok {σ α β : Type} {sink : Sink σ} {s : σ} {ws ws' : Writes} {r : Res α} {x : α} {r' : Res β} {p : σ × Res α}
    {g : σ → α → σ × Res β} (h : Plays sink s ws r p) (hr : r = .ok x) (hg : ∀ s', Plays sink s' ws' r' (g s' x)) :
    Plays sink s (ws ++ ws') r' (next p g) := by
  induction h with
  | done s r => subst hr; exact hg s
  | accepted h1 _ ih => exact .accepted h1 (ih hr)
  | refused ws r h1 => exact .refused _ _ h1
  | crashed ws r h1 => exact .crashed _ _ h1

theorem plays_err {σ α β : Type} {sink : Sink σ} {s : σ} {ws : Writes} {r : Res α} {e : Err} {p : σ × Res α}
    {g : σ → α → σ × Res β} (h : Plays sink s ws r p) (hr : r = .err e) :
    Plays sink s ws (.err e : Res β) (next p g) := by
  induction h with
  | done s r => subst hr; exact .done _ _
  | accepted h1 _ ih => exact .accepted h1 (ih hr)
  | refused ws r h1 => exact .refused _ _ h1
  | crashed ws r h1 => exact .crashed _ _ h1

theorem plays_ub {σ α β : Type} {sink : Sink σ} {s : σ} {ws : Writes} {r : Res α} {u : Ub} {p : σ × Res α}
    {g : σ → α → σ × Res β} (h : Plays sink s ws r p) (hr : r = .ub u) :
    Plays sink s ws (.ub u : Res β) (next p g) := by
  induction h with
  | done s r => subst hr; exact .done _ _
  | accepted h1 _ ih => exact .accepted h1 (ih hr)
  | refused ws r h1 => exact .refused _ _ h1
  | crashed ws r h1 => exact .crashed _ _ h1

theorem faithful_pure {α : Type} (r : Res α) : Faithful fun _ _ s => (s, r) := ⟨[], r, fun _ _ s => .done s r⟩

theorem faithful_next {α β : Type} {F : (σ : Type) → Sink σ → σ → σ × Res α}
    {G : (σ : Type) → Sink σ → σ → α → σ × Res β} (hF : Faithful F) (hG : ∀ x, Faithful fun σ k s => G σ k s x) :
    Faithful fun σ k s => next (F σ k s) (G σ k) := by
  obtain ⟨ws, r, h⟩ := hF
  cases r with
  | ok x =>
    obtain ⟨ws', r', h'⟩ := hG x
    exact ⟨ws ++ ws', r', fun σ k s => plays_ok (h σ k s) rfl fun s' => h' σ k s'⟩
  | err e => exact ⟨ws, .err e, fun σ k s => plays_err (h σ k s) rfl⟩
  | ub u => exact ⟨ws, .ub u, fun σ k s => plays_ub (h σ k s) rfl⟩

theorem faithful_congr {α : Type} {F G : (σ : Type) → Sink σ → σ → σ × Res α} (h : ∀ σ k s, F σ k s = G σ k s)
    (hG : Faithful G) : Faithful F := by
  obtain ⟨ws, r, hg⟩ := hG
  exact ⟨ws, r, fun σ k s => h σ k s ▸ hg σ k s⟩

/-- A write. -/
theorem faithful_write (a : Addr) (bs : List UInt8) : Faithful fun _ k s => k s a bs := by
  refine ⟨[(a, bs)], .ok (), fun σ k s => ?_⟩
  simp only
  rcases h : k s a bs with ⟨s', r⟩
  cases r with
  | ok u => exact .accepted h (.done _ _)
  | err e => exact .refused _ _ h
  | ub u => exact .crashed _ _ h

theorem statement_faithful (st : Statement) (a : Addr) (ctx : Ctx) : Faithful fun _ k s => st.assemble a ctx k s := by
  unfold Statement.assemble
  cases st.assembleBytes a ctx with
  | err e => exact faithful_pure _
  | ub u => exact faithful_pure _
  | ok b =>
    cases b with
    | none => exact faithful_pure _
    | some bs => exact faithful_write a bs

theorem writeLine_faithful (l : Line) (ctx : Ctx) (o : Module.Out) :
    Faithful fun _ k s => Module.writeLine l ctx k s o := by
  unfold Module.writeLine
  cases l.value with
  | none => exact faithful_pure _
  | some v =>
    simp only
    cases Address.ofInt v with
    | err e => exact faithful_pure _
    | ub u => exact faithful_pure _
    | ok a =>
      refine faithful_congr (fun σ k s => ?_) (faithful_next (statement_faithful l.statement a ctx)
        (G := fun _ _ s _ => (s, Module.claim o a l.statement.serializedSize)) fun _ => faithful_pure _)
      simp only [next]
      rcases l.statement.assemble a ctx k s with ⟨s', r⟩
      cases r <;> rfl

theorem assembleLine_faithful (m : Module) (externs : Ctx) (l : Line) (o : Module.Out) :
    Faithful fun _ k s => m.assembleLine externs k l s o := by
  have step : Faithful fun σ (k : Sink σ) s =>
      (if l.statement.serializedSize > 0 then Module.writeLine l (m.lookup l.scopes externs) k s o
        else match l.statement with
          | .dir d => (s, Module.assembleNote d l.value (m.lookup l.scopes externs) o)
          | .instr _ => (s, .ok o)) := by
    by_cases hs : l.statement.serializedSize > 0
    · simp only [if_pos hs]
      exact writeLine_faithful ..
    · simp only [if_neg hs]
      cases l.statement with
      | dir d => exact faithful_pure _
      | instr i => exact faithful_pure _
  refine faithful_congr (fun σ k s => ?_) (faithful_next step (G := fun _ _ s o => (s, Module.noteTarget l o))
    fun _ => faithful_pure _)
  unfold Module.assembleLine
  simp only
  generalize (if l.statement.serializedSize > 0 then Module.writeLine l (m.lookup l.scopes externs) k s o
        else match l.statement with
          | .dir d => (s, Module.assembleNote d l.value (m.lookup l.scopes externs) o)
          | .instr _ => (s, .ok o)) = p
  obtain ⟨s', r⟩ := p
  cases r <;> rfl

theorem assembleLines_faithful (m : Module) (externs : Ctx) : ∀ (ls : List Line) (o : Module.Out),
    Faithful fun _ k s => m.assembleLines externs k ls s o := by
  intro ls
  induction ls with
  | nil => exact fun o => faithful_pure _
  | cons l ls ih =>
    intro o
    refine faithful_congr (fun σ k s => ?_) (faithful_next (assembleLine_faithful m externs l o)
      (G := fun _ k s o => m.assembleLines externs k ls s o) ih)
    simp only [Module.assembleLines, next]
    rcases m.assembleLine externs k l s o with ⟨s', r⟩
    cases r <;> rfl

theorem module_faithful (m : Module) (externs : Ctx) : Faithful fun _ k s => m.assemble externs k s := by
  refine faithful_congr (fun σ k s => ?_) (faithful_next
    (assembleLines_faithful m externs m.lines ⟨m.owned, m.targets, m.conventions⟩)
    (G := fun _ _ s o => (s, do
      let names ← m.nameAddresses m.addrNames m.globals
      .ok { m with owned := o.owned, targets := o.targets, conventions := o.conventions, addrNames := names }))
    fun _ => faithful_pure _)
  simp only [Module.assemble, next]
  rcases m.assembleLines externs k m.lines s ⟨m.owned, m.targets, m.conventions⟩ with ⟨s', r⟩
  cases r <;> rfl

theorem finalPasses_faithful : ∀ (order : List Nat) (a : Assembler),
    Faithful fun _ k s => Assembler.finalPasses k a order s := by
  intro order
  induction order with
  | nil => exact fun a => faithful_pure _
  | cons i is ih =>
    intro a
    cases hm : a.modules[i]? with
    | none =>
      refine faithful_congr (fun σ k s => ?_) (faithful_pure (.ub .outOfBounds))
      simp only [Assembler.finalPasses, hm]
    | some m =>
      refine faithful_congr (fun σ k s => ?_) (faithful_next (module_faithful m (Assembler.lookup a.modules a.names))
        (G := fun _ k s m => match a.memory.insert m.owned i with
          | (_, false) => (s, .err .overlap)
          | (memory, true) =>
            Assembler.finalPasses k { a with modules := a.modules.set i m, memory := memory } is s) fun m' => ?_)
      · simp only [Assembler.finalPasses, hm, next]
        rcases m.assemble (Assembler.lookup a.modules a.names) k s with ⟨s', r⟩
        cases r <;> rfl
      · rcases a.memory.insert m'.owned i with ⟨mem, ok⟩
        cases ok with
        | false => exact faithful_pure _
        | true => exact ih _

theorem assembleFiles_faithful (fuel : Nat) (files : List (List Str)) :
    Faithful fun _ k s => Assembler.assembleFiles fuel files k s := by
  simp only [Assembler.assembleFiles, Assembler.assemble]
  cases Assembler.loadAll files with
  | err e => exact faithful_pure _
  | ub u => exact faithful_pure _
  | ok ms =>
    simp only
    cases Assembler.prepare fuel ms with
    | err e => exact faithful_pure _
    | ub u => exact faithful_pure _
    | ok p => exact finalPasses_faithful p.2 p.1

/-- A recorder refuses nothing. -/
theorem plays_recorder {α : Type} {ws vs : Writes} {r : Res α} {out : Writes × Res α} (h : Plays recorder vs ws r out) :
    out = (vs ++ ws, r) := by
  induction h with
  | done s r => simp
  | accepted h1 _ ih =>
    simp only [recorder, Prod.mk.injEq, and_true] at h1
    subst h1
    rw [ih]
    simp
  | refused ws r h1 => simp [recorder] at h1
  | crashed ws r h1 => simp [recorder] at h1

/-- How it can end. -/
theorem plays_cases {σ α : Type} {sink : Sink σ} {s : σ} {ws : Writes} {r : Res α} {out : σ × Res α}
    (h : Plays sink s ws r out) :
    (∃ s', Feeds sink s ws s' ∧ out = (s', r)) ∨
    ∃ before a bs after s' s'', ws = before ++ (a, bs) :: after ∧ Feeds sink s before s' ∧
      ((∃ e, sink s' a bs = (s'', .err e) ∧ out = (s'', .err e)) ∨ ∃ u, sink s' a bs = (s'', .ub u) ∧ out = (s'', .ub u)) := by
  induction h with
  | done s r => exact .inl ⟨s, .nil _, rfl⟩
  | @accepted s s' a bs ws r out h1 _ ih =>
    rcases ih with ⟨s'', hf, e⟩ | ⟨before, b, cs, after, t, t', e, hf, h⟩
    · exact .inl ⟨s'', .cons h1 hf, e⟩
    · exact .inr ⟨(a, bs) :: before, b, cs, after, t, t', by rw [e]; rfl, .cons h1 hf, h⟩
  | refused ws r h1 => exact .inr ⟨[], _, _, ws, _, _, rfl, .nil _, .inl ⟨_, h1, rfl⟩⟩
  | crashed ws r h1 => exact .inr ⟨[], _, _, ws, _, _, rfl, .nil _, .inr ⟨_, h1, rfl⟩⟩

end Nsasm.AnySink
