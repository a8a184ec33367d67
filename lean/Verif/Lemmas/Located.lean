import Verif.Model.Located
import Verif.Lemmas.Link
import Verif.Props.Order

/-! # The functions with locations are the functions without -/

namespace Nsasm
open Spec Props

namespace LRes

@[simp] theorem bind_ok {α β : Type} (a : α) (f : α → LRes β) : (LRes.ok a >>= f) = f a := rfl
@[simp] theorem bind_err {α β : Type} (e : Err) (l : Location) (f : α → LRes β) :
    (LRes.err e l >>= f) = LRes.err e l := rfl
@[simp] theorem bind_ub {α β : Type} (u : Ub) (f : α → LRes β) : (LRes.ub u >>= f) = LRes.ub u := rfl

@[simp] theorem erase_ok {α : Type} (a : α) : (LRes.ok a).erase = .ok a := rfl
@[simp] theorem erase_err {α : Type} (e : Err) (l : Location) : (LRes.err e l : LRes α).erase = .err e := rfl
@[simp] theorem erase_ub {α : Type} (u : Ub) : (LRes.ub u : LRes α).erase = .ub u := rfl

theorem erase_bind {α β : Type} (x : LRes α) (f : α → LRes β) :
    (x >>= f).erase = x.erase >>= fun a => (f a).erase := by cases x <;> rfl

theorem bind_eq_ok {α β : Type} {x : LRes α} {f : α → LRes β} {b : β} :
    (x >>= f) = .ok b ↔ ∃ a, x = .ok a ∧ f a = .ok b := by
  cases x with
  | ok a => simp
  | err e l => simp
  | ub u => simp

theorem bind_eq_err {α β : Type} {x : LRes α} {f : α → LRes β} {e : Err} {l : Location} :
    (x >>= f) = .err e l ↔ x = .err e l ∨ ∃ a, x = .ok a ∧ f a = .err e l := by
  cases x with
  | ok a => simp
  | err e l => simp
  | ub u => simp

theorem erase_eq_ok {α : Type} {x : LRes α} {a : α} : x.erase = .ok a ↔ x = .ok a := by
  cases x <;> simp

end LRes

@[simp] theorem Res.erase_at {α : Type} (l : Location) (r : Res α) : (r.at l).erase = r := by cases r <;> rfl
@[simp] theorem Res.erase_here {α : Type} (r : Res α) : r.here.erase = r := by cases r <;> rfl

theorem Res.at_eq_ok {α : Type} {l : Location} {r : Res α} {a : α} : r.at l = .ok a ↔ r = .ok a := by
  cases r <;> simp [Res.at]

theorem Res.at_eq_err {α : Type} {l l' : Location} {r : Res α} {e : Err} :
    r.at l = .err e l' ↔ r = .err e ∧ l' = Location.none.update l := by
  cases r <;> simp [Res.at, eq_comm]

theorem Parse.erase_parseAt (l : Location) (ts : List Token) : (Parse.parseAt l ts).erase = Parse.parse ts := by
  unfold Parse.parseAt
  cases Parse.parse ts with
  | ok is => rfl
  | err e => cases e <;> rfl
  | ub u => rfl

namespace Module

theorem erase_loadLinesAt (path : Str) : ∀ (file : List Str) (n : Nat) (ld : Loading) (nums : List Nat),
    (do let r ← (loadLinesAt path n ld nums file).erase
        Res.ok r.1) = loadLines ld file := by
  intro file
  induction file with
  | nil => intro n ld nums; rfl
  | cons line rest ih =>
    intro n ld nums
    rw [loadLinesAt, loadLines]
    simp only [LRes.erase_bind, Res.erase_at, Parse.erase_parseAt]
    cases tokenize line with
    | err e => rfl
    | ub u => rfl
    | ok ts =>
      simp only [Res.bind_ok]
      cases Parse.parse ts with
      | err e => rfl
      | ub u => rfl
      | ok is =>
        simp only [Res.bind_ok]
        cases loadItems ld is with
        | err e => rfl
        | ub u => rfl
        | ok ld' => simp only [Res.bind_ok]; exact ih _ _ _

theorem erase_finishLoadAt (path : Str) (nums : List Nat) (ld : Loading) :
    (finishLoadAt path nums ld).erase = finishLoad ld := by
  unfold finishLoadAt finishLoad
  cases ld.scopes with
  | nil => rfl
  | cons s ss => rfl

theorem erase_loadAsmFileAt (path : Str) (file : List Str) :
    (do let r ← (loadAsmFileAt path file).erase
        Res.ok r.1) = loadAsmFile file := by
  unfold loadAsmFileAt loadAsmFile
  rw [← erase_loadLinesAt path file 0 _ []]
  cases loadLinesAt path 0 ⟨empty, [], []⟩ [] file with
  | err e l => rfl
  | ub u => rfl
  | ok r =>
    obtain ⟨ld, nums⟩ := r
    simp only [LRes.bind_ok, LRes.erase_ok, Res.bind_ok]
    rw [← erase_finishLoadAt path nums]
    cases finishLoadAt path nums ld <;> rfl

theorem erase_branchWorkAt (loc : Location) (m : Module) (line : Line) (state : ExecutionState)
    (work : OMap ExecutionState) : (m.branchWorkAt loc line state work).erase = m.branchWork line state work := by
  unfold branchWorkAt branchWork
  cases line.statement with
  | dir d => rfl
  | instr i =>
    simp only
    split
    · rfl
    · cases i.arg1.simpleIdentifier with
      | none => rfl
      | some t =>
        simp only
        cases m.localIndex t line.scopes with
        | none => rfl
        | some t => simp only [LRes.erase_bind, Res.erase_at, LRes.erase_ok]

theorem erase_visitAt (loc : Location) (m : Module) (p : Pass) (k : Nat) (line : Line) (state : ExecutionState) :
    (m.visitAt loc p k line state).erase = m.visit p k line state := by
  unfold visitAt visit
  simp only [LRes.erase_bind, Res.erase_at, erase_branchWorkAt, LRes.erase_ok]

theorem erase_stepAt (path : Str) (nums : List Nat) (m : Module) (p : Pass) :
    (m.stepAt path nums p).erase = m.step p := by
  unfold stepAt step
  rcases p.work with _ | ⟨⟨k, state⟩, rest⟩
  · rfl
  · simp only
    by_cases hk : k = p.lines.length
    · rw [if_pos hk, if_pos hk]; rfl
    · rw [if_neg hk, if_neg hk]
      cases p.lines[k]? with
      | none => rfl
      | some line =>
        simp only
        by_cases hl : line.reached = true ∧ line.incoming = state
        · rw [if_pos hl, if_pos hl]; rfl
        · rw [if_neg hl, if_neg hl]
          simp only [LRes.erase_bind, erase_visitAt, LRes.erase_ok]

theorem erase_exploreAt (path : Str) (nums : List Nat) (m : Module) : ∀ (n : Nat) (p : Pass),
    (m.exploreAt path nums n p).erase = m.explore n p := by
  intro n
  induction n with
  | zero => intro p; rfl
  | succ n ih =>
    intro p
    rw [exploreAt, explore]
    simp only [LRes.erase_bind, erase_stepAt]
    cases m.step p with
    | err e => rfl
    | ub u => rfl
    | ok r =>
      cases r with
      | none => rfl
      | some p => simp only [Res.bind_ok]; exact ih p

theorem erase_fixLinesAt (path : Str) (nums : List Nat) : ∀ (ls : List Line) (k : Nat),
    (fixLinesAt path nums k ls).erase = fixLines ls := by
  intro ls
  induction ls with
  | nil => intro k; rfl
  | cons l ls ih =>
    intro k
    rw [fixLinesAt, fixLines]
    cases l.statement with
    | dir d => simp only [LRes.erase_bind, ih, LRes.erase_ok]
    | instr i =>
      simp only
      split
      · rfl
      · simp only [LRes.erase_bind, ih, Res.erase_at, LRes.erase_ok]

theorem erase_layoutAt (path : Str) (nums : List Nat) : ∀ (ls : List Line) (k : Nat) (pc : Option Addr),
    (layoutAt path nums k pc ls).erase = layout pc ls := by
  intro ls
  induction ls with
  | nil => intro k pc; rfl
  | cons l ls ih =>
    intro k pc
    rw [layoutAt, layout]
    simp only [LRes.erase_bind, Res.erase_at]
    cases originAt pc l.statement with
    | err e => rfl
    | ub u => rfl
    | ok r =>
      cases r with
      | none =>
        simp only [Res.bind_ok]
        split
        · rfl
        · simp only [LRes.erase_bind, ih, LRes.erase_ok]
      | some pc => simp only [Res.bind_ok, LRes.erase_bind, ih, LRes.erase_ok]

theorem erase_runFirstPassAt (path : Str) (nums : List Nat) (fuel : Nat) (m : Module) :
    (m.runFirstPassAt path nums fuel).erase = m.runFirstPass fuel := by
  unfold runFirstPassAt runFirstPass
  simp only [LRes.erase_bind, erase_exploreAt, erase_fixLinesAt, erase_layoutAt, LRes.erase_ok]

theorem erase_secondLoopAt (path : Str) (nums : List Nat) (externs : Ctx) : ∀ (n i : Nat) (m : Module),
    (secondLoopAt path nums externs n i m).erase = secondLoop externs n i m := by
  intro n
  induction n with
  | zero => intro i m; rfl
  | succ n ih =>
    intro i m
    rw [secondLoopAt, secondLoop]
    cases m.lines[i]? with
    | none => rfl
    | some l => simp only [LRes.erase_bind, Res.erase_at, ih]

theorem erase_runSecondPassAt (path : Str) (nums : List Nat) (externs : Ctx) (m : Module) :
    (m.runSecondPassAt path nums externs).erase = m.runSecondPass externs :=
  erase_secondLoopAt ..

theorem erase_assembleLinesAt {σ : Type} (path : Str) (nums : List Nat) (m : Module) (externs : Ctx) (sink : Sink σ) :
    ∀ (ls : List Line) (k : Nat) (s : σ) (o : Out),
    ((m.assembleLinesAt path nums externs sink k ls s o).1, (m.assembleLinesAt path nums externs sink k ls s o).2.erase) =
      m.assembleLines externs sink ls s o := by
  intro ls
  induction ls with
  | nil => intro k s o; rfl
  | cons l ls ih =>
    intro k s o
    rw [assembleLinesAt, assembleLines]
    rcases m.assembleLine externs sink l s o with ⟨s', r⟩
    cases r with
    | ok o' => simp only; exact ih _ _ _
    | err e => rfl
    | ub u => rfl

theorem erase_nameAddressesAt (path : Str) (nums : List Nat) (m : Module) : ∀ (gs : List (Str × Nat)) (names : HMap Nat Str),
    (m.nameAddressesAt path nums names gs).erase = m.nameAddresses names gs := by
  intro gs
  induction gs with
  | nil => intro names; rfl
  | cons g gs ih =>
    intro names
    rw [nameAddressesAt, nameAddresses]
    cases m.lines[g.2]? with
    | none => rfl
    | some l =>
      simp only
      cases l.value with
      | none => rfl
      | some v => simp only [LRes.erase_bind, Res.erase_here, ih]

theorem erase_assembleAt {σ : Type} (path : Str) (nums : List Nat) (m : Module) (externs : Ctx) (sink : Sink σ) (s : σ) :
    ((m.assembleAt path nums externs sink s).1, (m.assembleAt path nums externs sink s).2.erase) =
      m.assemble externs sink s := by
  unfold assembleAt assemble
  rw [← erase_assembleLinesAt path nums m externs sink m.lines 0 s]
  simp only [LRes.erase_bind, erase_nameAddressesAt, LRes.erase_ok]

end Module

namespace Assembler

theorem erase_addExportsAt (i : Nat) : ∀ (ns : List (FullId × Location)) (exported : HMap FullId Nat)
    (places : HMap FullId Location),
    (do let r ← (addExportsAt i exported places ns).erase
        Res.ok r.1) = addExports i exported (ns.map (·.1)) := by
  intro ns
  induction ns with
  | nil => intro exported places; rfl
  | cons n ns ih =>
    intro exported places
    rw [addExportsAt, List.map_cons, addExports]
    split
    · rfl
    · exact ih _ _

theorem exportedNamesAt_names (path : Str) (m : Module) : (m.exportedNamesAt path).map (·.1) = m.exportedNames := by
  simp [Module.exportedNamesAt, Module.exportedNames]

theorem erase_considerAt (o : OrderingAt) (i : Nat) (path : Str) (m : Module) :
    (do let r ← (considerAt o i path m).erase
        Res.ok r.o) = consider o.o i m := by
  unfold considerAt consider
  split
  · rfl
  · split
    · rw [← exportedNamesAt_names path, ← erase_addExportsAt i _ _ o.places]
      cases addExportsAt i o.o.exported o.places (m.exportedNamesAt path) <;> rfl
    · rfl

theorem erase_roundAt : ∀ (ms : List (Str × Module)) (o : OrderingAt) (i : Nat),
    (do let r ← (roundAt o i ms).erase
        Res.ok r.o) = round o.o i (ms.map (·.2)) := by
  intro ms
  induction ms with
  | nil => intro o i; rfl
  | cons m ms ih =>
    intro o i
    rw [roundAt, List.map_cons, round, ← erase_considerAt o i m.1]
    cases considerAt o i m.1 m.2 with
    | err e l => rfl
    | ub u => rfl
    | ok o' => simp only [LRes.bind_ok, LRes.erase_ok, Res.bind_ok]; exact ih _ _

theorem erase_orderLoopAt (ms : List (Str × Module)) : ∀ (n : Nat) (o : OrderingAt),
    (do let r ← (orderLoopAt ms n o).erase
        Res.ok r.o) = orderLoop (ms.map (·.2)) n o.o := by
  intro n
  induction n with
  | zero => intro o; rfl
  | succ n ih =>
    intro o
    rw [orderLoopAt, orderLoop, List.length_map]
    split
    · rw [← erase_roundAt ms o 0]
      cases roundAt o 0 ms with
      | err e l => rfl
      | ub u => rfl
      | ok o' =>
        simp only [LRes.bind_ok, LRes.erase_ok, Res.bind_ok]
        split
        · rfl
        · exact ih _
    · rfl

theorem erase_findAssemblyOrderAt (ms : List (Str × Module)) :
    (do let r ← (findAssemblyOrderAt ms).erase
        Res.ok r.o) = findAssemblyOrder (ms.map (·.2)) := by
  unfold findAssemblyOrderAt findAssemblyOrder
  rw [erase_orderLoopAt, List.length_map]

theorem erase_firstPassesAt (ps : List Placed) (fuel : Nat) : ∀ (order : List Nat) (ms : List Module),
    (firstPassesAt ps fuel ms order).erase = firstPasses fuel ms order := by
  intro order
  induction order with
  | nil => intro ms; rfl
  | cons i is ih =>
    intro ms
    rw [firstPassesAt, firstPasses]
    cases ms[i]? with
    | none => rfl
    | some m => simp only [LRes.erase_bind, Module.erase_runFirstPassAt, ih]

theorem erase_secondPassesAt (ps : List Placed) (names : HMap FullId Nat) : ∀ (order : List Nat) (ms : List Module),
    (secondPassesAt ps names ms order).erase = secondPasses names ms order := by
  intro order
  induction order with
  | nil => intro ms; rfl
  | cons i is ih =>
    intro ms
    rw [secondPassesAt, secondPasses]
    cases ms[i]? with
    | none => rfl
    | some m => simp only [LRes.erase_bind, Module.erase_runSecondPassAt, ih]

theorem erase_finalPassesAt {σ : Type} (ps : List Placed) (sink : Sink σ) : ∀ (order : List Nat) (a : Assembler) (s : σ),
    ((finalPassesAt ps sink a order s).1, (finalPassesAt ps sink a order s).2.erase) = finalPasses sink a order s := by
  intro order
  induction order with
  | nil => intro a s; rfl
  | cons i is ih =>
    intro a s
    rw [finalPassesAt, finalPasses]
    cases a.modules[i]? with
    | none => rfl
    | some m =>
      simp only
      rw [← Module.erase_assembleAt (placeOf ps i).path (placeOf ps i).nums m]
      rcases m.assembleAt (placeOf ps i).path (placeOf ps i).nums (lookup a.modules a.names) sink s with ⟨s', r⟩
      cases r with
      | err e l => rfl
      | ub u => rfl
      | ok m' =>
        simp only [LRes.erase_ok]
        rcases a.memory.insert m'.owned i with ⟨mem, ok⟩
        cases ok with
        | false => rfl
        | true => simp only; exact ih _ _

theorem erase_prepareAt (ps : List Placed) (fuel : Nat) (ms : List Module) (h : ps.length = ms.length) :
    (prepareAt ps fuel ms).erase = prepare fuel ms := by
  unfold prepareAt prepare
  have hz : (((ps.map (·.path)).zip ms).map (·.2)) = ms := by
    rw [List.map_snd_zip]; simp [h]
  have := erase_findAssemblyOrderAt ((ps.map (·.path)).zip ms)
  rw [hz] at this
  rw [← this]
  cases findAssemblyOrderAt ((ps.map (·.path)).zip ms) with
  | err e l => rfl
  | ub u => rfl
  | ok o =>
    simp only [LRes.bind_ok, LRes.erase_ok, Res.bind_ok, LRes.erase_bind, erase_firstPassesAt, erase_secondPassesAt]

theorem erase_loadAllAt : ∀ (files : List (Str × List Str)),
    (do let r ← (loadAllAt files).erase
        Res.ok r.2) = loadAll (files.map (·.2)) ∧
    ∀ ps ms, loadAllAt files = .ok (ps, ms) → ps.length = ms.length := by
  intro files
  induction files with
  | nil =>
    refine ⟨rfl, ?_⟩
    rintro ps ms h
    simp only [loadAllAt, LRes.ok.injEq, Prod.mk.injEq] at h
    obtain ⟨rfl, rfl⟩ := h
    rfl
  | cons f fs ih =>
    rw [loadAllAt, List.map_cons, loadAll, ← Module.erase_loadAsmFileAt f.1, ← ih.1]
    cases Module.loadAsmFileAt f.1 f.2 with
    | err e l => exact ⟨rfl, fun _ _ h => by cases h⟩
    | ub u => exact ⟨rfl, fun _ _ h => by cases h⟩
    | ok r =>
      simp only [LRes.bind_ok, LRes.erase_ok, Res.bind_ok]
      cases hr : loadAllAt fs with
      | err e l => exact ⟨rfl, fun _ _ h => by cases h⟩
      | ub u => exact ⟨rfl, fun _ _ h => by cases h⟩
      | ok q =>
        refine ⟨rfl, ?_⟩
        intro ps ms h
        simp only [LRes.bind_ok, LRes.ok.injEq, Prod.mk.injEq] at h
        obtain ⟨rfl, rfl⟩ := h
        have := ih.2 q.1 q.2 hr
        simp [this]

/-- Without the locations, it is `Assembler.assembleFiles`. -/
theorem erase_assembleFilesAt {σ : Type} (fuel : Nat) (files : List (Str × List Str)) (sink : Sink σ) (s : σ) :
    ((assembleFilesAt fuel files sink s).1, (assembleFilesAt fuel files sink s).2.erase) =
      assembleFiles fuel (files.map (·.2)) sink s := by
  unfold assembleFilesAt assembleFiles
  obtain ⟨h1, h2⟩ := erase_loadAllAt files
  rw [← h1]
  cases hl : loadAllAt files with
  | err e l => rfl
  | ub u => rfl
  | ok r =>
    obtain ⟨ps, ms⟩ := r
    simp only [LRes.erase_ok, Res.bind_ok]
    unfold assembleAt assemble
    rw [← erase_prepareAt ps fuel ms (h2 ps ms hl)]
    cases prepareAt ps fuel ms with
    | err e l => rfl
    | ub u => rfl
    | ok r => simp only [LRes.erase_ok]; exact erase_finalPassesAt ..

end Assembler

end Nsasm
