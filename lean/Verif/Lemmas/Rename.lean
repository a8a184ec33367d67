import Verif.Lemmas.RenameParse

/-! # Modules and the assembler treat all names alike -/

namespace Nsasm
open Spec Parse

variable {r : Str → Str}

/-! ## Tables -/

/-- A table with its keys renamed. -/
def renKeys {κ ν : Type} (f : κ → κ) (m : HMap κ ν) : HMap κ ν := m.map fun p => (f p.1, p.2)

theorem find_renKeys {κ ν : Type} [DecidableEq κ] {f : κ → κ} (hf : ∀ a b, f a = f b → a = b) (m : HMap κ ν) (k : κ) :
    HMap.find (renKeys f m) (f k) = HMap.find m k := by
  induction m with
  | nil => rfl
  | cons p m ih =>
    show (if f p.1 = f k then some p.2 else HMap.find (renKeys f m) (f k)) = if p.1 = k then some p.2 else HMap.find m k
    by_cases h : p.1 = k
    · rw [if_pos h, if_pos (by rw [h])]
    · rw [if_neg h, if_neg (fun e => h (hf _ _ e)), ih]

theorem has_renKeys {κ ν : Type} [DecidableEq κ] {f : κ → κ} (hf : ∀ a b, f a = f b → a = b) (m : HMap κ ν) (k : κ) :
    HMap.has (renKeys f m) (f k) = HMap.has m k := by rw [HMap.has, find_renKeys hf, HMap.has]

theorem insertNew_renKeys {κ ν : Type} (f : κ → κ) (m : HMap κ ν) (k : κ) (v : ν) :
    HMap.insertNew (renKeys f m) (f k) v = renKeys f (HMap.insertNew m k v) := by
  simp [HMap.insertNew, renKeys]

theorem renameId_injective (hr : Renaming r) (a b : FullId) (h : renameId r a = renameId r b) : a = b := by
  obtain ⟨m, n⟩ := a
  obtain ⟨m', n'⟩ := b
  simp only [renameId, FullId.mk.injEq] at h
  obtain ⟨h1, h2⟩ := h
  have := hr.injective _ _ h2
  subst this
  cases m <;> cases m' <;> simp_all
  exact hr.injective _ _ h1

/-! ## Instructions and statements -/

theorem maybeArg_ren (e : Expr) : Instruction.maybeArg (e.ren r) nullCtx = Instruction.maybeArg e nullCtx := by
  simp [Instruction.maybeArg]

theorem instr_execute_ren (i : Instruction) (es : ExecutionState) : (i.ren r).execute es nullCtx = i.execute es nullCtx := by
  simp only [Instruction.execute, Instruction.executeIncDec, Instruction.executeLoad, Instruction.executeMove,
    Instruction.checkConsistency, Instruction.checkSuffix, Instruction.checkImmediate, Instruction.ren, maybeArg_ren]
  rfl

theorem executeBranch_ren (i : Instruction) (es : ExecutionState) : (i.ren r).executeBranch es = i.executeBranch es := by
  simp only [Instruction.executeBranch, instr_execute_ren]
  rfl

theorem instr_bytes_ren {c c' : Ctx} (h : ∀ id, c' (renameId r id) = c id) (i : Instruction) (a : Addr) :
    (i.ren r).assembleBytes a c' = i.assembleBytes a c := by
  simp only [Instruction.assembleBytes, Instruction.ren, eval_ren h]
  rfl

theorem farBranchTarget_ren (i : Instruction) (a : Addr) : (i.ren r).farBranchTarget a = i.farBranchTarget a := by
  simp only [Instruction.farBranchTarget, Instruction.ren, eval_ren_null]

theorem fixAddressingMode_ren (i : Instruction) (f : StatusFlags) :
    (i.ren r).fixAddressingMode f = Instruction.ren r <$> i.fixAddressingMode f := by
  unfold Instruction.fixAddressingMode
  refine ite_ren Iff.rfl (fun _ => ?_) fun _ => rfl
  show (match (if i.mode = .imm_fm then f.m else f.x) with
    | .on => Res.ok { i.ren r with mode := .imm_b }
    | .off => Res.ok { i.ren r with mode := .imm_w }
    | _ => Res.err .flagUnknown) = _
  generalize (if i.mode = .imm_fm then f.m else f.x) = b
  cases b <;> rfl

namespace Statement

theorem execute_ren (st : Statement) (es : ExecutionState) : (st.ren r).execute es = st.execute es := by
  cases st with
  | instr i => exact instr_execute_ren i es
  | dir d => rfl

theorem serializedSize_ren (st : Statement) : (st.ren r).serializedSize = st.serializedSize := by
  cases st with
  | instr i => rfl
  | dir d => simp [Statement.ren, Statement.serializedSize, Directive.serializedSize, Directive.ren]

theorem encodeList_ren {c c' : Ctx} (h : ∀ id, c' (renameId r id) = c id) (n : DirectiveName) (es : List Expr) :
    Directive.encodeList n c' (es.map (·.ren r)) = Directive.encodeList n c es := by
  induction es with
  | nil => rfl
  | cons e es ih => simp only [List.map_cons, Directive.encodeList, eval_ren h, ih]

theorem assembleBytes_ren {c c' : Ctx} (h : ∀ id, c' (renameId r id) = c id) (st : Statement) (a : Addr) :
    (st.ren r).assembleBytes a c' = st.assembleBytes a c := by
  cases st with
  | instr i => simp only [Statement.ren, Statement.assembleBytes, instr_bytes_ren h]
  | dir d => simp only [Statement.ren, Statement.assembleBytes, Directive.assembleBytes, Directive.ren, encodeList_ren h]

theorem assemble_ren {σ : Type} {c c' : Ctx} (h : ∀ id, c' (renameId r id) = c id) (st : Statement) (a : Addr) (sink : Sink σ)
    (s : σ) : (st.ren r).assemble a c' sink s = st.assemble a c sink s := by
  simp only [Statement.assemble, assembleBytes_ren h]

theorem isExit_ren (st : Statement) : (st.ren r).isExitInstruction = st.isExitInstruction := by cases st <;> rfl

theorem isDir_ren (n : DirectiveName) (st : Statement) : (st.ren r).isDir n = st.isDir n := by cases st <;> rfl

end Statement

/-! ## Modules -/

def Line.ren (r : Str → Str) (l : Line) : Line :=
  { l with statement := l.statement.ren r, labels := l.labels.map r, locals := renKeys r l.locals }

def Module.ren (r : Str → Str) (m : Module) : Module :=
  { m with name := r m.name, lines := m.lines.map (Line.ren r), deps := m.deps.map (renameId r), globals := renKeys r m.globals,
           addrNames := m.addrNames.map fun p => (p.1, r p.2) }

namespace Module

def Loading.ren (r : Str → Str) (ld : Loading) : Loading :=
  { ld with m := ld.m.ren r, pending := ld.pending.map (ParsedLabel.ren r) }

def Pass.ren (r : Str → Str) (p : Pass) : Pass := { p with lines := p.lines.map (Line.ren r) }

theorem lineAt_ren (m : Module) (i : Nat) : (m.ren r).lines[i]? = m.lines[i]?.map (·.ren r) := by
  simp [Module.ren]

theorem localsAt_ren (m : Module) (i : Nat) : (m.ren r).localsAt i = renKeys r (m.localsAt i) := by
  unfold localsAt
  rw [lineAt_ren]
  cases m.lines[i]? <;> rfl

theorem localIndex_ren (hr : Renaming r) (m : Module) (name : Str) (scopes : List Nat) :
    (m.ren r).localIndex (r name) scopes = m.localIndex name scopes := by
  induction scopes with
  | nil => exact find_renKeys hr.injective m.globals name
  | cons s rest ih =>
    rw [localIndex, localIndex, localsAt_ren, find_renKeys hr.injective, ih]

theorem localLookup_ren (m : Module) (i : Nat) : (m.ren r).localLookup i = m.localLookup i := by
  unfold localLookup
  rw [lineAt_ren]
  cases m.lines[i]? <;> rfl

theorem name_ren (hr : Renaming r) (m : Module) (n : Str) : r n = (m.ren r).name ↔ n = m.name :=
  ⟨fun h => hr.injective _ _ h, fun h => by rw [h]; rfl⟩

theorem lookup_ren (hr : Renaming r) {e e' : Ctx} (h : ∀ id, e' (renameId r id) = e id) (m : Module) (scopes : List Nat)
    (id : FullId) : (m.ren r).lookup scopes e' (renameId r id) = m.lookup scopes e id := by
  obtain ⟨mod, name⟩ := id
  unfold Module.lookup
  cases mod with
  | some mod =>
    show (if r mod = (m.ren r).name then
        match (m.ren r).localIndex (r name) [] with
        | some i => (m.ren r).localLookup i
        | none => e' (renameId r ⟨some mod, name⟩)
      else e' (renameId r ⟨some mod, name⟩)) = _
    rw [h, localIndex_ren hr]
    dsimp only
    by_cases hn : mod = m.name
    · rw [if_pos hn, if_pos ((name_ren hr m mod).mpr hn)]
      simp only [localLookup_ren]
      cases m.localIndex name [] <;> rfl
    · rw [if_neg hn, if_neg (fun e => hn ((name_ren hr m mod).mp e))]
  | none =>
    show (match (m.ren r).localIndex (r name) scopes with
        | some i => (m.ren r).localLookup i
        | none => e' ⟨some [], r name⟩) = _
    have : (⟨some [], r name⟩ : FullId) = renameId r ⟨some [], name⟩ := by simp [renameId, hr.empty]
    rw [localIndex_ren hr, this, h]
    simp only [localLookup_ren]
    cases m.localIndex name scopes <;> rfl

theorem isLocal_ren (hr : Renaming r) (m : Module) (scopes : List Nat) (id : FullId) :
    (m.ren r).isLocal scopes (renameId r id) = m.isLocal scopes id := by
  obtain ⟨mod, name⟩ := id
  unfold Module.isLocal
  cases mod with
  | some mod =>
    show (if r mod ≠ (m.ren r).name then false else ((m.ren r).localIndex (r name) []).isSome) = _
    rw [localIndex_ren hr]
    dsimp only
    by_cases hn : mod = m.name
    · rw [if_neg (not_not.mpr hn), if_neg (not_not.mpr ((name_ren hr m mod).mpr hn))]
    · rw [if_pos hn, if_pos (fun e => hn ((name_ren hr m mod).mp e))]
  | none =>
    show ((m.ren r).localIndex (r name) scopes).isSome = _
    rw [localIndex_ren hr]

/-! ## Loading -/

theorem addLocal_ren (ls : List Line) (i : Nat) (name : Str) (t : Nat) :
    addLocal (ls.map (Line.ren r)) i (r name) t = (addLocal ls i name t).map (·.ren r) := by
  unfold addLocal
  induction ls generalizing i with
  | nil => simp
  | cons l ls ih =>
    cases i with
    | zero => simp [Line.ren, insertNew_renKeys]
    | succ i => simp [ih]

theorem addLabel_ren (hr : Renaming r) (m : Module) (scopes : List Nat) (l : ParsedLabel) (t : Nat) :
    (m.ren r).addLabel scopes (l.ren r) t = Module.ren r <$> m.addLabel scopes l t := by
  unfold addLabel
  show (match (if l.exported then [] else scopes) with
    | [] =>
      if HMap.has (renKeys r m.globals) (r l.name) then Res.err .duplicateLabel
      else .ok { m.ren r with globals := HMap.insertNew (renKeys r m.globals) (r l.name) t }
    | s :: _ =>
      if ((m.ren r).localsAt s).has (r l.name) then .err .duplicateLabel
      else .ok { m.ren r with lines := addLocal (m.lines.map (Line.ren r)) s (r l.name) t }) = _
  generalize (if l.exported then [] else scopes) = sc
  cases sc with
  | nil =>
    simp only
    rw [has_renKeys hr.injective, insertNew_renKeys]
    exact ite_ren Iff.rfl (fun _ => rfl) fun _ => rfl
  | cons s rest =>
    simp only
    rw [localsAt_ren, has_renKeys hr.injective, addLocal_ren]
    exact ite_ren Iff.rfl (fun _ => rfl) fun _ => rfl

theorem addLabels_ren (hr : Renaming r) (scopes : List Nat) (t : Nat) : ∀ (ls : List ParsedLabel) (m : Module),
    (m.ren r).addLabels scopes t (ls.map (ParsedLabel.ren r)) = Module.ren r <$> m.addLabels scopes t ls := by
  intro ls
  induction ls with
  | nil => intro m; rfl
  | cons l ls ih =>
    intro m
    rw [List.map_cons, addLabels, addLabels]
    exact bind_ren (addLabel_ren hr m scopes l t) fun m => ih m

theorem loadDirective_ren (hr : Renaming r) (ld : Loading) (i : Nat) (d : Directive) :
    loadDirective (ld.ren r) i (d.ren r) = Loading.ren r <$> loadDirective ld i d := by
  unfold loadDirective
  refine ite_ren Iff.rfl (fun _ => ?_) fun _ => ?_
  · have he : ((ld.ren r).m.name.isEmpty) = ld.m.name.isEmpty := by
      show (r ld.m.name).isEmpty = _
      cases hn : ld.m.name with
      | nil => rw [hr.empty]
      | cons c cs =>
        cases hc : r (c :: cs) with
        | nil => exact absurd (hr.injective _ _ (hc.trans hr.empty.symm)) (by simp)
        | cons _ _ => rfl
    rw [he]
    refine ite_ren Iff.rfl (fun _ => rfl) fun _ => ?_
    show (match (d.argument.ren r).simpleIdentifier with
      | none => Res.err .moduleName
      | some id => .ok { ld.ren r with m := { (ld.ren r).m with name := id } }) = _
    rw [simpleIdentifier_ren]
    cases d.argument.simpleIdentifier <;> rfl
  refine ite_ren Iff.rfl (fun _ => rfl) fun _ => ?_
  refine ite_ren Iff.rfl (fun _ => ?_) fun _ => rfl
  show (match ld.scopes with
    | [] => Res.err .unclosedScope
    | _ :: rest => .ok { ld.ren r with scopes := rest }) = _
  cases ld.scopes <;> rfl

theorem newLine_ren (st : Statement) (ls : List ParsedLabel) (scopes : List Nat) :
    newLine (st.ren r) (ls.map (ParsedLabel.ren r)) scopes = (newLine st ls scopes).ren r := by
  simp [newLine, Line.ren, renKeys, ParsedLabel.ren]

theorem loadStatement_ren (hr : Renaming r) (ld : Loading) (st : Statement) :
    loadStatement (ld.ren r) (st.ren r) = Loading.ren r <$> loadStatement ld st := by
  unfold loadStatement
  have h1 : (ld.ren r).m.lines.length = ld.m.lines.length := List.length_map ..
  have h2 : ({ (ld.ren r).m with lines := (ld.ren r).m.lines ++ [newLine (st.ren r) (ld.ren r).pending (ld.ren r).scopes] } : Module) =
      Module.ren r { ld.m with lines := ld.m.lines ++ [newLine st ld.pending ld.scopes] } := by
    simp [Loading.ren, Module.ren, newLine_ren]
  simp only [h1, h2]
  refine bind_ren (addLabels_ren hr ld.scopes _ ld.pending _) fun m => ?_
  cases st with
  | instr i => rfl
  | dir d => exact loadDirective_ren hr ⟨m, [], ld.scopes⟩ _ d

theorem loadItems_ren (hr : Renaming r) : ∀ (items : List Item) (ld : Loading),
    loadItems (ld.ren r) (items.map (Item.ren r)) = Loading.ren r <$> loadItems ld items := by
  intro items
  induction items with
  | nil => intro ld; rfl
  | cons it items ih =>
    intro ld
    cases it with
    | label l =>
      rw [List.map_cons, loadItems, Item.ren, loadItems, ← ih]
      simp [Loading.ren]
    | stmt st =>
      rw [List.map_cons, loadItems, Item.ren, loadItems]
      exact bind_ren (loadStatement_ren hr ld st) fun ld => ih ld

theorem loadLines_ren (hr : Renaming r) : ∀ {f f' : List Str} (_ : FileRenamed r f f') (ld : Loading),
    loadLines (ld.ren r) f' = Loading.ren r <$> loadLines ld f := by
  intro f f' h
  induction h with
  | nil => intro ld; rfl
  | cons hl _ ih =>
    intro ld
    rw [loadLines, loadLines]
    refine bind_ren hl fun ts => ?_
    refine bind_ren (parse_ren hr ts) fun items => ?_
    exact bind_ren (loadItems_ren hr items ld) fun ld => ih ld

theorem dependencies_ren (hr : Renaming r) (m : Module) : (m.ren r).dependencies = m.dependencies.map (renameId r) := by
  unfold dependencies
  show (m.lines.map (Line.ren r)).flatMap _ = _
  rw [List.flatMap_map, List.map_flatMap]
  congr 1
  funext l
  show (match l.statement.ren r with
    | .dir d => if d.name = DirectiveName.equ then d.argument.externalNames ((m.ren r).isLocal l.scopes) else []
    | .instr _ => []) = _
  cases l.statement with
  | instr i => rfl
  | dir d =>
    simp only [Statement.ren, Directive.ren]
    by_cases h : d.name = .equ
    · rw [if_pos h, if_pos h, externalNames_ren hr.empty (isLocal_ren hr m l.scopes)]
    · rw [if_neg h, if_neg h]; rfl

theorem finishLoad_ren (hr : Renaming r) (ld : Loading) : finishLoad (ld.ren r) = Module.ren r <$> finishLoad ld := by
  unfold finishLoad
  show (match ld.scopes with
    | _ :: _ => Res.err .unclosedScope
    | [] => .ok { ld.m.ren r with deps := (ld.m.ren r).dependencies }) = _
  cases ld.scopes with
  | cons _ _ => rfl
  | nil => rw [dependencies_ren hr]; rfl

theorem loadAsmFile_ren (hr : Renaming r) {f f' : List Str} (h : FileRenamed r f f') :
    loadAsmFile f' = Module.ren r <$> loadAsmFile f := by
  unfold loadAsmFile
  have he : (⟨empty, [], []⟩ : Loading) = Loading.ren r ⟨empty, [], []⟩ := by
    simp [Loading.ren, Module.ren, empty, hr.empty, renKeys]
  rw [he]
  have := bind_ren (loadLines_ren hr h ⟨empty, [], []⟩) fun ld => finishLoad_ren hr ld
  rw [← he] at this ⊢
  exact this

/-! ## First pass -/

theorem seeds_ren : ∀ (ls : List Line) (w : OMap ExecutionState) (i : Nat), seeds w i (ls.map (Line.ren r)) = seeds w i ls := by
  intro ls
  induction ls with
  | nil => intro w i; rfl
  | cons l ls ih =>
    intro w i
    rw [List.map_cons, seeds, seeds]
    show (match l.statement.ren r with
      | .dir d => if d.name = DirectiveName.entry then seeds (addWork w (i + 1) (.init d.flags)) (i + 1) (ls.map (Line.ren r))
        else seeds w (i + 1) (ls.map (Line.ren r))
      | .instr _ => seeds w (i + 1) (ls.map (Line.ren r))) = _
    cases l.statement with
    | instr i => exact ih _ _
    | dir d => simp only [Statement.ren, ih]; rfl

theorem branchWork_ren (hr : Renaming r) (m : Module) (l : Line) (st : ExecutionState) (w : OMap ExecutionState) :
    (m.ren r).branchWork (l.ren r) st w = m.branchWork l st w := by
  unfold branchWork
  show (match l.statement.ren r with
    | .dir _ => Res.ok w
    | .instr i =>
      if !i.isLocalBranch then .ok w
      else match i.arg1.simpleIdentifier with
        | none => .err .other
        | some target =>
          match (m.ren r).localIndex target l.scopes with
          | none => .err .undefinedName
          | some t => do
              let next ← i.executeBranch st
              .ok (addWork w t next)) = _
  cases l.statement with
  | dir d => rfl
  | instr i =>
    simp only [Statement.ren, executeBranch_ren]
    show (if !i.isLocalBranch then Res.ok w else match (i.arg1.ren r).simpleIdentifier with
        | none => .err .other
        | some target =>
          match (m.ren r).localIndex target l.scopes with
          | none => .err .undefinedName
          | some t => do
              let next ← i.executeBranch st
              .ok (addWork w t next)) = _
    rw [simpleIdentifier_ren]
    cases i.arg1.simpleIdentifier with
    | none => rfl
    | some n => simp only [Option.map_some, localIndex_ren hr]; rfl

theorem visit_ren (hr : Renaming r) (m : Module) (p : Pass) (k : Nat) (l : Line) (st : ExecutionState) :
    (m.ren r).visit (p.ren r) k (l.ren r) st = Pass.ren r <$> m.visit p k l st := by
  unfold visit
  refine test_ren (Statement.execute_ren l.statement st) fun next => ?_
  have : (l.ren r).statement.isExitInstruction = l.statement.isExitInstruction := Statement.isExit_ren l.statement
  simp only [this]
  refine test_ren (branchWork_ren hr m l st _) fun w => ?_
  simp [Pass.ren, reach, Line.ren, List.map_set]

theorem step_ren (hr : Renaming r) (m : Module) (p : Pass) :
    (m.ren r).step (p.ren r) = Option.map (Pass.ren r) <$> m.step p := by
  unfold step
  show (match p.work with
    | [] => Res.ok none
    | (k, state) :: rest =>
      if k = (p.lines.map (Line.ren r)).length then .err .pastEndOfFile
      else match (p.lines.map (Line.ren r))[k]? with
        | none => .ub .outOfBounds
        | some line =>
          if line.reached ∧ line.incoming = state then .ok (some { p.ren r with work := rest })
          else do
            let p ← (m.ren r).visit (p.ren r) k line state
            .ok (some p)) = _
  cases p.work with
  | nil => rfl
  | cons x rest =>
    simp only [List.length_map, List.getElem?_map]
    refine ite_ren Iff.rfl (fun _ => rfl) fun _ => ?_
    cases p.lines[x.1]? with
    | none => rfl
    | some l =>
      simp only [Option.map_some]
      refine ite_ren Iff.rfl (fun _ => rfl) fun _ => ?_
      exact bind_ren (visit_ren hr m p x.1 l x.2) fun _ => rfl

theorem explore_ren (hr : Renaming r) (m : Module) : ∀ (n : Nat) (p : Pass),
    (m.ren r).explore n (p.ren r) = Pass.ren r <$> m.explore n p := by
  intro n
  induction n with
  | zero => intro p; rfl
  | succ n ih =>
    intro p
    rw [explore, explore]
    refine bind_ren (step_ren hr m p) fun q => ?_
    cases q with
    | none => rfl
    | some q => exact ih q

theorem fixLines_ren : ∀ ls : List Line, fixLines (ls.map (Line.ren r)) = List.map (Line.ren r) <$> fixLines ls := by
  intro ls
  induction ls with
  | nil => rfl
  | cons l ls ih =>
    rw [List.map_cons, fixLines, fixLines]
    show (match l.statement.ren r with
      | .dir _ => do
          let ls ← fixLines (ls.map (Line.ren r))
          Res.ok (l.ren r :: ls)
      | .instr i =>
          if !l.reached then .err .unreached
          else do
            let i ← i.fixAddressingMode l.incoming.flags
            let ls ← fixLines (ls.map (Line.ren r))
            .ok ({ l.ren r with statement := .instr i } :: ls)) = _
    cases l.statement with
    | dir d => exact bind_ren ih fun _ => rfl
    | instr i =>
      refine ite_ren Iff.rfl (fun _ => rfl) fun _ => ?_
      refine bind_ren (fixAddressingMode_ren i _) fun j => ?_
      exact bind_ren ih fun _ => rfl

theorem originAt_ren (pc : Option Addr) (st : Statement) : originAt pc (st.ren r) = originAt pc st := by
  cases st with
  | instr i => rfl
  | dir d => simp only [Statement.ren, originAt, Directive.ren, eval_ren_null]

theorem layout_ren : ∀ (ls : List Line) (pc : Option Addr),
    layout pc (ls.map (Line.ren r)) = List.map (Line.ren r) <$> layout pc ls := by
  intro ls
  induction ls with
  | nil => intro pc; rfl
  | cons l ls ih =>
    intro pc
    rw [List.map_cons, layout, layout]
    refine test_ren (originAt_ren pc l.statement) fun o => ?_
    have hs : (l.ren r).statement.serializedSize = l.statement.serializedSize := Statement.serializedSize_ren l.statement
    have hd : (l.ren r).statement.isDir .equ = l.statement.isDir .equ := Statement.isDir_ren _ _
    cases o with
    | none =>
      simp only [hs]
      refine ite_ren Iff.rfl (fun _ => rfl) fun _ => ?_
      exact bind_ren (ih none) fun _ => rfl
    | some a =>
      simp only [hs, hd]
      refine bind_ren (ih _) fun ls => ?_
      cases l.statement.isDir .equ <;> rfl

theorem runFirstPass_ren (hr : Renaming r) (fuel : Nat) (m : Module) :
    (m.ren r).runFirstPass fuel = Module.ren r <$> m.runFirstPass fuel := by
  unfold runFirstPass
  have : (⟨(m.ren r).lines, seeds [] 0 (m.ren r).lines⟩ : Pass) = Pass.ren r ⟨m.lines, seeds [] 0 m.lines⟩ := by
    show (⟨m.lines.map (Line.ren r), seeds [] 0 (m.lines.map (Line.ren r))⟩ : Pass) = _
    rw [seeds_ren]; rfl
  rw [this]
  refine bind_ren (explore_ren hr m fuel _) fun p => ?_
  refine bind_ren (fixLines_ren p.lines) fun ls => ?_
  exact bind_ren (layout_ren ls none) fun _ => rfl

/-! ## Second pass -/

theorem setValue_ren (m : Module) (i : Nat) (v : Int) : (m.ren r).setValue i v = (m.setValue i v).ren r := by
  have : ∀ (ls : List Line) (i : Nat), (ls.map (Line.ren r)).modify i (fun l : Line => { l with value := some v }) =
      (ls.modify i (fun l : Line => { l with value := some v })).map (·.ren r) := by
    intro ls
    induction ls with
    | nil => intro i; simp
    | cons l ls ih =>
      intro i
      cases i with
      | zero => simp [Line.ren]
      | succ i => simp [ih]
  simp [setValue, Module.ren, this]

theorem evalEqu_ren (hr : Renaming r) {e e' : Ctx} (h : ∀ id, e' (renameId r id) = e id) (m : Module) (i : Nat) (l : Line) :
    evalEqu e' (m.ren r) i (l.ren r) = Module.ren r <$> evalEqu e m i l := by
  unfold evalEqu
  show (match l.statement.ren r with
    | .instr _ => Res.ok (m.ren r)
    | .dir d =>
      if d.name = DirectiveName.equ ∧ l.value.isNone then do
        let v ← d.argument.eval ((m.ren r).lookup l.scopes e')
        .ok ((m.ren r).setValue i v)
      else .ok (m.ren r)) = _
  cases l.statement with
  | instr _ => rfl
  | dir d =>
    refine ite_ren Iff.rfl (fun _ => ?_) fun _ => rfl
    refine test_ren (eval_ren (lookup_ren hr h m l.scopes) d.argument) fun v => ?_
    rw [setValue_ren]; rfl

theorem secondLoop_ren (hr : Renaming r) {e e' : Ctx} (h : ∀ id, e' (renameId r id) = e id) : ∀ (n i : Nat) (m : Module),
    secondLoop e' n i (m.ren r) = Module.ren r <$> secondLoop e n i m := by
  intro n
  induction n with
  | zero => intro i m; rfl
  | succ n ih =>
    intro i m
    rw [secondLoop, secondLoop, lineAt_ren]
    cases m.lines[i]? with
    | none => rfl
    | some l => exact bind_ren (evalEqu_ren hr h m i l) fun m => ih _ m

theorem runSecondPass_ren (hr : Renaming r) {e e' : Ctx} (h : ∀ id, e' (renameId r id) = e id) (m : Module) :
    (m.ren r).runSecondPass e' = Module.ren r <$> m.runSecondPass e := by
  unfold runSecondPass
  have : (m.ren r).lines.length = m.lines.length := List.length_map ..
  rw [this]
  exact secondLoop_ren hr h _ _ m

/-! ## Assembly -/

theorem assembleNote_ren {c c' : Ctx} (h : ∀ id, c' (renameId r id) = c id) (d : Directive) (v : Option Int) (o : Out) :
    assembleNote (d.ren r) v c' o = assembleNote d v c o := by
  simp only [assembleNote, Directive.ren, eval_ren h]

theorem noteTarget_ren (l : Line) (o : Out) : noteTarget (l.ren r) o = noteTarget l o := by
  unfold noteTarget
  show (match l.statement.ren r with
    | .dir _ => Res.ok o
    | .instr i => do
      let source ← toAddress l.value
      match ← i.farBranchTarget source with
      | none => .ok o
      | some t => .ok { o with targets := addTarget o.targets t l.incoming.flags }) = _
  cases l.statement with
  | dir d => rfl
  | instr i => simp only [Statement.ren, farBranchTarget_ren]; rfl

theorem writeLine_ren {σ : Type} {c c' : Ctx} (h : ∀ id, c' (renameId r id) = c id) (l : Line) (sink : Sink σ) (s : σ) (o : Out) :
    writeLine (l.ren r) c' sink s o = writeLine l c sink s o := by
  unfold writeLine
  simp only [Line.ren, Statement.assemble_ren h, Statement.serializedSize_ren]

theorem assembleLine_ren {σ : Type} (hr : Renaming r) {e e' : Ctx} (h : ∀ id, e' (renameId r id) = e id) (m : Module)
    (sink : Sink σ) (l : Line) (s : σ) (o : Out) :
    (m.ren r).assembleLine e' sink (l.ren r) s o = m.assembleLine e sink l s o := by
  have hl := lookup_ren hr h m l.scopes
  have hn : noteTarget (l.ren r) = noteTarget l := funext fun o => noteTarget_ren l o
  have hs : (l.ren r).statement.serializedSize = l.statement.serializedSize := Statement.serializedSize_ren l.statement
  have hd : (match (l.ren r).statement with
      | .dir d => (s, assembleNote d (l.ren r).value ((m.ren r).lookup (l.ren r).scopes e') o)
      | .instr _ => (s, Res.ok o)) = (match l.statement with
      | .dir d => (s, assembleNote d l.value (m.lookup l.scopes e) o)
      | .instr _ => (s, .ok o)) := by
    show (match l.statement.ren r with
      | .dir d => (s, assembleNote d l.value ((m.ren r).lookup l.scopes e') o)
      | .instr _ => (s, Res.ok o)) = _
    cases l.statement with
    | instr _ => rfl
    | dir d => simp only [Statement.ren, assembleNote_ren hl]
  have hw : writeLine (l.ren r) ((m.ren r).lookup (l.ren r).scopes e') sink s o = writeLine l (m.lookup l.scopes e) sink s o :=
    writeLine_ren hl l sink s o
  have hi : (if (l.ren r).statement.serializedSize > 0 then writeLine (l.ren r) ((m.ren r).lookup (l.ren r).scopes e') sink s o
      else match (l.ren r).statement with
        | .dir d => (s, assembleNote d (l.ren r).value ((m.ren r).lookup (l.ren r).scopes e') o)
        | .instr _ => (s, Res.ok o)) =
      if l.statement.serializedSize > 0 then writeLine l (m.lookup l.scopes e) sink s o
      else match l.statement with
        | .dir d => (s, assembleNote d l.value (m.lookup l.scopes e) o)
        | .instr _ => (s, .ok o) := by
    rw [hs, hw, hd]
  show (let (s, x) := (if (l.ren r).statement.serializedSize > 0 then
        writeLine (l.ren r) ((m.ren r).lookup (l.ren r).scopes e') sink s o
      else match (l.ren r).statement with
        | .dir d => (s, assembleNote d (l.ren r).value ((m.ren r).lookup (l.ren r).scopes e') o)
        | .instr _ => (s, Res.ok o)); (s, x >>= noteTarget (l.ren r))) = _
  rw [hi, hn]
  rfl

theorem assembleLines_ren {σ : Type} (hr : Renaming r) {e e' : Ctx} (h : ∀ id, e' (renameId r id) = e id) (m : Module)
    (sink : Sink σ) : ∀ (ls : List Line) (s : σ) (o : Out),
    (m.ren r).assembleLines e' sink (ls.map (Line.ren r)) s o = m.assembleLines e sink ls s o := by
  intro ls
  induction ls with
  | nil => intro s o; rfl
  | cons l ls ih =>
    intro s o
    rw [List.map_cons, assembleLines, assembleLines, assembleLine_ren hr h]
    rcases m.assembleLine e sink l s o with ⟨s', x⟩
    cases x with
    | ok o' => exact ih s' o'
    | err _ => rfl
    | ub _ => rfl

/-- A table of names of addresses, renamed. -/
abbrev renNames (r : Str → Str) (m : HMap Nat Str) : HMap Nat Str := m.map fun p => (p.1, r p.2)

theorem find_renNames (m : HMap Nat Str) (a : Nat) : HMap.find (renNames r m) a = (HMap.find m a).map r := by
  induction m with
  | nil => rfl
  | cons p m ih =>
    show (if p.1 = a then some (r p.2) else HMap.find (renNames r m) a) = Option.map r (if p.1 = a then some p.2 else HMap.find m a)
    by_cases h : p.1 = a
    · rw [if_pos h, if_pos h]; rfl
    · rw [if_neg h, if_neg h, ih]

theorem nameAddresses_ren (m : Module) : ∀ (gs : List (Str × Nat)) (names : HMap Nat Str),
    (m.ren r).nameAddresses (renNames r names) (renKeys r gs) = renNames r <$> m.nameAddresses names gs := by
  intro gs
  induction gs with
  | nil => intro names; rfl
  | cons g gs ih =>
    intro names
    show nameAddresses (m.ren r) (renNames r names) ((r g.1, g.2) :: renKeys r gs) = _
    rw [nameAddresses, nameAddresses, lineAt_ren]
    cases m.lines[g.2]? with
    | none => rfl
    | some l =>
      show (match l.value with
        | none => Res.err .noValue
        | some v => do
            let address ← Address.ofInt v
            nameAddresses (m.ren r) (if HMap.has (renNames r names) address then renNames r names
              else HMap.insertNew (renNames r names) address (r g.1)) (renKeys r gs)) = _
      dsimp only
      cases l.value with
      | none => rfl
      | some v =>
        refine test_ren rfl fun a => ?_
        rw [← ih]
        congr 1
        by_cases hh : HMap.has names a = true
        · rw [if_pos hh, if_pos (by rw [HMap.has, find_renNames, Option.isSome_map]; exact hh)]
        · rw [if_neg hh, if_neg (by rw [HMap.has, find_renNames, Option.isSome_map]; exact hh)]
          simp [HMap.insertNew]

theorem assemble_ren {σ : Type} (hr : Renaming r) {e e' : Ctx} (h : ∀ id, e' (renameId r id) = e id) (m : Module)
    (sink : Sink σ) (s : σ) :
    (m.ren r).assemble e' sink s = ((m.assemble e sink s).1, Module.ren r <$> (m.assemble e sink s).2) := by
  unfold Module.assemble
  show (let (s, x) := (m.ren r).assembleLines e' sink (m.lines.map (Line.ren r)) s ⟨m.owned, m.targets, m.conventions⟩
    (s, do
      let o ← x
      let names ← (m.ren r).nameAddresses (renNames r m.addrNames) (renKeys r m.globals)
      Res.ok { m.ren r with owned := o.owned, targets := o.targets, conventions := o.conventions, addrNames := names })) = _
  rw [assembleLines_ren hr h, nameAddresses_ren]
  rcases m.assembleLines e sink m.lines s ⟨m.owned, m.targets, m.conventions⟩ with ⟨s', x⟩
  cases x with
  | ok o =>
    simp only [Res.bind_ok]
    cases m.nameAddresses m.addrNames m.globals <;> rfl
  | err _ => rfl
  | ub _ => rfl

theorem exportedNames_ren (m : Module) : (m.ren r).exportedNames = m.exportedNames.map (renameId r) := by
  simp [exportedNames, Module.ren, renKeys, renameId]

theorem valueForName_ren (hr : Renaming r) (m : Module) (id : FullId) :
    (m.ren r).valueForName (renameId r id) = m.valueForName id := by
  unfold valueForName
  have h1 : (renameId r id).module ≠ some (m.ren r).name ↔ id.module ≠ some m.name := by
    refine not_congr ?_
    obtain ⟨mod, n⟩ := id
    cases mod with
    | none => simp [renameId]
    | some mod => simp only [renameId, Option.map_some, Option.some.injEq]; exact name_ren hr m mod
  have h2 : (m.ren r).globals.find (renameId r id).name = m.globals.find id.name := find_renKeys hr.injective _ _
  rw [h2]
  by_cases h : id.module ≠ some m.name
  · rw [if_pos h, if_pos (h1.mpr h)]
  · rw [if_neg h, if_neg (fun x => h (h1.mp x))]
    cases m.globals.find id.name with
    | none => rfl
    | some i => exact localLookup_ren m i

theorem nameForAddress_ren (hr : Renaming r) (m : Module) (a : Addr) :
    (m.ren r).nameForAddress a = (m.nameForAddress a).map (renameId r) := by
  unfold nameForAddress
  show (if (r m.name).isEmpty then none else (HMap.find (renNames r m.addrNames) a).map fun n => (⟨some (r m.name), n⟩ : FullId)) = _
  rw [find_renNames]
  cases hn : m.name with
  | nil => rw [hr.empty]; rfl
  | cons c cs =>
    cases hc : r (c :: cs) with
    | nil => exact absurd (hr.injective _ _ (hc.trans hr.empty.symm)) (by simp)
    | cons d ds =>
      simp only [List.isEmpty_cons, Bool.false_eq_true, if_false]
      cases HMap.find m.addrNames a with
      | none => rfl
      | some n => simp [renameId, hc]

end Module

/-! ## The assembler -/

namespace Assembler

theorem loadAll_ren (hr : Renaming r) {fs fs' : List (List Str)} (h : List.Forall₂ (FileRenamed r) fs fs') :
    loadAll fs' = List.map (Module.ren r) <$> loadAll fs := by
  induction h with
  | nil => rfl
  | cons hf _ ih =>
    rw [loadAll, loadAll]
    refine bind_ren (Module.loadAsmFile_ren hr hf) fun m => ?_
    exact bind_ren ih fun _ => rfl

def Ordering.ren (r : Str → Str) (o : Ordering) : Ordering := { o with exported := renKeys (renameId r) o.exported }

theorem addExports_ren (hr : Renaming r) (i : Nat) : ∀ (ns : List FullId) (ex : HMap FullId Nat),
    addExports i (renKeys (renameId r) ex) (ns.map (renameId r)) = renKeys (renameId r) <$> addExports i ex ns := by
  intro ns
  induction ns with
  | nil => intro ex; rfl
  | cons n ns ih =>
    intro ex
    rw [List.map_cons, addExports, addExports, has_renKeys (renameId_injective hr), insertNew_renKeys]
    exact ite_ren Iff.rfl (fun _ => rfl) fun _ => ih _

theorem consider_ren (hr : Renaming r) (o : Ordering) (i : Nat) (m : Module) :
    consider (o.ren r) i (m.ren r) = Ordering.ren r <$> consider o i m := by
  unfold consider
  refine ite_ren Iff.rfl (fun _ => rfl) fun _ => ?_
  have hd : ((m.ren r).deps.all fun d => (o.ren r).exported.has d) = m.deps.all fun d => o.exported.has d := by
    show ((m.deps.map (renameId r)).all fun d => HMap.has (renKeys (renameId r) o.exported) d) = _
    rw [List.all_map]
    congr 1
    funext d
    exact has_renKeys (renameId_injective hr) _ _
  rw [hd, Module.exportedNames_ren]
  refine ite_ren Iff.rfl (fun _ => ?_) fun _ => rfl
  exact bind_ren (addExports_ren hr i _ _) fun _ => rfl

theorem round_ren (hr : Renaming r) : ∀ (ms : List Module) (o : Ordering) (i : Nat),
    round (o.ren r) i (ms.map (Module.ren r)) = Ordering.ren r <$> round o i ms := by
  intro ms
  induction ms with
  | nil => intro o i; rfl
  | cons m ms ih =>
    intro o i
    rw [List.map_cons, round, round]
    exact bind_ren (consider_ren hr o i m) fun o => ih o _

theorem orderLoop_ren (hr : Renaming r) (ms : List Module) : ∀ (n : Nat) (o : Ordering),
    orderLoop (ms.map (Module.ren r)) n (o.ren r) = Ordering.ren r <$> orderLoop ms n o := by
  intro n
  induction n with
  | zero => intro o; rfl
  | succ n ih =>
    intro o
    rw [orderLoop, orderLoop, List.length_map]
    refine ite_ren Iff.rfl (fun _ => ?_) fun _ => rfl
    refine bind_ren (round_ren hr ms o 0) fun o' => ?_
    exact ite_ren Iff.rfl (fun _ => rfl) fun _ => ih o'

theorem findAssemblyOrder_ren (hr : Renaming r) (ms : List Module) :
    findAssemblyOrder (ms.map (Module.ren r)) = Ordering.ren r <$> findAssemblyOrder ms := by
  unfold findAssemblyOrder
  rw [List.length_map]
  exact orderLoop_ren hr ms _ ⟨[], []⟩

theorem lookup_ren (hr : Renaming r) (ms : List Module) (names : HMap FullId Nat) (id : FullId) :
    lookup (ms.map (Module.ren r)) (renKeys (renameId r) names) (renameId r id) = lookup ms names id := by
  unfold lookup
  rw [find_renKeys (renameId_injective hr)]
  have h1 : (renameId r id).module.isNone = id.module.isNone := by simp [renameId]
  rw [h1]
  cases id.module.isNone with
  | true => rfl
  | false =>
    simp only [Bool.false_eq_true, if_false]
    cases names.find id with
    | none => rfl
    | some i =>
      simp only [List.getElem?_map]
      cases ms[i]? with
      | none => rfl
      | some m => exact Module.valueForName_ren hr m id

theorem firstPasses_ren (hr : Renaming r) (fuel : Nat) : ∀ (is : List Nat) (ms : List Module),
    firstPasses fuel (ms.map (Module.ren r)) is = List.map (Module.ren r) <$> firstPasses fuel ms is := by
  intro is
  induction is with
  | nil => intro ms; rfl
  | cons i is ih =>
    intro ms
    rw [firstPasses, firstPasses, List.getElem?_map]
    cases ms[i]? with
    | none => rfl
    | some m =>
      refine bind_ren (Module.runFirstPass_ren hr fuel m) fun m => ?_
      rw [← ih, List.map_set]

theorem secondPasses_ren (hr : Renaming r) (names : HMap FullId Nat) : ∀ (is : List Nat) (ms : List Module),
    secondPasses (renKeys (renameId r) names) (ms.map (Module.ren r)) is = List.map (Module.ren r) <$> secondPasses names ms is := by
  intro is
  induction is with
  | nil => intro ms; rfl
  | cons i is ih =>
    intro ms
    rw [secondPasses, secondPasses, List.getElem?_map]
    cases ms[i]? with
    | none => rfl
    | some m =>
      refine bind_ren (Module.runSecondPass_ren hr (lookup_ren hr ms names) m) fun m => ?_
      rw [← ih, List.map_set]

/-- An assembler with all names renamed. -/
def ren (r : Str → Str) (a : Assembler) : Assembler :=
  { a with modules := a.modules.map (Module.ren r), names := renKeys (renameId r) a.names }

theorem finalPasses_ren {σ : Type} (hr : Renaming r) (sink : Sink σ) : ∀ (is : List Nat) (a : Assembler) (s : σ),
    finalPasses sink (a.ren r) is s = ((finalPasses sink a is s).1, ren r <$> (finalPasses sink a is s).2) := by
  intro is
  induction is with
  | nil => intro a s; rfl
  | cons i is ih =>
    intro a s
    rw [finalPasses, finalPasses]
    have : (a.ren r).modules[i]? = a.modules[i]?.map (·.ren r) := List.getElem?_map ..
    rw [this]
    cases a.modules[i]? with
    | none => rfl
    | some m =>
      have hA : (m.ren r).assemble (lookup (a.ren r).modules (a.ren r).names) sink s = _ :=
        Module.assemble_ren hr (lookup_ren hr a.modules a.names) m sink s
      simp only [Option.map_some, hA]
      rcases m.assemble (lookup a.modules a.names) sink s with ⟨s', x⟩
      cases x with
      | err _ => rfl
      | ub _ => rfl
      | ok m' =>
        simp only [Res.map_ok]
        show (match a.memory.insert m'.owned i with
          | (_, false) => (s', Res.err .overlap)
          | (memory, true) =>
            finalPasses sink { a.ren r with modules := (a.ren r).modules.set i (m'.ren r), memory := memory } is s') = _
        rcases a.memory.insert m'.owned i with ⟨mem, b⟩
        cases b with
        | false => rfl
        | true =>
          simp only
          rw [← ih]
          simp [ren, List.map_set]

theorem prepare_ren (hr : Renaming r) (fuel : Nat) (ms : List Module) :
    prepare fuel (ms.map (Module.ren r)) = Prod.map (ren r) id <$> prepare fuel ms := by
  unfold prepare
  refine bind_ren (findAssemblyOrder_ren hr ms) fun o => ?_
  refine bind_ren (firstPasses_ren hr fuel o.order ms) fun ms => ?_
  exact bind_ren (secondPasses_ren hr o.exported o.order ms) fun _ => rfl

theorem assemble_ren {σ : Type} (hr : Renaming r) (fuel : Nat) (ms : List Module) (sink : Sink σ) (s : σ) :
    assemble fuel (ms.map (Module.ren r)) sink s = ((assemble fuel ms sink s).1, ren r <$> (assemble fuel ms sink s).2) := by
  unfold assemble
  rw [prepare_ren hr]
  cases prepare fuel ms with
  | err _ => rfl
  | ub _ => rfl
  | ok x => exact finalPasses_ren hr sink x.2 x.1 s

theorem assembleFiles_ren {σ : Type} (hr : Renaming r) (fuel : Nat) {fs fs' : List (List Str)}
    (h : List.Forall₂ (FileRenamed r) fs fs') (sink : Sink σ) (s : σ) :
    assembleFiles fuel fs' sink s = ((assembleFiles fuel fs sink s).1, ren r <$> (assembleFiles fuel fs sink s).2) := by
  unfold assembleFiles
  rw [loadAll_ren hr h]
  cases loadAll fs with
  | err _ => rfl
  | ub _ => rfl
  | ok ms => exact assemble_ren hr fuel ms sink s

theorem addTargets_ren (a : Assembler) : ∀ (ts : List (Nat × StatusFlags)) (ret : OMap StatusFlags),
    (a.ren r).addTargets ret ts = a.addTargets ret ts := by
  intro ts
  induction ts with
  | nil => intro ret; rfl
  | cons t ts ih =>
    intro ret
    rw [addTargets, addTargets, ih, ih]
    rfl

theorem answers_ren (hr : Renaming r) (a : Assembler) : AnswersRenamed r a (a.ren r) where
  memory := rfl
  lookup := lookup_ren hr a.modules a.names
  jumpTargets := by
    unfold jumpTargets
    show (a.modules.map (Module.ren r)).foldl _ [] = _
    rw [List.foldl_map]
    congr 1
    funext ret m
    exact addTargets_ren a _ _
  conventions := by
    unfold jumpTargetReturnConventions
    show (a.modules.map (Module.ren r)).foldl _ [] = _
    rw [List.foldl_map]
    rfl
  names := by
    intro x
    unfold nameForAddress
    show (a.modules.map (Module.ren r)).findSome? _ = _
    induction a.modules with
    | nil => rfl
    | cons m ms ih =>
      simp only [List.map_cons, List.findSome?_cons, Module.nameForAddress_ren hr]
      cases m.nameForAddress x with
      | none => exact ih
      | some n => rfl

end Assembler
end Nsasm
