import Verif.Lemmas.Rename
import Verif.Lemmas.ShiftConstant
import Verif.Lemmas.Order
import Verif.Spec.Suffix

/-! # What a size suffix does -/

namespace Nsasm.Sized
open Spec Module Nsasm Parse

/-! ## Without suffixes -/

def stU : Statement → Statement
  | .instr i => .instr (unsized i)
  | .dir d => .dir d

def liU (l : Line) : Line := { l with statement := stU l.statement }

def moU (m : Module) : Module := { m with lines := m.lines.map liU }

def itU : Item → Item
  | .label l => .label l
  | .stmt st => .stmt (stU st)

def ldU (ld : Loading) : Loading := { ld with m := moU ld.m }

theorem fix_u (i : Instruction) (f : StatusFlags) :
    (unsized i).fixAddressingMode f = unsized <$> i.fixAddressingMode f := by
  unfold Instruction.fixAddressingMode
  refine ite_ren Iff.rfl (fun _ => ?_) fun _ => rfl
  show (match (if i.mode = .imm_fm then f.m else f.x) with
    | .on => Res.ok { unsized i with mode := .imm_b }
    | .off => Res.ok { unsized i with mode := .imm_w }
    | _ => Res.err .flagUnknown) = _
  generalize (if i.mode = .imm_fm then f.m else f.x) = b
  cases b <;> rfl

theorem size_u (st : Statement) : (stU st).serializedSize = st.serializedSize := by cases st <;> rfl

theorem exit_u (st : Statement) : (stU st).isExitInstruction = st.isExitInstruction := by cases st <;> rfl

theorem isDir_u (n : DirectiveName) (st : Statement) : (stU st).isDir n = st.isDir n := by cases st <;> rfl

theorem bytes_u (st : Statement) (a : Addr) (c : Ctx) : (stU st).assembleBytes a c = st.assembleBytes a c := by
  cases st <;> rfl

theorem assemble_u {σ : Type} (st : Statement) (a : Addr) (c : Ctx) (sink : Sink σ) (s : σ) :
    (stU st).assemble a c sink s = st.assemble a c sink s := by
  simp only [Statement.assemble, bytes_u]

/-! ## Modules -/

theorem lineAt_u (m : Module) (i : Nat) : (moU m).lines[i]? = m.lines[i]?.map liU := by simp [moU]

theorem localsAt_u (m : Module) (i : Nat) : (moU m).localsAt i = m.localsAt i := by
  unfold localsAt
  rw [lineAt_u]
  cases m.lines[i]? <;> rfl

theorem localIndex_u (m : Module) (name : Str) (scopes : List Nat) :
    (moU m).localIndex name scopes = m.localIndex name scopes := by
  induction scopes with
  | nil => rfl
  | cons s rest ih => rw [localIndex, localIndex, localsAt_u, ih]

theorem localLookup_u (m : Module) (i : Nat) : (moU m).localLookup i = m.localLookup i := by
  unfold localLookup
  rw [lineAt_u]
  cases m.lines[i]? <;> rfl

theorem lookup_u (m : Module) (scopes : List Nat) (e : Ctx) : (moU m).lookup scopes e = m.lookup scopes e := by
  funext id
  unfold Module.lookup
  simp only [localIndex_u, localLookup_u]
  rfl

theorem isLocal_u (m : Module) (scopes : List Nat) : (moU m).isLocal scopes = m.isLocal scopes := by
  funext id
  unfold Module.isLocal
  simp only [localIndex_u]
  rfl

/-! ## Loading -/

theorem addLocal_u (ls : List Line) (i : Nat) (name : Str) (t : Nat) :
    addLocal (ls.map liU) i name t = (addLocal ls i name t).map liU := by
  unfold addLocal
  induction ls generalizing i with
  | nil => simp
  | cons l ls ih =>
    cases i with
    | zero => simp [liU]
    | succ i => simp [ih]

theorem addLabel_u (m : Module) (scopes : List Nat) (l : ParsedLabel) (t : Nat) :
    (moU m).addLabel scopes l t = moU <$> m.addLabel scopes l t := by
  unfold addLabel
  generalize (if l.exported then [] else scopes) = sc
  cases sc with
  | nil => exact ite_ren Iff.rfl (fun _ => rfl) fun _ => rfl
  | cons s rest =>
    simp only
    rw [localsAt_u]
    show (if HMap.has (m.localsAt s) l.name then Res.err .duplicateLabel
      else .ok { moU m with lines := addLocal (m.lines.map liU) s l.name t }) = _
    rw [addLocal_u]
    exact ite_ren Iff.rfl (fun _ => rfl) fun _ => rfl

theorem addLabels_u (scopes : List Nat) (t : Nat) : ∀ (ls : List ParsedLabel) (m : Module),
    (moU m).addLabels scopes t ls = moU <$> m.addLabels scopes t ls := by
  intro ls
  induction ls with
  | nil => intro m; rfl
  | cons l ls ih =>
    intro m
    rw [addLabels, addLabels]
    exact bind_ren (addLabel_u m scopes l t) fun m => ih m

theorem loadDirective_u (ld : Loading) (i : Nat) (d : Directive) :
    loadDirective (ldU ld) i d = ldU <$> loadDirective ld i d := by
  unfold loadDirective
  refine ite_ren Iff.rfl (fun _ => ?_) fun _ => ?_
  · refine ite_ren Iff.rfl (fun _ => rfl) fun _ => ?_
    cases d.argument.simpleIdentifier <;> rfl
  refine ite_ren Iff.rfl (fun _ => rfl) fun _ => ?_
  refine ite_ren Iff.rfl (fun _ => ?_) fun _ => rfl
  show (match ld.scopes with
    | [] => Res.err .unclosedScope
    | _ :: rest => .ok { ldU ld with scopes := rest }) = _
  cases ld.scopes <;> rfl

theorem loadStatement_u (ld : Loading) (st : Statement) :
    loadStatement (ldU ld) (stU st) = ldU <$> loadStatement ld st := by
  unfold loadStatement
  have h1 : (ldU ld).m.lines.length = ld.m.lines.length := List.length_map ..
  have h2 : ({ (ldU ld).m with lines := (ldU ld).m.lines ++ [newLine (stU st) (ldU ld).pending (ldU ld).scopes] } : Module) =
      moU { ld.m with lines := ld.m.lines ++ [newLine st ld.pending ld.scopes] } := by
    simp [ldU, moU, newLine, liU]
  simp only [h1, h2]
  refine bind_ren (addLabels_u ld.scopes _ ld.pending _) fun m => ?_
  cases st with
  | instr i => rfl
  | dir d => exact loadDirective_u ⟨m, [], ld.scopes⟩ _ d

theorem loadItems_u : ∀ (items : List Item) (ld : Loading),
    loadItems (ldU ld) (items.map itU) = ldU <$> loadItems ld items := by
  intro items
  induction items with
  | nil => intro ld; rfl
  | cons it items ih =>
    intro ld
    cases it with
    | label l =>
      rw [List.map_cons, loadItems, itU, loadItems, ← ih]
      rfl
    | stmt st =>
      rw [List.map_cons, loadItems, itU, loadItems]
      exact bind_ren (loadStatement_u ld st) fun ld => ih ld

theorem dependencies_u (m : Module) : (moU m).dependencies = m.dependencies := by
  unfold dependencies
  show (m.lines.map liU).flatMap _ = _
  rw [List.flatMap_map]
  congr 1
  funext l
  simp only [isLocal_u]
  show (match stU l.statement with
    | .dir d => if d.name = DirectiveName.equ then d.argument.externalNames (m.isLocal l.scopes) else []
    | .instr _ => []) = _
  cases l.statement <;> rfl

theorem finishLoad_u (ld : Loading) : finishLoad (ldU ld) = moU <$> finishLoad ld := by
  unfold finishLoad
  show (match ld.scopes with
    | _ :: _ => Res.err .unclosedScope
    | [] => .ok { moU ld.m with deps := (moU ld.m).dependencies }) = _
  cases ld.scopes with
  | cons _ _ => rfl
  | nil => rw [dependencies_u]; rfl

/-! ## Second pass -/

theorem setValue_u (m : Module) (i : Nat) (v : Int) : (moU m).setValue i v = moU (m.setValue i v) := by
  have : ∀ (ls : List Line) (i : Nat), (ls.map liU).modify i (fun l : Line => { l with value := some v }) =
      (ls.modify i (fun l : Line => { l with value := some v })).map liU := by
    intro ls
    induction ls with
    | nil => intro i; simp
    | cons l ls ih =>
      intro i
      cases i with
      | zero => simp [liU]
      | succ i => simp [ih]
  simp [setValue, moU, this]

theorem evalEqu_u (e : Ctx) (m : Module) (i : Nat) (l : Line) :
    evalEqu e (moU m) i (liU l) = moU <$> evalEqu e m i l := by
  unfold evalEqu
  show (match stU l.statement with
    | .instr _ => Res.ok (moU m)
    | .dir d =>
      if d.name = DirectiveName.equ ∧ l.value.isNone then do
        let v ← d.argument.eval ((moU m).lookup l.scopes e)
        .ok ((moU m).setValue i v)
      else .ok (moU m)) = _
  cases l.statement with
  | instr _ => rfl
  | dir d =>
    refine ite_ren Iff.rfl (fun _ => ?_) fun _ => rfl
    rw [lookup_u]
    refine test_ren rfl fun v => ?_
    rw [setValue_u]; rfl

theorem secondLoop_u (e : Ctx) : ∀ (n i : Nat) (m : Module), secondLoop e n i (moU m) = moU <$> secondLoop e n i m := by
  intro n
  induction n with
  | zero => intro i m; rfl
  | succ n ih =>
    intro i m
    rw [secondLoop, secondLoop, lineAt_u]
    cases m.lines[i]? with
    | none => rfl
    | some l => exact bind_ren (evalEqu_u e m i l) fun m => ih _ m

theorem runSecondPass_u (e : Ctx) (m : Module) : (moU m).runSecondPass e = moU <$> m.runSecondPass e := by
  unfold runSecondPass
  have : (moU m).lines.length = m.lines.length := List.length_map ..
  rw [this]
  exact secondLoop_u e _ _ m

/-! ## Assembly -/

theorem noteTarget_u (l : Line) : noteTarget (liU l) = noteTarget l := by
  funext o
  unfold noteTarget
  show (match stU l.statement with
    | .dir _ => Res.ok o
    | .instr i => do
      let source ← toAddress l.value
      match ← i.farBranchTarget source with
      | none => .ok o
      | some t => .ok { o with targets := addTarget o.targets t l.incoming.flags }) = _
  cases l.statement <;> rfl

theorem writeLine_u {σ : Type} (c : Ctx) (l : Line) (sink : Sink σ) (s : σ) (o : Out) :
    writeLine (liU l) c sink s o = writeLine l c sink s o := by
  unfold writeLine
  simp only [liU, assemble_u, size_u]

theorem assembleLine_u {σ : Type} (e : Ctx) (m : Module) (sink : Sink σ) (l : Line) (s : σ) (o : Out) :
    (moU m).assembleLine e sink (liU l) s o = m.assembleLine e sink l s o := by
  unfold assembleLine
  rw [noteTarget_u, lookup_u]
  have hs : (liU l).statement.serializedSize = l.statement.serializedSize := size_u l.statement
  simp only [hs, writeLine_u]
  cases h : l.statement with
  | instr i =>
    have hd : (liU l).statement = .instr (unsized i) := by simp [liU, h, stU]
    simp only [hd]
    rfl
  | dir d =>
    have hd : (liU l).statement = .dir d := by simp [liU, h, stU]
    simp only [hd]
    rfl

theorem assembleLines_u {σ : Type} (e : Ctx) (m : Module) (sink : Sink σ) : ∀ (ls : List Line) (s : σ) (o : Out),
    (moU m).assembleLines e sink (ls.map liU) s o = m.assembleLines e sink ls s o := by
  intro ls
  induction ls with
  | nil => intro s o; rfl
  | cons l ls ih =>
    intro s o
    rw [List.map_cons, assembleLines, assembleLines, assembleLine_u]
    rcases m.assembleLine e sink l s o with ⟨s', x⟩
    cases x with
    | ok o' => exact ih s' o'
    | err _ => rfl
    | ub _ => rfl

theorem nameAddresses_u (m : Module) : ∀ (gs : List (Str × Nat)) (names : HMap Nat Str),
    (moU m).nameAddresses names gs = m.nameAddresses names gs := by
  intro gs
  induction gs with
  | nil => intro names; rfl
  | cons g gs ih =>
    intro names
    rw [nameAddresses, nameAddresses, lineAt_u]
    simp only [ih]
    cases m.lines[g.2]? <;> rfl

theorem moduleAssemble_u {σ : Type} (e : Ctx) (m : Module) (sink : Sink σ) (s : σ) :
    (moU m).assemble e sink s = ((m.assemble e sink s).1, moU <$> (m.assemble e sink s).2) := by
  unfold Module.assemble
  show (let (s, x) := (moU m).assembleLines e sink (m.lines.map liU) s ⟨m.owned, m.targets, m.conventions⟩
    (s, do
      let o ← x
      let names ← (moU m).nameAddresses m.addrNames m.globals
      Res.ok { moU m with owned := o.owned, targets := o.targets, conventions := o.conventions, addrNames := names })) = _
  rw [assembleLines_u, nameAddresses_u]
  rcases m.assembleLines e sink m.lines s ⟨m.owned, m.targets, m.conventions⟩ with ⟨s', x⟩
  cases x with
  | ok o =>
    simp only [Res.bind_ok]
    cases m.nameAddresses m.addrNames m.globals <;> rfl
  | err _ => rfl
  | ub _ => rfl

theorem valueForName_u (m : Module) (id : FullId) : (moU m).valueForName id = m.valueForName id := by
  unfold valueForName
  simp only [localLookup_u]
  rfl

/-! ## The assembler -/

open Assembler

theorem consider_u (o : Assembler.Ordering) (i : Nat) (m : Module) : consider o i (moU m) = consider o i m := rfl

theorem round_u : ∀ (ms : List Module) (o : Assembler.Ordering) (i : Nat), round o i (ms.map moU) = round o i ms := by
  intro ms
  induction ms with
  | nil => intro o i; rfl
  | cons m ms ih =>
    intro o i
    rw [List.map_cons, round, round, consider_u]
    simp only [ih]

theorem orderLoop_u (ms : List Module) : ∀ (n : Nat) (o : Assembler.Ordering), orderLoop (ms.map moU) n o = orderLoop ms n o := by
  intro n
  induction n with
  | zero => intro o; rfl
  | succ n ih =>
    intro o
    rw [orderLoop, orderLoop, List.length_map, round_u]
    simp only [ih]

theorem findAssemblyOrder_u (ms : List Module) : findAssemblyOrder (ms.map moU) = findAssemblyOrder ms := by
  unfold findAssemblyOrder
  rw [List.length_map, orderLoop_u]

theorem linkLookup_u (ms : List Module) (names : HMap FullId Nat) :
    Assembler.lookup (ms.map moU) names = Assembler.lookup ms names := by
  funext id
  unfold Assembler.lookup
  cases id.module.isNone with
  | true => rfl
  | false =>
    simp only [Bool.false_eq_true, if_false]
    cases names.find id with
    | none => rfl
    | some i =>
      simp only [List.getElem?_map]
      cases ms[i]? with
      | none => rfl
      | some m => exact valueForName_u m id

theorem secondPasses_u (names : HMap FullId Nat) : ∀ (is : List Nat) (ms : List Module),
    secondPasses names (ms.map moU) is = List.map moU <$> secondPasses names ms is := by
  intro is
  induction is with
  | nil => intro ms; rfl
  | cons i is ih =>
    intro ms
    rw [secondPasses, secondPasses, List.getElem?_map, linkLookup_u]
    cases ms[i]? with
    | none => rfl
    | some m =>
      refine bind_ren (runSecondPass_u _ m) fun m => ?_
      rw [← ih, List.map_set]

/-- An assembler that has seen no suffixes. -/
def asU (a : Assembler) : Assembler := { a with modules := a.modules.map moU }

theorem finalPasses_u {σ : Type} (sink : Sink σ) : ∀ (is : List Nat) (a : Assembler) (s : σ),
    finalPasses sink (asU a) is s = ((finalPasses sink a is s).1, asU <$> (finalPasses sink a is s).2) := by
  intro is
  induction is with
  | nil => intro a s; rfl
  | cons i is ih =>
    intro a s
    rw [finalPasses, finalPasses]
    have : (asU a).modules[i]? = a.modules[i]?.map moU := List.getElem?_map ..
    rw [this]
    cases a.modules[i]? with
    | none => rfl
    | some m =>
      have hl : Assembler.lookup (asU a).modules (asU a).names = Assembler.lookup a.modules a.names := linkLookup_u a.modules a.names
      simp only [Option.map_some, hl, moduleAssemble_u]
      rcases m.assemble (Assembler.lookup a.modules a.names) sink s with ⟨s', x⟩
      cases x with
      | err _ => rfl
      | ub _ => rfl
      | ok m' =>
        simp only [Res.map_ok]
        show (match a.memory.insert m'.owned i with
          | (_, false) => (s', Res.err .overlap)
          | (memory, true) =>
            finalPasses sink { asU a with modules := (asU a).modules.set i (moU m'), memory := memory } is s') = _
        rcases a.memory.insert m'.owned i with ⟨mem, b⟩
        cases b with
        | false => rfl
        | true =>
          simp only
          rw [← ih]
          simp [asU, List.map_set]

theorem addTargets_u (a : Assembler) : ∀ (ts : List (Nat × StatusFlags)) (ret : OMap StatusFlags),
    (asU a).addTargets ret ts = a.addTargets ret ts := by
  intro ts
  induction ts with
  | nil => intro ret; rfl
  | cons t ts ih =>
    intro ret
    rw [addTargets, addTargets, ih, ih]
    rfl

theorem answers_u (a : Assembler) : EqualAnswers a (asU a) where
  memory := rfl
  lookup := linkLookup_u a.modules a.names
  jumpTargets := by
    unfold jumpTargets
    show (a.modules.map moU).foldl _ [] = _
    rw [List.foldl_map]
    congr 1
    funext ret m
    exact addTargets_u a _ _
  conventions := by
    unfold jumpTargetReturnConventions
    show (a.modules.map moU).foldl _ [] = _
    rw [List.foldl_map]
    rfl
  names := by
    intro x
    unfold Assembler.nameForAddress
    show (a.modules.map moU).findSome? _ = _
    rw [List.findSome?_map]
    rfl

theorem answers_of_u {a b : Assembler} (h : asU a = asU b) : EqualAnswers a b := by
  have ha := answers_u a
  have hb := answers_u b
  rw [h] at ha
  exact ⟨hb.memory.symm.trans ha.memory, hb.lookup.symm.trans ha.lookup, hb.jumpTargets.symm.trans ha.jumpTargets,
    hb.conventions.symm.trans ha.conventions, fun x => (hb.names x).symm.trans (ha.names x)⟩

/-! ## First pass -/

/-- The first result complains about a suffix, or both are alike. -/
inductive Weak {α β : Type} (R : α → β → Prop) : Res α → Res β → Prop
  | suffix {e : Err} {y : Res β} (h : IsSuffixError e) : Weak R (.err e) y
  | ok {a : α} {b : β} (h : R a b) : Weak R (.ok a) (.ok b)
  | err (e : Err) : Weak R (.err e) (.err e)
  | ub (u : Ub) : Weak R (.ub u) (.ub u)

theorem Weak.bind {α β γ δ : Type} {R : α → β → Prop} {S : γ → δ → Prop} {x : Res α} {y : Res β} {f : α → Res γ} {g : β → Res δ}
    (h : Weak R x y) (hf : ∀ a b, R a b → Weak S (f a) (g b)) : Weak S (x >>= f) (y >>= g) := by
  cases h with
  | suffix h => exact .suffix h
  | ok h => exact hf _ _ h
  | err e => exact .err e
  | ub u => exact .ub u

theorem Weak.refl {α : Type} {R : α → α → Prop} (hR : ∀ a, R a a) (x : Res α) : Weak R x x := by
  cases x with
  | ok a => exact .ok (hR a)
  | err e => exact .err e
  | ub u => exact .ub u

theorem Weak.mono {α β : Type} {R S : α → β → Prop} {x : Res α} {y : Res β} (h : Weak R x y) (hs : ∀ a b, R a b → S a b) :
    Weak S x y := by
  cases h with
  | suffix h => exact .suffix h
  | ok h => exact .ok (hs _ _ h)
  | err e => exact .err e
  | ub u => exact .ub u

theorem weak_of_map {α β : Type} {f : α → β} {x y : Res α} (h : f <$> x = f <$> y) : Weak (fun a b => f a = f b) x y := by
  cases x with
  | ok a =>
    cases y with
    | ok b => exact .ok (Res.ok.inj h)
    | err _ => cases h
    | ub _ => cases h
  | err e =>
    cases y with
    | ok b => cases h
    | err _ => cases h; exact .err e
    | ub _ => cases h
  | ub e =>
    cases y with
    | ok b => cases h
    | err _ => cases h
    | ub _ => cases h; exact .ub e

theorem checkSuffix_u (i : Instruction) (eff : Mnemonic) (f : StatusFlags) :
    Weak Eq (i.checkSuffix eff f) ((unsized i).checkSuffix eff f) := by
  have : (unsized i).checkSuffix eff f = .ok () := rfl
  rw [this]
  unfold Instruction.checkSuffix
  split
  · exact .ok rfl
  split
  · exact .suffix (.inl rfl)
  · dsimp only
    generalize (if flagControllingInstructionSize eff = .usesM then f.m else f.x) = b
    by_cases h1 : b = .on ∧ i.suffix = .w
    · rw [if_pos h1]; exact .suffix (.inr rfl)
    rw [if_neg h1]
    by_cases h2 : b = .off ∧ i.suffix = .b
    · rw [if_pos h2]; exact .suffix (.inr rfl)
    · rw [if_neg h2]; exact .ok rfl

theorem checkConsistency_u (i : Instruction) (f : StatusFlags) :
    Weak Eq (i.checkConsistency f) ((unsized i).checkConsistency f) := by
  unfold Instruction.checkConsistency
  show Weak Eq (if (!isLegalCombination (if i.mnemonic = .padd ∨ i.mnemonic = .psub then Mnemonic.adc else i.mnemonic) i.mode) = true
      then _ else _)
    (if (!isLegalCombination (if i.mnemonic = .padd ∨ i.mnemonic = .psub then Mnemonic.adc else i.mnemonic) i.mode) = true
      then _ else _)
  generalize (!isLegalCombination (if i.mnemonic = .padd ∨ i.mnemonic = .psub then Mnemonic.adc else i.mnemonic) i.mode) = b
  cases b with
  | true => exact .err _
  | false => exact (checkSuffix_u i _ f).bind fun _ _ _ => Weak.refl (fun _ => rfl) _

theorem execute_u (i : Instruction) (es : ExecutionState) (c : Ctx) :
    Weak Eq (i.execute es c) ((unsized i).execute es c) := by
  unfold Instruction.execute
  exact (checkConsistency_u i es.flags).bind fun _ _ _ => Weak.refl (fun _ => rfl) _

theorem executeBranch_u (i : Instruction) (es : ExecutionState) :
    Weak Eq (i.executeBranch es) ((unsized i).executeBranch es) := by
  unfold Instruction.executeBranch
  refine (execute_u i es nullCtx).bind fun a b h => ?_
  subst h
  exact Weak.refl (fun _ => rfl) _

/-- The second statement is the first, or the first without its suffix. -/
def Plainer (st st' : Statement) : Prop := st' = st ∨ st' = stU st

theorem stExecute_u {st st' : Statement} (h : Plainer st st') (es : ExecutionState) :
    Weak Eq (st.execute es) (st'.execute es) := by
  rcases h with h | h
  · subst h; exact Weak.refl (fun _ => rfl) _
  · subst h
    cases st with
    | instr i => exact execute_u i es nullCtx
    | dir d => exact Weak.refl (fun _ => rfl) _

theorem Plainer.stU {st st' : Statement} (h : Plainer st st') : stU st' = stU st := by
  rcases h with h | h
  · rw [h]
  · subst h; cases st <;> rfl

theorem seeds_u : ∀ (ls : List Line) (w : OMap ExecutionState) (i : Nat), seeds w i (ls.map liU) = seeds w i ls := by
  intro ls
  induction ls with
  | nil => intro w i; rfl
  | cons l ls ih =>
    intro w i
    rw [List.map_cons, seeds, seeds]
    show (match stU l.statement with
      | .dir d => if d.name = DirectiveName.entry then seeds (addWork w (i + 1) (.init d.flags)) (i + 1) (ls.map liU)
        else seeds w (i + 1) (ls.map liU)
      | .instr _ => seeds w (i + 1) (ls.map liU)) = _
    cases l.statement with
    | instr i => exact ih _ _
    | dir d => simp only [stU, ih]

/-- The lines are the same but for suffixes that the second lack. -/
def PlainerLines (ls ls' : List Line) : Prop :=
  ls'.map liU = ls.map liU ∧ ∀ (k : Nat) (l l' : Line), ls[k]? = some l → ls'[k]? = some l' → Plainer l.statement l'.statement

theorem branchWork_u {m m' : Module} (hm : moU m' = moU m) {l l' : Line} (hl : liU l' = liU l)
    (h : Plainer l.statement l'.statement) (st : ExecutionState) (w : OMap ExecutionState) :
    Weak Eq (m.branchWork l st w) (m'.branchWork l' st w) := by
  have hi : ∀ n sc, m'.localIndex n sc = m.localIndex n sc := fun n sc => by
    rw [← localIndex_u m', hm, localIndex_u]
  have hs : l'.scopes = l.scopes := congrArg Line.scopes (a₁ := liU l') (a₂ := liU l) hl
  unfold branchWork
  simp only [hi, hs]
  rcases h with h | h
  · rw [h]; exact Weak.refl (fun _ => rfl) _
  · rw [h]
    cases l.statement with
    | dir d => exact .ok rfl
    | instr i =>
      show Weak Eq (if (!i.isLocalBranch) = true then _ else _) (if (!i.isLocalBranch) = true then _ else _)
      split
      · exact .ok rfl
      · show Weak Eq _ (match i.arg1.simpleIdentifier with
          | none => .err .other
          | some target =>
            match m.localIndex target l.scopes with
            | none => .err .undefinedName
            | some t => do
                let next ← (unsized i).executeBranch st
                .ok (addWork w t next))
        cases i.arg1.simpleIdentifier with
        | none => exact .err _
        | some n =>
          dsimp only
          cases m.localIndex n l.scopes with
          | none => exact .err _
          | some t =>
            refine (executeBranch_u i st).bind fun a b h => ?_
            subst h
            exact .ok rfl

/-- The states of the analysis of two modules that differ in suffixes. -/
def PlainerPass (p p' : Pass) : Prop := PlainerLines p.lines p'.lines ∧ p'.work = p.work

theorem visit_u {m m' : Module} (hm : moU m' = moU m) {p p' : Pass} (hp : PlainerPass p p') (k : Nat) {l l' : Line}
    (hl : liU l' = liU l) (h : Plainer l.statement l'.statement) (st : ExecutionState) :
    Weak PlainerPass (m.visit p k l st) (m'.visit p' k l' st) := by
  unfold visit
  refine (stExecute_u h st).bind fun n n' hn => ?_
  subst hn
  have he : l'.statement.isExitInstruction = l.statement.isExitInstruction := by
    rw [← exit_u l'.statement, h.stU, exit_u]
  simp only [he, hp.2]
  refine (branchWork_u hm hl h st _).bind fun w w' hw => ?_
  subst hw
  refine .ok ⟨⟨?_, ?_⟩, rfl⟩
  · have hr : liU (reach l' st) = liU (reach l st) := by
      show ({ liU l' with reached := true, incoming := st } : Line) = { liU l with reached := true, incoming := st }
      rw [hl]
    show (p'.lines.set k (reach l' st)).map liU = (p.lines.set k (reach l st)).map liU
    rw [List.map_set, List.map_set, hr, hp.1.1]
  · intro j a a' ha ha'
    simp only [List.getElem?_set] at ha ha'
    by_cases hj : k = j
    · subst hj
      simp only [if_true] at ha ha'
      split at ha <;> [skip; cases ha]
      split at ha' <;> [skip; cases ha']
      cases ha; cases ha'
      exact h
    · rw [if_neg hj] at ha ha'
      exact hp.1.2 j a a' ha ha'

theorem step_u {m m' : Module} (hm : moU m' = moU m) {p p' : Pass} (hp : PlainerPass p p') :
    Weak (fun a b => (a = none ∧ b = none) ∨ ∃ q q', a = some q ∧ b = some q' ∧ PlainerPass q q') (m.step p) (m'.step p') := by
  unfold step
  have hlen : p'.lines.length = p.lines.length := by
    have := congrArg List.length hp.1.1
    simpa using this
  rw [hp.2]
  cases hw : p.work with
  | nil => exact .ok (.inl ⟨rfl, rfl⟩)
  | cons x rest =>
    obtain ⟨k, st⟩ := x
    simp only [hlen]
    split
    · exact .err _
    have hk := congrArg (fun ls : List Line => ls[k]?) hp.1.1
    simp only [List.getElem?_map] at hk
    cases hl : p.lines[k]? with
    | none =>
      rw [hl] at hk
      cases hl' : p'.lines[k]? with
      | none => exact .ub _
      | some l' => rw [hl'] at hk; cases hk
    | some l =>
      rw [hl] at hk
      cases hl' : p'.lines[k]? with
      | none => rw [hl'] at hk; cases hk
      | some l' =>
        rw [hl'] at hk
        have hk : liU l' = liU l := Option.some.inj hk
        have h1 : l'.reached = l.reached := congrArg Line.reached (a₁ := liU l') (a₂ := liU l) hk
        have h2 : l'.incoming = l.incoming := congrArg Line.incoming (a₁ := liU l') (a₂ := liU l) hk
        simp only [h1, h2]
        split
        · exact .ok (.inr ⟨_, _, rfl, rfl, hp.1, rfl⟩)
        · refine (visit_u hm hp k hk (hp.1.2 k l l' hl hl') st).bind fun q q' hq => ?_
          exact .ok (.inr ⟨q, q', rfl, rfl, hq⟩)

theorem explore_u {m m' : Module} (hm : moU m' = moU m) : ∀ (n : Nat) {p p' : Pass}, PlainerPass p p' →
    Weak PlainerPass (m.explore n p) (m'.explore n p') := by
  intro n
  induction n with
  | zero => intro p p' _; exact .err _
  | succ n ih =>
    intro p p' hp
    rw [explore, explore]
    refine (step_u hm hp).bind fun a b h => ?_
    rcases h with ⟨rfl, rfl⟩ | ⟨q, q', rfl, rfl, hq⟩
    · exact .ok hp
    · exact ih hq

theorem fixLines_u : ∀ ls : List Line, fixLines (ls.map liU) = List.map liU <$> fixLines ls := by
  intro ls
  induction ls with
  | nil => rfl
  | cons l ls ih =>
    rw [List.map_cons, fixLines, fixLines]
    show (match stU l.statement with
      | .dir _ => do
          let ls ← fixLines (ls.map liU)
          Res.ok (liU l :: ls)
      | .instr i =>
          if !l.reached then .err .unreached
          else do
            let i ← i.fixAddressingMode l.incoming.flags
            let ls ← fixLines (ls.map liU)
            .ok ({ liU l with statement := .instr i } :: ls)) = _
    cases hs : l.statement with
    | dir d => exact bind_ren ih fun _ => rfl
    | instr i =>
      refine ite_ren Iff.rfl (fun _ => rfl) fun _ => ?_
      refine bind_ren (fix_u i _) fun j => ?_
      exact bind_ren ih fun _ => rfl

theorem originAt_u (pc : Option Addr) (st : Statement) : originAt pc (stU st) = originAt pc st := by
  cases st <;> rfl

theorem layout_u : ∀ (ls : List Line) (pc : Option Addr), layout pc (ls.map liU) = List.map liU <$> layout pc ls := by
  intro ls
  induction ls with
  | nil => intro pc; rfl
  | cons l ls ih =>
    intro pc
    rw [List.map_cons, layout, layout]
    refine test_ren (originAt_u pc l.statement) fun o => ?_
    have hs : (liU l).statement.serializedSize = l.statement.serializedSize := size_u l.statement
    have hd : (liU l).statement.isDir .equ = l.statement.isDir .equ := isDir_u _ _
    cases o with
    | none =>
      simp only [hs]
      refine ite_ren Iff.rfl (fun _ => rfl) fun _ => ?_
      exact bind_ren (ih none) fun _ => rfl
    | some a =>
      simp only [hs, hd]
      refine bind_ren (ih _) fun ls => ?_
      cases l.statement.isDir .equ <;> rfl

/-- The modules are the same but for suffixes that the second lacks. -/
def PlainerModule (m m' : Module) : Prop := moU m' = moU m ∧ PlainerLines m.lines m'.lines

theorem runFirstPass_u (fuel : Nat) {m m' : Module} (h : PlainerModule m m') :
    Weak (fun a b => moU a = moU b) (m.runFirstPass fuel) (m'.runFirstPass fuel) := by
  unfold runFirstPass
  have hs : seeds [] 0 m'.lines = seeds [] 0 m.lines := by
    rw [← seeds_u m'.lines, h.2.1, seeds_u]
  rw [hs]
  refine (explore_u h.1 fuel (p := ⟨m.lines, seeds [] 0 m.lines⟩) (p' := ⟨m'.lines, seeds [] 0 m.lines⟩) ⟨h.2, rfl⟩).bind fun p p' hp => ?_
  refine (weak_of_map (f := List.map liU) (x := fixLines p.lines) (y := fixLines p'.lines)
    (by rw [← fixLines_u, ← fixLines_u, hp.1.1])).bind fun ls ls' hl => ?_
  refine (weak_of_map (f := List.map liU) (x := layout none ls) (y := layout none ls')
    (by rw [← layout_u, ← layout_u, hl])).bind fun ls ls' hl => ?_
  refine .ok ?_
  show ({ moU m with lines := ls.map liU } : Module) = { moU m' with lines := ls'.map liU }
  rw [hl, h.1]

/-! ## The files -/

theorem unsized_items {items items' : List Item} (h : List.Forall₂ Unsized items items') :
    items'.map itU = items.map itU ∧ List.Forall₂ Plainer (Shift.stmtsOf items) (Shift.stmtsOf items') := by
  induction h with
  | nil => exact ⟨rfl, .nil⟩
  | @cons it it' _ _ hx _ ih =>
    cases hx with
    | same =>
      refine ⟨by rw [List.map_cons, List.map_cons, ih.1], ?_⟩
      cases it with
      | label l => exact ih.2
      | stmt st => exact .cons (.inl rfl) ih.2
    | removed i =>
      refine ⟨by rw [List.map_cons, List.map_cons, ih.1]; rfl, ?_⟩
      exact .cons (.inr rfl) ih.2

theorem forall₂_get {α β : Type} {R : α → β → Prop} {l : List α} {l' : List β} (h : List.Forall₂ R l l') :
    ∀ (k : Nat) (a : α) (b : β), l[k]? = some a → l'[k]? = some b → R a b := by
  induction h with
  | nil => intro k a b ha; simp at ha
  | cons hx _ ih =>
    intro k a b ha hb
    cases k with
    | zero => simp at ha hb; subst ha; subst hb; exact hx
    | succ k => simp at ha hb; exact ih k a b ha hb

theorem load_u {f f' : List Str} (h : SuffixesRemoved f f') : Weak PlainerModule (loadAsmFile f) (loadAsmFile f') := by
  obtain ⟨items, items', hf, hf', hi⟩ := h
  obtain ⟨h1, h2⟩ := unsized_items hi
  have hu : ∀ (items : List Item), (loadItems ⟨empty, [], []⟩ (items.map itU) >>= finishLoad) =
      moU <$> (loadItems ⟨empty, [], []⟩ items >>= finishLoad) := fun items =>
    bind_ren (loadItems_u items ⟨empty, [], []⟩) fun ld => finishLoad_u ld
  have e : loadAsmFile f = loadItems ⟨empty, [], []⟩ items >>= finishLoad := by
    unfold loadAsmFile; rw [Shift.loadLines_items hf]
  have e' : loadAsmFile f' = loadItems ⟨empty, [], []⟩ items' >>= finishLoad := by
    unfold loadAsmFile; rw [Shift.loadLines_items hf']
  have hw : Weak (fun a b => moU a = moU b) (loadAsmFile f) (loadAsmFile f') :=
    weak_of_map (by rw [e, e', ← hu, ← hu, h1])
  have hk : ∀ m m', loadAsmFile f = .ok m → loadAsmFile f' = .ok m' → moU m = moU m' → PlainerModule m m' := by
    intro m m' hm hm' hw
    refine ⟨hw.symm, congrArg Module.lines hw.symm, fun k l l' hl hl' => forall₂_get h2 k _ _ ?_ ?_⟩
    · rw [← Shift.loaded_stmts hf hm, List.getElem?_map, hl]; rfl
    · rw [← Shift.loaded_stmts hf' hm', List.getElem?_map, hl']; rfl
  generalize loadAsmFile f = x at hw hk
  generalize loadAsmFile f' = y at hw hk
  cases hw with
  | suffix h => exact .suffix h
  | err e => exact .err e
  | ub u => exact .ub u
  | ok hw => exact .ok (hk _ _ rfl rfl hw)

theorem plainer_refl (m : Module) : PlainerModule m m := ⟨rfl, rfl, fun k l l' h h' => by
  rw [h] at h'; cases h'; exact .inl rfl⟩

theorem loadAll_u {fs fs' : List (List Str)} (h : List.Forall₂ (fun f f' => f' = f ∨ SuffixesRemoved f f') fs fs') :
    Weak (List.Forall₂ PlainerModule) (loadAll fs) (loadAll fs') := by
  induction h with
  | nil => exact .ok .nil
  | cons hf _ ih =>
    rw [loadAll, loadAll]
    refine Weak.bind (R := PlainerModule) ?_ fun m m' hm => ?_
    · rcases hf with rfl | hf
      · exact Weak.refl plainer_refl _
      · exact load_u hf
    · exact ih.bind fun ms ms' hms => .ok (.cons hm hms)

theorem plainer_all {ms ms' : List Module} (h : List.Forall₂ PlainerModule ms ms') : ms'.map moU = ms.map moU := by
  induction h with
  | nil => rfl
  | cons hx _ ih => rw [List.map_cons, List.map_cons, ih, hx.1]

theorem order_nodup {ms : List Module} {o : Assembler.Ordering} (h : findAssemblyOrder ms = .ok o) : o.order.Nodup := by
  unfold findAssemblyOrder at h
  rcases orderLoop_cases (ms.length + 1) ⟨[], []⟩ (orderInv_init ms) (by simp) with ⟨o', h1, h2, -⟩ | h1 | ⟨h1, -⟩
  · rw [h1] at h; cases h; exact h2.nodup
  · rw [h1] at h; cases h
  · rw [h1] at h; cases h

theorem firstPasses_u (fuel : Nat) : ∀ (is : List Nat) (ms ms' : List Module), is.Nodup → ms'.map moU = ms.map moU →
    (∀ i ∈ is, ∀ m m', ms[i]? = some m → ms'[i]? = some m' → PlainerModule m m') →
    Weak (fun a b => b.map moU = a.map moU) (firstPasses fuel ms is) (firstPasses fuel ms' is) := by
  intro is
  induction is with
  | nil => intro ms ms' _ h _; exact .ok h
  | cons i is ih =>
    intro ms ms' hnd h hp
    have hi := congrArg (fun l : List Module => l[i]?) h
    simp only [List.getElem?_map] at hi
    rw [firstPasses, firstPasses]
    cases hm : ms[i]? with
    | none =>
      rw [hm] at hi
      cases hm' : ms'[i]? with
      | none => exact .ub _
      | some m' => rw [hm'] at hi; cases hi
    | some m =>
      rw [hm] at hi
      cases hm' : ms'[i]? with
      | none => rw [hm'] at hi; cases hi
      | some m' =>
        refine (runFirstPass_u fuel (hp i List.mem_cons_self m m' hm hm')).bind fun n n' hn => ?_
        refine ih _ _ (List.nodup_cons.mp hnd).2 ?_ ?_
        · rw [List.map_set, List.map_set, h, hn]
        · intro j hj a b ha hb
          have hne : i ≠ j := fun hij => (List.nodup_cons.mp hnd).1 (hij ▸ hj)
          rw [List.getElem?_set_ne hne] at ha hb
          exact hp j (List.mem_cons_of_mem _ hj) a b ha hb

theorem prepare_u (fuel : Nat) {ms ms' : List Module} (h : List.Forall₂ PlainerModule ms ms') :
    Weak (fun a b => asU b.1 = asU a.1 ∧ b.2 = a.2) (prepare fuel ms) (prepare fuel ms') := by
  have hU := plainer_all h
  unfold prepare
  have ho : findAssemblyOrder ms' = findAssemblyOrder ms := by
    rw [← findAssemblyOrder_u ms', hU, findAssemblyOrder_u]
  rw [ho]
  cases hf : findAssemblyOrder ms with
  | err e => exact .err e
  | ub u => exact .ub u
  | ok o =>
    simp only [Res.bind_ok]
    refine (firstPasses_u fuel o.order ms ms' (order_nodup hf) hU ?_).bind fun n n' hn => ?_
    · intro i _ m m' hm hm'
      exact forall₂_get h i m m' hm hm'
    · refine (weak_of_map (f := List.map moU) (x := secondPasses o.exported n o.order) (y := secondPasses o.exported n' o.order)
        (by rw [← secondPasses_u, ← secondPasses_u, hn])).bind fun q q' hq => ?_
      refine .ok ⟨?_, rfl⟩
      simp only [asU, hq]

/-- Without some of the suffixes everything happens as with them, unless a suffix is complained about. -/
theorem assembleFiles_u {σ : Type} (fuel : Nat) {fs fs' : List (List Str)}
    (h : List.Forall₂ (fun f f' => f' = f ∨ SuffixesRemoved f f') fs fs') (sink : Sink σ) (s : σ) :
    (∃ e, IsSuffixError e ∧ assembleFiles fuel fs sink s = (s, .err e)) ∨
    ((assembleFiles fuel fs' sink s).1 = (assembleFiles fuel fs sink s).1 ∧
      SameOutcome (assembleFiles fuel fs sink s).2 (assembleFiles fuel fs' sink s).2) := by
  have hl := loadAll_u h
  unfold assembleFiles
  generalize loadAll fs = x at hl
  generalize loadAll fs' = y at hl
  cases hl with
  | suffix he => exact .inl ⟨_, he, rfl⟩
  | err e => exact .inr ⟨rfl, .err e⟩
  | ub u => exact .inr ⟨rfl, .ub u⟩
  | @ok ms ms' hms =>
  have hp := prepare_u fuel hms
  simp only
  unfold Assembler.assemble
  generalize prepare fuel ms = x at hp
  generalize prepare fuel ms' = y at hp
  cases hp with
  | suffix he => exact .inl ⟨_, he, rfl⟩
  | err e => exact .inr ⟨rfl, .err e⟩
  | ub u => exact .inr ⟨rfl, .ub u⟩
  | @ok a b hab =>
  obtain ⟨a, order⟩ := a
  obtain ⟨b, order'⟩ := b
  obtain ⟨h1, h2⟩ := hab
  simp only at h1 h2
  subst h2
  right
  have ha := finalPasses_u sink order' a s
  have hb := finalPasses_u sink order' b s
  rw [h1, ha] at hb
  have e1 := congrArg Prod.fst hb
  have e2 := congrArg Prod.snd hb
  simp only at e1 e2
  refine ⟨e1.symm, ?_⟩
  simp only
  generalize (finalPasses sink a order' s).2 = x at e2
  generalize (finalPasses sink b order' s).2 = y at e2
  cases x with
  | ok a => cases y with
    | ok b => exact .ok (answers_of_u (Res.ok.inj e2))
    | err _ => cases e2
    | ub _ => cases e2
  | err e => cases y with
    | ok b => cases e2
    | err _ => cases e2; exact .err e
    | ub _ => cases e2
  | ub e => cases y with
    | ok b => cases e2
    | err _ => cases e2
    | ub _ => cases e2; exact .ub e

end Nsasm.Sized
