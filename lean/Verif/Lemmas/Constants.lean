import Verif.Spec.Constants
import Verif.Lemmas.Unused
import Verif.Lemmas.Loader

/-! # Programs that differ in values only: loading and the first pass -/

namespace Nsasm.Values
open Spec Parse

variable {o : Bool}

/-- A statement without the values that do not matter, or, if `o` says so, without an origin. -/
def blank (o : Bool) : Statement → Statement
  | .instr i => if o = false ∧ Quiet i then .instr { i with arg1 := .null, arg2 := .null } else .instr i
  | .dir d =>
      if (o = false ∧ d.name = .equ) ∨ (o = true ∧ d.name = .org) then .dir { d with argument := .null }
      else if o = false ∧ d.name ∈ [DirectiveName.db, .dw, .dl] then .dir { d with list := d.list.map fun _ => .null }
      else .dir d

theorem blank_alike {st st' : Statement} (h : Revalued st st') : blank false st = blank false st' := by
  cases h with
  | same => rfl
  | constant d e hd => simp [blank, hd]
  | data d es hd hl =>
    have hne : ¬ ((false = false ∧ d.name = .equ) ∨ (false = true ∧ d.name = .org)) := by
      rintro (⟨-, h⟩ | ⟨h, -⟩)
      · rw [h] at hd; simp at hd
      · cases h
    have : d.list.map (fun _ => Expr.null) = es.map fun _ => Expr.null := by
      rw [List.map_const', List.map_const', hl]
    unfold blank
    dsimp only
    rw [if_neg hne, if_neg hne, if_pos ⟨rfl, hd⟩, if_pos ⟨rfl, hd⟩, this]
  | operand i e e' hq =>
    have hq' : Quiet { i with arg1 := e, arg2 := e' } := hq
    simp only [blank, hq, hq', and_self, if_true]

def blankItem (o : Bool) : Item → Item
  | .label l => .label l
  | .stmt st => .stmt (blank o st)

def blankLine (o : Bool) (l : Line) : Line := { l with statement := blank o l.statement }

def blankModule (o : Bool) (m : Module) : Module := { m with lines := m.lines.map (blankLine o), deps := [] }

def blankLoading (o : Bool) (ld : Module.Loading) : Module.Loading := { ld with m := blankModule o ld.m }

theorem localsAt_blank (m : Module) (i : Nat) : (blankModule o m).localsAt i = m.localsAt i := by
  unfold Module.localsAt
  show (match (m.lines.map (blankLine o))[i]? with | some l => l.locals | none => []) = _
  rw [List.getElem?_map]
  cases m.lines[i]? <;> rfl

theorem localIndex_blank (m : Module) (name : Str) (scopes : List Nat) :
    (blankModule o m).localIndex name scopes = m.localIndex name scopes :=
  localIndex_congr (m := blankModule o m) (m' := m) rfl (localsAt_blank m) name scopes

theorem addLocal_blank (ls : List Line) (i : Nat) (name : Str) (t : Nat) :
    (Module.addLocal ls i name t).map (blankLine o) = Module.addLocal (ls.map (blankLine o)) i name t := by
  unfold Module.addLocal
  induction ls generalizing i with
  | nil => simp
  | cons l ls ih =>
    cases i with
    | zero => simp [blankLine]
    | succ i => simp [ih]

theorem addLabel_blank (m : Module) (scopes : List Nat) (l : ParsedLabel) (t : Nat) :
    (blankModule o m).addLabel scopes l t = (blankModule o) <$> m.addLabel scopes l t := by
  unfold Module.addLabel
  generalize (if l.exported then [] else scopes) = sc
  cases sc with
  | nil => exact ite_ren Iff.rfl (fun _ => rfl) fun _ => rfl
  | cons s rest =>
    simp only
    rw [localsAt_blank]
    refine ite_ren Iff.rfl (fun _ => rfl) fun _ => ?_
    show Res.ok { blankModule o m with lines := Module.addLocal (m.lines.map (blankLine o)) s l.name t } = _
    rw [← addLocal_blank]; rfl

theorem addLabels_blank (scopes : List Nat) (t : Nat) : ∀ (ls : List ParsedLabel) (m : Module),
    (blankModule o m).addLabels scopes t ls = (blankModule o) <$> m.addLabels scopes t ls := by
  intro ls
  induction ls with
  | nil => intro m; rfl
  | cons l ls ih =>
    intro m
    rw [Module.addLabels, Module.addLabels]
    exact bind_ren (addLabel_blank m scopes l t) fun m => ih m

theorem blank_dir (d : Directive) : ∃ d', blank o (.dir d) = .dir d' ∧ d'.name = d.name ∧
    (d.name ≠ .equ → (o = true → d.name ≠ .org) → d'.argument = d.argument) ∧ d'.flags = d.flags ∧ d'.ret = d.ret ∧ d'.list.length = d.list.length := by
  unfold blank
  simp only
  split
  · rename_i h; exact ⟨_, rfl, rfl, fun hc ho => (h.elim (fun h => hc h.2) fun h => ho h.1 h.2).elim, rfl, rfl, rfl⟩
  · split
    · exact ⟨_, rfl, rfl, fun _ _ => rfl, rfl, rfl, by simp⟩
    · exact ⟨_, rfl, rfl, fun _ _ => rfl, rfl, rfl, rfl⟩

theorem blank_instr (i : Instruction) : ∃ e e', blank o (.instr i) = .instr { i with arg1 := e, arg2 := e' } ∧
    ((o = false ∧ Quiet i) ∨ (e = i.arg1 ∧ e' = i.arg2)) := by
  unfold blank
  simp only
  split
  · rename_i h; exact ⟨_, _, rfl, .inl h⟩
  · exact ⟨i.arg1, i.arg2, rfl, .inr ⟨rfl, rfl⟩⟩

theorem loadDirective_blank (ld : Module.Loading) (i : Nat) {d d' : Directive} (hn : d'.name = d.name)
    (ha : d.name = .module_ → d'.argument = d.argument) :
    Module.loadDirective (blankLoading o ld) i d' = (blankLoading o) <$> Module.loadDirective ld i d := by
  unfold Module.loadDirective
  rw [hn]
  refine ite_ren Iff.rfl (fun h => ?_) fun _ => ?_
  · refine ite_ren Iff.rfl (fun _ => rfl) fun _ => ?_
    rw [ha h]
    cases d.argument.simpleIdentifier <;> rfl
  refine ite_ren Iff.rfl (fun _ => rfl) fun _ => ?_
  refine ite_ren Iff.rfl (fun _ => ?_) fun _ => rfl
  show (match ld.scopes with
    | [] => Res.err .unclosedScope
    | _ :: rest => .ok { blankLoading o ld with scopes := rest }) = _
  cases ld.scopes <;> rfl

theorem loadStatement_blank (ld : Module.Loading) (st : Statement) :
    Module.loadStatement (blankLoading o ld) (blank o st) = (blankLoading o) <$> Module.loadStatement ld st := by
  unfold Module.loadStatement
  have h1 : (blankLoading o ld).m.lines.length = ld.m.lines.length := List.length_map ..
  have h2 : ({ (blankLoading o ld).m with lines := (blankLoading o ld).m.lines ++ [Module.newLine (blank o st) (blankLoading o ld).pending (blankLoading o ld).scopes] } : Module) =
      blankModule o { ld.m with lines := ld.m.lines ++ [Module.newLine st ld.pending ld.scopes] } := by
    simp [blankLoading, blankModule, Module.newLine, blankLine]
  simp only [h1, h2]
  refine bind_ren (addLabels_blank ld.scopes _ ld.pending _) fun m => ?_
  cases st with
  | instr i =>
    obtain ⟨e, e', he, -⟩ := blank_instr i
    rw [he]; rfl
  | dir d =>
    obtain ⟨d', he, hn, ha, -⟩ := blank_dir d
    rw [he]
    exact loadDirective_blank ⟨m, [], ld.scopes⟩ _ hn fun h => ha (by rw [h]; decide) fun _ => by rw [h]; decide

theorem loadItems_blank : ∀ (items : List Item) (ld : Module.Loading),
    Module.loadItems (blankLoading o ld) (items.map (blankItem o)) = (blankLoading o) <$> Module.loadItems ld items := by
  intro items
  induction items with
  | nil => intro ld; rfl
  | cons it items ih =>
    intro ld
    cases it with
    | label l =>
      rw [List.map_cons, Module.loadItems, blankItem, Module.loadItems, ← ih]
      rfl
    | stmt st =>
      rw [List.map_cons, Module.loadItems, blankItem, Module.loadItems]
      exact bind_ren (loadStatement_blank ld st) fun ld => ih ld

theorem items_blank {its its' : List Item} (h : List.Forall₂ RevaluedItem its its') : its.map (blankItem false) = its'.map (blankItem false) := by
  induction h with
  | nil => rfl
  | cons h _ ih =>
    rw [List.map_cons, List.map_cons, ih]
    cases h with
    | label => rfl
    | stmt h => simp only [blankItem, blank_alike h]

/-- Two lines that are the same but for what does not matter. -/
def LikeLine (o : Bool) (l l' : Str) : Prop :=
  ∃ ts its ts' its', tokenize l = .ok ts ∧ Parse.parse ts = .ok its ∧ tokenize l' = .ok ts' ∧ Parse.parse ts' = .ok its' ∧
    its.map (blankItem o) = its'.map (blankItem o)

def LikeFile (o : Bool) : List Str → List Str → Prop := List.Forall₂ (LikeLine o)

theorem like_of_revalued {f f' : List Str} (h : RevaluedFile f f') : LikeFile false f f' := by
  refine List.Forall₂.imp ?_ h
  rintro l l' ⟨ts, its, ts', its', h1, h2, h3, h4, h5⟩
  exact ⟨ts, its, ts', its', h1, h2, h3, h4, items_blank h5⟩

theorem loadLines_blank {f f' : List Str} (h : LikeFile o f f') : ∀ {ld ld' : Module.Loading}, blankLoading o ld = blankLoading o ld' →
    (blankLoading o) <$> Module.loadLines ld f = (blankLoading o) <$> Module.loadLines ld' f' := by
  induction h with
  | nil => intro ld ld' h; show Res.ok _ = Res.ok _; rw [h]
  | cons hl _ ih =>
    intro ld ld' h
    obtain ⟨ts, its, ts', its', h1, h2, h3, h4, h5⟩ := hl
    rw [Module.loadLines, Module.loadLines, h1, h3, Res.bind_ok, Res.bind_ok, h2, h4, Res.bind_ok, Res.bind_ok]
    have : (blankLoading o) <$> Module.loadItems ld its = (blankLoading o) <$> Module.loadItems ld' its' := by
      rw [← loadItems_blank, ← loadItems_blank, h, h5]
    cases hx : Module.loadItems ld its <;> cases hy : Module.loadItems ld' its' <;> rw [hx, hy] at this <;> try cases this
    · rename_i a b
      rw [Res.bind_ok, Res.bind_ok]
      exact ih (Res.ok.inj this)
    · rfl
    · rfl

theorem loadAsmFile_blank {f f' : List Str} (h : LikeFile o f f') :
    (blankModule o) <$> Module.loadAsmFile f = (blankModule o) <$> Module.loadAsmFile f' := by
  unfold Module.loadAsmFile
  have := loadLines_blank h (ld := ⟨.empty, [], []⟩) rfl
  cases hx : Module.loadLines ⟨.empty, [], []⟩ f <;> cases hy : Module.loadLines ⟨.empty, [], []⟩ f' <;>
    rw [hx, hy] at this <;> try cases this
  · rename_i a b
    have he := Res.ok.inj this
    rw [Res.bind_ok, Res.bind_ok]
    unfold Module.finishLoad
    have hs : (blankLoading o a).scopes = (blankLoading o b).scopes := by rw [he]
    have hm : (blankLoading o a).m = (blankLoading o b).m := by rw [he]
    change a.scopes = b.scopes at hs
    change blankModule o a.m = blankModule o b.m at hm
    rw [hs]
    cases b.scopes with
    | cons => rfl
    | nil => show Res.ok (blankModule o a.m) = Res.ok (blankModule o b.m); rw [hm]
  · rfl
  · rfl

/-! ## First pass -/

def blankPass (o : Bool) (p : Module.Pass) : Module.Pass := { p with lines := p.lines.map (blankLine o) }

theorem quiet_execute {i : Instruction} (hq : Quiet i) (e e' : Expr) (es : ExecutionState) :
    ({ i with arg1 := e, arg2 := e' } : Instruction).execute es nullCtx = i.execute es nullCtx := by
  obtain ⟨-, h2, h3⟩ := hq
  simp only [List.mem_cons, List.not_mem_nil, or_false, not_or] at h2
  obtain ⟨n1, n2, n3, n4, n5⟩ := h2
  have hl : i.mnemonic ∈ [Mnemonic.lda, .ldx, .ldy] →
      ({ i with arg1 := e, arg2 := e' } : Instruction).executeLoad es nullCtx = i.executeLoad es nullCtx := by
    intro hm
    have h := h3 hm
    simp only [List.mem_cons, List.not_mem_nil, or_false, not_or] at h
    unfold Instruction.executeLoad
    rw [if_neg, if_neg] <;> simp [h.1, h.2.1, h.2.2.1, h.2.2.2]
  unfold Instruction.execute
  show (i.checkConsistency es.flags >>= _) = _
  simp only [n1, n2, n3, n4, n5, or_self, if_false]
  congr 1
  funext _
  repeat' (first | rfl | exact hl ‹_› | (refine ite_congr rfl (fun hc => ?_) fun _ => ?_))

theorem execute_blank (st : Statement) (es : ExecutionState) : (blank o st).execute es = st.execute es := by
  cases st with
  | instr i =>
    obtain ⟨e, e', he, ⟨-, hq⟩ | ⟨rfl, rfl⟩⟩ := blank_instr i
    · rw [he]; exact quiet_execute hq e e' es
    · rw [he]
  | dir d =>
    obtain ⟨d', he, hn, ha, hf, -⟩ := blank_dir d
    rw [he]
    show d'.execute es = d.execute es
    unfold Directive.execute
    rw [hn, hf]

theorem isExit_blank (st : Statement) : (blank o st).isExitInstruction = st.isExitInstruction := by
  cases st with
  | instr i =>
    obtain ⟨e, e', he, -⟩ := blank_instr i
    rw [he]; rfl
  | dir d =>
    obtain ⟨d', he, hn, -⟩ := blank_dir d
    rw [he]
    show d'.isExitInstruction = d.isExitInstruction
    unfold Directive.isExitInstruction
    rw [hn]

theorem size_blank (st : Statement) : (blank o st).serializedSize = st.serializedSize := by
  cases st with
  | instr i =>
    obtain ⟨e, e', he, -⟩ := blank_instr i
    rw [he]; rfl
  | dir d =>
    obtain ⟨d', he, hn, -, -, -, hl⟩ := blank_dir d
    rw [he]
    show d'.serializedSize = d.serializedSize
    unfold Directive.serializedSize
    rw [hn, hl]

theorem isDir_blank (st : Statement) (n : DirectiveName) : (blank o st).isDir n = st.isDir n := by
  cases st with
  | instr i =>
    obtain ⟨e, e', he, -⟩ := blank_instr i
    rw [he]; rfl
  | dir d =>
    obtain ⟨d', he, hn, -⟩ := blank_dir d
    rw [he]
    show decide (d'.name = n) = decide (d.name = n)
    rw [hn]

theorem originAt_blank (pc : Option Addr) (st : Statement) : Module.originAt pc (blank false st) = Module.originAt pc st := by
  cases st with
  | instr i =>
    obtain ⟨e, e', he, -⟩ := blank_instr i
    rw [he]; rfl
  | dir d =>
    obtain ⟨d', he, hn, ha, -⟩ := blank_dir d
    rw [he]
    unfold Module.originAt
    simp only [hn]
    by_cases h : d.name = .org
    · rw [if_pos h, if_pos h, ha (by rw [h]; decide) (by simp)]
    · rw [if_neg h, if_neg h]

theorem seeds_blank : ∀ (ls : List Line) (w : OMap ExecutionState) (i : Nat),
    Module.seeds w i (ls.map (blankLine o)) = Module.seeds w i ls := by
  intro ls
  induction ls with
  | nil => intro w i; rfl
  | cons l ls ih =>
    intro w i
    rw [List.map_cons, Module.seeds, Module.seeds]
    simp only [ih]
    show (match blank o l.statement with | .dir d => _ | .instr _ => _) = _
    cases hs : l.statement with
    | instr i =>
      obtain ⟨e, e', he, -⟩ := blank_instr i
      rw [he]
    | dir d =>
      obtain ⟨d', he, hn, ha, hf, -⟩ := blank_dir d
      rw [he]
      simp only [hn, hf]

theorem branchWork_blank (m : Module) (l : Line) (st : ExecutionState) (w : OMap ExecutionState) :
    (blankModule o m).branchWork (blankLine o l) st w = m.branchWork l st w := by
  unfold Module.branchWork
  show (match blank o l.statement with
    | .dir _ => Res.ok w
    | .instr i =>
      if !i.isLocalBranch then .ok w
      else match i.arg1.simpleIdentifier with
        | none => .err .other
        | some target =>
          match (blankModule o m).localIndex target l.scopes with
          | none => .err .undefinedName
          | some t => do
              let next ← i.executeBranch st
              .ok (Module.addWork w t next)) = _
  simp only [localIndex_blank]
  cases hs : l.statement with
  | dir d =>
    obtain ⟨d', he, -⟩ := blank_dir d
    rw [he]
  | instr i =>
    obtain ⟨e, e', he, ⟨-, hq⟩ | ⟨rfl, rfl⟩⟩ := blank_instr i
    · rw [he]
      have hb : i.isLocalBranch = false := by
        unfold Instruction.isLocalBranch
        have := hq.1
        by_cases hp : i.mnemonic = .per
        · simp [hp]
        · have h' : ¬ (i.mode = .rel8 ∨ i.mode = .rel16) := fun h => hp (this h)
          simp only [not_or] at h'
          simp [h'.1, h'.2]
      have hb' : ({ i with arg1 := e, arg2 := e' } : Instruction).isLocalBranch = false := hb
      simp only [hb, hb']
      rfl
    · rw [he]
      cases i; rfl

theorem visit_blank (m : Module) (p : Module.Pass) (k : Nat) (l : Line) (st : ExecutionState) :
    (blankModule o m).visit (blankPass o p) k (blankLine o l) st = (blankPass o) <$> m.visit p k l st := by
  unfold Module.visit
  refine test_ren (execute_blank _ _) fun next => ?_
  have he : (blankLine o l).statement.isExitInstruction = l.statement.isExitInstruction := isExit_blank _
  rw [he]
  refine test_ren (branchWork_blank m l st _) fun w => ?_
  simp [blankPass, Module.reach, blankLine, List.map_set]

theorem step_blank (m : Module) (p : Module.Pass) :
    (blankModule o m).step (blankPass o p) = Option.map (blankPass o) <$> m.step p := by
  unfold Module.step
  show (match p.work with
    | [] => Res.ok none
    | (k, state) :: rest =>
      if k = (p.lines.map (blankLine o)).length then .err .pastEndOfFile
      else match (p.lines.map (blankLine o))[k]? with
        | none => .ub .outOfBounds
        | some line =>
          if line.reached ∧ line.incoming = state then .ok (some { blankPass o p with work := rest })
          else do
            let p ← (blankModule o m).visit (blankPass o p) k line state
            .ok (some p)) = _
  cases p.work with
  | nil => rfl
  | cons x rest =>
    simp only [List.length_map, List.getElem?_map]
    refine ite_ren Iff.rfl (fun _ => rfl) fun _ => ?_
    cases hl : p.lines[x.1]? with
    | none => rfl
    | some l =>
      simp only [Option.map_some]
      refine ite_ren Iff.rfl (fun _ => rfl) fun _ => ?_
      exact bind_ren (visit_blank m p x.1 l x.2) fun _ => rfl

theorem explore_blank (m : Module) : ∀ (k : Nat) (p : Module.Pass),
    (blankModule o m).explore k (blankPass o p) = (blankPass o) <$> m.explore k p := by
  intro k
  induction k with
  | zero => intro p; rfl
  | succ k ih =>
    intro p
    rw [Module.explore, Module.explore]
    refine bind_ren (step_blank m p) fun q => ?_
    cases q with
    | none => rfl
    | some q => exact ih q

theorem quiet_mode {i : Instruction} {f : StatusFlags} {j : Instruction} (h : i.fixAddressingMode f = .ok j) :
    Quiet j ↔ Quiet i := by
  unfold Instruction.fixAddressingMode at h
  split at h
  · rename_i hm
    split at h <;> cases h <;> rcases hm with hm | hm <;> simp [Quiet, hm]
  · cases h; exact Iff.rfl

theorem fix_blank (i : Instruction) (f : StatusFlags) (e e' : Expr) :
    ({ i with arg1 := e, arg2 := e' } : Instruction).fixAddressingMode f =
      (fun j : Instruction => { j with arg1 := e, arg2 := e' }) <$> i.fixAddressingMode f := by
  unfold Instruction.fixAddressingMode
  refine ite_ren Iff.rfl (fun _ => ?_) fun _ => rfl
  show (match (if i.mode = .imm_fm then f.m else f.x) with
    | .on => Res.ok ({ i with arg1 := e, arg2 := e', mode := .imm_b } : Instruction)
    | .off => .ok { i with arg1 := e, arg2 := e', mode := .imm_w }
    | _ => .err .flagUnknown) = _
  cases (if i.mode = .imm_fm then f.m else f.x) <;> rfl

theorem fixLines_blank : ∀ ls : List Line, Module.fixLines (ls.map (blankLine o)) = List.map (blankLine o) <$> Module.fixLines ls := by
  intro ls
  induction ls with
  | nil => rfl
  | cons l ls ih =>
    rw [List.map_cons, Module.fixLines, Module.fixLines]
    show (match blank o l.statement with
      | .dir _ => do
          let ls ← Module.fixLines (ls.map (blankLine o))
          Res.ok (blankLine o l :: ls)
      | .instr i =>
          if !l.reached then .err .unreached
          else do
            let i ← i.fixAddressingMode l.incoming.flags
            let ls ← Module.fixLines (ls.map (blankLine o))
            .ok ({ blankLine o l with statement := .instr i } :: ls)) = _
    cases hs : l.statement with
    | dir d =>
      obtain ⟨d', he, -⟩ := blank_dir d
      rw [he]
      exact bind_ren ih fun _ => rfl
    | instr i =>
      by_cases hq : o = false ∧ Quiet i
      · have he : blank o (.instr i) = .instr { i with arg1 := .null, arg2 := .null } := by simp [blank, hq]
        rw [he]
        refine ite_ren Iff.rfl (fun _ => rfl) fun _ => ?_
        refine Unused.bind_on (fix_blank i _ _ _) fun j hj => ?_
        refine bind_ren ih fun _ => ?_
        have hj' : blank o (.instr j) = .instr { j with arg1 := .null, arg2 := .null } := by simp [blank, hq.1, (quiet_mode hj).mpr hq.2]
        show Res.ok _ = Res.ok _
        simp only [List.map_cons, blankLine, hj']
      · have he : blank o (.instr i) = .instr i := by simp only [blank, if_neg hq]
        rw [he]
        refine ite_ren Iff.rfl (fun _ => rfl) fun _ => ?_
        refine Unused.bind_on (f := id) (by cases i.fixAddressingMode l.incoming.flags <;> rfl) fun j hj => ?_
        refine bind_ren ih fun _ => ?_
        have hj' : blank o (.instr j) = .instr j := by simp only [blank, quiet_mode hj, if_neg hq]
        show Res.ok _ = Res.ok _
        simp only [List.map_cons, blankLine, hj', id]

theorem layout_blank : ∀ (ls : List Line) (pc : Option Addr),
    Module.layout pc (ls.map (blankLine false)) = List.map (blankLine false) <$> Module.layout pc ls := by
  intro ls
  induction ls with
  | nil => intro pc; rfl
  | cons l ls ih =>
    intro pc
    rw [List.map_cons, Module.layout, Module.layout]
    have hsz : (blankLine false l).statement.serializedSize = l.statement.serializedSize := size_blank _
    have hd : (blankLine false l).statement.isDir .equ = l.statement.isDir .equ := isDir_blank _ _
    rw [hsz, hd]
    refine test_ren (originAt_blank pc l.statement) fun o => ?_
    cases o with
    | none =>
      refine ite_ren Iff.rfl (fun _ => rfl) fun _ => ?_
      exact bind_ren (ih none) fun _ => rfl
    | some a =>
      refine bind_ren (ih _) fun ls => ?_
      cases l.statement.isDir .equ <;> rfl

theorem runFirstPass_blank (fuel : Nat) (m : Module) :
    (blankModule false m).runFirstPass fuel = (blankModule false) <$> m.runFirstPass fuel := by
  unfold Module.runFirstPass
  have hs : Module.seeds [] 0 (blankModule false m).lines = Module.seeds [] 0 m.lines := seeds_blank _ _ _
  rw [hs]
  refine bind_ren (explore_blank m fuel ⟨m.lines, Module.seeds [] 0 m.lines⟩) fun p => ?_
  refine bind_ren (fixLines_blank p.lines) fun ls => ?_
  exact bind_ren (layout_blank ls none) fun _ => rfl

theorem firstPass_blank {f f' : List Str} (h : LikeFile false f f') (fuel : Nat) :
    ((blankModule false) <$> do let m ← Module.loadAsmFile f; m.runFirstPass fuel) =
      ((blankModule false) <$> do let m ← Module.loadAsmFile f'; m.runFirstPass fuel) := by
  have := loadAsmFile_blank h
  cases hx : Module.loadAsmFile f <;> cases hy : Module.loadAsmFile f' <;> rw [hx, hy] at this <;> try cases this
  · rename_i a b
    rw [Res.bind_ok, Res.bind_ok, ← runFirstPass_blank, ← runFirstPass_blank, Res.ok.inj this]
  · rfl
  · rfl

/-- What the first pass finds, but for the addresses, does not depend on what does not matter. -/
theorem firstPass_like {f f' : List Str} (h : LikeFile o f f') {fuel : Nat} {m₁ m₁' : Module}
    (h1 : (do let m ← Module.loadAsmFile f; m.runFirstPass fuel) = .ok m₁)
    (h1' : (do let m ← Module.loadAsmFile f'; m.runFirstPass fuel) = .ok m₁') :
    m₁'.name = m₁.name ∧ m₁'.globals = m₁.globals ∧
      m₁'.lines.map (fun l => valueless (blankLine o l)) = m₁.lines.map fun l => valueless (blankLine o l) := by
  obtain ⟨m, hm, h1⟩ := Res.bind_eq_ok.mp h1
  obtain ⟨m', hm', h1'⟩ := Res.bind_eq_ok.mp h1'
  have hb := loadAsmFile_blank h
  rw [hm, hm'] at hb
  have hb : blankModule o m = blankModule o m' := Res.ok.inj hb
  obtain ⟨p, l1, l2, he, hfix, hlay, rfl⟩ := firstPass_parts h1
  obtain ⟨p', l1', l2', he', hfix', hlay', rfl⟩ := firstPass_parts h1'
  refine ⟨(congrArg Module.name hb :).symm, (congrArg Module.globals hb :).symm, ?_⟩
  have e1 := explore_blank (o := o) m fuel ⟨m.lines, Module.seeds [] 0 m.lines⟩
  have e2 := explore_blank (o := o) m' fuel ⟨m'.lines, Module.seeds [] 0 m'.lines⟩
  have hl : m.lines.map (blankLine o) = m'.lines.map (blankLine o) := (congrArg Module.lines hb :)
  have hseed : Module.seeds [] 0 m.lines = Module.seeds [] 0 m'.lines := by
    rw [← seeds_blank (o := o) m.lines, hl, seeds_blank]
  have hp : blankPass o ⟨m.lines, Module.seeds [] 0 m.lines⟩ = blankPass o ⟨m'.lines, Module.seeds [] 0 m'.lines⟩ := by
    show Module.Pass.mk (m.lines.map (blankLine o)) _ = Module.Pass.mk (m'.lines.map (blankLine o)) _
    rw [hl, hseed]
  rw [he] at e1
  rw [he', ← hb, ← hp, e1] at e2
  have hpp : blankPass o p = blankPass o p' := Res.ok.inj e2
  have hpl : p.lines.map (blankLine o) = p'.lines.map (blankLine o) := (congrArg Module.Pass.lines hpp :)
  have f1 := fixLines_blank (o := o) p.lines
  have f2 := fixLines_blank (o := o) p'.lines
  rw [hfix] at f1
  rw [hfix', ← hpl, f1] at f2
  have hf : l1.map (blankLine o) = l1'.map (blankLine o) := Res.ok.inj f2
  have hv : ∀ {ls ls' : List Line}, List.Forall₂ LayRel ls ls' →
      ls'.map (fun l => valueless (blankLine o l)) = (ls.map (blankLine o)).map valueless := by
    intro ls ls' h
    induction h with
    | nil => rfl
    | cons h _ ih =>
      rw [List.map_cons, List.map_cons, List.map_cons, ih]
      unfold LayRel at h
      rw [h]; rfl
  show l2'.map _ = l2.map _
  rw [hv (layout_rel hlay), hv (layout_rel hlay'), hf]

/-! ## Deciding whether two files differ in values only -/

theorem revalued_of_blank {st st' : Statement} (h : blank false st = blank false st') : Revalued st st' := by
  cases st with
  | instr i =>
    obtain ⟨e1, e2, h1, hq⟩ := blank_instr i
    cases st' with
    | dir d =>
      obtain ⟨d', h2, -⟩ := blank_dir d
      rw [h1, h2] at h; cases h
    | instr j =>
      obtain ⟨e1', e2', h2, hq'⟩ := blank_instr j
      rw [h1, h2] at h
      have h := Statement.instr.inj h
      have hm := congrArg Instruction.mnemonic h
      have hs := congrArg Instruction.suffix h
      have ho := congrArg Instruction.mode h
      have hr := congrArg Instruction.ret h
      have ha := congrArg Instruction.arg1 h
      have hb := congrArg Instruction.arg2 h
      simp only at hm hs ho hr ha hb
      have hqq : Quiet i ↔ Quiet j := by simp only [Quiet, hm, ho]
      have hj : j = { i with arg1 := j.arg1, arg2 := j.arg2 } := by
        cases i; cases j; simp_all
      by_cases hi : Quiet i
      · rw [hj]; exact .operand i _ _ hi
      · obtain ⟨rfl, rfl⟩ := hq.resolve_left fun h => hi h.2
        obtain ⟨rfl, rfl⟩ := hq'.resolve_left fun h => hi (hqq.mpr h.2)
        rw [hj, ← ha, ← hb]; exact .same _
  | dir d =>
    cases st' with
    | instr j =>
      obtain ⟨e1', e2', h2, -⟩ := blank_instr j
      obtain ⟨d', h1, -⟩ := blank_dir d
      rw [h1, h2] at h; cases h
    | dir d' =>
      obtain ⟨c, h1, n1, -⟩ := blank_dir d
      obtain ⟨c', h2, n2, -⟩ := blank_dir d'
      have hcc : c = c' := by rw [h1, h2] at h; exact Statement.dir.inj h
      have hn : d'.name = d.name := by rw [← n1, ← n2, hcc]
      unfold blank at h
      simp only [hn] at h
      split at h
      · rename_i he
        have h := Statement.dir.inj h
        have : d' = { d with argument := d'.argument } := by
          cases d; cases d'; simp_all
        rw [this]; exact .constant d _ (he.resolve_right (by simp)).2
      · split at h
        · rename_i he
          have h := Statement.dir.inj h
          have hl := congrArg (fun d : Directive => d.list.length) h
          have : d' = { d with list := d'.list } := by
            cases d; cases d'; simp_all
          rw [this]; exact .data d _ he.2 (by simpa using hl.symm)
        · rw [h]; exact .same _

theorem items_of_blank : ∀ {its its' : List Item}, its.map (blankItem false) = its'.map (blankItem false) → List.Forall₂ RevaluedItem its its' := by
  intro its
  induction its with
  | nil =>
    intro its' h
    cases its' with
    | nil => exact .nil
    | cons => cases h
  | cons a its ih =>
    intro its' h
    cases its' with
    | nil => cases h
    | cons b its' =>
      rw [List.map_cons, List.map_cons] at h
      obtain ⟨h1, h2⟩ := List.cons.inj h
      refine .cons ?_ (ih h2)
      cases a <;> cases b
      · exact .stmt (revalued_of_blank (Item.stmt.inj h1))
      · cases h1
      · cases h1
      · cases h1; exact .label _

/-- The items of a line without the values. -/
def blankText (o : Bool) (line : Str) : Option (List Item) :=
  match tokenize line with
  | .ok ts => (match Parse.parse ts with | .ok its => some (its.map (blankItem o)) | _ => none)
  | _ => none

theorem line_of_blank {l l' : Str} (h : blankText false l = blankText false l') (hs : (blankText false l).isSome) : RevaluedLine l l' := by
  have hs' : (blankText false l').isSome := h ▸ hs
  unfold blankText at h hs hs'
  split at hs
  · rename_i ts h1
    split at hs
    · rename_i its h2
      split at hs'
      · rename_i ts' h3
        split at hs'
        · rename_i its' h4
          rw [h1, h3] at h
          simp only [h2, h4] at h
          exact ⟨ts, its, ts', its', h1, h2, h3, h4, items_of_blank (Option.some.inj h)⟩
        · cases hs'
      · cases hs'
    · cases hs
  · cases hs

/-- A test for two sets of files that differ in values only. -/
def revaluedTest (files files' : List (List Str)) : Bool :=
  files.map (List.map (blankText false)) = files'.map (List.map (blankText false)) ∧ ∀ f ∈ files, ∀ l ∈ f, (blankText false l).isSome

theorem forall2_of_map {α β : Type} {R : α → α → Prop} {g : α → β} : ∀ {xs ys : List α}, xs.map g = ys.map g →
    (∀ x ∈ xs, ∀ y, g x = g y → R x y) → List.Forall₂ R xs ys := by
  intro xs
  induction xs with
  | nil =>
    intro ys h _
    cases ys with
    | nil => exact .nil
    | cons => cases h
  | cons x xs ih =>
    intro ys h hR
    cases ys with
    | nil => cases h
    | cons y ys =>
      rw [List.map_cons, List.map_cons] at h
      obtain ⟨h1, h2⟩ := List.cons.inj h
      exact .cons (hR x (by simp) y h1) (ih h2 fun x hx => hR x (by simp [hx]))

theorem revalued_of_test {files files' : List (List Str)} (h : revaluedTest files files' = true) :
    List.Forall₂ RevaluedFile files files' := by
  unfold revaluedTest at h
  obtain ⟨h1, h2⟩ := of_decide_eq_true h
  exact forall2_of_map h1 fun f hf f' he => forall2_of_map he fun l hl l' hb => line_of_blank hb (h2 f hf l hl)

end Nsasm.Values
