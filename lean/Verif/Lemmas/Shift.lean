import Verif.Spec.Split
import Verif.Lemmas.Constants

/-! # A line more in a file: what the passes make of it -/

namespace Nsasm.Shift
open Spec Parse

/-- Where line `k` is when there is a new line `p`. -/
def sh (p k : Nat) : Nat := if k < p then k else k + 1

theorem sh_lt {p k : Nat} (h : k < p) : sh p k = k := if_pos h

theorem sh_ge {p k : Nat} (h : p ≤ k) : sh p k = k + 1 := if_neg (by omega)

theorem sh_mono {p j k : Nat} : sh p j < sh p k ↔ j < k := by unfold sh; split <;> split <;> omega

theorem sh_inj {p j k : Nat} : sh p j = sh p k ↔ j = k := by unfold sh; split <;> split <;> omega

theorem sh_succ {p k : Nat} (h : k + 1 ≠ p) : sh p (k + 1) = sh p k + 1 := by
  unfold sh; split <;> split <;> omega

/-- The entries of a table of lines. -/
def shMap {κ : Type} (p : Nat) (t : HMap κ Nat) : HMap κ Nat := t.map fun e => (e.1, sh p e.2)

theorem find_shMap {κ : Type} [DecidableEq κ] (p : Nat) (t : HMap κ Nat) (k : κ) :
    HMap.find (shMap p t) k = (HMap.find t k).map (sh p) := by
  induction t with
  | nil => rfl
  | cons e t ih =>
    show HMap.find ((e.1, sh p e.2) :: shMap p t) k = _
    rw [HMap.find, HMap.find, ih]
    split <;> rfl

theorem has_shMap {κ : Type} [DecidableEq κ] (p : Nat) (t : HMap κ Nat) (k : κ) :
    HMap.has (shMap p t) k = HMap.has t k := by
  unfold HMap.has
  rw [find_shMap]; simp

theorem insertNew_shMap {κ : Type} (p : Nat) (t : HMap κ Nat) (k : κ) (v : Nat) :
    shMap p (HMap.insertNew t k v) = HMap.insertNew (shMap p t) k (sh p v) := by
  simp [shMap, HMap.insertNew]

/-- The entries of the list of work. -/
def shWork (p : Nat) (w : OMap ExecutionState) : OMap ExecutionState := w.map fun e => (sh p e.1, e.2)

theorem addWork_sh (p : Nat) (w : OMap ExecutionState) (k : Nat) (st : ExecutionState) :
    Module.addWork (shWork p w) (sh p k) st = shWork p (Module.addWork w k st) := by
  unfold Module.addWork
  induction w with
  | nil => rfl
  | cons e w ih =>
    show OMap.upsert _ ((sh p e.1, e.2) :: shWork p w) (sh p k) st = _
    rw [OMap.upsert, OMap.upsert, ih]
    simp only [sh_mono, sh_inj]
    split
    · rfl
    · split <;> rfl

/-- A change of a statement that leaves instructions alone, and all of a directive but the list of its values. -/
structure Keeps (φ : Statement → Statement) : Prop where
  instr : ∀ i, φ (.instr i) = .instr i
  dir : ∀ d, ∃ es, φ (.dir d) = .dir { d with list := es }

/-- A line of the file, moved. -/
def shLine (p : Nat) (l : Line) : Line := { l with scopes := l.scopes.map (sh p), locals := shMap p l.locals }

def markLine (p : Nat) (φ : Statement → Statement) (l : Line) : Line :=
  { l with statement := φ l.statement, scopes := l.scopes.map (sh p), locals := shMap p l.locals }

/-- Line `k` of the lines, moved; the one before the new line is changed. -/
def at_ (p : Nat) (φ : Statement → Statement) (q k : Nat) (l : Line) : Line :=
  if k + 1 = q then markLine p φ l else shLine p l

/-- The lines with a new one at `q`. -/
def insAt (p : Nat) (φ : Statement → Statement) (nl : Line) : Nat → List Line → List Line
  | 0, ls => nl :: ls.map (shLine p)
  | _ + 1, [] => []
  | q + 1, l :: ls => (if q = 0 then markLine p φ l else shLine p l) :: insAt p φ nl q ls

variable {p : Nat} {φ : Statement → Statement} {nl : Line}

theorem insAt_length : ∀ {q : Nat} {ls : List Line}, q ≤ ls.length → (insAt p φ nl q ls).length = ls.length + 1
  | 0, ls, _ => by simp [insAt]
  | q + 1, [], h => by simp at h
  | q + 1, l :: ls, h => by
    rw [insAt, List.length_cons, List.length_cons, insAt_length (by simpa using h)]

theorem insAt_get : ∀ {q : Nat} {ls : List Line}, q ≤ ls.length → ∀ k,
    (insAt p φ nl q ls)[sh q k]? = (ls[k]?).map (at_ p φ q k)
  | 0, ls, _, k => by
    rw [sh_ge (Nat.zero_le _), insAt, List.getElem?_cons_succ, List.getElem?_map]
    cases ls[k]? with
    | none => rfl
    | some l => simp [at_]
  | q + 1, [], h, _ => by simp at h
  | q + 1, l :: ls, h, 0 => by
    rw [sh_lt (Nat.succ_pos _), insAt]
    simp only [List.getElem?_cons_zero, Option.map_some, at_]
    simp only [Nat.zero_add, Nat.right_eq_add]
  | q + 1, l :: ls, h, k + 1 => by
    have hs : sh (q + 1) (k + 1) = sh q k + 1 := by unfold sh; split <;> split <;> omega
    rw [hs, insAt, List.getElem?_cons_succ, List.getElem?_cons_succ, insAt_get (by simpa using h)]
    have : at_ p φ (q + 1) (k + 1) = at_ p φ q k := by funext l; simp [at_]
    rw [this]

theorem insAt_new : ∀ {q : Nat} {ls : List Line}, q ≤ ls.length → (insAt p φ nl q ls)[q]? = some nl
  | 0, ls, _ => by simp [insAt]
  | q + 1, [], h => by simp at h
  | q + 1, l :: ls, h => by
    rw [insAt, List.getElem?_cons_succ, insAt_new (by simpa using h)]

theorem insAt_modify {g g' : Line → Line} (q k : Nat) (h : ∀ l, at_ p φ q k (g l) = g' (at_ p φ q k l)) : ∀ (ls : List Line),
    q ≤ ls.length → insAt p φ nl q (ls.modify k g) = (insAt p φ nl q ls).modify (sh q k) g' := by
  induction q generalizing k with
  | zero =>
    intro ls _
    rw [sh_ge (Nat.zero_le _), insAt, insAt, List.modify_succ_cons]
    congr 1
    have h' : ∀ l, shLine p (g l) = g' (shLine p l) := by simpa [at_] using h
    apply List.ext_getElem?
    intro i
    rw [List.getElem?_map, List.getElem?_modify, List.getElem?_modify, List.getElem?_map]
    cases ls[i]? with
    | none => rfl
    | some l => by_cases hi : k = i <;> simp [hi, h']
  | succ q ih =>
    intro ls hls
    cases ls with
    | nil => simp at hls
    | cons l ls =>
      cases k with
      | zero =>
        rw [sh_lt (Nat.succ_pos _), insAt, List.modify_zero_cons, insAt, List.modify_zero_cons]
        have := h l
        simp only [at_, Nat.zero_add, Nat.right_eq_add] at this
        rw [this]
      | succ k =>
        have hs : sh (q + 1) (k + 1) = sh q k + 1 := by unfold sh; split <;> split <;> omega
        rw [hs, insAt, List.modify_succ_cons, insAt, List.modify_succ_cons]
        have h' : ∀ l, at_ p φ q k (g l) = g' (at_ p φ q k l) := by
          intro l
          have := h l
          simpa [at_] using this
        rw [ih k h' ls (by simpa using hls)]

theorem set_modify {α : Type} (ls : List α) (k : Nat) (x : α) : ls.set k x = ls.modify k fun _ => x := by
  rw [List.modify_eq_set_getElem?]
  cases h : ls[k]? with
  | none => exact List.set_eq_of_length_le (by simpa using h)
  | some y => rfl

theorem insAt_set (q k : Nat) (l : Line) {ls : List Line} (h : q ≤ ls.length) :
    insAt p φ nl q (ls.set k l) = (insAt p φ nl q ls).set (sh q k) (at_ p φ q k l) := by
  rw [set_modify, set_modify]
  exact insAt_modify (g := fun _ => l) (g' := fun _ => at_ p φ q k l) q k (fun _ => rfl) ls h

theorem insAt_append (l : Line) : ∀ {q : Nat} {ls : List Line}, q ≤ ls.length →
    insAt p φ nl q (ls ++ [l]) = insAt p φ nl q ls ++ [shLine p l]
  | 0, ls, _ => by simp [insAt]
  | q + 1, [], h => by simp at h
  | q + 1, x :: ls, h => by
    rw [List.cons_append, insAt, insAt, insAt_append l (by simpa using h), List.cons_append]

/-- The module with the new line. -/
def insModule (p : Nat) (φ : Statement → Statement) (nl : Line) (m : Module) : Module :=
  { m with lines := insAt p φ nl p m.lines, globals := shMap p m.globals }

@[simp] theorem at_locals (q k : Nat) (l : Line) : (at_ p φ q k l).locals = shMap p l.locals := by unfold at_; split <;> rfl
@[simp] theorem at_scopes (q k : Nat) (l : Line) : (at_ p φ q k l).scopes = l.scopes.map (sh p) := by unfold at_; split <;> rfl
@[simp] theorem at_value (q k : Nat) (l : Line) : (at_ p φ q k l).value = l.value := by unfold at_; split <;> rfl
@[simp] theorem at_reached (q k : Nat) (l : Line) : (at_ p φ q k l).reached = l.reached := by unfold at_; split <;> rfl
@[simp] theorem at_incoming (q k : Nat) (l : Line) : (at_ p φ q k l).incoming = l.incoming := by unfold at_; split <;> rfl
theorem at_statement (q k : Nat) (l : Line) :
    (at_ p φ q k l).statement = if k + 1 = q then φ l.statement else l.statement := by unfold at_; split <;> rfl

theorem localsAt_ins {m : Module} (h : p ≤ m.lines.length) (i : Nat) :
    (insModule p φ nl m).localsAt (sh p i) = shMap p (m.localsAt i) := by
  unfold Module.localsAt
  show (match (insAt p φ nl p m.lines)[sh p i]? with | some l => l.locals | none => []) = _
  rw [insAt_get h]
  cases m.lines[i]? with
  | none => rfl
  | some l => simp

theorem localIndex_ins {m : Module} (h : p ≤ m.lines.length) (name : Str) (scopes : List Nat) :
    (insModule p φ nl m).localIndex name (scopes.map (sh p)) = (m.localIndex name scopes).map (sh p) := by
  induction scopes with
  | nil => exact find_shMap p m.globals name
  | cons s r ih =>
    rw [List.map_cons, Module.localIndex, Module.localIndex, localsAt_ins h, find_shMap, ih]
    cases HMap.find (m.localsAt s) name <;> rfl

theorem localLookup_ins {m : Module} (h : p ≤ m.lines.length) (i : Nat) :
    (insModule p φ nl m).localLookup (sh p i) = m.localLookup i := by
  unfold Module.localLookup
  show (match (insAt p φ nl p m.lines)[sh p i]? with
    | some l => match l.value with | some v => Except.ok v | none => .error Err.noValue
    | none => .error Err.noValue) = _
  rw [insAt_get h]
  cases m.lines[i]? with
  | none => rfl
  | some l => simp only [Option.map_some, at_value]; cases l.value <;> rfl

theorem lookup_ins {m : Module} (h : p ≤ m.lines.length) (scopes : List Nat) (externs : Ctx) :
    (insModule p φ nl m).lookup (scopes.map (sh p)) externs = m.lookup scopes externs := by
  funext id
  unfold Module.lookup
  have hn : (insModule p φ nl m).name = m.name := rfl
  have h0 : ∀ n, (insModule p φ nl m).localIndex n [] = (m.localIndex n []).map (sh p) := fun n => localIndex_ins h n []
  simp only [hn, localIndex_ins h, h0]
  cases id.module with
  | none =>
    cases m.localIndex id.name scopes with
    | none => rfl
    | some i => exact localLookup_ins h i
  | some mod =>
    simp only
    split
    · cases m.localIndex id.name [] with
      | none => rfl
      | some i => exact localLookup_ins h i
    · rfl

theorem isLocal_ins {m : Module} (h : p ≤ m.lines.length) (scopes : List Nat) :
    (insModule p φ nl m).isLocal (scopes.map (sh p)) = m.isLocal scopes := by
  funext id
  unfold Module.isLocal
  have hn : (insModule p φ nl m).name = m.name := rfl
  have h0 : ∀ n, (insModule p φ nl m).localIndex n [] = (m.localIndex n []).map (sh p) := fun n => localIndex_ins h n []
  simp only [hn, localIndex_ins h, h0, Option.isSome_map]

/-! ## Loading -/

def insLoading (p : Nat) (φ : Statement → Statement) (nl : Line) (ld : Module.Loading) : Module.Loading :=
  ⟨insModule p φ nl ld.m, ld.pending, ld.scopes.map (sh p)⟩

theorem addLocal_ins {ls : List Line} (h : p ≤ ls.length) (s : Nat) (name : Str) (t : Nat) :
    insAt p φ nl p (Module.addLocal ls s name t) = Module.addLocal (insAt p φ nl p ls) (sh p s) name (sh p t) := by
  unfold Module.addLocal
  refine insAt_modify p s (fun l => ?_) ls h
  unfold at_
  split
  · simp only [markLine, insertNew_shMap]
  · simp only [shLine, insertNew_shMap]

theorem addLabel_ins {m : Module} (h : p ≤ m.lines.length) (scopes : List Nat) (l : ParsedLabel) (t : Nat) :
    (insModule p φ nl m).addLabel (scopes.map (sh p)) l (sh p t) = insModule p φ nl <$> m.addLabel scopes l t := by
  unfold Module.addLabel
  have hs : (if l.exported then [] else scopes.map (sh p)) = (if l.exported then [] else scopes).map (sh p) := by
    split <;> rfl
  rw [hs]
  cases (if l.exported then [] else scopes) with
  | nil =>
    simp only [List.map_nil]
    refine ite_ren (by rw [show (insModule p φ nl m).globals = shMap p m.globals from rfl, has_shMap]) (fun _ => rfl) fun _ => ?_
    show _ = Res.ok _
    congr 1
    simp only [insModule, insertNew_shMap]
  | cons s r =>
    simp only [List.map_cons]
    refine ite_ren (by rw [localsAt_ins h, has_shMap]) (fun _ => rfl) fun _ => ?_
    show _ = Res.ok _
    congr 1
    simp only [insModule, addLocal_ins h]

theorem addLabel_length {m m' : Module} {scopes : List Nat} {l : ParsedLabel} {t : Nat} (h : m.addLabel scopes l t = .ok m') :
    m'.lines.length = m.lines.length := by
  unfold Module.addLabel at h
  split at h <;> split at h <;> cases h
  · rfl
  · simp [Module.addLocal]

theorem addLabels_ins (scopes : List Nat) (t : Nat) : ∀ (ls : List ParsedLabel) {m : Module}, p ≤ m.lines.length →
    (insModule p φ nl m).addLabels (scopes.map (sh p)) (sh p t) ls = insModule p φ nl <$> m.addLabels scopes t ls := by
  intro ls
  induction ls with
  | nil => intro m _; rfl
  | cons l ls ih =>
    intro m h
    rw [Module.addLabels, Module.addLabels, addLabel_ins h]
    cases hm : m.addLabel scopes l t with
    | err e => rfl
    | ub u => rfl
    | ok m' => exact ih (by rw [addLabel_length hm]; exact h)

theorem addLabels_length (scopes : List Nat) (t : Nat) : ∀ (ls : List ParsedLabel) {m m' : Module},
    m.addLabels scopes t ls = .ok m' → m'.lines.length = m.lines.length := by
  intro ls
  induction ls with
  | nil => intro m m' h; cases h; rfl
  | cons l ls ih =>
    intro m m' h
    rw [Module.addLabels] at h
    obtain ⟨m1, h1, h⟩ := Res.bind_eq_ok.mp h
    rw [ih h, addLabel_length h1]

theorem loadDirective_ins (ld : Module.Loading) (i : Nat) (d : Directive) :
    Module.loadDirective (insLoading p φ nl ld) (sh p i) d = insLoading p φ nl <$> Module.loadDirective ld i d := by
  unfold Module.loadDirective
  refine ite_ren Iff.rfl (fun _ => ?_) fun _ => ?_
  · refine ite_ren Iff.rfl (fun _ => rfl) fun _ => ?_
    cases d.argument.simpleIdentifier <;> rfl
  refine ite_ren Iff.rfl (fun _ => ?_) fun _ => ?_
  · rfl
  refine ite_ren Iff.rfl (fun _ => ?_) fun _ => rfl
  show (match ld.scopes.map (sh p) with | [] => Res.err .unclosedScope | _ :: rest => .ok { insLoading p φ nl ld with scopes := rest }) = _
  cases ld.scopes <;> rfl

theorem loadDirective_length {ld ld' : Module.Loading} {i : Nat} {d : Directive} (h : Module.loadDirective ld i d = .ok ld') :
    ld'.m.lines = ld.m.lines := by
  unfold Module.loadDirective at h
  split at h
  · split at h
    · cases h
    · split at h <;> cases h; rfl
  · split at h
    · cases h; rfl
    · split at h
      · split at h <;> cases h; rfl
      · cases h; rfl

theorem loadStatement_ins {ld : Module.Loading} (h : p ≤ ld.m.lines.length) (st : Statement) :
    Module.loadStatement (insLoading p φ nl ld) st = insLoading p φ nl <$> Module.loadStatement ld st := by
  unfold Module.loadStatement
  have hlen : (insLoading p φ nl ld).m.lines.length = sh p ld.m.lines.length := by
    rw [sh_ge h]; exact insAt_length h
  have hline : Module.newLine st (insLoading p φ nl ld).pending (insLoading p φ nl ld).scopes
      = shLine p (Module.newLine st ld.pending ld.scopes) := rfl
  have hm : { (insLoading p φ nl ld).m with
      lines := (insLoading p φ nl ld).m.lines ++ [Module.newLine st (insLoading p φ nl ld).pending (insLoading p φ nl ld).scopes] }
      = insModule p φ nl { ld.m with lines := ld.m.lines ++ [Module.newLine st ld.pending ld.scopes] } := by
    rw [hline]
    simp only [insLoading, insModule, insAt_append _ h]
  simp only [hlen, hm]
  refine bind_ren (addLabels_ins ld.scopes ld.m.lines.length ld.pending (by simp; omega)) fun m => ?_
  cases st with
  | instr i => rfl
  | dir d => exact loadDirective_ins ⟨m, [], ld.scopes⟩ ld.m.lines.length d

theorem loadStatement_length {ld ld' : Module.Loading} {st : Statement} (h : Module.loadStatement ld st = .ok ld') :
    ld'.m.lines.length = ld.m.lines.length + 1 := by
  unfold Module.loadStatement at h
  obtain ⟨m, hm, h⟩ := Res.bind_eq_ok.mp h
  have := addLabels_length _ _ _ hm
  simp only [List.length_append, List.length_cons, List.length_nil] at this
  cases st with
  | instr i => cases h; exact this
  | dir d => rw [loadDirective_length h]; exact this

theorem loadItems_ins : ∀ (items : List Item) {ld : Module.Loading}, p ≤ ld.m.lines.length →
    Module.loadItems (insLoading p φ nl ld) items = insLoading p φ nl <$> Module.loadItems ld items := by
  intro items
  induction items with
  | nil => intro ld _; rfl
  | cons it items ih =>
    intro ld h
    cases it with
    | label l => exact ih (ld := { ld with pending := ld.pending ++ [l] }) h
    | stmt st =>
      rw [Module.loadItems, Module.loadItems, loadStatement_ins h]
      cases hs : Module.loadStatement ld st with
      | err e => rfl
      | ub u => rfl
      | ok ld' => exact ih (by rw [loadStatement_length hs]; omega)

/-- The new line adds no dependencies. -/
def NoDeps (nl : Line) : Prop := ∀ d, nl.statement = .dir d → d.name = .equ → ∀ f, d.argument.externalNames f = []

theorem dependencies_ins (hφ : Keeps φ) (hd : NoDeps nl) {m : Module} (h : p ≤ m.lines.length) :
    (insModule p φ nl m).dependencies = m.dependencies := by
  have key : ∀ (m' : Module) (scopes : Line → List Nat), (∀ l : Line, m'.isLocal (l.scopes.map (sh p)) = m.isLocal l.scopes) →
      ∀ (q : Nat) (ls : List Line), q ≤ ls.length →
      (insAt p φ nl q ls).flatMap (fun l => match l.statement with
        | .dir d => if d.name = .equ then d.argument.externalNames (m'.isLocal l.scopes) else []
        | .instr _ => []) = ls.flatMap (fun l => match l.statement with
        | .dir d => if d.name = .equ then d.argument.externalNames (m.isLocal l.scopes) else []
        | .instr _ => []) := by
    intro m' _ hm q
    induction q with
    | zero =>
      intro ls _
      rw [insAt, List.flatMap_cons]
      have h0 : (match nl.statement with
        | .dir d => if d.name = .equ then d.argument.externalNames (m'.isLocal nl.scopes) else []
        | .instr _ => []) = [] := by
        cases hst : nl.statement with
        | instr i => rfl
        | dir d =>
          by_cases hn : d.name = .equ
          · simp only [hn, if_true]; exact hd d hst hn _
          · simp [hn]
      rw [h0, List.nil_append, List.flatMap_map]
      apply List.flatMap_congr
      intro l _
      show (match l.statement with
        | .dir d => if d.name = DirectiveName.equ then d.argument.externalNames (m'.isLocal (l.scopes.map (sh p))) else []
        | .instr _ => []) = _
      rw [hm]
    | succ q ih =>
      intro ls hls
      cases ls with
      | nil => simp at hls
      | cons l ls =>
        rw [insAt, List.flatMap_cons, List.flatMap_cons, ih ls (by simpa using hls)]
        congr 1
        by_cases hq : q = 0
        · rw [if_pos hq]
          show (match φ l.statement with
            | .dir d => if d.name = DirectiveName.equ then d.argument.externalNames (m'.isLocal (l.scopes.map (sh p))) else []
            | .instr _ => []) = _
          rw [hm]
          cases l.statement with
          | instr i => rw [hφ.instr]
          | dir d => obtain ⟨es, he⟩ := hφ.dir d; rw [he]
        · rw [if_neg hq]
          show (match l.statement with
            | .dir d => if d.name = DirectiveName.equ then d.argument.externalNames (m'.isLocal (l.scopes.map (sh p))) else []
            | .instr _ => []) = _
          rw [hm]
  exact key (insModule p φ nl m) (·.scopes) (fun l => isLocal_ins h l.scopes) p m.lines h

end Nsasm.Shift
