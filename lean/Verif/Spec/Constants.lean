import Verif.Spec.Module
import Verif.Spec.Link
import Verif.Spec.Expr

/-! # Specification of programs that differ in values only -/

namespace Nsasm.Spec

/-- What the operand of an instruction is does not matter to the analysis of the code: the instruction is not a branch, does not
set flags by number, and does not put a number into a register or on the stack. -/
def Quiet (i : Instruction) : Prop :=
  (i.mode = .rel8 ∨ i.mode = .rel16 → i.mnemonic = .per) ∧
  i.mnemonic ∉ [Mnemonic.rep, .sep, .pea, .mvn, .mvp] ∧
  (i.mnemonic ∈ [Mnemonic.lda, .ldx, .ldy] → i.mode ∉ [Mode.imm_b, .imm_w, .imm_fm, .imm_fx])

instance (i : Instruction) : Decidable (Quiet i) := by unfold Quiet; infer_instance

/-- Two statements that differ in values only: in that of a constant, in those of data, or in operands of the same form. -/
inductive Revalued : Statement → Statement → Prop
  | same (st : Statement) : Revalued st st
  | constant (d : Directive) (e : Expr) : d.name = .equ → Revalued (.dir d) (.dir { d with argument := e })
  | data (d : Directive) (es : List Expr) : d.name ∈ [DirectiveName.db, .dw, .dl] → es.length = d.list.length →
      Revalued (.dir d) (.dir { d with list := es })
  | operand (i : Instruction) (e e' : Expr) : Quiet i → Revalued (.instr i) (.instr { i with arg1 := e, arg2 := e' })

/-- Two items of a line that differ in values only. -/
inductive RevaluedItem : Item → Item → Prop
  | label (l : ParsedLabel) : RevaluedItem (.label l) (.label l)
  | stmt {st st' : Statement} : Revalued st st' → RevaluedItem (.stmt st) (.stmt st')

/-- Two lines that differ in values only. -/
def RevaluedLine (l l' : Str) : Prop :=
  ∃ ts its ts' its', tokenize l = .ok ts ∧ Parse.parse ts = .ok its ∧ tokenize l' = .ok ts' ∧ Parse.parse ts' = .ok its' ∧
    List.Forall₂ RevaluedItem its its'

/-- Two files that differ in values only. -/
def RevaluedFile : List Str → List Str → Prop := List.Forall₂ RevaluedLine

/-- The programs of some files, each with its name. -/
abbrev Programs := List (Str × Program)

/-- In line `k` of file `i`, the name means line `t` of file `j`. -/
def PointsTo (Ps : Programs) (i k : Nat) (id : FullId) (j t : Nat) : Prop :=
  match id.module with
  | none => ∃ name P, Ps[i]? = some (name, P) ∧
      ((j = i ∧ Resolves P k id.name t) ∨
        ((∀ t', ¬ Resolves P k id.name t') ∧ ∃ Q, Ps[j]? = some ([], Q) ∧ Defines Q none id.name t))
  | some other => ∃ Q, Ps[j]? = some (other, Q) ∧ Defines Q none id.name t

/-- The statement in line `k` of file `i`. -/
def HasStatement (Ps : Programs) (i k : Nat) (st : Statement) : Prop :=
  ∃ name P ls, Ps[i]? = some (name, P) ∧ P[k]? = some ⟨ls, st⟩

/-- One of the expressions of the statement. -/
def Contains : Statement → Expr → Prop
  | .instr i, e => e = i.arg1 ∨ e = i.arg2
  | .dir d, e => e = d.argument ∨ e ∈ d.list

/-- Line `k` of file `i` has the same value in both: it is not a constant, or it is a constant that was not changed and whose
definition depends on nothing that changed. -/
inductive Steady (Ps Ps' : Programs) : Nat → Nat → Prop
  | place {i k : Nat} {st : Statement} : HasStatement Ps i k st → (∀ d, st = .dir d → d.name ≠ .equ) → Steady Ps Ps' i k
  | constant {i k : Nat} {d : Directive} : HasStatement Ps i k (.dir d) → HasStatement Ps' i k (.dir d) → d.name = .equ →
      (∀ id, Mentions id d.argument → ∀ j t, PointsTo Ps i k id j t → Steady Ps Ps' j t) → Steady Ps Ps' i k

/-- The statement in line `k` of file `i` is the same in both, and depends on nothing that changed. -/
def Unaffected (Ps Ps' : Programs) (i k : Nat) : Prop :=
  ∃ st, HasStatement Ps i k st ∧ HasStatement Ps' i k st ∧
    ∀ e, Contains st e → ∀ id, Mentions id e → ∀ j t, PointsTo Ps i k id j t → Steady Ps Ps' j t

/-- The programs of the files, with the names of the modules. -/
def ProgramsOf (files : List (List Str)) (ms : List Module) (Ps : Programs) : Prop :=
  Ps.length = files.length ∧ ms.length = files.length ∧
  ∀ (i : Nat) (name : Str) (P : Program), Ps[i]? = some (name, P) →
    ∃ file items m, files[i]? = some file ∧ FileItems file items ∧ P = program [] items ∧ ms[i]? = some m ∧ name = m.name

/-- Where the writes go, and how long they are. -/
def places (ws : Writes) : List (Addr × Nat) := ws.map fun w => (w.1, w.2.length)

end Nsasm.Spec
