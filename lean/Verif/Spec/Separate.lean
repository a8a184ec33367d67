import Verif.Spec.Module
import Verif.Spec.Link

/-!
# Specification of what a source file offers and asks for
-/

namespace Nsasm.Spec

/-- The expressions a statement is written with; the operand of `.module` is only a name. -/
def operands : Statement → List Expr
  | .instr i => [i.arg1, i.arg2]
  | .dir d => if d.name = .module_ then [] else d.argument :: d.list

/-- A statement of the program called `name` is written with a foreign name that stands for `id`. -/
def Refers (P : Program) (name : Str) (id : FullId) : Prop :=
  ∃ (i : Nat) (line : ProgLine), P[i]? = some line ∧
    ∃ e ∈ operands line.statement, ∃ x, Uses x e ∧ Foreign P name i x ∧ id = qualified x

/-- The source file refers to a name of another file. -/
def FileRefers (file : List Str) (id : FullId) : Prop :=
  ∃ m items, Module.loadAsmFile file = .ok m ∧ FileItems file items ∧ Refers (program [] items) m.name id

/-- The source file offers the name to other files. -/
def FileExports (file : List Str) (id : FullId) : Prop :=
  ∃ m, Module.loadAsmFile file = .ok m ∧ Exports m id

end Nsasm.Spec
