import Verif.Spec.Join

/-!
# Dividing a file

Conditions on source files, in terms of the labels and statements written in them.
-/

namespace Nsasm.Spec

/-- The first statement of the file is an `.org`. -/
def StartsWithOrg (file : List Str) : Prop :=
  ∀ items, FileItems file items → ∃ (line : ProgLine) (d : Directive),
    (program [] items)[0]? = some line ∧ line.statement = .dir d ∧ d.name = .org

/-- A branch of the file is written with a name of another file. -/
def BranchesOut (file : List Str) (id : FullId) : Prop :=
  ∃ m items, Module.loadAsmFile file = .ok m ∧ FileItems file items ∧
    ∃ (i : Nat) (line : ProgLine) (k : Instruction), (program [] items)[i]? = some line ∧ line.statement = .instr k ∧
      (k.mode = .rel8 ∨ k.mode = .rel16) ∧ k.mnemonic ≠ .per ∧
      ∃ x, Uses x k.arg1 ∧ Foreign (program [] items) m.name i x ∧ id = qualified x

end Nsasm.Spec
