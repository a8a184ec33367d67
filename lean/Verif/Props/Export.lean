import Verif.Lemmas.Export
import Verif.Props.Split
import Verif.Props.Unused

/-! # C109: `export` says something only in a scope -/

namespace Nsasm.Props
open Nsasm Nsasm.Spec Nsasm.Debug

/-- **`export` says something only in a scope.**  If the labels and statements of two files are the same except for `export` at labels
that are in no scope, the files are loaded alike. -/
theorem C109_export (f g : List Str) (is js : List Item) (hf : FileItems f is) (hg : FileItems g js)
    (h : SameInScopes (program [] is) (program [] js)) : Module.loadAsmFile f = Module.loadAsmFile g :=
  load_same_scopes hf hg h

/-- So programs of such files assemble alike. -/
theorem C109_same_output {σ : Type} (fuel : Nat) (fs gs : List (List Str))
    (h : List.Forall₂ (fun f g => ∃ is js, FileItems f is ∧ FileItems g js ∧ SameInScopes (program [] is) (program [] js)) fs gs)
    (sink : Sink σ) (s : σ) : Assembler.assembleFiles fuel fs sink s = Assembler.assembleFiles fuel gs sink s := by
  have : Assembler.loadAll fs = Assembler.loadAll gs := by
    induction h with
    | nil => rfl
    | cons h1 _ ih =>
      obtain ⟨is, js, h2, h3, h4⟩ := h1
      rw [Assembler.loadAll, Assembler.loadAll, C109_export _ _ is js h2 h3 h4, ih]
  unfold Assembler.assembleFiles
  rw [this]

/-- In a scope, `export` makes a name known outside. -/
theorem C109_scope_matters :
    writtenBy [[cs!" .org $8000", cs!" .begin", cs!"export foo: .dw foo", cs!" .end", cs!" .dw foo"]] =
      some [(0x8000, [0, 0x80]), (0x8002, [0, 0x80])] ∧
    failure [[cs!" .org $8000", cs!" .begin", cs!"foo: .dw foo", cs!" .end", cs!" .dw foo"]] = some (.inl .undefinedName) := by
  decide +kernel

/-- Two files to which the theorem applies: they differ in `export` at a label that is in no scope. -/
example : ∃ is js, FileItems [cs!" .org $8000", cs!"export go: .begin", cs!"export next: rts", cs!" .end"] is ∧
    FileItems [cs!" .org $8000", cs!"go: .begin", cs!"export next: rts", cs!" .end"] js ∧ is ≠ js ∧
    SameInScopes (program [] is) (program [] js) := by
  let dir (n : DirectiveName) (e : Expr) : Item := .stmt (.dir ⟨n, e, .default, .default, []⟩)
  let rts : Item := .stmt (.instr ⟨.rts, .none, .imp, .null, .null, .default⟩)
  refine ⟨[dir .org (.lit 0x8000 .word), .label ⟨cs!"go", true⟩, dir .begin_ .null, .label ⟨cs!"next", true⟩, rts, dir .end_ .null],
    [dir .org (.lit 0x8000 .word), .label ⟨cs!"go", false⟩, dir .begin_ .null, .label ⟨cs!"next", true⟩, rts, dir .end_ .null],
    fileItems_of_read (by decide +kernel), fileItems_of_read (by decide +kernel), by decide, ?_, ?_⟩
  · exact .cons ⟨rfl, rfl⟩ (.cons ⟨rfl, rfl⟩ (.cons ⟨rfl, rfl⟩ (.cons ⟨rfl, rfl⟩ .nil)))
  · intro k p q hp hq hl
    match k with
    | 0 => exact absurd rfl hl
    | 1 => exact absurd rfl hl
    | 2 => cases hp; cases hq; rfl
    | 3 => cases hp; cases hq; rfl
    | k + 4 => cases hp

end Nsasm.Props
