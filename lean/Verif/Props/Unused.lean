import Verif.Lemmas.UnusedLink
import Verif.Spec.Link

/-!
# A label that nothing refers to changes nothing

C84.  It can be removed without any effect on the result (`C84_removed`).  It can be added with no effect either, except that
the assembly may now fail, because every name that is visible in the whole file must have an address
(`C84_added_partial`, `C84_violated`).
-/

namespace Nsasm.Props
open Nsasm Nsasm.Spec

/-- C84.  Removing a label whose name occurs nowhere else from files that can be assembled. -/
theorem C84_removed {σ : Type} {line : Str} {label : ParsedLabel} (hl : LabelLine label line) {files files' : List (List Str)}
    (hadd : LineAdded line files files') (ha : ∀ f ∈ files, Absent label.name f) (fuel : Nat) (sink : Sink σ) (s s' : σ)
    (b : Assembler) (h : Assembler.assembleFiles fuel files' sink s = (s', .ok b)) :
    ∃ a, Assembler.assembleFiles fuel files sink s = (s', .ok a) ∧ SameBut label.name a b := by
  have := Unused.assembleFiles_near hl hadd ha fuel sink s
  rw [h] at this
  generalize Assembler.assembleFiles fuel files sink s = x at this
  cases this with
  | ok hm => exact ⟨_, rfl, hm.same⟩
  | value hv => rcases hv with hv | hv <;> cases hv
  | fail _ hy => exact absurd rfl (hy b)

/-- C84.  Adding a label whose name occurs nowhere to files that can be assembled: the same is written and known, or the
assembly ends because of a name without a value or with a value that is no address.  Missing: that the latter does not happen
(`C84_violated`). -/
theorem C84_added_partial {σ : Type} {line : Str} {label : ParsedLabel} (hl : LabelLine label line)
    {files files' : List (List Str)} (hadd : LineAdded line files files') (ha : ∀ f ∈ files, Absent label.name f) (fuel : Nat)
    (sink : Sink σ) (s s' : σ) (a : Assembler) (h : Assembler.assembleFiles fuel files sink s = (s', .ok a)) :
    (∃ b, Assembler.assembleFiles fuel files' sink s = (s', .ok b) ∧ SameBut label.name a b) ∨
      (Assembler.assembleFiles fuel files' sink s).2 = .err .noValue ∨
      (Assembler.assembleFiles fuel files' sink s).2 = .ub .assertFail := by
  have := Unused.assembleFiles_near hl hadd ha fuel sink s
  rw [h] at this
  generalize Assembler.assembleFiles fuel files' sink s = y at this
  cases this with
  | ok hm => exact .inl ⟨_, rfl, hm.same⟩
  | value hv => exact .inr hv
  | fail hx _ => exact absurd rfl (hx a)

/-- Two files; a label is added to the second. -/
def withoutLabel : List (List Str) :=
  [[cs!" .module game", cs!" .org $8000", cs!"start .entry m8x8", cs!" lda data::first", cs!" rts"],
    [cs!" .module data", cs!" .org $9000", cs!"first:", cs!" .db 1, 2, 3"]]

def withLabel : List (List Str) :=
  [[cs!" .module game", cs!" .org $8000", cs!"start .entry m8x8", cs!" lda data::first", cs!" rts"],
    [cs!" .module data", cs!" .org $9000", cs!"first:", cs!"export also:", cs!" .db 1, 2, 3"]]

/-- What is written. -/
def writtenBy (files : List (List Str)) : Option (List (Addr × List UInt8)) :=
  match Assembler.assembleFiles 100 files recorder [] with
  | (s, .ok _) => some s
  | _ => none

/-- How it ends otherwise. -/
def failure (files : List (List Str)) : Option (Err ⊕ Ub) :=
  match Assembler.assembleFiles 100 files recorder [] with
  | (_, .err e) => some (.inl e)
  | (_, .ub u) => some (.inr u)
  | _ => none

/-- The hypotheses can be met. -/
example : LabelLine ⟨cs!"also", true⟩ cs!"export also:" ∧ LineAdded cs!"export also:" withoutLabel withLabel ∧
    (∀ f ∈ withoutLabel, Absent cs!"also" f) ∧ (writtenBy withoutLabel).isSome ∧ writtenBy withLabel = writtenBy withoutLabel := by
  refine ⟨⟨_, rfl, by decide +kernel⟩, ⟨[_], [_, _, _], [_], [], rfl, rfl⟩, ?_, by decide +kernel, by decide +kernel⟩
  have : ∀ f ∈ withoutLabel, ∀ line ∈ f, (match tokenize line with
      | .ok ts => decide (Token.ident cs!"also" ∉ ts)
      | _ => true) = true := by decide +kernel
  intro f hf line hline ts ht
  have := this f hf line hline
  rw [ht] at this
  exact of_decide_eq_true this

/-- C84 does not hold of adding: the label in front of `.module` has no value, and one in front of a constant that is no
address has no address. -/
theorem C84_violated :
    ((writtenBy [[cs!" .module data", cs!" .org $9000", cs!" .db 1"]]).isSome ∧
      failure [[cs!"unused:", cs!" .module data", cs!" .org $9000", cs!" .db 1"]] = some (.inl .noValue)) ∧
    (writtenBy [[cs!" .begin", cs!"minus .equ -1", cs!" .end"]]).isSome ∧
      failure [[cs!" .begin", cs!"export unused:", cs!"minus .equ -1", cs!" .end"]] = some (.inr .assertFail) := by
  decide +kernel

end Nsasm.Props
