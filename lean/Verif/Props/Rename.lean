import Verif.Lemmas.Rename
import Verif.Spec.Link

/-!
# Names do not matter

C82: when the names in the files are replaced by others, all of a name's occurrences alike and different names by different
ones, the assembler writes the same bytes to the same addresses, or fails in the same way, and what it then knows differs in
nothing but the names.
-/

namespace Nsasm.Props
open Nsasm Nsasm.Spec

/-- C82.  Every renaming, every set of files, every sink. -/
theorem C82_renaming {σ : Type} {r : Str → Str} (hr : Renaming r) {files files' : List (List Str)}
    (h : List.Forall₂ (FileRenamed r) files files') (fuel : Nat) (sink : Sink σ) (s : σ) :
    (Assembler.assembleFiles fuel files' sink s).1 = (Assembler.assembleFiles fuel files sink s).1 ∧
      OutcomeRenamed r (Assembler.assembleFiles fuel files sink s).2 (Assembler.assembleFiles fuel files' sink s).2 := by
  rw [Assembler.assembleFiles_ren hr fuel h sink s]
  refine ⟨rfl, ?_⟩
  cases (Assembler.assembleFiles fuel files sink s).2 with
  | ok a => exact .ok (Assembler.answers_ren hr a)
  | err e => exact .err e
  | ub u => exact .ub u

/-- Exchanging two words. -/
def exchange (v w : Str) (n : Str) : Str := if n = v then w else if n = w then v else n

/-- C82: exchanging two words that are not the name of a mode is a renaming.  (When the second does not occur in the files,
it replaces the first.) -/
theorem C82_exchange {v w : Str} (hv : v ≠ []) (hw : w ≠ []) (hv' : StatusFlags.fromName v = none)
    (hw' : StatusFlags.fromName w = none) : Renaming (exchange v w) where
  injective := by
    intro a b h
    unfold exchange at h
    by_cases h1 : a = v <;> by_cases h2 : b = v <;> by_cases h3 : a = w <;> by_cases h4 : b = w <;> simp_all
  empty := by
    unfold exchange
    rw [if_neg (Ne.symm hv), if_neg (Ne.symm hw)]
  modes := by
    intro n
    unfold exchange
    by_cases h1 : n = v
    · rw [if_pos h1, h1, hv', hw']
    · rw [if_neg h1]
      by_cases h2 : n = w
      · rw [if_pos h2, h2, hv', hw']
      · rw [if_neg h2]

/-- What two sets of files write. -/
def writesOf (files : List (List Str)) : List (Addr × List UInt8) × Option Err :=
  match Assembler.assembleFiles 100 files recorder [] with
  | (s, .ok _) => (s, none)
  | (s, .err e) => (s, some e)
  | (s, .ub _) => (s, some .other)

/-- The hypotheses can be met: a loop whose label is renamed, in one of two files, together with a name of the other file. -/
example : ∃ files files', List.Forall₂ (FileRenamed (exchange cs!"loop" cs!"again")) files files' ∧ files ≠ files' ∧
    writesOf files = writesOf files' ∧ (writesOf files).2 = none ∧ (writesOf files).1.length = 4 := by
  refine ⟨[[cs!" .module game", cs!" .org $8000", cs!"start .entry m8x8", cs!"loop: dex ; loop", cs!" bne loop", cs!" rts"],
      [cs!" .module data", cs!" .org $9000", cs!" .dw game::loop, game::start"]],
    [[cs!" .module game", cs!" .org $8000", cs!"start .entry m8x8", cs!"again: dex ; loop", cs!" bne again", cs!" rts"],
      [cs!" .module data", cs!" .org $9000", cs!" .dw game::again, game::start"]], ?_, ?_, ?_⟩
  · refine .cons ?_ (.cons ?_ .nil) <;> repeat' constructor
  · decide +kernel
  · decide +kernel

end Nsasm.Props
