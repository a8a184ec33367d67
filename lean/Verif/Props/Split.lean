import Verif.Lemmas.ShiftAll
import Verif.Props.Defined
import Verif.Spec.Dump

/-!
# Data may be split over directives

C94: a list of values may be written as one `.db`, `.dw` or `.dl` directive, or as two, one after the other: the same bytes are
stored at the same addresses, all labels stand for the same, and the same files are rejected.
-/

namespace Nsasm.Props
open Nsasm Nsasm.Spec Nsasm.Shift

/-- Writes made in two parts store the same bytes at the same addresses, in the same order. -/
theorem stored_parted {ws ws' : Writes} (h : Parted ws ws') : Spec.stored ws' = Spec.stored ws := by
  induction h with
  | nil => rfl
  | same w _ ih =>
    unfold Spec.stored at ih ⊢
    rw [List.flatMap_cons, List.flatMap_cons, ih]
  | parted a bs bs' _ ih =>
    unfold Spec.stored at ih ⊢
    rw [List.flatMap_cons, List.flatMap_cons, List.flatMap_cons, ih, ← List.append_assoc]
    congr 1
    simp only
    rw [List.zipIdx_append, List.map_append, List.zipIdx_eq_map_add (l := bs') (i := 0 + bs.length), List.map_map]
    refine congrArg (_ ++ ·) (List.map_congr_left fun b _ => ?_)
    simp only [Function.comp_apply, wrapped_wrapped, Nat.zero_add]

theorem same_of_pair {D : Nat → Prop} {a a' : Assembler} (h : PairAsm D a a') :
    EqualAnswers a a' := by
  obtain ⟨-, h2, h3, h4, h5⟩ := answers_pair h
  exact ⟨h.memory, h5, h3, h4, h2⟩

theorem split_emits {files files' : List (List Str)} (hs : List.Forall₂ (fun f f' => f' = f ∨ SplitFile f f') files files')
    (fuel : Nat) : Emits (fun a a' => ∃ D, PairAsm D a a') (Assembler.assembleFiles fuel files recorder [])
      (Assembler.assembleFiles fuel files' recorder []) := by
  refine assembleFiles_pair (hs.imp fun f f' h => ?_) fuel
  rcases h with rfl | h
  · exact (Both.refl _).mono fun a b _ h => .inl h
  · exact split_rel h

/-- **Data may be split over directives.**  If files are assembled, they are also assembled when in some of them a data directive
is made into two.  What is written is the same, but for some writes being made in two parts; so the same bytes are stored at the
same addresses in the same order, and every question is answered the same. -/
theorem C94_split {fuel : Nat} {files files' : List (List Str)}
    (hs : List.Forall₂ (fun f f' => f' = f ∨ SplitFile f f') files files') {ws : Writes} {a : Assembler}
    (h : Assembler.assembleFiles fuel files recorder [] = (ws, .ok a)) :
    ∃ ws' a', Assembler.assembleFiles fuel files' recorder [] = (ws', .ok a') ∧ Parted ws ws' ∧ Spec.stored ws' = Spec.stored ws ∧
      EqualAnswers a a' := by
  rcases split_emits hs fuel with ⟨b, b', h1, h2, ⟨D, h3⟩, h4⟩ | ⟨h1, -⟩
  · rw [h] at h1 h4
    cases h1
    exact ⟨_, b', Prod.ext rfl h2, h4, stored_parted h4, same_of_pair h3⟩
  · rw [h] at h1; exact absurd rfl (h1 a)

/-- C94, the other way: two directives may be made into one. -/
theorem C94_joined {fuel : Nat} {files files' : List (List Str)}
    (hs : List.Forall₂ (fun f f' => f' = f ∨ SplitFile f f') files files') {ws' : Writes} {a' : Assembler}
    (h' : Assembler.assembleFiles fuel files' recorder [] = (ws', .ok a')) :
    ∃ ws a, Assembler.assembleFiles fuel files recorder [] = (ws, .ok a) ∧ Parted ws ws' ∧ Spec.stored ws' = Spec.stored ws ∧
      EqualAnswers a a' := by
  rcases split_emits hs fuel with ⟨b, b', h1, h2, ⟨D, h3⟩, h4⟩ | ⟨-, h1⟩
  · rw [h'] at h2 h4
    cases h2
    exact ⟨_, b, Prod.ext rfl h1, h4, stored_parted h4, same_of_pair h3⟩
  · rw [h'] at h1; exact absurd rfl (h1 a')

/-! ## The hypotheses can be met -/

theorem fileItems_of_read : ∀ {file : List Str} {items : List Item}, readItems file = some items → FileItems file items := by
  intro file
  induction file with
  | nil => intro items h; cases h; exact ⟨[], .nil, rfl⟩
  | cons line rest ih =>
    intro items h
    rw [readItems] at h
    split at h
    · rename_i ts ht
      split at h
      · rename_i its hp
        cases hr : readItems rest with
        | none => rw [hr] at h; cases h
        | some xs =>
          rw [hr] at h
          cases h
          obtain ⟨per, h1, rfl⟩ := ih hr
          exact ⟨its :: per, .cons ⟨ts, ht, hp⟩ h1, rfl⟩
      · cases h
    · cases h

/-- Code that uses a table of words. -/
def splitBefore : List Str := [cs!" .org $8000", cs!"go .entry m8x8", cs!" ldx table+2", cs!" rts", cs!"table .dw 1, go, last",
  cs!"last .db 7"]

/-- The same with the table in two directives. -/
def splitAfter : List Str := [cs!" .org $8000", cs!"go .entry m8x8", cs!" ldx table+2", cs!" rts", cs!"table .dw 1", cs!" .dw go, last",
  cs!"last .db 7"]

/-- Checks that item `k` of the first file is split after the value `n` in the second. -/
def splitTest (k n : Nat) (file file' : List Str) : Bool :=
  match readItems file, readItems file' with
  | some xs, some ys => match xs.drop k with
    | .stmt (.dir d) :: B => decide (d.name ∈ [DirectiveName.db, .dw, .dl] ∧ d.list.take n ≠ [] ∧ d.list.drop n ≠ [] ∧
        ys = xs.take k ++ .stmt (.dir { d with list := d.list.take n }) :: .stmt (.dir { d with list := d.list.drop n }) :: B)
    | _ => false
  | _, _ => false

theorem split_of_test {k n : Nat} {file file' : List Str} (h : splitTest k n file file' = true) : SplitFile file file' := by
  unfold splitTest at h
  split at h
  · rename_i xs ys hx hy
    split at h
    · rename_i d B hd
      obtain ⟨h1, h2, h3, h4⟩ := of_decide_eq_true h
      refine ⟨xs.take k, B, d, _, _, h1, (List.take_append_drop n d.list).symm, h2, h3, ?_, ?_⟩
      · rw [← hd, List.take_append_drop]; exact fileItems_of_read hx
      · rw [← h4]; exact fileItems_of_read hy
    · cases h
  · cases h

example : SplitFile splitBefore splitAfter := split_of_test (k := 6) (n := 1) (by decide +kernel)

example : ∃ ws ws' a a', Assembler.assembleFiles 40 [splitBefore] recorder [] = (ws, .ok a) ∧
    Assembler.assembleFiles 40 [splitAfter] recorder [] = (ws', .ok a') ∧
    ws = [(0x8000, [0xae, 0x06, 0x80]), (0x8003, [0x60]), (0x8004, [0x01, 0x00, 0x00, 0x80, 0x0a, 0x80]), (0x800a, [0x07])] ∧
    ws' = [(0x8000, [0xae, 0x06, 0x80]), (0x8003, [0x60]), (0x8004, [0x01, 0x00]), (0x8006, [0x00, 0x80, 0x0a, 0x80]),
      (0x800a, [0x07])] := by
  obtain ⟨ws, a, h, hc⟩ := assembles_of_check (fuel := 40) (files := [splitBefore]) (fun ws _ => decide (
    ws = [(0x8000, [0xae, 0x06, 0x80]), (0x8003, [0x60]), (0x8004, [0x01, 0x00, 0x00, 0x80, 0x0a, 0x80]), (0x800a, [0x07])]))
    (by decide +kernel)
  obtain ⟨ws', a', h', hc'⟩ := assembles_of_check (fuel := 40) (files := [splitAfter]) (fun ws _ => decide (
    ws = [(0x8000, [0xae, 0x06, 0x80]), (0x8003, [0x60]), (0x8004, [0x01, 0x00]), (0x8006, [0x00, 0x80, 0x0a, 0x80]),
      (0x800a, [0x07])])) (by decide +kernel)
  exact ⟨ws, ws', a, a', h, h', of_decide_eq_true hc, of_decide_eq_true hc'⟩

end Nsasm.Props
