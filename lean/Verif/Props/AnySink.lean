import Verif.Lemmas.AnySink
import Verif.Props.Link

/-! # C101: what a sink can do to an assembly -/

namespace Nsasm.Props
open Nsasm Nsasm.Spec Nsasm.AnySink

/-- **The sink decides only where the assembly stops.**  Whether the files assemble or not: with every sink, in every state, the
writes are those that a sink gets that refuses nothing, in the same order, up to the first that the sink refuses; if it refuses
none the end is the same, and otherwise it is the error of the sink. -/
theorem C101_any_sink (fuel : Nat) (files : List (List Str)) {σ : Type} (sink : Sink σ) (s : σ) :
    Plays sink s (Assembler.assembleFiles fuel files recorder []).1 (Assembler.assembleFiles fuel files recorder []).2
      (Assembler.assembleFiles fuel files sink s) := by
  obtain ⟨ws, r, h⟩ := assembleFiles_faithful fuel files
  have := plays_recorder (h Writes recorder [])
  simp only at this
  rw [this]
  exact h σ sink s

/-- **Every way in which assembling files that assemble can end**: the sink has taken all writes, and it succeeds with the same
answers; or the sink has taken some, refused the next, and its error is the result. -/
theorem C101_ends {fuel : Nat} {files : List (List Str)} {ws : Writes} {a : Assembler} (h : Assembles fuel files ws a)
    {σ : Type} (sink : Sink σ) (s : σ) :
    (∃ s', Feeds sink s ws s' ∧ Assembler.assembleFiles fuel files sink s = (s', .ok a)) ∨
    ∃ before x bs after s' s'', ws = before ++ (x, bs) :: after ∧ Feeds sink s before s' ∧
      ((∃ e, sink s' x bs = (s'', .err e) ∧ Assembler.assembleFiles fuel files sink s = (s'', .err e)) ∨
       ∃ u, sink s' x bs = (s'', .ub u) ∧ Assembler.assembleFiles fuel files sink s = (s'', .ub u)) := by
  have := C101_any_sink fuel files sink s
  rw [show Assembler.assembleFiles fuel files recorder [] = (ws, .ok a) from h] at this
  exact plays_cases this

theorem plays_limited {α : Type} {n : Nat} {ws vs : Writes} {r : Res α} {out : Writes × Res α}
    (h : Plays (limited n) vs ws r out) (hv : vs.length ≤ n) :
    out = (vs ++ ws.take (n - vs.length), if vs.length + ws.length ≤ n then r else .err .sink) := by
  induction h with
  | done s r => simp [hv]
  | @accepted s s' a bs ws r out h1 _ ih =>
    simp only [limited] at h1
    split_ifs at h1 with hlt
    swap
    · cases h1
    simp only [Prod.mk.injEq, and_true] at h1
    subst h1
    rw [ih (by simp; omega)]
    obtain ⟨k, hk⟩ : ∃ k, n - s.length = k + 1 := ⟨n - s.length - 1, by omega⟩
    rw [hk, List.take_succ_cons, show n - (s ++ [(a, bs)]).length = k by simp; omega]
    simp only [List.append_assoc, List.singleton_append, List.length_append, List.length_cons, List.length_nil]
    rw [show s.length + (0 + 1) + ws.length = s.length + (ws.length + 1) by omega]
  | @refused s s' a bs e ws r h1 =>
    simp only [limited] at h1
    split_ifs at h1 with hlt
    · cases h1
    simp only [Prod.mk.injEq, Res.err.injEq] at h1
    obtain ⟨rfl, rfl⟩ := h1
    rw [show n - s.length = 0 by omega, if_neg (by simp; omega)]
    simp
  | crashed ws r h1 =>
    simp only [limited] at h1
    split_ifs at h1 <;> simp at h1

/-- **Every point at which the writing can stop**: a sink that takes `n` writes and no more has then taken the first `n` writes of
the program, and the assembly reports its error unless these were all. -/
theorem C101_stops_anywhere {fuel : Nat} {files : List (List Str)} {ws : Writes} {a : Assembler}
    (h : Assembles fuel files ws a) (n : Nat) :
    Assembler.assembleFiles fuel files (limited n) [] =
      (ws.take n, if ws.length ≤ n then .ok a else .err .sink) := by
  have := C101_any_sink fuel files (limited n) []
  rw [show Assembler.assembleFiles fuel files recorder [] = (ws, .ok a) from h] at this
  simpa using plays_limited this (Nat.zero_le n)

/-- Two files that assemble, and the three writes they make. -/
example : ∃ a, Assembles 30 [[cs!" .org $8000", cs!" .entry m8x8", cs!" nop", cs!" rts"], [cs!" .org $9000", cs!" .db 1, 2"]]
    [(0x8000, [0xea]), (0x8001, [0x60]), (0x9000, [1, 2])] a := by
  obtain ⟨ws, a, h, hc⟩ := assembles_of_check (fuel := 30)
    (files := [[cs!" .org $8000", cs!" .entry m8x8", cs!" nop", cs!" rts"], [cs!" .org $9000", cs!" .db 1, 2"]])
    (fun ws _ => decide (ws = [(0x8000, [0xea]), (0x8001, [0x60]), (0x9000, [1, 2])])) (by decide +kernel)
  exact ⟨a, of_decide_eq_true hc ▸ h⟩

/-- Two files that do not: the second write of the address has been made when the overlap is found, with every sink that takes
both. -/
example : (match Assembler.assembleFiles 30 [[cs!" .org $8000", cs!" .db 1"], [cs!" .org $8000", cs!" .db 2"]] recorder [] with
    | (ws, .err e) => decide (ws = [(0x8000, [1]), (0x8000, [2])] ∧ e = .overlap)
    | _ => false) = true := by
  decide +kernel

end Nsasm.Props
