import Verif.Props.Tools
import Verif.Spec.Patch

/-! # Lemmas about images into which a program was assembled -/

namespace Nsasm.Patch
open Nsasm Nsasm.Spec Nsasm.Props

/-- One byte put into an image. -/
def putOne (mode : Mapping) (buf : List UInt8) (p : Nat × UInt8) : List UInt8 :=
  match snesToRom p.1 mode with
  | .ok off => buf.set off p.2
  | _ => buf

/-- Bytes put into an image, one after the other. -/
def put (mode : Mapping) (buf : List UInt8) (bytes : List (Nat × UInt8)) : List UInt8 := bytes.foldl (putOne mode) buf

theorem putOne_length (mode : Mapping) (buf : List UInt8) (p : Nat × UInt8) : (putOne mode buf p).length = buf.length := by
  unfold putOne
  split <;> simp

theorem put_length (mode : Mapping) (bytes : List (Nat × UInt8)) (buf : List UInt8) :
    (put mode buf bytes).length = buf.length := by
  induction bytes generalizing buf with
  | nil => rfl
  | cons p ps ih => exact (ih _).trans (putOne_length ..)

theorem putOne_kept {mode : Mapping} {buf : List UInt8} {p : Nat × UInt8} {off : Nat} (h : snesToRom p.1 mode ≠ .ok off) :
    (putOne mode buf p)[off]? = buf[off]? := by
  unfold putOne
  split
  · rename_i o ho
    rw [List.getElem?_set_ne]
    rintro rfl
    exact h ho
  · rfl

theorem put_kept {mode : Mapping} {bytes : List (Nat × UInt8)} {buf : List UInt8} {off : Nat}
    (h : ∀ x b, (x, b) ∈ bytes → snesToRom x mode ≠ .ok off) : (put mode buf bytes)[off]? = buf[off]? := by
  induction bytes generalizing buf with
  | nil => rfl
  | cons p ps ih =>
    refine (ih (buf := putOne mode buf p) fun x b hx => h x b (by simp [hx])).trans ?_
    exact putOne_kept (h p.1 p.2 (by simp))

theorem put_append (mode : Mapping) (buf : List UInt8) (bs cs : List (Nat × UInt8)) :
    put mode buf (bs ++ cs) = put mode (put mode buf bs) cs := List.foldl_append

theorem put_last {mode : Mapping} {former later : List (Nat × UInt8)} {x : Nat} {b : UInt8} {off : Nat} {buf : List UInt8}
    (hx : snesToRom x mode = .ok off) (hoff : off < buf.length)
    (hl : ∀ y c, (y, c) ∈ later → snesToRom y mode ≠ .ok off) :
    (put mode buf (former ++ (x, b) :: later))[off]? = some b := by
  rw [put_append]
  show (put mode (putOne mode _ (x, b)) later)[off]? = _
  rw [put_kept hl]
  unfold putOne
  rw [hx]
  simp only
  rw [List.getElem?_set_self]
  rwa [put_length]

theorem put_patched {mode : Mapping} {bytes : List (Nat × UInt8)} {buf : List UInt8} (h : FitsInto mode buf.length bytes) :
    Patched mode bytes buf (put mode buf bytes) where
  size := put_length ..
  kept := fun _ => put_kept
  last := by
    rintro former x b later off rfl hx hl
    obtain ⟨off', ho, hx'⟩ := h x b (by simp)
    rw [hx] at hx'
    cases hx'
    exact put_last hx ho hl

/-- Among bytes of which one has the place `off` there is a last one. -/
theorem exists_last {mode : Mapping} {off : Nat} {bytes : List (Nat × UInt8)}
    (h : ∃ x b, (x, b) ∈ bytes ∧ snesToRom x mode = .ok off) :
    ∃ former x b later, bytes = former ++ (x, b) :: later ∧ snesToRom x mode = .ok off ∧
      ∀ y c, (y, c) ∈ later → snesToRom y mode ≠ .ok off := by
  induction bytes with
  | nil => obtain ⟨x, b, hx, -⟩ := h; cases hx
  | cons p ps ih =>
    by_cases hp : ∃ x b, (x, b) ∈ ps ∧ snesToRom x mode = .ok off
    · obtain ⟨former, x, b, later, rfl, h2, h3⟩ := ih hp
      exact ⟨p :: former, x, b, later, rfl, h2, h3⟩
    · obtain ⟨x, b, hx, ho⟩ := h
      have : p = (x, b) := by
        rcases List.mem_cons.mp hx with h | h
        · exact h.symm
        · exact absurd ⟨x, b, h, ho⟩ hp
      subst this
      exact ⟨[], x, b, ps, rfl, ho, fun y c hy hc => hp ⟨y, c, hy, hc⟩⟩

theorem patched_unique {mode : Mapping} {bytes : List (Nat × UInt8)} {buf d e : List UInt8}
    (h : Patched mode bytes buf d) (h' : Patched mode bytes buf e) : d = e := by
  apply List.ext_getElem?
  intro off
  by_cases hp : ∃ x b, (x, b) ∈ bytes ∧ snesToRom x mode = .ok off
  · obtain ⟨former, x, b, later, h1, h2, h3⟩ := exists_last hp
    rw [h.last former x b later off h1 h2 h3, h'.last former x b later off h1 h2 h3]
  · have : ∀ x b, (x, b) ∈ bytes → snesToRom x mode ≠ .ok off := fun x b hx hc => hp ⟨x, b, hx, hc⟩
    rw [h.kept off this, h'.kept off this]

theorem snesToRom_noUb {a : Nat} {mode : Mapping} {u : Ub} : snesToRom a mode ≠ .ub u := by
  intro h
  unfold snesToRom at h
  cases mode <;> simp only at h <;> split_ifs at h

theorem loop_ok {mode : Mapping} {a : Nat} (ha : a < 0x1000000) :
    ∀ {data : List UInt8} {i : Nat} {buf buf' : List UInt8}, Rom.overwriteLoop mode a i buf data = (buf', .ok ()) ↔
      FitsInto mode buf.length ((data.zipIdx i).map fun b => (wrapped a b.2, b.1)) ∧
      buf' = put mode buf ((data.zipIdx i).map fun b => (wrapped a b.2, b.1)) := by
  intro data
  induction data with
  | nil =>
    intro i buf buf'
    simp only [Rom.overwriteLoop, List.zipIdx_nil, List.map_nil, Prod.mk.injEq, and_true]
    exact ⟨fun h => ⟨fun x b hx => (by cases hx), h.symm⟩, fun h => h.2.symm⟩
  | cons d ds ih =>
    intro i buf buf'
    have hfits : ∀ {off}, snesToRom (wrapped a i) mode = .ok off → off < buf.length →
        (FitsInto mode buf.length (((d :: ds).zipIdx i).map fun b => (wrapped a b.2, b.1)) ↔
          FitsInto mode (buf.set off d).length ((ds.zipIdx (i + 1)).map fun b => (wrapped a b.2, b.1))) := by
      intro off ho hlt
      rw [List.length_set]
      constructor
      · intro h x b hx
        exact h x b (by simp only [List.zipIdx_cons, List.map_cons]; exact List.mem_cons_of_mem _ hx)
      · intro h x b hx
        simp only [List.zipIdx_cons, List.map_cons, List.mem_cons, Prod.mk.injEq] at hx
        rcases hx with ⟨rfl, rfl⟩ | hx
        · exact ⟨off, hlt, ho⟩
        · exact h x b hx
    have hhead : FitsInto mode buf.length (((d :: ds).zipIdx i).map fun b => (wrapped a b.2, b.1)) →
        ∃ off < buf.length, snesToRom (wrapped a i) mode = .ok off :=
      fun h => h _ d (by simp)
    rw [Rom.overwriteLoop, wrappedStep ha, show a / 0x10000 * 0x10000 + (a + i) % 0x10000 = wrapped a i from rfl]
    cases hs : snesToRom (wrapped a i) mode with
    | ub u => exact absurd hs snesToRom_noUb
    | err e =>
      simp only [Prod.mk.injEq, reduceCtorEq, and_false, false_iff]
      rintro ⟨h, -⟩
      obtain ⟨off, -, ho⟩ := hhead h
      rw [hs] at ho
      cases ho
    | ok idx =>
      simp only
      by_cases hlt : idx < buf.length
      · rw [if_neg (by omega), if_neg (by omega), ih, hfits hs hlt]
        have : put mode buf (((d :: ds).zipIdx i).map fun b => (wrapped a b.2, b.1)) =
            put mode (buf.set idx d) ((ds.zipIdx (i + 1)).map fun b => (wrapped a b.2, b.1)) := by
          simp only [List.zipIdx_cons, List.map_cons, put, List.foldl_cons]
          rw [show putOne mode buf (wrapped a i, d) = buf.set idx d by unfold putOne; rw [hs]]
        rw [this]
      · have hno : ¬ FitsInto mode buf.length (((d :: ds).zipIdx i).map fun b => (wrapped a b.2, b.1)) := by
          intro h
          obtain ⟨off, h1, ho⟩ := hhead h
          rw [hs] at ho
          cases ho
          exact hlt h1
        split_ifs
        · exact ⟨fun h => (by cases h), fun h => absurd h.1 hno⟩
        · exact ⟨fun h => (by cases h), fun h => absurd h.1 hno⟩
        · omega

theorem feeds_patcher {mode : Mapping} : ∀ {ws : Writes}, (∀ w ∈ ws, w.1 < 0x1000000) → ∀ {buf buf' : List UInt8},
    (Feeds (patcher mode) buf ws buf' ↔ FitsInto mode buf.length (stored ws) ∧ buf' = put mode buf (stored ws)) := by
  intro ws
  induction ws with
  | nil =>
    intro _ buf buf'
    constructor
    · intro h; cases h; exact ⟨fun x b h => (by cases h), rfl⟩
    · rintro ⟨-, rfl⟩; exact .nil _
  | cons w ws ih =>
    obtain ⟨a, bs⟩ := w
    intro hlow buf buf'
    have hst : stored ((a, bs) :: ws) = (bs.zipIdx.map fun b => (wrapped a b.2, b.1)) ++ stored ws := rfl
    have hsplit : FitsInto mode buf.length (stored ((a, bs) :: ws)) ↔
        FitsInto mode buf.length (bs.zipIdx.map fun b => (wrapped a b.2, b.1)) ∧ FitsInto mode buf.length (stored ws) := by
      rw [hst]
      exact ⟨fun h => ⟨fun x b hx => h x b (List.mem_append_left _ hx), fun x b hx => h x b (List.mem_append_right _ hx)⟩,
        fun h x b hx => (List.mem_append.mp hx).elim (h.1 x b) (h.2 x b)⟩
    rw [hsplit, hst, put_append]
    have hw : ∀ mid, patcher mode buf a bs = (mid, .ok ()) ↔ _ := fun mid =>
      loop_ok (hlow (a, bs) (by simp)) (data := bs) (i := 0) (buf := buf) (buf' := mid)
    constructor
    · intro h
      cases h with
      | cons h1 h2 =>
        obtain ⟨f1, rfl⟩ := (hw _).mp h1
        obtain ⟨f2, rfl⟩ := (ih fun w hw => hlow w (by simp [hw])).mp h2
        exact ⟨⟨f1, by rwa [put_length] at f2⟩, rfl⟩
    · rintro ⟨⟨f1, f2⟩, rfl⟩
      exact .cons ((hw _).mpr ⟨f1, rfl⟩) ((ih fun w hw => hlow w (by simp [hw])).mpr ⟨by rwa [put_length], rfl⟩)

/-- Bytes that are in the image already can be put there. -/
theorem put_again {mode : Mapping} {bytes : List (Nat × UInt8)} {buf : List UInt8} (h : FitsInto mode buf.length bytes) :
    put mode (put mode buf bytes) bytes = put mode buf bytes := by
  have h' : FitsInto mode (put mode buf bytes).length bytes := by rwa [put_length]
  refine patched_unique (put_patched h') ⟨rfl, fun _ _ => rfl, ?_⟩
  exact (put_patched h).last

theorem mem_stored_filled {ws : Writes} {x : Nat} {b : UInt8} (h : (x, b) ∈ stored ws) : x ∈ allFilled ws := by
  simp only [stored, List.mem_flatMap, List.mem_map] at h
  obtain ⟨w, hw, ⟨c, i⟩, hc, he⟩ := h
  simp only [Prod.mk.injEq] at he
  obtain ⟨rfl, rfl⟩ := he
  have := (List.getElem?_eq_some_iff.mp (List.mem_zipIdx_iff_getElem?.mp hc)).1
  simp only [allFilled, List.mem_flatMap, filled, List.mem_map, List.mem_range]
  exact ⟨w, hw, i, this, rfl⟩

theorem stored_map_fst (ws : Writes) : (stored ws).map Prod.fst = allFilled ws := by
  unfold stored allFilled
  rw [List.map_flatMap]
  congr 1
  funext w
  rw [List.map_map]
  unfold filled
  rw [show (Prod.fst ∘ fun b : UInt8 × Nat => (wrapped w.1 b.2, b.1)) = wrapped w.1 ∘ Prod.snd from rfl, ← List.map_map]
  congr 1
  simp [List.range_eq_range']

end Nsasm.Patch
