import Verif.Props.Divide
import Mathlib.Data.List.Perm.Basic

/-!
# A whole program in one file, and a part of a file left out
-/

namespace Nsasm.Props
open Nsasm Nsasm.Spec Nsasm.Joined

theorem order_join {fuel : Nat} {E : Ctx} {l₁ l₂ : List Module} {a b : Module} {f g : List Str}
    (hB : Builds fuel (l₁ ++ a :: b :: l₂) E) (hO : LinkOrder (l₁ ++ a :: b :: l₂)) (hf : Module.loadAsmFile f = .ok a)
    (hg : Module.loadAsmFile g = .ok b) (uf : Unnamed f) (ug : Unnamed g) : LinkOrder (l₁ ++ join a b :: l₂) := by
  have na := unnamed_name uf hf
  have nb := unnamed_name ug hg
  have hpair := (List.pairwise_append.1 hB.linkable.1)
  have hab : ∀ id, Exports a id → ¬ Exports b id := (List.pairwise_cons.1 hpair.2.1).1 b (by simp)
  refine linkOrder_join (together_join (by rw [na, nb]) (loaded_lines hf).1 fun x hx => ?_) na (loaded_lines hf).2.2.1
    (loaded_lines hg).2.2.1 hO
  cases hfi : HMap.find a.globals x.1 with
  | none => rfl
  | some i =>
    exact absurd (show Exports b ⟨some [], x.1⟩ from ⟨by rw [nb], x.2, hx⟩) (hab _ ⟨by rw [na], i, Joined.find_none hfi⟩)

theorem items_of_loaded {f : List Str} {a : Module} (h : Module.loadAsmFile f = .ok a) : ∃ items, FileItems f items := by
  obtain ⟨items, hF, -⟩ := loadAsmFile_ok h
  exact ⟨items, hF⟩

theorem unnamed_append {f g : List Str} {a b : Module} (hf : Module.loadAsmFile f = .ok a) (hg : Module.loadAsmFile g = .ok b)
    (uf : Unnamed f) (ug : Unnamed g) : Unnamed (f ++ g) := by
  obtain ⟨xs, hx⟩ := items_of_loaded hf
  obtain ⟨ys, hy⟩ := items_of_loaded hg
  intro items hF d hd
  rw [Props.fileItems_unique hF (fileItems_append hx hy)] at hd
  rcases List.mem_append.1 hd with hd | hd
  · exact uf xs hx d hd
  · exact ug ys hy d hd

theorem ends_append {f g : List Str} {a b : Module} (hf : Module.loadAsmFile f = .ok a) (hg : Module.loadAsmFile g = .ok b)
    (ef : EndsInStatement f) (eg : EndsInStatement g) : EndsInStatement (f ++ g) := by
  obtain ⟨xs, hx⟩ := items_of_loaded hf
  obtain ⟨ys, hy⟩ := items_of_loaded hg
  intro items hF l hl
  rw [Props.fileItems_unique hF (fileItems_append hx hy), List.getLast?_append] at hl
  cases hq : ys.getLast? with
  | none => rw [hq] at hl; exact ef xs hx l hl
  | some y => rw [hq] at hl; cases hl; exact eg ys hy l hq

theorem builds_flatten {E : Ctx} : ∀ {fs : List (List Str)} {fuel : Nat} {f : List Str} {a : Module} {rest : List Module},
    Builds fuel (a :: rest) E → LinkOrder (a :: rest) → Module.loadAsmFile f = .ok a →
    List.Forall₂ (fun g m => Module.loadAsmFile g = .ok m) fs rest → Unnamed f → EndsInStatement f →
    (∀ g ∈ fs, Unnamed g ∧ EndsInStatement g) →
    ∃ k m, Module.loadAsmFile (f ++ fs.flatten) = .ok m ∧ Builds k [m] E ∧
      [m].flatMap (made k E) = (a :: rest).flatMap (made fuel E)
  | [], fuel, f, a, rest, hB, hO, hf, hr, uf, ef, hu => by
    cases hr
    exact ⟨fuel, a, by simpa using hf, hB, rfl⟩
  | g :: fs, fuel, f, a, rest, hB, hO, hf, hr, uf, ef, hu => by
    cases hr with
    | @cons _ b _ rest hg hr =>
      obtain ⟨ug, eg⟩ := hu g List.mem_cons_self
      obtain ⟨k1, k2, k3⟩ := builds_join (l₁ := []) hB hO hf hg uf ug ef
      have k4 := order_join (l₁ := []) hB hO hf hg uf ug
      obtain ⟨k, m, q1, q2, q3⟩ := builds_flatten (fs := fs) k2 k4 k1 hr (unnamed_append hf hg uf ug)
        (ends_append hf hg ef eg) fun h hh => hu h (List.mem_cons_of_mem _ hh)
      exact ⟨k, m, by rw [List.flatten_cons, ← List.append_assoc]; exact q1, q2, q3.trans k3⟩

/-- **A whole program can be put in one file.**  If files that do not name their modules, and do not end with a label,
assemble, then the files can be put in an order in which, one after another, they make one file that assembles, makes the same
writes, and gives all exported names the same values. -/
theorem C105_program {fuel : Nat} {files : List (List Str)} {ws : Writes} {a : Assembler} (h : Assembles fuel files ws a)
    (hne : files ≠ []) (hu : ∀ f ∈ files, Unnamed f ∧ EndsInStatement f) :
    ∃ order : List (List Str), order.Perm files ∧ ∃ k ws' a', Assembles k [order.flatten] ws' a' ∧ ws'.Perm ws ∧
      ∀ externs externs', Publishes a.modules externs → Publishes a'.modules externs' →
        ∀ id v, externs id = .ok v ↔ externs' id = .ok v := by
  obtain ⟨ms, hl, hB, hw⟩ := builds_of_assembles h
  obtain ⟨l, hlp, hO⟩ := hB.linkable.2
  obtain ⟨order, ho, hop⟩ := List.perm_comp_forall₂ hlp (loadAll_iff.mp hl).flip
  have hB' := builds_perm hlp.symm hB
  have hw' := hw.trans (hlp.symm.flatMap_right _)
  have ho' : List.Forall₂ (fun f m => Module.loadAsmFile f = .ok m) order l := ho.flip
  cases ho' with
  | nil => exact absurd (List.nil_perm.1 hop) hne
  | @cons f x fs rest hf hr =>
    have hu' : ∀ g ∈ f :: fs, Unnamed g ∧ EndsInStatement g := fun g hg => hu g (hop.mem_iff.1 hg)
    obtain ⟨uf, ef⟩ := hu' f List.mem_cons_self
    obtain ⟨k, m, q1, q2, q3⟩ := builds_flatten hB' hO hf hr uf ef fun g hg => hu' g (List.mem_cons_of_mem _ hg)
    have hl' : Assembler.loadAll [(f :: fs).flatten] = .ok [m] := loadAll_iff.mpr (.cons q1 .nil)
    obtain ⟨ws', a', h', hw₁⟩ := assembles_of_builds hl' q2
    rw [q3] at hw₁
    exact ⟨f :: fs, hop, k, ws', a', h', hw₁.trans hw'.symm, fun externs externs' he he' id v =>
      same_values h h' hl' q2 he he' id v⟩

/-- A third file, that the other two do not need. -/
def thirdPart : List Str := [cs!" .org $8200", cs!"table .dw init, help, twice"]

/-- The hypotheses can be met by three files, and what the theorem says of them is so. -/
example : (∃ ws a, Assembles 30 [thirdPart, secondPart, firstPart] ws a) ∧ [thirdPart, secondPart, firstPart] ≠ [] ∧
    (∀ f ∈ [thirdPart, secondPart, firstPart], Unnamed f ∧ EndsInStatement f) ∧
    (writtenBy [[firstPart, secondPart, thirdPart].flatten]).isSome = true ∧
    writtenBy [[thirdPart, secondPart, firstPart].flatten] = none := by
  refine ⟨?_, by simp, ?_, by decide +kernel, by decide +kernel⟩
  · obtain ⟨ws, a, h, -⟩ := assembles_of_check (fuel := 30) (files := [thirdPart, secondPart, firstPart])
      (fun _ _ => true) (by decide +kernel)
    exact ⟨ws, a, h⟩
  · intro f hf
    simp only [List.mem_cons, List.not_mem_nil, or_false] at hf
    rcases hf with rfl | rfl | rfl <;> exact part_of_test (by decide +kernel)

/-! ## A part of a file left out -/

theorem branchesOut_refers {f : List Str} {id : FullId} (h : BranchesOut f id) : FileRefers f id := by
  obtain ⟨m, items, hm, hF, i, line, k, h1, h2, -, -, x, hx, hf, e⟩ := h
  exact ⟨m, items, hm, hF, i, line, h1, k.arg1, by rw [h2]; simp [operands], x, hx, hf, e⟩

/-- The order of the files matters for no value. -/
theorem permuted_same {fuel : Nat} {fs gs : List (List Str)} {ws : Writes} {a : Assembler} (hp : fs.Perm gs)
    (h : Assembles fuel fs ws a) : ∃ ws' a', Assembles fuel gs ws' a' ∧ ws.Perm ws' ∧
      ∀ externs externs', Publishes a.modules externs → Publishes a'.modules externs' →
        ∀ id v, externs id = .ok v ↔ externs' id = .ok v := by
  obtain ⟨ms, hl, hB, hw⟩ := builds_of_assembles h
  obtain ⟨ms', hl', hpm⟩ := loadAll_perm hp hl
  have hB' := builds_perm hpm hB
  obtain ⟨ws', a', h', hw'⟩ := assembles_of_builds hl' hB'
  exact ⟨ws', a', h', hw.trans ((hpm.flatMap_right _).trans hw'.symm), fun externs externs' he he' id v =>
    same_values h h' hl' hB' he he' id v⟩

/-- **A part of a file that nothing refers to may be left out.**  Let a file be divided as in `C106_divided`.  If neither
the first part nor another file refers to a name of the second, the files assemble without it, and make the writes they made
with it but for some. -/
theorem C106_left_out {fuel : Nat} {o₁ o₂ : List (List Str)} {A B : List Str} {ws : Writes} {s : Assembler} {x y : Module}
    (h : Assembles fuel (o₁ ++ (A ++ B) :: o₂) ws s) (hA : Module.loadAsmFile A = .ok x) (hB : Module.loadAsmFile B = .ok y)
    (uA : Unnamed A) (uB : Unnamed B) (eA : EndsInStatement A) (sB : StartsWithOrg B)
    (hr : ∀ f ∈ o₁ ++ A :: o₂, ∀ id, FileRefers f id → ¬ FileExports B id)
    (bB : ∀ id, BranchesOut B id → ¬ FileExports A id)
    (hO : ∃ order, order.Perm (o₁ ++ A :: B :: o₂) ∧ ConstantsInOrder order) :
    ∃ ws' s', Assembles fuel (o₁ ++ A :: o₂) ws' s' ∧ (∃ more, ws.Perm (ws' ++ more)) ∧
      ∀ externs externs', Publishes s'.modules externs' → Publishes s.modules externs →
        ∀ id v, externs' id = .ok v → externs id = .ok v := by
  obtain ⟨ws₁, s₁, h1, hw1, hv1⟩ := C106_divided h hA hB uA uB eA sB
    (fun id hid => hr A (by simp) id (branchesOut_refers hid)) bB hO
  have hp : (o₁ ++ A :: B :: o₂).Perm ((o₁ ++ A :: o₂) ++ [B]) := by
    simp only [List.append_assoc, List.cons_append]
    exact (((List.perm_append_singleton B o₂).symm.cons A)).append_left o₁
  obtain ⟨ws₂, s₂, h2, hw2, hv2⟩ := permuted_same hp h1
  obtain ⟨ws₃, s₃, h3⟩ := C79_removed h2 fun f hf g hg => by
    cases List.mem_singleton.1 hg; exact hr f hf
  obtain ⟨⟨more, hm⟩, hv3⟩ := C79_added h3 h2
  obtain ⟨_, _, hA₁⟩ := assembled h1
  obtain ⟨_, _, hA₂⟩ := assembled h2
  exact ⟨ws₃, s₃, h3, ⟨more, hw1.symm.trans (hw2.trans hm)⟩, fun E E' hE' hE id v hv =>
    (hv1 _ _ hE (assembled_publishes hA₁) id v).2 ((hv2 _ _ (assembled_publishes hA₁) (assembled_publishes hA₂) id v).2
      (hv3 _ _ hE' (assembled_publishes hA₂) id v hv))⟩

/-- A part that nothing refers to, though it refers to the part before it. -/
def sparePart : List Str := [cs!" .org $8200", cs!"spare .entry m8x8", cs!" jsr init", cs!" rts"]

def wholePart : List Str := [cs!" .org $8000", cs!"init .entry m8x8", cs!"wait bra wait"]

/-- The hypotheses can be met, and what the theorem says is so. -/
example : (∃ ws s, Assembles 30 ([] ++ (wholePart ++ sparePart) :: []) ws s) ∧ (∃ x, Module.loadAsmFile wholePart = .ok x) ∧
    (∃ y, Module.loadAsmFile sparePart = .ok y) ∧ Unnamed wholePart ∧ Unnamed sparePart ∧ EndsInStatement wholePart ∧
    StartsWithOrg sparePart ∧ (∀ f ∈ [] ++ wholePart :: [], ∀ id, FileRefers f id → ¬ FileExports sparePart id) ∧
    (∀ id, BranchesOut sparePart id → ¬ FileExports wholePart id) ∧ ConstantsInOrder [wholePart, sparePart] ∧
    writtenBy [wholePart] = some [(0x8000, [0x80, 0xfe])] := by
  refine ⟨?_, ⟨_, rfl⟩, ⟨_, rfl⟩, (part_of_test (by decide +kernel)).1, (part_of_test (by decide +kernel)).1,
    (part_of_test (by decide +kernel)).2, org_of_test (by decide +kernel), ?_,
    fun id h => absurd h (branches_of_check (by decide +kernel) id), pair_in_order (by decide +kernel), by decide +kernel⟩
  · obtain ⟨ws, a, h, -⟩ := assembles_of_check (fuel := 30) (files := [wholePart ++ sparePart])
      (fun _ _ => true) (by decide +kernel)
    exact ⟨ws, a, h⟩
  · intro f hf id h
    simp only [List.nil_append, List.mem_singleton] at hf
    subst hf
    exact absurd (refers_of_check (fun _ => false) (by decide +kernel) h) (by simp)

end Nsasm.Props
