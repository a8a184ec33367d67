import Verif.Lemmas.ShiftConstant
import Verif.Props.Split
import Verif.Props.Unused

/-!
# A constant that nothing refers to

C95: a constant may be defined and not used.  Where execution cannot come, its definition changes nothing; without that condition,
it may change the code that is generated (`C95_violated`).
-/

namespace Nsasm.Props
open Nsasm Nsasm.Spec Nsasm.Shift

/-- The steps from the files without to the files with the constant: first the `.equ`, then its label. -/
theorem constant_steps {label : ParsedLabel} {v : Int} {files files' : List (List Str)} (h : ConstantAdded label v files files') :
    ∃ mid last line, List.Forall₂ (fun f f' => Both RelQ (Module.loadAsmFile f) (Module.loadAsmFile f')) files mid ∧
      LabelLine label line ∧ LineAdded line mid last ∧
      ((∀ f ∈ files, Absent label.name f) → ∀ f ∈ mid, Absent label.name f) ∧
      Assembler.loadAll last = Assembler.loadAll files' := by
  obtain ⟨pre, above, below, post, l1, l2, file', rfl, rfl, h1, h2, h3, h4, items, h5, h6⟩ := h
  have hrefl : ∀ fs : List (List Str), List.Forall₂ (fun f f' => Both RelQ (Module.loadAsmFile f) (Module.loadAsmFile f')) fs fs :=
    fun fs => List.forall₂_same.mpr fun f _ => (Both.refl _).mono fun a b _ h => .inl h
  refine ⟨pre ++ (above ++ l2 :: below) :: post, pre ++ (above ++ l1 :: l2 :: below) :: post, l1, ?_, h1,
    ⟨pre, above, l2 :: below, post, rfl, rfl⟩, ?_, loadAll_same (load_same h5 h6) post pre⟩
  · exact List.rel_append (hrefl pre) (.cons (constant_rel h2 h4) (hrefl post))
  · intro ha f hf
    rw [List.mem_append, List.mem_cons] at hf
    rcases hf with hf | rfl | hf
    · exact ha f (by simp [hf])
    · intro line hline
      rw [List.mem_append, List.mem_cons] at hline
      rcases hline with hline | rfl | hline
      · exact ha (above ++ below) (by simp) line (by simp [hline])
      · exact h3 line (by simp)
      · exact ha (above ++ below) (by simp) line (by simp [hline])
    · exact ha f (by simp [hf])

theorem same_trans {name : Str} {a b c : Assembler} (h1 : EqualAnswers a b) (h2 : SameBut name b c) : SameBut name a c where
  memory := h2.memory.trans h1.memory
  lookup := fun id hid => (h2.lookup id hid).trans (congrFun h1.lookup id)
  unknown := fun id hid v => by rw [← congrFun h1.lookup id]; exact h2.unknown id hid v
  jumpTargets := h2.jumpTargets.trans h1.jumpTargets
  conventions := h2.conventions.trans h1.conventions

/-- **A constant that nothing refers to may be removed**, where execution cannot come: if the files with it are assembled, those
without it are too; the same bytes are stored at the same addresses, and every other name stands for the same. -/
theorem C95_removed_partial {label : ParsedLabel} {v : Int} {files files' : List (List Str)}
    (hadd : ConstantAdded label v files files') (ha : ∀ f ∈ files, Absent label.name f) (fuel : Nat) {ws' : Writes} {b : Assembler}
    (h : Assembler.assembleFiles fuel files' recorder [] = (ws', .ok b)) :
    ∃ ws a, Assembler.assembleFiles fuel files recorder [] = (ws, .ok a) ∧ Spec.stored ws' = Spec.stored ws ∧
      SameBut label.name a b := by
  obtain ⟨mid, last, line, h1, h2, h3, h4, h5⟩ := constant_steps hadd
  have h' : Assembler.assembleFiles fuel last recorder [] = (ws', .ok b) := by
    rw [← h]; unfold Assembler.assembleFiles; rw [h5]
  obtain ⟨c, hc, hcb⟩ := C84_removed h2 h3 (h4 ha) fuel recorder [] ws' b h'
  rcases assembleFiles_pair h1 fuel with ⟨x, y, e1, e2, ⟨D, e3⟩, e4⟩ | ⟨-, e2⟩
  · rw [hc] at e2 e4
    cases e2
    exact ⟨_, x, Prod.ext rfl e1, stored_parted e4, same_trans (same_of_pair e3) hcb⟩
  · rw [hc] at e2; exact absurd rfl (e2 c)

/-- **A constant that nothing refers to may be added**, where execution cannot come: the same bytes are stored at the same addresses
and every other name stands for the same, or the assembly ends because of a name with a value that is no address.  Missing: other
places (`C95_violated`), and that the latter does not happen (`C84_violated`). -/
theorem C95_added_partial {label : ParsedLabel} {v : Int} {files files' : List (List Str)}
    (hadd : ConstantAdded label v files files') (ha : ∀ f ∈ files, Absent label.name f) (fuel : Nat) {ws : Writes} {a : Assembler}
    (h : Assembler.assembleFiles fuel files recorder [] = (ws, .ok a)) :
    (∃ ws' b, Assembler.assembleFiles fuel files' recorder [] = (ws', .ok b) ∧ Spec.stored ws' = Spec.stored ws ∧
      SameBut label.name a b) ∨
      (Assembler.assembleFiles fuel files' recorder []).2 = .err .noValue ∨
      (Assembler.assembleFiles fuel files' recorder []).2 = .ub .assertFail := by
  obtain ⟨mid, last, line, h1, h2, h3, h4, h5⟩ := constant_steps hadd
  have hl : Assembler.assembleFiles fuel files' recorder [] = Assembler.assembleFiles fuel last recorder [] := by
    unfold Assembler.assembleFiles; rw [h5]
  rw [hl]
  rcases assembleFiles_pair h1 fuel with ⟨x, y, e1, e2, ⟨D, e3⟩, e4⟩ | ⟨e1, -⟩
  · rw [h] at e1 e4
    cases e1
    rcases C84_added_partial h2 h3 (h4 ha) fuel recorder [] _ y (Prod.ext rfl e2) with ⟨b, hb, hyb⟩ | hf
    · exact .inl ⟨_, b, hb, stored_parted e4, same_trans (same_of_pair e3) hyb⟩
    · exact .inr hf
  · rw [h] at e1; exact absurd rfl (e1 a)

/-- A constant is added in the middle of code: another machine instruction is generated for the line after it. -/
theorem C95_violated :
    writtenBy [[cs!" .org $8000", cs!"start .entry m8x8", cs!"loop sep #$20", cs!"mid bit #1", cs!" rep #$20", cs!" bne mid",
      cs!" bra loop"]] = some [(0x8000, [0xe2, 0x20]), (0x8002, [0x89, 0x01]), (0x8004, [0xc2, 0x20]), (0x8006, [0xd0, 0xfa]),
      (0x8008, [0x80, 0xf6])] ∧
    writtenBy [[cs!" .org $8000", cs!"start .entry m8x8", cs!"loop sep #$20", cs!"unused .equ 1", cs!"mid bit #1", cs!" rep #$20",
      cs!" bne mid", cs!" bra loop"]] = some [(0x8000, [0xe2, 0x20]), (0x8002, [0x89, 0x01, 0x00]), (0x8005, [0xc2, 0x20]),
      (0x8007, [0xd0, 0xf9]), (0x8009, [0x80, 0xf5])] := by
  decide +kernel

/-! ## The hypotheses can be met -/

/-- A module with code and data. -/
def constantAbove : List Str := [cs!" .module main", cs!" .org $8000", cs!"go .entry m8x8", cs!" lda table", cs!" rts"]
def constantBelow : List Str := [cs!"table .db 1"]

/-- Checks for a constant that is added as one line between two parts of a file. -/
def constantTest (label : ParsedLabel) (v : Int) (above below : List Str) (l1 l2 line : Str) : Bool :=
  match tokenize l1, tokenize l2, readItems (above ++ l1 :: l2 :: below), readItems (above ++ line :: below) with
  | .ok t1, .ok t2, some xs, some ys => match Parse.parse t1, Parse.parse t2 with
    | .ok i1, .ok [.stmt (.dir d)] => decide (i1 = [.label label] ∧ d.name = .equ ∧ Token.ident label.name ∉ t2 ∧ xs = ys) &&
        (match d.argument.eval nullCtx with
          | .ok w => decide (w = v)
          | _ => false)
    | _, _ => false
  | _, _, _, _ => false

theorem constant_of_test {label : ParsedLabel} {v : Int} {above below : List Str} {l1 l2 line : Str}
    (h : constantTest label v above below l1 l2 line = true) (ho : OffPath above below) (pre post : List (List Str)) :
    ConstantAdded label v (pre ++ (above ++ below) :: post) (pre ++ (above ++ line :: below) :: post) := by
  unfold constantTest at h
  split at h
  · rename_i t1 t2 xs ys h1 h2 h3 h4
    split at h
    · rename_i i1 d h5 h6
      rw [Bool.and_eq_true] at h
      obtain ⟨ha, hb⟩ := h
      obtain ⟨rfl, hd, hn, rfl⟩ := of_decide_eq_true ha
      split at hb
      · rename_i w hw
        have := of_decide_eq_true hb
        subst this
        refine ⟨pre, above, below, post, l1, l2, _, rfl, rfl, ⟨t1, h1, h5⟩, ⟨t2, d, h2, h6, hd, hw⟩, ?_, ho, xs,
          fileItems_of_read h3, fileItems_of_read h4⟩
        intro x hx ts hts
        rw [List.mem_singleton] at hx
        subst hx
        rw [h2] at hts
        cases hts
        exact hn
      · cases hb
    · cases h
  · cases h

def readsTo (file : List Str) (f : List Item → Bool) : Bool :=
  match readItems file with
  | some xs => f xs
  | none => false

/-- The last statement above is an `rts`. -/
theorem constant_off : OffPath constantAbove constantBelow := by
  have h : readsTo constantAbove (fun xs => match xs.getLast? with
      | some (.stmt st) => decide (Stops st ∧ st.isDir .entry = false) | _ => false) = true := by
    decide +kernel
  have hB : readsTo constantBelow (fun _ => true) = true := by decide +kernel
  unfold readsTo at h hB
  split at h
  · rename_i xs hx
    simp only at h
    split at h
    · rename_i st hs
      split at hB
      · rename_i ys hy
        obtain ⟨h1, h2⟩ := of_decide_eq_true h
        refine ⟨xs.dropLast, st, ys, ?_, fileItems_of_read hy, ?_, .inl h1⟩
        swap
        · rintro d rfl; simpa [Statement.isDir] using h2
        rw [List.dropLast_append_getLast? _ hs]
        exact fileItems_of_read hx
      · cases hB
    · cases h
  · cases h

/-- At the head of a file, before `.org`. -/
example : OffPath [cs!" .module main"] [cs!" .org $8000", cs!"go .entry m8x8", cs!" rts"] := by
  have h : readsTo [cs!" .org $8000", cs!"go .entry m8x8", cs!" rts"] (fun xs => match xs with
      | .stmt (.dir d) :: _ => decide (d.name = .org) | _ => false) = true := by decide +kernel
  have hA : readsTo [cs!" .module main"] (fun xs => match xs with
      | [.stmt (.dir d)] => decide (d.name = .module_) | _ => false) = true := by decide +kernel
  unfold readsTo at h hA
  split at hA
  · rename_i xs hx
    simp only at hA
    split at hA
    · rename_i d
      split at h
      · rename_i ys hy
        simp only at h
        split at h
        · rename_i d' B
          have h1 := of_decide_eq_true hA
          have h2 := of_decide_eq_true h
          refine ⟨[], .dir d, _, fileItems_of_read hx, fileItems_of_read hy, ?_, .inr (.inr ?_)⟩
          · intro x hx; cases hx; rw [h1]; simp
          · rw [CodeFree, h2]; exact ⟨by simp, .inl (by simp)⟩
        · cases h
      · cases h
    · cases hA
  · cases hA

/-- A constant `unused`, between the code and the data. -/
example : ConstantAdded ⟨cs!"unused", false⟩ 6 [constantAbove ++ constantBelow]
      [constantAbove ++ cs!"unused .equ 2*3" :: constantBelow] ∧
    (∀ f ∈ [constantAbove ++ constantBelow], Absent cs!"unused" f) ∧
    writtenBy [constantAbove ++ constantBelow] = some [(0x8000, [0xad, 0x04, 0x80]), (0x8003, [0x60]), (0x8004, [0x01])] ∧
    writtenBy [constantAbove ++ cs!"unused .equ 2*3" :: constantBelow] =
      some [(0x8000, [0xad, 0x04, 0x80]), (0x8003, [0x60]), (0x8004, [0x01])] := by
  refine ⟨constant_of_test (l1 := cs!"unused:") (l2 := cs!" .equ 2*3") (by decide +kernel) constant_off [] [], ?_, by decide +kernel,
    by decide +kernel⟩
  have : ∀ f ∈ [constantAbove ++ constantBelow], ∀ line ∈ f, (match tokenize line with
      | .ok ts => decide (Token.ident cs!"unused" ∉ ts)
      | _ => true) = true := by decide +kernel
  intro f hf line hline ts ht
  have := this f hf line hline
  rw [ht] at this
  exact of_decide_eq_true this

end Nsasm.Props
