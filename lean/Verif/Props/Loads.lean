import Verif.Lemmas.UnusedLink
import Verif.Lemmas.BindingsLoad

/-!
# Which files are accepted

C38.  Together with `C38_accepts`: a file is accepted exactly if its lines can be read, its blocks are balanced, no block
defines a name twice and the module is named at most once (`C38_exactly`).
-/

namespace Nsasm.Props
open Nsasm Nsasm.Spec

theorem fileItems_nameless {file : List Str} {items : List Item} (h : FileItems file items) : ∀ it ∈ items, Unused.FreeItem [] it := by
  obtain ⟨per, h1, rfl⟩ := h
  induction h1 with
  | nil => intro it hit; cases hit
  | cons hx _ ih =>
    intro it hit
    rw [List.flatten_cons, List.mem_append] at hit
    rcases hit with hit | hit
    · obtain ⟨ts, ht, hp⟩ := hx
      exact Unused.parse_free (tokenize_names _ ts ht) (tokenize_names _ ts ht) hp it hit
    · exact ih it hit

theorem loadItems_modules {items : List Item} : ∀ {ld ld' : Module.Loading} (ls : List ParsedLabel), (∀ it ∈ items, Unused.FreeItem [] it) →
    Module.loadItems ld items = .ok ld' →
    ((program ls items).filter (IsDirective .module_)).length ≤ (if ld.m.name = [] then 1 else 0) ∧
    ∀ l ∈ program ls items, ∀ d, l.statement = .dir d → d.name = .module_ → d.argument.simpleIdentifier.isSome := by
  induction items with
  | nil => intro ld ld' ls _ h; exact ⟨Nat.zero_le _, fun l hl => by cases hl⟩
  | cons it items ih =>
    intro ld ld' ls hf h
    have hf' : ∀ it ∈ items, Unused.FreeItem [] it := fun x hx => hf x (List.mem_cons_of_mem _ hx)
    cases it with
    | label l => exact ih (ld := { ld with pending := ld.pending ++ [l] }) (ls ++ [l]) hf' h
    | stmt st =>
      rw [Module.loadItems] at h
      obtain ⟨ld1, h1, h2⟩ := Res.bind_eq_ok.mp h
      obtain ⟨b1, b2⟩ := ih [] hf' h2
      unfold Module.loadStatement at h1
      obtain ⟨m1, h3, h4⟩ := Res.bind_eq_ok.mp h1
      have hname : m1.name = ld.m.name := (Bindings.addLabels_fresh h3).1
      rw [program]
      cases st with
      | instr i =>
        cases h4
        rw [List.filter_cons, if_neg (by simp [IsDirective])]
        rw [← hname]
        refine ⟨b1, fun l hl d hd hn => ?_⟩
        rcases List.mem_cons.mp hl with rfl | hl
        · cases hd
        · exact b2 l hl d hd hn
      | dir d =>
        by_cases hm : d.name = .module_
        · simp only [Module.loadDirective, if_pos hm] at h4
          split at h4
          · cases h4
          · next he =>
            cases hs : d.argument.simpleIdentifier with
            | none => rw [hs] at h4; cases h4
            | some id =>
              rw [hs] at h4
              cases h4
              have hid : id ≠ [] := by
                have hfr : Unused.Free [] d.argument := (hf _ (List.mem_cons_self ..)).1
                revert hs hfr
                cases d.argument with
                | ident x t =>
                  intro hs hfr
                  simp only [Expr.simpleIdentifier] at hs
                  split at hs
                  · cases hs
                  · cases hs; exact hfr
                | _ => intro hs; cases hs
              simp only [if_neg hid] at b1
              rw [List.filter_cons, if_pos (by simp [IsDirective, hm]), List.length_cons]
              have : ld.m.name = [] := by rw [← hname]; simpa using he
              rw [if_pos this]
              refine ⟨by omega, fun l hl d' hd hn => ?_⟩
              rcases List.mem_cons.mp hl with rfl | hl
              · cases hd; rw [hs]; rfl
              · exact b2 l hl d' hd hn
        · have hn1 : ld1.m.name = ld.m.name := by
            rw [← hname]
            simp only [Module.loadDirective, if_neg hm] at h4
            split at h4
            · cases h4; rfl
            · split at h4
              · cases hs : ld.scopes with
                | nil => simp only [hs] at h4; cases h4
                | cons _ _ => simp only [hs] at h4; cases h4; rfl
              · cases h4; rfl
          rw [hn1] at b1
          rw [List.filter_cons, if_neg (by simp [IsDirective, hm])]
          refine ⟨b1, fun l hl d' hd hn => ?_⟩
          rcases List.mem_cons.mp hl with rfl | hl
          · cases hd; exact absurd hn hm
          · exact b2 l hl d' hd hn

theorem loaded_oneModuleName {file : List Str} {items : List Item} {m : Module} (hF : FileItems file items)
    (h : Module.loadAsmFile file = .ok m) : OneModuleName (program [] items) := by
  unfold Module.loadAsmFile at h
  obtain ⟨ld, h1, -⟩ := Res.bind_eq_ok.mp h
  obtain ⟨its, hF2, hl⟩ := (loadLines_ok file _ _).mp h1
  cases fileItems_unique hF hF2
  exact loadItems_modules [] (fileItems_nameless hF) hl

/-- C38.  Exactly these files are accepted. -/
theorem C38_exactly (file : List Str) : (∃ m, Module.loadAsmFile file = .ok m) ↔
    ∃ items, FileItems file items ∧ Spec.Balanced (program [] items) ∧ NoDuplicates (program [] items) ∧ OneModuleName (program [] items) := by
  constructor
  · rintro ⟨m, h⟩
    obtain ⟨items, hF, hI, hb, -⟩ := loadAsmFile_ok h
    exact ⟨items, hF, hb, (noDuplicates_iff _).mpr hI.nodup, loaded_oneModuleName hF h⟩
  · rintro ⟨items, hF, hb, hn, hm⟩
    exact loadAsmFile_accepts hF hb hn hm

end Nsasm.Props
