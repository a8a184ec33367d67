import Verif.Lemmas.BindingsBlock
import Verif.Props.Loads
import Verif.Props.Split
import Verif.Props.Unused

/-!
# Only what a name stands for matters

C99.  Two sets of files that differ only in names, where the names stand for the same things, give the same
(`C99_bindings`).  So a name that belongs to a block can be replaced by any word that does not occur in the block, even
by one that is used outside of it (`C99_block`).
-/

namespace Nsasm.Props
open Nsasm Nsasm.Spec

/-- C99.  Files that differ only in names that stand for the same, with any sink and any state of it: the same is written, and the
assembler ends in the same way and then gives the same answers. -/
theorem C99_bindings {σ : Type} {files files' : List (List Str)} (h : List.Forall₂ SameFile files files') (fuel : Nat)
    (sink : Sink σ) (s : σ) :
    (Assembler.assembleFiles fuel files' sink s).1 = (Assembler.assembleFiles fuel files sink s).1 ∧
    SameOutcome (Assembler.assembleFiles fuel files sink s).2 (Assembler.assembleFiles fuel files' sink s).2 :=
  Bindings.assembleFiles_twin fuel (h.imp fun _ _ hf => Bindings.load_twin hf) sink s

/-- C99.  Replacing a name of a block, which is still a well-formed file and in which the names still stand for the same. -/
theorem C99_block {file file' : List Str} {m : Module} (hl : Module.loadAsmFile file = .ok m) (h : BlockRenamed file file') :
    (∃ m', Module.loadAsmFile file' = .ok m') ∧ SameFile file file' := by
  obtain ⟨items, items', s, v, w, hF, hF', hr⟩ := h
  obtain ⟨its, hF2, hI, hb, -⟩ := loadAsmFile_ok hl
  cases fileItems_unique hF hF2
  have hn : NoDuplicates (program [] items) := (noDuplicates_iff _).mpr hI.nodup
  have hm : OneModuleName (program [] items) := loaded_oneModuleName hF hl
  have ha := loadAsmFile_accepts hF' (Bindings.balanced_renamed hr hb) (Bindings.noDuplicates_renamed hr hn)
    (Bindings.oneModuleName_renamed hr hm)
  exact ⟨ha, .inr ⟨items, items', hF, hF', ⟨m, hl⟩, ha, Bindings.sameBindings_of_renamed hr⟩⟩

/-- C99.  Both together: in some of the files a name of a block is replaced. -/
theorem C99_renamed {σ : Type} {files files' : List (List Str)} (hl : ∀ f ∈ files, ∃ m, Module.loadAsmFile f = .ok m)
    (h : List.Forall₂ (fun f f' => f' = f ∨ BlockRenamed f f') files files') (fuel : Nat) (sink : Sink σ) (s : σ) :
    (Assembler.assembleFiles fuel files' sink s).1 = (Assembler.assembleFiles fuel files sink s).1 ∧
    SameOutcome (Assembler.assembleFiles fuel files sink s).2 (Assembler.assembleFiles fuel files' sink s).2 := by
  refine C99_bindings ?_ fuel sink s
  induction h with
  | nil => exact .nil
  | cons hf _ ih =>
    refine .cons ?_ (ih fun f hf => hl f (List.mem_cons_of_mem _ hf))
    rcases hf with rfl | hf
    · exact .inl rfl
    · obtain ⟨m, hm⟩ := hl _ (List.mem_cons_self ..)
      exact (C99_block hm hf).2

/-! ## The hypotheses can be met -/

/-- A test for `RenamedInBlock`. -/
def blockTest (P : Program) (s : Nat) (v w : Str) (P' : Program) : Bool :=
  decide ((some s, v) ∈ keys P) &&
  (List.range P.length).all (fun k => match P[k]? with
    | some l => !decide (s ∈ openAt P k) || !(decide (w ∈ l.labels.map (·.name)) || decide ((⟨none, w⟩ : FullId) ∈ usedNames l.statement))
    | none => true) &&
  decide (P'.length = P.length) &&
  (List.range P.length).all fun k => match P[k]? with
    | some l => decide (P'[k]? = some (if s ∈ openAt P k then renameLine v w l else l))
    | none => true

theorem renamed_of_test {P P' : Program} {s : Nat} {v w : Str} (h : blockTest P s v w P' = true) : RenamedInBlock P s v w P' := by
  simp only [blockTest, Bool.and_eq_true, decide_eq_true_eq, List.all_eq_true, List.mem_range] at h
  obtain ⟨⟨⟨h1, h2⟩, h3⟩, h4⟩ := h
  have hlt : ∀ {k : Nat} {l : ProgLine}, P[k]? = some l → k < P.length := fun hk => (List.getElem?_eq_some_iff.mp hk).1
  refine ⟨Nsasm.mem_keys.mp h1, ?_, h3, ?_, ?_⟩
  · intro k l he hk hm
    have := h2 k (hlt hk)
    rw [hk] at this
    have ho : s ∈ openAt P k := (mem_openAt (Nat.le_of_lt (hlt hk))).mpr he
    simp only [ho, decide_true, Bool.not_true, Bool.false_or, Bool.not_eq_true', Bool.or_eq_false_iff, decide_eq_false_iff_not] at this
    rcases hm with ⟨x, hx, rfl⟩ | hm
    · exact this.1 (List.mem_map.mpr ⟨x, hx, rfl⟩)
    · exact this.2 hm
  · intro k l he hk
    have := h4 k (hlt hk)
    rw [hk] at this
    have ho : s ∈ openAt P k := (mem_openAt (Nat.le_of_lt (hlt hk))).mpr he
    simpa [ho] using this
  · intro k l he hk
    have := h4 k (hlt hk)
    rw [hk] at this
    have ho : s ∉ openAt P k := fun ho => he ((mem_openAt (Nat.le_of_lt (hlt hk))).mp ho)
    simpa [ho] using this

theorem blockRenamed_of_test {file file' : List Str} (s : Nat) (v w : Str) (h : (match readItems file, readItems file' with
    | some xs, some ys => blockTest (program [] xs) s v w (program [] ys)
    | _, _ => false) = true) : BlockRenamed file file' := by
  split at h
  · rename_i xs ys hx hy
    exact ⟨xs, ys, s, v, w, fileItems_of_read hx, fileItems_of_read hy, renamed_of_test h⟩
  · cases h

/-- A loop with a name of its own. -/
def loopNamed (name : Str) : List Str :=
  [cs!" .module game", cs!" .org $8000", cs!"start .entry m8x8", cs!" .begin", name ++ cs!" dex", cs!" bne " ++ name, cs!" .end",
    cs!"next nop", cs!" bra next"]

/-- The loop can be called like a label outside of it. -/
example : BlockRenamed (loopNamed cs!"again") (loopNamed cs!"next") ∧ (∃ m, Module.loadAsmFile (loopNamed cs!"again") = .ok m) ∧
    writtenBy [loopNamed cs!"next"] = writtenBy [loopNamed cs!"again"] ∧
    writtenBy [loopNamed cs!"again"] =
      some [(0x8000, [0xca]), (0x8001, [0xd0, 0xfd]), (0x8003, [0xea]), (0x8004, [0x80, 0xfd])] := by
  have hb : BlockRenamed (loopNamed cs!"again") (loopNamed cs!"next") := blockRenamed_of_test 3 cs!"again" cs!"next" (by decide +kernel)
  refine ⟨hb, ?_, by decide +kernel, by decide +kernel⟩
  have : (match Module.loadAsmFile (loopNamed cs!"again") with | .ok _ => true | _ => false) = true := by decide +kernel
  split at this
  · rename_i m hm; exact ⟨m, hm⟩
  · cases this

/-- That the word does not occur in the block is needed: here it does, and the branch goes elsewhere. -/
example : writtenBy [[cs!" .org $8000", cs!"start .entry m8x8", cs!" .begin", cs!"again dex", cs!" beq next", cs!" .end", cs!"next rts"]] =
      some [(0x8000, [0xca]), (0x8001, [0xf0, 0x00]), (0x8003, [0x60])] ∧
    writtenBy [[cs!" .org $8000", cs!"start .entry m8x8", cs!" .begin", cs!"next dex", cs!" beq next", cs!" .end", cs!"next rts"]] =
      some [(0x8000, [0xca]), (0x8001, [0xf0, 0xfd]), (0x8003, [0x60])] := by
  decide +kernel

end Nsasm.Props
