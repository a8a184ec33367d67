import Verif.Lemmas.Faults

/-!
# C80: an error names the file and line at fault

`Verif/Model/Located.lean` follows the locations that the errors carry.  `C80_same_outcome`: it is the assembler of the other
theorems, and only the locations are added.
-/

namespace Nsasm.Props
open Nsasm Nsasm.Spec

/-- Without the locations, the outcome is the one that all other theorems are about. -/
theorem C80_same_outcome {σ : Type} (fuel : Nat) (files : List (Str × List Str)) (sink : Sink σ) (s : σ) :
    ((Assembler.assembleFilesAt fuel files sink s).1, (Assembler.assembleFilesAt fuel files sink s).2.erase) =
      Assembler.assembleFiles fuel (files.map (·.2)) sink s :=
  Assembler.erase_assembleFilesAt fuel files sink s

/-- An error that comes with a line of a file is due to that line: the number is its own, counted from 1, and what is
reported is wrong with a statement on that line.

Missing: a name that two files define is reported with the number of a statement for a line (`C80_violated_duplicate`), and
some errors come without a location (`C80_violated_missing`, `C80_violated_word`). -/
theorem C80_reported_partial {σ : Type} {fuel : Nat} {files : List (Str × List Str)} {sink : Sink σ} {s s' : σ} {e : Err}
    {loc : Location} (h : Assembler.assembleFilesAt fuel files sink s = (s', .err e loc)) :
    AtFault files fuel sink s loc e ∨ (e = .duplicateExport ∧ TwiceDefined files loc) ∨
      (loc = .none ∧ Unplaced files e) := by
  unfold Assembler.assembleFilesAt at h
  cases hl : Assembler.loadAllAt files with
  | ub u => rw [hl] at h; cases h
  | err e' l' =>
    rw [hl] at h
    simp only [Prod.mk.injEq, LRes.err.injEq] at h
    obtain ⟨-, rfl, rfl⟩ := h
    obtain ⟨⟨path, file⟩, hf, hx⟩ := Assembler.loadAllAt_err hl
    rcases Module.loadAsmFileAt_err hx with ⟨n, rfl, h1 | ⟨rfl, h1⟩⟩ | ⟨h1, rfl, line, h2, ts, h3, h4⟩
    · exact .inl (.load hf h1)
    · exact .inl (.scope hf h1)
    · exact .inr (.inr ⟨h1, .parse hf h2 h3 h4⟩)
  | ok r =>
    obtain ⟨ps, ms⟩ := r
    rw [hl] at h
    simp only at h
    obtain ⟨hpath, hlen, hfile⟩ := Assembler.loadAllAt_ok hl
    have hload : Assembler.loadAll (files.map (·.2)) = .ok ms := by
      rw [← (Assembler.erase_loadAllAt files).1, hl]; rfl
    have hplen : ps.length = ms.length := (Assembler.erase_loadAllAt files).2 ps ms hl
    have hat : ∀ (i : Nat) (m : Module), ms[i]? = some m → ∃ path file, files[i]? = some (path, file) ∧
        Module.loadAsmFile file = .ok m ∧ (Assembler.placeOf ps i).path = path ∧
        ∀ j, j < m.lines.length → ∃ n, Module.place (Assembler.placeOf ps i).path (Assembler.placeOf ps i).nums j = ⟨path, some n⟩ ∧
          StandsOn file n j := by
      intro i m hm
      obtain ⟨path, file, nums, h1, h2, h3⟩ := hfile i m hm
      obtain ⟨a1, a2, a3⟩ := Module.loadAsmFileAt_ok h3
      have hp : Assembler.placeOf ps i = ⟨path, nums⟩ := by simp [Assembler.placeOf, h2]
      refine ⟨path, file, h1, a1, by rw [hp], fun j hj => ?_⟩
      have hj' : j < nums.length := by omega
      refine ⟨nums[j], ?_, a3 j _ (List.getElem?_eq_getElem hj')⟩
      rw [hp]
      simp [Module.place, List.getElem?_eq_getElem hj']
    have hz : ((ps.map (·.path)).zip ms).map (·.2) = ms := by
      rw [List.map_snd_zip]; simp [hplen]
    unfold Assembler.assembleAt at h
    cases hp : Assembler.prepareAt ps fuel ms with
    | ub u => rw [hp] at h; cases h
    | err e' l' =>
      rw [hp] at h
      simp only [Prod.mk.injEq, LRes.err.injEq] at h
      obtain ⟨-, rfl, rfl⟩ := h
      unfold Assembler.prepareAt at hp
      rcases LRes.bind_eq_err.mp hp with hp | ⟨o, ho, hp⟩
      · -- the order
        have hnd : ∀ p ∈ (ps.map (·.path)).zip ms, NamesNodup p.2 := by
          intro p hp
          have : p.2 ∈ ms := List.of_mem_zip hp |>.2
          obtain ⟨i, hi⟩ := List.getElem?_of_mem this
          obtain ⟨_, _, -, hm, -⟩ := hat i p.2 hi
          exact loaded_namesNodup hm
        rcases Assembler.orderLoopAt_err hnd _ ⟨fun id h => by simp [HMap.has, HMap.find] at h,
            fun id loc h => by simp [HMap.find] at h⟩ hp with ⟨rfl, hx⟩ | ⟨hn, rfl | rfl⟩
        · obtain ⟨i, k, path, path', m, m', name, t, t', b1, b2, b3, b4, b5, b6, rfl⟩ := hx
          have get : ∀ {i : Nat} {path : Str} {m : Module}, ((ps.map (·.path)).zip ms)[i]? = some (path, m) →
              ∃ file, files[i]? = some (path, file) ∧ Module.loadAsmFile file = .ok m := by
            intro i path m hx
            rw [List.getElem?_zip_eq_some] at hx
            obtain ⟨c1, c2⟩ := hx
            obtain ⟨p', f', d1, d2, -⟩ := hat i m c2
            rw [hpath, List.getElem?_map, d1] at c1
            cases c1
            exact ⟨f', d1, d2⟩
          obtain ⟨f1, g1, g2⟩ := get b2
          obtain ⟨f2, g3, g4⟩ := get b3
          exact .inr (.inl ⟨rfl, .name b1 g1 g3 g2 g4 b4 b5 b6⟩)
        · exact .inr (.inr ⟨hn, .steps⟩)
        · exact .inr (.inr ⟨hn, .cyclic⟩)
      have hord : Assembler.findAssemblyOrder ms = .ok o.o := by
        have := Assembler.erase_findAssemblyOrderAt ((ps.map (·.path)).zip ms)
        rw [hz, ho] at this
        exact this.symm
      obtain ⟨hperm, -⟩ := C45_order_sound hord
      have hnd : o.o.order.Nodup := hperm.symm.nodup List.nodup_range
      rcases LRes.bind_eq_err.mp hp with hp | ⟨ms₁, h1, hp⟩
      · obtain ⟨i, -, m, hm, hx⟩ := Assembler.firstPassesAt_err _ _ hnd (fun _ _ => rfl) hp
        obtain ⟨path, file, c1, c2, -, c3⟩ := hat i m hm
        obtain ⟨items, -, hI, -, -⟩ := loadAsmFile_ok c2
        rcases Module.runFirstPassAt_err (loaded_branches c2) (loaded_written c2)
            (fun k l hl => (hI.line k l hl).2.2.1) hx with ⟨k, rfl, hf⟩ | ⟨hn, rfl | ⟨rfl, t, ht⟩⟩
        · obtain ⟨n, hn, hs⟩ := c3 k hf.inside
          rw [hn]
          exact .inl (.flow (List.mem_of_getElem? c1) c2 hs hf)
        · exact .inr (.inr ⟨hn, .steps⟩)
        · exact .inr (.inr ⟨hn, .pastEnd (List.mem_of_getElem? c1) c2 ht⟩)
      have h1 : Assembler.firstPasses fuel ms o.o.order = .ok ms₁ := by
        rw [← Assembler.erase_firstPassesAt ps, h1]; rfl
      obtain ⟨hl1, he1⟩ := firstPasses_each hnd h1
      have hun : ∀ i ∈ o.o.order, ∀ m, ms₁[i]? = some m → Unvalued m := by
        intro i hi m hm
        obtain ⟨m0, hm0, ⟨-, hp⟩ | ⟨hc, -⟩⟩ := he1 i m hm
        · obtain ⟨_, _, -, hf, -⟩ := hat i m0 hm0
          exact unvalued_first hf hp
        · exact absurd hi hc
      rcases LRes.bind_eq_err.mp hp with hp | ⟨ms₂, h2, hp⟩
      swap
      · cases hp
      obtain ⟨pre, i, post, ms', m, a1, a2, a3, a4⟩ := Assembler.secondPassesAt_err _ _ hp
      have hndp := hnd
      rw [a1, List.nodup_append] at hndp
      obtain ⟨hmore, he2⟩ := secondPasses_each hndp.1 (fun k hk => hun k (by rw [a1]; simp [hk])) a2
      have hnot : i ∉ pre := fun hi => (hndp.2.2 i hi i (by simp)) rfl
      obtain ⟨m1, hm1, ⟨hc, -⟩ | ⟨-, rfl⟩⟩ := he2 i m a3
      · exact absurd hc hnot
      obtain ⟨m0, hm0, ⟨-, hfp⟩ | ⟨hc, -⟩⟩ := he1 i m hm1
      swap
      · exact absurd (by rw [a1]; simp) hc
      obtain ⟨k, rfl, hf⟩ := Module.runSecondPassAt_err (hun i (by rw [a1]; simp) m hm1) a4
      obtain ⟨path, file, c1, c2, -, c3⟩ := hat i m0 hm0
      obtain ⟨n, hn, hs⟩ := c3 k (by
        have := hf.inside
        rwa [firstPass_length hfp] at this)
      rw [hn]
      exact .inl (.constant c1 hload hord h1 a1 a2 a3 hs hf)
    | ok r =>
      obtain ⟨a, order⟩ := r
      rw [hp] at h
      simp only at h
      have hprep : Assembler.prepare fuel ms = .ok (a, order) := by
        rw [← Assembler.erase_prepareAt ps fuel ms hplen, hp]; rfl
      obtain ⟨o, ms₁, ho, rfl, hnames, hmem, h1, h2⟩ := prepare_parts hprep
      obtain ⟨hperm, -⟩ := C45_order_sound ho
      have hnd : o.order.Nodup := hperm.symm.nodup List.nodup_range
      obtain ⟨hl1, he1⟩ := firstPasses_each hnd h1
      have hun : ∀ i ∈ o.order, ∀ m, ms₁[i]? = some m → Unvalued m := by
        intro i hi m hm
        obtain ⟨m0, hm0, ⟨-, hp⟩ | ⟨hc, -⟩⟩ := he1 i m hm
        · obtain ⟨_, _, -, hf, -⟩ := hat i m0 hm0
          exact unvalued_first hf hp
        · exact absurd hi hc
      obtain ⟨hmore, he2⟩ := secondPasses_each hnd hun h2
      have back : ∀ (i : Nat) (m₂ : Module), a.modules[i]? = some m₂ → ∃ m₀ m₁ externs, ms[i]? = some m₀ ∧
          ms₁[i]? = some m₁ ∧ m₀.runFirstPass fuel = .ok m₁ ∧ m₁.runSecondPass externs = .ok m₂ := by
        intro i m₂ hm
        obtain ⟨m₁, e1, hx⟩ := he2 i m₂ hm
        have hi : i ∈ o.order := by
          refine hperm.mem_iff.2 (List.mem_range.2 ?_)
          rw [← hl1]
          exact (List.getElem?_eq_some_iff.mp e1).1
        obtain ⟨m₀, e0, ⟨-, hf⟩ | ⟨hc, -⟩⟩ := he1 i m₁ e1
        · rcases hx with ⟨-, ex, hs, -⟩ | ⟨hc, -⟩
          · exact ⟨m₀, m₁, ex, e0, e1, hf, hs⟩
          · exact absurd hi hc
        · exact absurd hi hc
      rcases Assembler.finalPassesAt_err o.order a s hnd rfl
          ⟨rfl, fun i x y hx hy => by rw [hx] at hy; cases hy; exact .refl _⟩ (fun _ _ => rfl) (by
            intro i _ m₂ hm
            obtain ⟨m₀, m₁, ex, e0, e1, hf, hs⟩ := back i m₂ hm
            obtain ⟨_, _, -, c2, -⟩ := hat i m₀ e0
            refine ⟨Module.valued_passes (unvalued_first c2 hf) hf hs, ?_⟩
            obtain ⟨items, -, hI, -, -⟩ := loadAsmFile_ok c2
            obtain ⟨_, _, _, -, -, -, rfl⟩ := firstPass_parts hf
            obtain ⟨_, rfl⟩ := secondPass_fields hs
            exact hI.fresh.1) ⟨[], .nil s⟩ h with ⟨i, m₂, j, hm, rfl, hf⟩ | ⟨hn, rfl⟩
      · obtain ⟨m₀, m₁, ex, e0, e1, hfp, hs⟩ := back i m₂ hm
        obtain ⟨path, file, c1, c2, -, c3⟩ := hat i m₀ e0
        obtain ⟨n, hn, hst⟩ := c3 j (by
          have := hf.inside
          obtain ⟨hmore, -, -⟩ := secondLoop_spec _ 0 m₁ m₂ hs (fun j l d _ => unvalued_first c2 hfp j l d)
          have hlen : m₂.lines.length = m₁.lines.length := by simpa using congrArg List.length hmore.lines
          rwa [hlen, firstPass_length hfp] at this)
        rw [hn]
        exact .inl (.write c1 hload hprep hm hst hf)
      · exact .inr (.inr ⟨hn, .overlap⟩)

/-- The error and its location when the files are assembled with a sink that takes everything. -/
def reportOf (files : List (Str × List Str)) : Option (Err × Location) :=
  match (Assembler.assembleFilesAt 100 files (fun (_ : Unit) _ _ => ((), .ok ())) ()).2 with
  | .err e loc => some (e, loc)
  | _ => none

/-- Not so: the line that is given for a name defined by two files is the number of a statement, here line 0 for line 3. -/
theorem C80_violated_duplicate :
    reportOf [(cs!"one", [cs!"", cs!"", cs!"val .equ 1"]), (cs!"two", [cs!"val .equ 2"])] =
      some (.duplicateExport, ⟨cs!"one", some 0⟩) := by
  decide +kernel

/-- Not so: a label that is defined twice, on lines 3 and 4, is reported on line 6, where the next statement is. -/
theorem C80_violated_label :
    reportOf [(cs!"one", [cs!" .org $8000", cs!" .entry m8x8", cs!"again nop", cs!"again", cs!"", cs!" rts"])] =
      some (.duplicateLabel, ⟨cs!"one", some 6⟩) := by
  decide +kernel

/-- Not so: errors without a location.  A return convention on an instruction that is no call, execution past the end of a
file, a name that is nowhere defined, and two files with bytes at the same address. -/
theorem C80_violated_missing :
    reportOf [(cs!"one", [cs!" .org $8000", cs!" .entry m8x8", cs!" lda #1 noreturn"])] = some (.other, .none) ∧
      reportOf [(cs!"one", [cs!" .org $8000", cs!" .entry m8x8", cs!" nop"])] = some (.pastEndOfFile, .none) ∧
      reportOf [(cs!"one", [cs!"num .equ far::away"])] = some (.cyclic, .none) ∧
      reportOf [(cs!"one", [cs!" .org $8000", cs!" .db 1"]), (cs!"two", [cs!" .org $8000", cs!" .db 1"])] =
        some (.overlap, .none) := by
  decide +kernel

/-- Not so: a word after a return convention is not reported as unexpected, but as a logic error without a location. -/
theorem C80_violated_word :
    reportOf [(cs!"one", [cs!" .org $8000", cs!" .entry m8x8", cs!"back jsr back noreturn 5"])] = some (.other, .none) := by
  decide +kernel

-- errors of each kind, with their lines: a word that is none, a scope that is not closed, a branch to nowhere, an
-- instruction that is not reached, a constant without value, a branch that is too far, a byte at an address for the second time
example :
    reportOf [(cs!"one", [cs!" .org $8000", cs!" .db 1"]), (cs!"two", [cs!"", cs!" lda ("])] =
        some (.parse, ⟨cs!"two", some 2⟩) ∧
      reportOf [(cs!"one", [cs!" .begin", cs!"", cs!" .begin", cs!" .end"])] = some (.unclosedScope, ⟨cs!"one", some 1⟩) ∧
      reportOf [(cs!"one", [cs!" .org $8000", cs!" .entry m8x8", cs!"", cs!" bra nowhere"])] =
        some (.undefinedName, ⟨cs!"one", some 4⟩) ∧
      reportOf [(cs!"one", [cs!" .org $8000", cs!" .entry m8x8", cs!" rts : rts", cs!" rts"])] =
        some (.unreached, ⟨cs!"one", some 3⟩) ∧
      reportOf [(cs!"one", [cs!"num .equ 1/0"]), (cs!"two", [cs!" .org $8000", cs!" .db num"])] =
        some (.divisionByZero, ⟨cs!"one", some 1⟩) ∧
      reportOf [(cs!"one", [cs!" .org $8000", cs!" .db 1, 2", cs!"", cs!" .org $8001", cs!" .db 3"])] =
        some (.overlap, ⟨cs!"one", some 5⟩) := by
  decide +kernel

end Nsasm.Props
