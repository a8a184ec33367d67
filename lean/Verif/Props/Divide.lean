import Verif.Lemmas.DividePass
import Verif.Spec.Divide
import Verif.Props.Join

/-!
# A source file divided in two
-/

namespace Nsasm.Props
open Nsasm Nsasm.Spec Nsasm.Joined

theorem loaded_globals {f : List Str} {a : Module} (ha : Module.loadAsmFile f = .ok a) :
    ∀ g ∈ a.globals, g.2 < a.lines.length := by
  obtain ⟨items, -, hI, -, -⟩ := loadAsmFile_ok ha
  rintro ⟨n, t⟩ hg
  rw [hI.globals] at hg
  obtain ⟨_, line, lab, e1, -⟩ := mem_defs.mp (mem_tableOf.mp hg)
  rw [hI.length]
  exact (List.getElem?_eq_some_iff.1 e1).1

theorem branch_out {f : List Str} {a : Module} (ha : Module.loadAsmFile f = .ok a) {l : Line} (hl : l ∈ a.lines)
    {k : Instruction} {t : Str} (hs : l.statement = .instr k) (hk : k.isLocalBranch = true)
    (ht : k.arg1.simpleIdentifier = some t) (hn : a.localIndex t l.scopes = none) : BranchesOut f ⟨some [], t⟩ := by
  obtain ⟨items, hF, hI, -, -⟩ := loadAsmFile_ok ha
  obtain ⟨i, hi⟩ := List.mem_iff_getElem?.1 hl
  obtain ⟨⟨pl, h1, h2⟩, h3, -⟩ := hI.line i l hi
  have hlt := (List.getElem?_eq_some_iff.1 h1).1
  simp only [Instruction.isLocalBranch, Bool.and_eq_true, Bool.or_eq_true, decide_eq_true_eq] at hk
  have hx : ∃ ty, k.arg1 = .ident ⟨none, t⟩ ty := by
    cases he : k.arg1 with
    | ident id ty =>
      rw [he] at ht
      obtain ⟨mod, n⟩ := id
      cases mod with
      | none => cases ht; exact ⟨ty, rfl⟩
      | some mod => cases ht
    | _ => rw [he] at ht; cases ht
  obtain ⟨ty, he⟩ := hx
  refine ⟨a, items, ha, hF, i, pl, k, h1, by rw [← h2, hs], hk.1, hk.2, ⟨none, t⟩, by rw [he]; exact .name _, ?_, rfl⟩
  rw [← isLocal_foreign hI hlt]
  rw [h3] at hn
  simp only [Module.isLocal, hn, Option.isSome_none]

theorem exact_join {f g : List Str} {a b m : Module} (hf : Module.loadAsmFile f = .ok a)
    (hg : Module.loadAsmFile g = .ok b) (hfg : Module.loadAsmFile (f ++ g) = .ok m) (uf : Unnamed f) (ug : Unnamed g)
    (ef : EndsInStatement f) : m = join a b ∧ Exact a b (join a b) := by
  have hap := load_apart hf hg hfg (fun items hF => ef items hF) (fun items hF => unnamed_items ug hF)
  have hload := load_join hf hg (fun items hF => ef items hF) (fun items hF => unnamed_items ug hF) hap
  rw [hfg] at hload
  cases hload
  refine ⟨rfl, together_join (by rw [unnamed_name uf hf, unnamed_name ug hg]) (loaded_lines hf).1 hap, rfl, inside_loaded hf⟩

theorem unique_divide {l₁ l₂ : List Module} {a b : Module} (hn : b.name = a.name) (hap : Apart a b)
    (h : UniqueExports (l₁ ++ join a b :: l₂)) : UniqueExports (l₁ ++ a :: b :: l₂) := by
  unfold UniqueExports at h ⊢
  rw [List.pairwise_append] at h ⊢
  obtain ⟨h1, h2, h3⟩ := h
  rw [List.pairwise_cons] at h2
  obtain ⟨h4, h6⟩ := h2
  refine ⟨h1, List.pairwise_cons.2 ⟨fun q hq id hx hy => ?_, List.pairwise_cons.2 ⟨fun q hq id hx => ?_, h6⟩⟩,
    fun p hp q hq id hx hy => ?_⟩
  · rcases List.mem_cons.1 hq with rfl | hq
    · obtain ⟨-, t, ht⟩ := hx
      obtain ⟨-, u, hu⟩ := hy
      have := has_of_mem ht
      rw [hap _ hu] at this; cases this
    · exact h4 q hq id ((exports_join hn id).2 (.inl hx)) hy
  · exact h4 q hq id ((exports_join hn id).2 (.inr hx))
  · simp only [List.mem_cons] at hq
    rcases hq with rfl | rfl | hq
    · exact h3 p hp _ (by simp) id hx ((exports_join hn id).2 (.inl hy))
    · exact h3 p hp _ (by simp) id hx ((exports_join hn id).2 (.inr hy))
    · exact h3 p hp q (by simp [hq]) id hx hy

theorem value_divide {a b m : Module} (h : Exact a b m) (hin : ∀ g ∈ a.globals, g.2 < a.lines.length) (id : FullId) (v : Int) :
    m.valueForName id = .ok v ↔ a.valueForName id = .ok v ∨ b.valueForName id = .ok v := by
  unfold Module.valueForName
  rw [h.name, h.same]
  split
  · simp
  · rw [h.globals, find_append, find_move]
    cases hfa : HMap.find a.globals id.name with
    | some i =>
      have hnb : HMap.find b.globals id.name = none := by
        cases hfb : HMap.find b.globals id.name with
        | none => rfl
        | some j => have := h.apart _ (Joined.find_none hfb); simp only at this; rw [hfa] at this; cases this
      rw [hnb]
      simp only [Option.some_or, reduceCtorEq, or_false]
      exact ⟨localLookup_back_first h (hin _ (Joined.find_none hfa)), localLookup_first h.toTogether⟩
    | none =>
      simp only [Option.none_or, reduceCtorEq, false_or]
      cases hfb : HMap.find b.globals id.name with
      | none => simp
      | some j => exact ⟨localLookup_back_second h, localLookup_second h.toTogether⟩

theorem builds_divide {fuel : Nat} {E : Ctx} {l₁ l₂ : List Module} {a b m : Module} {f g : List Str}
    (hB : Builds fuel (l₁ ++ m :: l₂) E) (hf : Module.loadAsmFile f = .ok a)
    (hg : Module.loadAsmFile g = .ok b) (hfg : Module.loadAsmFile (f ++ g) = .ok m) (uf : Unnamed f) (ug : Unnamed g)
    (ef : EndsInStatement f) (sg : StartsWithOrg g)
    (hbf : ∀ id, BranchesOut f id → ¬ FileExports g id) (hbg : ∀ id, BranchesOut g id → ¬ FileExports f id)
    (hO : ∃ order, order.Perm (l₁ ++ a :: b :: l₂) ∧ LinkOrder order) :
    Builds fuel (l₁ ++ a :: b :: l₂) E ∧
      (l₁ ++ a :: b :: l₂).flatMap (made fuel E) = (l₁ ++ m :: l₂).flatMap (made fuel E) := by
  have na := unnamed_name uf hf
  have nb := unnamed_name ug hg
  obtain ⟨rfl, hX⟩ := exact_join hf hg hfg uf ug ef
  obtain ⟨-, -, -, oa⟩ := loaded_lines hf
  obtain ⟨-, -, -, ob⟩ := loaded_lines hg
  have hin := loaded_globals hf
  have mm : join a b ∈ l₁ ++ join a b :: l₂ := by simp
  obtain ⟨m₂, m₃, hm2, hm3⟩ := hB.works _ mm
  obtain ⟨m₁, hm1, hm2'⟩ := after_parts hm2
  -- the first statement of the second part
  obtain ⟨items, hF, hI, -, -⟩ := loadAsmFile_ok hg
  have hr : ∀ l ∈ b.lines, l.reached = false := by
    intro l hl
    obtain ⟨i, hi⟩ := List.mem_iff_getElem?.1 hl
    exact (hI.line i l hi).2.2.1
  obtain ⟨pl, d, h0, hst, hd⟩ := sg items hF
  have hlen : 0 < b.lines.length := by rw [hI.length]; exact (List.getElem?_eq_some_iff.1 h0).1
  obtain ⟨l₀, L, hbl⟩ : ∃ l₀ L, b.lines = l₀ :: L := by
    cases hc : b.lines with
    | nil => rw [hc] at hlen; simp at hlen
    | cons x xs => exact ⟨x, xs, rfl⟩
  have hl₀ : Joined.IsOrg l₀ := by
    obtain ⟨⟨pl', h1, h2⟩, -⟩ := hI.line 0 l₀ (by rw [hbl]; rfl)
    rw [h0] at h1; cases h1
    exact ⟨d, h2.trans hst, hd⟩
  -- branches stay in their part
  have hb1 : BranchesTo id id a (join a b) a.lines := by
    intro l hl k t hs hk ht
    simp only [id]
    rw [index_first hX.toTogether _ _ (hX.scopes l hl)]
    cases hi : a.localIndex t l.scopes with
    | some i => rfl
    | none =>
      cases hfb : HMap.find b.globals t with
      | none => rfl
      | some j =>
        exact absurd ⟨b, hg, by rw [nb], j, Joined.find_none hfb⟩ (hbf _ (branch_out hf hl hs hk ht hi))
  have hb2 : BranchesTo (List.map (· + a.lines.length)) (Option.map (· + a.lines.length)) b (join a b) b.lines := by
    intro l hl k t hs hk ht
    rw [index_second hX.toTogether]
    cases hi : b.localIndex t l.scopes with
    | some i => rfl
    | none =>
      cases hfa : HMap.find a.globals t with
      | none => rfl
      | some j =>
        exact absurd ⟨a, hf, by rw [na], j, Joined.find_none hfa⟩ (hbg _ (branch_out hg hl hs hk ht hi))
  obtain ⟨a₁, b₁, ha1, hb1', hX1⟩ := first_divide hm1 hX hr hbl hl₀ hb1 hb2
  have hE : Offered E m₂ := by
    intro name j v h1 h2
    refine (hB.offers _ v).2 ⟨_, mm, m₂, hm2, ?_⟩
    unfold Module.valueForName
    rw [if_neg (by rw [(after_fields hm2).1]; change ¬ some [] ≠ some a.name; rw [na]; simp), h1]
    exact h2
  obtain ⟨a₂, b₂, ha2', hb2', hX2, hlen2⟩ := second_divide hX1 (by rw [(firstPass_name ha1).1]; exact na) hm2' hE
  have ha2 : after fuel E a = .ok a₂ := Res.bind_eq_ok.mpr ⟨a₁, ha1, ha2'⟩
  have hb2 : after fuel E b = .ok b₂ := Res.bind_eq_ok.mpr ⟨b₁, hb1', hb2'⟩
  rw [firstPass_length ha1] at hlen2
  have hin2 : ∀ g ∈ a₂.globals, g.2 < a₂.lines.length := by
    rw [(after_fields ha2).2.1, hlen2]; exact hin
  have hapart := hB.apart
  have hnd : (allFilled (made fuel E (join a b))).Nodup := by
    unfold allFilled at hapart ⊢
    rw [List.flatMap_append, List.flatMap_cons, List.flatMap_append, List.flatMap_append] at hapart
    exact (List.nodup_append.1 (List.nodup_append.1 hapart).2.1).1
  obtain ⟨wa, wb, a₃, b₃, hw, ha3, hb3⟩ := assemble_divide hX2 (by rw [(after_fields ha2).1]; exact na) hm3
    (by rw [(after_fields ha2).2.2.1]; exact oa) (by rw [(after_fields hb2).2.2.1]; exact ob)
    (by rw [(after_fields hm2).2.2.1]; exact oa) hE hnd hin2
  have hma : made fuel E a = wa := by rw [made_of_works ha2, ha3]
  have hmb : made fuel E b = wb := by rw [made_of_works hb2, hb3]
  have hfl : (l₁ ++ a :: b :: l₂).flatMap (made fuel E) = (l₁ ++ join a b :: l₂).flatMap (made fuel E) := by
    simp only [List.flatMap_append, List.flatMap_cons, hma, hmb, hw, List.append_assoc]
  have hval := value_divide hX2 hin2
  refine ⟨⟨⟨unique_divide (by rw [na, nb]) hX.apart hB.linkable.1, hO⟩, ?_, ?_, by rw [hfl]; exact hB.apart⟩, hfl⟩
  · intro id v
    rw [hB.offers id v]
    constructor
    · rintro ⟨q, hq, q₂, k1, k2⟩
      simp only [List.mem_append, List.mem_cons] at hq
      rcases hq with hq | rfl | hq
      · exact ⟨q, by simp [hq], q₂, k1, k2⟩
      · rw [hm2] at k1; cases k1
        rcases (hval id v).1 k2 with k2 | k2
        · exact ⟨a, by simp, a₂, ha2, k2⟩
        · exact ⟨b, by simp, b₂, hb2, k2⟩
      · exact ⟨q, by simp [hq], q₂, k1, k2⟩
    · rintro ⟨q, hq, q₂, k1, k2⟩
      simp only [List.mem_append, List.mem_cons] at hq
      rcases hq with hq | rfl | rfl | hq
      · exact ⟨q, by simp [hq], q₂, k1, k2⟩
      · rw [ha2] at k1; cases k1
        exact ⟨_, mm, m₂, hm2, (hval id v).2 (.inl k2)⟩
      · rw [hb2] at k1; cases k1
        exact ⟨_, mm, m₂, hm2, (hval id v).2 (.inr k2)⟩
      · exact ⟨q, by simp [hq], q₂, k1, k2⟩
  · intro q hq
    simp only [List.mem_append, List.mem_cons] at hq
    rcases hq with hq | rfl | rfl | hq
    · exact hB.works q (by simp [hq])
    · exact ⟨a₂, a₃, ha2, by rw [hma]; exact ha3⟩
    · exact ⟨b₂, b₃, hb2, by rw [hmb]; exact hb3⟩
    · exact hB.works q (by simp [hq])

/-- **A file may be divided in two**, before an `.org`.  Let files assemble, one of which has the lines of two files that
could be loaded alone and do not name their modules, the first not ending with a label and the second having an `.org` as
its first statement.  If no branch of either part goes to a name of the other, and the files with the two parts in the place of the
whole can be put in an order in which the constants of every file are defined with names of files before it, then they
assemble too, in no more steps, make the same writes, and give all their exported names the same values. -/
theorem C106_divided {fuel : Nat} {o₁ o₂ : List (List Str)} {A B : List Str} {ws : Writes} {s : Assembler} {x y : Module}
    (h : Assembles fuel (o₁ ++ (A ++ B) :: o₂) ws s) (hA : Module.loadAsmFile A = .ok x) (hB : Module.loadAsmFile B = .ok y)
    (uA : Unnamed A) (uB : Unnamed B) (eA : EndsInStatement A) (sB : StartsWithOrg B)
    (bA : ∀ id, BranchesOut A id → ¬ FileExports B id) (bB : ∀ id, BranchesOut B id → ¬ FileExports A id)
    (hO : ∃ order, order.Perm (o₁ ++ A :: B :: o₂) ∧ ConstantsInOrder order) :
    ∃ ws' s', Assembles fuel (o₁ ++ A :: B :: o₂) ws' s' ∧ ws'.Perm ws ∧
      ∀ externs externs', Publishes s.modules externs → Publishes s'.modules externs' →
        ∀ id v, externs id = .ok v ↔ externs' id = .ok v := by
  obtain ⟨ms, hl, hb, hw⟩ := builds_of_assembles h
  obtain ⟨l₁, l, rfl, h1, h2⟩ := loadAll_append hl
  cases loadAll_iff.mp h2 with
  | cons hAB h3 =>
    have hl' := append_loadAll h1 (loadAll_iff.mpr (.cons hA (.cons hB h3)))
    obtain ⟨order, hp, hC⟩ := hO
    obtain ⟨ms', hlo, hpm⟩ := loadAll_perm hp.symm hl'
    obtain ⟨hb', hfl⟩ := builds_divide hb hA hB hAB uA uB eA sB bA bB ⟨ms', hpm.symm, linkOrder_files hlo hC⟩
    obtain ⟨ws', s', h', hw'⟩ := assembles_of_builds hl' hb'
    rw [hfl] at hw'
    exact ⟨ws', s', h', hw'.trans hw.symm, fun externs externs' he he' id v => same_values h h' hl' hb' he he' id v⟩

/-- **The two parts of a file may change places.**  A file divided before an `.org` as above may be replaced by the one
that has the second part first, if the constants allow that order too. -/
theorem C106_reordered {fuel : Nat} {o₁ o₂ p₁ p₂ : List (List Str)} {A B : List Str} {ws : Writes} {s : Assembler} {x y : Module}
    (h : Assembles fuel (o₁ ++ (A ++ B) :: o₂) ws s) (hA : Module.loadAsmFile A = .ok x) (hB : Module.loadAsmFile B = .ok y)
    (uA : Unnamed A) (uB : Unnamed B) (eA : EndsInStatement A) (eB : EndsInStatement B) (sB : StartsWithOrg B)
    (bA : ∀ id, BranchesOut A id → ¬ FileExports B id) (bB : ∀ id, BranchesOut B id → ¬ FileExports A id)
    (hp : (p₁ ++ p₂).Perm (o₁ ++ o₂)) (hO : ConstantsInOrder (p₁ ++ B :: A :: p₂)) :
    ∃ ws' s', Assembles (fuel + fuel) (p₁ ++ (B ++ A) :: p₂) ws' s' ∧ ws'.Perm ws ∧
      ∀ externs externs', Publishes s.modules externs → Publishes s'.modules externs' →
        ∀ id v, externs id = .ok v ↔ externs' id = .ok v := by
  have hp' : (p₁ ++ B :: A :: p₂).Perm (o₁ ++ A :: B :: o₂) :=
    (List.perm_middle.trans ((List.perm_middle.cons B).trans (((hp.cons A).cons B).trans (.swap _ _ _)))).trans
      (List.perm_middle.trans (List.perm_middle.cons A)).symm
  obtain ⟨ws₁, s₁, h1, hw1, hv1⟩ := C106_divided h hA hB uA uB eA sB bA bB ⟨_, hp', hO⟩
  obtain ⟨ws₂, s₂, h2, hw2, hv2⟩ := C105_joined h1 hp'.symm hO uB uA eB
  refine ⟨ws₂, s₂, h2, hw2.trans hw1, fun E E' hE hE' id v => ?_⟩
  obtain ⟨o, wss, hA₁⟩ := assembled h1
  have hE₁ := assembled_publishes hA₁
  exact (hv1 _ _ hE hE₁ id v).trans (hv2 _ _ hE₁ hE' id v)

/-! ## An example -/

/-- Code that uses what the second part defines. -/
def upperPart : List Str :=
  [cs!" .org $8000", cs!"init .entry m8x8", cs!" ldx #size", cs!"again dex", cs!" bne again", cs!" jsr help", cs!" rts"]

/-- Code and a constant, after an `.org`. -/
def lowerPart : List Str :=
  [cs!" .org $8100", cs!"size .equ 3", cs!"help .entry m8x8", cs!" lda init", cs!" rts"]

def dividedWrites : Writes :=
  [(0x8000, [0xa2, 3]), (0x8002, [0xca]), (0x8003, [0xd0, 0xfd]), (0x8005, [0x20, 0, 0x81]), (0x8008, [0x60]),
   (0x8100, [0xad, 0, 0x80]), (0x8103, [0x60])]

def orgTest (items : List Item) : Bool :=
  match program [] items with
  | ⟨_, .dir d⟩ :: _ => decide (d.name = .org)
  | _ => false

theorem org_of_test {file : List Str}
    (h : (match readItems file with | some items => orgTest items | none => false) = true) : StartsWithOrg file := by
  split at h
  · next items hr =>
    intro items' hF
    rw [Props.fileItems_unique hF (fileItems_of_read hr)]
    unfold orgTest at h
    split at h
    · next ls d rest he => exact ⟨_, d, by rw [he]; rfl, rfl, of_decide_eq_true h⟩
    · cases h
  · cases h

theorem branches_of_check {file : List Str}
    (h : (match Module.loadAsmFile file with
      | .ok m => m.lines.all fun l => match l.statement with
          | .instr k => !k.isLocalBranch || (k.arg1.externalNames (m.isLocal l.scopes)).isEmpty
          | .dir _ => true
      | _ => false) = true) (id : FullId) : ¬ BranchesOut file id := by
  rintro ⟨m, items, hm, hF, i, pl, k, h1, h2, h3, h4, x, hx, hf, rfl⟩
  rw [hm] at h
  simp only at h
  obtain ⟨items', hF', hI, -, -⟩ := loadAsmFile_ok hm
  rw [Props.fileItems_unique hF' hF] at hI
  have hlt := (List.getElem?_eq_some_iff.1 h1).1
  have hlt' : i < m.lines.length := by rw [hI.length]; exact hlt
  obtain ⟨⟨pl', e1, e2⟩, e3, -⟩ := hI.line i _ (List.getElem?_eq_getElem hlt')
  rw [h1] at e1; cases e1
  have := List.all_eq_true.1 h _ (List.getElem_mem hlt')
  rw [e2, h2] at this
  simp only [e3, Bool.or_eq_true, Bool.not_eq_true', List.isEmpty_iff] at this
  rcases this with this | this
  · simp [Instruction.isLocalBranch, h4] at this
    rcases h3 with h3 | h3
    · exact this.1 h3
    · exact this.2 h3
  · have hm' := (mem_externalNames (e := k.arg1)).2 ⟨x, hx, (isLocal_foreign hI hlt x).2 hf, rfl⟩
    rw [this] at hm'; cases hm'

/-- The hypotheses can be met by two parts that use names of each other, and what the theorems say of them is so. -/
example : (∃ ws s, Assembles 30 [upperPart ++ lowerPart] ws s ∧ ws = dividedWrites) ∧
    (∃ x, Module.loadAsmFile upperPart = .ok x) ∧ (∃ y, Module.loadAsmFile lowerPart = .ok y) ∧
    Unnamed upperPart ∧ Unnamed lowerPart ∧ EndsInStatement upperPart ∧ EndsInStatement lowerPart ∧ StartsWithOrg lowerPart ∧
    (∀ id, BranchesOut upperPart id → ¬ FileExports lowerPart id) ∧
    (∀ id, BranchesOut lowerPart id → ¬ FileExports upperPart id) ∧
    ConstantsInOrder ([] ++ lowerPart :: upperPart :: []) ∧ writtenBy [upperPart, lowerPart] = some dividedWrites ∧
    (writtenBy [lowerPart ++ upperPart]).isSome = true := by
  refine ⟨?_, ⟨_, rfl⟩, ⟨_, rfl⟩, (part_of_test (by decide +kernel)).1, (part_of_test (by decide +kernel)).1,
    (part_of_test (by decide +kernel)).2, (part_of_test (by decide +kernel)).2, org_of_test (by decide +kernel),
    fun id h => absurd h (branches_of_check (by decide +kernel) id),
    fun id h => absurd h (branches_of_check (by decide +kernel) id), pair_in_order (by decide +kernel),
    by decide +kernel, by decide +kernel⟩
  obtain ⟨ws, a, h, hc⟩ := assembles_of_check (fuel := 30) (files := [upperPart ++ lowerPart])
    (fun ws _ => decide (ws = dividedWrites)) (by decide +kernel)
  exact ⟨ws, a, h, of_decide_eq_true hc⟩

/-- The second part has to begin with an `.org`: it has no place of its own otherwise. -/
theorem C106_org_matters :
    writtenBy [[cs!" .org $8000", cs!"init .entry m8x8", cs!" rts"] ++ [cs!"next .entry m8x8", cs!" rts"]] =
      some [(0x8000, [0x60]), (0x8001, [0x60])] ∧
    writtenBy [[cs!" .org $8000", cs!"init .entry m8x8", cs!" rts"], [cs!"next .entry m8x8", cs!" rts"]] = none := by
  decide +kernel

/-- A branch from one part to the other does not carry the state of the processor over when they are two files. -/
theorem C106_branch_matters :
    writtenBy [[cs!" .org $8000", cs!"init .entry m8x8", cs!" bra next"] ++ [cs!" .org $8010", cs!"next lda #1", cs!" rts"]] =
      some [(0x8000, [0x80, 0x0e]), (0x8010, [0xa9, 1]), (0x8012, [0x60])] ∧
    writtenBy [[cs!" .org $8000", cs!"init .entry m8x8", cs!" bra next"], [cs!" .org $8010", cs!"next lda #1", cs!" rts"]] = none := by
  decide +kernel

/-- Constants of one file may be defined with labels after them, so that no order of the two parts as files will do. -/
theorem C106_order_matters :
    writtenBy [[cs!"first .equ data + 1"] ++ [cs!" .org $8000", cs!"data .db 7", cs!"second .equ first + 1"]] =
      some [(0x8000, [7])] ∧
    writtenBy [[cs!"first .equ data + 1"], [cs!" .org $8000", cs!"data .db 7", cs!"second .equ first + 1"]] = none ∧
    writtenBy [[cs!" .org $8000", cs!"data .db 7", cs!"second .equ first + 1"], [cs!"first .equ data + 1"]] = none := by
  decide +kernel

end Nsasm.Props
