import Verif.Props.Reparse
import Verif.Props.Ranges
import Verif.Spec.Dump
import Verif.Model.Assembler

/-! # Assembling a file of data -/

namespace Nsasm
open Spec Props

/-- A line that holds one directive. -/
def ReadsAs (text : Str) (d : Directive) : Prop :=
  ∃ ts, tokenize text = .ok ts ∧ Parse.parse ts = .ok [.stmt (.dir d)]

/-- Directives without effect on the loader and the analysis. -/
def Plain (d : Directive) : Prop := d.name = .org ∨ d.name = .db ∨ d.name = .dw ∨ d.name = .dl

def dataLine (d : Directive) : Line := Module.newLine (.dir d) [] []

theorem load_data {texts : List Str} {ds : List Directive} (h : List.Forall₂ ReadsAs texts ds)
    (hp : ∀ d ∈ ds, Plain d) (m : Module) :
    Module.loadLines ⟨m, [], []⟩ texts = .ok ⟨{ m with lines := m.lines ++ ds.map dataLine }, [], []⟩ := by
  induction h generalizing m with
  | nil => simp [Module.loadLines]
  | @cons t d texts ds h1 h2 ih =>
    obtain ⟨ts, h3, h4⟩ := h1
    have hd : d.name ≠ .module_ ∧ d.name ≠ .begin_ ∧ d.name ≠ .end_ := by
      rcases hp d (by simp) with h | h | h | h <;> rw [h] <;> decide
    rw [Module.loadLines, h3, Res.bind_ok, h4, Res.bind_ok]
    simp only [Module.loadItems, Module.loadStatement, Module.addLabels, Res.bind_ok, Module.loadDirective,
      if_neg hd.1, if_neg hd.2.1, if_neg hd.2.2]
    rw [ih (fun d hd => hp d (by simp [hd]))]
    simp [dataLine]

theorem seeds_data {ds : List Directive} (hp : ∀ d ∈ ds, Plain d) (w : OMap ExecutionState) (i : Nat) :
    Module.seeds w i (ds.map dataLine) = w := by
  induction ds generalizing i with
  | nil => rfl
  | cons d ds ih =>
    have hd : d.name ≠ .entry := by
      rcases hp d (by simp) with h | h | h | h <;> rw [h] <;> decide
    simp only [List.map_cons, Module.seeds, dataLine, Module.newLine, if_neg hd]
    exact ih (fun d hd => hp d (by simp [hd])) _

theorem fixLines_data (ds : List Directive) : Module.fixLines (ds.map dataLine) = .ok (ds.map dataLine) := by
  induction ds with
  | nil => rfl
  | cons d ds ih =>
    rw [List.map_cons, Module.fixLines]
    simp only [dataLine, Module.newLine] at ih ⊢
    rw [ih]; rfl

/-- A line that holds a directive, with its address. -/
def valuedLine (d : Directive) (v : Int) : Line := ⟨.dir d, [], false, .default, some v, [], []⟩

/-- The lines once they have their addresses. -/
def placed : Nat → List Directive → List Line
  | _, [] => []
  | pc, d :: ds => valuedLine d pc :: placed (Address.addWrapped pc d.serializedSize) ds

theorem labelOfAddress_eq {a : Nat} (h : a < 0x1000000) : labelOfAddress a = (a : Int) := by
  unfold labelOfAddress Address.bank Address.bankAddress
  omega

theorem layout_data {ds : List Directive} (hp : ∀ d ∈ ds, Plain d ∧ d.name ≠ .org) {pc : Nat} (h : pc < 0x1000000) :
    Module.layout (some pc) (ds.map dataLine) = .ok (placed pc ds) := by
  induction ds generalizing pc with
  | nil => rfl
  | cons d ds ih =>
    have hd : d.name ≠ .equ := by
      rcases (hp d (by simp)).1 with h | h | h | h <;> rw [h] <;> decide
    have hs : (dataLine d).statement = .dir d := rfl
    rw [List.map_cons, Module.layout, hs]
    simp only [Module.originAt, if_neg (hp d (by simp)).2, Res.bind_ok, Statement.serializedSize]
    rw [ih (fun d hd => hp d (by simp [hd])) (by rw [addWrapped_wrapped h]; unfold wrapped; omega)]
    simp only [Res.bind_ok, Statement.isDir, placed, labelOfAddress_eq h]
    rw [if_neg (by simpa using hd)]
    rfl

/-- The second pass has nothing to do. -/
theorem secondLoop_data (externs : Ctx) (n i : Nat) (m : Module) (h : i + n ≤ m.lines.length)
    (hm : ∀ l ∈ m.lines, l.statement.isDir .equ = false) :
    Module.secondLoop externs n i m = .ok m := by
  induction n generalizing i with
  | zero => rfl
  | succ n ih =>
    rw [Module.secondLoop, List.getElem?_eq_getElem (by omega)]
    simp only
    have hl := hm m.lines[i] (List.getElem_mem _)
    have : Module.evalEqu externs m i m.lines[i] = .ok m := by
      unfold Module.evalEqu
      split
      · rfl
      · rename_i d hd
        rw [hd] at hl
        simp only [Statement.isDir, decide_eq_false_iff_not] at hl
        rw [if_neg (fun h => hl h.1)]
    rw [this, Res.bind_ok, ih (i + 1) (by omega)]

/-- What a data directive puts into memory, whatever names mean. -/
def Holds (d : Directive) (bs : List UInt8) : Prop :=
  ∀ ctx, d.assembleBytes ctx = .ok (some bs) ∧ d.serializedSize = bs.length ∧ bs ≠ []

/-- The writes of consecutive chunks. -/
def chunkWrites : Nat → List (List UInt8) → Writes
  | _, [] => []
  | pc, bs :: bss => (pc, bs) :: chunkWrites (Address.addWrapped pc bs.length) bss

theorem wrapped_lt {a i : Nat} (h : a < 0x1000000) : wrapped a i < 0x1000000 := by
  unfold wrapped; omega

theorem wrapped_add {a i j : Nat} : wrapped (wrapped a i) j = wrapped a (i + j) := by
  unfold wrapped; omega

/-- Assembling consecutive data. -/
theorem assemble_data {σ : Type} {sink : Sink σ} {m : Module} {externs : Ctx} {start : Nat}
    (hs : start < 0x1000000) {ds : List Directive} {bss : List (List UInt8)}
    (h : List.Forall₂ Holds ds bss) (k : Nat) (hk : k + bss.flatten.length ≤ 0x10000)
    {s s' : σ} (hf : Feeds sink s (chunkWrites (wrapped start k) bss) s') {o : Module.Out}
    (hc : Canonical o.owned.ranges) (ho : ∀ x, o.owned.contains x = true ↔ ∃ i < k, x = wrapped start i) :
    ∃ owned, m.assembleLines externs sink (placed (wrapped start k) ds) s o = (s', .ok { o with owned := owned }) ∧
      Canonical owned.ranges ∧
      ∀ x, owned.contains x = true ↔ ∃ i < k + bss.flatten.length, x = wrapped start i := by
  induction h generalizing k s o with
  | nil =>
    cases hf
    exact ⟨o.owned, rfl, hc, by simpa using ho⟩
  | @cons d bs ds bss h1 h2 ih =>
    simp only [chunkWrites] at hf
    cases hf with
    | @cons _ s1 _ _ _ _ hw hf =>
    rw [List.flatten_cons, List.length_append] at hk
    have hpc := wrapped_lt (i := k) hs
    have hne : 0 < bs.length := List.length_pos_iff.2 (h1 nullCtx).2.2
    obtain ⟨owned, ok, hcl, hc', ho', hok⟩ := C25_claim_bytes hc hpc bs.length
    have hfresh : ok = true := by
      rw [hok]
      refine ⟨?_, ?_⟩
      · intro i hi
        cases hx : o.owned.contains (wrapped (wrapped start k) i) with
        | false => rfl
        | true =>
          obtain ⟨j, hj, he⟩ := (ho _).1 hx
          rw [wrapped_add] at he
          unfold wrapped at he
          omega
      · intro i hi j hj
        rw [wrapped_add, wrapped_add]
        unfold wrapped
        omega
    subst hfresh
    have hstep : Address.addWrapped (wrapped start k) bs.length = wrapped start (k + bs.length) := by
      rw [addWrapped_wrapped hpc, wrapped_add]
    obtain ⟨owned', h3, h4, h5⟩ := ih (k + bs.length) (s := s1) (o := { o with owned := owned }) (by omega)
      (by rw [← hstep]; exact hf) hc' (by
        intro x
        rw [ho' x, ho x]
        constructor
        · rintro (⟨i, hi, rfl⟩ | ⟨i, hi, rfl⟩)
          · exact ⟨i, by omega, rfl⟩
          · exact ⟨k + i, by omega, by rw [wrapped_add]⟩
        · rintro ⟨i, hi, rfl⟩
          by_cases hik : i < k
          · exact .inl ⟨i, hik, rfl⟩
          · exact .inr ⟨i - k, by omega, by rw [wrapped_add]; congr 1; omega⟩)
    refine ⟨owned', ?_, h4, ?_⟩
    · have hofInt : Address.ofInt ((wrapped start k : Nat) : Int) = .ok (wrapped start k) := by
        unfold Address.ofInt
        rw [if_pos (by omega)]
        simp
      obtain ⟨a1, a2, -⟩ := h1 (m.lookup [] externs)
      rw [placed, Module.assembleLines, Module.assembleLine]
      generalize hl : valuedLine d ((wrapped start k : Nat) : Int) = l
      have hst : l.statement = .dir d := by rw [← hl]; rfl
      have hsc : l.scopes = [] := by rw [← hl]; rfl
      have hva : l.value = some ((wrapped start k : Nat) : Int) := by rw [← hl]; rfl
      simp only [hst, hsc, Statement.serializedSize, a2]
      rw [if_pos hne, Module.writeLine]
      simp only [hva, hofInt, hst, Statement.assemble, Statement.assembleBytes, a1, hw, Statement.serializedSize, a2]
      simp only [Module.claim, hcl, Res.bind_ok, if_true, Module.noteTarget, hst]
      rw [hstep]
      exact h3
    · intro x
      rw [h5 x, List.flatten_cons, List.length_append, Nat.add_assoc]

/-- The directive `.org start`. -/
def orgDirective (start : Nat) (t : NumericType) : Directive := ⟨.org, .lit start t, .default, .default, []⟩

theorem lookup_insert_empty {r : DataRange} (hc : Canonical r.ranges) :
    ((RangeMap.empty : RangeMap Nat).insert r 0).2 = true ∧
    ∀ x, ((RangeMap.empty : RangeMap Nat).insert r 0).1.contains x = true ↔ r.contains x = true := by
  have h := C26_range_map [(r, 0)] (by simpa using hc)
  have h1 : (runInserts (.empty : RangeMap Nat) [(r, 0)]).2 =
      [((RangeMap.empty : RangeMap Nat).insert r 0).2] := rfl
  have h2 : (runInserts (.empty : RangeMap Nat) [(r, 0)]).1 =
      ((RangeMap.empty : RangeMap Nat).insert r 0).1 := rfl
  have h3 : (runAbstract (fun _ => none) [(r, (0 : Nat))]) =
      (fun a => if r.contains a = true then some 0 else none, [true]) := by
    simp [runAbstract, AMap.insert]
  rw [h1, h2, h3] at h
  obtain ⟨h4, h5⟩ := h
  refine ⟨by simpa using h4, fun x => ?_⟩
  rw [(h5 x).2]
  simp

/-- Assembling a file of one `.org` and data. -/
theorem data_file {σ : Type} {sink : Sink σ} {start : Nat} (hs : start < 0x1000000) {t : NumericType}
    {text : Str} {texts : List Str} {ds : List Directive} {bss : List (List UInt8)}
    (ho : ReadsAs text (orgDirective start t)) (hr : List.Forall₂ ReadsAs texts ds)
    (hp : ∀ d ∈ ds, Plain d ∧ d.name ≠ .org) (h : List.Forall₂ Holds ds bss)
    (hlen : bss.flatten.length ≤ 0x10000) {s s' : σ} (hf : Feeds sink s (chunkWrites start bss) s') (fuel : Nat) :
    ∃ a, Assembler.assembleFiles (fuel + 1) [text :: texts] sink s = (s', .ok a) ∧
      ∀ x, a.contains x = true ↔ ∃ i < bss.flatten.length, x = wrapped start i := by
  have hw : wrapped start 0 = start := by unfold wrapped; omega
  have hload := load_data (.cons ho hr) (by
    intro d hd
    rcases List.mem_cons.1 hd with rfl | hd
    · exact .inl rfl
    · exact (hp d hd).1) .empty
  have hplain : ∀ d ∈ orgDirective start t :: ds, Plain d := by
    intro d hd
    rcases List.mem_cons.1 hd with rfl | hd
    · exact .inl rfl
    · exact (hp d hd).1
  generalize hm : ({ Module.empty with lines := Module.empty.lines ++ (orgDirective start t :: ds).map dataLine } : Module) = m at hload
  have hlines : m.lines = (orgDirective start t :: ds).map dataLine := by rw [← hm]; rfl
  have hmod : Module.loadAsmFile (text :: texts) = .ok { m with deps := [] } := by
    rw [Module.loadAsmFile, hload, Res.bind_ok]
    simp only [Module.finishLoad]
    congr 2
    unfold Module.dependencies
    rw [List.flatMap_eq_nil_iff, hlines]
    intro l hl
    obtain ⟨d, hd, rfl⟩ := List.mem_map.1 hl
    have : d.name ≠ .equ := by
      rcases hplain d hd with h | h | h | h <;> rw [h] <;> decide
    simp only [dataLine, Module.newLine, if_neg this]
  have hfirst : Module.runFirstPass (fuel + 1) { m with deps := [] } =
      .ok { m with deps := [], lines := valuedLine (orgDirective start t) start :: placed start ds } := by
    rw [Module.runFirstPass]
    simp only [hlines]
    rw [seeds_data hplain, Module.explore]
    simp only [Module.step, Res.bind_ok]
    rw [fixLines_data, Res.bind_ok, List.map_cons, Module.layout]
    have : (dataLine (orgDirective start t)).statement = .dir (orgDirective start t) := rfl
    rw [this]
    simp only [Module.originAt, orgDirective, if_true, Expr.eval, Res.bind_ok, Address.ofInt]
    rw [if_pos (by omega)]
    simp only [Res.bind_ok, Int.toNat_natCast, Statement.serializedSize, Directive.serializedSize, List.length_nil,
      Nat.mul_zero]
    have h0 : Address.addWrapped start 0 = start := by
      unfold Address.addWrapped; omega
    have h0' : Address.addWrapped start ((0 : Nat) : Int) = start := h0
    rw [h0', layout_data hp hs]
    simp [Statement.isDir, labelOfAddress_eq hs, valuedLine, dataLine, Module.newLine]
  generalize hm1 : ({ m with deps := [], lines := valuedLine (orgDirective start t) start :: placed start ds } : Module) = m1 at hfirst
  have hlines1 : m1.lines = valuedLine (orgDirective start t) start :: placed start ds := by rw [← hm1]
  have hsecond : ∀ externs, m1.runSecondPass externs = .ok m1 := by
    intro externs
    refine secondLoop_data externs _ 0 m1 (by omega) ?_
    rw [hlines1]
    have hpl : ∀ (ds : List Directive) (pc : Nat), (∀ d ∈ ds, Plain d ∧ d.name ≠ .org) →
        ∀ l ∈ placed pc ds, l.statement.isDir .equ = false := by
      intro ds
      induction ds with
      | nil => simp [placed]
      | cons d ds ih =>
        intro pc hp l hl
        rw [placed] at hl
        rcases List.mem_cons.1 hl with rfl | hl
        · have : d.name ≠ .equ := by
            rcases (hp d (by simp)).1 with h | h | h | h <;> rw [h] <;> decide
          simpa [valuedLine, Statement.isDir] using this
        · exact ih _ (fun d hd => hp d (by simp [hd])) l hl
    intro l hl
    rcases List.mem_cons.1 hl with rfl | hl
    · rfl
    · exact hpl ds start hp l hl
  have horder : Assembler.findAssemblyOrder [{ m with deps := [] }] = .ok ⟨[0], []⟩ := by
    have hg : m.globals = [] := by rw [← hm]; rfl
    simp [Assembler.findAssemblyOrder, Assembler.orderLoop, Assembler.round, Assembler.consider,
      Assembler.addExports, Module.exportedNames, hg]
  have hprep : Assembler.prepare (fuel + 1) [{ m with deps := [] }] = .ok (⟨[m1], [], .empty⟩, [0]) := by
    rw [Assembler.prepare, horder]
    simp only [Res.bind_ok, Assembler.firstPasses, List.getElem?_cons_zero, hfirst, List.set_cons_zero,
      Assembler.secondPasses, hsecond]
  have hown : m1.owned = .empty ∧ m1.targets = [] ∧ m1.conventions = [] ∧ m1.addrNames = [] ∧ m1.globals = [] := by
    rw [← hm1, ← hm]; exact ⟨rfl, rfl, rfl, rfl, rfl⟩
  obtain ⟨o1, o2, o3, o4, o5⟩ := hown
  obtain ⟨owned, e1, e2, e3⟩ := assemble_data (m := m1) (externs := Assembler.lookup [m1] []) hs h 0 (by omega)
    (s := s) (s' := s') (by rw [hw]; exact hf) (o := ⟨.empty, [], []⟩) ⟨by simp [DataRange.empty], .nil⟩
    (by intro x; simp [DataRange.contains, DataRange.empty, DataRange.before])
  rw [hw] at e1
  have hasm : m1.assemble (Assembler.lookup [m1] []) sink s = (s', .ok { m1 with owned := owned }) := by
    have hline : m1.assembleLines (Assembler.lookup [m1] []) sink m1.lines s ⟨m1.owned, m1.targets, m1.conventions⟩ =
        (s', .ok ⟨owned, [], []⟩) := by
      rw [hlines1, o1, o2, o3, Module.assembleLines]
      have : m1.assembleLine (Assembler.lookup [m1] []) sink (valuedLine (orgDirective start t) start) s
          ⟨.empty, [], []⟩ = (s, .ok ⟨.empty, [], []⟩) := rfl
      rw [this]
      exact e1
    rw [Module.assemble, hline]
    simp only [Res.bind_ok, o4, o5, Module.nameAddresses]
    congr 2
    rw [← o2, ← o3, ← o4]
  obtain ⟨i1, i2⟩ := lookup_insert_empty e2
  generalize hi : (RangeMap.empty : RangeMap Nat).insert owned 0 = r at i1 i2
  obtain ⟨r1, r2⟩ := r
  simp only at i1
  subst i1
  refine ⟨⟨[{ m1 with owned := owned }], [], r1⟩, ?_, ?_⟩
  · rw [Assembler.assembleFiles]
    simp only [Assembler.loadAll, hmod, Res.bind_ok, Assembler.assemble, hprep, Assembler.finalPasses,
      List.getElem?_cons_zero, hasm, hi, List.set_cons_zero]
  · intro x
    have := i2 x
    simp only [Assembler.contains]
    rw [this, e3 x, Nat.zero_add]

end Nsasm
