import Verif.Spec.Relocate
import Verif.Lemmas.ConstantsLink

/-! # Programs that differ in origins only -/

namespace Nsasm.Values
open Spec Props

theorem blank_moved {st st' : Statement} (h : Moved st st') : blank true st = blank true st' := by
  cases h with
  | same => rfl
  | origin d e hd => simp [blank, hd]

theorem like_of_moved {f f' : List Str} (h : MovedFile f f') : LikeFile true f f' := by
  refine List.Forall₂.imp ?_ h
  rintro l l' ⟨ts, its, ts', its', h1, h2, h3, h4, h5⟩
  refine ⟨ts, its, ts', its', h1, h2, h3, h4, ?_⟩
  clear h2 h4
  induction h5 with
  | nil => rfl
  | cons h _ ih =>
    rw [List.map_cons, List.map_cons, ih]
    cases h with
    | label => rfl
    | stmt h => simp only [blankItem, blank_moved h]

/-! ## The bytes of a statement -/

theorem byteOf_low {v v' : Int} (h : v' % 65536 = v % 65536) : byteOf v' = byteOf v := by
  unfold byteOf
  have : v' % 256 = v % 256 := by omega
  rw [this]

theorem byteOf_high {v v' : Int} (h : v' % 65536 = v % 65536) : byteOf (v' / 0x100) = byteOf (v / 0x100) := by
  unfold byteOf
  have : v' / 0x100 % 256 = v / 0x100 % 256 := by omega
  rw [this]

theorem subtract_shift {t t' x x' : Addr} {n : Int} {d d' : Int} (h : ((t' : Int) - t) % 65536 = ((x' : Int) - x) % 65536)
    (h1 : Address.subtractWrapped t (Address.addWrapped x n) = .ok d)
    (h2 : Address.subtractWrapped t' (Address.addWrapped x' n) = .ok d') : d' = d := by
  unfold Address.subtractWrapped at h1 h2
  split at h1
  · cases h1
  split at h2
  · cases h2
  have e1 := Res.ok.inj h1
  have e2 := Res.ok.inj h2
  have key : (((Address.bankAddress t' : Nat) : Int) - (Address.bankAddress (Address.addWrapped x' n) : Nat)) % 0x10000 =
      (((Address.bankAddress t : Nat) : Int) - (Address.bankAddress (Address.addWrapped x n) : Nat)) % 0x10000 := by
    unfold Address.bankAddress Address.addWrapped
    omega
  rw [← e1, ← e2, key]

theorem instr_bytes {i : Instruction} {x x' : Addr} {ctx ctx' : Ctx} {bs bs' : List UInt8}
    (h : i.assembleBytes x ctx = .ok bs) (h' : i.assembleBytes x' ctx' = .ok bs')
    (hrel : i.mode = .rel8 ∨ i.mode = .rel16 → ∀ v v', i.arg1.eval ctx = .ok v → i.arg1.eval ctx' = .ok v' →
      (v' - v) % 65536 = ((x' : Int) - x) % 65536)
    (hlow : i.mode ≠ .rel8 → i.mode ≠ .rel16 → ∀ v v', i.arg1.eval ctx = .ok v → i.arg1.eval ctx' = .ok v' →
      v' % 65536 = v % 65536)
    (hexact : i.mode = .dir_l ∨ i.mode = .dir_lx → ∀ v v', i.arg1.eval ctx = .ok v → i.arg1.eval ctx' = .ok v' → v' = v)
    (hlow2 : i.mode ≠ .rel8 → i.mode ≠ .rel16 → ∀ v v', i.arg2.eval ctx = .ok v → i.arg2.eval ctx' = .ok v' →
      v' % 65536 = v % 65536) : bs' = bs := by
  unfold Instruction.assembleBytes at h h'
  simp only at h h'
  split at h
  · cases h
  rename_i op hop
  rw [hop] at h'
  have ofInt : ∀ {v : Int} {t : Addr}, Address.ofInt v = .ok t → (t : Int) = v := by
    intro v t ht
    unfold Address.ofInt at ht
    split at ht
    · cases ht; omega
    · cases ht
  cases hm : i.mode <;> rw [hm] at h h' <;> simp only at h h' <;> try (cases h; done)
  case imp | acc => cases h; cases h'; rfl
  case rel8 | rel16 =>
    obtain ⟨v, hv, h⟩ := Res.bind_eq_ok.mp h
    obtain ⟨v', hv', h'⟩ := Res.bind_eq_ok.mp h'
    obtain ⟨t, ht, h⟩ := Res.bind_eq_ok.mp h
    obtain ⟨t', ht', h'⟩ := Res.bind_eq_ok.mp h'
    obtain ⟨d, hd, h⟩ := Res.bind_eq_ok.mp h
    obtain ⟨d', hd', h'⟩ := Res.bind_eq_ok.mp h'
    have hs := hrel (by rw [hm]; simp) v v' hv hv'
    rw [← ofInt ht, ← ofInt ht'] at hs
    rw [subtract_shift hs hd hd', h] at h'
    cases h'; rfl
  case dir_l | dir_lx =>
    obtain ⟨v, hv, h⟩ := Res.bind_eq_ok.mp h
    obtain ⟨v', hv', h'⟩ := Res.bind_eq_ok.mp h'
    rw [hexact (by rw [hm]; simp) v v' hv hv', h] at h'
    cases h'; rfl
  case mov =>
    obtain ⟨v, hv, h⟩ := Res.bind_eq_ok.mp h
    obtain ⟨v', hv', h'⟩ := Res.bind_eq_ok.mp h'
    obtain ⟨w, hw, h⟩ := Res.bind_eq_ok.mp h
    obtain ⟨w', hw', h'⟩ := Res.bind_eq_ok.mp h'
    have e1 := hlow (by rw [hm]; decide) (by rw [hm]; decide) v v' hv hv'
    have e2 := hlow2 (by rw [hm]; decide) (by rw [hm]; decide) w w' hw hw'
    rw [byteOf_low e1, byteOf_low e2, h] at h'
    cases h'; rfl
  all_goals
    obtain ⟨v, hv, h⟩ := Res.bind_eq_ok.mp h
    obtain ⟨v', hv', h'⟩ := Res.bind_eq_ok.mp h'
    have e1 := hlow (by rw [hm]; decide) (by rw [hm]; decide) v v' hv hv'
    first
      | (rw [byteOf_low e1, byteOf_high e1, h] at h'; cases h'; rfl)
      | (rw [byteOf_low e1, h] at h'; cases h'; rfl)

theorem list_bytes {n : DirectiveName} {ctx ctx' : Ctx} : ∀ {es : List Expr} {bs bs' : List UInt8},
    Directive.encodeList n ctx es = .ok bs → Directive.encodeList n ctx' es = .ok bs' →
    (∀ e ∈ es, ∀ v v', e.eval ctx = .ok v → e.eval ctx' = .ok v' → v' % 65536 = v % 65536 ∧ (n = .dl → v' = v)) → bs' = bs := by
  intro es
  induction es with
  | nil => intro bs bs' h h' _; cases h; cases h'; rfl
  | cons e es ih =>
    intro bs bs' h h' hall
    rw [Directive.encodeList] at h h'
    obtain ⟨v, hv, h⟩ := Res.bind_eq_ok.mp h
    obtain ⟨v', hv', h'⟩ := Res.bind_eq_ok.mp h'
    obtain ⟨r, hr, h⟩ := Res.bind_eq_ok.mp h
    obtain ⟨r', hr', h'⟩ := Res.bind_eq_ok.mp h'
    have hrr := ih hr hr' fun e he => hall e (by simp [he])
    obtain ⟨h1, h2⟩ := hall e (by simp) v v' hv hv'
    have : Directive.encodeValue n v' = Directive.encodeValue n v := by
      unfold Directive.encodeValue
      rw [byteOf_low h1, byteOf_high h1]
      by_cases hn : n = .dl
      · rw [h2 hn]
      · simp [hn]
    rw [this, hrr, h] at h'
    cases h'; rfl

theorem dir_bytes {d : Directive} {ctx ctx' : Ctx} {r r' : Option (List UInt8)}
    (h : d.assembleBytes ctx = .ok r) (h' : d.assembleBytes ctx' = .ok r')
    (hall : ∀ e ∈ d.list, ∀ v v', e.eval ctx = .ok v → e.eval ctx' = .ok v' → v' % 65536 = v % 65536 ∧ (d.name = .dl → v' = v)) :
    r' = r := by
  unfold Directive.assembleBytes at h h'
  split at h
  · rename_i hc; rw [if_pos hc, h] at h'; cases h'; rfl
  · rename_i hc
    rw [if_neg hc] at h'
    obtain ⟨bs, hb, h⟩ := Res.bind_eq_ok.mp h
    obtain ⟨bs', hb', h'⟩ := Res.bind_eq_ok.mp h'
    rw [list_bytes hb hb' hall, h] at h'
    cases h'; rfl

/-! ## Places -/

theorem org_sets {ls : List Line} : ∀ {pc : Option Addr} {ls' : List Line}, Module.layout pc ls = .ok ls' →
    ∀ (k : Nat) (l : Line), ls'[k]? = some l → IsOrg l → ∃ v, SetsOrigin l v := by
  induction ls with
  | nil => intro pc ls' h k l hl; simp [Module.layout] at h; subst h; simp at hl
  | cons x ls ih =>
    intro pc ls' h k l hl ho
    obtain ⟨o, x', r, pc', rfl, h1, h2, h3, -⟩ := layout_cons h
    cases k with
    | zero =>
      simp at hl
      subst hl
      obtain ⟨d, hd, hn⟩ := ho
      obtain ⟨d', a, e1, e2, -⟩ := (originAt_spec h1).1 ⟨d, by rw [← h3]; exact hd, hn⟩
      rw [h3, e1] at hd; cases hd
      exact ⟨_, d, by rw [h3, e1], hn, e2⟩
    | succ k => exact ih h2 k l (by simpa using hl) ho

/-- Line `k` is not a constant, and the last `.org` up to it is line `o`. -/
def Block (m : Module) (k o : Nat) : Prop :=
  (∃ l, m.lines[k]? = some l ∧ ¬ IsEqu l) ∧ o ≤ k ∧ (∃ l, m.lines[o]? = some l ∧ IsOrg l) ∧
    ∀ (n : Nat) (l : Line), o < n → n ≤ k → m.lines[n]? = some l → ¬ IsOrg l

theorem isDirective_iff {fuel : Nat} {f : List Str} {items : List Item} {externs : Ctx} {m m₁ : Module}
    (hS : Side fuel f items externs m m₁) {k : Nat} {l : Line} (hl : m.lines[k]? = some l) {pl : ProgLine}
    (hpl : (fileProgram f)[k]? = some pl) (n : DirectiveName) : IsDirective n pl = true ↔ ∃ d, l.statement = .dir d ∧ d.name = n := by
  obtain ⟨pl', hpl', hst⟩ := hS.statements k l hl
  rw [fileProgram_of hS.read, hpl'] at hpl
  obtain rfl := Option.some.inj hpl
  unfold IsDirective
  cases hp : pl'.statement with
  | dir d => rw [hp] at hst; simp only at hst; rw [hst]; simp
  | instr i => rw [hp] at hst; obtain ⟨mode, hst⟩ := hst; rw [hst]; simp

theorem line_at {fuel : Nat} {f : List Str} {items : List Item} {externs : Ctx} {m m₁ : Module}
    (hS : Side fuel f items externs m m₁) {k : Nat} {pl : ProgLine} (hpl : (fileProgram f)[k]? = some pl) :
    ∃ l, m.lines[k]? = some l := by
  rw [fileProgram_of hS.read] at hpl
  have : k < m.lines.length := by rw [hS.length]; exact (List.getElem?_eq_some_iff.mp hpl).1
  exact ⟨_, List.getElem?_eq_getElem this⟩

theorem prog_at {fuel : Nat} {f : List Str} {items : List Item} {externs : Ctx} {m m₁ : Module}
    (hS : Side fuel f items externs m m₁) {k : Nat} {l : Line} (hl : m.lines[k]? = some l) :
    ∃ pl, (fileProgram f)[k]? = some pl := by
  obtain ⟨pl, hpl, -⟩ := hS.statements k l hl
  exact ⟨pl, by rw [fileProgram_of hS.read]; exact hpl⟩

theorem block_of {fuel : Nat} {files : List (List Str)} {a : Assembler} {i : Nat} {m : Module} {f : List Str}
    {items : List Item} {externs : Ctx} {m₁ : Module} (hm : a.modules[i]? = some m) (hf : files[i]? = some f)
    (hS : Side fuel f items externs m m₁) {k o : Nat} (h : PlacedFrom (programsOf files a) i k o) : Block m k o := by
  obtain ⟨name, P, pl, hP, hk, he, hle, ⟨pl0, ho, horg⟩, hlast⟩ := h
  rw [programsOf_get hm hf] at hP; cases hP
  obtain ⟨l, hl⟩ := line_at hS hk
  obtain ⟨l0, hl0⟩ := line_at hS ho
  refine ⟨⟨l, hl, fun hq => ?_⟩, hle, ⟨l0, hl0, (isDirective_iff hS hl0 ho .org).1 horg⟩, fun n l' h1 h2 hl' hq => ?_⟩
  · rw [(isDirective_iff hS hl hk .equ).2 hq] at he; cases he
  · obtain ⟨pl', hpl'⟩ := prog_at hS hl'
    have := hlast n pl' h1 h2 hpl'
    rw [(isDirective_iff hS hl' hpl' .org).2 hq] at this; cases this

theorem isOrg_blank {o : Bool} {l l' : Line} (h : blank o l'.statement = blank o l.statement) : IsOrg l' ↔ IsOrg l := by
  have e : ∀ l : Line, IsOrg l ↔ l.statement.isDir .org = true := fun l => (isDir_iff _ _).symm
  rw [e, e, ← isDir_blank (o := o), h, isDir_blank]

theorem Twin.back {o : Bool} {m m' : Module} (hT : Twin o m m') {k : Nat} {l' : Line} (hl' : m'.lines[k]? = some l') :
    ∃ l, m.lines[k]? = some l ∧ blank o l'.statement = blank o l.statement ∧ l'.scopes = l.scopes := by
  have hk : k < m.lines.length := by rw [← hT.length]; exact (List.getElem?_eq_some_iff.mp hl').1
  obtain ⟨l'', h1, h2, h3, -⟩ := hT.line k _ (List.getElem?_eq_getElem hk)
  rw [hl'] at h1; cases h1
  exact ⟨_, List.getElem?_eq_getElem hk, h2, h3⟩

theorem Block.twin {o : Bool} {m m' : Module} (hT : Twin o m m') {k b : Nat} (h : Block m k b) : Block m' k b := by
  obtain ⟨⟨l, hl, hne⟩, hle, ⟨l0, hl0, horg⟩, hlast⟩ := h
  obtain ⟨l', hl', hb, -⟩ := hT.line k l hl
  obtain ⟨l0', hl0', hb0, -⟩ := hT.line b l0 hl0
  refine ⟨⟨l', hl', mt (isEqu_blank hb).1 hne⟩, hle, ⟨l0', hl0', (isOrg_blank hb0).2 horg⟩, fun n q h1 h2 hq hc => ?_⟩
  obtain ⟨q0, hq0, hqb, -⟩ := hT.back hq
  exact hlast n q0 h1 h2 hq0 ((isOrg_blank hqb).1 hc)

theorem bytesBetween_twin {o : Bool} {m m' : Module} (hT : Twin o m m') (b k : Nat) :
    bytesBetween m'.lines b k = bytesBetween m.lines b k := by
  have : m'.lines.map (fun l => l.statement.serializedSize) = m.lines.map fun l => l.statement.serializedSize := by
    apply List.ext_getElem?
    intro n
    rw [List.getElem?_map, List.getElem?_map]
    cases hl : m.lines[n]? with
    | none =>
      have : m'.lines[n]? = none := by rw [List.getElem?_eq_none_iff] at hl ⊢; rw [hT.length]; exact hl
      rw [this]
    | some l =>
      obtain ⟨l', hl', hb, -⟩ := hT.line n l hl
      rw [hl', Option.map_some, Option.map_some, ← size_blank (o := o), hb, size_blank]
  unfold bytesBetween
  rw [List.map_drop, List.map_drop, List.map_take, List.map_take, this]

/-- The origins of a module have 24 bits. -/
def Fit (m : Module) : Prop := ∀ (k : Nat) (l : Line) (v : Int), m.lines[k]? = some l → SetsOrigin l v → v < 0x1000000

theorem place_zero (v : Int) : place v 0 = v := by unfold place; omega

/-- Where the lines of a block are. -/
theorem block_value {σ : Type} {fuel : Nat} {files : List (List Str)} {sink : Sink σ} {s s' : σ} {a : Assembler}
    (h : Assembler.assembleFiles fuel files sink s = (s', .ok a)) {i : Nat} {m : Module} (hm : a.modules[i]? = some m)
    (hfit : Fit m) {k o : Nat} (hb : Block m k o) :
    ∃ l v, m.lines[o]? = some l ∧ SetsOrigin l v ∧ valueAt m o = some v ∧
      valueAt m k = some (place v (bytesBetween m.lines o k)) := by
  obtain ⟨⟨l, hl, hne⟩, hle, ⟨l0, hl0, horg⟩, hlast⟩ := hb
  obtain ⟨order, wss, hA⟩ := assembled h
  obtain ⟨f, items, m₁, hf, hS⟩ := side h hA hm
  obtain ⟨_, -, -, hC⟩ := C57_values h
  obtain ⟨f', items', -, -, -, hC⟩ := hC i m hm
  have hne0 : ¬ IsEqu l0 := by
    rintro ⟨d, hd, hn⟩
    obtain ⟨d', hd', hn'⟩ := horg
    rw [hd] at hd'; cases hd'
    rw [hn] at hn'; cases hn'
  obtain ⟨v, hv⟩ : ∃ v, SetsOrigin l0 v := by
    obtain ⟨m₀, -, h1⟩ := Res.bind_eq_ok.mp hS.first
    obtain ⟨p, l1, l2, -, -, hlay, rfl⟩ := firstPass_parts h1
    exact org_sets hlay o l0 (hS.places o l0 hl0 hne0) horg
  have hv24 := hfit o l0 v hl0 hv
  refine ⟨l0, v, hl0, hv, ?_, ?_⟩
  · have := (hC o l0 hl0).2.1 o v ⟨Nat.le_refl _, ⟨l0, hl0, hv⟩, fun n _ h1 h2 => by omega⟩ hv24 hne0
    unfold valueAt
    rw [hl0, Option.bind_some, this, bytesBetween_self, place_zero]
  · have := (hC k l hl).2.1 o v ⟨hle, ⟨l0, hl0, hv⟩, hlast⟩ hv24 hne
    unfold valueAt
    rw [hl, Option.bind_some, this]

theorem stmt_item : ∀ (items : List Item) (ls : List ParsedLabel), ∀ l ∈ program ls items, Item.stmt l.statement ∈ items := by
  intro items
  induction items with
  | nil => intro ls l hl; cases hl
  | cons it items ih =>
    intro ls l hl
    cases it with
    | label x => exact List.mem_cons_of_mem _ (ih _ l hl)
    | stmt st =>
      rw [program, List.mem_cons] at hl
      rcases hl with rfl | hl
      · exact List.mem_cons_self ..
      · exact List.mem_cons_of_mem _ (ih _ l hl)

theorem item_of {f : List Str} {items : List Item} (h : FileItems f items) {it : Item} (hi : it ∈ items) :
    ∃ line ∈ f, ∃ ts its, tokenize line = .ok ts ∧ Parse.parse ts = .ok its ∧ it ∈ its := by
  obtain ⟨per, hf, rfl⟩ := h
  induction hf with
  | nil => cases hi
  | cons h1 _ ih =>
    obtain ⟨ts, h2, h3⟩ := h1
    rw [List.flatten_cons, List.mem_append] at hi
    rcases hi with hi | hi
    · exact ⟨_, List.mem_cons_self .., ts, _, h2, h3, hi⟩
    · obtain ⟨line, hl, h⟩ := ih hi
      exact ⟨line, List.mem_cons_of_mem _ hl, h⟩

theorem fit_of {fuel : Nat} {files : List (List Str)} {i : Nat} {m : Module} {f : List Str}
    {items : List Item} {externs : Ctx} {m₁ : Module} (hf : files[i]? = some f)
    (hS : Side fuel f items externs m m₁) (h : OriginsFit files) : Fit m := by
  rintro k l v hl ⟨d, hd, hn, hv⟩
  obtain ⟨pl, hpl, hst⟩ := hS.statements k l hl
  obtain ⟨line, hline, ts, its, h1, h2, h3⟩ := item_of hS.read (stmt_item items [] pl (List.mem_of_getElem? hpl))
  refine h f (List.mem_of_getElem? hf) line hline ts its d v h1 h2 ?_ hn hv
  cases hp : pl.statement with
  | dir d' =>
    rw [hp] at hst; simp only at hst
    rw [hd] at hst; cases hst
    rw [hp] at h3; exact h3
  | instr j =>
    rw [hp] at hst
    obtain ⟨mode, hst⟩ := hst
    rw [hd] at hst; cases hst

theorem statement_of {fuel : Nat} {files : List (List Str)} {a : Assembler} {i : Nat} {m : Module} {f : List Str}
    {items : List Item} {externs : Ctx} {m₁ : Module} (hm : a.modules[i]? = some m) (hf : files[i]? = some f)
    (hS : Side fuel f items externs m m₁) {k : Nat} {l : Line} (hl : m.lines[k]? = some l) {d : Directive}
    (hd : l.statement = .dir d) : HasStatement (programsOf files a) i k (.dir d) := by
  obtain ⟨pl, hpl, hst⟩ := hS.statements k l hl
  refine ⟨m.name, fileProgram f, pl.labels, programsOf_get hm hf, ?_⟩
  rw [fileProgram_of hS.read, hpl]
  cases hp : pl.statement with
  | dir d' =>
    rw [hp] at hst; simp only at hst
    rw [hd] at hst; cases hst
    rw [← hp]
  | instr j =>
    rw [hp] at hst
    obtain ⟨mode, hst⟩ := hst
    rw [hd] at hst; cases hst

/-! ## The values of expressions -/

/-- Two assemblies of files that differ in origins only. -/
structure Pair (fuel : Nat) (files files' : List (List Str)) (a a' : Assembler) : Prop where
  both : Both true fuel files files' a a'
  block : ∀ (i : Nat) (m : Module), a.modules[i]? = some m → ∀ k o, Block m k o →
    ∃ l v, m.lines[o]? = some l ∧ SetsOrigin l v ∧ valueAt m o = some v ∧ valueAt m k = some (place v (bytesBetween m.lines o k))
  block' : ∀ (i : Nat) (m : Module), a'.modules[i]? = some m → ∀ k o, Block m k o →
    ∃ l v, m.lines[o]? = some l ∧ SetsOrigin l v ∧ valueAt m o = some v ∧ valueAt m k = some (place v (bytesBetween m.lines o k))

theorem pair {fuel : Nat} {files files' : List (List Str)} {ws ws' : Writes} {a a' : Assembler}
    (hr : List.Forall₂ MovedFile files files') (h : Assembler.assembleFiles fuel files recorder [] = (ws, .ok a))
    (h' : Assembler.assembleFiles fuel files' recorder [] = (ws', .ok a')) (hfit : OriginsFit files)
    (hfit' : OriginsFit files') : Pair fuel files files' a a' := by
  have hB : Both true fuel files files' a a' := Values.both (hr.imp fun _ _ => like_of_moved) h h'
  refine ⟨hB, fun i m hm k o hb => ?_, fun i m hm k o hb => ?_⟩
  · obtain ⟨f, f', items, items', m₁, m₁', m', hf, hf', hm', hS, hS', hT⟩ := hB.pair i m hm
    exact block_value h hm (fit_of hf hS hfit) hb
  · obtain ⟨order, wss, hA⟩ := assembled h'
    obtain ⟨f, items, m₁, hf, hS⟩ := side h' hA hm
    exact block_value h' hm (fit_of hf hS hfit') hb

/-- What a name is in one assembly, it is in the other. -/
theorem points_both {o : Bool} {fuel : Nat} {files files' : List (List Str)} {a a' : Assembler} (hB : Both o fuel files files' a a')
    {i k : Nat} {m m' : Module} {l l' : Line} (hm : a.modules[i]? = some m) (hm' : a'.modules[i]? = some m')
    (hl : m.lines[k]? = some l) (hl' : m'.lines[k]? = some l') {id : FullId} {v : Int}
    (h : m.lookup l.scopes (Assembler.lookup a.modules a.names) id = .ok v) :
    ∃ j t mj mj', PointsTo (programsOf files a) i k id j t ∧ a.modules[j]? = some mj ∧ a'.modules[j]? = some mj' ∧
      valueAt mj t = some v ∧ ∀ w, valueAt mj' t = some w →
        m'.lookup l'.scopes (Assembler.lookup a'.modules a'.names) id = .ok w := by
  obtain ⟨f, f', items, items', m₁, m₁', m'', hf, hf', hm'', hS, hS', hT⟩ := hB.pair i m hm
  rw [hm'] at hm''; cases hm''
  obtain ⟨l'', hl'', -, hsc, -⟩ := hT.line k l hl
  rw [hl'] at hl''; cases hl''
  have hP := programsOf_get hm hf
  unfold Module.lookup at h ⊢
  unfold PointsTo
  rw [hsc]
  simp only [hT.locals, hT.name]
  have hloc : ∀ t w, m.localLookup t = .ok w → valueAt m t = some w := by
    intro t w hw
    rw [localLookup_ok] at hw
    exact hw
  have hloc' : ∀ t w, valueAt m' t = some w → m'.localLookup t = .ok w := by
    intro t w hw
    rw [localLookup_ok]
    exact hw
  have hext : ∀ (other : Str) (id : FullId), id.module = some other → Assembler.lookup a.modules a.names id = .ok v →
      ∃ (j t : Nat) (mj mj' : Module) (Q : Program), (programsOf files a)[j]? = some (other, Q) ∧ Defines Q none id.name t ∧ a.modules[j]? = some mj ∧
        a'.modules[j]? = some mj' ∧ valueAt mj t = some v ∧
        ∀ w, valueAt mj' t = some w → Assembler.lookup a'.modules a'.names id = .ok w := by
    intro other id hid hx
    obtain ⟨mj, hmj, t, h1, h2, h3⟩ := (hB.publishes id v).1 hx
    obtain ⟨j, hj⟩ := List.mem_iff_getElem?.1 hmj
    obtain ⟨g, g', its, its', n₁, n₁', mj', hg, hg', hmj', hSj, hSj', hTj⟩ := hB.pair j mj hj
    have hn : mj.name = other := by rw [hid] at h1; exact (Option.some.inj h1).symm
    refine ⟨j, t, mj, mj', fileProgram g, by rw [programsOf_get hj hg, hn], (defines_iff hSj _ _).1 h2, hj, hmj', h3, fun w hw => ?_⟩
    refine (hB.publishes' id w).2 ⟨mj', List.mem_of_getElem? hmj', t, ?_, ?_, hw⟩
    · rw [hTj.name]; exact h1
    · rw [hTj.globals]; exact h2
  cases hmod : id.module with
  | some other =>
    simp only [hmod] at h ⊢
    split at h
    · rename_i hn
      rw [if_pos hn]
      cases hx : m.localIndex id.name [] with
      | none =>
        rw [hx] at h
        obtain ⟨j, t, mj, mj', Q, h1, h2, h3, h4, h5, h6⟩ := hext other id hmod h
        exact ⟨j, t, mj, mj', ⟨Q, h1, h2⟩, h3, h4, h5, h6⟩
      | some t =>
        rw [hx] at h
        refine ⟨i, t, m, m', ⟨fileProgram f, by rw [hP, hn], ?_⟩, hm, hm', hloc t v h, fun w hw => hloc' t w hw⟩
        rw [fileProgram_of hS.read]
        exact (hS.names.globals _ _).1 hx
    · rename_i hn
      rw [if_neg hn]
      obtain ⟨j, t, mj, mj', Q, h1, h2, h3, h4, h5, h6⟩ := hext other id hmod h
      exact ⟨j, t, mj, mj', ⟨Q, h1, h2⟩, h3, h4, h5, h6⟩
  | none =>
    simp only [hmod] at h ⊢
    cases hx : m.localIndex id.name l.scopes with
    | some t =>
      rw [hx] at h
      refine ⟨i, t, m, m', ⟨_, _, hP, .inl ⟨rfl, ?_⟩⟩, hm, hm', hloc t v h, fun w hw => hloc' t w hw⟩
      rw [fileProgram_of hS.read]
      exact (hS.names.locals k l hl _ _).1 hx
    | none =>
      rw [hx] at h
      obtain ⟨j, t, mj, mj', Q, h1, h2, h3, h4, h5, h6⟩ := hext [] ⟨some [], id.name⟩ rfl h
      refine ⟨j, t, mj, mj', ⟨_, _, hP, .inr ⟨fun t' ht' => ?_, Q, h1, h2⟩⟩, h3, h4, h5, h6⟩
      rw [fileProgram_of hS.read] at ht'
      rw [(hS.names.locals k l hl _ _).2 ht'] at hx; cases hx

/-- The two values of an expression. -/
def Holds (a a' : Assembler) : Shift → Int → Int → Prop
  | .exact, v, v' => v' = v
  | .low, v, v' => v' % 65536 = v % 65536
  | .along j o, v, v' => ∃ m m' x x', a.modules[j]? = some m ∧ a'.modules[j]? = some m' ∧ valueAt m o = some x ∧
      valueAt m' o = some x' ∧ (v' - v) % 65536 = (x' - x) % 65536

theorem place_shift (v v' : Int) (n : Nat) : (place v' n - place v n) % 65536 = (v' - v) % 65536 := by
  unfold place; omega

theorem setsOrigin_unique {l : Line} {v w : Int} (h : SetsOrigin l v) (h' : SetsOrigin l w) : v = w := by
  obtain ⟨d, h1, -, h2⟩ := h
  obtain ⟨d', h3, -, h4⟩ := h'
  rw [h1] at h3; cases h3
  rw [h2] at h4; cases h4; rfl

/-- The values of the lines of a block in two assemblies. -/
theorem Pair.shift {fuel : Nat} {files files' : List (List Str)} {a a' : Assembler} (hp : Pair fuel files files' a a')
    {j t o : Nat} {m m' : Module} (hm : a.modules[j]? = some m) (hm' : a'.modules[j]? = some m')
    (h : PlacedFrom (programsOf files a) j t o) :
    ∃ l l' x x' n, m.lines[o]? = some l ∧ m'.lines[o]? = some l' ∧ SetsOrigin l x ∧ SetsOrigin l' x' ∧
      valueAt m o = some x ∧ valueAt m' o = some x' ∧ valueAt m t = some (place x n) ∧ valueAt m' t = some (place x' n) := by
  obtain ⟨f, f', items, items', m₁, m₁', m'', hf, hf', hm'', hS, hS', hT⟩ := hp.both.pair j m hm
  rw [hm'] at hm''; cases hm''
  have hb := block_of hm hf hS h
  obtain ⟨l, x, h1, h2, h3, h4⟩ := hp.block j m hm t o hb
  obtain ⟨l', x', h1', h2', h3', h4'⟩ := hp.block' j m' hm' t o (hb.twin hT)
  exact ⟨l, l', x, x', _, h1, h1', h2, h2', h3, h3', h4, by rw [h4', bytesBetween_twin hT]⟩

/-- The lines of a block that begins with the same origin have the same values. -/
theorem Pair.fixed {fuel : Nat} {files files' : List (List Str)} {a a' : Assembler} (hp : Pair fuel files files' a a')
    {j t o : Nat} {m m' : Module} (hm : a.modules[j]? = some m) (hm' : a'.modules[j]? = some m')
    (h : PlacedFrom (programsOf files a) j t o) {st : Statement} (hst : HasStatement (programsOf files a) j o st)
    (hst' : HasStatement (programsOf files' a') j o st) : ∃ v, valueAt m t = some v ∧ valueAt m' t = some v := by
  obtain ⟨l, l', x, x', n, h1, h1', h2, h2', -, -, h4, h4'⟩ := hp.shift hm hm' h
  obtain ⟨f, f', items, items', m₁, m₁', m'', hf, hf', hm'', hS, hS', hT⟩ := hp.both.pair j m hm
  rw [hm'] at hm''; cases hm''
  have hs := hasStatement_iff hm hf hS h1 hst
  have hs' := hasStatement_iff hm' hf' hS' h1' hst'
  have hxx : x' = x := by
    cases st with
    | dir d =>
      simp only at hs hs'
      refine setsOrigin_unique (l := l) ?_ h2
      obtain ⟨d', e1, e2, e3⟩ := h2'
      rw [hs'] at e1; cases e1
      exact ⟨d, hs, e2, e3⟩
    | instr i =>
      obtain ⟨mode, hs⟩ := hs
      obtain ⟨d', e1, -⟩ := h2
      rw [hs] at e1; cases e1
  rw [hxx] at h4'
  exact ⟨_, h4, h4'⟩

/-- A line that is no `.org` is the same in both. -/
theorem same_statement {l l' : Line} (h : blank true l'.statement = blank true l.statement) (hn : ¬ IsOrg l) :
    l'.statement = l.statement := by
  have hb : ∀ l : Line, ¬ IsOrg l → blank true l.statement = l.statement := by
    intro l hn
    cases hs : l.statement with
    | instr i => simp [blank]
    | dir d =>
      have : d.name ≠ .org := fun hc => hn ⟨d, hs, hc⟩
      simp [blank, this]
  have hn' : ¬ IsOrg l' := mt (isOrg_blank h).1 hn
  rw [hb l hn, hb l' hn'] at h
  exact h

theorem behaves_value {fuel : Nat} {files files' : List (List Str)} {a a' : Assembler} (hp : Pair fuel files files' a a')
    {s : Shift} {i k : Nat} {e : Expr} (h : Behaves (programsOf files a) (programsOf files' a') s i k e) :
    ∀ (m m' : Module) (l l' : Line), a.modules[i]? = some m → a'.modules[i]? = some m' → m.lines[k]? = some l →
      m'.lines[k]? = some l' → ∀ v v', e.eval (m.lookup l.scopes (Assembler.lookup a.modules a.names)) = .ok v →
      e.eval (m'.lookup l'.scopes (Assembler.lookup a'.modules a'.names)) = .ok v' → Holds a a' s v v' := by
  have look : ∀ {ctx : Ctx} {id : FullId} {t : NumericType} {v : Int}, (Expr.ident id t).eval ctx = .ok v → ctx id = .ok v := by
    intro ctx id t v h
    simp only [Expr.eval] at h
    cases hc : ctx id with
    | error e => rw [hc] at h; cases h
    | ok w => rw [hc] at h; cases h; rfl
  have two : ∀ {ctx : Ctx} {op : BinOp} {l r : Expr} {v : Int}, (Expr.bin op l r).eval ctx = .ok v →
      ∃ x y, l.eval ctx = .ok x ∧ r.eval ctx = .ok y ∧ op.apply x y = .ok v := by
    intro ctx op l r v h
    simp only [Expr.eval] at h
    cases hl : l.eval ctx with
    | ok x =>
      cases hr : r.eval ctx with
      | ok y => rw [hl, hr] at h; exact ⟨x, y, rfl, rfl, h⟩
      | err e => rw [hl, hr] at h; cases h
      | ub u => rw [hl, hr] at h; cases h
    | err e => cases hr : r.eval ctx <;> rw [hl, hr] at h <;> cases h
    | ub u => rw [hl] at h; cases h
  have i32eq : ∀ {x v : Int}, i32 x = .ok v → v = x := by
    intro x v h
    unfold i32 at h
    split at h
    · cases h; rfl
    · cases h
  induction h with
  | number n t =>
    intro m m' l l' hm hm' hl hl' v v' hv hv'
    cases hv; cases hv'; exact rfl
  | @fixed i k id t hall =>
    intro m m' l l' hm hm' hl hl' v v' hv hv'
    obtain ⟨j, n, mj, mj', hpt, hj, hj', hval, hback⟩ := points_both hp.both hm hm' hl hl' (look hv)
    obtain ⟨o, st, h1, h2, h3⟩ := hall j n hpt
    obtain ⟨w, hw, hw'⟩ := hp.fixed hj hj' h1 h2 h3
    have := hback w hw'
    rw [look hv'] at this
    rw [hval] at hw
    cases this; cases hw
    exact rfl
  | @moved i k id t j o hall =>
    intro m m' l l' hm hm' hl hl' v v' hv hv'
    obtain ⟨j', s, mj, mj', hpt, hj, hj', hval, hback⟩ := points_both hp.both hm hm' hl hl' (look hv)
    obtain ⟨rfl, h1⟩ := hall j' s hpt
    obtain ⟨_, _, y, y', c, -, -, -, -, h2, h3, h4, h5⟩ := hp.shift hj hj' h1
    have := hback _ h5
    rw [look hv'] at this
    rw [hval] at h4
    cases this; cases h4
    exact ⟨mj, mj', y, y', hj, hj', h2, h3, place_shift _ _ _⟩
  | @constant i k s id t hall _ ih =>
    intro m m' l l' hm hm' hl hl' v v' hv hv'
    obtain ⟨j, n, mj, mj', hpt, hj, hj', hval, hback⟩ := points_both hp.both hm hm' hl hl' (look hv)
    obtain ⟨d, hd, hq⟩ := hall j n hpt
    obtain ⟨f, f', items, items', m₁, m₁', m'', hf, hf', hm'', hS, hS', hT⟩ := hp.both.pair j mj hj
    rw [hj'] at hm''; cases hm''
    cases hln : mj.lines[n]? with
    | none => unfold valueAt at hval; rw [hln] at hval; cases hval
    | some ln =>
      obtain ⟨ln', hln', hb, -⟩ := hT.line n ln hln
      have hs := hasStatement_iff hj hf hS hln hd
      simp only at hs
      have hno : ¬ IsOrg ln := by
        rintro ⟨d', h1, h2⟩
        rw [hs] at h1; cases h1
        rw [hq] at h2; cases h2
      have hs' : ln'.statement = .dir d := by rw [same_statement hb hno, hs]
      obtain ⟨w, hw, he⟩ := hS.constants n ln d hln hs hq
      obtain ⟨w', hw', he'⟩ := hS'.constants n ln' d hln' hs' hq
      have e1 : valueAt mj n = some w := by unfold valueAt; rw [hln]; exact hw
      have e2 : valueAt mj' n = some w' := by unfold valueAt; rw [hln']; exact hw'
      have := hback w' e2
      rw [look hv'] at this
      rw [hval] at e1
      cases this; cases e1
      exact ih j n d hpt hd mj mj' ln ln' hj hj' hln hln' _ _ he he'
  | weaken _ ih =>
    intro m m' l l' hm hm' hl hl' v v' hv hv'
    have : v' = v := ih m m' l l' hm hm' hl hl' v v' hv hv'
    rw [this]; exact rfl
  | binary op _ _ ih1 ih2 =>
    intro m m' l l' hm hm' hl hl' v v' hv hv'
    obtain ⟨x, y, hx, hy, hv⟩ := two hv
    obtain ⟨x', y', hx', hy', hv'⟩ := two hv'
    have e1 : x' = x := ih1 m m' l l' hm hm' hl hl' x x' hx hx'
    have e2 : y' = y := ih2 m m' l l' hm hm' hl hl' y y' hy hy'
    rw [e1, e2, hv] at hv'
    cases hv'; exact rfl
  | unary op _ ih =>
    intro m m' l l' hm hm' hl hl' v v' hv hv'
    simp only [Expr.eval] at hv hv'
    obtain ⟨x, hx, hv⟩ := Res.bind_eq_ok.mp hv
    obtain ⟨x', hx', hv'⟩ := Res.bind_eq_ok.mp hv'
    have e1 : x' = x := ih m m' l l' hm hm' hl hl' x x' hx hx'
    rw [e1, hv] at hv'
    cases hv'; exact rfl
  | byte op hop _ ih =>
    intro m m' l l' hm hm' hl hl' v v' hv hv'
    simp only [Expr.eval] at hv hv'
    obtain ⟨x, hx, hv⟩ := Res.bind_eq_ok.mp hv
    obtain ⟨x', hx', hv'⟩ := Res.bind_eq_ok.mp hv'
    have e1 : x' % 65536 = x % 65536 := ih m m' l l' hm hm' hl hl' x x' hx hx'
    show v' = v
    rcases hop with rfl | rfl <;> cases hv <;> cases hv'
    · omega
    · omega
  | arith op hop _ _ ih1 ih2 =>
    intro m m' l l' hm hm' hl hl' v v' hv hv'
    obtain ⟨x, y, hx, hy, hv⟩ := two hv
    obtain ⟨x', y', hx', hy', hv'⟩ := two hv'
    have e1 : x' % 65536 = x % 65536 := ih1 m m' l l' hm hm' hl hl' x x' hx hx'
    have e2 : y' % 65536 = y % 65536 := ih2 m m' l l' hm hm' hl hl' y y' hy hy'
    show v' % 65536 = v % 65536
    cases op with
    | plus => rw [i32eq hv, i32eq hv']; omega
    | minus => rw [i32eq hv, i32eq hv']; omega
    | mul => rw [i32eq hv, i32eq hv', Int.mul_emod, e1, e2, ← Int.mul_emod]
    | div => exact absurd rfl hop
  | neg _ ih =>
    intro m m' l l' hm hm' hl hl' v v' hv hv'
    simp only [Expr.eval] at hv hv'
    obtain ⟨x, hx, hv⟩ := Res.bind_eq_ok.mp hv
    obtain ⟨x', hx', hv'⟩ := Res.bind_eq_ok.mp hv'
    have e1 : x' % 65536 = x % 65536 := ih m m' l l' hm hm' hl hl' x x' hx hx'
    show v' % 65536 = v % 65536
    rw [i32eq hv, i32eq hv']; omega
  | forward _ _ ih1 ih2 =>
    intro m m' l l' hm hm' hl hl' v v' hv hv'
    obtain ⟨x, y, hx, hy, hv⟩ := two hv
    obtain ⟨x', y', hx', hy', hv'⟩ := two hv'
    obtain ⟨n, n', z, z', hn, hn', hz, hz', e1⟩ := ih1 m m' l l' hm hm' hl hl' x x' hx hx'
    have e2 : y' % 65536 = y % 65536 := ih2 m m' l l' hm hm' hl hl' y y' hy hy'
    refine ⟨n, n', z, z', hn, hn', hz, hz', ?_⟩
    rw [i32eq hv, i32eq hv']; omega
  | forward' _ _ ih1 ih2 =>
    intro m m' l l' hm hm' hl hl' v v' hv hv'
    obtain ⟨x, y, hx, hy, hv⟩ := two hv
    obtain ⟨x', y', hx', hy', hv'⟩ := two hv'
    have e1 : x' % 65536 = x % 65536 := ih1 m m' l l' hm hm' hl hl' x x' hx hx'
    obtain ⟨n, n', z, z', hn, hn', hz, hz', e2⟩ := ih2 m m' l l' hm hm' hl hl' y y' hy hy'
    refine ⟨n, n', z, z', hn, hn', hz, hz', ?_⟩
    rw [i32eq hv, i32eq hv']; omega
  | backward _ _ ih1 ih2 =>
    intro m m' l l' hm hm' hl hl' v v' hv hv'
    obtain ⟨x, y, hx, hy, hv⟩ := two hv
    obtain ⟨x', y', hx', hy', hv'⟩ := two hv'
    obtain ⟨n, n', z, z', hn, hn', hz, hz', e1⟩ := ih1 m m' l l' hm hm' hl hl' x x' hx hx'
    have e2 : y' % 65536 = y % 65536 := ih2 m m' l l' hm hm' hl hl' y y' hy hy'
    refine ⟨n, n', z, z', hn, hn', hz, hz', ?_⟩
    rw [i32eq hv, i32eq hv']; omega
  | @distance i k j o _ _ hl0 hr0 ih1 ih2 =>
    intro m m' l l' hm hm' hl hl' v v' hv hv'
    obtain ⟨x, y, hx, hy, hv⟩ := two hv
    obtain ⟨x', y', hx', hy', hv'⟩ := two hv'
    obtain ⟨n, n', z, z', hn, hn', hz, hz', e1⟩ := ih1 m m' l l' hm hm' hl hl' x x' hx hx'
    obtain ⟨q, q', u, u', hq, hq', hu, hu', e2⟩ := ih2 m m' l l' hm hm' hl hl' y y' hy hy'
    rw [hn] at hq; cases hq
    rw [hn'] at hq'; cases hq'
    rw [hz] at hu; cases hu
    rw [hz'] at hu'; cases hu'
    show v' % 65536 = v % 65536
    rw [i32eq hv, i32eq hv']; omega

/-! ## Lines -/

/-- The mode of an instruction in the result. -/
theorem hasInstr {σ : Type} {fuel : Nat} {files : List (List Str)} {sink : Sink σ} {s s' : σ} {a : Assembler}
    (h : Assembler.assembleFiles fuel files sink s = (s', .ok a)) {i k : Nat} {m : Module} {l : Line}
    (hm : a.modules[i]? = some m) (hl : m.lines[k]? = some l) {x : Instruction}
    (hx : HasStatement (programsOf files a) i k (.instr x)) :
    ∃ mode, l.statement = .instr { x with mode := mode } ∧ (mode = x.mode ∨
      (x.mode = .imm_fm ∨ x.mode = .imm_fx) ∧ (mode = .imm_b ∨ mode = .imm_w)) := by
  obtain ⟨externs, -, -, hC⟩ := C57_values h
  obtain ⟨f, items, hf, hF, -, hline⟩ := hC i m hm
  obtain ⟨-, -, pl, hpl, hst⟩ := hline k l hl
  obtain ⟨name, P, ls, hP, hk⟩ := hx
  rw [programsOf_get hm hf] at hP; cases hP
  rw [fileProgram_of hF, hpl] at hk
  obtain rfl := Option.some.inj hk
  obtain ⟨mode, h1, h2, h3, -⟩ := hst
  refine ⟨mode, h1, ?_⟩
  by_cases hc : x.mode = .imm_fm ∨ x.mode = .imm_fx
  · exact .inr ⟨hc, h3 hc⟩
  · rw [not_or] at hc
    exact .inl (h2 hc.1 hc.2)

/-- What a line writes in the two assemblies. -/
theorem moved_out {fuel : Nat} {files files' : List (List Str)} {ws : Writes} {a a' : Assembler}
    (h : Assembler.assembleFiles fuel files recorder [] = (ws, .ok a)) (hp : Pair fuel files files' a a')
    {i k : Nat} {m m' : Module} {l l' : Line} {w w' : Writes} (hm : a.modules[i]? = some m) (hm' : a'.modules[i]? = some m')
    (hl : m.lines[k]? = some l) (hl' : m'.lines[k]? = some l')
    (hw : LineWrites (m.lookup l.scopes (Assembler.lookup a.modules a.names)) l w)
    (hw' : LineWrites (m'.lookup l'.scopes (Assembler.lookup a'.modules a'.names)) l' w') :
    w'.map (·.2.length) = w.map (·.2.length) ∧
      (Indifferent (programsOf files a) (programsOf files' a') i k → w'.map (·.2) = w.map (·.2)) := by
  obtain ⟨f, f', items, items', m₁, m₁', m'', hf, hf', hm'', hS, hS', hT⟩ := hp.both.pair i m hm
  rw [hm'] at hm''; cases hm''
  obtain ⟨l'', hl'', hbl, hsc, -⟩ := hT.line k l hl
  rw [hl'] at hl''; cases hl''
  have hsize : l'.statement.serializedSize = l.statement.serializedSize := by rw [← size_blank, hbl, size_blank]
  rcases hw with ⟨hz, rfl⟩ | ⟨x, bs, hv, hb, hlen, hne, rfl⟩ <;>
    rcases hw' with ⟨hz', rfl⟩ | ⟨x', bs', hv', hb', hlen', hne', rfl⟩
  · exact ⟨rfl, fun _ => rfl⟩
  · exact absurd (List.length_eq_zero_iff.mp (by rw [hlen', hsize, hz])) hne'
  · exact absurd (List.length_eq_zero_iff.mp (by rw [hlen, ← hsize, hz'])) hne
  · refine ⟨by simp only [List.map_cons, List.map_nil, hlen, hlen', hsize], fun hi => ?_⟩
    have horg : ¬ IsOrg l := by
      rintro ⟨d, hd, hq⟩
      rw [hd] at hlen
      apply hne
      rw [← List.length_eq_zero_iff, hlen]
      show d.serializedSize = 0
      unfold Directive.serializedSize
      rw [hq]; simp
    rw [same_statement hbl horg] at hb'
    have key : bs' = bs := by
      cases hi with
      | data d hd hall =>
        have hs := hasStatement_iff hm hf hS hl hd
        simp only at hs
        rw [hs] at hb hb'
        refine Option.some.inj (dir_bytes hb hb' fun e he v v' hev hev' => ?_)
        have := behaves_value hp (hall e he) m m' l l' hm hm' hl hl' v v' hev hev'
        by_cases hn : d.name = .dl
        · rw [if_pos hn] at this
          have : v' = v := this
          exact ⟨by rw [this], fun _ => this⟩
        · rw [if_neg hn] at this
          exact ⟨this, fun hc => absurd hc hn⟩
      | operand y hy h8 h16 h1 h2 =>
        obtain ⟨mode, hs, hmode⟩ := hasInstr h hm hl hy
        rw [hs] at hb hb'
        obtain ⟨b, hb, e⟩ := Res.bind_eq_ok.mp hb
        obtain ⟨b', hb', e'⟩ := Res.bind_eq_ok.mp hb'
        cases e; cases e'
        have n8 : mode ≠ .rel8 := by
          rcases hmode with rfl | ⟨-, rfl | rfl⟩
          · exact h8
          · decide
          · decide
        have n16 : mode ≠ .rel16 := by
          rcases hmode with rfl | ⟨-, rfl | rfl⟩
          · exact h16
          · decide
          · decide
        have first : ∀ v v', y.arg1.eval (m.lookup l.scopes (Assembler.lookup a.modules a.names)) = .ok v →
            y.arg1.eval (m'.lookup l'.scopes (Assembler.lookup a'.modules a'.names)) = .ok v' →
            v' % 65536 = v % 65536 ∧ (mode = .dir_l ∨ mode = .dir_lx → v' = v) := by
          intro v v' hev hev'
          have hn : y.arg1 ≠ .null := by rintro hc; rw [hc] at hev; cases hev
          have := behaves_value hp (h1 hn) m m' l l' hm hm' hl hl' v v' hev hev'
          by_cases hc : y.mode = .dir_l ∨ y.mode = .dir_lx
          · rw [if_pos hc] at this
            have : v' = v := this
            exact ⟨by rw [this], fun _ => this⟩
          · rw [if_neg hc] at this
            refine ⟨this, fun hd => absurd hd ?_⟩
            rcases hmode with rfl | ⟨-, rfl | rfl⟩
            · exact hc
            · decide
            · decide
        refine instr_bytes hb hb' (fun hc => absurd hc (by simp only [not_or]; exact ⟨n8, n16⟩))
          (fun _ _ v v' hev hev' => (first v v' hev hev').1) (fun hc v v' hev hev' => (first v v' hev hev').2 hc)
          fun _ _ v v' hev hev' => ?_
        have hn : y.arg2 ≠ .null := by rintro hc; simp only [hc] at hev; cases hev
        exact behaves_value hp (h2 hn) m m' l l' hm hm' hl hl' v v' hev hev'
      | relative y o hy ho h1 hr =>
        obtain ⟨mode, hs, hmode⟩ := hasInstr h hm hl hy
        have hmode : mode = y.mode := by
          rcases hmode with h | ⟨h | h, -⟩
          · exact h
          · rcases hr with h' | h' <;> rw [h] at h' <;> cases h'
          · rcases hr with h' | h' <;> rw [h] at h' <;> cases h'
        rw [hmode] at hs
        rw [hs] at hb hb'
        obtain ⟨b, hb, e⟩ := Res.bind_eq_ok.mp hb
        obtain ⟨b', hb', e'⟩ := Res.bind_eq_ok.mp hb'
        cases e; cases e'
        have no : ∀ {P : Prop}, y.mode ≠ .rel8 → y.mode ≠ .rel16 → P := fun h8 h16 => absurd hr (by simp [h8, h16])
        refine instr_bytes hb hb' (fun _ v v' hev hev' => ?_) (fun h8 h16 => no h8 h16)
          (fun hc => absurd hr (by rcases hc with hc | hc <;> simp only at hc <;> simp [hc])) (fun h8 h16 => no h8 h16)
        obtain ⟨n, n', z, z', hn, hn', hz, hz', e1⟩ := behaves_value hp h1 m m' l l' hm hm' hl hl' v v' hev hev'
        rw [hm] at hn; cases hn
        rw [hm'] at hn'; cases hn'
        obtain ⟨_, _, u, u', c, -, -, -, -, h2, h3, h4, h5⟩ := hp.shift hm hm' ho
        rw [hz] at h2; cases h2
        rw [hz'] at h3; cases h3
        unfold valueAt at h4 h5
        rw [hl] at h4
        rw [hl'] at h5
        have h4 : l.value = some (place z c) := h4
        have h5 : l'.value = some (place z' c) := h5
        rw [hv] at h4
        rw [hv'] at h5
        rw [Option.some.inj h4, Option.some.inj h5, e1]
        exact (place_shift z z' c).symm
    simp [key]

/-! ## Decision procedure -/

theorem moved_of_blank {st st' : Statement} (h : blank true st = blank true st') : Moved st st' := by
  cases st with
  | instr i =>
    cases st' with
    | dir d =>
      obtain ⟨d', h2, -⟩ := blank_dir (o := true) d
      rw [h2] at h
      simp [blank] at h
    | instr j =>
      simp [blank] at h
      rw [h]; exact .same _
  | dir d =>
    cases st' with
    | instr j =>
      obtain ⟨d', h2, -⟩ := blank_dir (o := true) d
      rw [h2] at h
      simp [blank] at h
    | dir d' =>
      by_cases hd : d.name = .org
      · by_cases hd' : d'.name = .org
        · simp [blank, hd, hd'] at h
          have : d' = { d with argument := d'.argument } := by
            cases d; cases d'
            simp_all
          rw [this]
          exact .origin d _ hd
        · simp [blank, hd, hd'] at h
          exact absurd (by rw [← h]) hd'
      · by_cases hd' : d'.name = .org
        · simp [blank, hd, hd'] at h
          exact absurd (by rw [h]) hd
        · simp [blank, hd, hd'] at h
          rw [h]; exact .same _

theorem moved_items : ∀ {its its' : List Item}, its.map (blankItem true) = its'.map (blankItem true) →
    List.Forall₂ MovedItem its its' := by
  intro its its' h
  refine forall2_of_map h fun x _ y h1 => ?_
  cases x <;> cases y
  · exact .stmt (moved_of_blank (Item.stmt.inj h1))
  · cases h1
  · cases h1
  · cases h1; exact .label _

theorem moved_line {l l' : Str} (h : blankText true l = blankText true l') (hs : (blankText true l).isSome) : MovedLine l l' := by
  have hs' : (blankText true l').isSome := h ▸ hs
  unfold blankText at h hs hs'
  split at hs
  · rename_i ts ht
    rw [ht] at h
    split at hs
    · rename_i its hp
      simp only [hp] at h
      split at hs'
      · rename_i ts' ht'
        rw [ht'] at h
        split at hs'
        · rename_i its' hp'
          simp only [hp'] at h
          exact ⟨ts, its, ts', its', ht, hp, ht', hp', moved_items (Option.some.inj h)⟩
        · cases hs'
      · cases hs'
    · cases hs
  · cases hs

/-- Whether two sets of files differ in origins only. -/
def movedTest (files files' : List (List Str)) : Bool :=
  files.map (List.map (blankText true)) = files'.map (List.map (blankText true)) ∧ ∀ f ∈ files, ∀ l ∈ f, (blankText true l).isSome

theorem moved_of_test {files files' : List (List Str)} (h : movedTest files files' = true) : List.Forall₂ MovedFile files files' := by
  unfold movedTest at h
  obtain ⟨h1, h2⟩ := of_decide_eq_true h
  exact forall2_of_map h1 fun f hf f' he => forall2_of_map he fun l hl l' hb => moved_line hb (h2 f hf l hl)

/-- The addresses in the `.org`s of a line have 24 bits. -/
def originTest (line : Str) : Bool :=
  match tokenize line with
  | .ok ts => (match Parse.parse ts with
    | .ok its => its.all fun it =>
        match it with
        | .stmt (.dir d) => d.name ≠ .org || (match d.argument.eval nullCtx with | .ok v => v < 0x1000000 | _ => true)
        | _ => true
    | _ => true)
  | _ => true

theorem fit_of_test {files : List (List Str)} (h : files.all (fun f => f.all originTest) = true) : OriginsFit files := by
  intro f hf line hl ts its d v h1 h2 h3 h4 h5
  have := List.all_eq_true.mp (List.all_eq_true.mp h f hf) line hl
  unfold originTest at this
  simp only [h1, h2] at this
  have := List.all_eq_true.mp this _ h3
  simpa [h4, h5] using this

/-- Whether a line is in a block. -/
def placedTest (Ps : Programs) (i k o : Nat) : Bool :=
  match Ps[i]? with
  | none => false
  | some (_, P) =>
    (match P[k]? with | some line => !IsDirective .equ line | none => false) && decide (o ≤ k) &&
    (match P[o]? with | some line => IsDirective .org line | none => false) &&
    (List.range (k + 1)).all fun n => decide (n ≤ o) || (match P[n]? with | some line => !IsDirective .org line | none => true)

theorem placed_of_test {Ps : Programs} {i k o : Nat} (h : placedTest Ps i k o = true) : PlacedFrom Ps i k o := by
  unfold placedTest at h
  split at h
  · cases h
  rename_i name P hP
  simp only [Bool.and_eq_true] at h
  obtain ⟨⟨⟨h1, h2⟩, h3⟩, h4⟩ := h
  split at h1
  · rename_i line hl
    split at h3
    · rename_i line0 hl0
      refine ⟨name, P, line, hP, hl, by simpa using h1, of_decide_eq_true h2, ⟨line0, hl0, h3⟩, fun n q hn hk hq => ?_⟩
      have := List.all_eq_true.mp h4 n (List.mem_range.2 (by omega))
      rw [hq] at this
      simp only [Bool.or_eq_true, decide_eq_true_eq] at this
      rcases this with hc | hc
      · omega
      · simpa using hc
    · cases h3
  · cases h1

/-- Whether the lines with a label are among those. -/
def labelsTest (Ps : Programs) (name : Str) (good : Nat → Nat → Bool) : Bool :=
  (List.range Ps.length).all fun j => match Ps[j]? with
    | none => true
    | some (_, Q) => (List.range Q.length).all fun t => match Q[t]? with
      | none => true
      | some line => !(line.labels.any fun l => l.name = name) || good j t

theorem labels_of_test {Ps : Programs} {id : FullId} {good : Nat → Nat → Bool} (h : labelsTest Ps id.name good = true) {i k j t : Nat}
    (hp : PointsTo Ps i k id j t) : good j t = true := by
  have key : ∀ (name : Str) (Q : Program) (scope : Option Nat), Ps[j]? = some (name, Q) → Defines Q scope id.name t →
      good j t = true := by
    rintro name Q scope hQ ⟨n, line, l, hl, hn, he, -⟩
    have h1 := List.all_eq_true.mp h j (List.mem_range.2 (List.getElem?_eq_some_iff.mp hQ).1)
    simp only [hQ] at h1
    have h2 := List.all_eq_true.mp h1 t (List.mem_range.2 (List.getElem?_eq_some_iff.mp hl).1)
    simp only [hl] at h2
    have h3 : (line.labels.any fun l => l.name = id.name) = true :=
      List.any_eq_true.2 ⟨l, List.mem_of_getElem? hn, by simpa using he⟩
    rw [h3] at h2
    simpa using h2
  unfold PointsTo at hp
  cases hm : id.module with
  | some other =>
    rw [hm] at hp
    obtain ⟨Q, hQ, hd⟩ := hp
    exact key _ Q none hQ hd
  | none =>
    rw [hm] at hp
    obtain ⟨name, P, hP, ⟨rfl, hd⟩ | ⟨-, Q, hQ, hd⟩⟩ := hp
    · rcases hd with ⟨s, -, hd, -⟩ | ⟨-, hd⟩
      · exact key name P (some s) hP hd
      · exact key name P none hP hd
    · exact key _ Q none hQ hd

end Nsasm.Values
