import Verif.Lemmas.PrintLines
import Verif.Props.Link
import Verif.Props.Listing
import Verif.Spec.Dump

/-! # Assembling a printed listing -/

namespace Nsasm
open Spec Props Disassembler Parse

/-! ## Sizes -/

/-- The suffix shows the size of an immediate operand that depends on the flags. -/
def SizeShown (i : Instruction) : Prop :=
  SizedByM i.mnemonic ∨ SizedByX i.mnemonic → (i.mode = .imm_b → i.suffix = .b) ∧ (i.mode = .imm_w → i.suffix = .w)

theorem sizeBit_m {m : Mnemonic} (h : SizedByM m) (f : StatusFlags) : sizeBit m f = f.m := by
  revert h; cases m <;> first | (intro h; exact absurd h (by decide)) | (intro _; rfl)

theorem sizeBit_x {m : Mnemonic} (h : SizedByX m) (f : StatusFlags) : sizeBit m f = f.x := by
  revert h; cases m <;> first | (intro h; exact absurd h (by decide)) | (intro _; rfl)

theorem item_sizeShown {src : Source} {a : Nat} {it : DisItem} (h : ItemOk src a it) (hn : SuffixSays it) :
    SizeShown it.instruction := by
  have hz : it.instruction.mode = .imm_b ∨ it.instruction.mode = .imm_w →
      SizeAgrees it.instruction.mnemonic it.instruction.mode it.current.flags := by
    intro hm
    refine (C22_accepted_size_agrees _ it.instruction it.current it.next nullCtx h.next ?_).1
    unfold Instruction.fixAddressingMode
    rw [if_neg (by rcases hm with h | h <;> simp [h])]
  rintro (hm | hx)
  · have hb := sizeBit_m hm it.current.flags
    exact ⟨fun h => hn.1 (hb.trans (((hz (.inl h)).1 hm).1 h)), fun h => hn.2 (hb.trans (((hz (.inr h)).1 hm).2 h))⟩
  · have hb := sizeBit_x hx it.current.flags
    exact ⟨fun h => hn.1 (hb.trans (((hz (.inl h)).2 hx).1 h)), fun h => hn.2 (hb.trans (((hz (.inr h)).2 hx).2 h))⟩

theorem sizeShown_with {i : Instruction} (h : SizeShown i) {mn : Mnemonic}
    (hm : mn = i.mnemonic ∨ (i.mnemonic = .adc ∧ mn = .padd) ∨ (i.mnemonic = .sbc ∧ mn = .psub)) (e : Expr) :
    SizeShown { i with mnemonic := mn, arg1 := e } := by
  obtain ⟨m, s, mode, a1, a2, r⟩ := i
  rcases hm with rfl | ⟨h1, rfl⟩ | ⟨h1, rfl⟩
  · exact h
  · simp only at h1; subst h1
    exact fun _ => h (.inl (by simp [SizedByM]))
  · simp only at h1; subst h1
    exact fun _ => h (.inl (by simp [SizedByM]))

/-- **The suffixes of a cleaned-up listing.** -/
theorem cleanup_sizeShown {src : Source} {d d' : Disassembler} (h : Session FlagsWritten src d) (hcl : d.cleanup = .ok d')
    {a : Addr} {it : DisItem} (ha : d'.disassembly.find a = some it) : SizeShown it.instruction := by
  have hc := session_closed h
  have hneat := session_neat h
  obtain ⟨r, ops, fars, hs, rfl, -, -, -, hfars, -⟩ := cleanup_inv hc.proper.sorted hc.proper.distinct hcl
  obtain ⟨ft, hft, hfold⟩ := (fold_spec fars hs).1 a it ha
  have key : ∀ b jt, OMap.find fars b = some jt → SizeShown jt.instruction := by
    intro b jt hj
    obtain ⟨kt, hk, ht⟩ := hfars b jt hj
    have h0 := item_sizeShown (hc.items b kt hk) (hneat b kt hk).2
    rcases ht.instruction with h | ⟨t, n, ty, -, -, h⟩ <;> rw [h]
    · exact sizeShown_with h0 (.inl rfl) _
    · exact sizeShown_with h0 (.inl rfl) _
  rcases hfold with rfl | ⟨b, sc, mn, hb, -, -, hp, rfl⟩
  · exact key a _ hft
  · obtain ⟨-, hm⟩ := foldPair_spec hp
    refine sizeShown_with (key b sc hb) ?_ sc.instruction.arg1
    rcases hm with ⟨-, h1, h2⟩ | ⟨-, h1, h2⟩
    · exact .inr (.inl ⟨h1, h2⟩)
    · exact .inr (.inr ⟨h1, h2⟩)

theorem legal_fm : ∀ m : Mnemonic, isLegalCombination (if m = .padd ∨ m = .psub then Mnemonic.adc else m) .imm_fm = true →
    SizedByM m ∧ flagControllingInstructionSize (if m = .padd ∨ m = .psub then Mnemonic.adc else m) = .usesM := by
  intro m; cases m <;> decide +kernel

theorem legal_fx : ∀ m : Mnemonic, isLegalCombination (if m = .padd ∨ m = .psub then Mnemonic.adc else m) .imm_fx = true →
    SizedByX m ∧ flagControllingInstructionSize (if m = .padd ∨ m = .psub then Mnemonic.adc else m) = .usesX := by
  intro m; cases m <;> decide +kernel

theorem sized_one : ∀ m : Mnemonic, SizedByM m → ¬ SizedByX m := by
  intro m; cases m <;> decide +kernel

/-- Flags that agree with a size. -/
def agreeing (a : Mode) : StatusFlags :=
  ⟨.off, if a = .imm_b then .on else .off, if a = .imm_b then .on else .off, .unknown⟩

theorem agreeing_agrees (m : Mnemonic) (a : Mode) : SizeAgrees m a (agreeing a) := by
  unfold SizeAgrees agreeing
  refine ⟨fun _ => ⟨fun h => by simp [h], fun h => by simp [h]⟩, fun _ => ⟨fun h => by simp [h], fun h => by simp [h]⟩⟩

theorem checkConsistency_of_execute {i : Instruction} {es es' : ExecutionState} {ctx : Ctx}
    (h : i.execute es ctx = .ok es') : i.checkConsistency es.flags = .ok () := by
  unfold Instruction.execute at h
  obtain ⟨x, hx, -⟩ := Res.bind_eq_ok.1 h
  exact hx

/-- An instruction read back becomes the listed one wherever it is accepted. -/
theorem readBack_fixed {i i0 j : Instruction} (h : ReadBack i i0) (hs : SizeShown i) {f : StatusFlags}
    (hc : i0.checkConsistency f = .ok ()) (hj : j = { i0 with mode := j.mode })
    (hsame : i0.mode ≠ .imm_fm → i0.mode ≠ .imm_fx → j = i0) (hz : SizeAgrees j.mnemonic j.mode f)
    (hjm : i0.mode = .imm_fm ∨ i0.mode = .imm_fx → j.mode = .imm_b ∨ j.mode = .imm_w) :
    j = asWritten i := by
  obtain ⟨e, hf⟩ := h
  have hag := hf _ (agreeing_agrees i.mnemonic i.mode)
  have hmn : i0.mnemonic = i.mnemonic := by rw [e]; rfl
  have hsx : i0.suffix = i.suffix := by rw [e]; rfl
  by_cases hm : i0.mode = .imm_fm ∨ i0.mode = .imm_fx
  · unfold Instruction.checkConsistency at hc
    simp only at hc
    generalize heff : (if i0.mnemonic = .padd ∨ i0.mnemonic = .psub then Mnemonic.adc else i0.mnemonic) = eff at hc
    split at hc
    · cases hc
    · rename_i hl
      obtain ⟨u, hc, -⟩ := Res.bind_eq_ok.1 hc
      have hjb := hjm hm
      have himode : i.mode = .imm_b ∨ i.mode = .imm_w := by
        unfold Instruction.fixAddressingMode at hag
        rw [if_pos hm] at hag
        split at hag
        · simp only [Res.ok.injEq] at hag
          exact .inl (congrArg Instruction.mode hag).symm
        · simp only [Res.ok.injEq] at hag
          exact .inr (congrArg Instruction.mode hag).symm
        · cases hag
      have hmode : j.mode = i.mode := by
        unfold Instruction.checkSuffix at hc
        rcases hm with hm | hm
        · rw [hm] at hl
          obtain ⟨k1, k2⟩ := legal_fm i0.mnemonic (by rw [heff]; simpa using hl)
          rw [heff] at k2
          rw [k2] at hc
          have hjs : SizedByM j.mnemonic := by rw [hj]; exact k1
          obtain ⟨s1, s2⟩ := hs (.inl (hmn ▸ k1))
          obtain ⟨z1, z2⟩ := hz.1 hjs
          rcases hjb with hjb | hjb <;> rcases himode with hi | hi
          · rw [hjb, hi]
          · rw [hsx, s2 hi, z1 hjb] at hc; simp at hc
          · rw [hsx, s1 hi, z2 hjb] at hc; simp at hc
          · rw [hjb, hi]
        · rw [hm] at hl
          obtain ⟨k1, k2⟩ := legal_fx i0.mnemonic (by rw [heff]; simpa using hl)
          rw [heff] at k2
          rw [k2] at hc
          have hjs : SizedByX j.mnemonic := by rw [hj]; exact k1
          obtain ⟨s1, s2⟩ := hs (.inr (hmn ▸ k1))
          obtain ⟨z1, z2⟩ := hz.2 hjs
          rcases hjb with hjb | hjb <;> rcases himode with hi | hi
          · rw [hjb, hi]
          · rw [hsx, s2 hi, z1 hjb] at hc; simp at hc
          · rw [hsx, s1 hi, z2 hjb] at hc; simp at hc
          · rw [hjb, hi]
      rw [hj, e, hmode]
      rfl
  · have h3 : i0.mode ≠ .imm_fm := fun h => hm (.inl h)
    have h4 : i0.mode ≠ .imm_fx := fun h => hm (.inr h)
    rw [hsame h3 h4]
    unfold Instruction.fixAddressingMode at hag
    rw [if_neg hm] at hag
    exact Res.ok.inj hag

/-! ## The lines of the listing -/

/-- A line of the listing: the labels before it, the statement read, the statement after the first pass,
its address, and the entry whose instruction it is. -/
structure Row where
  labels : List ParsedLabel
  read : Statement
  final : Statement
  address : Addr
  item : Option DisItem

def Row.line (r : Row) : ProgLine := ⟨r.labels, r.read⟩

def labelsOf (l : Str) : List ParsedLabel := if l = [] then [] else [⟨l, false⟩]

def originRows (pc a : Addr) : List Row := if a = pc then [] else [⟨[], orgStatement a, orgStatement a, a, none⟩]

def codeRows (a : Addr) (it : DisItem) (f : StatusFlags) (i0 : Instruction) : List Row :=
  if it.isEntry then
    [⟨labelsOf it.label, entryStatement f, entryStatement f, a, none⟩,
     ⟨[], .instr i0, .instr (asWritten it.instruction), a, some it⟩]
  else [⟨labelsOf it.label, .instr i0, .instr (asWritten it.instruction), a, some it⟩]

/-- The rows of a listing. -/
inductive Rows : Addr → OMap DisItem → List Row → Prop
  | nil {pc : Addr} : Rows pc [] []
  | cons {pc a : Addr} {it : DisItem} {rest : OMap DisItem} {i0 : Instruction} {f : StatusFlags} {rows : List Row}
      (entry : it.isEntry = true → StatusFlags.fromName it.current.flags.toName = some f) (read : ReadBack it.instruction i0)
      (after : Rows (Address.addWrapped a it.instruction.serializedSize) rest rows) :
      Rows pc ((a, it) :: rest) (originRows pc a ++ (codeRows a it f i0 ++ rows))

theorem program_origin (pc a : Addr) (items : List Item) :
    program [] (originItems pc a ++ items) = (originRows pc a).map Row.line ++ program [] items := by
  unfold originItems originRows
  split <;> rfl

theorem program_label (l : Str) (st : Statement) (items : List Item) :
    program [] (labelItems l ++ .stmt st :: items) = ⟨labelsOf l, st⟩ :: program [] items := by
  unfold labelItems labelsOf
  split <;> rfl

theorem listing_rows {pc : Addr} {m : OMap DisItem} {items : List Item} (h : ListingItems pc m items) :
    ∃ rows, Rows pc m rows ∧ program [] items = rows.map Row.line := by
  induction h with
  | nil => exact ⟨[], .nil, rfl⟩
  | @cons pc a it rest i0 es items entry read after ih =>
    obtain ⟨rows, h1, h2⟩ := ih
    rcases entry with ⟨he, rfl⟩ | ⟨he, f, hf, rfl⟩
    · refine ⟨_, .cons (f := .default) (by simp [he]) read h1, ?_⟩
      rw [program_origin, List.nil_append, program_label, h2, List.map_append, List.map_append, codeRows, he]
      rfl
    · refine ⟨_, .cons (fun _ => hf) read h1, ?_⟩
      rw [program_origin, List.singleton_append, program_label, List.map_append, List.map_append, codeRows, he]
      simp only [program, h2]
      rfl

/-- What is known of a row. -/
structure RowOk (m : OMap DisItem) (r : Row) : Prop where
  code : ∀ it, r.item = some it → (r.address, it) ∈ m ∧ r.final = .instr (asWritten it.instruction) ∧
    ∃ i0, r.read = .instr i0 ∧ ReadBack it.instruction i0
  other : r.item = none → r.read = r.final ∧ ((∃ f, r.final = entryStatement f) ∨ r.final = orgStatement r.address)
  address : ∃ it, (r.address, it) ∈ m

theorem rows_ok {pc : Addr} {m : OMap DisItem} {rows : List Row} (h : Rows pc m rows) :
    (∀ r ∈ rows, RowOk m r) ∧
    (∀ a it, (a, it) ∈ m → ∃ r ∈ rows, r.item = some it ∧ r.address = a) ∧
    (∀ a it, (a, it) ∈ m → it.label ≠ [] → ∃ r ∈ rows, r.labels = [⟨it.label, false⟩] ∧ r.address = a) := by
  induction h with
  | nil => exact ⟨by simp, by simp, by simp⟩
  | @cons pc a it rest i0 f rows entry read after ih =>
    obtain ⟨h1, h2, h3⟩ := ih
    have hcode : ∀ l, RowOk ((a, it) :: rest) ⟨l, .instr i0, .instr (asWritten it.instruction), a, some it⟩ := by
      intro l
      refine ⟨?_, by simp, ⟨it, by simp⟩⟩
      intro it' h
      cases h
      exact ⟨by simp, rfl, i0, rfl, read⟩
    refine ⟨?_, ?_, ?_⟩
    · intro r hr
      rcases List.mem_append.1 hr with hr | hr
      · unfold originRows at hr
        split at hr
        · cases hr
        · simp only [List.mem_singleton] at hr
          subst hr
          exact ⟨by simp, fun _ => ⟨rfl, .inr rfl⟩, it, by simp⟩
      rcases List.mem_append.1 hr with hr | hr
      · unfold codeRows at hr
        split at hr
        · simp only [List.mem_cons, List.not_mem_nil, or_false] at hr
          rcases hr with rfl | rfl
          · exact ⟨by simp, fun _ => ⟨rfl, .inl ⟨f, rfl⟩⟩, it, by simp⟩
          · exact hcode _
        · simp only [List.mem_singleton] at hr
          subst hr
          exact hcode _
      · obtain ⟨c, o, jt, hj⟩ := h1 r hr
        exact ⟨fun x hx => ⟨List.mem_cons_of_mem _ (c x hx).1, (c x hx).2⟩, o, jt, List.mem_cons_of_mem _ hj⟩
    · intro b jt hm
      rcases List.mem_cons.1 hm with hm | hm
      · cases hm
        have : ∃ r ∈ codeRows a it f i0, r.item = some it ∧ r.address = a := by
          unfold codeRows
          split
          · exact ⟨⟨[], .instr i0, .instr (asWritten it.instruction), a, some it⟩, by simp, rfl, rfl⟩
          · exact ⟨_, List.mem_singleton.2 rfl, rfl, rfl⟩
        obtain ⟨r, hr, h⟩ := this
        exact ⟨r, by simp [hr], h⟩
      · obtain ⟨r, hr, h⟩ := h2 b jt hm
        exact ⟨r, by simp [hr], h⟩
    · intro b jt hm hl
      rcases List.mem_cons.1 hm with hm | hm
      · cases hm
        have : ∃ r ∈ codeRows a it f i0, r.labels = [⟨it.label, false⟩] ∧ r.address = a := by
          unfold codeRows
          split
          · exact ⟨⟨labelsOf it.label, entryStatement f, entryStatement f, a, none⟩, by simp, by simp [labelsOf, hl], rfl⟩
          · exact ⟨_, List.mem_singleton.2 rfl, by simp [labelsOf, hl], rfl⟩
        obtain ⟨r, hr, h⟩ := this
        exact ⟨r, by simp [hr], h⟩
      · obtain ⟨r, hr, h⟩ := h3 b jt hm hl
        exact ⟨r, by simp [hr], h⟩

/-! ## Layout -/

/-- The lines, each at the address of its row. -/
def placedRows : List Row → List Line → List Line
  | r :: rs, l :: ls => { l with value := some (r.address : Int) } :: placedRows rs ls
  | _, _ => []

def HasFinal (r : Row) (l : Line) : Prop := l.statement = r.final

theorem label_address {a : Addr} (_ : a < 0x1000000) : labelOfAddress a = a := by
  unfold labelOfAddress Address.bank Address.bankAddress
  omega

theorem addWrapped_zero {a : Addr} (h : a < 0x1000000) : Address.addWrapped a ((0 : Nat) : Int) = a := by
  unfold Address.addWrapped
  omega

theorem layout_org {pc : Option Addr} {a : Addr} (ha : a < 0x1000000) {l : Line} (hl : l.statement = orgStatement a)
    (ls : List Line) : Module.layout pc (l :: ls) =
      (Module.layout (some a) ls).bind fun r => .ok ({ l with value := some (a : Int) } :: r) := by
  have ho : Module.originAt pc (orgStatement a) = .ok (some a) := by
    unfold orgStatement Module.originAt
    simp only [if_true, Expr.eval]
    have : Address.ofInt (a : Int) = .ok a := by
      unfold Address.ofInt
      rw [if_pos (by omega)]
      simp
    simp [this]
  rw [Module.layout, hl, ho]
  have hz : (orgStatement a).serializedSize = 0 := rfl
  have he : (orgStatement a).isDir .equ = false := rfl
  simp only [Res.bind_ok, hz, he, addWrapped_zero ha, label_address ha]
  rfl

theorem layout_stay {a : Addr} (ha : a < 0x1000000) {l : Line} {st : Statement} (hl : l.statement = st)
    (h1 : st.isDir .org = false) (h2 : st.isDir .equ = false) (ls : List Line) : Module.layout (some a) (l :: ls) =
      (Module.layout (some (Address.addWrapped a st.serializedSize)) ls).bind fun r =>
        .ok ({ l with value := some (a : Int) } :: r) := by
  have ho : Module.originAt (some a) st = .ok (some a) := by
    unfold Module.originAt
    cases st with
    | instr i => rfl
    | dir d =>
      simp only
      rw [if_neg (by simpa [Statement.isDir] using h1)]
  rw [Module.layout, hl, ho]
  simp only [Res.bind_ok, h2, label_address ha]
  rfl

theorem layout_rows {pc : Addr} {m : OMap DisItem} {rows : List Row} (h : Rows pc m rows)
    (ha : ∀ p ∈ m, p.1 < 0x1000000) (hpc : pc < 0x1000000) {ls : List Line} (hl : List.Forall₂ HasFinal rows ls) :
    Module.layout (some pc) ls = .ok (placedRows rows ls) := by
  induction h generalizing ls with
  | nil => cases hl; rfl
  | @cons pc a it rest i0 f rows entry read after ih =>
    have haa : a < 0x1000000 := ha (a, it) (by simp)
    have code : ∀ ls, List.Forall₂ HasFinal (codeRows a it f i0 ++ rows) ls →
        Module.layout (some a) ls = .ok (placedRows (codeRows a it f i0 ++ rows) ls) := by
      intro ls hl
      have instr : ∀ lb l ls, l.statement = .instr (asWritten it.instruction) → List.Forall₂ HasFinal rows ls →
          Module.layout (some a) (l :: ls) = .ok (placedRows (⟨lb, .instr i0, .instr (asWritten it.instruction), a, some it⟩ :: rows) (l :: ls)) := by
        intro lb l ls hs hr
        rw [layout_stay haa hs rfl rfl]
        have hz : (Statement.instr (asWritten it.instruction)).serializedSize = it.instruction.serializedSize := rfl
        rw [hz, ih (fun p hp => ha p (by simp [hp])) (addWrapped_lt _ _) hr]
        rfl
      unfold codeRows at hl ⊢
      cases he : it.isEntry with
      | true =>
        rw [he] at hl
        simp only [if_true, List.cons_append, List.nil_append] at hl ⊢
        cases hl with
        | cons h1 hl =>
          cases hl with
          | cons h2 hl =>
            rw [layout_stay haa h1 rfl rfl]
            have hz : ((entryStatement f).serializedSize : Int) = ((0 : Nat) : Int) := rfl
            simp only
            rw [hz, addWrapped_zero haa, instr [] _ _ h2 hl]
            rfl
      | false =>
        rw [he] at hl
        simp only [Bool.false_eq_true, if_false, List.cons_append, List.nil_append] at hl ⊢
        cases hl with
        | cons h1 hl => exact instr _ _ _ h1 hl
    unfold originRows at hl ⊢
    by_cases hp : a = pc
    · rw [if_pos hp] at hl ⊢
      subst hp
      exact code ls hl
    · rw [if_neg hp] at hl ⊢
      simp only [List.cons_append, List.nil_append] at hl ⊢
      cases hl with
      | cons h1 hl =>
        rw [layout_org haa h1, code _ hl]
        rfl

theorem placedRows_get : ∀ {rows : List Row} {ls : List Line} {k : Nat} {l : Line}, (placedRows rows ls)[k]? = some l →
    ∃ r l', rows[k]? = some r ∧ ls[k]? = some l' ∧ l = { l' with value := some (r.address : Int) }
  | [], ls, k, l, h => by simp [placedRows] at h
  | r :: rs, [], k, l, h => by simp [placedRows] at h
  | r :: rs, x :: ls, 0, l, h => by
    simp only [placedRows, List.getElem?_cons_zero, Option.some.injEq] at h
    exact ⟨r, x, rfl, rfl, h.symm⟩
  | r :: rs, x :: ls, k + 1, l, h => by
    simp only [placedRows, List.getElem?_cons_succ] at h ⊢
    exact placedRows_get h

/-- The rows of the whole file. -/
inductive FileRows : OMap DisItem → List Row → Prop
  | nil : FileRows [] []
  | cons {a : Addr} {it : DisItem} {rest : OMap DisItem} {rows : List Row} (body : Rows a ((a, it) :: rest) rows) :
      FileRows ((a, it) :: rest) (⟨[], orgStatement a, orgStatement a, a, none⟩ :: rows)

theorem file_rows {m : OMap DisItem} {items : List Item} (h : ListingFile m items) :
    ∃ rows, FileRows m rows ∧ program [] items = rows.map Row.line := by
  unfold ListingFile at h
  split at h
  · subst h; exact ⟨[], .nil, rfl⟩
  · obtain ⟨is, h, rfl⟩ := h
    obtain ⟨rows, h1, h2⟩ := listing_rows h
    exact ⟨_, .cons h1, by simp only [program, h2, List.map_cons]; rfl⟩

theorem fileRows_ok {m : OMap DisItem} {rows : List Row} (h : FileRows m rows) :
    (∀ r ∈ rows, RowOk m r) ∧
    (∀ a it, (a, it) ∈ m → ∃ r ∈ rows, r.item = some it ∧ r.address = a) ∧
    (∀ a it, (a, it) ∈ m → it.label ≠ [] → ∃ r ∈ rows, r.labels = [⟨it.label, false⟩] ∧ r.address = a) := by
  cases h with
  | nil => exact ⟨by simp, by simp, by simp⟩
  | @cons a it rest rows h =>
    obtain ⟨h1, h2, h3⟩ := rows_ok h
    refine ⟨?_, ?_, ?_⟩
    · intro r hr
      rcases List.mem_cons.1 hr with rfl | hr
      · exact ⟨by simp, fun _ => ⟨rfl, .inr rfl⟩, it, by simp⟩
      · exact h1 r hr
    · intro b jt hm
      obtain ⟨r, hr, h⟩ := h2 b jt hm
      exact ⟨r, List.mem_cons_of_mem _ hr, h⟩
    · intro b jt hm hl
      obtain ⟨r, hr, h⟩ := h3 b jt hm hl
      exact ⟨r, List.mem_cons_of_mem _ hr, h⟩

theorem layout_file {m : OMap DisItem} {rows : List Row} (h : FileRows m rows) (ha : ∀ p ∈ m, p.1 < 0x1000000)
    {ls : List Line} (hl : List.Forall₂ HasFinal rows ls) : Module.layout none ls = .ok (placedRows rows ls) := by
  cases h with
  | nil => cases hl; rfl
  | @cons a it rest rows h =>
    have haa : a < 0x1000000 := ha (a, it) (by simp)
    cases hl with
    | cons h1 hl =>
      rw [layout_org haa h1, layout_rows h ha haa hl]
      rfl

theorem forall2_of_get {α β : Type} {R : α → β → Prop} {as : List α} {bs : List β} (hlen : as.length = bs.length)
    (h : ∀ (k : Nat) a b, as[k]? = some a → bs[k]? = some b → R a b) : List.Forall₂ R as bs := by
  induction as generalizing bs with
  | nil =>
    cases bs with
    | nil => exact .nil
    | cons b bs => simp at hlen
  | cons a as ih =>
    cases bs with
    | nil => simp at hlen
    | cons b bs =>
      exact .cons (h 0 a b rfl rfl) (ih (by simpa using hlen) fun k x y hx hy => h (k + 1) x y (by simpa using hx) (by simpa using hy))

/-- The statements of a listing are no `.begin`, `.end` or `.equ`. -/
theorem row_plain {m : OMap DisItem} {r : Row} (h : RowOk m r) :
    IsDirective .begin_ r.line = false ∧ IsDirective .end_ r.line = false ∧ r.final.isDir .equ = false := by
  cases hi : r.item with
  | none =>
    obtain ⟨h1, h2⟩ := h.other hi
    unfold IsDirective Row.line
    rw [h1]
    rcases h2 with ⟨f, h2⟩ | h2 <;> rw [h2] <;> exact ⟨rfl, rfl, rfl⟩
  | some it =>
    obtain ⟨-, h2, i0, h3, -⟩ := h.code it hi
    unfold IsDirective Row.line
    rw [h2, h3]
    exact ⟨rfl, rfl, rfl⟩

theorem openAt_none {P : Program} (h : ∀ l ∈ P, IsDirective .begin_ l = false) : ∀ i, openAt P i = []
  | 0 => rfl
  | i + 1 => by
    unfold openAt
    rw [openAt_none h i]
    cases hl : P[i]? with
    | none => rfl
    | some l =>
      simp only
      rw [if_neg (by rw [h l (List.mem_of_getElem? hl)]; simp)]
      split <;> rfl

/-- The lines of a module that a listing was loaded and analysed to. -/
theorem listing_lines {m : OMap DisItem} {rows : List Row} (hr : FileRows m rows) (ha : ∀ p ∈ m, p.1 < 0x1000000)
    (hs : ∀ p ∈ m, SizeShown p.2.instruction) {file : List Str} {items : List Item} (hF : FileItems file items)
    (hp : program [] items = rows.map Row.line) {fuel : Nat} {m₀ m₁ : Module} (h0 : Module.loadAsmFile file = .ok m₀)
    (h1 : m₀.runFirstPass fuel = .ok m₁) :
    ∃ ls, List.Forall₂ HasFinal rows ls ∧ m₁.lines = placedRows rows ls := by
  obtain ⟨items', hF', hI, -, -⟩ := loadAsmFile_ok h0
  rw [← fileItems_unique hF hF', hp] at hI
  obtain ⟨ho, -⟩ := fileRows_ok hr
  have hparts := firstPass_parts h1
  obtain ⟨p, l1, l2, he, hfix, hlay, hm1⟩ := hparts
  have hlen1 : m₁.lines.length = m₀.lines.length := firstPass_length h1
  have hlen : rows.length = l1.length := by
    have h2 := (layout_rel hlay).length_eq
    have h3 : m₁.lines = l2 := by rw [hm1]
    have h4 := hI.length
    rw [List.length_map] at h4
    rw [h2, ← h3, hlen1, h4]
  have hfin : List.Forall₂ HasFinal rows l1 := by
    refine forall2_of_get hlen fun k r b hrk hb => ?_
    have hk : k < m₁.lines.length := by
      have h2 := (layout_rel hlay).length_eq
      have h3 : m₁.lines = l2 := by rw [hm1]
      have := (List.getElem?_eq_some_iff.1 hb).1
      rw [h3, ← h2]; exact this
    obtain ⟨l, hl⟩ : ∃ l, m₁.lines[k]? = some l := ⟨_, List.getElem?_eq_getElem hk⟩
    have hbl : l.statement = b.statement := by
      have hl2 : l2[k]? = some l := by rw [hm1] at hl; exact hl
      obtain ⟨b', hb', hlr⟩ := forall2_getElem? (layout_rel hlay) hl2
      rw [hb] at hb'; cases hb'
      rw [hlr]
    obtain ⟨l₀, hl₀, -, -, -, hdir, -⟩ := firstPass_line h1 hl
    obtain ⟨⟨pl, hpl, hps⟩, -⟩ := hI.line k l₀ hl₀
    rw [List.getElem?_map, hrk] at hpl
    simp only [Option.map_some, Option.some.injEq] at hpl
    subst hpl
    have hok := ho r (List.mem_of_getElem? hrk)
    unfold HasFinal
    rw [← hbl]
    cases hi : r.item with
    | none =>
      obtain ⟨o1, o2⟩ := hok.other hi
      have : ∃ d, r.final = .dir d := by
        rcases o2 with ⟨f, h⟩ | h <;> rw [h]
        · exact ⟨_, rfl⟩
        · exact ⟨_, rfl⟩
      obtain ⟨d, hd⟩ := this
      rw [hd]
      refine (hdir d).2 ?_
      rw [hps]
      show r.read = _
      rw [o1, hd]
    | some it =>
      obtain ⟨c1, c2, i0, c3, c4⟩ := hok.code it hi
      have hps' : l₀.statement = .instr i0 := hps.trans c3
      cases hls : l.statement with
      | dir d =>
        rw [hdir, hps'] at hls; cases hls
      | instr j =>
        obtain ⟨-, l₀', i', hl₀', hi', ⟨nx, hx⟩, hj, hji, hjb, hsz, -⟩ := C42_every_instruction_analysed h0 h1 hl hls
        rw [hl₀] at hl₀'; cases hl₀'
        rw [hps'] at hi'; cases hi'
        rw [c2, readBack_fixed c4 (hs _ c1) (checkConsistency_of_execute hx) hj hji hsz hjb]
  refine ⟨l1, hfin, ?_⟩
  rw [layout_file hr ha hfin] at hlay
  rw [hm1]
  exact (Res.ok.inj hlay).symm

/-- **What a listing assembles to.** -/
theorem assembled_listing {m : OMap DisItem} (hsort : OMap.Sorted m) (ha : ∀ p ∈ m, p.1 < 0x1000000)
    (hs : ∀ p ∈ m, SizeShown p.2.instruction) {file : List Str} {items : List Item} (hF : FileItems file items)
    (hm : ListingFile m items) {σ : Type} {fuel : Nat} {sink : Sink σ} {s s' : σ} {as : Assembler}
    (h : Assembler.assembleFiles fuel [file] sink s = (s', .ok as)) :
    ∃ (ctx : Ctx) (ws : Writes), Feeds sink s ws s' ∧ LabelsAt ctx m ∧ (allFilled ws).Nodup ∧
      (∀ w, w ∈ ws ↔ ∃ a it bs, Lists m a it ∧ Emits ctx a it bs ∧ w = (a, bs)) ∧
      ∀ a it, Lists m a it → ∃ bs, Emits ctx a it bs ∧ bs.length = it.instruction.serializedSize ∧ (a, bs) ∈ ws := by
  obtain ⟨rows, hr, hp⟩ := file_rows hm
  obtain ⟨ho, hcode, hlabel⟩ := fileRows_ok hr
  obtain ⟨order, wss, hA⟩ := assembled h
  have horder : order = [0] := by
    have := hA.perm
    simpa using this
  have hmod : ∃ x, as.modules = [x] := by
    have := hA.length
    simpa [List.length_eq_one_iff] using this
  obtain ⟨md, hmod⟩ := hmod
  have hw := hA.writes
  rw [horder] at hw
  obtain ⟨ws, rfl, md', hmd', hws⟩ : ∃ ws, wss = [ws] ∧ ∃ m', as.modules[0]? = some m' ∧
      List.Forall₂ (fun l w => LineWrites (m'.lookup l.scopes (Assembler.lookup as.modules as.names)) l w) m'.lines ws := by
    cases hw with
    | cons h1 h2 => cases h2; obtain ⟨m', h3, h4⟩ := h1; exact ⟨_, rfl, m', h3, h4⟩
  have hmm : md' = md := by rw [hmod] at hmd'; simpa using hmd'.symm
  subst hmm
  obtain ⟨f, m₀, m₁, m₂, externs, hf, h0, h1, h2, hsrc, -⟩ := hA.passes 0 md' hmd'
  have hff : f = file := by simpa using hf.symm
  subst hff
  obtain ⟨ls, hfin, hlines⟩ := listing_lines hr ha hs hF hp h0 h1
  obtain ⟨items', hF', hI, -, -⟩ := loadAsmFile_ok h0
  rw [← fileItems_unique hF hF'] at hI
  obtain ⟨hmore, -, hsame⟩ := secondLoop_spec _ 0 m₁ m₂ h2 (fun j l d _ => unvalued_first h0 h1 j l d)
  have hN₂ := names_more (names_firstPass (names_loaded hI) h1) hmore
  have hN : Names (program [] items) md' :=
    ⟨fun k l hl name t => by rw [hsrc.localIndex]; rw [hsrc.2.1] at hl; exact hN₂.locals k l hl name t,
     fun name t => by rw [hsrc.localIndex]; exact hN₂.globals name t⟩
  have hnobegin : ∀ l ∈ program [] items, IsDirective .begin_ l = false := by
    rw [hp]
    intro l hl
    obtain ⟨r, hr, rfl⟩ := List.mem_map.1 hl
    exact (row_plain (ho r hr)).1
  -- the lines of the result
  have hline : ∀ (k : Nat) (l : Line), md'.lines[k]? = some l → ∃ r, rows[k]? = some r ∧
      l.statement = r.final ∧ l.value = some (r.address : Int) ∧ l.scopes = [] := by
    intro k l hl
    have hl₂ : m₂.lines[k]? = some l := by rw [← hsrc.2.1]; exact hl
    obtain ⟨l₁, hl₁, hvl⟩ := getElem?_valueless hmore.lines.symm hl₂
    obtain ⟨r, x, hrk, hx, hlx⟩ := placedRows_get (by rw [← hlines]; exact hl₁)
    obtain ⟨r', hrk', hfx⟩ := forall2_getElem? hfin hx
    rw [hrk] at hrk'; cases hrk'
    have hst : l₁.statement = r.final := by rw [hlx]; exact hfx
    have heq : l = l₁ := hsame k l₁ l hl₁ hl₂ (by
      rw [hst]; exact (row_plain (ho r (List.mem_of_getElem? hrk))).2.2)
    refine ⟨r, hrk, by rw [heq, hst], by rw [heq, hlx], ?_⟩
    obtain ⟨l₀, hl₀, -, hsc, -⟩ := firstPass_line h1 hl₁
    rw [heq, hsc, (hI.line k l₀ hl₀).2.1, openAt_none hnobegin]
  have hlen : md'.lines.length = rows.length := by
    have e1 := congrArg List.length hmore.lines
    simp only [List.length_map] at e1
    have e2 : m₁.lines.length = m₀.lines.length := firstPass_length h1
    rw [hsrc.2.1, e1, e2, hI.length, hp, List.length_map]
  have hrow : ∀ (k : Nat) (r : Row), rows[k]? = some r → ∃ l, md'.lines[k]? = some l ∧
      l.statement = r.final ∧ l.value = some (r.address : Int) ∧ l.scopes = [] := by
    intro k r hrk
    have hk : k < md'.lines.length := by rw [hlen]; exact (List.getElem?_eq_some_iff.1 hrk).1
    obtain ⟨r', h1, h2⟩ := hline k _ (List.getElem?_eq_getElem hk)
    rw [hrk] at h1; cases h1
    exact ⟨_, List.getElem?_eq_getElem hk, h2⟩
  generalize hctx : md'.lookup [] (Assembler.lookup as.modules as.names) = ctx
  have hpos : ∀ (k : Nat) (l : Line) (j : Instruction), md'.lines[k]? = some l → l.statement = .instr j →
      j.serializedSize ≠ 0 := by
    intro k l j hl hj
    have hl₂ : m₂.lines[k]? = some l := by rw [← hsrc.2.1]; exact hl
    obtain ⟨l₁, hl₁, hvl⟩ := getElem?_valueless hmore.lines.symm hl₂
    have hst : l₁.statement = .instr j := (valueless_fields hvl).1.trans hj
    obtain ⟨-, -, -, -, -, -, -, -, -, -, n1, n2, -⟩ := C42_every_instruction_analysed h0 h1 hl₁ hst
    unfold Instruction.serializedSize
    have : 0 < instructionLength j.mode := by
      cases hm : j.mode <;> first | (exact absurd hm n1) | (exact absurd hm n2) | decide
    omega
  have hput : ∀ a it, Lists m a it → ∃ bs, Emits ctx a it bs ∧ bs.length = it.instruction.serializedSize ∧
      (a, bs) ∈ ws.flatten := by
    intro a it hl
    obtain ⟨r, hr, hri, rfl⟩ := hcode a it (OMap.mem_of_find hl)
    obtain ⟨k, hrk⟩ := List.getElem?_of_mem hr
    obtain ⟨l, hlk, e1, e2, e3⟩ := hrow k r hrk
    have hk : k < ws.length := by rw [← hws.length_eq]; exact (List.getElem?_eq_some_iff.1 hlk).1
    obtain ⟨l', hl', hlw⟩ := forall2_getElem? hws (List.getElem?_eq_getElem hk)
    rw [hlk] at hl'; cases hl'
    obtain ⟨c1, c2, -⟩ := (ho r hr).code it hri
    rcases hlw with ⟨hz, -⟩ | ⟨a, bs', e4, e5, e6, -, hv⟩
    · rw [e1, c2] at hz
      exact absurd hz (hpos k l _ hlk (e1.trans c2))
    · have haa : a = r.address := by rw [e2] at e4; exact (Int.ofNat.inj (Option.some.inj e4)).symm
      subst haa
      rw [e1, c2] at e6
      rw [e3, hctx, e1, c2] at e5
      obtain ⟨b, hb, e5⟩ := Res.bind_eq_ok.1 e5
      simp only [Res.ok.injEq, Option.some.injEq] at e5
      subst e5
      refine ⟨b, emits_iff.2 hb, e6, ?_⟩
      rw [List.mem_flatten]
      exact ⟨ws[k], List.getElem_mem hk, by rw [hv]; simp⟩
  refine ⟨ctx, ws.flatten, by simpa using hA.feeds, ?_, by simpa using hA.claims.nodup, ?_, hput⟩
  · intro a it hl hne
    obtain ⟨r, hr, hrl, hra⟩ := hlabel a it (OMap.mem_of_find hl) hne
    obtain ⟨t, hrt⟩ := List.getElem?_of_mem hr
    obtain ⟨l, hlt, -, hval, hsc⟩ := hrow t r hrt
    rw [← hctx, ← hsc]
    refine (lookup_means hN _ hlt _ _).2 (.inl ⟨t, .inr ⟨?_, ?_⟩, ?_⟩)
    · rintro j ⟨-, -, ⟨x, hx, hb⟩, -⟩
      rw [hnobegin x (List.mem_of_getElem? hx)] at hb; cases hb
    · refine ⟨0, r.line, ⟨it.label, false⟩, ?_, ?_, rfl, .inr ?_⟩
      · rw [hp, List.getElem?_map, hrt]; rfl
      · show r.labels[0]? = _
        rw [hrl]; rfl
      · rintro j ⟨-, -, ⟨x, hx, hb⟩, -⟩
        rw [hnobegin x (List.mem_of_getElem? hx)] at hb; cases hb
    · unfold valueAt
      rw [hlt]
      simp only [Option.bind_some]
      rw [hval, hra]
  · intro w
    rw [List.mem_flatten]
    constructor
    · rintro ⟨v, hv, hwv⟩
      obtain ⟨k, hk⟩ := List.getElem?_of_mem hv
      obtain ⟨l, hl, hlw⟩ := forall2_getElem? hws hk
      obtain ⟨r, hrk, e1, e2, e3⟩ := hline k l hl
      have hok := ho r (List.mem_of_getElem? hrk)
      rcases hlw with ⟨-, rfl⟩ | ⟨a, bs, e4, e5, e6, e7, rfl⟩
      · cases hwv
      · have haa : a = r.address := by rw [e2] at e4; exact (Int.ofNat.inj (Option.some.inj e4)).symm
        subst haa
        rw [e3, hctx] at e5
        simp only [List.mem_singleton] at hwv
        cases hi : r.item with
        | none =>
          obtain ⟨-, o2⟩ := hok.other hi
          exfalso
          apply e7
          apply List.eq_nil_of_length_eq_zero
          rw [e6, e1]
          rcases o2 with ⟨f, h⟩ | h <;> rw [h] <;> rfl
        | some it =>
          obtain ⟨c1, c2, -⟩ := hok.code it hi
          rw [e1, c2] at e5
          obtain ⟨b, hb, e5⟩ := Res.bind_eq_ok.1 e5
          simp only [Res.ok.injEq, Option.some.injEq] at e5
          subst e5
          exact ⟨_, it, b, OMap.find_of_mem hsort c1, emits_iff.2 hb, hwv⟩
    · rintro ⟨a, it, bs, hl, he, rfl⟩
      obtain ⟨bs', he', -, hmem⟩ := hput a it hl
      rw [emits_iff] at he he'
      rw [he'] at he
      cases he
      exact List.mem_flatten.1 hmem

/-- Where the entries after Cleanup come from. -/
theorem cleanup_origin {src : Source} {d d' : Disassembler} (h : Session FlagsWritten src d) (hcl : d.cleanup = .ok d')
    {a : Addr} {jt : DisItem} (ha : d'.disassembly.find a = some jt) : ∃ it, d.disassembly.find a = some it ∧
      (jt.instruction.mnemonic = it.instruction.mnemonic ∨ jt.instruction.mnemonic = .padd ∨ jt.instruction.mnemonic = .psub) := by
  have hc := session_closed h
  obtain ⟨r, ops, fars, hs, rfl, -, -, -, hfars, -⟩ := cleanup_inv hc.proper.sorted hc.proper.distinct hcl
  obtain ⟨ft, hft, hfold⟩ := (fold_spec fars hs).1 a jt ha
  obtain ⟨it, h1, h2⟩ := hfars a ft hft
  refine ⟨it, h1, ?_⟩
  rcases hfold with rfl | ⟨b, sc, mn, hb, -, -, hp, rfl⟩
  · exact .inl (tidied_kind h2).1
  · obtain ⟨-, hm⟩ := foldPair_spec hp
    rcases hm with ⟨-, -, h⟩ | ⟨-, -, h⟩
    · exact .inr (.inl h)
    · exact .inr (.inr h)

theorem wrapped_eq {a : Addr} (ha : a < 0x1000000) (k : Nat) : Address.addWrapped a (k : Nat) = wrapped a k := by
  unfold Address.addWrapped wrapped
  omega

theorem mem_stored {ws : Writes} {x : Addr} {b : UInt8} :
    (x, b) ∈ Spec.stored ws ↔ ∃ a bs k, (a, bs) ∈ ws ∧ bs[k]? = some b ∧ x = wrapped a k := by
  unfold Spec.stored
  simp only [List.mem_flatMap, List.mem_map, List.mem_zipIdx_iff_getElem?, Prod.exists, Prod.mk.injEq]
  constructor
  · rintro ⟨a, bs, h, b', k, h1, h2, rfl⟩
    exact ⟨a, bs, k, h, h1, h2.symm⟩
  · rintro ⟨a, bs, k, h, h1, h2⟩
    exact ⟨a, bs, h, b, k, h1, h2.symm, rfl⟩

end Nsasm
