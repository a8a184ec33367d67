import Verif.Lemmas.Runs
import Verif.Lemmas.DataFile
import Verif.Props.Order

/-! # The assembler accepts a printed listing -/

namespace Nsasm
open Spec Props Disassembler Parse

/-! ## Labels -/

theorem rows_labels {pc : Addr} {m : OMap DisItem} {rows : List Row} (h : Rows pc m rows) (hs : OMap.Sorted m) :
    rows.Pairwise fun r r' => r.labels ≠ [] → r'.labels ≠ [] → r.address < r'.address := by
  induction h with
  | nil => exact .nil
  | @cons pc a it rest i0 f rows entry read after ih =>
    have hlt : ∀ p ∈ rest, a < p.1 := by
      unfold OMap.Sorted at hs; rw [List.pairwise_cons] at hs; exact hs.1
    have hafter : ∀ r ∈ rows, a < r.address := by
      intro r hr
      obtain ⟨jt, hj⟩ := ((rows_ok after).1 r hr).address
      exact hlt _ hj
    have hih := ih (OMap.sorted_cons hs).1
    have hall : (codeRows a it f i0 ++ rows).Pairwise
        fun r r' : Row => r.labels ≠ [] → r'.labels ≠ [] → r.address < r'.address := by
      unfold codeRows
      split
      · refine List.pairwise_cons.2 ⟨fun r hr _ hl => ?_, List.pairwise_cons.2 ⟨fun r hr h => by simp at h, hih⟩⟩
        rcases List.mem_cons.1 hr with rfl | hr
        · simp at hl
        · exact hafter r hr
      · exact List.pairwise_cons.2 ⟨fun r hr _ _ => hafter r hr, hih⟩
    unfold originRows
    split
    · exact hall
    · exact List.pairwise_cons.2 ⟨fun r _ h => by simp at h, hall⟩

theorem file_labels {m : OMap DisItem} {rows : List Row} (h : FileRows m rows) (hs : OMap.Sorted m) :
    rows.Pairwise fun r r' => r.labels ≠ [] → r'.labels ≠ [] → r.address < r'.address := by
  cases h with
  | nil => exact .nil
  | cons h => exact List.pairwise_cons.2 ⟨fun r _ h => by simp at h, rows_labels h hs⟩

theorem labels_unique {m : OMap DisItem} {rows : List Row} (h : FileRows m rows) (hs : OMap.Sorted m) {j k : Nat}
    {r q : Row} (hj : rows[j]? = some r) (hk : rows[k]? = some q) (h1 : r.labels ≠ []) (h2 : q.labels ≠ [])
    (he : r.address = q.address) : j = k := by
  have hp := List.pairwise_iff_getElem.1 (file_labels h hs)
  obtain ⟨hj1, hj2⟩ := List.getElem?_eq_some_iff.1 hj
  obtain ⟨hk1, hk2⟩ := List.getElem?_eq_some_iff.1 hk
  rcases Nat.lt_trichotomy j k with hlt | heq | hlt
  · have := hp j k hj1 hk1 hlt (by rw [hj2]; exact h1) (by rw [hk2]; exact h2)
    rw [hj2, hk2] at this; omega
  · exact heq
  · have := hp k j hk1 hj1 hlt (by rw [hk2]; exact h2) (by rw [hj2]; exact h1)
    rw [hj2, hk2] at this; omega

/-! ## Loading -/

theorem no_directive {m : OMap DisItem} {rows : List Row} (h : FileRows m rows) (n : DirectiveName)
    (h1 : n ≠ .org) (h2 : n ≠ .entry) : ∀ l ∈ rows.map Row.line, IsDirective n l = false := by
  intro l hl
  obtain ⟨r, hr, rfl⟩ := List.mem_map.1 hl
  have hro := (fileRows_ok h).1 r hr
  show (match r.read with | .dir d => decide (d.name = n) | .instr _ => false) = false
  cases hi : r.item with
  | none =>
    obtain ⟨h3, h4⟩ := hro.other hi
    rw [h3]
    rcases h4 with ⟨f, h4⟩ | h4 <;> rw [h4]
    · exact decide_eq_false h2.symm
    · exact decide_eq_false h1.symm
  | some it =>
    obtain ⟨-, -, i0, h3, -⟩ := hro.code it hi
    rw [h3]

theorem level_none {P : Program} (h1 : ∀ l ∈ P, IsDirective .begin_ l = false) (h2 : ∀ l ∈ P, IsDirective .end_ l = false)
    (i : Nat) : level P i = 0 := by
  unfold level
  have e1 : (P.take i).countP (IsDirective .begin_) = 0 := by
    rw [List.countP_eq_zero]
    intro l hl; simp [h1 l (List.mem_of_mem_take hl)]
  have e2 : (P.take i).countP (IsDirective .end_) = 0 := by
    rw [List.countP_eq_zero]
    intro l hl; simp [h2 l (List.mem_of_mem_take hl)]
  rw [e1, e2]; rfl

/-- The listing loads. -/
theorem runs_load {m : OMap DisItem} (hr : Runs m) {rows : List Row} (hf : FileRows m rows) {file : List Str}
    {items : List Item} (hF : FileItems file items) (hp : program [] items = rows.map Row.line) :
    ∃ m₀, Module.loadAsmFile file = .ok m₀ ∧ LoadedRows m rows m₀ ∧ m₀.deps = [] := by
  obtain ⟨hkind, -⟩ := file_kinds hf
  obtain ⟨m₀, h0⟩ := loadAsmFile_accepts hF
    (by
      rw [hp]
      have := level_none (no_directive hf .begin_ (by decide) (by decide)) (no_directive hf .end_ (by decide) (by decide))
      exact ⟨fun i _ => by rw [this], this _⟩)
    (by
      rw [hp]
      rintro scope name i n i' n' ⟨l, lb, h1, h2, h3, -⟩ ⟨l', lb', g1, g2, g3, -⟩
      rw [List.getElem?_map] at h1 g1
      obtain ⟨r, h4, rfl⟩ := Option.map_eq_some_iff.1 h1
      obtain ⟨r', g4, rfl⟩ := Option.map_eq_some_iff.1 g1
      have hone : ∀ (q : Row) (k : Nat) (y : ParsedLabel), q ∈ rows → q.labels[k]? = some y →
          k = 0 ∧ ∃ it, (q.address, it) ∈ m ∧ it.label = y.name ∧ y.name ≠ [] := by
        intro q k y hq hy
        rcases hkind q hq with ⟨-, -, e⟩ | ⟨it, e1, -, e | e⟩
        · rw [e] at hy; simp at hy
        · rw [e] at hy; simp at hy
        · rw [e] at hy
          unfold labelsOf at hy
          split at hy
          · simp at hy
          · rename_i hne
            cases k with
            | zero => simp at hy; subst hy; exact ⟨rfl, it, e1, rfl, hne⟩
            | succ k => simp at hy
      obtain ⟨rfl, it, m1, m2, m3⟩ := hone r n lb (List.mem_of_getElem? h4) h2
      obtain ⟨rfl, it', m1', m2', m3'⟩ := hone r' n' lb' (List.mem_of_getElem? g4) g2
      have ha := hr.distinct _ _ it it' m1 m1' (by rw [m2]; exact m3) (by rw [m2, m2', h3, g3])
      refine ⟨labels_unique hf hr.sorted h4 g4 ?_ ?_ ha, rfl⟩
      · intro e
        have h2 : r.labels[0]? = some lb := h2
        rw [e] at h2; simp at h2
      · intro e
        have g2 : r'.labels[0]? = some lb' := g2
        rw [e] at g2; simp at g2)
    (by
      rw [hp]
      have hno := no_directive hf .module_ (by decide) (by decide)
      refine ⟨?_, ?_⟩
      · rw [List.filter_eq_nil_iff.2 fun l hl => by simp [hno l hl]]; simp
      · intro l hl d hd hn
        have := hno l hl
        unfold IsDirective at this
        rw [hd] at this
        simp [hn] at this)
  obtain ⟨items', hF', hI, -, hdeps⟩ := loadAsmFile_ok h0
  rw [← fileItems_unique hF hF', hp] at hI
  have hL : LoadedRows m rows m₀ := ⟨hf, hI, loaded_written h0⟩
  refine ⟨m₀, h0, hL, ?_⟩
  rw [hdeps]
  unfold Module.dependencies
  rw [List.flatMap_eq_nil_iff]
  intro l hl
  obtain ⟨k, hk⟩ := List.getElem?_of_mem hl
  obtain ⟨r, hrk, hre⟩ := row_of_line hL hk
  have := no_directive hf .equ (by decide) (by decide) r.line (List.mem_map_of_mem (List.mem_of_getElem? hrk))
  unfold IsDirective Row.line at this
  rw [hre]
  cases hs : r.read with
  | instr i => rfl
  | dir d =>
    rw [hs] at this
    simp only [decide_eq_false_iff_not] at this
    simp only [if_neg this]

/-! ## Assembly -/

/-- A listing whose instructions lie apart and have bytes. -/
structure Fits (m : OMap DisItem) : Prop where
  apart : ∀ a it b jt, (a, it) ∈ m → (b, jt) ∈ m → a < b → a + it.instruction.serializedSize ≤ b
  bank : ∀ a it, (a, it) ∈ m → a % 0x10000 + it.instruction.serializedSize ≤ 0x10000
  emits : ∀ ctx, LabelsAt ctx m → ∀ a it, (a, it) ∈ m → ∃ bs, Emits ctx a it bs
  targets : ∀ a it, (a, it) ∈ m → ∃ t, (asWritten it.instruction).farBranchTarget a = .ok t

/-- The line a row has become. -/
structure Ready (r : Row) (l : Line) : Prop where
  statement : l.statement = r.final
  value : l.value = some (r.address : Int)
  scopes : l.scopes = []

/-- Never refuses a write. -/
def Accepting {σ : Type} (sink : Sink σ) : Prop := ∀ s a bs, (sink s a bs).2 = .ok ()

theorem ofInt_addr {a : Nat} (h : a < 0x1000000) : Address.ofInt (a : Int) = .ok a := by
  unfold Address.ofInt
  rw [if_pos (by omega)]
  simp

theorem wrapped_low {a n : Nat} (h : a % 0x10000 + n ≤ 0x10000) {i : Nat} (hi : i < n) : wrapped a i = a + i := by
  unfold wrapped; omega

theorem assembleRow_ok {σ : Type} {sink : Sink σ} (hacc : Accepting sink) {m : OMap DisItem} (hr : Runs m) (hfit : Fits m)
    {md : Module} {externs : Ctx} (hlab : LabelsAt (md.lookup [] externs) m) {r : Row} {l : Line} (hro : RowOk m r)
    (hrd : Ready r l) (s : σ) {o : Module.Out} (hc : Canonical o.owned.ranges)
    (hbelow : r.item.isSome → ∀ x, o.owned.contains x = true → x < r.address) :
    ∃ s' o', md.assembleLine externs sink l s o = (s', .ok o') ∧ Canonical o'.owned.ranges ∧
      ∀ x, o'.owned.contains x = true → o.owned.contains x = true ∨
        ∃ it, r.item = some it ∧ x < r.address + it.instruction.serializedSize := by
  obtain ⟨jt, hjt⟩ := hro.address
  have hlow := hr.low _ hjt
  simp only at hlow
  unfold Module.assembleLine
  simp only [hrd.statement, hrd.value, hrd.scopes]
  cases hi : r.item with
  | none =>
    obtain ⟨-, h2⟩ := hro.other hi
    rcases h2 with ⟨f, h2⟩ | h2
    · rw [h2]
      have h0 : ¬ (entryStatement f).serializedSize > 0 := by
        show ¬ (0 > 0); omega
      rw [if_neg h0]
      refine ⟨s, o, ?_, hc, fun x hx => .inl hx⟩
      unfold Module.noteTarget
      rw [hrd.statement, h2]
      show (s, ((Address.ofInt (r.address : Int)).bind _ >>= _)) = _
      rw [ofInt_addr hlow]
      rfl
    · rw [h2]
      have h0 : ¬ (orgStatement r.address).serializedSize > 0 := by
        show ¬ (0 > 0); omega
      rw [if_neg h0]
      refine ⟨s, o, ?_, hc, fun x hx => .inl hx⟩
      unfold Module.noteTarget
      rw [hrd.statement, h2]
      rfl
  | some it =>
    obtain ⟨c1, c2, -⟩ := hro.code it hi
    obtain ⟨t, ht⟩ := hfit.targets _ it c1
    have hnote : ∀ o', ∃ o'', Module.noteTarget l o' = .ok o'' ∧ o''.owned = o'.owned := by
      intro o'
      unfold Module.noteTarget
      rw [hrd.statement, c2]
      simp only [Module.toAddress, hrd.value, ofInt_addr hlow, Res.bind_ok, ht]
      cases t with
      | none => exact ⟨o', rfl, rfl⟩
      | some t => exact ⟨_, rfl, rfl⟩
    rw [c2]
    by_cases hsz : (Statement.instr (asWritten it.instruction)).serializedSize > 0
    · rw [if_pos hsz]
      obtain ⟨bs, hbs⟩ := hfit.emits _ hlab _ it c1
      rw [emits_iff] at hbs
      have hsize : (Statement.instr (asWritten it.instruction)).serializedSize = it.instruction.serializedSize := rfl
      obtain ⟨owned, ok, hcl, hc', ho', hok⟩ := C25_claim_bytes hc hlow (it.instruction.serializedSize)
      have hbank := hfit.bank _ it c1
      have hfresh : ok = true := by
        rw [hok]
        refine ⟨fun i hi' => ?_, fun i hi' j hj => ?_⟩
        · rw [wrapped_low hbank hi']
          cases hx : o.owned.contains (r.address + i) with
          | false => rfl
          | true =>
            have := hbelow (by simp [hi]) _ hx
            omega
        · rw [wrapped_low hbank hi', wrapped_low hbank (by omega : j < _)]
          omega
      subst hfresh
      obtain ⟨o'', hn1, hn2⟩ := hnote { o with owned := owned }
      have hsink := hacc s r.address bs
      refine ⟨(sink s r.address bs).1, o'', ?_, by rw [hn2]; exact hc', ?_⟩
      · have hw : Module.writeLine l (md.lookup [] externs) sink s o =
            ((sink s r.address bs).1, .ok { o with owned := owned }) := by
          unfold Module.writeLine
          simp only [hrd.value, hrd.statement, ofInt_addr hlow, c2, Statement.assemble, Statement.assembleBytes, hbs, Res.bind_ok]
          generalize hq : sink s r.address bs = q at hsink
          obtain ⟨q1, q2⟩ := q
          simp only at hsink
          subst hsink
          simp only [Module.claim, hsize, hcl, Res.bind_ok, if_true]
        rw [hw]
        simp only [Res.bind_ok, hn1]
      · intro x hx
        rw [hn2] at hx
        rcases (ho' x).1 hx with h | ⟨i, hi', rfl⟩
        · exact .inl h
        · refine .inr ⟨it, rfl, ?_⟩
          rw [wrapped_low hbank hi']; omega
    · rw [if_neg hsz]
      obtain ⟨o'', hn1, hn2⟩ := hnote o
      refine ⟨s, o'', ?_, by rw [hn2]; exact hc, fun x hx => .inl (by rw [← hn2]; exact hx)⟩
      simp only [Res.bind_ok, hn1]

theorem assembleRows_ok {σ : Type} {sink : Sink σ} (hacc : Accepting sink) {m : OMap DisItem} (hr : Runs m) (hfit : Fits m)
    {md : Module} {externs : Ctx} (hlab : LabelsAt (md.lookup [] externs) m) {rows : List Row} {ls : List Line}
    (h : List.Forall₂ Ready rows ls) (hro : ∀ r ∈ rows, RowOk m r)
    (hord : rows.Pairwise fun r r' => r.item.isSome → r'.item.isSome → r.address < r'.address)
    (s : σ) {o : Module.Out} (hc : Canonical o.owned.ranges)
    (hbelow : ∀ r ∈ rows, r.item.isSome → ∀ x, o.owned.contains x = true → x < r.address) :
    ∃ s' o', md.assembleLines externs sink ls s o = (s', .ok o') ∧ Canonical o'.owned.ranges := by
  induction h generalizing s o with
  | nil => exact ⟨s, o, rfl, hc⟩
  | @cons r l rows ls h1 h2 ih =>
    rw [List.pairwise_cons] at hord
    obtain ⟨s1, o1, e1, e2, e3⟩ := assembleRow_ok hacc hr hfit hlab (hro r (by simp)) h1 s hc (hbelow r (by simp))
    obtain ⟨s2, o2, e4, e5⟩ := ih (fun r hr => hro r (by simp [hr])) hord.2 s1 e2 (by
      intro q hq hqi x hx
      rcases e3 x hx with h | ⟨it, hi, hlt⟩
      · exact hbelow q (by simp [hq]) hqi x h
      · obtain ⟨jt, hj⟩ := Option.isSome_iff_exists.1 hqi
        have := hfit.apart _ it _ jt ((hro r (by simp)).code it hi).1 ((hro q (by simp [hq])).code jt hj).1
          (hord.1 q hq (by simp [hi]) hqi)
        omega)
    refine ⟨s2, o2, ?_, e5⟩
    rw [Module.assembleLines, e1]
    exact e4

theorem nameAddresses_ok {md : Module} (h : ∀ l ∈ md.lines, ∃ a : Nat, a < 0x1000000 ∧ l.value = some (a : Int)) :
    ∀ (names : HMap Nat Str) (gs : List (Str × Nat)), (∀ g ∈ gs, g.2 < md.lines.length) →
      ∃ names', md.nameAddresses names gs = .ok names'
  | names, [], _ => ⟨names, rfl⟩
  | names, (name, i) :: gs, hg => by
    have hi : i < md.lines.length := hg (name, i) (by simp)
    obtain ⟨a, ha, hv⟩ := h md.lines[i] (List.getElem_mem hi)
    rw [Module.nameAddresses, List.getElem?_eq_getElem hi]
    simp only [hv, ofInt_addr ha, Res.bind_ok]
    exact nameAddresses_ok h _ gs fun g hgm => hg g (by simp [hgm])

/-- **The assembler accepts the listing.** -/
theorem runs_assembles {m : OMap DisItem} (hr : Runs m) (hfit : Fits m) {file : List Str} {items : List Item}
    (hF : FileItems file items) (hm : ListingFile m items) :
    ∃ N, ∀ n, N ≤ n → ∀ {σ : Type} (sink : Sink σ), Accepting sink → ∀ s,
      ∃ s' as, Assembler.assembleFiles n [file] sink s = (s', .ok as) := by
  obtain ⟨rows, hf, hp⟩ := file_rows hm
  obtain ⟨ho, hcode, hlabel⟩ := fileRows_ok hf
  obtain ⟨m₀, h0, hL, hdeps⟩ := runs_load hr hf hF hp
  obtain ⟨N, ls, hfin, hN⟩ := runs_first_pass hr hL
  generalize hm₁ : ({ m₀ with lines := placedRows rows ls } : Module) = m₁ at hN
  have hlines : m₁.lines = placedRows rows ls := by rw [← hm₁]
  refine ⟨N, fun n hn σ sink hacc s => ?_⟩
  have h1 := hN n hn
  have hNames := names_firstPass (names_loaded hL.loaded) h1
  have hnobegin := rows_noBegin hf
  have hlen : rows.length = m₁.lines.length := by
    rw [firstPass_length h1, hL.loaded.length, List.length_map]
  have hready : List.Forall₂ Ready rows m₁.lines := by
    refine forall2_of_get hlen fun k r l hrk hl => ?_
    obtain ⟨r', x, hrk', hx, hlx⟩ := placedRows_get (by rw [← hlines]; exact hl)
    rw [hrk] at hrk'; cases hrk'
    obtain ⟨r', hrk', hfx⟩ := forall2_getElem? hfin hx
    rw [hrk] at hrk'; cases hrk'
    refine ⟨by rw [hlx]; exact hfx, by rw [hlx], ?_⟩
    obtain ⟨l₀, hl₀, -, hsc, -⟩ := firstPass_line h1 hl
    rw [hsc, (hL.loaded.line k l₀ hl₀).2.1, openAt_none hnobegin]
  have hsecond : ∀ externs, m₁.runSecondPass externs = .ok m₁ := by
    intro externs
    refine secondLoop_data externs _ 0 m₁ (by omega) fun l hl => ?_
    obtain ⟨k, hk⟩ := List.getElem?_of_mem hl
    obtain ⟨r, hrk, hq⟩ := forall2_getElem? hready hk
    rw [hq.statement]
    exact (row_plain (ho r (List.mem_of_getElem? hrk))).2.2
  have hload : Assembler.loadAll [file] = .ok [m₀] := by
    rw [Assembler.loadAll, h0]; rfl
  obtain ⟨ord, hord⟩ := (C45_order_found_iff hload).2 ⟨List.pairwise_singleton _ _, [m₀], .refl _, by
    intro pre q post hs id hid
    have : q ∈ [m₀] := by rw [hs]; simp
    simp only [List.mem_singleton] at this
    subst this
    rw [hdeps] at hid; cases hid⟩
  have hord0 : ord.order = [0] := by
    have := (C45_order_sound hord).1
    simpa using this
  have hprep : Assembler.prepare n [m₀] = .ok (⟨[m₁], ord.exported, .empty⟩, [0]) := by
    rw [Assembler.prepare, hord, Res.bind_ok, hord0]
    simp only [Res.bind_ok, Assembler.firstPasses, List.getElem?_cons_zero, h1, List.set_cons_zero,
      Assembler.secondPasses, hsecond]
  have hlab : LabelsAt (m₁.lookup [] (Assembler.lookup [m₁] ord.exported)) m := by
    intro a it hl hne
    obtain ⟨r, hr', hrl, hra⟩ := hlabel a it (OMap.mem_of_find hl) hne
    obtain ⟨t, hrt⟩ := List.getElem?_of_mem hr'
    have ht : t < m₁.lines.length := by rw [← hlen]; exact (List.getElem?_eq_some_iff.1 hrt).1
    obtain ⟨r', hrt', hq⟩ := forall2_getElem? hready (List.getElem?_eq_getElem ht)
    rw [hrt] at hrt'; cases hrt'
    rw [← hq.scopes]
    refine (lookup_means hNames _ (List.getElem?_eq_getElem ht) _ _).2 (.inl ⟨t, .inr ⟨?_, ?_⟩, ?_⟩)
    · rintro j ⟨-, -, ⟨x, hx, hb⟩, -⟩
      rw [hnobegin x (List.mem_of_getElem? hx)] at hb; cases hb
    · refine ⟨0, r.line, ⟨it.label, false⟩, ?_, ?_, rfl, .inr ?_⟩
      · rw [List.getElem?_map, hrt]; rfl
      · show r.labels[0]? = _
        rw [hrl]; rfl
      · rintro j ⟨-, -, ⟨x, hx, hb⟩, -⟩
        rw [hnobegin x (List.mem_of_getElem? hx)] at hb; cases hb
    · unfold valueAt
      rw [List.getElem?_eq_getElem ht]
      simp only [Option.bind_some]
      rw [hq.value, hra]
  have hown : m₁.owned = .empty ∧ m₁.addrNames = [] ∧ m₁.targets = [] ∧ m₁.conventions = [] := by
    rw [← hm₁]; exact hL.loaded.fresh
  obtain ⟨o1, o2, o3, o4⟩ := hown
  have hempty : Canonical (DataRange.empty).ranges := ⟨by simp [DataRange.empty], .nil⟩
  obtain ⟨s', o', e1, e2⟩ := assembleRows_ok (md := m₁) (externs := Assembler.lookup [m₁] ord.exported) hacc hr hfit hlab
    hready ho (file_order hf hr.sorted) s (o := ⟨m₁.owned, m₁.targets, m₁.conventions⟩) (by rw [o1]; exact hempty)
    (by intro r _ _ x hx; rw [o1] at hx; simp [DataRange.contains, DataRange.empty, DataRange.before] at hx)
  obtain ⟨names, e3⟩ := nameAddresses_ok (md := m₁) (by
      intro l hl
      obtain ⟨k, hk⟩ := List.getElem?_of_mem hl
      obtain ⟨r, hrk, hq⟩ := forall2_getElem? hready hk
      obtain ⟨jt, hj⟩ := (ho r (List.mem_of_getElem? hrk)).address
      exact ⟨r.address, hr.low _ hj, hq.value⟩) m₁.addrNames m₁.globals (by
      intro g hg
      have hgl : m₁.globals = tableOf none (defs (rows.map Row.line)) := by
        rw [← hm₁]; exact hL.loaded.globals
      rw [hgl] at hg
      obtain ⟨name, t⟩ := g
      obtain ⟨_, _, _, d1, -⟩ := mem_defs.1 (mem_tableOf.1 hg)
      have := (List.getElem?_eq_some_iff.1 d1).1
      rw [List.length_map] at this
      show t < _
      omega)
  have hasm : m₁.assemble (Assembler.lookup [m₁] ord.exported) sink s = (s', .ok { m₁ with
      owned := o'.owned, targets := o'.targets, conventions := o'.conventions, addrNames := names }) := by
    rw [Module.assemble, e1]
    simp only [Res.bind_ok, e3]
  obtain ⟨i1, -⟩ := lookup_insert_empty e2
  generalize hi : (RangeMap.empty : RangeMap Nat).insert o'.owned 0 = q at i1
  obtain ⟨q1, q2⟩ := q
  simp only at i1
  subst i1
  refine ⟨s', ⟨[{ m₁ with owned := o'.owned, targets := o'.targets, conventions := o'.conventions, addrNames := names }], ord.exported, q1⟩, ?_⟩
  rw [Assembler.assembleFiles, hload]
  simp only [Assembler.assemble, hprep, Assembler.finalPasses, List.getElem?_cons_zero, hasm, hi, List.set_cons_zero]

end Nsasm
