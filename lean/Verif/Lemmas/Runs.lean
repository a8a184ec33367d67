import Verif.Lemmas.Accepts
import Verif.Lemmas.ListRows

/-! # The first pass accepts a printed listing -/

namespace Nsasm
open Spec Props Disassembler Parse

/-- Addresses of a listing that its entry points lead to. -/
inductive ListReach (m : OMap DisItem) : Addr → Prop
  | entry {a : Addr} {it : DisItem} (lists : (a, it) ∈ m) (isEntry : it.isEntry = true) : ListReach m a
  | next {a : Addr} {it : DisItem} (before : ListReach m a) (lists : (a, it) ∈ m)
      (goesOn : it.instruction.isExitInstruction = false) :
      ListReach m (Address.addWrapped a it.instruction.serializedSize)
  | branch {a b : Addr} {it nt : DisItem} {name : Str} (before : ListReach m a) (lists : (a, it) ∈ m)
      (isBranch : it.instruction.isLocalBranch = true)
      (operand : writtenOperand it.instruction.arg1 = .ident ⟨none, name⟩ .word) (target : (b, nt) ∈ m)
      (named : nt.label = name) (ne : name ≠ []) : ListReach m b

/-- A listing whose instructions can be analysed in the states recorded for them. -/
structure Runs (m : OMap DisItem) : Prop where
  sorted : OMap.Sorted m
  low : ∀ p ∈ m, p.1 < 0x1000000
  normal : ∀ a it, (a, it) ∈ m → NormalState it.current
  distinct : ∀ a b it jt, (a, it) ∈ m → (b, jt) ∈ m → it.label ≠ [] → it.label = jt.label → a = b
  step : ∀ a it i0, (a, it) ∈ m → ReadBack it.instruction i0 → ∃ t, i0.execute it.current nullCtx = .ok t ∧
    (it.instruction.isExitInstruction = false → ∃ nt, (Address.addWrapped a it.instruction.serializedSize, nt) ∈ m ∧
      a < Address.addWrapped a it.instruction.serializedSize ∧
      (∀ p ∈ m, ¬ (a < p.1 ∧ p.1 < Address.addWrapped a it.instruction.serializedSize)) ∧ StateAbove nt.current t)
  branch : ∀ a it i0, (a, it) ∈ m → ReadBack it.instruction i0 → it.instruction.isLocalBranch = true →
    ∃ name b nt t, writtenOperand it.instruction.arg1 = .ident ⟨none, name⟩ .word ∧ (b, nt) ∈ m ∧ nt.label = name ∧
      name ≠ [] ∧ i0.executeBranch it.current = .ok t ∧ StateAbove nt.current t
  sizes : ∀ a it i0, (a, it) ∈ m → ReadBack it.instruction i0 → SizesKnown i0 it.current.flags ∧ MoveArg i0
  agrees : ∀ a it, (a, it) ∈ m → SizeAgrees it.instruction.mnemonic it.instruction.mode it.current.flags
  entry : ∀ a it f, (a, it) ∈ m → it.isEntry = true → StatusFlags.fromName it.current.flags.toName = some f →
    StateAbove it.current (.init f)
  reach : ∀ a it, (a, it) ∈ m → ListReach m a

/-! ## Code rows -/

theorem rows_order {pc : Addr} {m : OMap DisItem} {rows : List Row} (h : Rows pc m rows) (hs : OMap.Sorted m) :
    rows.Pairwise fun r r' => r.item.isSome → r'.item.isSome → r.address < r'.address := by
  induction h with
  | nil => exact .nil
  | @cons pc a it rest i0 f rows entry read after ih =>
    have hlt : ∀ p ∈ rest, a < p.1 := by
      unfold OMap.Sorted at hs; rw [List.pairwise_cons] at hs; exact hs.1
    have hcode : ∀ lb, (⟨lb, .instr i0, .instr (asWritten it.instruction), a, some it⟩ :: rows).Pairwise
        fun r r' : Row => r.item.isSome → r'.item.isSome → r.address < r'.address := by
      intro lb
      refine List.pairwise_cons.2 ⟨fun r hr _ _ => ?_, ih (OMap.sorted_cons hs).1⟩
      obtain ⟨jt, hj⟩ := ((rows_ok after).1 r hr).address
      exact hlt _ hj
    have hall : (codeRows a it f i0 ++ rows).Pairwise
        fun r r' : Row => r.item.isSome → r'.item.isSome → r.address < r'.address := by
      unfold codeRows
      split
      · exact List.pairwise_cons.2 ⟨fun r _ h => by simp at h, hcode _⟩
      · exact hcode _
    unfold originRows
    split
    · exact hall
    · exact List.pairwise_cons.2 ⟨fun r _ h => by simp at h, hall⟩

theorem file_order {m : OMap DisItem} {rows : List Row} (h : FileRows m rows) (hs : OMap.Sorted m) :
    rows.Pairwise fun r r' => r.item.isSome → r'.item.isSome → r.address < r'.address := by
  cases h with
  | nil => exact .nil
  | cons h => exact List.pairwise_cons.2 ⟨fun r _ h => by simp at h, rows_order h hs⟩

theorem code_unique {m : OMap DisItem} {rows : List Row} (h : FileRows m rows) (hs : OMap.Sorted m) {j k : Nat}
    {r q : Row} (hj : rows[j]? = some r) (hk : rows[k]? = some q) (h1 : r.item.isSome) (h2 : q.item.isSome)
    (he : r.address = q.address) : j = k := by
  have hp := List.pairwise_iff_getElem.1 (file_order h hs)
  obtain ⟨hj1, hj2⟩ := List.getElem?_eq_some_iff.1 hj
  obtain ⟨hk1, hk2⟩ := List.getElem?_eq_some_iff.1 hk
  rcases Nat.lt_trichotomy j k with hlt | heq | hlt
  · have := hp j k hj1 hk1 hlt (by rw [hj2]; exact h1) (by rw [hk2]; exact h2)
    rw [hj2, hk2] at this; omega
  · exact heq
  · have := hp k j hk1 hj1 hlt (by rw [hk2]; exact h2) (by rw [hj2]; exact h1)
    rw [hj2, hk2] at this; omega

theorem mem_unique {α : Type} {m : OMap α} (hs : OMap.Sorted m) {a : Nat} {x y : α} (h : (a, x) ∈ m) (h' : (a, y) ∈ m) : x = y := by
  have h1 := OMap.find_of_mem hs h
  rw [OMap.find_of_mem hs h'] at h1
  exact (Option.some.inj h1).symm

/-! ## Reading back -/

theorem readBack_same {i i0 : Instruction} (h : ReadBack i i0) :
    i0.mnemonic = i.mnemonic ∧ i0.suffix = i.suffix ∧ i0.arg1 = writtenOperand i.arg1 ∧ i0.ret = i.ret ∧
    ((i0.mode = .imm_fm ∨ i0.mode = .imm_fx) ∧ (i.mode = .imm_b ∨ i.mode = .imm_w) ∨ i0 = asWritten i) := by
  obtain ⟨e, hf⟩ := h
  refine ⟨by rw [e]; rfl, by rw [e]; rfl, by rw [e]; rfl, by rw [e]; rfl, ?_⟩
  have hag := hf _ (agreeing_agrees i.mnemonic i.mode)
  unfold Instruction.fixAddressingMode at hag
  split at hag
  · rename_i hm
    refine .inl ⟨hm, ?_⟩
    split at hag
    · simp only [Res.ok.injEq] at hag
      exact .inl (congrArg Instruction.mode hag).symm
    · simp only [Res.ok.injEq] at hag
      exact .inr (congrArg Instruction.mode hag).symm
    · cases hag
  · exact .inr (Res.ok.inj hag)

theorem readBack_exit {i i0 : Instruction} (h : ReadBack i i0) : i0.isExitInstruction = i.isExitInstruction := by
  obtain ⟨h1, -, -, h2, -⟩ := readBack_same h
  unfold Instruction.isExitInstruction
  rw [h1, h2]

theorem readBack_branch {i i0 : Instruction} (h : ReadBack i i0) : i0.isLocalBranch = i.isLocalBranch := by
  obtain ⟨h1, -, -, -, h2⟩ := readBack_same h
  unfold Instruction.isLocalBranch
  rw [h1]
  rcases h2 with ⟨h2, h3⟩ | h2
  · rcases h2 with h2 | h2 <;> rcases h3 with h3 | h3 <;> rw [h2, h3] <;> rfl
  · rw [h2]; rfl

theorem agrees_below {m : Mnemonic} {mode : Mode} {f g : StatusFlags} (h : SizeAgrees m mode f) (hf : FlagsAbove f g) :
    SizeAgrees m mode g := by
  refine ⟨fun hm => ⟨fun hb => ?_, fun hw => ?_⟩, fun hx => ⟨fun hb => ?_, fun hw => ?_⟩⟩
  · have := (h.1 hm).1 hb; rw [hf.m.known (.inl this), this]
  · have := (h.1 hm).2 hw; rw [hf.m.known (.inr this), this]
  · have := (h.2 hx).1 hb; rw [hf.x.known (.inl this), this]
  · have := (h.2 hx).2 hw; rw [hf.x.known (.inr this), this]

/-! ## The first pass -/

/-- The states in which the analysis gets to a line of the listing. -/
def RowState (m : OMap DisItem) (rows : List Row) (k : Nat) (s : ExecutionState) : Prop :=
  ∃ r a it, rows[k]? = some r ∧ Stands r a it ∧ (a, it) ∈ m ∧ NormalState s ∧ Small s ∧ StateAbove it.current s

theorem small_init (f : StatusFlags) : Small (.init f) := ⟨trivial, trivial, trivial⟩

/-- A listing as loaded by the assembler. -/
structure LoadedRows (m : OMap DisItem) (rows : List Row) (m₀ : Module) : Prop where
  file : FileRows m rows
  loaded : LoadInv (rows.map Row.line) m₀
  written : ∀ l ∈ m₀.lines, StatementWritten l.statement

theorem loaded_row {m : OMap DisItem} {rows : List Row} {m₀ : Module} (h : LoadedRows m rows m₀) {k : Nat} {r : Row}
    (hk : rows[k]? = some r) : ∃ l, m₀.lines[k]? = some l ∧ l.statement = r.read := by
  have hlen := h.loaded.length
  rw [List.length_map] at hlen
  have hlt : k < m₀.lines.length := by rw [hlen]; exact (List.getElem?_eq_some_iff.1 hk).1
  refine ⟨_, List.getElem?_eq_getElem hlt, ?_⟩
  obtain ⟨⟨pl, h1, h2⟩, -⟩ := h.loaded.line k _ (List.getElem?_eq_getElem hlt)
  rw [List.getElem?_map, hk] at h1
  cases h1
  exact h2

theorem row_of_line {m : OMap DisItem} {rows : List Row} {m₀ : Module} (h : LoadedRows m rows m₀) {k : Nat} {l : Line}
    (hk : m₀.lines[k]? = some l) : ∃ r, rows[k]? = some r ∧ l.statement = r.read := by
  obtain ⟨⟨pl, h1, h2⟩, -⟩ := h.loaded.line k l hk
  rw [List.getElem?_map] at h1
  obtain ⟨r, h3, rfl⟩ := Option.map_eq_some_iff.1 h1
  exact ⟨r, h3, h2⟩

theorem rows_noBegin {m : OMap DisItem} {rows : List Row} (h : FileRows m rows) :
    ∀ l ∈ rows.map Row.line, IsDirective .begin_ l = false := by
  intro l hl
  obtain ⟨r, hr, rfl⟩ := List.mem_map.1 hl
  exact (row_plain ((fileRows_ok h).1 r hr)).1

/-- The row with a label is what the label means. -/
theorem label_index {m : OMap DisItem} {rows : List Row} {m₀ : Module} (h : LoadedRows m rows m₀) {k t : Nat} {l : Line}
    (hk : m₀.lines[k]? = some l) {r : Row} {name : Str} (ht : rows[t]? = some r) (hn : r.labels = [⟨name, false⟩]) :
    m₀.localIndex name l.scopes = some t := by
  rw [(names_loaded h.loaded).locals k l hk]
  have hno : ∀ j i, ¬ Encloses (rows.map Row.line) j i := by
    rintro j i ⟨-, -, ⟨x, hx, hb⟩, -⟩
    rw [rows_noBegin h.file x (List.mem_of_getElem? hx)] at hb; cases hb
  refine .inr ⟨fun j hj => absurd hj (hno j k), 0, r.line, ⟨name, false⟩, ?_, ?_, rfl, .inr fun j => hno j t⟩
  · rw [List.getElem?_map, ht]; rfl
  · show r.labels[0]? = _
    rw [hn]; rfl

theorem runs_safe {m : OMap DisItem} (hr : Runs m) {rows : List Row} {m₀ : Module} (h : LoadedRows m rows m₀) :
    Safe m₀ (RowState m rows) := by
  obtain ⟨hok, -, -⟩ := fileRows_ok h.file
  obtain ⟨-, hlabel, -⟩ := file_kinds h.file
  have hfollow := file_follow h.file hr.sorted
  refine ⟨?_, ?_, ?_⟩
  · rintro k s ⟨-, -, -, -, -, -, h, -⟩; exact h
  · rintro k s t ⟨r, a, it, h1, ⟨h2, -⟩, h3, h4, h5, h6⟩ ⟨r', a', it', g1, g2, g3, g4, g5, g6⟩
    rw [h1] at g1; cases g1
    obtain rfl : a = a' := h2.symm.trans g2.1
    obtain rfl := mem_unique hr.sorted h3 g3
    exact ⟨r, a, it, h1, g2, h3, normal_merge h4, small_merge h5 g5, state_join (hr.normal a it h3) h4 g4 h6 g6⟩
  · rintro k s ⟨r, a, it, hk, ⟨rfl, hst⟩, hm, hn, hsm, hab⟩
    obtain ⟨l, hl, hls⟩ := loaded_row h hk
    have hw := h.written l (List.mem_of_getElem? hl)
    rcases hst with hi | ⟨hi, he, f, hf, hre⟩
    · obtain ⟨-, -, i0, hre, hrb⟩ := (hok r (List.mem_of_getElem? hk)).code it hi
      rw [hre] at hls
      obtain ⟨t, ht, hnext⟩ := hr.step _ it i0 hm hrb
      obtain ⟨hsk, hmv⟩ := hr.sizes _ it i0 hm hrb
      obtain ⟨s', hs', hab', hsm'⟩ := execute_mono hab hn hsm hsk hmv ht
      have hn' : NormalState s' := by
        rw [hls] at hw
        exact normal_statement hw hn hs'
      refine ⟨l, s', hl, by rw [hls]; exact hs', ?_, ?_⟩
      · intro hx
        rw [hls] at hx
        have hx' : it.instruction.isExitInstruction = false := by rw [← readBack_exit hrb]; exact hx
        obtain ⟨nt, n1, n2, n3, n4⟩ := hnext hx'
        obtain ⟨r', hr', hs''⟩ := (hfollow k r hk).code it _ nt hi rfl n2 n1 n3
        exact ⟨r', _, nt, hr', hs'', n1, hn', hsm', n4.trans hab'⟩
      · intro i hi' hb
        rw [hls] at hi'
        cases hi'
        obtain ⟨name, b, nt, t', b1, b2, b3, b4, b5, b6⟩ := hr.branch _ it i0 hm hrb (by rw [← readBack_branch hrb]; exact hb)
        obtain ⟨s'', hs'', hab'', hsm''⟩ := executeBranch_mono hab hn hsm hsk hmv b5
        obtain ⟨r', hr', hr1, hr2⟩ := hlabel b nt b2 (by rw [b3]; exact b4)
        obtain ⟨t'', ht''⟩ := List.getElem?_of_mem hr'
        refine ⟨name, t'', s'', ?_, label_index h hl ht'' (by rw [hr1, b3]), hs'', r', b, nt, ht'', hr2, b2, ?_, hsm'', b6.trans hab''⟩
        · rw [(readBack_same hrb).2.2.1, b1]; rfl
        · rw [hls] at hw
          exact normal_branch hw hn hs''
    · rw [hre] at hls
      refine ⟨l, s, hl, by rw [hls]; rfl, fun _ => ?_, ?_⟩
      · obtain ⟨r', it', e1, e2, e3, e4, e5, e6⟩ := (hfollow k r hk).entry f hi hre
        obtain rfl := mem_unique hr.sorted hm e6
        exact ⟨r', _, it, e1, ⟨e2, .inl e3⟩, hm, hn, hsm, hab⟩
      · intro i hi'
        rw [hls] at hi'; cases hi'

theorem runs_seed {m : OMap DisItem} (hr : Runs m) {rows : List Row} {m₀ : Module} (h : LoadedRows m rows m₀) {i : Nat}
    {f : StatusFlags} (hd : DeclaresEntry m₀ i f) : RowState m rows (i + 1) (.init f) := by
  obtain ⟨l, d, hl, hs, hn, rfl⟩ := hd
  obtain ⟨r, hrk, hre⟩ := row_of_line h hl
  have hok := (fileRows_ok h.file).1 r (List.mem_of_getElem? hrk)
  have hw := h.written l (List.mem_of_getElem? hl)
  rw [hs] at hre hw
  cases hi : r.item with
  | some it =>
    obtain ⟨-, -, i0, h1, -⟩ := hok.code it hi
    rw [h1] at hre; cases hre
  | none =>
    obtain ⟨h1, h2⟩ := hok.other hi
    rw [← h1, ← hre] at h2
    rcases h2 with ⟨g, h2⟩ | h2
    · obtain ⟨r', it, e1, e2, e3, e4, e5, e6⟩ := (file_follow h.file hr.sorted i r hrk).entry g hi (by rw [← hre, h2])
      cases h2
      exact ⟨r', _, it, e1, ⟨e2, .inl e3⟩, e6, normal_init (normal_written (hw (by simp))), small_init _, hr.entry _ it g e6 e4 e5⟩
    · cases h2; cases hn

/-- The row of an entry's instruction. -/
theorem code_row {m : OMap DisItem} {rows : List Row} (h : FileRows m rows) {a : Addr} {it : DisItem} (hm : (a, it) ∈ m) :
    ∃ (k : Nat) (r : Row), rows[k]? = some r ∧ r.item = some it ∧ r.address = a := by
  obtain ⟨-, hcode, -⟩ := fileRows_ok h
  obtain ⟨r, hr, h1, h2⟩ := hcode a it hm
  obtain ⟨k, hk⟩ := List.getElem?_of_mem hr
  exact ⟨k, r, hk, h1, h2⟩

theorem runs_reachable {m : OMap DisItem} (hr : Runs m) {rows : List Row} {m₀ : Module} (h : LoadedRows m rows m₀)
    {a : Addr} (hreach : ListReach m a) : ∀ k r it, rows[k]? = some r → r.item = some it → r.address = a → Reachable m₀ k := by
  obtain ⟨hok, -, -⟩ := fileRows_ok h.file
  obtain ⟨-, hlabel, hentry⟩ := file_kinds h.file
  have hfollow := file_follow h.file hr.sorted
  -- from a row that stands for the entry to its instruction
  have hinto : ∀ (j : Nat) (q : Row) (b : Addr) (nt : DisItem), rows[j]? = some q → Stands q b nt → (b, nt) ∈ m →
      Reachable m₀ j → ∀ k r it, rows[k]? = some r → r.item = some it → r.address = b → Reachable m₀ k := by
    rintro j q b nt hj ⟨rfl, hq⟩ hm hR k r it hk hi ha
    rcases hq with hq | ⟨hq, he, f, hf, hre⟩
    · rw [← code_unique h.file hr.sorted hj hk (by simp [hq]) (by simp [hi]) ha.symm]; exact hR
    · obtain ⟨r', it', e1, e2, e3, e4, e5, e6⟩ := (hfollow j q hj).entry f hq hre
      rw [← code_unique h.file hr.sorted e1 hk (by simp [e3]) (by simp [hi]) (e2.trans ha.symm)]
      obtain ⟨l, hl, hls⟩ := loaded_row h hj
      exact .next hR ⟨l, hl, by rw [hls, hre]; simp [Stops, entryStatement]⟩
  induction hreach with
  | @entry a it hm he =>
    intro k r it' hk hi ha
    obtain ⟨q, hq, f, h1, h2, h3, h4⟩ := hentry a it hm he
    obtain ⟨j, hj⟩ := List.getElem?_of_mem hq
    obtain ⟨l, hl, hls⟩ := loaded_row h hj
    obtain ⟨r', it'', e1, e2, e3, e4, e5, e6⟩ := (hfollow j q hj).entry f h2 h4
    rw [← code_unique h.file hr.sorted e1 hk (by simp [e3]) (by simp [hi]) ((e2.trans h1).trans ha.symm)]
    exact .entry (f := f) ⟨l, ⟨.entry, .null, f, .default, []⟩, hl, by rw [hls, h4]; rfl, rfl, rfl⟩
  | @next a it _ hm hx ih =>
    obtain ⟨j, q, hj, hq, hqa⟩ := code_row h.file hm
    have hR := ih j q it hj hq hqa
    obtain ⟨-, -, i0, hre, hrb⟩ := (hok q (List.mem_of_getElem? hj)).code it hq
    obtain ⟨t, -, hnext⟩ := hr.step _ it i0 hm hrb
    obtain ⟨nt, n1, n2, n3, n4⟩ := hnext hx
    subst hqa
    obtain ⟨r', hr', hs'⟩ := (hfollow j q hj).code it _ nt hq rfl n2 n1 n3
    obtain ⟨l, hl, hls⟩ := loaded_row h hj
    refine hinto _ r' _ nt hr' hs' n1 (.next hR ⟨l, hl, ?_⟩)
    rw [hls, hre, ← stops_iff]
    show ¬ i0.isExitInstruction = true
    rw [readBack_exit hrb, hx]; simp
  | @branch a b it nt name _ hm hb hop hmt hnm hne ih =>
    obtain ⟨j, q, hj, hq, hqa⟩ := code_row h.file hm
    have hR := ih j q it hj hq hqa
    obtain ⟨-, -, i0, hre, hrb⟩ := (hok q (List.mem_of_getElem? hj)).code it hq
    obtain ⟨r', hr', hr1, hr2⟩ := hlabel b nt hmt (by rw [hnm]; exact hne)
    obtain ⟨t, ht⟩ := List.getElem?_of_mem hr'
    obtain ⟨l, hl, hls⟩ := loaded_row h hj
    refine hinto t r' b nt ht hr2 hmt (.branch hR ⟨l, i0, name, hl, by rw [hls, hre], ?_, ?_, label_index h hl ht (by rw [hr1, hnm])⟩)
    · rw [← mayBranch_iff, readBack_branch hrb]; exact hb
    · rw [(readBack_same hrb).2.2.1, hop]; rfl

/-- **The first pass accepts the listing.** -/
theorem runs_first_pass {m : OMap DisItem} (hr : Runs m) {rows : List Row} {m₀ : Module} (h : LoadedRows m rows m₀) :
    ∃ N ls, List.Forall₂ HasFinal rows ls ∧
      ∀ n, N ≤ n → m₀.runFirstPass n = .ok { m₀ with lines := placedRows rows ls } := by
  obtain ⟨hok, -, -⟩ := fileRows_ok h.file
  have hfixes : ∀ k r it i0 s, rows[k]? = some r → r.item = some it → ReadBack it.instruction i0 → RowState m rows k s →
      i0.fixAddressingMode s.flags = .ok (asWritten it.instruction) := by
    rintro k r it i0 s hk hi hrb ⟨r', a, it', h1, ⟨h2, h3⟩, h4, h5, h6, h7⟩
    rw [hk] at h1; cases h1
    obtain ⟨c1, -⟩ := (hok r (List.mem_of_getElem? hk)).code it hi
    subst h2
    obtain rfl := mem_unique hr.sorted c1 h4
    exact hrb.2 _ (agrees_below (hr.agrees _ it h4) h7.flags)
  obtain ⟨N, p, ls, hls, hsame, hin, hall, hN⟩ := safe_fixes (runs_safe hr h) h.written (fun i f hd => runs_seed hr h hd)
    (fun k l hl => (h.loaded.line k l hl).2.2.1) (by
      intro k l i hl hi
      obtain ⟨r, hk, hre⟩ := row_of_line h hl
      have hro := hok r (List.mem_of_getElem? hk)
      rw [hi] at hre
      cases hri : r.item with
      | none =>
        obtain ⟨o1, o2⟩ := hro.other hri
        rw [← o1, ← hre] at o2
        rcases o2 with ⟨f, o2⟩ | o2 <;> cases o2
      | some it =>
        obtain ⟨c1, c2, i0, c3, c4⟩ := hro.code it hri
        rw [c3] at hre
        cases hre
        exact ⟨runs_reachable hr h (hr.reach _ it c1) k r it hk hri rfl, fun s hs => ⟨_, hfixes k r it _ s hk hri c4 hs⟩⟩)
  have hfin : List.Forall₂ HasFinal rows ls := by
    have hlen : rows.length = ls.length := by
      rw [← (fixLines_rel hls).length_eq]
      have e := congrArg List.length hsame
      simp only [List.length_map] at e
      rw [e, h.loaded.length, List.length_map]
    refine forall2_of_get hlen fun k r b hrk hb => ?_
    obtain ⟨c, hc, hfx⟩ := forall2_getElem? (fixLines_rel hls) hb
    obtain ⟨l', hl', hst, -⟩ := flow_original hsame hc
    obtain ⟨r', hr', hre⟩ := row_of_line h hl'
    rw [hrk] at hr'; cases hr'
    have hro := hok r (List.mem_of_getElem? hrk)
    unfold HasFinal
    unfold FixRel at hfx
    rw [hst, hre] at hfx
    cases hri : r.item with
    | none =>
      obtain ⟨o1, o2⟩ := hro.other hri
      have : ∃ d, r.final = .dir d := by
        rcases o2 with ⟨f, h⟩ | h <;> rw [h]
        · exact ⟨_, rfl⟩
        · exact ⟨_, rfl⟩
      obtain ⟨d, hd⟩ := this
      rw [o1, hd] at hfx
      simp only at hfx
      rw [hfx, hst, hre, o1]
    | some it =>
      obtain ⟨c1, c2, i0, c3, c4⟩ := hro.code it hri
      rw [c3] at hfx
      simp only at hfx
      obtain ⟨hrc, j, hj, rfl⟩ := hfx
      rw [hfixes k r it i0 _ hrk hri c4 (hin k c hc hrc)] at hj
      cases hj
      exact c2.symm
  refine ⟨N, ls, hfin, fun n hn => ?_⟩
  unfold Module.runFirstPass
  rw [hN n hn, Res.bind_ok, hls, Res.bind_ok, layout_file h.file hr.low hfin, Res.bind_ok]

end Nsasm
