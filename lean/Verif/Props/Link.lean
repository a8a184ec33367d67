import Verif.Lemmas.Targets
import Verif.Props.Order
import Verif.Props.SecondPass
import Verif.Props.FirstPass

/-! # C44, C47, C57: what a successful assembly writes and reports -/

namespace Nsasm.Props
open Nsasm Nsasm.Spec

/-- What assembling files did, in terms of the passes over each module. -/
structure Assembled {σ : Type} (fuel : Nat) (files : List (List Str)) (sink : Sink σ) (s s' : σ)
    (a : Assembler) (order : List Nat) (wss : List (List Writes)) : Prop where
  perm : order.Perm (List.range files.length)
  length : a.modules.length = files.length
  passes : ∀ (i : Nat) (m : Module), a.modules[i]? = some m →
    ∃ f m₀ m₁ m₂, ∃ externs : Ctx, files[i]? = some f ∧ Module.loadAsmFile f = .ok m₀ ∧
      m₀.runFirstPass fuel = .ok m₁ ∧ m₁.runSecondPass externs = .ok m₂ ∧ SameSource m₂ m ∧
      ∀ id v, externs id = .ok v → Assembler.lookup a.modules a.names id = .ok v
  names : ∀ id i, HMap.find a.names id = some i ↔ ∃ m, a.modules[i]? = some m ∧ Exports m id
  unique : UniqueExports a.modules
  writes : List.Forall₂ (fun i ws => ∃ m, a.modules[i]? = some m ∧
    List.Forall₂ (fun l w => LineWrites (m.lookup l.scopes
      (Assembler.lookup a.modules a.names)) l w) m.lines ws) order wss
  feeds : Feeds sink s wss.flatten.flatten s'
  claims : Claims .empty a.memory.used (allFilled wss.flatten.flatten)
  targets : ∀ m ∈ a.modules, Reports m.targets fun x g => ∃ l ∈ m.lines,
    TransfersTo (m.lookup l.scopes (Assembler.lookup a.modules a.names)) l x g

theorem exports_congr {m m' : Module} (hn : m'.name = m.name) (hg : m'.globals = m.globals)
    (id : FullId) : Exports m' id ↔ Exports m id := by
  unfold Exports; rw [hn, hg]

theorem uniqueExports_congr {ms ms' : List Module}
    (h : Pointwise (fun _ m m' => m'.name = m.name ∧ m'.globals = m.globals) ms ms')
    (hu : UniqueExports ms) : UniqueExports ms' := by
  unfold UniqueExports at hu ⊢
  rw [List.pairwise_iff_getElem] at hu ⊢
  intro i j hi hj hij id h1 h2
  have hi' : i < ms.length := by rw [h.1]; exact hi
  have hj' : j < ms.length := by rw [h.1]; exact hj
  obtain ⟨e1, e2⟩ := h.2 i _ _ (List.getElem?_eq_getElem hi') (List.getElem?_eq_getElem hi)
  obtain ⟨e3, e4⟩ := h.2 j _ _ (List.getElem?_eq_getElem hj') (List.getElem?_eq_getElem hj)
  exact hu i j hi' hj' hij id ((exports_congr e1 e2 id).1 h1) ((exports_congr e3 e4 id).1 h2)

theorem assembled {σ : Type} {fuel : Nat} {files : List (List Str)} {sink : Sink σ} {s s' : σ}
    {a : Assembler} (h : Assembler.assembleFiles fuel files sink s = (s', .ok a)) :
    ∃ order wss, Assembled fuel files sink s s' a order wss := by
  unfold Assembler.assembleFiles at h
  cases hl : Assembler.loadAll files with
  | err e => rw [hl] at h; cases h
  | ub u => rw [hl] at h; cases h
  | ok ms =>
    rw [hl] at h
    simp only at h
    unfold Assembler.assemble at h
    cases hp : Assembler.prepare fuel ms with
    | err e => rw [hp] at h; cases h
    | ub u => rw [hp] at h; cases h
    | ok r =>
      obtain ⟨a₀, order⟩ := r
      rw [hp] at h
      simp only at h
      obtain ⟨o, ms₁, ho, rfl, hnames, hmem, hf, hs⟩ := prepare_parts hp
      obtain ⟨hperm, -, -, huniq, hexp⟩ := C45_order_sound ho
      have hload := loadAll_iff.mp hl
      have hlen : files.length = ms.length := hload.length_eq
      have hnd : o.order.Nodup := hperm.symm.nodup List.nodup_range
      have hin : ∀ (i : Nat) (m : Module), ms[i]? = some m → i ∈ o.order := by
        intro i m hm
        have := (List.getElem?_eq_some_iff.mp hm).1
        exact hperm.mem_iff.2 (List.mem_range.2 this)
      have hfile : ∀ (i : Nat) (m : Module), ms[i]? = some m →
          ∃ f, files[i]? = some f ∧ Module.loadAsmFile f = .ok m := by
        intro i m hm
        exact forall2_getElem? hload hm
      have hfresh : ∀ (i : Nat) (m : Module), ms[i]? = some m → m.owned = .empty ∧ m.targets = [] := by
        intro i m hm
        obtain ⟨f, -, hf⟩ := hfile i m hm
        obtain ⟨items, -, hI, -, -⟩ := loadAsmFile_ok hf
        exact ⟨hI.fresh.1, hI.fresh.2.2.1⟩
      obtain ⟨hl1, he1⟩ := firstPasses_each hnd hf
      have hun : ∀ i ∈ o.order, ∀ m, ms₁[i]? = some m → Unvalued m := by
        intro i hi m hm
        obtain ⟨m0, hm0, ⟨-, hp⟩ | ⟨hc, -⟩⟩ := he1 i m hm
        · obtain ⟨f, -, hf⟩ := hfile i m0 hm0
          exact unvalued_first hf hp
        · exact absurd hi hc
      obtain ⟨hmore, he2⟩ := secondPasses_each hnd hun hs
      have hsame : Pointwise (fun _ => SameTables) ms a₀.modules :=
        pointwise_trans (R := fun _ => SameTables) (fun _ _ _ _ => SameTables.trans)
          (firstPasses_same hf) (secondPasses_same hs)
      have hback : ∀ (i : Nat) (m : Module), a₀.modules[i]? = some m →
          ∃ m0, ms[i]? = some m0 ∧ SameTables m0 m := by
        intro i m hm
        have hlt := (List.getElem?_eq_some_iff.mp hm).1
        have hlt' : i < ms.length := by rw [hsame.1]; exact hlt
        exact ⟨_, List.getElem?_eq_getElem hlt',
          hsame.2 i _ m (List.getElem?_eq_getElem hlt') hm⟩
      have hemp : ∀ i ∈ o.order, ∀ m, a₀.modules[i]? = some m →
          m.owned = .empty ∧ m.targets = [] := by
        intro i _ m hm
        obtain ⟨m0, h0, ls, rfl⟩ := hback i m hm
        exact hfresh i m0 h0
      have hI : a₀.memory.Inv := by rw [hmem]; exact empty_inv
      obtain ⟨k1, k2, wss, k3, k4, k5⟩ :=
        finalPasses_ok hI hnd (fun i hi m hm => (hemp i hi m hm).1) h
      have hlook : Assembler.lookup a.modules a.names = Assembler.lookup a₀.modules a₀.names := by
        rw [lookup_same k2, k1]
      have hfin : ∀ (i : Nat) (m : Module), a.modules[i]? = some m →
          ∃ m2, a₀.modules[i]? = some m2 ∧ SameSource m2 m := by
        intro i m hm
        have hlt := (List.getElem?_eq_some_iff.mp hm).1
        have hlt' : i < a₀.modules.length := by rw [k2.1]; exact hlt
        exact ⟨_, List.getElem?_eq_getElem hlt', k2.2 i _ m (List.getElem?_eq_getElem hlt') hm⟩
      have hpw : Pointwise (fun _ m m' => m'.name = m.name ∧ m'.globals = m.globals) ms a.modules := by
        refine ⟨hsame.1.trans k2.1, fun i m m' hm hm' => ?_⟩
        obtain ⟨m2, h2, hs2⟩ := hfin i m' hm'
        obtain ⟨m0, h0, ls, rfl⟩ := hback i m2 h2
        rw [hm] at h0; cases h0
        exact ⟨hs2.1, hs2.2.2.1⟩
      refine ⟨o.order, wss, ?_, ?_, ?_, ?_, uniqueExports_congr hpw huniq, ?_, k4, ?_, ?_⟩
      · rw [hlen]; exact hperm
      · rw [← k2.1, ← hsame.1, hlen]
      · intro i m hm
        obtain ⟨m2, h2, hs2⟩ := hfin i m hm
        obtain ⟨m1, h1, ⟨-, externs, hrun, hext⟩ | ⟨hc, -⟩⟩ := he2 i m2 h2
        · obtain ⟨m0, h0, ⟨-, hrun0⟩ | ⟨hc, -⟩⟩ := he1 i m1 h1
          · obtain ⟨f, hf1, hf2⟩ := hfile i m0 h0
            refine ⟨f, m0, m1, m2, externs, hf1, hf2, hrun0, hrun, hs2, fun id v hv => ?_⟩
            rw [hlook, hnames]; exact hext id v hv
          · exact absurd (hin i m0 h0) hc
        · have hlt := (List.getElem?_eq_some_iff.mp h1).1
          rw [hl1] at hlt
          exact absurd (hin i _ (List.getElem?_eq_getElem hlt)) hc
      · intro id i
        rw [k1, hnames, hexp]
        constructor
        · rintro ⟨m, hm, hx⟩
          have hlt := (List.getElem?_eq_some_iff.mp hm).1
          have hlt' : i < a.modules.length := by rw [← hpw.1]; exact hlt
          have hg := List.getElem?_eq_getElem hlt'
          obtain ⟨e1, e2⟩ := hpw.2 i m _ hm hg
          exact ⟨_, hg, (exports_congr e1 e2 id).2 hx⟩
        · rintro ⟨m, hm, hx⟩
          have hlt := (List.getElem?_eq_some_iff.mp hm).1
          have hlt' : i < ms.length := by rw [hpw.1]; exact hlt
          have hg := List.getElem?_eq_getElem hlt'
          obtain ⟨e1, e2⟩ := hpw.2 i _ m hg hm
          exact ⟨_, hg, (exports_congr e1 e2 id).1 hx⟩
      · rw [hlook]
        clear k4 k5
        refine k3.imp ?_
        rintro i ws ⟨m, hm, hws⟩
        have hlt := (List.getElem?_eq_some_iff.mp hm).1
        have hlt' : i < a.modules.length := by rw [← k2.1]; exact hlt
        have hg := List.getElem?_eq_getElem hlt'
        have hss := k2.2 i m _ hm hg
        refine ⟨_, hg, ?_⟩
        rw [hss.2.1, hss.lookup]
        exact hws
      · rw [hmem] at k5; exact k5
      · intro m hm
        obtain ⟨i, hi⟩ := List.mem_iff_getElem?.1 hm
        refine (finalPasses_targets hI hnd hemp h i m hi).1 ?_
        have hlt := (List.getElem?_eq_some_iff.mp hi).1
        refine hperm.mem_iff.2 (List.mem_range.2 ?_)
        rw [hpw.1]; exact hlt

/-- **A successful assembly writes each address at most once.**  The sink received some writes,
all of which it accepted; no address is filled twice, within a write or by two of them; and the
assembler contains exactly the addresses that were filled. -/
theorem C44_written_once {σ : Type} {fuel : Nat} {files : List (List Str)} {sink : Sink σ}
    {s s' : σ} {a : Assembler}
    (h : Assembler.assembleFiles fuel files sink s = (s', .ok a)) :
    ∃ ws : Writes, Feeds sink s ws s' ∧ (allFilled ws).Nodup ∧
      ∀ x, a.contains x = true ↔ x ∈ allFilled ws := by
  obtain ⟨order, wss, hA⟩ := assembled h
  refine ⟨_, hA.feeds, hA.claims.nodup, fun x => ?_⟩
  have := hA.claims.exact x
  unfold Assembler.contains RangeMap.contains
  rw [this]
  simp [DataRange.empty, DataRange.contains, DataRange.before]

/-- For examples: assembling succeeds with a result that passes a test. -/
theorem assembles_of_check {fuel : Nat} {files : List (List Str)} (P : Writes → Assembler → Bool)
    (h : (match Assembler.assembleFiles fuel files recorder [] with
      | (ws, .ok a) => P ws a
      | _ => false) = true) :
    ∃ ws a, Assembler.assembleFiles fuel files recorder [] = (ws, .ok a) ∧ P ws a = true := by
  split at h
  · next ws a he => exact ⟨ws, a, he, h⟩
  · cases h

/-- Two modules, one of them with a write that wraps inside its bank. -/
example : ∃ (ws : Writes) (a : Assembler), Assembler.assembleFiles 30
      [[cs!".module main", cs!" .org $80ffff", cs!" .entry m8x8", cs!" lda #other::size",
        cs!" rts"],
       [cs!".module other", cs!"size .equ 3", cs!" .org $1000", cs!"data .dw data, size"]]
      recorder [] = (ws, .ok a) ∧
    ws = [(0x80ffff, [0xa9, 0x03]), (0x800001, [0x60]), (0x1000, [0x00, 0x10, 0x03, 0x00])] ∧
    a.memory.used.ranges = [(0x1000, 0x1004), (0x800000, 0x800002), (0x80ffff, 0x810000)] := by
  obtain ⟨ws, a, h, hc⟩ := assembles_of_check (fuel := 30) (files :=
      [[cs!".module main", cs!" .org $80ffff", cs!" .entry m8x8", cs!" lda #other::size",
        cs!" rts"],
       [cs!".module other", cs!"size .equ 3", cs!" .org $1000", cs!"data .dw data, size"]])
    (fun ws a => decide (
      ws = [(0x80ffff, [0xa9, 0x03]), (0x800001, [0x60]), (0x1000, [0x00, 0x10, 0x03, 0x00])] ∧
      a.memory.used.ranges = [(0x1000, 0x1004), (0x800000, 0x800002), (0x80ffff, 0x810000)]))
    (by decide +kernel)
  exact ⟨ws, a, h, by simpa using hc⟩

/-! ## C57: the image is the linked program -/

theorem find_of_mem {κ ν : Type} [DecidableEq κ] {m : HMap κ ν} (h : (m.map (·.1)).Nodup) {k : κ}
    {v : ν} (hm : (k, v) ∈ m) : HMap.find m k = some v := by
  cases hf : HMap.find m k with
  | none => exact absurd hm (find_none.mp hf v)
  | some w =>
    have := find_mem hf
    have := List.inj_on_of_nodup_map h this hm rfl
    cases this; rfl

theorem assembled_publishes {σ : Type} {fuel : Nat} {files : List (List Str)} {sink : Sink σ}
    {s s' : σ} {a : Assembler} {order : List Nat} {wss : List (List Writes)}
    (hA : Assembled fuel files sink s s' a order wss) :
    Publishes a.modules (Assembler.lookup a.modules a.names) := by
  have hnd : ∀ (i : Nat) (m : Module), a.modules[i]? = some m → NamesNodup m := by
    intro i m hm
    obtain ⟨f, m₀, m₁, m₂, externs, -, h0, h1, h2, hs, -⟩ := hA.passes i m hm
    have hn := loaded_namesNodup h0
    obtain ⟨ls, h3⟩ := secondPass_fields h2
    unfold NamesNodup at hn ⊢
    rw [hs.2.2.1, h3, ← (firstPass_name h1).2.1] at *
    exact hn
  have hfind : ∀ (i : Nat) (m : Module), a.modules[i]? = some m → ∀ id v,
      m.valueForName id = .ok v ↔ ∃ t, id.module = some m.name ∧ (id.name, t) ∈ m.globals ∧
        valueAt m t = some v := by
    intro i m hm id v
    unfold Module.valueForName
    by_cases hmod : id.module = some m.name
    · rw [if_neg (by simpa using hmod)]
      constructor
      · intro h
        cases hf : m.globals.find id.name with
        | none => rw [hf] at h; cases h
        | some t =>
          rw [hf] at h
          exact ⟨t, hmod, find_mem hf, (localLookup_ok m t v).1 h⟩
      · rintro ⟨t, -, ht, hv⟩
        rw [find_of_mem (hnd i m hm) ht]
        exact (localLookup_ok m t v).2 hv
    · rw [if_pos (by simpa using hmod)]
      constructor
      · intro h; cases h
      · rintro ⟨t, ht, -⟩; exact absurd ht hmod
  intro id v
  unfold Assembler.lookup
  constructor
  · intro h
    split at h
    · cases h
    · split at h
      · cases h
      · next i hi =>
        split at h
        · cases h
        · next m hm =>
          obtain ⟨t, h1, h2, h3⟩ := (hfind i m hm id v).1 h
          exact ⟨m, List.mem_of_getElem? hm, t, h1, h2, h3⟩
  · rintro ⟨m, hm, t, h1, h2, h3⟩
    obtain ⟨i, hi⟩ := List.mem_iff_getElem?.1 hm
    have hn := (hA.names id i).2 ⟨m, hi, h1, t, h2⟩
    rw [if_neg (by rw [h1]; simp), hn]
    simp only [hi]
    exact (hfind i m hi id v).2 ⟨t, h1, h2, h3⟩

/-- The names seen at line `k` of a module made from a program, in an assembly. -/
def Sees (P : Program) (m : Module) (externs : Ctx) (k : Nat) (ctx : Ctx) : Prop :=
  ∀ id v, ctx id = .ok v ↔ Means P m.name (valueAt m) externs k id v

/-- **The image is the linked program.**  A successful assembly sends the sink the encodings of
the lines of the files, one file after the other, each line's at the line's own address and with
every name having the value it means: in its scope, in its file, or exported by another.
Nothing else is written. -/
theorem C57_image {σ : Type} {fuel : Nat} {files : List (List Str)} {sink : Sink σ}
    {s s' : σ} {a : Assembler}
    (h : Assembler.assembleFiles fuel files sink s = (s', .ok a)) :
    ∃ (externs : Ctx) (order : List Nat) (wss : List (List Writes)),
      Publishes a.modules externs ∧ order.Perm (List.range files.length) ∧
      Feeds sink s wss.flatten.flatten s' ∧
      List.Forall₂ (fun i ws => ∃ file m items, files[i]? = some file ∧
        a.modules[i]? = some m ∧ FileItems file items ∧ ws.length = m.lines.length ∧
        ∀ (k : Nat) (l : Line) (w : Writes), m.lines[k]? = some l → ws[k]? = some w →
          ∃ ctx, Sees (program [] items) m externs k ctx ∧ LineWrites ctx l w) order wss := by
  obtain ⟨order, wss, hA⟩ := assembled h
  refine ⟨_, order, wss, assembled_publishes hA, hA.perm, hA.feeds, hA.writes.imp ?_⟩
  rintro i ws ⟨m, hm, hws⟩
  obtain ⟨f, m₀, m₁, m₂, externs, hf, h0, h1, h2, hs, -⟩ := hA.passes i m hm
  obtain ⟨items, hF, hI, -, -⟩ := loadAsmFile_ok h0
  obtain ⟨hmore, -, -⟩ := secondLoop_spec _ 0 m₁ m₂ h2
    (fun j l d _ => unvalued_first h0 h1 j l d)
  have hN₂ := names_more (names_firstPass (names_loaded hI) h1) hmore
  have hN : Names (program [] items) m :=
    ⟨fun k l hl name t => by rw [hs.localIndex]; rw [hs.2.1] at hl; exact hN₂.locals k l hl name t,
     fun name t => by rw [hs.localIndex]; exact hN₂.globals name t⟩
  refine ⟨f, m, items, hf, hm, hF, hws.length_eq.symm, fun k l w hl hw => ?_⟩
  obtain ⟨l', hl', hlw⟩ := forall2_getElem? hws hw
  rw [hl] at hl'; cases hl'
  exact ⟨_, fun id v => lookup_means hN _ hl id v, hlw⟩

/-- **Linked values.**  In the result of a successful assembly, every `.equ` line has the value
of its expression, with every name having the value it means *in the result*; every line after
an `.org` that is not an `.equ` has its address as value; and every line has the statement the
file has there, with an immediate operand's size decided. -/
theorem C57_values {σ : Type} {fuel : Nat} {files : List (List Str)} {sink : Sink σ}
    {s s' : σ} {a : Assembler}
    (h : Assembler.assembleFiles fuel files sink s = (s', .ok a)) :
    ∃ externs : Ctx, Publishes a.modules externs ∧ a.modules.length = files.length ∧
      ∀ (i : Nat) (m : Module), a.modules[i]? = some m →
        ∃ file items, files[i]? = some file ∧ FileItems file items ∧
          m.lines.length = (program [] items).length ∧
          ∀ (k : Nat) (l : Line), m.lines[k]? = some l →
            (∀ d, l.statement = .dir d → d.name = .equ →
              ∃ ctx v, Sees (program [] items) m externs k ctx ∧ l.value = some v ∧
                d.argument.eval ctx = .ok v) ∧
            (∀ o v, LastOrigin m.lines k o v → v < 0x1000000 → ¬ IsEqu l →
              l.value = some (place v (bytesBetween m.lines o k))) ∧
            ∃ pl, (program [] items)[k]? = some pl ∧
              match pl.statement with
              | .dir d => l.statement = .dir d
              | .instr i => ∃ mode, l.statement = .instr { i with mode := mode } ∧
                  (i.mode ≠ .imm_fm → i.mode ≠ .imm_fx → mode = i.mode) ∧
                  (i.mode = .imm_fm ∨ i.mode = .imm_fx → mode = .imm_b ∨ mode = .imm_w) ∧
                  SizeAgrees i.mnemonic mode l.incoming.flags := by
  obtain ⟨order, wss, hA⟩ := assembled h
  refine ⟨_, assembled_publishes hA, hA.length, fun i m hm => ?_⟩
  obtain ⟨f, m₀, m₁, m₂, externs, hf, h0, h1, h2, hs, hext⟩ := hA.passes i m hm
  obtain ⟨items, hF, hI, -, -⟩ := loadAsmFile_ok h0
  obtain ⟨hmore, hright, hsame⟩ := secondLoop_spec _ 0 m₁ m₂ h2
    (fun j l d _ => unvalued_first h0 h1 j l d)
  have hN₂ := names_more (names_firstPass (names_loaded hI) h1) hmore
  have hN : Names (program [] items) m :=
    ⟨fun k l hl name t => by rw [hs.localIndex]; rw [hs.2.1] at hl; exact hN₂.locals k l hl name t,
     fun name t => by rw [hs.localIndex]; exact hN₂.globals name t⟩
  have hlen : m.lines.length = m₁.lines.length := by
    have := congrArg List.length hmore.lines
    simp at this
    rw [hs.2.1, this]
  have hlen1 : m₁.lines.length = m₀.lines.length := firstPass_length h1
  have hstate : ∀ (ls ls' : List Line), ls'.map valueless = ls.map valueless → ∀ o i,
      bytesBetween ls' o i = bytesBetween ls o i := by
    intro ls ls' he o i
    have : ∀ q : List Line, q.map (fun l => l.statement.serializedSize) =
        (q.map valueless).map (fun l => l.statement.serializedSize) := by
      intro q; rw [List.map_map]; rfl
    unfold bytesBetween
    rw [List.map_drop, List.map_take, List.map_drop, List.map_take, this ls', this ls, he]
  refine ⟨f, items, hf, hF, by rw [hlen, hlen1, hI.length], fun k l hl => ?_⟩
  have hl₂ : m₂.lines[k]? = some l := by rw [← hs.2.1]; exact hl
  have hk : k < m.lines.length := (List.getElem?_eq_some_iff.mp hl).1
  obtain ⟨l₁, hl₁, hvl⟩ := getElem?_valueless hmore.lines.symm hl₂
  have hst : l.statement = l₁.statement := (valueless_fields hvl.symm).1
  refine ⟨?_, ?_, ?_⟩
  · intro d hd hq
    obtain ⟨v, hv, he⟩ := hright k l (Nat.zero_le _) (by omega) hl₂ d hd hq
    refine ⟨_, v, fun id v => lookup_means hN _ hl id v, hv, ?_⟩
    rw [hs.lookup]
    exact eval_mono (fun id w => lookup_mono m₂ l.scopes hext id w) _ v he
  · intro o v hlast hlt hne
    have hlast₁ : LastOrigin m₁.lines k o v := by
      obtain ⟨h1', ⟨q, hq, d, hd, hn, he⟩, h3⟩ := hlast
      rw [hs.2.1] at hq h3
      obtain ⟨q₁, hq₁, hvq⟩ := getElem?_valueless hmore.lines.symm hq
      refine ⟨h1', ⟨q₁, hq₁, d, by rw [(valueless_fields hvq).1]; exact hd, hn, he⟩, ?_⟩
      rintro j r hj1 hj2 hr ⟨d', hd', hn'⟩
      obtain ⟨r₂, hr₂, hvr⟩ := getElem?_valueless hmore.lines hr
      exact h3 j r₂ hj1 hj2 hr₂ ⟨d', by rw [(valueless_fields hvr).1]; exact hd', hn'⟩
    have hne₁ : ¬ IsEqu l₁ := by
      rintro ⟨d, hd, hn⟩; exact hne ⟨d, by rw [hst]; exact hd, hn⟩
    have := (C39_layout h0 h1 hl₁).1 o v hlast₁ hlt hne₁
    have heq : l = l₁ := hsame k l₁ l hl₁ hl₂
      (by rw [← Bool.not_eq_true, isDir_iff]; exact hne₁)
    rw [heq, this, hs.2.1, hstate _ _ hmore.lines]
  · obtain ⟨l₀, hl₀, -, -, -, hdir, -⟩ := firstPass_line h1 hl₁
    obtain ⟨⟨pl, hpl, hps⟩, -⟩ := hI.line k l₀ hl₀
    refine ⟨pl, hpl, ?_⟩
    cases hp : pl.statement with
    | dir d =>
      simp only
      rw [hst]
      exact (hdir d).2 (hps.trans hp)
    | instr ins =>
      simp only
      cases hl1s : l₁.statement with
      | dir d =>
        have := (hdir d).1 hl1s
        rw [hps, hp] at this; cases this
      | instr j =>
        obtain ⟨-, l₀', i', hl₀', hi', -, hj, hji, hjb, hsz, -⟩ := C42_every_instruction_analysed h0 h1 hl₁ hl1s
        rw [hl₀] at hl₀'; cases hl₀'
        rw [hps, hp] at hi'; cases hi'
        refine ⟨j.mode, by rw [hst, hl1s, ← hj], fun h1 h2 => by rw [hji h1 h2], hjb, ?_⟩
        have e1 : j.mnemonic = ins.mnemonic := by rw [hj]
        have e2 : l.incoming = l₁.incoming := by
          have := congrArg Line.incoming hvl
          exact this.symm
        rw [← e1, e2]; exact hsz

/-! ## C47: jump targets -/

theorem fileItems_unique {file : List Str} {items items' : List Item} (h : FileItems file items)
    (h' : FileItems file items') : items = items' := by
  obtain ⟨p, hp, rfl⟩ := h
  obtain ⟨p', hp', rfl⟩ := h'
  congr 1
  induction hp generalizing p' with
  | nil => cases hp'; rfl
  | cons h1 _ ih =>
    cases hp' with
    | cons h1' h2' =>
      obtain ⟨ts, ht, hi⟩ := h1
      obtain ⟨ts', ht', hi'⟩ := h1'
      rw [ht] at ht'; cases ht'
      rw [hi] at hi'; cases hi'
      rw [ih _ h2']

/-- A line of the assembled files transfers control to `x`, given by number, with flags `g`. -/
def Transfer (files : List (List Str)) (a : Assembler) (externs : Ctx) (x : Nat)
    (g : StatusFlags) : Prop :=
  ∃ (i k : Nat) (file : List Str) (items : List Item) (m : Module) (l : Line) (ctx : Ctx),
    files[i]? = some file ∧ FileItems file items ∧ a.modules[i]? = some m ∧
    m.lines[k]? = some l ∧ Sees (program [] items) m externs k ctx ∧ TransfersTo ctx l x g

theorem transfersTo_mono {ctx ctx' : Ctx} (h : ∀ id v, ctx id = .ok v → ctx' id = .ok v) {l : Line}
    {x : Nat} {g : StatusFlags} (ht : TransfersTo ctx l x g) : TransfersTo ctx' l x g := by
  rcases ht with ⟨h1, h2, h3, h4⟩ | ⟨h1, h2, h3, h4, h5⟩ | ⟨h1, h2, h3⟩
  · exact .long h1 h2 h3 h4
  · exact .near h1 h2 h3 h4 h5
  · exact .remote h1 h2 (eval_mono h _ _ h3)

/-- The table of jump targets holds the transfers out of the assembly. -/
theorem reports_transfers {σ : Type} {fuel : Nat} {files : List (List Str)} {sink : Sink σ}
    {s s' : σ} {a : Assembler} {order : List Nat} {wss : List (List Writes)}
    (hA : Assembled fuel files sink s s' a order wss) :
    Reports a.jumpTargets (fun x g => a.contains x = false ∧
      Transfer files a (Assembler.lookup a.modules a.names) x g) := by
  have hrep := jumpTargets_holds a _ hA.targets
  have hT : ∀ x g, (∃ m ∈ a.modules, ∃ l ∈ m.lines,
      TransfersTo (m.lookup l.scopes (Assembler.lookup a.modules a.names)) l x g) ↔
      Transfer files a (Assembler.lookup a.modules a.names) x g := by
    intro x g
    have hN : ∀ (i : Nat) (m : Module), a.modules[i]? = some m → ∃ file items,
        files[i]? = some file ∧ FileItems file items ∧ Names (program [] items) m := by
      intro i m hm
      obtain ⟨f, m₀, m₁, m₂, externs, hf, h0, h1, h2, hs, -⟩ := hA.passes i m hm
      obtain ⟨items, hF, hI, -, -⟩ := loadAsmFile_ok h0
      obtain ⟨hmore, -, -⟩ := secondLoop_spec _ 0 m₁ m₂ h2
        (fun j l d _ => unvalued_first h0 h1 j l d)
      have hN₂ := names_more (names_firstPass (names_loaded hI) h1) hmore
      exact ⟨f, items, hf, hF,
        fun k l hl name t => by rw [hs.localIndex]; rw [hs.2.1] at hl; exact hN₂.locals k l hl name t,
        fun name t => by rw [hs.localIndex]; exact hN₂.globals name t⟩
    constructor
    · rintro ⟨m, hm, l, hl, ht⟩
      obtain ⟨i, hi⟩ := List.mem_iff_getElem?.1 hm
      obtain ⟨k, hk⟩ := List.mem_iff_getElem?.1 hl
      obtain ⟨f, items, hf, hF, hNm⟩ := hN i m hi
      exact ⟨i, k, f, items, m, l, _, hf, hF, hi, hk, fun id v => lookup_means hNm _ hk id v, ht⟩
    · rintro ⟨i, k, f, items, m, l, ctx, hf, hF, hi, hk, hS, ht⟩
      refine ⟨m, List.mem_of_getElem? hi, l, List.mem_of_getElem? hk, ?_⟩
      obtain ⟨f', items', hf', hF', hNm⟩ := hN i m hi
      rw [hf] at hf'; cases hf'
      rw [fileItems_unique hF hF'] at hS
      exact transfersTo_mono (fun id v hv => (lookup_means hNm _ hk id v).2 ((hS id v).1 hv)) ht
  exact hrep.congr (S' := fun x g => a.contains x = false ∧ Transfer files a _ x g)
    (fun x g => and_congr_right fun _ => hT x g)

/-- **Jump targets are the external ones**, for targets given by number.  An address is reported
exactly when it was not assembled and some line transfers control to it (or a `.remote` names
it); the flags reported describe every processor state the flags of one of these lines describe,
and are those flags if all the lines agree.

The full property is false: see `C47_violated`. -/
theorem C47_targets_partial {σ : Type} {fuel : Nat} {files : List (List Str)} {sink : Sink σ}
    {s s' : σ} {a : Assembler}
    (h : Assembler.assembleFiles fuel files sink s = (s', .ok a)) :
    ∃ externs : Ctx, Publishes a.modules externs ∧
      (∀ x, (∃ f, OMap.find a.jumpTargets x = some f) ↔
        a.contains x = false ∧ ∃ g, Transfer files a externs x g) ∧
      (∀ x f g, OMap.find a.jumpTargets x = some f → Transfer files a externs x g →
        ∀ (o : Meaning) (p : Cpu), p.Ok → FlagsDescribe o g p → FlagsDescribe o f p) ∧
      (∀ x f g, OMap.find a.jumpTargets x = some f → Normal g →
        (∀ g', Transfer files a externs x g' → g' = g) → f = g) := by
  obtain ⟨order, wss, hA⟩ := assembled h
  have hrep := reports_transfers hA
  refine ⟨_, assembled_publishes hA, fun x => ?_, fun x f g hf ht => ?_, fun x f g hf hn hall => ?_⟩
  · rw [hrep.keys]
    constructor
    · rintro ⟨g, h1, h2⟩; exact ⟨h1, g, h2⟩
    · rintro ⟨h1, g, h2⟩; exact ⟨g, h1, h2⟩
  · obtain ⟨g', hc, -⟩ := (hrep.keys x).1 ⟨f, hf⟩
    exact hrep.covers x f g hf ⟨hc, ht⟩
  · exact hrep.tight x f g hf hn fun g' hg' => hall g' hg'.2

/-- Two calls of the same external routine, in states that differ, a `.remote`, and a call of a
routine that is part of the assembly. -/
example : ∃ (ws : Writes) (a : Assembler), Assembler.assembleFiles 30
      [[cs!" .org $8000", cs!" .entry m8x8", cs!" jsl $c12345", cs!" rep #$20", cs!" jsl $c12345",
        cs!" jsr $8000", cs!" rts", cs!" .remote $d00000 m16x16"]]
      recorder [] = (ws, .ok a) ∧
    a.jumpTargets =
      [(0xc12345, ⟨.off, .unknown, .on, .unknown⟩), (0xd00000, ⟨.off, .off, .off, .unknown⟩)] := by
  obtain ⟨ws, a, h, hc⟩ := assembles_of_check (fuel := 30) (files :=
      [[cs!" .org $8000", cs!" .entry m8x8", cs!" jsl $c12345", cs!" rep #$20", cs!" jsl $c12345",
        cs!" jsr $8000", cs!" rts", cs!" .remote $d00000 m16x16"]])
    (fun ws a => decide (a.jumpTargets =
      [(0xc12345, ⟨.off, .unknown, .on, .unknown⟩), (0xd00000, ⟨.off, .off, .off, .unknown⟩)]))
    (by decide +kernel)
  exact ⟨ws, a, h, by simpa using hc⟩

/-- The full property is false: a call of an external routine whose address has a name is not
reported.  Here line 2, at $8000, is `jsl @far`, with `far` standing for $c12345. -/
theorem C47_violated : ∃ (ws : Writes) (a : Assembler) (m : Module) (l : Line) (i : Instruction),
    Assembler.assembleFiles 30
      [[cs!" .org $8000", cs!" .entry m8x8", cs!" jsl @far", cs!" rts", cs!"far .equ $c12345"]]
      recorder [] = (ws, .ok a) ∧
    a.modules[0]? = some m ∧ m.lines[2]? = some l ∧ l.statement = .instr i ∧
    i.mnemonic = .jsl ∧ i.mode = .dir_l ∧
    i.arg1.eval (m.lookup l.scopes (Assembler.lookup a.modules a.names)) = .ok 0xc12345 ∧
    a.contains 0xc12345 = false ∧ OMap.find a.jumpTargets 0xc12345 = none := by
  obtain ⟨ws, a, h, hc⟩ := assembles_of_check (fuel := 30) (files :=
      [[cs!" .org $8000", cs!" .entry m8x8", cs!" jsl @far", cs!" rts", cs!"far .equ $c12345"]])
    (fun _ a => match a.modules[0]? with
      | some m => match m.lines[2]? with
        | some l => match l.statement with
          | .instr i => decide (i.mnemonic = .jsl ∧ i.mode = .dir_l ∧
              i.arg1.eval (m.lookup l.scopes (Assembler.lookup a.modules a.names)) = .ok 0xc12345 ∧
              a.contains 0xc12345 = false ∧ OMap.find a.jumpTargets 0xc12345 = none)
          | .dir _ => false
        | none => false
      | none => false)
    (by decide +kernel)
  split at hc
  · next m hm =>
    split at hc
    · next l hl =>
      split at hc
      · next i hi => exact ⟨ws, a, m, l, i, h, hm, hl, hi, of_decide_eq_true hc⟩
      · cases hc
    · cases hc
  · cases hc

end Nsasm.Props
