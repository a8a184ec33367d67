import Verif.Spec.Simulate
import Verif.Props.Run
import Verif.Props.Link
import Verif.Props.Instruction
import Verif.Props.Rom
import Verif.Props.Tools
import Verif.Lemmas.Relist

/-! # The assembled program on the processor -/

namespace Nsasm.Props
open Nsasm Nsasm.Spec

/-! ## Where lines stand -/

theorem standsAt_lt {lines : List Line} {k x : Nat} (h : StandsAt lines k x) : x < 0x1000000 := by
  obtain ⟨o, v, -, h1, h2⟩ := h
  unfold place at h2
  omega

theorem bytesBetween_succ {lines : List Line} {o k : Nat} {l : Line} (ho : o ≤ k) (hl : lines[k]? = some l) :
    bytesBetween lines o (k + 1) = bytesBetween lines o k + l.statement.serializedSize := by
  unfold bytesBetween
  rw [List.take_succ, hl, Option.toList_some, List.drop_append]
  have hk : k < lines.length := (List.getElem?_eq_some_iff.mp hl).1
  have : o - (lines.take k).length = 0 := by simp; omega
  rw [this]
  simp

theorem standsAt_next {lines : List Line} {k x : Nat} {l : Line} (h : StandsAt lines k x) (hl : lines[k]? = some l)
    (hn : ∀ l', lines[k + 1]? = some l' → ¬ IsOrg l') :
    StandsAt lines (k + 1) (Address.addWrapped x l.statement.serializedSize) := by
  have hx := standsAt_lt h
  obtain ⟨o, v, ⟨h1, h2, h3⟩, hv, hp⟩ := h
  refine ⟨o, v, ⟨by omega, h2, ?_⟩, hv, ?_⟩
  · intro k' l' hk1 hk2 hl'
    by_cases e : k' = k + 1
    · subst e; exact hn l' hl'
    · exact h3 k' l' hk1 (by omega) hl'
  · rw [bytesBetween_succ h1 hl]
    unfold Address.addWrapped place at *
    omega

theorem lastOrg {lines : List Line} : ∀ (i : Nat), (∃ (k : Nat) (q : Line), k ≤ i ∧ lines[k]? = some q ∧ IsOrg q) →
    ∃ (o : Nat) (q : Line), o ≤ i ∧ lines[o]? = some q ∧ IsOrg q ∧ ∀ (k : Nat) (l : Line), o < k → k ≤ i → lines[k]? = some l → ¬ IsOrg l := by
  intro i
  induction i with
  | zero =>
    rintro ⟨k, q, hk, hq, ho⟩
    exact ⟨k, q, hk, hq, ho, fun k' l h1 h2 => by omega⟩
  | succ i ih =>
    rintro ⟨k, q, hk, hq, ho⟩
    by_cases h : ∃ q, lines[i + 1]? = some q ∧ IsOrg q
    · obtain ⟨q', hq', ho'⟩ := h
      exact ⟨i + 1, q', Nat.le_refl _, hq', ho', fun k' l h1 h2 => by omega⟩
    · have hki : k ≤ i := by
        by_contra hc
        have : k = i + 1 := by omega
        subst this
        exact h ⟨q, hq, ho⟩
      obtain ⟨o, q', h1, h2, h3, h4⟩ := ih ⟨k, q, hki, hq, ho⟩
      refine ⟨o, q', by omega, h2, h3, fun k' l hk1 hk2 hl hol => ?_⟩
      by_cases e : k' = i + 1
      · subst e; exact h ⟨l, hl, hol⟩
      · exact h4 k' l hk1 (by omega) hl hol

theorem layout_sets {ls : List Line} : ∀ {pc : Option Addr} {ls' : List Line},
    Module.layout pc ls = .ok ls' → ∀ l ∈ ls', IsOrg l → ∃ v, SetsOrigin l v := by
  induction ls with
  | nil => intro pc ls' h; simp [Module.layout] at h; subst h; simp
  | cons x ls ih =>
    intro pc ls' h l hl ho
    obtain ⟨o, x', r, pc', rfl, h1, h2, h3, -, -⟩ := layout_cons h
    rcases List.mem_cons.1 hl with rfl | hl
    · obtain ⟨d, hd, hn⟩ := ho
      obtain ⟨d', a, e1, e2, -, -⟩ := (originAt_spec h1).1 ⟨d, h3 ▸ hd, hn⟩
      rw [h3, e1] at hd
      cases hd
      exact ⟨_, d, by rw [h3, e1], hn, e2⟩
    · exact ih h2 l hl ho

theorem layout_nonneg {ls : List Line} : ∀ {pc : Option Addr} {ls' : List Line},
    Module.layout pc ls = .ok ls' → ∀ l ∈ ls', ∀ v, SetsOrigin l v → 0 ≤ v := by
  induction ls with
  | nil => intro pc ls' h; simp [Module.layout] at h; subst h; simp
  | cons x ls ih =>
    intro pc ls' h l hl v ho
    obtain ⟨o, x', r, pc', rfl, h1, h2, h3, -, -⟩ := layout_cons h
    rcases List.mem_cons.1 hl with rfl | hl
    · obtain ⟨d, hd, hn, hv⟩ := ho
      obtain ⟨d', a, e1, e2, -, -⟩ := (originAt_spec h1).1 ⟨d, h3 ▸ hd, hn⟩
      rw [h3, e1] at hd
      cases hd
      rw [e2] at hv
      cases hv
      omega
    · exact ih h2 l hl v ho

/-- A line with a value that is not an `.equ` has it as its address. -/
theorem standsAt_of_value {file : List Str} {fuel : Nat} {m m' : Module} (hm : Module.loadAsmFile file = .ok m)
    (h : m.runFirstPass fuel = .ok m') (ho : ProperOrigins m'.lines) {k : Nat} {l : Line}
    (hl : m'.lines[k]? = some l) {v : Int} (hv : l.value = some v) (he : ¬ IsEqu l) :
    ∃ x : Nat, StandsAt m'.lines k x ∧ v = (x : Int) := by
  obtain ⟨h1, h2, -⟩ := C39_layout hm h hl
  have : ∃ (k' : Nat) (q : Line), k' ≤ k ∧ m'.lines[k']? = some q ∧ IsOrg q := by
    by_contra hc
    have := (h2 fun k' q hk hq ho => hc ⟨k', q, hk, hq, ho⟩).2
    rw [this] at hv; cases hv
  obtain ⟨o, q, ho1, hq, hoq, hbet⟩ := lastOrg k this
  have hset : ∃ w, SetsOrigin q w := by
    obtain ⟨p, l1, l2, -, -, hlay, rfl⟩ := firstPass_parts h
    exact layout_sets hlay q (List.mem_of_getElem? hq) hoq
  obtain ⟨w, hw⟩ := hset
  have hlt := ho q (List.mem_of_getElem? hq) w hw
  have hO : LastOrigin m'.lines k o w := ⟨ho1, ⟨q, hq, hw⟩, hbet⟩
  have hp := h1 o w hO hlt he
  rw [hv] at hp
  cases hp
  have hw0 : 0 ≤ w := by
    obtain ⟨p, l1, l2, -, -, hlay, rfl⟩ := firstPass_parts h
    obtain ⟨d, hd, hn, he⟩ := hw
    exact layout_nonneg hlay q (List.mem_of_getElem? hq) w ⟨d, hd, hn, he⟩
  have hp0 : 0 ≤ place w (bytesBetween m'.lines o k) := by unfold place; omega
  exact ⟨(place w (bytesBetween m'.lines o k)).toNat, ⟨o, w, hO, hlt, Int.toNat_of_nonneg hp0⟩, (Int.toNat_of_nonneg hp0).symm⟩

/-! ## What the image holds -/

/-- The bytes of the module's instructions are in the source; `ctx k` gives the names on line `k`. -/
structure Image (src : Source) (m' : Module) (ctx : Nat → Ctx) : Prop where
  bytes : ∀ (k : Nat) (l : Line) (j : Instruction), m'.lines[k]? = some l → l.statement = .instr j →
    ∀ x, StandsAt m'.lines k x → ∃ bs, j.assembleBytes x (ctx k) = .ok bs ∧
      ∀ n, n < bs.length → ∃ r, src (wrapped x n) 4 = .ok r ∧ (∀ i b, bs[n + i]? = some b → i < 4 → r[i]? = some b) ∧ r.length = 4
  label : ∀ (k t : Nat) (l q : Line) (name : Str) (v : Int), m'.lines[k]? = some l → m'.localIndex name l.scopes = some t →
    m'.lines[t]? = some q → ¬ IsEqu q → ctx k ⟨none, name⟩ = .ok v → q.value = some v

theorem instructionLength_pos (a : Mode) (h1 : a ≠ .imm_fm) (h2 : a ≠ .imm_fx) : 0 < instructionLength a := by
  cases a <;> first | decide | exact absurd rfl h1 | exact absurd rfl h2

theorem stored_mem {ws : Writes} {x : Nat} {bs : List UInt8} (h : (x, bs) ∈ ws) {n : Nat} {b : UInt8}
    (hb : bs[n]? = some b) : (wrapped x n, b) ∈ Spec.stored ws := by
  unfold Spec.stored
  rw [List.mem_flatMap]
  refine ⟨_, h, List.mem_map.2 ⟨(b, n), ?_, rfl⟩⟩
  exact List.mk_mem_zipIdx_iff_getElem?.2 hb

theorem image_of_assembly {fuel : Nat} {files : List (List Str)} {ws : Writes} {a : Assembler}
    (h : Assembles fuel files ws a) {rom : Rom} (hin : InRom rom ws) (hread : FourReadable rom.read ws)
    {n : Nat} {file : List Str} (hf : files[n]? = some file) {m m' : Module}
    (hm : Module.loadAsmFile file = .ok m) (h1 : m.runFirstPass fuel = .ok m')
    {M : Module} (hM : a.modules[n]? = some M) :
    Image rom.read m' (fun k => match M.lines[k]? with
      | some l => M.lookup l.scopes (Assembler.lookup a.modules a.names)
      | none => nullCtx) := by
  obtain ⟨order, wss, hA⟩ := assembled h
  obtain ⟨f, m₀, m₁, m₂, externs, hf', h0, h1', h2, hs, -⟩ := hA.passes n M hM
  rw [hf] at hf'; cases hf'
  rw [hm] at h0; cases h0
  rw [h1] at h1'; cases h1'
  obtain ⟨hmore, -, hkeep⟩ := secondLoop_spec _ 0 m' m₂ h2 (fun j l d _ => unvalued_first hm h1 j l d)
  have hline : ∀ (k : Nat) (l : Line), m'.lines[k]? = some l → ∃ L, M.lines[k]? = some L ∧
      L.statement = l.statement ∧ L.scopes = l.scopes ∧ (¬ IsEqu l → L = l) := by
    intro k l hl
    obtain ⟨l', hl', hv⟩ := getElem?_valueless hmore.lines hl
    obtain ⟨e1, -, e3, -⟩ := valueless_fields hv
    refine ⟨l', by rw [hs.2.1]; exact hl', e1, e3, fun he => hkeep k l l' hl hl' ?_⟩
    rw [← Bool.not_eq_true, isDir_iff]
    exact he
  constructor
  · intro k l j hl hj x hx
    obtain ⟨L, hL, e1, e2, e3⟩ := hline k l hl
    have hne : ¬ IsEqu l := by rintro ⟨d, hd, -⟩; rw [hj] at hd; cases hd
    obtain rfl := e3 hne
    simp only [hL]
    -- the writes of the line
    obtain ⟨w, hw, hlw⟩ : ∃ w, (∀ y ∈ w, y ∈ ws) ∧ LineWrites (M.lookup L.scopes (Assembler.lookup a.modules a.names)) L w := by
      have hmem : n ∈ order := by
        refine hA.perm.mem_iff.2 (List.mem_range.2 ?_)
        exact (List.getElem?_eq_some_iff.mp hf).1
      obtain ⟨q, hq⟩ := List.mem_iff_getElem?.1 hmem
      have hlen := hA.writes.length_eq
      have hq' : q < wss.length := by rw [← hlen]; exact (List.getElem?_eq_some_iff.mp hq).1
      obtain ⟨n', hn', M', hM', hlw⟩ := forall2_getElem? hA.writes (List.getElem?_eq_getElem hq')
      rw [hq] at hn'; cases hn'
      rw [hM] at hM'; cases hM'
      have hk' : k < (wss[q]).length := by rw [← hlw.length_eq]; exact (List.getElem?_eq_some_iff.mp hL).1
      obtain ⟨L', hL', hw⟩ := forall2_getElem? hlw (List.getElem?_eq_getElem hk')
      rw [hL] at hL'; cases hL'
      refine ⟨_, fun y hy => ?_, hw⟩
      have hws : ws = wss.flatten.flatten := by
        have := feeds_recorder_eq hA.feeds
        simpa using this
      rw [hws]
      exact List.mem_flatten.2 ⟨_, List.mem_flatten.2 ⟨_, List.getElem_mem hq', List.getElem_mem hk'⟩, hy⟩
    rcases hlw with ⟨hz, -⟩ | ⟨y, bs, hy, hbs, hlen, -, rfl⟩
    · exfalso
      obtain ⟨-, -, -, -, -, -, -, -, -, -, g1, g2, -⟩ := C42_every_instruction_analysed hm h1 hl hj
      rw [hj] at hz
      have := instructionLength_pos j.mode g1 g2
      simp only [Statement.serializedSize, Instruction.serializedSize] at hz
      omega
    · have hylt := standsAt_lt hx
      obtain ⟨o, v, hO, hv, hp⟩ := hx
      have hval := (C39_layout hm h1 hl).1 o v hO hv hne
      rw [hy, ← hp] at hval
      have hyx : y = x := by injection hval with hval; omega
      subst hyx
      rw [hj] at hbs
      simp only [Statement.assembleBytes] at hbs
      obtain ⟨bs', hbs', hbs⟩ := Res.bind_eq_ok.mp hbs
      cases hbs
      refine ⟨bs, hbs', fun n hn => ?_⟩
      have hst := fun i b (hb : bs[i]? = some b) => stored_mem (hw (y, bs) (by simp)) hb
      obtain ⟨r, hr⟩ := hread _ _ (hst n _ (List.getElem?_eq_getElem hn))
      have hw24 : wrapped y n < 0x1000000 := by unfold wrapped; have := hylt; omega
      obtain ⟨hr1, hr2⟩ := (C29_read_partial rom hw24 (n := 4) (by omega) r).1 hr
      refine ⟨r, hr, fun i b hb hi => ?_, hr1⟩
      obtain ⟨off, ho1, ho2⟩ := hin _ _ (hst _ _ hb)
      obtain ⟨off', ho1', ho2'⟩ := hr2 i (by omega)
      have e : wrapped y n / 0x10000 * 0x10000 + (wrapped y n + i) % 0x10000 = wrapped y (n + i) := by
        unfold wrapped; omega
      rw [e, ho1] at ho1'
      cases ho1'
      rw [ho2] at ho2'
      rw [List.getElem?_eq_getElem (by omega)]
      exact ho2'.symm
  · intro k t l q name v hl ht hq hne hv
    obtain ⟨L, hL, e1, e2, -⟩ := hline k l hl
    obtain ⟨Q, hQ, -, -, e3⟩ := hline t q hq
    obtain rfl := e3 hne
    simp only [hL, Module.lookup] at hv
    rw [hs.localIndex, hmore.localIndex, e2, ht] at hv
    simp only [Module.localLookup, hQ] at hv
    cases hqv : Q.value with
    | none => rw [hqv] at hv; cases hv
    | some w => rw [hqv] at hv; cases hv; rfl

/-! ## Fetching -/

theorem sizeAgrees_actual {mn : Mnemonic} {md : Mode} {p : Cpu} (h : SizeRight mn md p) :
    SizeAgrees mn md (actualFlags p) := by
  unfold actualFlags
  refine ⟨fun hM => ⟨fun e => ?_, fun e => ?_⟩, fun hX => ⟨fun e => ?_, fun e => ?_⟩⟩
  · simp [(h.1 hM).1 e]
  · simp [(h.1 hM).2 e]
  · simp [(h.2 hX).1 e]
  · simp [(h.2 hX).2 e]

theorem encoded {j : Instruction} {x : Addr} {ctx : Ctx} {bs : List UInt8} (h : j.assembleBytes x ctx = .ok bs) :
    ∃ op, encodeOpcode (realMnemonic j.mnemonic) j.mode = some op := by
  have e : (if j.mnemonic = .padd then Mnemonic.adc else if j.mnemonic = .psub then .sbc else j.mnemonic) =
      realMnemonic j.mnemonic := by
    unfold realMnemonic
    cases j.mnemonic <;> rfl
  unfold Instruction.assembleBytes at h
  rw [e] at h
  cases ho : encodeOpcode (realMnemonic j.mnemonic) j.mode with
  | some op => exact ⟨op, rfl⟩
  | none => simp only [ho] at h; cases h

theorem bytes_length {j : Instruction} {x : Addr} {ctx : Ctx} {bs : List UInt8} (h : j.assembleBytes x ctx = .ok bs) :
    bs.length = j.serializedSize := by
  rcases C05_assemble_writes_declared_size j x ctx with ⟨bs', hl, hw⟩ | ⟨r, hr, hw⟩
  · have h1 := hw _ logSink []
    rw [assemble_log.2 h] at h1
    simp [logSink] at h1
    rw [h1]; exact hl
  · have h1 := hw _ logSink []
    rw [assemble_log.2 h] at h1
    simp at h1

theorem instructionLength_le (a : Mode) : instructionLength a ≤ 4 := by cases a <;> decide

theorem prefix_of {bs r : List UInt8} (h : ∀ i b, bs[i]? = some b → i < 4 → r[i]? = some b) (hl : bs.length ≤ 4) :
    ∃ rest, r = bs ++ rest := by
  refine ⟨r.drop bs.length, ?_⟩
  have : r.take bs.length = bs := by
    apply List.ext_getElem?
    intro i
    rw [List.getElem?_take]
    split
    · next hi => rw [h i bs[i] (List.getElem?_eq_getElem hi) (by omega), List.getElem?_eq_getElem hi]
    · next hi => rw [List.getElem?_eq_none (by omega)]
  conv_lhs => rw [← List.take_append_drop bs.length r, this]

/-- The processor finds the instruction that was assembled. -/
theorem fetches_real {src : Source} {m' : Module} {ctx : Nat → Ctx} (hI : Image src m' ctx) {k x : Nat} {l : Line}
    {j : Instruction} (hl : m'.lines[k]? = some l) (hj : l.statement = .instr j) (hx : StandsAt m'.lines k x)
    (hm1 : j.mode ≠ .imm_fm) (hm2 : j.mode ≠ .imm_fx)
    (hreal : j.mnemonic ≠ .padd ∧ j.mnemonic ≠ .psub) {p : Cpu} (hs : SizeRight j.mnemonic j.mode p) :
    ∃ jj, Fetches src x p jj ∧ jj.mnemonic = j.mnemonic ∧ jj.mode = j.mode ∧ OperandsMatch x (ctx k) j jj := by
  obtain ⟨bs, hbs, hb⟩ := hI.bytes k l j hl hj x hx
  have hlen := bytes_length hbs
  simp only [Instruction.serializedSize, hreal, or_self, if_false, Nat.add_zero] at hlen
  have hpos := instructionLength_pos j.mode hm1 hm2
  obtain ⟨r, hr, hpre, -⟩ := hb 0 (by omega)
  have hlt := standsAt_lt hx
  have e0 : wrapped x 0 = x := by unfold wrapped; omega
  rw [e0] at hr
  simp only [Nat.zero_add] at hpre
  obtain ⟨rest, rfl⟩ := prefix_of hpre (by rw [hlen]; exact instructionLength_le _)
  obtain ⟨jj, h1, h2, h3, h4⟩ := C06_decode_assembled j x hlt (ctx k) bs rest (actualFlags p) hreal
    (sizeAgrees_actual hs) (assemble_log.2 hbs)
  exact ⟨jj, ⟨_, hr, h1⟩, h2, h3, h4⟩

theorem decode_lead {b : UInt8} {r : List UInt8} {f : StatusFlags} {mn : Mnemonic}
    (h : decode (b :: r) f = .ok ⟨mn, .none, .imp, .null, .null, .default⟩) (r' : List UInt8) :
    decode (b :: r') f = .ok ⟨mn, .none, .imp, .null, .null, .default⟩ := by
  unfold decode at h ⊢
  rcases hd : decodeOpcode b with ⟨mn', md⟩
  simp only [hd] at h ⊢
  obtain ⟨md', h1, h⟩ := Res.bind_eq_ok.mp h
  obtain ⟨⟨a1, a2⟩, h2, h⟩ := Res.bind_eq_ok.mp h
  simp only [Res.ok.injEq, Instruction.mk.injEq] at h
  obtain ⟨rfl, -, rfl, rfl, rfl, -⟩ := h
  have hmd : md = .imp := by
    split at h1
    · split at h1 <;> cases h1
    · cases h1; rfl
  subst hmd
  rfl

/-- A pseudo-op: two instructions. -/
theorem fetches_pseudo {src : Source} {m' : Module} {ctx : Nat → Ctx} (hI : Image src m' ctx) {k x : Nat} {l : Line}
    {j : Instruction} (hl : m'.lines[k]? = some l) (hj : l.statement = .instr j) (hx : StandsAt m'.lines k x)
    (hm1 : j.mode ≠ .imm_fm) (hm2 : j.mode ≠ .imm_fx)
    (hps : j.mnemonic = .padd ∨ j.mnemonic = .psub) {p : Cpu} (hs : SizeRight j.mnemonic j.mode p) :
    Fetches src x p ⟨leadIn j.mnemonic, .none, .imp, .null, .null, .default⟩ ∧
    ∀ c, ∃ jj, Fetches src (wrapped x 1) { p with c := c } jj ∧ jj.mnemonic = realMnemonic j.mnemonic ∧ jj.mode = j.mode ∧
      OperandsMatch x (ctx k) { j with mnemonic := realMnemonic j.mnemonic } jj := by
  obtain ⟨bs, hbs, hb⟩ := hI.bytes k l j hl hj x hx
  have hlen := bytes_length hbs
  simp only [Instruction.serializedSize, hps, if_true] at hlen
  have hpos := instructionLength_pos j.mode hm1 hm2
  have hlt := standsAt_lt hx
  have e0 : wrapped x 0 = x := by unfold wrapped; omega
  obtain ⟨b, bs', rfl, hd, has⟩ := C06_pseudo_op j x (ctx k) bs [] (actualFlags p) hps (assemble_log.2 hbs)
  constructor
  · obtain ⟨r, hr, hpre, hrl⟩ := hb 0 (by omega)
    rw [e0] at hr
    have h0 := hpre 0 b (by simp) (by omega)
    cases r with
    | nil => simp at h0
    | cons b' r =>
      simp at h0
      subst h0
      refine ⟨_, hr, ?_⟩
      exact decode_lead (by simpa using hd) r
  · intro c
    obtain ⟨r, hr, hpre, hrl⟩ := hb 1 (by omega)
    have hpre' : ∀ i b, bs'[i]? = some b → i < 4 → r[i]? = some b := by
      intro i b hb hi
      exact hpre i b (by rw [Nat.add_comm]; simpa using hb) hi
    simp only [List.length_cons] at hlen
    have h4 := instructionLength_le j.mode
    obtain ⟨rest, rfl⟩ := prefix_of hpre' (by omega)
    have hag : SizeAgrees (realMnemonic j.mnemonic) j.mode (actualFlags { p with c := c }) := by
      have h5 := sizeAgrees_actual hs
      have hM : SizedByM j.mnemonic := by rcases hps with h | h <;> rw [h] <;> decide
      refine ⟨fun _ => h5.1 hM, fun h => ?_⟩
      rcases hps with h' | h' <;> rw [h'] at h <;> exact absurd h (by decide)
    obtain ⟨jj, h1, h2, h3, h4⟩ := C06_decode_assembled { j with mnemonic := realMnemonic j.mnemonic } x hlt (ctx k) bs' rest _
      (by rcases hps with h | h <;> simp [h, realMnemonic]) hag has
    exact ⟨jj, ⟨_, hr, h1⟩, h2, h3, h4⟩

theorem operandsMatch_mono {x : Addr} {ctx₀ ctx : Ctx} (h : ∀ id v, ctx₀ id = .ok v → ctx id = .ok v) {i j : Instruction}
    (hm : OperandsMatch x ctx₀ i j) : OperandsMatch x ctx i j := by
  unfold OperandsMatch at hm ⊢
  split_ifs at hm ⊢ with h1 h2
  · obtain ⟨t, o, e1, e2⟩ := hm
    exact ⟨t, o, eval_mono h _ _ e1, e2⟩
  · obtain ⟨v1, v2, e1, e2, e3⟩ := hm
    exact ⟨v1, v2, eval_mono h _ _ e1, eval_mono h _ _ e2, e3⟩
  · rcases hm with hm | ⟨v, e1, e2⟩
    · exact .inl hm
    · exact .inr ⟨v, eval_mono h _ _ e1, e2⟩

/-! ## The simulation -/

theorem runsFrom_runs {m : Module} {ctx : Nat → Ctx} {i k : Nat} {p : Cpu} (h : RunsFrom m ctx i k p) : Runs m ctx k p := by
  induction h with
  | start entry ok agrees => exact .start entry ok agrees
  | move _ mv ih => exact .move ih mv

theorem follows_operand {mn : Mnemonic} (h1 : mn ≠ .rep) (h2 : mn ≠ .sep) {o : UInt8} (o' : UInt8)
    {ret : ReturnConvention} {p q : Cpu} (h : Follows mn o ret p q) : Follows mn o' ret p q := by
  cases mn <;> first | exact h | exact absurd rfl h1 | exact absurd rfl h2

theorem byteOf_field (v : Int) : byteOf (fieldValue 1 v) = byteOf v := by
  unfold byteOf fieldValue
  simp

theorem rep_mode {md : Mode} {mn : Mnemonic} (hm : mn = .rep ∨ mn = .sep) (h : ∃ op, encodeOpcode mn md = some op) :
    md = .imm_b := by
  obtain ⟨op, h⟩ := h
  have key : ∀ mn ∈ [Mnemonic.rep, Mnemonic.sep], ∀ md : Mode, (encodeOpcode mn md).isSome → md = .imm_b := by
    intro mn hmn md
    simp only [List.mem_cons, List.not_mem_nil, or_false] at hmn
    rcases hmn with rfl | rfl <;> cases md <;> decide +kernel
  exact key mn (by rcases hm with rfl | rfl <;> decide) md (by rw [h]; rfl)

theorem rel_real {md : Mode} (hr : md = .rel8 ∨ md = .rel16) {mn : Mnemonic} (h : ∃ op, encodeOpcode (realMnemonic mn) md = some op) :
    mn ≠ .padd ∧ mn ≠ .psub := by
  obtain ⟨op, h⟩ := h
  have key : ∀ mn ∈ [Mnemonic.padd, Mnemonic.psub], ∀ md ∈ [Mode.rel8, Mode.rel16], encodeOpcode (realMnemonic mn) md = none := by
    decide +kernel
  constructor <;> rintro rfl
  · rw [key _ (by decide) md (by rcases hr with rfl | rfl <;> decide)] at h; cases h
  · rw [key _ (by decide) md (by rcases hr with rfl | rfl <;> decide)] at h; cases h

/-- The operand byte that the processor finds. -/
def fetchedOperand (jj : Instruction) : UInt8 :=
  match jj.arg1.eval nullCtx with
  | .ok v => byteOf v
  | _ => 0

theorem fetchedOperand_spec (jj : Instruction) (v : Int) (h : jj.arg1.eval nullCtx = .ok v) : fetchedOperand jj = byteOf v := by
  simp [fetchedOperand, h]

theorem simple_eval {e : Expr} {name : Str} (h : e.simpleIdentifier = some name) {ctx : Ctx} {v : Int}
    (hv : e.eval ctx = .ok v) : ctx ⟨none, name⟩ = .ok v := by
  cases e with
  | ident id t =>
    simp only [Expr.simpleIdentifier] at h
    rcases id with ⟨md, nm⟩
    cases md with
    | some _ => simp at h
    | none =>
      simp at h
      subst h
      simp only [Expr.eval] at hv
      cases hcx : ctx ⟨none, nm⟩ with
      | ok w => rw [hcx] at hv; simpa [Res.ofExcept] using hv
      | error e => rw [hcx] at hv; simp [Res.ofExcept] at hv
  | _ => simp [Expr.simpleIdentifier] at h

theorem fetches_unique {src : Source} {x : Addr} {p : Cpu} {j j' : Instruction} (h : Fetches src x p j)
    (h' : Fetches src x p j') : j = j' := by
  obtain ⟨bs, h1, h2⟩ := h
  obtain ⟨bs', h1', h2'⟩ := h'
  rw [h1] at h1'; cases h1'
  rw [h2] at h2'; cases h2'
  rfl

theorem simulates {file : List Str} {fuel : Nat} {m m' : Module}
    (hm : Module.loadAsmFile file = .ok m) (h1 : m.runFirstPass fuel = .ok m')
    (hc : Consistent m m') (ht : StackTame m') (horg : ProperOrigins m'.lines) (hcode : BranchesToCode m)
    {src : Source} {ctx₀ : Nat → Ctx} (hI : Image src m' ctx₀) {ret : Addr → ReturnConvention}
    (hret : KeepsReturns m'.lines ret) {ctx : Nat → Ctx} (hctx : ∀ k id v, ctx₀ k id = .ok v → ctx k id = .ok v)
    {i start : Nat} {f : StatusFlags} (entry : DeclaresEntry m i f) (hstart : StandsAt m'.lines (i + 1) start)
    {k : Nat} {p : Cpu} (hrun : RunsFrom m ctx i k p) :
    ∃ x, StandsAt m'.lines k x ∧ CodeRuns src ret start f x p := by
  induction hrun with
  | @start f' p entry' ok agrees =>
    obtain ⟨l, d, a1, a2, a3, a4⟩ := entry
    obtain ⟨l', d', b1, b2, b3, b4⟩ := entry'
    rw [a1] at b1; cases b1
    rw [a2] at b2; cases b2
    subst a4 b4
    exact ⟨start, hstart, .start ok agrees⟩
  | @move k k' p q before mv ih =>
    obtain ⟨x, hx, hcr⟩ := ih
    have hR := (run_described hm h1 hc ht (runsFrom_runs before)).1
    obtain ⟨l, hl, -, hsize⟩ := C41_sizes_right_partial hm h1 hc ht (runsFrom_runs before)
    have hdata : ¬ IsData l.statement := by
      obtain ⟨l', hl', -, hd⟩ := C56_never_into_data hm h1 hR
      rw [hl] at hl'; cases hl'; exact hd
    have hR' := (run_described hm h1 hc ht (.move (runsFrom_runs before) mv)).1
    obtain ⟨l', hl', -, hdata'⟩ := C56_never_into_data hm h1 hR'
    have hnorg : ¬ IsOrg l' := by
      rintro ⟨d, hd, hn⟩
      exact hdata' (by rw [hd]; simp [IsData, hn])
    obtain ⟨l₀', hl₀', hlab, hscopes, -, hdir, -⟩ := firstPass_line h1 hl
    have hlt := standsAt_lt hx
    cases mv with
    | @next l₀ i₀ _ _ operand line instr goesOn assembled executes =>
      rw [line] at hl₀'; cases hl₀'
      obtain ⟨j, hj⟩ : ∃ j, l.statement = .instr j := by
        cases hs : l.statement with
        | instr j => exact ⟨j, rfl⟩
        | dir d => rw [(hdir d).1 hs] at instr; cases instr
      obtain ⟨-, l₁, i₁, g1, g2, -, g3, -, -, -, g4, g5, -⟩ := C42_every_instruction_analysed hm h1 hl hj
      rw [line] at g1; cases g1
      rw [instr] at g2; cases g2
      have ej : j.mnemonic = i₀.mnemonic ∧ j.arg1 = i₀.arg1 ∧ j.ret = i₀.ret := by rw [g3]; exact ⟨rfl, rfl, rfl⟩
      obtain ⟨ej1, ej2, ej3⟩ := ej
      have hnext := standsAt_next hx hl (fun l'' h'' => by rw [hl'] at h''; cases h''; exact hnorg)
      refine ⟨_, hnext, ?_⟩
      rw [instr] at goesOn
      simp only [Stops, not_or] at goesOn
      have hrx := hret.written k l j x hl hj hx
      by_cases hps : j.mnemonic = .padd ∨ j.mnemonic = .psub
      · obtain ⟨hf1, hf2⟩ := fetches_pseudo hI hl hj hx g4 g5 hps (hsize j hj)
        have hr1 := (hret.pseudo k l j x hl hj hx hps).2
        obtain ⟨c, hq⟩ : ∃ c, q = { p with c := c } := by
          rw [← ej1] at executes
          rcases hps with h | h <;> rw [h] at executes <;> exact executes
        obtain ⟨c0, hc0⟩ : ∃ c0, Follows (leadIn j.mnemonic) 0 (ret x) p { p with c := c0 } := by
          rcases hps with h | h <;> rw [h]
          · exact ⟨false, rfl⟩
          · exact ⟨true, rfl⟩
        obtain ⟨jj, hf2, e1, e2, -⟩ := hf2 c0
        have s1 := CodeRuns.next (operand := 0) hcr hf1
          (by
            simp only [Stops, not_or]
            refine ⟨?_, ?_⟩
            · rcases hps with h | h <;> rw [h] <;> decide
            · rw [hrx, ej3]; exact goesOn.2)
          (by intro v hv; cases hv) hc0
        have efol : following x ⟨leadIn j.mnemonic, .none, .imp, .null, .null, .default⟩ = wrapped x 1 :=
          wrapped_eq hlt 1
        rw [efol] at s1
        have s2 := CodeRuns.next (operand := fetchedOperand jj) (q := q) s1 hf2
          (by
            simp only [Stops, not_or]
            refine ⟨?_, ?_⟩
            · rw [e1]; rcases hps with h | h <;> rw [h] <;> decide
            · rw [hr1]; simp)
          (fetchedOperand_spec jj)
          (by
            rw [e1, hq]
            rcases hps with h | h <;> rw [h] <;> exact ⟨c, rfl⟩)
        have e3 : following (wrapped x 1) jj = Address.addWrapped x l.statement.serializedSize := by
          unfold following
          rw [e2, hj]
          simp only [Statement.serializedSize, Instruction.serializedSize, hps, if_true]
          unfold Address.addWrapped wrapped
          omega
        rw [← e3]; exact s2
      · rw [not_or] at hps
        obtain ⟨jj, hf, e1, e2, hop⟩ := fetches_real hI hl hj hx g4 g5 hps (hsize j hj)
        have s1 := CodeRuns.next (operand := fetchedOperand jj) (q := q) hcr hf
          (by
            simp only [Stops, not_or]
            rw [e1, hrx, ej1, ej3]
            exact goesOn)
          (fetchedOperand_spec jj)
          (by
            rw [e1, hrx, ej3, ej1]
            by_cases hrs : i₀.mnemonic = .rep ∨ i₀.mnemonic = .sep
            · obtain ⟨bs, hbs, -⟩ := hI.bytes k l j hl hj x hx
              have hmd : j.mode = .imm_b := by
                refine rep_mode (mn := realMnemonic j.mnemonic) ?_ (encoded hbs)
                rw [ej1]
                rcases hrs with h | h <;> rw [h] <;> simp [realMnemonic]
              unfold OperandsMatch at hop
              rw [if_neg (by rw [hmd]; decide), if_neg (by rw [hmd]; decide), hmd] at hop
              rcases hop with hop | ⟨v, hv, hvj⟩
              · exact absurd hop (by decide)
              · have ho := assembled v (by rw [← ej2]; exact eval_mono (hctx k) _ v hv)
                have : fetchedOperand jj = operand := by
                  rw [fetchedOperand_spec jj _ (hvj nullCtx), ho]
                  exact byteOf_field v
                rw [this]; exact executes
            · rw [not_or] at hrs
              exact follows_operand hrs.1 hrs.2 _ executes)
        have e3 : following x jj = Address.addWrapped x l.statement.serializedSize := by
          unfold following
          rw [e2, hj]
          simp only [Statement.serializedSize, Instruction.serializedSize, hps, or_self, if_false]
          rfl
        rw [← e3]; exact s1
    | @branch _ l₀ i₀ name _ _ line instr may label target executes =>
      rw [line] at hl₀'; cases hl₀'
      obtain ⟨j, hj⟩ : ∃ j, l.statement = .instr j := by
        cases hs : l.statement with
        | instr j => exact ⟨j, rfl⟩
        | dir d => rw [(hdir d).1 hs] at instr; cases instr
      obtain ⟨-, l₁, i₁, g1, g2, -, -, g3, -, -, g4, g5, -⟩ := C42_every_instruction_analysed hm h1 hl hj
      rw [line] at g1; cases g1
      rw [instr] at g2; cases g2
      have hji : j = i₀ := g3 (by rcases may.1 with h | h <;> rw [h] <;> decide) (by rcases may.1 with h | h <;> rw [h] <;> decide)
      subst hji
      obtain ⟨bs, hbs, -⟩ := hI.bytes k l j hl hj x hx
      obtain ⟨jj, hf, e1, e2, hop⟩ := fetches_real hI hl hj hx g4 g5 (rel_real may.1 (encoded hbs)) (hsize j hj)
      unfold OperandsMatch at hop
      rw [if_pos (show Relative j.mode from may.1)] at hop
      obtain ⟨tgt, off, htgt, hoff, heq⟩ := hop
      have hv : ctx₀ k ⟨none, name⟩ = .ok tgt := simple_eval label htgt
      have hloc : m'.localIndex name l.scopes = some k' := by
        rw [firstPass_localIndex h1, hscopes]; exact target
      have hneq : ¬ IsEqu l' := by
        obtain ⟨q₀, hq₀, -, -, -, hd, -⟩ := firstPass_line h1 hl'
        rintro ⟨d, hd', hn⟩
        exact hcode k k' q₀ ⟨_, j, name, line, instr, may, label, target⟩ hq₀ ⟨d, (hd d).1 hd', hn⟩
      have hval := hI.label k k' l l' name tgt hl hloc hl' hneq hv
      obtain ⟨y, hy, rfl⟩ := standsAt_of_value hm h1 horg hl' hval hneq
      refine ⟨y, hy, ?_⟩
      have s1 := CodeRuns.branch hcr hf (q := q) (v := off) (by unfold MayBranch; rw [e1, e2]; exact may) (hoff nullCtx) (by rw [e1]; exact executes)
      have e3 : Address.addWrapped (following x jj) off = y := by
        have hsz : j.serializedSize = instructionLength jj.mode := by
          simp only [Instruction.serializedSize, rel_real may.1 (encoded hbs), or_self, if_false, e2, Nat.add_zero]
        rw [hsz] at heq
        unfold following Address.addWrapped
        omega
      rw [← e3]; exact s1
    | @pass l₀ d _ line dir goesOn asserted =>
      rw [line] at hl₀'; cases hl₀'
      have hd := (hdir d).2 dir
      have hz : l.statement.serializedSize = 0 := by
        rw [hd] at hdata ⊢
        simp only [IsData, List.mem_cons, not_or] at hdata
        simp only [Statement.serializedSize, Directive.serializedSize]
        cases hn : d.name <;> simp_all
      have hnext := standsAt_next hx hl (fun l'' h'' => by rw [hl'] at h''; cases h''; exact hnorg)
      rw [hz, addWrapped_zero hlt] at hnext
      exact ⟨x, hnext, hcr⟩

/-! ## The other direction -/

/-- A branch that can be reached names a line of its own file. -/
theorem branch_local {file : List Str} {fuel : Nat} {m m' : Module}
    (hm : Module.loadAsmFile file = .ok m) (h : m.runFirstPass fuel = .ok m') {k : Nat}
    (hk : Reachable m k) {l : Line} {i : Instruction} (hl : m.lines[k]? = some l) (hi : l.statement = .instr i)
    (hb : MayBranch i) : ∃ name t, i.arg1.simpleIdentifier = some name ∧ m.localIndex name l.scopes = some t := by
  obtain ⟨l', hl', hr, -⟩ := C56_never_into_data hm h hk
  obtain ⟨items, -, hI, -, -⟩ := loadAsmFile_ok hm
  obtain ⟨p, l1, l2, he, hfix, hlay, rfl⟩ := firstPass_parts h
  obtain ⟨hD, hE, hw, hS, -⟩ := explored_accounts (K := Seen)
    (fun p p' _ hg hs => seen_accounts hg hs) (fun t s ⟨v, hv, _⟩ => .inl ⟨v, hv⟩)
    (loaded_written hm) (fun k l hl => (hI.line k l hl).2.2.1) he
  obtain ⟨c, hc, -, hr', -⟩ := recorded (fuel := 0) (m' := m) hS hfix hlay hl'
  obtain ⟨l₀, hl₀, hst, hsc⟩ := flow_original hS hc
  rw [hl] at hl₀; cases hl₀
  obtain ⟨name, t, nb, e1, e2, -⟩ := (hD k c hc (by rw [hr']; exact hr)).2 i (by rw [hst]; exact hi) hb
  exact ⟨name, t, e1, by rw [← hsc]; exact e2⟩

structure Setting (file : List Str) (fuel : Nat) (m m' : Module) (src : Source) (ctx₀ ctx : Nat → Ctx)
    (ret : Addr → ReturnConvention) : Prop where
  load : Module.loadAsmFile file = .ok m
  pass : m.runFirstPass fuel = .ok m'
  consistent : Consistent m m'
  tame : StackTame m'
  origins : ProperOrigins m'.lines
  code : BranchesToCode m
  image : Image src m' ctx₀
  returns : KeepsReturns m'.lines ret
  names : ∀ k id v, ctx₀ k id = .ok v → ctx k id = .ok v

section
variable {file : List Str} {fuel : Nat} {m m' : Module} {src : Source} {ctx₀ ctx : Nat → Ctx} {ret : Addr → ReturnConvention}

/-- What is known of a line that runs. -/
theorem line_facts (S : Setting file fuel m m' src ctx₀ ctx ret) {k : Nat} {p : Cpu} (hrun : Spec.Runs m ctx k p) :
    ∃ l l', m.lines[k]? = some l ∧ m'.lines[k]? = some l' ∧ ¬ IsData l'.statement ∧ ¬ IsOrg l' ∧ l'.scopes = l.scopes ∧
      (∀ d, l'.statement = .dir d ↔ l.statement = .dir d) ∧
      ∀ i, l.statement = .instr i → ∃ j, l'.statement = .instr j ∧ j = { i with mode := j.mode } ∧
        (MayBranch j → j = i) ∧ j.mode ≠ .imm_fm ∧ j.mode ≠ .imm_fx ∧
        SizeRight j.mnemonic j.mode p := by
  obtain ⟨l', hl', -, hsize⟩ := C41_sizes_right_partial S.load S.pass S.consistent S.tame hrun
  obtain ⟨l'', hl'', -, hd⟩ := C56_never_into_data S.load S.pass (run_described S.load S.pass S.consistent S.tame hrun).1
  rw [hl'] at hl''; cases hl''
  obtain ⟨l, hl, -, hsc, -, hdir, -⟩ := firstPass_line S.pass hl'
  refine ⟨l, l', hl, hl', hd, ?_, hsc, hdir, fun i hi => ?_⟩
  · rintro ⟨d, hd', hn⟩
    exact hd (by rw [hd']; simp [IsData, hn])
  · obtain ⟨j, hj⟩ : ∃ j, l'.statement = .instr j := by
      cases hs : l'.statement with
      | instr j => exact ⟨j, rfl⟩
      | dir d => rw [(hdir d).1 hs] at hi; cases hi
    obtain ⟨-, l₁, i₁, g1, g2, -, g3, g3', g6, -, g4, g5, -⟩ := C42_every_instruction_analysed S.load S.pass hl' hj
    rw [hl] at g1; cases g1
    rw [hi] at g2; cases g2
    refine ⟨j, hj, g3, fun hb => ?_, g4, g5, hsize j hj⟩
    have key : ¬ (i.mode = .imm_fm ∨ i.mode = .imm_fx) := by
      intro h
      rcases hb.1 with hb | hb <;> rcases g6 h with h | h <;> rw [h] at hb <;> cases hb
    rw [not_or] at key
    exact g3' key.1 key.2

/-- Directives are passed over until an instruction is reached. -/
theorem settle (S : Setting file fuel m m' src ctx₀ ctx ret) {i : Nat} (hp : KeepsPromises m ctx i) :
    ∀ (n k : Nat) (p : Cpu) (x : Nat), m.lines.length - k ≤ n → RunsFrom m ctx i k p → StandsAt m'.lines k x →
      Executing m m'.lines ctx i x p := by
  intro n
  induction n with
  | zero =>
    intro k p x hn hrun hx
    obtain ⟨l, l', hl, -⟩ := line_facts S (runsFrom_runs hrun)
    have := (List.getElem?_eq_some_iff.mp hl).1
    omega
  | succ n ih =>
    intro k p x hn hrun hx
    obtain ⟨l, l', hl, hl', hd, -, hsc, hdir, -⟩ := line_facts S (runsFrom_runs hrun)
    cases hs : l.statement with
    | instr ins => exact .line k l ins hl hs hrun hx
    | dir d =>
      have hs' := (hdir d).2 hs
      have hmove : RunsFrom m ctx i (k + 1) p := .move hrun
        (.pass hl hs (by rw [hs]; exact hp.halt k p l d hrun hl hs) (hp.mode k p l d hrun hl hs))
      obtain ⟨q, q', hq, hq', -, ho, -⟩ := line_facts S (runsFrom_runs hmove)
      have hz : l'.statement.serializedSize = 0 := by
        rw [hs'] at hd ⊢
        simp only [IsData, List.mem_cons, not_or] at hd
        simp only [Statement.serializedSize, Directive.serializedSize]
        cases hn : d.name <;> simp_all
      have hnext := standsAt_next hx hl' (fun l'' h'' => by rw [hq'] at h''; cases h''; exact ho)
      rw [hz, addWrapped_zero (standsAt_lt hx)] at hnext
      refine ih (k + 1) p x ?_ hmove hnext
      have := (List.getElem?_eq_some_iff.mp hl).1
      omega

theorem executes_only (S : Setting file fuel m m' src ctx₀ ctx ret) {i start : Nat} {f : StatusFlags}
    (hp : KeepsPromises m ctx i) (entry : DeclaresEntry m i f) (hstart : StandsAt m'.lines (i + 1) start)
    {x : Addr} {p : Cpu} (hcr : CodeRuns src ret start f x p) : Executing m m'.lines ctx i x p := by
  induction hcr with
  | start ok agrees => exact settle S hp _ _ _ _ (Nat.le_refl _) (.start entry ok agrees) hstart
  | @next x p q jj operand before fetches goesOn assembled executes ih =>
    cases ih with
    | line k l ins here instr runs stands =>
      obtain ⟨l₀, l', hl, hl', hd, -, hsc, hdir, hins⟩ := line_facts S (runsFrom_runs runs)
      rw [here] at hl; cases hl
      obtain ⟨j, hj, ej, -, g4, g5, hsize⟩ := hins ins instr
      have e1 : j.mnemonic = ins.mnemonic := by rw [ej]
      have e2 : j.arg1 = ins.arg1 := by rw [ej]
      have e3 : j.ret = ins.ret := by rw [ej]
      have hrx := S.returns.written k l' j x hl' hj stands
      by_cases hps : j.mnemonic = .padd ∨ j.mnemonic = .psub
      · obtain ⟨f1, -⟩ := fetches_pseudo S.image hl' hj stands g4 g5 hps hsize
        obtain rfl := fetches_unique fetches f1
        refine .between k l ins x p here instr (by rw [← e1]; exact hps) runs stands (wrapped_eq (standsAt_lt stands) 1) ?_
        rcases hps with h | h <;> simp only [h, leadIn] at executes <;>
          (have e : _ = _ := executes; rw [e])
      · have hps' := hps
        rw [not_or] at hps'
        obtain ⟨jj', f1, f2, f3, f4⟩ := fetches_real S.image hl' hj stands g4 g5 hps' hsize
        obtain rfl := fetches_unique fetches f1
        obtain ⟨o, ho⟩ : ∃ o : UInt8, ∀ v, ins.arg1.eval (ctx k) = .ok v → o = byteOf v := by
          cases hv : ins.arg1.eval (ctx k) with
          | ok v => exact ⟨byteOf v, fun w hw => by cases hw; rfl⟩
          | err e => exact ⟨0, fun w hw => by cases hw⟩
          | ub u => exact ⟨0, fun w hw => by cases hw⟩
        have hmove : RunsFrom m ctx i (k + 1) q := by
          refine .move runs (.next (operand := o) here instr ?_ ho ?_)
          · rw [instr]
            simp only [Stops, not_or] at goesOn ⊢
            rw [f2, hrx, e1, e3] at goesOn
            exact goesOn
          · rw [f2, hrx, e1, e3] at executes
            by_cases hrs : ins.mnemonic = .rep ∨ ins.mnemonic = .sep
            · obtain ⟨bs, hbs, -⟩ := S.image.bytes k l' j hl' hj x stands
              have hmd : j.mode = .imm_b := by
                refine rep_mode (mn := realMnemonic j.mnemonic) ?_ (encoded hbs)
                rw [e1]
                rcases hrs with h | h <;> rw [h] <;> simp [realMnemonic]
              unfold OperandsMatch at f4
              rw [if_neg (by rw [hmd]; decide), if_neg (by rw [hmd]; decide), hmd] at f4
              rcases f4 with f4 | ⟨v, hv, hvj⟩
              · exact absurd f4 (by decide)
              · have h1 := assembled _ (hvj nullCtx)
                have h2 := ho v (by rw [← e2]; exact eval_mono (S.names k) _ v hv)
                have : o = operand := by rw [h1, h2]; exact (byteOf_field v).symm
                rw [this]; exact executes
            · rw [not_or] at hrs
              exact follows_operand hrs.1 hrs.2 _ executes
        obtain ⟨q₀, q', hq, hq', -, hno, -⟩ := line_facts S (runsFrom_runs hmove)
        have hnext := standsAt_next stands hl' (fun l'' h'' => by rw [hq'] at h''; cases h''; exact hno)
        have e4 : following x jj = Address.addWrapped x l'.statement.serializedSize := by
          unfold following
          rw [f3, hj]
          simp only [Statement.serializedSize, Instruction.serializedSize, hps, if_false]
          rfl
        rw [e4]
        exact settle S hp _ _ _ _ (Nat.le_refl _) hmove hnext
    | between k l ins y p₀ here instr pseudo runs stands next carry =>
      obtain ⟨l₀, l', hl, hl', hd, -, hsc, hdir, hins⟩ := line_facts S (runsFrom_runs runs)
      rw [here] at hl; cases hl
      obtain ⟨j, hj, ej, -, g4, g5, hsize⟩ := hins ins instr
      have e1 : j.mnemonic = ins.mnemonic := by rw [ej]
      have e3 : j.ret = ins.ret := by rw [ej]
      have hps : j.mnemonic = .padd ∨ j.mnemonic = .psub := by rw [e1]; exact pseudo
      obtain ⟨-, f2⟩ := fetches_pseudo S.image hl' hj stands g4 g5 hps hsize
      obtain ⟨jj', f1, f2, f3, -⟩ := f2 p.c
      rw [← carry, ← next] at f1
      obtain rfl := fetches_unique fetches f1
      have hrx := (S.returns.pseudo k l' j y hl' hj stands hps).1
      rw [S.returns.written k l' j y hl' hj stands, e3] at hrx
      obtain ⟨c, hq⟩ : ∃ c, q = { p₀ with c := c } := by
        rw [f2] at executes
        have : ∃ c, q = { p with c := c } := by
          rcases hps with h | h <;> rw [h] at executes <;> exact executes
        obtain ⟨c, hc⟩ := this
        exact ⟨c, by rw [hc, carry]⟩
      have hmove : RunsFrom m ctx i (k + 1) q := by
        obtain ⟨o, ho⟩ : ∃ o : UInt8, ∀ v, ins.arg1.eval (ctx k) = .ok v → o = byteOf v := by
          cases hv : ins.arg1.eval (ctx k) with
          | ok v => exact ⟨byteOf v, fun w hw => by cases hw; rfl⟩
          | err e => exact ⟨0, fun w hw => by cases hw⟩
          | ub u => exact ⟨0, fun w hw => by cases hw⟩
        refine .move runs (.next (operand := o) here instr ?_ ho ?_)
        · rw [instr]
          simp only [Stops, not_or]
          refine ⟨?_, by rw [hrx]; simp⟩
          rcases pseudo with h | h <;> rw [h] <;> decide
        · rcases pseudo with h | h <;> rw [h] <;> exact ⟨c, hq⟩
      obtain ⟨q₀, q', hq, hq', -, hno, -⟩ := line_facts S (runsFrom_runs hmove)
      have hnext := standsAt_next stands hl' (fun l'' h'' => by rw [hq'] at h''; cases h''; exact hno)
      have e4 : following x jj = Address.addWrapped y l'.statement.serializedSize := by
        unfold following
        rw [f3, hj, next]
        simp only [Statement.serializedSize, Instruction.serializedSize, hps, if_true]
        unfold Address.addWrapped wrapped
        have := standsAt_lt stands
        omega
      rw [e4]
      exact settle S hp _ _ _ _ (Nat.le_refl _) hmove hnext
  | @branch x p q jj v before fetches may offset executes ih =>
    cases ih with
    | line k l ins here instr runs stands =>
      obtain ⟨l₀, l', hl, hl', hd, -, hsc, hdir, hins⟩ := line_facts S (runsFrom_runs runs)
      rw [here] at hl; cases hl
      obtain ⟨j, hj, ej, ei, g4, g5, hsize⟩ := hins ins instr
      have e1 : j.mnemonic = ins.mnemonic := by rw [ej]
      obtain ⟨bs, hbs, -⟩ := S.image.bytes k l' j hl' hj x stands
      by_cases hps : j.mnemonic = .padd ∨ j.mnemonic = .psub
      · obtain ⟨f1, -⟩ := fetches_pseudo S.image hl' hj stands g4 g5 hps hsize
        obtain rfl := fetches_unique fetches f1
        rcases may.1 with h | h <;> cases h
      · rw [not_or] at hps
        obtain ⟨jj', f1, f2, f3, f4⟩ := fetches_real S.image hl' hj stands g4 g5 hps hsize
        obtain rfl := fetches_unique fetches f1
        have may' : MayBranch j := by unfold MayBranch at may ⊢; rw [f2, f3] at may; exact may
        obtain rfl := ei may'
        obtain ⟨name, t, hname, ht⟩ := branch_local S.load S.pass
          (run_described S.load S.pass S.consistent S.tame (runsFrom_runs runs)).1 here instr may'
        unfold OperandsMatch at f4
        rw [if_pos (show Relative j.mode from may'.1)] at f4
        obtain ⟨tgt, off, htgt, hoff, heq⟩ := f4
        have hov : off = v := by
          have := hoff nullCtx
          rw [offset] at this
          cases this; rfl
        subst hov
        have hv : ctx₀ k ⟨none, name⟩ = .ok tgt := simple_eval hname htgt
        have hloc : m'.localIndex name l'.scopes = some t := by
          rw [firstPass_localIndex S.pass, hsc]; exact ht
        have hmove : RunsFrom m ctx i t q :=
          .move runs (.branch here instr may' hname ht (by rw [f2] at executes; exact executes))
        obtain ⟨q₀, q', hq, hq', -, -, -, hqdir, -⟩ := line_facts S (runsFrom_runs hmove)
        have hneq : ¬ IsEqu q' := by
          rintro ⟨d, hd', hn⟩
          exact S.code k t q₀ ⟨_, j, name, here, instr, may', hname, ht⟩ hq ⟨d, (hqdir d).1 hd', hn⟩
        have hval := S.image.label k t l' q' name tgt hl' hloc hq' hneq hv
        obtain ⟨y, hy, rfl⟩ := standsAt_of_value S.load S.pass S.origins hq' hval hneq
        have e3 : Address.addWrapped (following x jj) off = y := by
          have hsz : j.serializedSize = instructionLength jj.mode := by
            simp only [Instruction.serializedSize, rel_real may'.1 (encoded hbs), or_self, if_false, f3, Nat.add_zero]
          rw [hsz] at heq
          have := standsAt_lt stands
          unfold following Address.addWrapped
          omega
        rw [e3]
        exact settle S hp _ _ _ _ (Nat.le_refl _) hmove hy
    | between k l ins y p₀ here instr pseudo runs stands next carry =>
      exfalso
      obtain ⟨l₀, l', hl, hl', hd, -, hsc, hdir, hins⟩ := line_facts S (runsFrom_runs runs)
      rw [here] at hl; cases hl
      obtain ⟨j, hj, ej, -, g4, g5, hsize⟩ := hins ins instr
      have e1 : j.mnemonic = ins.mnemonic := by rw [ej]
      have hps : j.mnemonic = .padd ∨ j.mnemonic = .psub := by rw [e1]; exact pseudo
      obtain ⟨-, f2⟩ := fetches_pseudo S.image hl' hj stands g4 g5 hps hsize
      obtain ⟨jj', f1, f2, f3, -⟩ := f2 p.c
      rw [← carry, ← next] at f1
      obtain rfl := fetches_unique fetches f1
      obtain ⟨bs, hbs, -⟩ := S.image.bytes k l' j hl' hj y stands
      have := rel_real (by rw [← f3]; exact may.1) (encoded hbs)
      rcases hps with h | h
      · exact this.1 h
      · exact this.2 h

end

end Nsasm.Props
