import Verif.Lemmas.FileOrder
import Verif.Props.AnySink
import Verif.Props.Accept

/-! # C113: a file is given once -/

namespace Nsasm.Props
open Nsasm Nsasm.Spec

/-- An assembly that succeeds with some sink succeeds with a recorder, with the same answers. -/
theorem assembles_of_sink {σ : Type} {fuel : Nat} {files : List (List Str)} {sink : Sink σ} {s s' : σ} {a : Assembler}
    (h : Assembler.assembleFiles fuel files sink s = (s', .ok a)) : ∃ ws, Assembles fuel files ws a := by
  have hp := C101_any_sink fuel files sink s
  rw [h] at hp
  have key : ∀ {s : σ} {ws : Writes} {r : Res Assembler} {out : σ × Res Assembler}, Plays sink s ws r out →
      out = (s', .ok a) → r = .ok a := by
    intro s ws r out hp
    induction hp with
    | done s r => intro he; cases he; rfl
    | accepted _ _ ih => exact ih
    | refused _ _ _ => intro he; cases he
    | crashed _ _ _ => intro he; cases he
  exact ⟨_, Prod.ext rfl (key hp rfl)⟩

/-- In a list without repetitions that is put together from parts, two parts share nothing. -/
theorem parts_apart {α β : Type} {f : α → List β} {l : List α} (h : (l.flatMap f).Nodup) {p q : Nat} (hpq : p ≠ q)
    {u v : α} (hu : l[p]? = some u) (hv : l[q]? = some v) {x : β} (h1 : x ∈ f u) : x ∉ f v := by
  intro h2
  have hd := (List.nodup_flatMap.mp h).2
  rw [List.pairwise_iff_getElem] at hd
  obtain ⟨lp, ep⟩ := List.getElem?_eq_some_iff.mp hu
  obtain ⟨lq, eq⟩ := List.getElem?_eq_some_iff.mp hv
  rcases Nat.lt_or_gt_of_ne hpq with hlt | hlt
  · exact hd p q lp lq hlt (by rw [ep]; exact h1) (by rw [eq]; exact h2)
  · exact hd q p lq lp hlt (by rw [eq]; exact h2) (by rw [ep]; exact h1)

/-- A statement of a file is that of a line of its program. -/
theorem statement_line {st : Statement} : ∀ {items : List Item} (ls : List ParsedLabel), .stmt st ∈ items →
    ∃ (k : Nat) (pl : ProgLine), (program ls items)[k]? = some pl ∧ pl.statement = st
  | .label l :: rest, ls, h => by
    have h' : Item.stmt st ∈ rest := by simpa using h
    exact statement_line (ls ++ [l]) h'
  | .stmt s :: rest, ls, h => by
    rcases List.mem_cons.mp h with he | he
    · cases he
      exact ⟨0, _, rfl, rfl⟩
    · obtain ⟨k, pl, h1, h2⟩ := statement_line [] he
      exact ⟨k + 1, pl, by simpa [program] using h1, h2⟩

/-- **A file that has a meaning cannot be given twice.**  If the files assemble, into whatever sink, a file that occurs twice
among them has no instruction, no statement that takes space, and no name for other files. -/
theorem C113_once {σ : Type} {fuel : Nat} {files : List (List Str)} {sink : Sink σ} {s s' : σ} {a : Assembler}
    (h : Assembler.assembleFiles fuel files sink s = (s', .ok a)) {i j : Nat} (hij : i ≠ j) {f : List Str}
    (hi : files[i]? = some f) (hj : files[j]? = some f) :
    (∀ id, ¬ FileExports f id) ∧ ∀ items, FileItems f items → ∀ st, .stmt st ∈ items →
      (∃ d, st = .dir d) ∧ st.serializedSize = 0 := by
  obtain ⟨ws, h⟩ := assembles_of_sink h
  obtain ⟨ms, hl, hB, -⟩ := builds_of_assembles h
  have hbec := becomes_of_assembles h hl
  obtain ⟨order, wss, hA⟩ := assembled h
  have hpass := hA.passes
  -- the two modules are the same
  have hlen : ∀ {k : Nat}, files[k]? = some f → ∃ m, a.modules[k]? = some m ∧ ∃ m₀, ms[k]? = some m₀ ∧
      Module.loadAsmFile f = .ok m₀ ∧ Becomes fuel (Assembler.lookup a.modules a.names) m₀ m := by
    intro k hk
    have hlt := (List.getElem?_eq_some_iff.mp hk).1
    rw [← hA.length] at hlt
    obtain ⟨m₀, h0, hb⟩ := forall2_getElem? hbec (List.getElem?_eq_getElem hlt)
    obtain ⟨f', hf', hload⟩ := forall2_getElem? (loadAll_iff.mp hl) h0
    rw [hk] at hf'
    cases hf'
    exact ⟨_, List.getElem?_eq_getElem hlt, m₀, h0, hload, hb⟩
  obtain ⟨m, hmi, m₀, h0i, hload, hbi⟩ := hlen hi
  obtain ⟨m', hmj, m₀', h0j, hload', hbj⟩ := hlen hj
  rw [hload] at hload'
  cases hload'
  obtain rfl := becomes_unique hbi hbj
  refine ⟨fun id hex => ?_, fun items hF st hst => ?_⟩
  · obtain ⟨q, hq, hex⟩ := hex
    rw [hload] at hq
    cases hq
    have hu := hB.linkable.1
    unfold UniqueExports at hu
    rw [List.pairwise_iff_getElem] at hu
    obtain ⟨li, ei⟩ := List.getElem?_eq_some_iff.mp h0i
    obtain ⟨lj, ej⟩ := List.getElem?_eq_some_iff.mp h0j
    rcases Nat.lt_or_gt_of_ne hij with hlt | hlt
    · exact hu i j li lj hlt id (by rw [ei]; exact hex) (by rw [ej]; exact hex)
    · exact hu j i lj li hlt id (by rw [ej]; exact hex) (by rw [ei]; exact hex)
  · obtain ⟨externs, -, -, hval⟩ := C57_values h
    obtain ⟨file, items', hf', hF', hleq, hline⟩ := hval i m hmi
    rw [hi] at hf'
    cases hf'
    obtain rfl := Props.fileItems_unique hF hF'
    obtain ⟨k, pl, hk, rfl⟩ := statement_line [] hst
    have hkl : k < m.lines.length := by rw [hleq]; exact (List.getElem?_eq_some_iff.mp hk).1
    obtain ⟨-, -, pl', hpl', hstm⟩ := hline k _ (List.getElem?_eq_getElem hkl)
    rw [hk] at hpl'
    cases hpl'
    -- the line takes no space
    have hzero : m.lines[k].statement.serializedSize = 0 := by
      have hin : ∀ {x : Nat}, a.modules[x]? = some m → ∃ (p : Nat) (W : List Writes), order[p]? = some x ∧ wss[p]? = some W ∧
          List.Forall₂ (fun l w => LineWrites (m.lookup l.scopes (Assembler.lookup a.modules a.names)) l w) m.lines W := by
        intro x hx
        have hmem : x ∈ order := by
          rw [hA.perm.mem_iff, List.mem_range, ← hA.length]
          exact (List.getElem?_eq_some_iff.mp hx).1
        obtain ⟨p, hp⟩ := List.mem_iff_getElem?.mp hmem
        have hpl := (List.getElem?_eq_some_iff.mp hp).1
        have hl := hA.writes.length_eq
        obtain ⟨y, hy, m'', hm'', hr⟩ := forall2_getElem? hA.writes (List.getElem?_eq_getElem (show p < wss.length by omega))
        rw [hp] at hy
        cases hy
        rw [hx] at hm''
        cases hm''
        exact ⟨p, _, hp, List.getElem?_eq_getElem _, hr⟩
      obtain ⟨p, W, hp, hW, hw⟩ := hin hmi
      obtain ⟨q, V, hq, hV, hv⟩ := hin hmj
      have hpq : p ≠ q := by
        rintro rfl
        rw [hp] at hq
        cases hq
        exact hij rfl
      have hat : ∀ {W : List Writes}, List.Forall₂ (fun l w => LineWrites (m.lookup l.scopes
          (Assembler.lookup a.modules a.names)) l w) m.lines W → ∃ w, w ∈ W ∧
          LineWrites (m.lookup m.lines[k].scopes (Assembler.lookup a.modules a.names)) m.lines[k] w := by
        intro W hw
        have hkW : k < W.length := by rw [← hw.length_eq]; exact hkl
        obtain ⟨l, hl, hr⟩ := forall2_getElem? hw (List.getElem?_eq_getElem hkW)
        rw [List.getElem?_eq_getElem hkl] at hl
        cases hl
        exact ⟨_, List.getElem_mem hkW, hr⟩
      obtain ⟨w, hwm, hw⟩ := hat hw
      obtain ⟨v, hvm, hv⟩ := hat hv
      rcases hw with ⟨hz, -⟩ | ⟨x, bs, hx, -, hsz, hne, rfl⟩
      · exact hz
      rcases hv with ⟨hz, -⟩ | ⟨y, cs, hy, -, -, hne', rfl⟩
      · exact hz
      exfalso
      rw [hx] at hy
      have hxy : x = y := Int.ofNat_inj.mp (Option.some.inj hy)
      subst hxy
      have hnd : (wss.flatMap fun W => allFilled W.flatten).Nodup := by
        have := hA.claims.nodup
        unfold allFilled at this ⊢
        rw [← List.flatMap_id, ← List.flatMap_id, List.flatMap_assoc, List.flatMap_assoc] at this
        simpa only [← List.flatMap_id, List.flatMap_assoc, id] using this
      have hfirst : ∀ {bs : List UInt8} {W : List Writes}, bs ≠ [] → [(x, bs)] ∈ W → wrapped x 0 ∈ allFilled W.flatten := by
        intro bs W hne hm
        refine List.mem_flatMap.mpr ⟨(x, bs), List.mem_flatten.mpr ⟨_, hm, by simp⟩, ?_⟩
        unfold filled
        exact List.mem_map.mpr ⟨0, List.mem_range.mpr (List.length_pos_of_ne_nil hne), rfl⟩
      exact parts_apart hnd hpq hW hV (hfirst hne hwm) (hfirst hne' hvm)
    cases hps : pl.statement with
    | dir d =>
      rw [hps] at hstm
      simp only at hstm
      rw [hstm] at hzero
      exact ⟨⟨d, rfl⟩, hzero⟩
    | instr ins =>
      rw [hps] at hstm
      simp only at hstm
      obtain ⟨mode, he, hm1, hm2, -⟩ := hstm
      rw [he] at hzero
      simp only [Statement.serializedSize, Instruction.serializedSize] at hzero
      have hset : mode ≠ .imm_fm ∧ mode ≠ .imm_fx := by
        by_cases hf : ins.mode = .imm_fm ∨ ins.mode = .imm_fx
        · rcases hm2 hf with rfl | rfl <;> decide
        · rw [hm1 (fun e => hf (.inl e)) (fun e => hf (.inr e))]
          exact ⟨fun e => hf (.inl e), fun e => hf (.inr e)⟩
      have : ∀ mode : Mode, mode ≠ .imm_fm ∧ mode ≠ .imm_fx → instructionLength mode ≠ 0 := by decide
      have := this mode hset
      omega

/-- A module that exports nothing can be left out of the order of linking. -/
theorem linkOrder_without {pre post : List Module} {m : Module} (hno : ∀ id, ¬ Exports m id)
    (h : LinkOrder (pre ++ m :: post)) : LinkOrder (pre ++ post) := by
  intro pre' x post' he id hid
  rcases List.append_eq_append_iff.mp he with ⟨r, h1, h2⟩ | ⟨r, h1, h2⟩
  · -- after the module
    obtain ⟨q, hq, hex⟩ := h (pre ++ m :: r) x post' (by rw [h2]; simp) id hid
    refine ⟨q, ?_, hex⟩
    rw [h1]
    rcases List.mem_append.mp hq with hq | hq
    · exact List.mem_append_left _ hq
    · rcases List.mem_cons.mp hq with rfl | hq
      · exact absurd hex (hno id)
      · exact List.mem_append_right _ hq
  · cases r with
    | nil =>
      -- first after the module
      simp only [List.nil_append, List.append_nil] at h1 h2
      obtain ⟨q, hq, hex⟩ := h (pre ++ [m]) x post' (by rw [← h2]; simp) id hid
      refine ⟨q, ?_, hex⟩
      rcases List.mem_append.mp hq with hq | hq
      · rwa [h1] at hq
      · obtain rfl := List.mem_singleton.mp hq
        exact absurd hex (hno id)
    | cons y r =>
      -- before it
      simp only [List.cons_append, List.cons.injEq] at h2
      obtain ⟨rfl, h2⟩ := h2
      exact h pre' x (r ++ m :: post) (by rw [h1]; simp) id hid

/-- **Giving a file twice is no use.**  If files assemble and one is there twice, they assemble with it once, and the same is
written. -/
theorem C113_once_is_enough {fuel : Nat} {files rest : List (List Str)} {f : List Str} {ws : Writes} {a : Assembler}
    (hp : files.Perm (f :: f :: rest)) (h : Assembles fuel files ws a) :
    ∃ ws' a', Assembles fuel (f :: rest) ws' a' ∧ ws.Perm ws' := by
  obtain ⟨ws₁, a₁, h1, hw1⟩ := C79_permuted hp h
  obtain ⟨ms, hl, hB, hw⟩ := builds_of_assembles h1
  obtain ⟨m, qs', hm, hF, rfl⟩ := List.forall₂_cons_left_iff.mp (loadAll_iff.mp hl)
  obtain ⟨m', qs, hm', hrest, rfl⟩ := List.forall₂_cons_left_iff.mp hF
  rw [hm] at hm'
  cases hm'
  have hno : ∀ id, ¬ Exports m id := fun id hex =>
    (C113_once h1 (show (0 : Nat) ≠ 1 by decide) rfl rfl).1 id ⟨m, hm, hex⟩
  -- nothing is written for it
  have hnone : made fuel (Assembler.lookup a₁.modules a₁.names) m = [] := by
    refine List.eq_nil_iff_forall_not_mem.mpr fun w hwm => ?_
    have hbytes : w.2 ≠ [] := by
      have hin : w ∈ ws₁ := hw.mem_iff.mpr (List.mem_flatMap.mpr ⟨m, by simp, hwm⟩)
      obtain ⟨order, wss, hA⟩ := assembled h1
      have he := feeds_recorder_eq hA.feeds
      rw [List.nil_append] at he
      rw [he] at hin
      obtain ⟨W, hW, hin⟩ := List.mem_flatten.mp hin
      obtain ⟨V, hV, hW⟩ := List.mem_flatten.mp hW
      obtain ⟨p, hp⟩ := List.mem_iff_getElem?.mp hV
      obtain ⟨i, -, m', -, hr⟩ := forall2_getElem? hA.writes hp
      obtain ⟨k, hk⟩ := List.mem_iff_getElem?.mp hW
      obtain ⟨l, -, hlw⟩ := forall2_getElem? hr hk
      rcases hlw with ⟨-, rfl⟩ | ⟨x, bs, -, -, -, hne, rfl⟩
      · cases hin
      · obtain rfl := List.mem_singleton.mp hin
        exact hne
    have hx : wrapped w.1 0 ∈ allFilled (made fuel (Assembler.lookup a₁.modules a₁.names) m) :=
      List.mem_flatMap.mpr ⟨w, hwm, List.mem_map.mpr ⟨0, List.mem_range.mpr (List.length_pos_of_ne_nil hbytes), rfl⟩⟩
    have hnd : ((m :: m :: qs).flatMap fun m => allFilled (made fuel (Assembler.lookup a₁.modules a₁.names) m)).Nodup := by
      have := hB.apart
      unfold allFilled at this ⊢
      rwa [List.flatMap_assoc] at this
    exact parts_apart hnd (show (0 : Nat) ≠ 1 by decide) (u := m) (v := m) rfl rfl hx hx
  have hB' : Builds fuel (m :: qs) (Assembler.lookup a₁.modules a₁.names) := by
    refine ⟨⟨(List.pairwise_cons.mp hB.linkable.1).2, ?_⟩, fun id v => (hB.offers id v).trans ?_,
      fun x hx => hB.works x (by simp at hx ⊢; tauto), ?_⟩
    · obtain ⟨l, hlp, hlo⟩ := hB.linkable.2
      obtain ⟨pre, post, rfl⟩ := List.append_of_mem (hlp.mem_iff.mpr (List.mem_cons_self (a := m)))
      exact ⟨pre ++ post, (List.perm_cons m).mp (List.perm_middle.symm.trans hlp), linkOrder_without hno hlo⟩
    · simp
    · have := hB.apart
      rwa [List.flatMap_cons, hnone, List.nil_append] at this
  obtain ⟨ws', a', h', hw'⟩ := assembles_of_builds (loadAll_iff.mpr (.cons hm hrest)) hB'
  refine ⟨ws', a', h', hw1.trans (hw.trans ?_)⟩
  rw [List.flatMap_cons, hnone, List.nil_append]
  exact hw'.symm

/-- A file with a directive and no more. -/
def emptyFile : List Str := [cs!"; nothing here", cs!"  .org $9000"]

/-- A file with an instruction, and nothing that can be referred to. -/
def nopFile : List Str := [cs!"  .org $8000", cs!"  .entry m8x8", cs!"  stp"]

/-- The former may be given twice beside the latter; this meets the hypotheses. -/
example : ∃ a, Assembler.assembleFiles 30 [emptyFile, nopFile, emptyFile] recorder [] = ([(0x8000, [0xdb])], .ok a) ∧
    [emptyFile, nopFile, emptyFile][0]? = some emptyFile ∧ [emptyFile, nopFile, emptyFile][2]? = some emptyFile := by
  obtain ⟨ws, a, h, hw⟩ := assembles_of_check (fuel := 30) (files := [emptyFile, nopFile, emptyFile])
    (fun ws _ => decide (ws = [(0x8000, [0xdb])])) (by decide +kernel)
  obtain rfl := of_decide_eq_true hw
  exact ⟨a, h, rfl, rfl⟩

/-- And once is enough. -/
example : ∃ ws' a', Assembles 30 [emptyFile, nopFile] ws' a' ∧ List.Perm [(0x8000, [0xdb])] ws' := by
  obtain ⟨ws, a, h, hw⟩ := assembles_of_check (fuel := 30) (files := [emptyFile, nopFile, emptyFile])
    (fun ws _ => decide (ws = [(0x8000, [0xdb])])) (by decide +kernel)
  obtain rfl := of_decide_eq_true hw
  exact C113_once_is_enough (.cons _ (.swap _ _ _)) h

/-- The latter may not. -/
example : ∃ ws, Assembler.assembleFiles 30 [nopFile, nopFile] recorder [] = (ws, .err .overlap) :=
  refuses_of_check (by decide +kernel)

end Nsasm.Props
