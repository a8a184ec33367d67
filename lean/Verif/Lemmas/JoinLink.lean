import Verif.Lemmas.Join

/-! # Facts about two files put together: values and writes -/

namespace Nsasm.Joined
open Spec Props

theorem localLookup_first {a b m : Module} (h : Together a b m) {i : Nat} {v : Int} (hv : a.localLookup i = .ok v) :
    m.localLookup i = .ok v := by
  obtain ⟨Z, hZ, -⟩ := h.lines
  unfold Module.localLookup at hv ⊢
  cases ha : a.lines[i]? with
  | none => rw [ha] at hv; cases hv
  | some l =>
    rw [hZ, List.getElem?_append_left (List.getElem?_eq_some_iff.mp ha).1, ha]
    rw [ha] at hv
    exact hv

theorem line_second {a b m : Module} (h : Together a b m) {i : Nat} {l : Line} (hl : b.lines[i]? = some l) :
    ∃ l', m.lines[i + a.lines.length]? = some l' ∧ Ahead a.lines.length l l' := by
  obtain ⟨Z, hZ, hf⟩ := h.lines
  have hlt : i < Z.length := by rw [← hf.length_eq]; exact (List.getElem?_eq_some_iff.mp hl).1
  obtain ⟨l', hl', hA⟩ := forall2_getElem? hf (List.getElem?_eq_getElem hlt)
  rw [hl] at hl'; cases hl'
  exact ⟨Z[i], by rw [hZ, List.getElem?_append_right (by omega), Nat.add_sub_cancel, List.getElem?_eq_getElem hlt], hA⟩

theorem localLookup_second {a b m : Module} (h : Together a b m) {i : Nat} {v : Int} (hv : b.localLookup i = .ok v) :
    m.localLookup (i + a.lines.length) = .ok v := by
  unfold Module.localLookup at hv ⊢
  cases hb : b.lines[i]? with
  | none => rw [hb] at hv; cases hv
  | some l =>
    obtain ⟨l', hl', hA⟩ := line_second h hb
    rw [hb] at hv
    rw [hl']
    simp only at hv ⊢
    cases hw : l.value with
    | none => rw [hw] at hv; cases hv
    | some w => rw [hw] at hv; rw [hA.value w hw]; exact hv

/-- A name used in the first part has the value it has without the second. -/
theorem lookup_first {a b m : Module} (h : Together a b m) (ha : a.name = []) {E : Ctx} {scopes : List Nat}
    (hs : ∀ s ∈ scopes, s < a.lines.length) {id : FullId} {v : Int} (hv : a.lookup scopes E id = .ok v)
    (hb : a.isLocal scopes id = false → ∀ i, qualified id = ⟨some [], id.name⟩ → HMap.find b.globals id.name = some i →
      E ⟨some [], id.name⟩ = .ok v → b.localLookup i = .ok v) :
    m.lookup scopes E id = .ok v := by
  obtain ⟨mod, n⟩ := id
  unfold Module.lookup at hv ⊢
  unfold Module.isLocal at hb
  rw [h.name]
  cases mod with
  | none =>
    simp only at hv hb ⊢
    rw [index_first h _ _ hs]
    cases hi : a.localIndex n scopes with
    | some i => rw [hi] at hv; exact localLookup_first h hv
    | none =>
      rw [hi] at hv hb
      simp only [Option.none_or] at hv ⊢
      cases hg : HMap.find b.globals n with
      | none => exact hv
      | some i => exact localLookup_second h (hb rfl i rfl hg hv)
  | some mod =>
    simp only at hv hb ⊢
    by_cases hm : mod = a.name
    · rw [if_pos hm] at hv ⊢
      rw [if_neg (by simpa using hm)] at hb
      rw [index_first h _ _ (by simp)]
      cases hi : a.localIndex n [] with
      | some i => rw [hi] at hv; exact localLookup_first h hv
      | none =>
        rw [hi] at hv hb
        rw [ha] at hm
        subst hm
        simp only [Option.none_or] at hv ⊢
        cases hg : HMap.find b.globals n with
        | none => exact hv
        | some i => exact localLookup_second h (hb rfl i rfl hg hv)
    · rw [if_neg hm] at hv ⊢; exact hv

/-- A name used in the second part has the value it has without the first. -/
theorem lookup_second {a b m : Module} (h : Together a b m) (ha : a.name = []) {E : Ctx} {scopes : List Nat}
    {id : FullId} {v : Int} (hv : b.lookup scopes E id = .ok v)
    (hb : ∀ i, HMap.find a.globals id.name = some i → E ⟨some [], id.name⟩ = .ok v → a.localLookup i = .ok v) :
    m.lookup (scopes.map (· + a.lines.length)) E id = .ok v := by
  obtain ⟨mod, n⟩ := id
  unfold Module.lookup at hv ⊢
  rw [h.name]
  rw [h.same] at hv
  cases mod with
  | none =>
    simp only at hv hb ⊢
    rw [index_second h]
    cases hi : b.localIndex n scopes with
    | some i => rw [hi] at hv; exact localLookup_second h hv
    | none =>
      rw [hi] at hv
      simp only [Option.map_none, Option.none_or] at hv ⊢
      cases hg : HMap.find a.globals n with
      | none => exact hv
      | some i => exact localLookup_first h (hb i hg hv)
  | some mod =>
    simp only at hv hb ⊢
    by_cases hm : mod = a.name
    · rw [if_pos hm] at hv ⊢
      have hi2 := index_second h n []
      rw [List.map_nil] at hi2
      rw [hi2]
      cases hi : b.localIndex n [] with
      | some i => rw [hi] at hv; exact localLookup_second h hv
      | none =>
        rw [hi] at hv
        rw [ha] at hm
        subst hm
        simp only [Option.map_none, Option.none_or] at hv ⊢
        cases hg : HMap.find a.globals n with
        | none => exact hv
        | some i => exact localLookup_first h (hb i hg hv)
    · rw [if_neg hm] at hv ⊢; exact hv

/-! ## The second pass -/

theorem setValue_length (m : Module) (i : Nat) (v : Int) : (m.setValue i v).lines.length = m.lines.length := by
  simp [Module.setValue]

theorem together_set_first {a b m : Module} (h : Together a b m) {i : Nat} (hi : i < a.lines.length) (v : Int) :
    Together (a.setValue i v) b (m.setValue i v) := by
  obtain ⟨Z, hZ, hf⟩ := h.lines
  refine ⟨h.name, h.same, ?_, ⟨Z, ?_, ?_⟩, ?_, h.apart⟩
  · rw [setValue_length]; exact h.globals
  · simp only [Module.setValue, hZ]
    refine List.ext_getElem? fun k => ?_
    by_cases hk : k < a.lines.length
    · rw [List.getElem?_append_left (by simpa using hk), List.getElem?_modify, List.getElem?_modify,
        List.getElem?_append_left hk]
    · rw [List.getElem?_append_right (by simpa using hk), List.getElem?_modify,
        List.getElem?_append_right (by omega)]
      simp [show i ≠ k by omega]
  · rw [setValue_length]; exact hf
  · rw [setValue_length]
    intro l hl
    obtain ⟨l₀, h0, -, e⟩ := setValue_lines hl
    rw [e]; exact h.scopes l₀ h0

theorem together_set_second {a b m : Module} (h : Together a b m) (i : Nat) (v : Int) :
    Together a (b.setValue i v) (m.setValue (i + a.lines.length) v) := by
  obtain ⟨Z, hZ, hf⟩ := h.lines
  refine ⟨h.name, h.same, h.globals, ⟨Z.modify i fun l => { l with value := some v }, ?_, ?_⟩, h.scopes, h.apart⟩
  · simp only [Module.setValue, hZ]
    refine List.ext_getElem? fun k => ?_
    by_cases hk : k < a.lines.length
    · rw [List.getElem?_append_left hk, List.getElem?_modify, List.getElem?_append_left hk]
      simp [show i + a.lines.length ≠ k by omega]
    · rw [List.getElem?_append_right (by omega), List.getElem?_modify,
        List.getElem?_append_right (by omega), List.getElem?_modify]
      by_cases he : i + a.lines.length = k
      · simp [show k - a.lines.length + a.lines.length = k by omega, show i = k - a.lines.length by omega]
      · simp [he, show i ≠ k - a.lines.length by omega]
  · rw [List.forall₂_iff_get] at hf ⊢
    obtain ⟨hl, hg⟩ := hf
    refine ⟨by simp [Module.setValue, hl], fun k h1 h2 => ?_⟩
    simp only [Module.setValue, List.length_modify] at h1 h2
    have := hg k h1 h2
    simp only [List.get_eq_getElem, Module.setValue, List.getElem_modify] at this ⊢
    split
    · exact ⟨this.statement, this.incoming, this.scopes, this.locals, fun _ h => h, fun _ => rfl⟩
    · exact this

theorem second_first {E : Ctx} {D : FullId → Prop} : ∀ (c i : Nat) {a b m a' : Module}, Together a b m → a.name = [] →
    i + c = a.lines.length → NeedsOnly a D → (∀ g ∈ b.globals, ¬ D ⟨some [], g.1⟩) →
    Module.secondLoop E c i a = .ok a' →
    a'.lines.length = a.lines.length ∧
    ∃ m', Together a' b m' ∧ ∀ j, Module.secondLoop E (c + j) i m = Module.secondLoop E j (i + c) m' := by
  intro c
  induction c with
  | zero => intro i a b m a' hT _ _ _ _ h; cases h; exact ⟨rfl, m, hT, fun j => by rw [Nat.zero_add]; rfl⟩
  | succ c ih =>
    intro i a b m a' hT ha hi hN hD h
    obtain ⟨Z, hZ, -⟩ := hT.lines
    unfold Module.secondLoop at h
    have hlt : i < a.lines.length := by omega
    rw [List.getElem?_eq_getElem hlt] at h
    simp only at h
    obtain ⟨a1, h1, h⟩ := Res.bind_eq_ok.mp h
    have hget : m.lines[i]? = some a.lines[i] := by
      rw [hZ, List.getElem?_append_left hlt, List.getElem?_eq_getElem hlt]
    have key : ∃ m1, Module.evalEqu E m i a.lines[i] = .ok m1 ∧ Together a1 b m1 ∧ NeedsOnly a1 D ∧ a1.name = [] ∧
        a1.lines.length = a.lines.length := by
      unfold Module.evalEqu at h1 ⊢
      split at h1
      · cases h1; exact ⟨m, rfl, hT, hN, ha, rfl⟩
      · next d hd =>
        split at h1
        · next hq =>
          obtain ⟨v, hv, h1⟩ := Res.bind_eq_ok.mp h1
          cases h1
          refine ⟨m.setValue i v, ?_, together_set_first hT hlt v, setValue_needs hN i v, ha, setValue_length _ _ _⟩
          rw [if_pos hq]
          obtain ⟨hsrc, hw⟩ := hN _ (List.getElem_mem hlt) d hd hq.1
          refine Res.bind_eq_ok.mpr ⟨v, eval_within hsrc (fun id hu w hw' => ?_) v hv, rfl⟩
          refine lookup_first hT ha (hT.scopes _ (List.getElem_mem hlt)) hw' fun hloc j hj hg _ => ?_
          exact absurd (hw _ ⟨id, hu, hloc, hj.symm⟩) (hD _ (find_none hg))
        · next hq =>
          cases h1; rw [if_neg hq]; exact ⟨m, rfl, hT, hN, ha, rfl⟩
    obtain ⟨m1, k1, k2, k3, k4, k5⟩ := key
    obtain ⟨k6, m', hT', hm'⟩ := ih (i + 1) k2 k4 (by omega) k3 hD h
    refine ⟨k6.trans k5, m', hT', fun j => ?_⟩
    rw [Nat.succ_add]
    have : Module.secondLoop E (c + j).succ i m = Module.secondLoop E (c + j) (i + 1) m1 := by
      rw [Module.secondLoop, hget]
      simp only
      rw [k1]
      rfl
    rw [this, hm' j]
    congr 1
    omega

theorem second_second {E : Ctx} : ∀ (c i : Nat) {a b m b' : Module}, Together a b m → a.name = [] →
    i + c = b.lines.length →
    (∀ name j v, HMap.find a.globals name = some j → E ⟨some [], name⟩ = .ok v → a.localLookup j = .ok v) →
    Module.secondLoop E c i b = .ok b' →
    ∃ m', Together a b' m' ∧ Module.secondLoop E c (i + a.lines.length) m = .ok m' := by
  intro c
  induction c with
  | zero => intro i a b m b' hT _ _ _ h; cases h; exact ⟨m, hT, rfl⟩
  | succ c ih =>
    intro i a b m b' hT ha hi hE h
    unfold Module.secondLoop at h ⊢
    have hlt : i < b.lines.length := by omega
    rw [List.getElem?_eq_getElem hlt] at h
    simp only at h
    obtain ⟨b1, h1, h⟩ := Res.bind_eq_ok.mp h
    obtain ⟨l', hget, hA⟩ := line_second hT (List.getElem?_eq_getElem hlt)
    rw [hget]
    simp only
    have key : ∃ m1, Module.evalEqu E m (i + a.lines.length) l' = .ok m1 ∧ Together a b1 m1 ∧
        b1.lines.length = b.lines.length := by
      unfold Module.evalEqu at h1 ⊢
      rw [hA.statement]
      split at h1
      · cases h1; exact ⟨m, rfl, hT, rfl⟩
      · next d hd =>
        by_cases hq : d.name = .equ
        · have hval : l'.value = b.lines[i].value := hA.equ (by rw [hd]; simp [Statement.isDir, hq])
          rw [hval]
          split at h1
          · next hq =>
            obtain ⟨v, hv, h1⟩ := Res.bind_eq_ok.mp h1
            cases h1
            refine ⟨m.setValue _ v, ?_, together_set_second hT i v, setValue_length _ _ _⟩
            rw [if_pos hq]
            refine Res.bind_eq_ok.mpr ⟨v, eval_mono (fun id w hw => ?_) _ v hv, rfl⟩
            rw [hA.scopes]
            exact lookup_second hT ha hw fun j hg he => hE _ j w hg he
          · next hq =>
            cases h1; rw [if_neg hq]; exact ⟨m, rfl, hT, rfl⟩
        · rw [if_neg (by simp [hq])] at h1 ⊢
          cases h1; exact ⟨m, rfl, hT, rfl⟩
    obtain ⟨m1, k1, k2, k3⟩ := key
    obtain ⟨m', hT', hm'⟩ := ih (i + 1) k2 ha (by omega) hE h
    refine ⟨m', hT', ?_⟩
    refine Res.bind_eq_ok.mpr ⟨m1, k1, ?_⟩
    rw [← hm']
    congr 1
    omega

theorem second_join {E : Ctx} {D : FullId → Prop} {a b m a' b' : Module} (hT : Together a b m) (ha : a.name = [])
    (hN : NeedsOnly a D) (hD : ∀ g ∈ b.globals, ¬ D ⟨some [], g.1⟩) (h1 : a.runSecondPass E = .ok a')
    (hE : ∀ name j v, HMap.find a'.globals name = some j → E ⟨some [], name⟩ = .ok v → a'.localLookup j = .ok v)
    (h2 : b.runSecondPass E = .ok b') : ∃ m', m.runSecondPass E = .ok m' ∧ Together a' b' m' := by
  obtain ⟨ls, e⟩ := secondPass_fields h1
  have ha' : a'.name = [] := by rw [e]; exact ha
  obtain ⟨hlen, m1, hT1, hm1⟩ := second_first _ 0 hT ha (by omega) hN hD h1
  obtain ⟨m2, hT2, hm2⟩ := second_second _ 0 hT1 ha' (by omega) hE h2
  refine ⟨m2, ?_, hT2⟩
  obtain ⟨Z, hZ, hf⟩ := hT.lines
  unfold Module.runSecondPass
  rw [hZ, List.length_append, ← hf.length_eq, hm1, Nat.zero_add, ← hlen]
  rw [Nat.zero_add] at hm2
  exact hm2

/-! ## Assembly -/

theorem claim_lt {o o' : Module.Out} {x n : Nat} (hn : 0 < n) (h : Module.claim o x n = .ok o') : x < 0x1000000 := by
  unfold Module.claim at h
  obtain ⟨⟨owned, ok⟩, hx, -⟩ := Res.bind_eq_ok.mp h
  rw [DataRange.claimBytes, dif_pos (by omega)] at hx
  obtain ⟨stop, hs, -⟩ := Res.bind_eq_ok.mp hx
  simp only [Address.addUnwrapped, Address.ofInt] at hs
  split at hs
  · simp only [Address.bankAddress] at *; omega
  · cases hs

theorem claim_again {o : Module.Out} {x n : Nat} (hx : x < 0x1000000) (hn : 0 < n) (hc : Canonical o.owned.ranges)
    (hf : ∀ y ∈ (List.range n).map (wrapped x), o.owned.contains y = false)
    (hd : ((List.range n).map (wrapped x)).Nodup) :
    ∃ o', Module.claim o x n = .ok o' ∧ Claims o.owned o'.owned ((List.range n).map (wrapped x)) := by
  obtain ⟨r', ok, h1, -, -, h4⟩ := C25_claim_bytes hc hx n
  have hok : ok = true := h4.2 ⟨fun i hi => hf _ (List.mem_map.2 ⟨i, List.mem_range.2 hi, rfl⟩), fun i hi j hj e => by
    have := List.inj_on_of_nodup_map hd (List.mem_range.2 hi) (List.mem_range.2 (by omega : j < n)) e
    omega⟩
  subst hok
  have h : Module.claim o x n = .ok { o with owned := r' } := by
    unfold Module.claim
    exact Res.bind_eq_ok.mpr ⟨_, h1, by simp⟩
  exact ⟨_, h, (claim_grows hc hn h).1⟩

/-- What assembling the line wrote is written again for the same line in other surroundings. -/
theorem line_again {m m' : Module} {E : Ctx} {l l' : Line} {s s' : Writes} {o o' : Module.Out}
    (hc : Canonical o.owned.ranges) (h : m.assembleLine E recorder l s o = (s', .ok o'))
    (hctx : ∀ id v, m.lookup l.scopes E id = .ok v → m'.lookup l'.scopes E id = .ok v)
    (h1 : l'.statement = l.statement) (h2 : l'.incoming = l.incoming) (h3 : ∀ v, l.value = some v → l'.value = some v) :
    Canonical o'.owned.ranges ∧ ∃ w, s' = s ++ w ∧ (allFilled w).Nodup ∧ ∀ (o2 : Module.Out) (t : Writes), Canonical o2.owned.ranges →
      (∀ y ∈ allFilled w, o2.owned.contains y = false) →
      ∃ o2', m'.assembleLine E recorder l' t o2 = (t ++ w, .ok o2') ∧ Claims o2.owned o2'.owned (allFilled w) := by
  have note : ∀ {o o' : Module.Out}, Module.noteTarget l o = .ok o' → ∀ o2, ∃ o2', Module.noteTarget l' o2 = .ok o2' := by
    intro o o' h o2
    unfold Module.noteTarget at h ⊢
    rw [h1, h2]
    cases hst : l.statement with
    | dir d => exact ⟨o2, rfl⟩
    | instr i =>
      rw [hst] at h
      obtain ⟨src, h4, h⟩ := Res.bind_eq_ok.mp h
      obtain ⟨t, h5, h⟩ := Res.bind_eq_ok.mp h
      have h6 : Module.toAddress l'.value = .ok src := by
        cases hv : l.value with
        | none => rw [hv] at h4; cases h4
        | some v => rw [h3 v hv, ← hv]; exact h4
      cases t with
      | none => exact ⟨o2, Res.bind_eq_ok.mpr ⟨src, h6, Res.bind_eq_ok.mpr ⟨none, h5, rfl⟩⟩⟩
      | some t => exact ⟨_, Res.bind_eq_ok.mpr ⟨src, h6, Res.bind_eq_ok.mpr ⟨some t, h5, rfl⟩⟩⟩
  have hown := (assembleLine_ok hc h)
  obtain ⟨w₀, hw₀, hf₀, hg₀⟩ := hown
  refine ⟨hg₀.canonical, ?_⟩
  unfold Module.assembleLine at h
  by_cases hs : l.statement.serializedSize > 0
  · simp only [if_pos hs, Prod.mk.injEq] at h
    obtain ⟨e, h⟩ := h
    obtain ⟨o1, h4, h⟩ := Res.bind_eq_ok.mp h
    obtain ⟨x, bs, hv, hb, hlen, hsk, g, -, -⟩ := writeLine_ok hs hc (Prod.ext e h4)
    have hxo : Address.ofInt (x : Int) = .ok x := by
      unfold Module.writeLine at h4
      rw [hv] at h4
      simp only [Address.ofInt] at h4 ⊢
      split at h4
      · cases h4
      · cases h4
      · next hr =>
        split at hr
        · next hlt => rw [if_pos hlt]; simp
        · cases hr
    have hxa : x < 0x1000000 := by
      unfold Module.writeLine at h4
      rw [hv] at h4
      simp only at h4
      rw [hxo] at h4
      simp only [Statement.assemble] at h4
      rw [hb] at h4
      simp only [recorder] at h4
      exact claim_lt hs h4
    simp only [recorder, Prod.mk.injEq, and_true] at hsk
    refine ⟨[(x, bs)], hsk.symm, by simpa [allFilled] using g.nodup, fun o2 t hc2 hfr => ?_⟩
    have hb' : l'.statement.assembleBytes x (m'.lookup l'.scopes E) = .ok (some bs) := by
      rw [h1]
      exact bytes_within (fun e _ v hv => eval_mono hctx e v hv) hb
    simp only [allFilled, List.flatMap_cons, List.flatMap_nil, List.append_nil] at hfr ⊢
    unfold filled at g hfr ⊢
    simp only at g hfr ⊢
    rw [hlen] at g hfr ⊢
    obtain ⟨o3, h5, hg⟩ := claim_again hxa hs hc2 hfr g.nodup
    obtain ⟨o4, h6⟩ := note h o3
    refine ⟨o4, ?_, ?_⟩
    · unfold Module.assembleLine
      simp only [h1, if_pos hs]
      have : Module.writeLine l' (m'.lookup l'.scopes E) recorder t o2 = (t ++ [(x, bs)], .ok o3) := by
        unfold Module.writeLine
        rw [h3 _ hv]
        simp only
        rw [hxo]
        simp only [Statement.assemble]
        rw [hb']
        simp only [recorder]
        rw [h1, h5]
      rw [this]
      simp only [Prod.mk.injEq, true_and]
      exact Res.bind_eq_ok.mpr ⟨o3, rfl, h6⟩
    · rw [noteTarget_owned h6]; exact hg
  · simp only [if_neg hs] at h
    refine ⟨[], ?_⟩
    simp only [allFilled, List.flatMap_nil, List.append_nil, List.nodup_nil, true_and]
    cases hst : l.statement with
    | instr i =>
      rw [hst] at h
      simp only [Prod.mk.injEq] at h
      obtain ⟨e, h⟩ := h
      refine ⟨e.symm, fun o2 t hc2 _ => ?_⟩
      obtain ⟨o1, h4, h⟩ := Res.bind_eq_ok.mp h
      obtain ⟨o4, h6⟩ := note h o2
      refine ⟨o4, ?_, ?_⟩
      · unfold Module.assembleLine
        simp only [h1, if_neg hs]
        rw [hst]
        simp only [Prod.mk.injEq, true_and]
        exact Res.bind_eq_ok.mpr ⟨o2, rfl, h6⟩
      · rw [noteTarget_owned h6]; exact .nil hc2
    | dir d =>
      rw [hst] at h
      simp only [Prod.mk.injEq] at h
      obtain ⟨e, h⟩ := h
      refine ⟨e.symm, fun o2 t hc2 _ => ?_⟩
      obtain ⟨o1, h4, h⟩ := Res.bind_eq_ok.mp h
      have h5 : ∃ o3, Module.assembleNote d l'.value (m'.lookup l'.scopes E) o2 = .ok o3 := by
        unfold Module.assembleNote at h4 ⊢
        split at h4
        · next hd =>
          rw [if_pos hd]
          split at h4
          · cases h4
          · next v hv =>
            rw [h3 v hv]
            obtain ⟨x, h5, -⟩ := Res.bind_eq_ok.mp h4
            exact ⟨_, Res.bind_eq_ok.mpr ⟨x, h5, rfl⟩⟩
        · next hd =>
          rw [if_neg hd]
          split at h4
          · next hr =>
            rw [if_pos hr]
            obtain ⟨v, h5, h4⟩ := Res.bind_eq_ok.mp h4
            obtain ⟨x, h6, -⟩ := Res.bind_eq_ok.mp h4
            exact ⟨_, Res.bind_eq_ok.mpr ⟨v, eval_mono hctx _ v h5, Res.bind_eq_ok.mpr ⟨x, h6, rfl⟩⟩⟩
          · next hr => rw [if_neg hr]; exact ⟨o2, rfl⟩
      obtain ⟨o3, h5⟩ := h5
      obtain ⟨o4, h6⟩ := note h o3
      refine ⟨o4, ?_, ?_⟩
      · unfold Module.assembleLine
        simp only [h1, if_neg hs]
        rw [hst]
        simp only [Prod.mk.injEq, true_and]
        exact Res.bind_eq_ok.mpr ⟨o3, h5, h6⟩
      · rw [noteTarget_owned h6, assembleNote_owned h5]; exact .nil hc2

theorem lines_again {m m' : Module} {E : Ctx} : ∀ {ls ls' : List Line}, List.Forall₂ (fun l l' =>
      (∀ id v, m.lookup l.scopes E id = .ok v → m'.lookup l'.scopes E id = .ok v) ∧ l'.statement = l.statement ∧
      l'.incoming = l.incoming ∧ ∀ v, l.value = some v → l'.value = some v) ls ls' →
    ∀ {s s' : Writes} {o o' : Module.Out}, Canonical o.owned.ranges → m.assembleLines E recorder ls s o = (s', .ok o') →
    ∃ w, s' = s ++ w ∧ ∀ (o2 : Module.Out) (t : Writes), Canonical o2.owned.ranges → (allFilled w).Nodup →
      (∀ y ∈ allFilled w, o2.owned.contains y = false) →
      ∃ o2', m'.assembleLines E recorder ls' t o2 = (t ++ w, .ok o2') ∧ Claims o2.owned o2'.owned (allFilled w) := by
  intro ls ls' hf
  induction hf with
  | nil =>
    intro s s' o o' _ h
    simp only [Module.assembleLines, Prod.mk.injEq] at h
    refine ⟨[], by simp [h.1], fun o2 t hc _ _ => ⟨o2, by simp [Module.assembleLines], ?_⟩⟩
    exact .nil hc
  | @cons l l' ls ls' hl _ ih =>
    intro s s' o o' hc h
    unfold Module.assembleLines at h
    rcases h1 : m.assembleLine E recorder l s o with ⟨s1, r1⟩
    rw [h1] at h
    cases r1 with
    | err e => cases h
    | ub u => cases h
    | ok o1 =>
      simp only at h
      obtain ⟨hc1, w1, rfl, -, hw1⟩ := line_again hc h1 hl.1 hl.2.1 hl.2.2.1 hl.2.2.2
      obtain ⟨w2, rfl, hw2⟩ := ih hc1 h
      refine ⟨w1 ++ w2, by simp, fun o2 t hc2 hnd hfr => ?_⟩
      have e : allFilled (w1 ++ w2) = allFilled w1 ++ allFilled w2 := by simp [allFilled]
      rw [e] at hnd hfr ⊢
      obtain ⟨o3, h3, hg3⟩ := hw1 o2 t hc2 fun y hy => hfr y (List.mem_append_left _ hy)
      have hd := List.disjoint_of_nodup_append hnd
      obtain ⟨o4, h4, hg4⟩ := hw2 o3 (t ++ w1) hg3.canonical (List.nodup_append.1 hnd).2.1 (fun y hy => by
        have h5 := hfr y (List.mem_append_right _ hy)
        have h6 := hg3.exact y
        rw [Bool.eq_false_iff]
        intro hcon
        rcases h6.1 hcon with h7 | h7
        · rw [h5] at h7; cases h7
        · exact hd h7 hy)
      refine ⟨o4, ?_, hg3.trans hg4⟩
      unfold Module.assembleLines
      rw [h3]
      simp only
      rw [h4, List.append_assoc]

theorem assembleLines_append {m : Module} {E : Ctx} : ∀ {xs ys : List Line} {s s1 : Writes} {o o1 : Module.Out},
    m.assembleLines E recorder xs s o = (s1, .ok o1) →
    m.assembleLines E recorder (xs ++ ys) s o = m.assembleLines E recorder ys s1 o1
  | [], ys, s, s1, o, o1, h => by
    simp only [Module.assembleLines, Prod.mk.injEq, Res.ok.injEq] at h
    obtain ⟨rfl, rfl⟩ := h; rfl
  | l :: xs, ys, s, s1, o, o1, h => by
    rw [List.cons_append]
    rw [Module.assembleLines] at h ⊢
    rcases h1 : m.assembleLine E recorder l s o with ⟨s2, r2⟩
    rw [h1] at h
    cases r2 with
    | err e => cases h
    | ub u => cases h
    | ok o2 => exact assembleLines_append h

theorem names_iff {m : Module} : ∀ {gs : List (Str × Nat)} {n : HMap Nat Str}, (∃ n', m.nameAddresses n gs = .ok n') ↔
    ∀ g ∈ gs, ∃ l v x, m.lines[g.2]? = some l ∧ l.value = some v ∧ Address.ofInt v = .ok x
  | [], n => by simp [Module.nameAddresses]
  | (name, i) :: gs, n => by
    unfold Module.nameAddresses
    constructor
    · rintro ⟨n', h⟩
      split at h
      · cases h
      · next l hl =>
        split at h
        · cases h
        · next v hv =>
          obtain ⟨x, hx, h⟩ := Res.bind_eq_ok.mp h
          intro g hg
          rcases List.mem_cons.1 hg with rfl | hg
          · exact ⟨l, v, x, hl, hv, hx⟩
          · exact names_iff.1 ⟨n', h⟩ g hg
    · intro h
      obtain ⟨l, v, x, hl, hv, hx⟩ := h (name, i) (by simp)
      simp only at hl
      obtain ⟨n', hn'⟩ := (names_iff (n := if n.has x then n else n.insertNew x name)).2
        (fun g hg => h g (List.mem_cons_of_mem _ hg))
      refine ⟨n', ?_⟩
      rw [hl]
      simp only
      rw [hv]
      exact Res.bind_eq_ok.mpr ⟨x, hx, hn'⟩

/-- Two modules put together write what they write apart. -/
theorem assemble_join {E : Ctx} {a b m a' b' : Module} {wa wb : Writes} (hT : Together a b m) (ha : a.name = [])
    (h1 : a.assemble E recorder [] = (wa, .ok a')) (h2 : b.assemble E recorder [] = (wb, .ok b'))
    (o1 : a.owned = .empty) (o2 : b.owned = .empty) (o3 : m.owned = .empty)
    (hEa : ∀ name j v, HMap.find a.globals name = some j → E ⟨some [], name⟩ = .ok v → a.localLookup j = .ok v)
    (hEb : ∀ name j v, HMap.find b.globals name = some j → E ⟨some [], name⟩ = .ok v → b.localLookup j = .ok v)
    (hd : (allFilled (wa ++ wb)).Nodup) : ∃ m', m.assemble E recorder [] = (wa ++ wb, .ok m') := by
  obtain ⟨oa, na, la, ga, rfl⟩ := assemble_parts h1
  obtain ⟨ob, nb, lb, gb, rfl⟩ := assemble_parts h2
  obtain ⟨Z, hZ, hf⟩ := hT.lines
  have hcan : Canonical (DataRange.empty).ranges := ⟨by simp [DataRange.empty], by simp [DataRange.empty]⟩
  obtain ⟨w1, e1, r1⟩ := lines_again (m := a) (m' := m) (E := E) (ls := a.lines) (ls' := a.lines)
    (List.forall₂_same.2 fun l hl => ⟨fun id v hv => lookup_first hT ha (hT.scopes l hl) hv
      (fun _ i _ hg he => hEb _ i v hg he), rfl, rfl, fun _ h => h⟩) (by rw [o1]; exact hcan) la
  obtain ⟨w2, e2, r2⟩ := lines_again (m := b) (m' := m) (E := E) (ls := b.lines) (ls' := Z)
    (hf.imp fun l l' hA => ⟨fun id v hv => by
      rw [hA.scopes]
      exact lookup_second hT ha hv fun i hg he => hEa _ i v hg he, hA.statement, hA.incoming, hA.value⟩)
    (by rw [o2]; exact hcan) lb
  rw [List.nil_append] at e1 e2
  subst e1 e2
  have e : allFilled (wa ++ wb) = allFilled wa ++ allFilled wb := by simp [allFilled]
  rw [e] at hd
  obtain ⟨x1, k1, c1⟩ := r1 ⟨m.owned, m.targets, m.conventions⟩ [] (by rw [o3]; exact hcan) (List.nodup_append.1 hd).1
    (fun y _ => by simp [o3, DataRange.empty, DataRange.contains, DataRange.before])
  obtain ⟨x2, k2, c2⟩ := r2 x1 ([] ++ wa) c1.canonical (List.nodup_append.1 hd).2.1 (fun y hy => by
    rw [Bool.eq_false_iff]
    intro hcon
    rcases (c1.exact y).1 hcon with h7 | h7
    · simp [o3, DataRange.empty, DataRange.contains, DataRange.before] at h7
    · exact List.disjoint_of_nodup_append hd h7 hy)
  obtain ⟨n', hn'⟩ := (names_iff (m := m) (gs := m.globals) (n := m.addrNames)).2 (by
    intro g hg
    rw [hT.globals] at hg
    rcases List.mem_append.1 hg with hg | hg
    · obtain ⟨l, v, x, q1, q2, q3⟩ := names_iff.1 ⟨na, ga⟩ g hg
      exact ⟨l, v, x, by rw [hZ, List.getElem?_append_left (List.getElem?_eq_some_iff.mp q1).1]; exact q1, q2, q3⟩
    · obtain ⟨g, hg', rfl⟩ := List.mem_map.1 hg
      obtain ⟨l, v, x, q1, q2, q3⟩ := names_iff.1 ⟨nb, gb⟩ g hg'
      obtain ⟨l', q4, hA⟩ := line_second hT q1
      exact ⟨l', v, x, q4, hA.value v q2, q3⟩)
  refine ⟨{ m with owned := x2.owned, targets := x2.targets, conventions := x2.conventions, addrNames := n' }, ?_⟩
  unfold Module.assemble
  rw [hZ, assembleLines_append k1, k2, hn']
  rfl

end Nsasm.Joined
