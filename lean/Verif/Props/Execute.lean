import Verif.Props.Flags

/-!
# Abstract execution over-approximates the processor (C18)

The processor is specified in `Verif/Spec/Cpu.lean`.
-/

namespace Nsasm.Props

open Nsasm Nsasm.Spec

/-- The instructions that move the stack pointer without the analysis noticing. -/
def Untracked (mn : Mnemonic) : Prop := mn ∈ [Mnemonic.phb, .phk, .phd, .plb, .pld, .txs, .tcs]

instance (mn : Mnemonic) : Decidable (Untracked mn) := by unfold Untracked; infer_instance

/-- What the theorem needs to know about a program point besides the tracked state
describing the processor.

* `operand` is the byte assembled for the operand of REP or SEP;
* a `yields` convention is one that can be written;
* the untracked stack instructions occur only where nothing is tracked on the stack;
* at XCE, a carry that is tracked as `original` has a value the E bit may have when `original`. -/
structure SideConditions (o : Meaning) (i : Instruction) (ctx : Ctx) (es : ExecutionState) (p : Cpu)
    (operand : UInt8) : Prop where
  operand : ∀ v, i.arg1.eval ctx = .ok v → operand = byteOf v
  yields : ∀ f, i.ret = .yields f → ∃ s, StatusFlags.fromName s = some f
  untracked : Untracked i.mnemonic → es.stack = .abandoned ∨ es.stack = .live []
  xce : i.mnemonic = .xce → es.flags.c = .original → o.e p.c

theorem constrained_bitIs {o oe : Bool → Prop} (ho : ∀ e m, oe e → o m → o (forced e m)) {m e : BitState} {v ve : Bool}
    (h : BitIs o m v) (he : BitIs oe e ve) : BitIs o (constrainedForEBit m e) (forced ve v) := by
  have := ho ve v
  cases m <;> cases e <;> cases ve <;> cases v <;>
    simp_all [constrainedForEBit, BitIs, forced]

theorem bitIs_unknown (o : Bool → Prop) (v : Bool) : BitIs o .unknown v := trivial

/-- Replacing a bit by a value `s` describes. -/
theorem set_bitIs {o oe : Bool → Prop} (ho : ∀ e m, oe e → o m → o (forced e m)) {s e : BitState} {v ve : Bool}
    (hv : ve = true → v = true) (h : BitIs o s v) (he : BitIs oe e ve) :
    BitIs o (constrainedForEBit s e) v := by
  have := constrained_bitIs ho h he
  cases ve <;> cases v <;> simp_all [forced]

theorem bitSet_byteOf (v : Int) (n : Nat) (hn : n < 8) :
    bit (byteOf v) n = Instruction.bitSet v n := by
  have h := byteOf_toNat v
  unfold bit Instruction.bitSet
  have hcast : ((byteOf v).toNat : Int) = v % 256 := h
  have : n = 0 ∨ n = 1 ∨ n = 2 ∨ n = 3 ∨ n = 4 ∨ n = 5 ∨ n = 6 ∨ n = 7 := by omega
  simp only [decide_eq_decide]
  rcases this with rfl | rfl | rfl | rfl | rfl | rfl | rfl | rfl <;> simp <;> omega

theorem repSep_sound {o : Meaning} (ho : o.Good) {p : Cpu} (hp : p.Ok) {f : StatusFlags}
    (h : FlagsDescribe o f p) {arg : Option Int} {operand : UInt8}
    (harg : ∀ v, arg = some v → operand = byteOf v) :
    FlagsDescribe o (Instruction.executeRepSep f .off arg)
      { p with c := p.c && !bit operand 0, x := forced p.e (p.x && !bit operand 4),
               m := forced p.e (p.m && !bit operand 5) } ∧
    FlagsDescribe o (Instruction.executeRepSep f .on arg)
      { p with c := p.c || bit operand 0, x := p.x || bit operand 4, m := p.m || bit operand 5 } := by
  obtain ⟨h1, h2, h3, h4⟩ := h
  have hem := ho.m_forced
  have hex := ho.x_forced
  have hpm : p.e = true → p.m = true := fun h => (hp h).1
  have hpx : p.e = true → p.x = true := fun h => (hp h).2
  obtain ⟨fe, fm, fx, fc⟩ := f
  obtain ⟨pe, pm, px, pc, ps⟩ := p
  simp only at h1 h2 h3 h4 hpm hpx
  cases arg with
  | none =>
    clear harg
    generalize bit operand 0 = b0
    generalize bit operand 4 = b4
    generalize bit operand 5 = b5
    constructor
    · refine ⟨?_, ?_, ?_, ?_⟩
      · simp only [Instruction.executeRepSep]; split_ifs <;> exact h1
      · have : BitIs o.m (if fm ≠ .off then constrainedForEBit .unknown fe else fm)
            (forced pe (pm && !b5)) := by
          split_ifs with hh
          · refine constrained_bitIs hem trivial h1
          · simp only [ne_eq, not_not] at hh; subst hh
            cases pe <;> simp_all [BitIs, forced]
        simp only [Instruction.executeRepSep, StatusFlags.setM, StatusFlags.setX, StatusFlags.setC]
        split_ifs <;> simp_all
      · have : BitIs o.x (if fx ≠ .off then constrainedForEBit .unknown fe else fx)
            (forced pe (px && !b4)) := by
          split_ifs with hh
          · refine constrained_bitIs hex trivial h1
          · simp only [ne_eq, not_not] at hh; subst hh
            cases pe <;> simp_all [BitIs, forced]
        simp only [Instruction.executeRepSep, StatusFlags.setM, StatusFlags.setX, StatusFlags.setC]
        split_ifs <;> simp_all
      · simp only [Instruction.executeRepSep, StatusFlags.setM, StatusFlags.setX, StatusFlags.setC]
        cases fc <;> simp_all [BitKnown]
        all_goals (split_ifs <;> simp_all [BitKnown])
    · refine ⟨?_, ?_, ?_, ?_⟩
      · simp only [Instruction.executeRepSep]; split_ifs <;> exact h1
      · have : BitIs o.m (if fm ≠ .on then constrainedForEBit .unknown fe else fm) (pm || b5) := by
          split_ifs with hh
          · refine set_bitIs hem ?_ trivial h1
            intro h; simp [hpm h]
          · simp only [ne_eq, not_not] at hh; subst hh
            simp_all [BitIs]
        simp only [Instruction.executeRepSep, StatusFlags.setM, StatusFlags.setX, StatusFlags.setC]
        split_ifs <;> simp_all
      · have : BitIs o.x (if fx ≠ .on then constrainedForEBit .unknown fe else fx) (px || b4) := by
          split_ifs with hh
          · refine set_bitIs hex ?_ trivial h1
            intro h; simp [hpx h]
          · simp only [ne_eq, not_not] at hh; subst hh
            simp_all [BitIs]
        simp only [Instruction.executeRepSep, StatusFlags.setM, StatusFlags.setX, StatusFlags.setC]
        split_ifs <;> simp_all
      · simp only [Instruction.executeRepSep, StatusFlags.setM, StatusFlags.setX, StatusFlags.setC]
        cases fc <;> simp_all [BitKnown]
        all_goals (split_ifs <;> simp_all [BitKnown])
  | some v =>
    rw [harg v rfl, bitSet_byteOf v 0 (by omega), bitSet_byteOf v 4 (by omega), bitSet_byteOf v 5 (by omega)]
    simp only [Instruction.executeRepSep]
    generalize Instruction.bitSet v 0 = b0
    generalize Instruction.bitSet v 4 = b4
    generalize Instruction.bitSet v 5 = b5
    have hm : BitIs o.m (constrainedForEBit .off fe) (forced pe false) :=
      constrained_bitIs hem rfl h1
    have hx : BitIs o.x (constrainedForEBit .off fe) (forced pe false) :=
      constrained_bitIs hex rfl h1
    have hm' : BitIs o.m (constrainedForEBit .on fe) true := set_bitIs hem (fun _ => rfl) rfl h1
    have hx' : BitIs o.x (constrainedForEBit .on fe) true := set_bitIs hex (fun _ => rfl) rfl h1
    have em : forced pe pm = pm := by cases pe <;> simp_all [forced]
    have ex : forced pe px = px := by cases pe <;> simp_all [forced]
    constructor <;> cases b0 <;> cases b4 <;> cases b5 <;>
      simp [FlagsDescribe, StatusFlags.setM, StatusFlags.setX, StatusFlags.setC, *] <;>
      simp_all [BitKnown]

/-- The stack claim of a tracked state. -/
def StackIs (o : Meaning) : Stack → List UInt8 → Prop
  | .abandoned, _ => True
  | .live l, s => StackDescribes o l s

theorem describes_iff {o : Meaning} {p : Cpu} {es : ExecutionState} :
    Describes o es p ↔ p.Ok ∧ FlagsDescribe o es.flags p ∧ StackIs o es.stack p.stack := by
  unfold Describes StackIs
  cases es.stack <;> rfl

theorem push_sound {o : Meaning} {st : Stack} {s : List UInt8} (h : StackIs o st s)
    {v : StackValue} {bs : List UInt8} (hv : EntryDescribes o v bs) :
    StackIs o (st.push v) (bs ++ s) := by
  cases st with
  | abandoned => trivial
  | live l => exact ⟨bs, s, rfl, hv, h⟩

theorem pullByte_sound {o : Meaning} {st : Stack} {s : List UInt8} (h : StackIs o st s) :
    StackIs o st.pullByte.2 (s.drop 1) ∧
    ((∃ b, s.head? = some b ∧ EntryDescribes o st.pullByte.1 [b]) ∨ st.pullByte.1 = .unknown) := by
  cases st with
  | abandoned => exact ⟨trivial, Or.inr rfl⟩
  | live l =>
    cases l with
    | nil => exact ⟨trivial, Or.inr rfl⟩
    | cons v l =>
      unfold Stack.pullByte
      simp only
      split
      · exact ⟨trivial, Or.inr rfl⟩
      · rename_i hv
        obtain ⟨bs, rest, rfl, h1, h2⟩ := h
        have hlen : bs.length = 1 := by
          cases v <;> first | exact h1 | skip
          · obtain ⟨b, rfl, -⟩ := h1; rfl
          · simp [StackValue.isVarSize] at hv
        obtain ⟨b, rfl⟩ := List.length_eq_one_iff.1 hlen
        exact ⟨h2, Or.inl ⟨b, rfl, h1⟩⟩

theorem entry_one {o : Meaning} {v : StackValue} (hv : v = .unknown ∨ (∃ b, v = .byte b) ∨
    (∃ r, v = .hi r) ∨ (∃ r, v = .lo r) ∨ v = .dbr) (b : UInt8) : EntryDescribes o v [b] := by
  rcases hv with rfl | ⟨_, rfl⟩ | ⟨_, rfl⟩ | ⟨_, rfl⟩ | rfl <;> rfl

theorem ofLo_one {o : Meaning} (r : RegName) (v : RegisterValue) (b : UInt8) :
    EntryDescribes o (.ofLo r v) [b] := by cases v <;> rfl

theorem ofHi_one {o : Meaning} (r : RegName) (v : RegisterValue) (b : UInt8) :
    EntryDescribes o (.ofHi r v) [b] := by cases v <;> rfl

theorem pushWord_sound {o : Meaning} {st : Stack} {s bs : List UInt8} (h : StackIs o st s)
    (hb : bs.length = 2) (w : Option Int) : StackIs o (st.pushWord w) (bs ++ s) := by
  obtain ⟨b0, b1, rfl⟩ : ∃ a b, bs = [a, b] := by
    match bs, hb with
    | [a, b], _ => exact ⟨a, b, rfl⟩
  have : ([b0, b1] ++ s : List UInt8) = [b0] ++ ([b1] ++ s) := rfl
  rw [this]
  cases w with
  | none =>
    refine push_sound (bs := [b0]) (push_sound (bs := [b1]) h ?_) ?_ <;> rfl
  | some v =>
    refine push_sound (bs := [b0]) (push_sound (bs := [b1]) h ?_) ?_ <;> rfl

theorem pushReg_sound {o : Meaning} {st : Stack} {s bs : List UInt8} (h : StackIs o st s)
    (r : RegName) (v : RegisterValue) {b : BitState} {on : Bool} {ob : Bool → Prop}
    (hb : BitIs ob b on) (hlen : bs.length = if on then 1 else 2)
    (hr : ob on → match r with | .a => o.a (if on then 1 else 2) | _ => o.i (if on then 1 else 2)) :
    StackIs o (st.pushReg r v b) (bs ++ s) := by
  cases st with
  | abandoned => trivial
  | live l =>
    cases b with
    | unknown => trivial
    | original =>
      simp only [BitIs] at hb
      refine ⟨bs, s, rfl, ?_, h⟩
      have := hr hb
      cases r <;> simp only [StackValue.ofVar, EntryDescribes, hlen] <;> exact this
    | on =>
      simp only [BitIs] at hb
      subst hb
      simp only [if_true] at hlen
      obtain ⟨b, rfl⟩ := List.length_eq_one_iff.1 hlen
      exact ⟨[b], s, rfl, ofLo_one r v b, h⟩
    | off =>
      simp only [BitIs] at hb
      subst hb
      simp only [Bool.false_eq_true, if_false] at hlen
      obtain ⟨b0, b1, rfl⟩ : ∃ a b, bs = [a, b] := by
        match bs, hlen with
        | [a, b], _ => exact ⟨a, b, rfl⟩
      exact ⟨[b0], b1 :: s, rfl, ofLo_one r v b0, [b1], s, rfl, ofHi_one r v b1, h⟩

theorem pullReg_sound {o : Meaning} {st st' : Stack} {s : List UInt8} (h : StackIs o st s)
    (r : RegName) {b : BitState} {on : Bool} {ob : Bool → Prop} (hb : BitIs ob b on) {v : RegisterValue}
    (hok : st.pullReg r b = .ok (v, st')) : StackIs o st' (s.drop (if on then 1 else 2)) := by
  cases st with
  | abandoned => simp only [Stack.pullReg, Res.ok.injEq, Prod.mk.injEq] at hok; rw [← hok.2]; trivial
  | live l =>
    cases b with
    | unknown => simp only [Stack.pullReg, Res.ok.injEq, Prod.mk.injEq] at hok; rw [← hok.2]; trivial
    | original =>
      simp only [Stack.pullReg] at hok
      obtain ⟨⟨v', s'⟩, -, h2⟩ := Res.bind_eq_ok.1 hok
      simp only at h2
      split at h2
      · split at h2
        · simp at h2
        · simp only [Res.ok.injEq, Prod.mk.injEq] at h2; rw [← h2.2]; trivial
      · simp only [Res.ok.injEq, Prod.mk.injEq] at h2; rw [← h2.2]; trivial
    | on =>
      simp only [BitIs] at hb
      subst hb
      have hp := (pullByte_sound h).1
      simp only [Stack.pullReg] at hok
      have : st' = (Stack.live l).pullByte.2 := by
        split at hok
        · split at hok <;> simp only [Res.ok.injEq, Prod.mk.injEq] at hok <;> exact hok.2.symm
        · simp only [Res.ok.injEq, Prod.mk.injEq] at hok; exact hok.2.symm
        · simp only [Res.ok.injEq, Prod.mk.injEq] at hok; exact hok.2.symm
      rw [this]
      exact hp
    | off =>
      simp only [BitIs] at hb
      subst hb
      have hp := (pullByte_sound (pullByte_sound h).1).1
      simp only [Stack.pullReg] at hok
      have : st' = (Stack.live l).pullByte.2.pullByte.2 := by
        split at hok
        · split at hok <;> simp only [Res.ok.injEq, Prod.mk.injEq] at hok <;> exact hok.2.symm
        · simp only [Res.ok.injEq, Prod.mk.injEq] at hok; exact hok.2.symm
        · simp only [Res.ok.injEq, Prod.mk.injEq] at hok; exact hok.2.symm
      rw [this]
      simpa [List.drop_drop] using hp

/-- The states a name can denote: normal, and nothing `original`. -/
theorem fromName_bits {s : Str} {f : StatusFlags} (h : StatusFlags.fromName s = some f) :
    Normal f ∧ f.e ≠ .original ∧ f.m ≠ .original ∧ f.x ≠ .original := by
  refine ⟨normal_fromName h, ?_⟩
  have := (C17_accepted_iff s f).1 h
  simp only [documented, List.mem_cons, Prod.mk.injEq, List.not_mem_nil, or_false] at this
  rcases this with ⟨-, rfl⟩ | ⟨-, rfl⟩ | ⟨-, rfl⟩ | ⟨-, rfl⟩ | ⟨-, rfl⟩ | ⟨-, rfl⟩ | ⟨-, rfl⟩ |
    ⟨-, rfl⟩ | ⟨-, rfl⟩ | ⟨-, rfl⟩ | ⟨-, rfl⟩ <;> decide

theorem setC_sound {o : Meaning} {p : Cpu} {f : StatusFlags} (h : FlagsDescribe o f p) (b : BitState)
    (c : Bool) (hb : BitKnown b c) : FlagsDescribe o (f.setC b) { p with c := c } :=
  ⟨h.1, h.2.1, h.2.2.1, hb⟩

theorem maybeArg_spec {arg : Expr} {ctx : Ctx} {o : Option Int}
    (h : Instruction.maybeArg arg ctx = .ok o) {operand : UInt8}
    (hop : ∀ v, arg.eval ctx = .ok v → operand = byteOf v) : ∀ v, o = some v → operand = byteOf v := by
  intro v hv
  subst hv
  unfold Instruction.maybeArg at h
  split at h <;> simp_all

theorem ite_cases {α : Type} {c : Prop} [Decidable c] {a b r : α} (h : (if c then a else b) = r) :
    (c ∧ a = r) ∨ (¬c ∧ b = r) := by
  split at h
  · exact Or.inl ⟨‹_›, h⟩
  · exact Or.inr ⟨‹_›, h⟩

/-- If the tracked state describes the processor, and the instruction is accepted, then
the new tracked state describes every processor state the instruction can lead to. -/
theorem execute_sound {o : Meaning} (ho : o.Good) {p q : Cpu} {i : Instruction} {ctx : Ctx}
    {es es' : ExecutionState} {operand : UInt8} (hd : Describes o es p)
    (hsc : SideConditions o i ctx es p operand) (hok : i.execute es ctx = .ok es')
    (hstep : Follows i.mnemonic operand i.ret p q) : Describes o es' q := by
  rw [describes_iff] at hd ⊢
  obtain ⟨hp, hf, hs⟩ := hd
  have hem := ho.m_forced
  have hex := ho.x_forced
  have hpm : p.e = true → p.m = true := fun h => (hp h).1
  have hpx : p.e = true → p.x = true := fun h => (hp h).2
  unfold Instruction.execute at hok
  obtain ⟨-, -, hok⟩ := Res.bind_eq_ok.1 hok
  extract_lets m at hok
  subst m
  -- sec, bcc
  rcases ite_cases hok with ⟨hm, hok⟩ | ⟨hn, hok⟩
  · clear * - hm hok hstep hsc hf hs hp hem hex hpm hpx ho
    cases hok
    rcases hm with hm | hm <;> rw [hm] at hstep
    · subst hstep; exact ⟨hp, setC_sound hf _ _ rfl, hs⟩
    · obtain ⟨h1, rfl⟩ := hstep; exact ⟨hp, ⟨hf.1, hf.2.1, hf.2.2.1, h1⟩, hs⟩
  -- clc, bcs
  rcases ite_cases hok with ⟨hm, hok⟩ | ⟨hn, hok⟩
  · clear * - hm hok hstep hsc hf hs hp hem hex hpm hpx ho
    cases hok
    rcases hm with hm | hm <;> rw [hm] at hstep
    · subst hstep; exact ⟨hp, setC_sound hf _ _ rfl, hs⟩
    · obtain ⟨h1, rfl⟩ := hstep; exact ⟨hp, ⟨hf.1, hf.2.1, hf.2.2.1, h1⟩, hs⟩
  -- rep, sep
  rcases ite_cases hok with ⟨hm, hok⟩ | ⟨hn, hok⟩
  · clear * - hm hok hstep hsc hf hs hp hem hex hpm hpx ho
    obtain ⟨arg, harg, hok⟩ := Res.bind_eq_ok.1 hok
    cases hok
    have hrs := repSep_sound ho hp hf (maybeArg_spec harg hsc.operand)
    rcases hm with hm | hm <;> rw [hm] at hstep ⊢
    · subst hstep
      refine ⟨?_, hrs.1, hs⟩
      intro h
      simp only at h ⊢
      simp [forced, h]
    · subst hstep
      refine ⟨?_, ?_, hs⟩
      · intro h
        simp only at h ⊢
        simp [hpm h, hpx h]
      · simpa using hrs.2
  -- arithmetic
  rcases ite_cases hok with ⟨hm, hok⟩ | ⟨hn, hok⟩
  · clear * - hm hok hstep hsc hf hs hp hem hex hpm hpx ho
    cases hok
    have : ∃ c, q = { p with c := c } := by
      simp only [List.mem_cons, List.not_mem_nil, or_false] at hm
      rcases hm with hm | hm | hm | hm | hm | hm | hm | hm <;> rw [hm] at hstep <;> exact hstep
    obtain ⟨c, rfl⟩ := this
    exact ⟨hp, setC_sound hf _ _ trivial, hs⟩
  rcases ite_cases hok with ⟨hm, hok⟩ | ⟨hn, hok⟩
  · clear * - hm hok hstep hsc hf hs hp hem hex hpm hpx ho
    cases hok
    have : ∃ c, q = { p with c := c } := by
      simp only [List.mem_cons, List.not_mem_nil, or_false] at hm
      rcases hm with hm | hm | hm <;> rw [hm] at hstep <;> exact hstep
    obtain ⟨c, rfl⟩ := this
    exact ⟨hp, setC_sound hf _ _ trivial, hs⟩
  -- logic
  rcases ite_cases hok with ⟨hm, hok⟩ | ⟨hn, hok⟩
  · clear * - hm hok hstep hsc hf hs hp hem hex hpm hpx ho
    cases hok
    have : q = p := by
      simp only [List.mem_cons, List.not_mem_nil, or_false] at hm
      rcases hm with hm | hm | hm <;> rw [hm] at hstep <;> exact hstep
    subst this
    exact ⟨hp, hf, hs⟩
  -- increments
  rcases ite_cases hok with ⟨hm, hok⟩ | ⟨hn, hok⟩
  · clear * - hm hok hstep hsc hf hs hp hem hex hpm hpx ho
    have : q = p := by
      simp only [List.mem_cons, List.not_mem_nil, or_false] at hm
      rcases hm with hm | hm | hm | hm | hm | hm <;> rw [hm] at hstep <;> exact hstep
    subst this
    have : es'.flags = es.flags ∧ es'.stack = es.stack := by
      unfold Instruction.executeIncDec at hok
      split at hok
      · cases hok; exact ⟨rfl, rfl⟩
      · simp only at hok
        split at hok
        · obtain ⟨a, -, h⟩ := Res.bind_eq_ok.1 hok; cases h; exact ⟨rfl, rfl⟩
        split at hok
        · obtain ⟨a, -, h⟩ := Res.bind_eq_ok.1 hok; cases h; exact ⟨rfl, rfl⟩
        · obtain ⟨a, -, h⟩ := Res.bind_eq_ok.1 hok; cases h; exact ⟨rfl, rfl⟩
    rw [this.1, this.2]
    exact ⟨hp, hf, hs⟩
  -- loads
  rcases ite_cases hok with ⟨hm, hok⟩ | ⟨hn, hok⟩
  · clear * - hm hok hstep hsc hf hs hp hem hex hpm hpx ho
    have : q = p := by
      simp only [List.mem_cons, List.not_mem_nil, or_false] at hm
      rcases hm with hm | hm | hm <;> rw [hm] at hstep <;> exact hstep
    subst this
    have : es'.flags = es.flags ∧ es'.stack = es.stack := by
      unfold Instruction.executeLoad at hok
      split at hok
      · obtain ⟨a, -, h⟩ := Res.bind_eq_ok.1 hok
        simp only at h
        split at h
        · cases h; exact ⟨rfl, rfl⟩
        split at h
        · cases h; exact ⟨rfl, rfl⟩
        · cases h; exact ⟨rfl, rfl⟩
      · cases hok; exact ⟨rfl, rfl⟩
    rw [this.1, this.2]
    exact ⟨hp, hf, hs⟩
  -- block moves
  rcases ite_cases hok with ⟨hm, hok⟩ | ⟨hn, hok⟩
  · clear * - hm hok hstep hsc hf hs hp hem hex hpm hpx ho
    have : q = p := by
      rcases hm with hm | hm <;> rw [hm] at hstep <;> exact hstep
    subst this
    have : es'.flags = es.flags ∧ es'.stack = es.stack := by
      unfold Instruction.executeMove at hok
      obtain ⟨_, -, hok⟩ := Res.bind_eq_ok.1 hok
      obtain ⟨⟨_, _⟩, -, hok⟩ := Res.bind_eq_ok.1 hok
      obtain ⟨_, -, hok⟩ := Res.bind_eq_ok.1 hok
      cases hok; exact ⟨rfl, rfl⟩
    rw [this.1, this.2]
    exact ⟨hp, hf, hs⟩
  -- pea
  rcases ite_cases hok with ⟨hm, hok⟩ | ⟨hn, hok⟩
  · clear * - hm hok hstep hsc hf hs hp hem hex hpm hpx ho
    rw [hm] at hstep
    obtain ⟨arg, -, hok⟩ := Res.bind_eq_ok.1 hok
    cases hok
    obtain ⟨bs, hb, rfl⟩ := hstep
    exact ⟨hp, hf, pushWord_sound hs hb _⟩
  -- pei, per
  rcases ite_cases hok with ⟨hm, hok⟩ | ⟨hn, hok⟩
  · clear * - hm hok hstep hsc hf hs hp hem hex hpm hpx ho
    cases hok
    have : Pushes 2 p q := by rcases hm with hm | hm <;> rw [hm] at hstep <;> exact hstep
    obtain ⟨bs, hb, rfl⟩ := this
    exact ⟨hp, hf, pushWord_sound hs hb none⟩
  -- pha, phx, phy
  rcases ite_cases hok with ⟨hm, hok⟩ | ⟨hn, hok⟩
  · clear * - hm hok hstep hsc hf hs hp hem hex hpm hpx ho
    rw [hm] at hstep
    cases hok
    obtain ⟨bs, hb, rfl⟩ := hstep
    exact ⟨hp, hf, pushReg_sound hs .a es.a hf.2.1 hb (ho.a_size _)⟩
  rcases ite_cases hok with ⟨hm, hok⟩ | ⟨hn, hok⟩
  · clear * - hm hok hstep hsc hf hs hp hem hex hpm hpx ho
    rw [hm] at hstep
    cases hok
    obtain ⟨bs, hb, rfl⟩ := hstep
    exact ⟨hp, hf, pushReg_sound hs .x es.x hf.2.2.1 hb (ho.i_size _)⟩
  rcases ite_cases hok with ⟨hm, hok⟩ | ⟨hn, hok⟩
  · clear * - hm hok hstep hsc hf hs hp hem hex hpm hpx ho
    rw [hm] at hstep
    cases hok
    obtain ⟨bs, hb, rfl⟩ := hstep
    exact ⟨hp, hf, pushReg_sound hs .y es.y hf.2.2.1 hb (ho.i_size _)⟩
  -- pla, plx, ply
  rcases ite_cases hok with ⟨hm, hok⟩ | ⟨hn, hok⟩
  · clear * - hm hok hstep hsc hf hs hp hem hex hpm hpx ho
    rw [hm] at hstep
    obtain ⟨⟨v, s'⟩, h1, hok⟩ := Res.bind_eq_ok.1 hok
    cases hok
    simp only [Follows, Pulls] at hstep
    subst hstep
    exact ⟨hp, hf, pullReg_sound hs .a hf.2.1 h1⟩
  rcases ite_cases hok with ⟨hm, hok⟩ | ⟨hn, hok⟩
  · clear * - hm hok hstep hsc hf hs hp hem hex hpm hpx ho
    rw [hm] at hstep
    obtain ⟨⟨v, s'⟩, h1, hok⟩ := Res.bind_eq_ok.1 hok
    cases hok
    simp only [Follows, Pulls] at hstep
    subst hstep
    exact ⟨hp, hf, pullReg_sound hs .x hf.2.2.1 h1⟩
  rcases ite_cases hok with ⟨hm, hok⟩ | ⟨hn, hok⟩
  · clear * - hm hok hstep hsc hf hs hp hem hex hpm hpx ho
    rw [hm] at hstep
    obtain ⟨⟨v, s'⟩, h1, hok⟩ := Res.bind_eq_ok.1 hok
    cases hok
    simp only [Follows, Pulls] at hstep
    subst hstep
    exact ⟨hp, hf, pullReg_sound hs .y hf.2.2.1 h1⟩
  -- php
  rcases ite_cases hok with ⟨hm, hok⟩ | ⟨hn, hok⟩
  · clear * - hm hok hstep hsc hf hs hp hem hex hpm hpx ho
    rw [hm] at hstep
    cases hok
    obtain ⟨b, h0, h4, h5, rfl⟩ := hstep
    refine ⟨hp, hf, push_sound (bs := [b]) hs ⟨b, rfl, ?_, ?_, ?_⟩⟩
    · rw [h5]; exact hf.2.1
    · rw [h4]; exact hf.2.2.1
    · rw [h0]; exact hf.2.2.2
  -- plp
  rcases ite_cases hok with ⟨hm, hok⟩ | ⟨hn, hok⟩
  · clear * - hm hok hstep hsc hf hs hp hem hex hpm hpx ho
    rw [hm] at hstep
    cases hok
    obtain ⟨b, rest, hst, rfl⟩ := hstep
    have hp' := pullByte_sound hs
    have hrest : rest = p.stack.drop 1 := by
      rcases hst with h | ⟨h, rfl⟩ <;> rw [h] <;> rfl
    refine ⟨?_, ?_, ?_⟩
    · intro h; simp only at h ⊢; simp [forced, h]
    · unfold ExecutionState.pullFlags
      simp only
      split
      · rename_i f hfl
        obtain ⟨b', hb', hdesc⟩ : ∃ b', p.stack.head? = some b' ∧ EntryDescribes o (.flags f) [b'] := by
          rcases hp'.2 with h | h
          · rwa [hfl] at h
          · rw [hfl] at h; simp at h
        have hbb : b' = b := by
          rcases hst with h | ⟨h, -⟩
          · rw [h] at hb'; simpa using hb'.symm
          · rw [h] at hb'; simp at hb'
        subst hbb
        obtain ⟨b'', hb'', k1, k2, k3⟩ := hdesc
        simp only [List.cons.injEq, and_true] at hb''
        subst hb''
        exact ⟨hf.1, constrained_bitIs hem k1 hf.1, constrained_bitIs hex k2 hf.1, k3⟩
      · exact ⟨hf.1, constrained_bitIs hem trivial hf.1, constrained_bitIs hex trivial hf.1, trivial⟩
    · unfold ExecutionState.pullFlags
      simp only
      rw [hrest]
      split <;> exact hp'.1
  -- xce
  rcases ite_cases hok with ⟨hm, hok⟩ | ⟨hn, hok⟩
  · clear * - hm hok hstep hsc hf hs hp hem hex hpm hpx ho
    have hx := hsc.xce hm
    rw [hm] at hstep
    cases hok
    simp only [Follows] at hstep
    subst hstep
    have hc : BitIs o.e es.flags.c p.c := by
      have h4 := hf.2.2.2
      cases hcc : es.flags.c <;> rw [hcc] at h4 hx
      · exact h4
      · exact h4
      · exact hx rfl
      · trivial
    refine ⟨?_, ⟨hc, constrained_bitIs hem hf.2.1 hc, constrained_bitIs hex hf.2.2.1 hc, ?_⟩, hs⟩
    · intro h; simp only at h ⊢; simp [forced, h]
    · have h1 := hf.1
      simp only [StatusFlags.exchangeCE]
      cases hee : es.flags.e <;> rw [hee] at h1 <;> first | exact h1 | trivial
  -- calls
  rcases ite_cases hok with ⟨hm, hok⟩ | ⟨hn, hok⟩
  · clear * - hm hok hstep hsc hf hs hp hem hex hpm hpx ho
    have hfl : es' = { es with flags := ((i.ret.yieldFlags).getD es.flags).setC .unknown } := by
      cases hok; rfl
    clear hok
    subst hfl
    have : Returns i.ret p q := by
      simp only [List.mem_cons, List.not_mem_nil, or_false] at hm
      rcases hm with hm | hm | hm | hm | hm <;> rw [hm] at hstep <;> exact hstep
    obtain ⟨hq, hqs, hret⟩ := this
    refine ⟨hq, ?_, by simp only; rw [hqs]; exact hs⟩
    cases hr : i.ret with
    | yields f =>
      rw [hr] at hret
      obtain ⟨s, hname⟩ := hsc.yields f hr
      obtain ⟨-, n1, n2, n3⟩ := fromName_bits hname
      obtain ⟨a1, a2, a3, a4, a5, a6⟩ := hret
      refine ⟨?_, ?_, ?_, trivial⟩
      · show BitIs o.e f.e q.e
        cases h : f.e <;> simp_all [BitIs]
      · show BitIs o.m f.m q.m
        cases h : f.m <;> simp_all [BitIs]
      · show BitIs o.x f.x q.x
        cases h : f.x <;> simp_all [BitIs]
    | default =>
      rw [hr] at hret
      obtain ⟨a1, a2, a3⟩ := hret
      refine ⟨?_, ?_, ?_, trivial⟩
      · rw [a1]; exact hf.1
      · rw [a2]; exact hf.2.1
      · rw [a3]; exact hf.2.2.1
    | noreturn =>
      rw [hr] at hret
      obtain ⟨a1, a2, a3⟩ := hret
      refine ⟨?_, ?_, ?_, trivial⟩
      · rw [a1]; exact hf.1
      · rw [a2]; exact hf.2.1
      · rw [a3]; exact hf.2.2.1
  -- everything else
  cases hok
  by_cases hu : Untracked i.mnemonic
  · have hst := hsc.untracked hu
    have hq : ∃ s, q = { p with stack := s } := by
      simp only [Untracked, List.mem_cons, List.not_mem_nil, or_false] at hu
      rcases hu with hm | hm | hm | hm | hm | hm | hm <;> rw [hm] at hstep
      · obtain ⟨bs, -, rfl⟩ := hstep; exact ⟨_, rfl⟩
      · obtain ⟨bs, -, rfl⟩ := hstep; exact ⟨_, rfl⟩
      · obtain ⟨bs, -, rfl⟩ := hstep; exact ⟨_, rfl⟩
      · exact ⟨_, hstep⟩
      · exact ⟨_, hstep⟩
      · exact hstep
      · exact hstep
    obtain ⟨s, rfl⟩ := hq
    refine ⟨hp, hf, ?_⟩
    rcases hst with h | h <;> rw [h] <;> trivial
  · have hq : q = p := by
      generalize i.mnemonic = mn at *
      cases mn <;> first | exact hstep | (exfalso; simp_all [Untracked]; done)
    subst hq
    exact ⟨hp, hf, hs⟩

/-- A relative branch is one of the ten branch instructions. -/
theorem legal_branch {mn : Mnemonic} {mode : Mode} (hm : mode = .rel8 ∨ mode = .rel16)
    (h : isLegalCombination mn mode = true) (hper : mn ≠ .per) :
    mn ∈ [Mnemonic.bcc, .bcs, .beq, .bmi, .bne, .bpl, .bra, .brl, .bvc, .bvs] := by
  revert h hper
  rcases hm with rfl | rfl <;> revert mn <;> decide +kernel

theorem branch_accepted {i : Instruction} {es es' : ExecutionState} {ctx : Ctx}
    (hb : i.isLocalBranch = true) (h : i.execute es ctx = .ok es') :
    i.mnemonic ∈ [Mnemonic.bcc, .bcs, .beq, .bmi, .bne, .bpl, .bra, .brl, .bvc, .bvs] := by
  simp only [Instruction.isLocalBranch, Bool.and_eq_true, Bool.or_eq_true, decide_eq_true_eq] at hb
  unfold Instruction.execute at h
  obtain ⟨u, hc, -⟩ := Res.bind_eq_ok.1 h
  clear h
  unfold Instruction.checkConsistency at hc
  simp only at hc
  rcases ite_cases hc with ⟨-, hc⟩ | ⟨hl, -⟩
  · simp at hc
  · split at hl
    · exfalso
      revert hl
      rcases hb.1 with h | h <;> rw [h] <;> decide +kernel
    · exact legal_branch hb.1 (by simpa using hl) hb.2

theorem branch_sound {o : Meaning} {p q : Cpu} {i : Instruction}
    {es es' : ExecutionState} (hd : Describes o es p) (hb : i.isLocalBranch = true)
    (hok : i.executeBranch es = .ok es') (hstep : Branches i.mnemonic p q) : Describes o es' q := by
  rw [describes_iff] at hd ⊢
  obtain ⟨hp, hf, hs⟩ := hd
  unfold Instruction.executeBranch at hok
  obtain ⟨e1, h1, hok⟩ := Res.bind_eq_ok.1 hok
  have hmn := branch_accepted hb h1
  have h1' : e1 = es ∨ (i.mnemonic = .bcc ∧ e1 = { es with flags := es.flags.setC .on }) ∨
      (i.mnemonic = .bcs ∧ e1 = { es with flags := es.flags.setC .off }) := by
    unfold Instruction.execute at h1
    obtain ⟨-, -, h1⟩ := Res.bind_eq_ok.1 h1
    clear hstep hok hb
    simp only [List.mem_cons, List.not_mem_nil, or_false] at hmn
    rcases hmn with hm | hm | hm | hm | hm | hm | hm | hm | hm | hm <;> rw [hm] at h1 <;>
      simp at h1 <;> simp [hm, h1.symm]
  rcases ite_cases hok with ⟨hm, hok⟩ | ⟨hn, hok⟩
  · cases hok
    rw [hm] at hstep
    obtain ⟨hc, rfl⟩ := hstep
    rcases h1' with rfl | ⟨-, rfl⟩ | ⟨h, -⟩
    · exact ⟨hp, ⟨hf.1, hf.2.1, hf.2.2.1, hc⟩, hs⟩
    · exact ⟨hp, ⟨hf.1, hf.2.1, hf.2.2.1, hc⟩, hs⟩
    · rw [hm] at h; cases h
  rcases ite_cases hok with ⟨hm, hok⟩ | ⟨hn', hok⟩
  · cases hok
    rw [hm] at hstep
    obtain ⟨hc, rfl⟩ := hstep
    rcases h1' with rfl | ⟨h, -⟩ | ⟨-, rfl⟩
    · exact ⟨hp, ⟨hf.1, hf.2.1, hf.2.2.1, hc⟩, hs⟩
    · exact absurd h hn
    · exact ⟨hp, ⟨hf.1, hf.2.1, hf.2.2.1, hc⟩, hs⟩
  · cases hok
    have : q = p := by
      clear h1 h1' hb hs hf
      generalize i.mnemonic = mn at *
      cases mn <;> first | exact hstep | (exfalso; simp_all; done)
    subst this
    rcases h1' with rfl | ⟨h, -⟩ | ⟨h, -⟩
    · exact ⟨hp, hf, hs⟩
    · exact absurd h hn
    · exact absurd h hn'

/-! ## Paths -/

/-- One instruction, executed by the analysis (`es` to `es'`) and by the processor (`p`
to `q`), falling through or taking a branch.  The operand byte of REP and SEP is the one
that is assembled, if the analysis knows it. -/
inductive Step (ctx : Ctx) (i : Instruction) (es : ExecutionState) (p : Cpu) :
    ExecutionState → Cpu → Prop
  | next {es' : ExecutionState} {q : Cpu} (operand : UInt8)
      (accepted : i.execute es ctx = .ok es')
      (assembled : ∀ v, i.arg1.eval ctx = .ok v → operand = byteOf v)
      (executes : Follows i.mnemonic operand i.ret p q) : Step ctx i es p es' q
  | branch {es' : ExecutionState} {q : Cpu} (isBranch : i.isLocalBranch = true)
      (accepted : i.executeBranch es = .ok es') (executes : Branches i.mnemonic p q) :
      Step ctx i es p es' q

/-- A path of any length: the instructions it goes through, each satisfying `ok` where it
is executed. -/
inductive Path (ok : Instruction → ExecutionState → Cpu → Prop) (ctx : Ctx) :
    List Instruction → ExecutionState → Cpu → ExecutionState → Cpu → Prop
  | nil {es p} : Path ok ctx [] es p es p
  | cons {i is es p es1 p1 es2 p2} (hok : ok i es p) (first : Step ctx i es p es1 p1)
      (rest : Path ok ctx is es1 p1 es2 p2) : Path ok ctx (i :: is) es p es2 p2

/-- The conventions are ones that can be written, and the stack instructions the analysis
does not track are used only where nothing is tracked on the stack. -/
def Tame (i : Instruction) (es : ExecutionState) : Prop :=
  (∀ f, i.ret = .yields f → ∃ s, StatusFlags.fromName s = some f) ∧
  (Untracked i.mnemonic → es.stack = .abandoned ∨ es.stack = .live [])

theorem describes_known {o : Meaning} {es : ExecutionState} {p : Cpu} (h : Describes o es p) :
    KnownFlagsRight es.flags p := by
  obtain ⟨-, ⟨h1, h2, h3, h4⟩, -⟩ := h
  refine ⟨?_, ?_, ?_, ?_, ?_, ?_, ?_, ?_⟩ <;> intro hh <;> simp_all [BitIs, BitKnown]

theorem path_sound {o : Meaning} (ho : o.Good) {ok : Instruction → ExecutionState → Cpu → Prop}
    (hx : ∀ i es p, ok i es p →
      Tame i es ∧ (i.mnemonic = .xce → es.flags.c = .original → o.e p.c))
    {ctx : Ctx} {is : List Instruction} {es es' : ExecutionState} {p p' : Cpu}
    (h : Path ok ctx is es p es' p') (hd : Describes o es p) : Describes o es' p' := by
  induction h with
  | nil => exact hd
  | cons hok first rest ih =>
    apply ih
    obtain ⟨⟨hy, hu⟩, hxce⟩ := hx _ _ _ hok
    cases first with
    | next operand accepted assembled executes =>
      exact execute_sound ho hd ⟨assembled, hy, hu, hxce⟩ accepted executes
    | branch isBranch accepted executes => exact branch_sound hd isBranch accepted executes

/-- **Known flags are right.**  Start where `.entry f` starts, in any processor state that
agrees with `f`, and follow any path of accepted instructions, of any length; every flag
that is then claimed known has the claimed value.

Partial: `Tame` excludes PHB, PHD, PHK, PLB, PLD, TCS, TXS where something is tracked on
the stack; there the claim is false, see `C18_violated`. -/
theorem C18_known_flags_partial {f : StatusFlags} {p p' : Cpu} (hp : p.Ok)
    (hf : KnownFlagsRight f p) {ctx : Ctx} {is : List Instruction} {es' : ExecutionState}
    (h : Path (fun i es _ => Tame i es) ctx is (.init f) p es' p') :
    KnownFlagsRight es'.flags p' := by
  have hd : Describes .anything (.init f) p := by
    refine ⟨hp, ?_, trivial⟩
    obtain ⟨e, m, x, c⟩ := f
    obtain ⟨h1, h2, h3, h4, h5, h6, h7, h8⟩ := hf
    refine ⟨?_, ?_, ?_, ?_⟩
    · show BitIs _ (StatusFlags.incomingBit e) p.e
      cases e <;> simp_all [StatusFlags.incomingBit, BitIs, Meaning.anything]
    · show BitIs _ (StatusFlags.incomingBit m) p.m
      cases m <;> simp_all [StatusFlags.incomingBit, BitIs, Meaning.anything]
    · show BitIs _ (StatusFlags.incomingBit x) p.x
      cases x <;> simp_all [StatusFlags.incomingBit, BitIs, Meaning.anything]
    · show BitKnown (StatusFlags.incomingBit c) p.c
      cases c <;> simp_all [StatusFlags.incomingBit, BitKnown]
  exact describes_known (path_sound good_anything (fun i es p h => ⟨h, fun _ _ => trivial⟩) h hd)

/-- **Everything the state says is right**, including what it says about the stack and
that a flag is as on entry.

Partial: as above; and where XCE is executed with a carry the analysis knows nothing
about, the carry must equal the E bit on entry (the analysis records both as `original`
and forgets which is which). -/
theorem C18_original_flags_partial {entry p p' : Cpu} (he : entry.Ok) {es es' : ExecutionState}
    (hd : Describes (.asIn entry) es p) {ctx : Ctx} {is : List Instruction}
    (h : Path (fun i es p => Tame i es ∧
      (i.mnemonic = .xce → es.flags.c = .original → p.c = entry.e)) ctx is es p es' p') :
    Describes (.asIn entry) es' p' :=
  path_sound (good_asIn he) (fun _ _ _ h => h) h hd

/-- An instruction without an argument. -/
def plain (mn : Mnemonic) : Instruction := ⟨mn, .none, .imp, .null, .null, .default⟩

/-- An instruction with an immediate byte. -/
def immB (mn : Mnemonic) (v : Int) : Instruction := ⟨mn, .none, .imm_b, .lit v .byte, .null, .default⟩

/-- The claim is false in general: after `.entry m8x8`, PHP, PHB, PLP the analysis claims
M is on, but PLP has pulled the data bank register. -/
theorem C18_violated : ∃ (f : StatusFlags) (p p' : Cpu) (is : List Instruction) (es' : ExecutionState),
    (∃ s, StatusFlags.fromName s = some f) ∧ p.Ok ∧ KnownFlagsRight f p ∧
    Path (fun _ _ _ => True) nullCtx is (.init f) p es' p' ∧
    es'.flags.m = .on ∧ p'.m = false := by
  refine ⟨⟨.off, .on, .on, .unknown⟩, ⟨false, true, true, false, []⟩,
    ⟨false, false, false, false, [0x30]⟩, [plain .php, plain .phb, plain .plp],
    ⟨.unknown, .unknown, .unknown, .unknown, ⟨.off, .on, .on, .original⟩, .live []⟩,
    ⟨cs!"m8x8", by decide +kernel⟩, by simp [Cpu.Ok], by simp [KnownFlagsRight], ?_, rfl, rfl⟩
  have hn : ∀ mn v, (plain mn).arg1.eval nullCtx = .ok v → (0 : UInt8) = byteOf v := by
    intro mn v h; simp [plain, Expr.eval] at h
  refine .cons trivial (.next (q := ⟨false, true, true, false, [0x30]⟩) 0
    (es' := ⟨.unknown, .unknown, .unknown, .unknown, ⟨.off, .on, .on, .original⟩,
      .live [.flags ⟨.off, .on, .on, .original⟩]⟩) (by decide +kernel) (hn _)
    ⟨0x30, by decide, by decide, by decide, rfl⟩) ?_
  refine .cons trivial (.next (q := ⟨false, true, true, false, [0x00, 0x30]⟩) 0
    (es' := ⟨.unknown, .unknown, .unknown, .unknown, ⟨.off, .on, .on, .original⟩,
      .live [.flags ⟨.off, .on, .on, .original⟩]⟩) (by decide +kernel) (hn _)
    ⟨[0x00], rfl, rfl⟩) ?_
  exact .cons trivial (.next 0 (by decide +kernel) (hn _)
    ⟨0x00, [0x30], Or.inl rfl, by decide⟩) .nil

/-- A path that goes through a tame program: `.entry m8x16`, REP #$20, PHP, SEP #$30, PLP. -/
example : ∃ (p' : Cpu) (es' : ExecutionState),
    Path (fun i es _ => Tame i es) nullCtx [immB .rep 0x20, plain .php, immB .sep 0x30, plain .plp]
      (.init ⟨.off, .on, .off, .unknown⟩) ⟨false, true, false, true, []⟩ es' p' ∧
    es'.flags = ⟨.off, .off, .off, .original⟩ ∧ p' = ⟨false, false, false, true, []⟩ := by
  have hn : ∀ mn v, (plain mn).arg1.eval nullCtx = .ok v → (0 : UInt8) = byteOf v := by
    intro mn v h; simp [plain, Expr.eval] at h
  have ht : ∀ i : Instruction, i.ret = .default → ¬ Untracked i.mnemonic → ∀ es, Tame i es :=
    fun i h1 h2 es => ⟨fun f h => by rw [h1] at h; simp at h, fun h => absurd h h2⟩
  refine ⟨⟨false, false, false, true, []⟩,
    ⟨.unknown, .unknown, .unknown, .unknown, ⟨.off, .off, .off, .original⟩, .live []⟩, ?_, rfl, rfl⟩
  refine .cons (ht _ rfl (by decide) _) (.next (q := ⟨false, false, false, true, []⟩) 0x20
    (es' := ⟨.unknown, .unknown, .unknown, .unknown, ⟨.off, .off, .off, .original⟩, .live []⟩)
    (by decide +kernel) (by intro v h; cases h; rfl) (by simp only [immB, Follows]; decide)) ?_
  refine .cons (ht _ rfl (by decide) _) (.next (q := ⟨false, false, false, true, [0x01]⟩) 0
    (es' := ⟨.unknown, .unknown, .unknown, .unknown, ⟨.off, .off, .off, .original⟩,
      .live [.flags ⟨.off, .off, .off, .original⟩]⟩)
    (by decide +kernel) (hn _) ⟨0x01, by decide, by decide, by decide, rfl⟩) ?_
  refine .cons (ht _ rfl (by decide) _) (.next (q := ⟨false, true, true, true, [0x01]⟩) 0x30
    (es' := ⟨.unknown, .unknown, .unknown, .unknown, ⟨.off, .on, .on, .original⟩,
      .live [.flags ⟨.off, .off, .off, .original⟩]⟩)
    (by decide +kernel) (by intro v h; cases h; rfl) (by simp only [immB, Follows]; decide)) ?_
  exact .cons (ht _ rfl (by decide) _) (.next 0 (by decide +kernel) (hn _)
    ⟨0x01, [], Or.inl rfl, by decide⟩) .nil

end Nsasm.Props
