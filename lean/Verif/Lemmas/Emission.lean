import Verif.Lemmas.Closed
import Verif.Props.Instruction

/-! # What a listing assembles to, before and after Cleanup -/

namespace Nsasm
open Spec Props Disassembler

theorem emits_iff {ctx : Ctx} {a : Addr} {it : DisItem} {bs : List UInt8} :
    Emits ctx a it bs ↔ (asWritten it.instruction).assembleBytes a ctx = .ok bs := assemble_log

/-- A decoded operand evaluates the same in every context. -/
theorem decode_eval {bytes : List UInt8} {f : StatusFlags} {j : Instruction} (h : decode bytes f = .ok j)
    (ctx ctx' : Ctx) : j.arg1.eval ctx = j.arg1.eval ctx' ∧ j.arg2.eval ctx = j.arg2.eval ctx' ∧
      writtenOperand j.arg1 = j.arg1 := by
  rw [decode_ok_iff] at h
  obtain ⟨op, l, a, a1, a2, -, -, -, -, h, rfl⟩ := h
  simp only
  unfold decodeArgs at h
  split at h <;> first
    | (split at h <;> first | (cases h; exact ⟨rfl, rfl, rfl⟩) | cases h)
    | (cases h; exact ⟨rfl, rfl, rfl⟩)

/-- The bytes depend on the operands only through their values. -/
theorem assembleBytes_congr {i i' : Instruction} {a : Addr} {ctx ctx' : Ctx} (hm : i'.mnemonic = i.mnemonic)
    (hmode : i'.mode = i.mode) (h1 : i'.arg1.eval ctx' = i.arg1.eval ctx) (h2 : i'.arg2.eval ctx' = i.arg2.eval ctx) :
    i'.assembleBytes a ctx' = i.assembleBytes a ctx := by
  unfold Instruction.assembleBytes
  rw [hm, hmode, h1, h2]

theorem mayBranch_shows {j i : Instruction} (h : Shows j i) : MayBranch i ↔ MayBranch j := by
  unfold MayBranch; rw [h.mode, h.mnemonic]

theorem offsetTarget_eq {a : Nat} (ha : a < 0x1000000) (n : Nat) (v : Int) :
    ((Address.addWrapped (Address.addWrapped a n) v : Nat) : Int) = offsetTarget a n v := by
  unfold Address.addWrapped offsetTarget
  omega

/-- **An entry other than PER assembles to the bytes that it was decoded from.** -/
theorem entry_emits {src : Source} {d : Disassembler} (h : Closed src d) {ctx : Ctx} (hc : LabelsAt ctx d.disassembly)
    {a : Addr} {it : DisItem} (hl : Lists d.disassembly a it) (ha : a < 0x1000000) (hper : it.instruction.mnemonic ≠ .per) :
    ∃ bytes, src a 4 = .ok bytes ∧ instructionLength it.instruction.mode ≤ bytes.length ∧
      Emits ctx a it (bytes.take (instructionLength it.instruction.mode)) := by
  obtain ⟨bytes, j, hb, hj, hsh⟩ := (h.items a it hl).bytes
  obtain ⟨c1, c2, c3⟩ := C07_assemble_decoded bytes _ j a ha ctx hj
  have hsize : j.serializedSize = instructionLength it.instruction.mode := by
    unfold Instruction.serializedSize
    rw [if_neg (by have := decode_real hj; tauto), hsh.mode]; rfl
  rw [hsize] at c1 c2 c3
  refine ⟨bytes, hb, c1, ?_⟩
  rw [emits_iff]
  by_cases hbr : MayBranch j
  · obtain ⟨o, ho, hasm⟩ := c3 hbr.1
    have hbr' : it.instruction.isLocalBranch = true := (mayBranch_iff _).2 ((mayBranch_shows hsh).2 hbr)
    obtain ⟨name, e, v, jt, h1, h2, h3, h4, h5, h6⟩ := h.proper.branches a it hl hbr'
    obtain ⟨name', hn'⟩ := hsh.branch hbr
    rw [hn'] at h1; cases h1
    rw [h3] at ho; cases ho
    have hlab := hc _ jt h4 (by rw [h5]; exact h6)
    rw [h5] at hlab
    rw [← assemble_log.1 (hasm .word)]
    apply assembleBytes_congr
    · exact hsh.mnemonic
    · exact hsh.mode
    · simp only [asWritten, hn', writtenOperand, Expr.eval, hlab, Res.ofExcept]
      congr 1
      unfold nextAddr
      rw [hsh.mode]
      rw [offsetTarget_eq ha]
    · simp only [asWritten, hsh.arg2]
  · have hrel : ¬ Relative j.mode := fun hr => hbr ⟨hr, by rw [← hsh.mnemonic]; exact hper⟩
    rw [← assemble_log.1 (c2 hrel)]
    apply assembleBytes_congr
    · exact hsh.mnemonic
    · exact hsh.mode
    · simp only [asWritten, hsh.plain hbr, (decode_eval hj ctx ctx).2.2]
    · simp only [asWritten, hsh.arg2]

/-- Naming the target of a far jump does not change the bytes. -/
theorem far_bytes {i : Instruction} {a t : Nat} {v : Int} {n : Str} {ty : NumericType} {ctx ctx' : Ctx}
    (hf : i.farBranchTarget a = .ok (some t)) (hv : ∀ c, i.arg1.eval c = .ok v) (hn : ctx' ⟨none, n⟩ = .ok (t : Int))
    (hw : writtenOperand i.arg1 = i.arg1) (h2 : i.arg2.eval ctx' = i.arg2.eval ctx) :
    (asWritten { i with arg1 := .ident ⟨none, n⟩ ty }).assembleBytes a ctx' = (asWritten i).assembleBytes a ctx := by
  unfold Instruction.farBranchTarget at hf
  have hid : ∀ c, ctx' = c → (Expr.ident ⟨none, n⟩ ty).eval c = .ok (t : Int) := by
    rintro c rfl; simp [Expr.eval, hn, Res.ofExcept]
  split at hf
  · rename_i hm
    rw [hv] at hf
    simp only at hf
    obtain ⟨u, hu, hf⟩ := Res.bind_eq_ok.1 hf
    cases hf
    have : v = t := by
      unfold Address.ofInt at hu
      split at hu
      · cases hu; omega
      · cases hu
    apply assembleBytes_congr
    · rfl
    · rfl
    · simp only [asWritten, hw, hv, this]
      exact hid _ rfl
    · exact h2
  · split at hf
    · rename_i hm
      rw [hv] at hf
      cases hf
      unfold Instruction.assembleBytes
      have hwi : writtenOperand (.ident ⟨none, n⟩ ty) = .ident ⟨none, n⟩ ty := rfl
      simp only [asWritten, hwi, hid _ rfl, hw, hv, hm.1, Res.bind_ok]
      have h1 : byteOf (Address.ofBank (Address.bank a) v : Nat) = byteOf v := by
        apply byteOf_congr
        rw [byteOf_toNat]
        unfold Address.ofBank Address.bank
        omega
      have h2 : byteOf (((Address.ofBank (Address.bank a) v : Nat) : Int) / 0x100) = byteOf (v / 0x100) := by
        apply byteOf_congr
        rw [byteOf_toNat]
        unfold Address.ofBank Address.bank
        omega
      rw [h1, h2]
    · cases hf

/-- Renaming labels and naming far targets does not change the bytes of an entry. -/
theorem tidied_bytes {src : Source} {d : Disassembler} (h : Closed src d) {r : List (Str × Str)}
    {ops fars : OMap DisItem} (hops : ∀ a it jt, d.disassembly.find a = some it → OMap.find ops a = some jt →
        (it.label = [] → jt.label = []) ∧ (it.label ≠ [] → HMap.find r it.label = some jt.label))
    (hok : ∀ a, (OMap.find ops a).isSome = (d.disassembly.find a).isSome)
    (hfk : ∀ a, (OMap.find fars a).isSome = (d.disassembly.find a).isSome)
    (hfars : ∀ a jt, OMap.find fars a = some jt → ∃ it, d.disassembly.find a = some it ∧
        Tidied r { d with disassembly := ops } a it jt)
    {ctx ctx' : Ctx} (hc : LabelsAt ctx d.disassembly) (hc' : LabelsAt ctx' fars)
    {a : Addr} {it jt : DisItem} (ha : d.disassembly.find a = some it) (hj : OMap.find fars a = some jt) :
    (asWritten jt.instruction).assembleBytes a ctx' = (asWritten it.instruction).assembleBytes a ctx := by
  obtain ⟨it', h1, ht⟩ := hfars a jt hj
  rw [ha] at h1; cases h1
  obtain ⟨bytes, j, hb, hdec, hsh⟩ := (h.items a it ha).bytes
  obtain ⟨e1, e2, e3⟩ := decode_eval hdec ctx' ctx
  by_cases hbr : MayBranch j
  · have hbr' : it.instruction.isLocalBranch = true := (mayBranch_iff _).2 ((mayBranch_shows hsh).2 hbr)
    obtain ⟨name, e, v, kt, p1, p2, p3, p4, p5, p6⟩ := h.proper.branches a it ha hbr'
    rw [tidied_branch ht hbr']
    have hlab := hc _ kt p4 (by rw [p5]; exact p6)
    rw [p5] at hlab
    obtain ⟨kt', hk'⟩ := Option.isSome_iff_exists.1 ((hfk _).trans (by rw [p4]; rfl))
    obtain ⟨kt0, q1, q2⟩ := hfars _ kt' hk'
    rw [p4] at q1; cases q1
    have hr := q2.named (by rw [p5]; exact p6)
    have hlab' := hc' _ kt' hk' (q2.made (by rw [p5]; exact p6)).ne
    rw [p5] at hr
    apply assembleBytes_congr
    · rfl
    · rfl
    · simp only [asWritten, p1, rewriteOperand, writtenOperand, rewriteOf, hr, Option.getD_some, Expr.eval, hlab, hlab']
    · simp only [asWritten, hsh.arg2, e2]
  · have harg : it.instruction.arg1 = j.arg1 := hsh.plain hbr
    have hre : rewriteOperand r j.arg1 = j.arg1 := by
      rcases decode_args_shape hdec with ⟨v, t, h⟩ | h <;> rw [h] <;> rfl
    have hself : ({ it.instruction with arg1 := rewriteOperand r it.instruction.arg1 } : Instruction) = it.instruction := by
      rw [harg, hre, ← harg]
    rcases ht.instruction with hi | ⟨t, n, ty, hf, hn, hi⟩
    · rw [hi, hself]
      apply assembleBytes_congr
      · rfl
      · rfl
      · simp only [asWritten, harg, e3, e1]
      · simp only [asWritten, hsh.arg2, e2]
    · rw [hself] at hf
      rw [hi]
      have hlab' : ctx' ⟨none, n⟩ = .ok (t : Int) := by
        unfold nameForAddress at hn
        split at hn
        · simp only at hn
          cases hot : OMap.find ops t with
          | none => rw [hot] at hn; cases hn
          | some x =>
            rw [hot] at hn
            simp only at hn
            split at hn
            · rename_i hx
              cases hn
              obtain ⟨y, hy⟩ := Option.isSome_iff_exists.1 ((hok t).symm.trans (by rw [hot]; rfl))
              obtain ⟨z, hz⟩ := Option.isSome_iff_exists.1 ((hfk t).trans (by rw [hy]; rfl))
              obtain ⟨g1, g2⟩ := hops t y x hy hot
              obtain ⟨y', hy', hty⟩ := hfars t z hz
              rw [hy] at hy'; cases hy'
              have hyl : y.label ≠ [] := fun h => hx (g1 h)
              have := hty.named hyl
              rw [g2 hyl] at this
              have heq := Option.some.inj this
              have := hc' t z hz (by rw [← heq]; exact hx)
              rw [heq]; exact this
            · cases hn
        · cases hn
      have hev : ∃ v, ∀ c, it.instruction.arg1.eval c = .ok v := by
        rcases decode_args_shape hdec with ⟨v, t, h⟩ | h
        · exact ⟨_, fun c => by rw [harg, h]; rfl⟩
        · exfalso
          unfold Instruction.farBranchTarget at hf
          rw [harg, h] at hf
          simp only [Expr.eval] at hf
          split at hf
          · cases hf
          · split at hf <;> cases hf
      obtain ⟨v, hv⟩ := hev
      exact far_bytes hf hv hlab' (by rw [harg, e3]) (by rw [hsh.arg2, e2])

/-- The bytes of a pseudo-op, its operand not being relative. -/
theorem pseudo_bytes {i : Instruction} {mn real : Mnemonic} {x : UInt8} (hm : i.mnemonic = real)
    (hp : (mn = .padd ∧ real = .adc ∧ x = 0x18) ∨ (mn = .psub ∧ real = .sbc ∧ x = 0x38)) (hnr : ¬ Relative i.mode)
    {a b : Addr} {ctx : Ctx} {bs : List UInt8} (h : i.assembleBytes b ctx = .ok bs) :
    ({ i with mnemonic := mn } : Instruction).assembleBytes a ctx = .ok (x :: bs) := by
  obtain ⟨m, suf, mode, e1, e2, ret⟩ := i
  simp only at hm hnr
  subst hm
  unfold Instruction.assembleBytes at h ⊢
  rcases hp with ⟨rfl, rfl, rfl⟩ | ⟨rfl, rfl, rfl⟩ <;> simp only [reduceCtorEq, if_true, if_false] at h ⊢
  · cases ho : encodeOpcode .adc mode with
    | none => rw [ho] at h; cases h
    | some o =>
      rw [ho] at h
      cases mode <;> simp only [Relative] at hnr h ⊢ <;>
        cases h1 : e1.eval ctx <;> cases h2 : e2.eval ctx <;> simp_all [Res.bind_err, Res.bind_ub, Res.bind_ok]
  · cases ho : encodeOpcode .sbc mode with
    | none => rw [ho] at h; cases h
    | some o =>
      rw [ho] at h
      cases mode <;> simp only [Relative] at hnr h ⊢ <;>
        cases h1 : e1.eval ctx <;> cases h2 : e2.eval ctx <;> simp_all [Res.bind_err, Res.bind_ub, Res.bind_ok]

theorem adc_not_relative {bytes : List UInt8} {f : StatusFlags} {j : Instruction} (h : decode bytes f = .ok j)
    (hm : j.mnemonic = .adc ∨ j.mnemonic = .sbc) : ¬ Relative j.mode ∧ j.mnemonic ≠ .per := by
  rw [decode_ok_iff] at h
  obtain ⟨op, l, a, a1, a2, -, n1, n2, ha, -, rfl⟩ := h
  simp only at hm ⊢
  have key : ∀ op : UInt8, (decodeOpcode op).1 = .adc ∨ (decodeOpcode op).1 = .sbc →
      (decodeOpcode op).2 ≠ .rel8 ∧ (decodeOpcode op).2 ≠ .rel16 ∧ (decodeOpcode op).1 ≠ .per := by
    apply forall_byte; decide +kernel
  obtain ⟨k1, k2, k3⟩ := key op hm
  refine ⟨?_, k3⟩
  rintro (rfl | rfl) <;> simp_all

theorem carry_bytes {i : Instruction} (hmode : i.mode = .imp) {x : UInt8}
    (hp : (i.mnemonic = .clc ∧ x = 0x18) ∨ (i.mnemonic = .sec ∧ x = 0x38)) (a : Addr) (ctx : Ctx) :
    (asWritten i).assembleBytes a ctx = .ok [x] := by
  unfold Instruction.assembleBytes
  rcases hp with ⟨h, rfl⟩ | ⟨h, rfl⟩ <;> simp only [asWritten, h, hmode] <;> rfl

/-- Cleanup does not change what a listing assembles to, if no CLC or SEC at the end of a bank is folded. -/
theorem cleanup_puts {src : Source} {d d' : Disassembler} (h : Closed src d) (hcl : d.cleanup = .ok d')
    (hn : ∀ a it jt, d.disassembly.find a = some it → it.instruction.mnemonic = .clc ∨ it.instruction.mnemonic = .sec →
      d'.disassembly.find a = some jt → jt.instruction.mnemonic = .padd ∨ jt.instruction.mnemonic = .psub →
      NoWrap a) {ctx ctx' : Ctx} (hc : LabelsAt ctx d.disassembly) (hc' : LabelsAt ctx' d'.disassembly)
    (x : Addr) (b : UInt8) : Puts ctx d.disassembly x b ↔ Puts ctx' d'.disassembly x b := by
  obtain ⟨r, ops, fars, hs, rfl, hfk, hok, hops, hfars, -⟩ := cleanup_inv h.proper.sorted h.proper.distinct hcl
  obtain ⟨f1, f2⟩ := fold_spec fars hs
  simp only at hc' ⊢
  have hcf : LabelsAt ctx' fars := by
    intro a it ha hl
    rcases f2 a it ha with ⟨jt, hj⟩ | ⟨h, -⟩
    · obtain ⟨it', h1, h2⟩ := f1 a jt hj
      rw [show OMap.find fars a = some it from ha] at h1
      cases h1
      rw [← (folded_rest h2).1] at hl ⊢
      exact hc' a jt hj hl
    · exact absurd h hl
  have hbytes : ∀ {a : Nat} {it jt : DisItem}, d.disassembly.find a = some it → OMap.find fars a = some jt →
      (asWritten jt.instruction).assembleBytes a ctx' = (asWritten it.instruction).assembleBytes a ctx :=
    fun ha hj => tidied_bytes h hops hok hfk hfars hc hcf ha hj
  -- a pair that is folded
  have hpair : ∀ {a c : Nat} {ft st : DisItem} {mn : Mnemonic}, OMap.find fars a = some ft → OMap.find fars c = some st →
      a < c → (∀ e y, OMap.find fars e = some y → ¬ (a < e ∧ e < c)) → foldPair ft st = some mn →
      OMap.find (fold fars) a = some { ft with instruction := { st.instruction with mnemonic := mn }, next := st.next } →
      c = Address.addWrapped a 1 ∧ a < 0x1000000 ∧ ∃ y bs, (asWritten ft.instruction).assembleBytes a ctx' = .ok [y] ∧
        (asWritten st.instruction).assembleBytes c ctx' = .ok bs ∧
        (asWritten { st.instruction with mnemonic := mn }).assembleBytes a ctx' = .ok (y :: bs) := by
    intro a c ft st mn hft hst hac hbetween hp hz
    obtain ⟨it, hit, hti⟩ := hfars a ft hft
    obtain ⟨jt, hjt, htj⟩ := hfars c st hst
    obtain ⟨k1, k2, -, -⟩ := tidied_kind hti
    obtain ⟨l1, l2, -, -⟩ := tidied_kind htj
    obtain ⟨-, hmn⟩ := foldPair_spec hp
    have hcarry : it.instruction.mnemonic = .clc ∨ it.instruction.mnemonic = .sec := by
      rw [← k1]; rcases hmn with ⟨h, -⟩ | ⟨h, -⟩ <;> simp [h]
    have hnw := hn a it _ hit hcarry hz (by rcases hmn with ⟨-, -, h⟩ | ⟨-, -, h⟩ <;> simp [h])
    obtain ⟨himp, hnext⟩ := h.proper.carry a it hit hcarry
    obtain ⟨nt, hnt⟩ := hnext hnw
    have hca : c = Address.addWrapped a 1 := by
      rw [addWrapped_one hnw] at hnt ⊢
      obtain ⟨y, hy⟩ := Option.isSome_iff_exists.1 ((hfk (a + 1)).trans (by rw [hnt]; rfl))
      have := hbetween _ y hy
      omega
    have hc16 : c < 0x1000000 := by
      rw [hca, addWrapped_one hnw]; obtain ⟨q1, q2⟩ := hnw; omega
    obtain ⟨bytes, j, hb, hdec, hsh⟩ := (h.items c jt hjt).bytes
    have hadc : j.mnemonic = .adc ∨ j.mnemonic = .sbc := by
      rw [← hsh.mnemonic, ← l1]; rcases hmn with ⟨-, h, -⟩ | ⟨-, h, -⟩ <;> simp [h]
    obtain ⟨hnr, hper⟩ := adc_not_relative hdec hadc
    obtain ⟨bytes', -, -, hem⟩ := entry_emits h hc hjt hc16 (by rw [hsh.mnemonic]; exact hper)
    rw [emits_iff, ← hbytes hjt hst] at hem
    refine ⟨hca, hnw.1, ?_⟩
    have hnr' : ¬ Relative (asWritten st.instruction).mode := by
      show ¬ Relative st.instruction.mode
      rw [l2, hsh.mode]; exact hnr
    rcases hmn with ⟨m1, m2, rfl⟩ | ⟨m1, m2, rfl⟩
    · exact ⟨0x18, _, carry_bytes (by rw [k2, himp]) (.inl ⟨m1, rfl⟩) a ctx', hem,
        pseudo_bytes (i := asWritten st.instruction) m2 (.inl ⟨rfl, rfl, rfl⟩) hnr' hem⟩
    · exact ⟨0x38, _, carry_bytes (by rw [k2, himp]) (.inr ⟨m1, rfl⟩) a ctx', hem,
        pseudo_bytes (i := asWritten st.instruction) m2 (.inr ⟨rfl, rfl, rfl⟩) hnr' hem⟩
  have hwrap : ∀ (a k : Nat), Address.addWrapped (Address.addWrapped a 1) (k : Nat) = Address.addWrapped a ((k + 1 : Nat) : Int) := by
    intro a k
    unfold Address.addWrapped
    omega
  constructor
  · rintro ⟨a, it, bs, k, hl, he, hk, rfl⟩
    obtain ⟨jt, hj⟩ := Option.isSome_iff_exists.1 ((hfk a).trans (by rw [show d.disassembly.find a = some it from hl]; rfl))
    rw [emits_iff, ← hbytes hl hj] at he
    rcases f2 a jt hj with ⟨zt, hz⟩ | ⟨-, c, ft, mn, zt, hft, hca, hbetween, hp, hz, rfl⟩
    · obtain ⟨jt', h1, h2⟩ := f1 a zt hz
      rw [hj] at h1; cases h1
      rcases h2 with rfl | ⟨c, st, mn, hst, hac, hbetween, hp, rfl⟩
      · exact ⟨a, _, bs, k, hz, emits_iff.2 he, hk, rfl⟩
      · obtain ⟨-, -, y, bs', e1, e2, e3⟩ := hpair hj hst hac hbetween hp hz
        rw [e1] at he
        cases he
        refine ⟨a, _, _, k, hz, emits_iff.2 e3, ?_, rfl⟩
        cases k with
        | zero => simpa using hk
        | succ k => simp at hk
    · obtain ⟨hc1, -, y, bs', e1, e2, e3⟩ := hpair hft hj hca hbetween hp hz
      rw [he] at e2; cases e2
      refine ⟨c, _, _, k + 1, hz, emits_iff.2 e3, by simpa using hk, ?_⟩
      rw [hc1]; exact hwrap c k
  · rintro ⟨a, zt, bs, k, hz, he, hk, rfl⟩
    obtain ⟨jt, hj, hf⟩ := f1 a zt hz
    obtain ⟨it, hit, -⟩ := hfars a jt hj
    rw [emits_iff] at he
    rcases hf with rfl | ⟨c, st, mn, hst, hac, hbetween, hp, rfl⟩
    · rw [hbytes hit hj] at he
      exact ⟨a, it, bs, k, hit, emits_iff.2 he, hk, rfl⟩
    · obtain ⟨hc1, -, y, bs', e1, e2, e3⟩ := hpair hj hst hac hbetween hp hz
      simp only at he
      rw [e3] at he
      cases he
      cases k with
      | zero =>
        rw [hbytes hit hj] at e1
        exact ⟨a, it, _, 0, hit, emits_iff.2 e1, by simpa using hk, rfl⟩
      | succ k =>
        obtain ⟨kt, hkt, -⟩ := hfars c st hst
        rw [hbytes hkt hst] at e2
        refine ⟨c, kt, _, k, hkt, emits_iff.2 e2, by simpa using hk, ?_⟩
        rw [hc1]; exact (hwrap a k).symm

end Nsasm
