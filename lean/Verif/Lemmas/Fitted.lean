import Verif.Lemmas.Cleaned

/-! # What a cleaned-up listing has of the listing before -/

namespace Nsasm
open Spec Props Disassembler Parse

/-- Instructions that follow one another without overlapping and stay within their banks. -/
structure Straight (m : OMap DisItem) : Prop where
  low : ∀ a it, m.find a = some it → a < 0x1000000
  apart : ∀ a b it jt, m.find a = some it → m.find b = some jt → a < b → a + instructionLength it.instruction.mode ≤ b
  bank : ∀ a it, m.find a = some it → a % 0x10000 + instructionLength it.instruction.mode ≤ 0x10000
  room : ∀ a it, m.find a = some it → it.instruction.isExitInstruction = false →
    a % 0x10000 + instructionLength it.instruction.mode < 0x10000

theorem addWrapped_room {a n : Nat} (ha : a < 0x1000000) (h : a % 0x10000 + n < 0x10000) :
    Address.addWrapped a (n : Nat) = a + n := by
  unfold Address.addWrapped
  omega

theorem nextAddr_room {m : OMap DisItem} (h : Straight m) {a : Nat} {it : DisItem} (ha : m.find a = some it)
    (hx : it.instruction.isExitInstruction = false) :
    nextAddr a it.instruction = a + instructionLength it.instruction.mode :=
  addWrapped_room (h.low a it ha) (h.room a it ha hx)

def Carries (x y z : Mnemonic) : Prop := (x = .clc ∧ y = .adc ∧ z = .padd) ∨ (x = .sec ∧ y = .sbc ∧ z = .psub)

/-- Where an entry after Cleanup comes from. -/
inductive Origin (d d' : Disassembler) (a : Nat) (jt : DisItem) : Prop
  | plain {it : DisItem} (lists : d.disassembly.find a = some it) (current : jt.current = it.current)
      (same : jt.instruction = { it.instruction with arg1 := jt.instruction.arg1 })
      (arg : jt.instruction.arg1 = it.instruction.arg1 ∨ it.instruction.isLocalBranch = true ∨
        it.instruction.mnemonic ∈ [Mnemonic.jmp, .jsl, .jsr] ∧ ∃ n ty, jt.instruction.arg1 = .ident n ty)
      (branch : it.instruction.isLocalBranch = true → ∃ name e v nt, it.instruction.arg1.eval nullCtx = .ok v ∧
        jt.instruction.arg1 = .label name e ∧ e.eval nullCtx = .ok v ∧ name ≠ [] ∧
        d'.disassembly.find (Address.addWrapped (nextAddr a it.instruction) v) = some nt ∧ nt.label = name)
  | pair {it st : DisItem} {mn : Mnemonic} (lists : d.disassembly.find a = some it)
      (second : d.disassembly.find (a + 1) = some st) (room : NoWrap a) (current : jt.current = it.current)
      (kinds : Carries it.instruction.mnemonic st.instruction.mnemonic mn) (imp : it.instruction.mode = .imp)
      (same : jt.instruction = { st.instruction with mnemonic := mn }) (gone : d'.disassembly.find (a + 1) = none)

/-- What becomes of an entry. -/
inductive Kept (d d' : Disassembler) (a : Nat) (it : DisItem) : Prop
  | here {jt : DisItem} (lists : d'.disassembly.find a = some jt) (current : jt.current = it.current)
      (named : it.label ≠ [] → jt.label ≠ [] ∧ jt.isEntry = (d.entryPoints.find a).isSome)
  | folded {b : Nat} {ft jt : DisItem} {mn : Mnemonic} (blank : it.label = []) (at_ : a = b + 1)
      (first : d.disassembly.find b = some ft) (lists : d'.disassembly.find b = some jt)
      (kinds : Carries ft.instruction.mnemonic it.instruction.mnemonic mn)
      (same : jt.instruction = { it.instruction with mnemonic := mn }) (gone : d'.disassembly.find a = none)

theorem folded_operand {src : Source} {d : Disassembler} (h : Closed src d) {r : List (Str × Str)} {d0 : Disassembler}
    {a : Nat} {it jt : DisItem} (ha : d.disassembly.find a = some it) (ht : Tidied r d0 a it jt)
    (hm : it.instruction.mnemonic = .adc ∨ it.instruction.mnemonic = .sbc) : jt.instruction = it.instruction := by
  obtain ⟨bytes, j, hb, hdec, hsh⟩ := (h.items a it ha).bytes
  obtain ⟨hnr, -⟩ := adc_not_relative hdec (by rw [← hsh.mnemonic]; exact hm)
  have harg : it.instruction.arg1 = j.arg1 := hsh.plain fun hb => hnr hb.1
  have hre : rewriteOperand r j.arg1 = j.arg1 := by
    rcases decode_args_shape hdec with ⟨v, t, h⟩ | h <;> rw [h] <;> rfl
  rcases ht.instruction with hi | ⟨t, n, ty, hf, -, -⟩
  · rw [hi, harg, hre, ← harg]
  · have := far_mnemonic hf
    simp only at this
    rcases hm with hm | hm <;> rw [hm] at this <;> simp at this

theorem cleaned {src : Source} {d d' : Disassembler} (h : Closed src d) (hcl : d.cleanup = .ok d')
    (hn : ∀ a it, d.disassembly.find a = some it → it.instruction.mnemonic = .clc ∨ it.instruction.mnemonic = .sec →
      NoWrap a) :
    (∀ a jt, d'.disassembly.find a = some jt → Origin d d' a jt) ∧
    (∀ a it, d.disassembly.find a = some it → Kept d d' a it) := by
  have hent := fun {a jt} => cleanup_entry (a := a) (jt := jt) h.proper.sorted h.proper.distinct hcl
  have hp' := cleanup_proper h.proper hcl
  obtain ⟨r, ops, fars, hs, hd', hfk, hok, hops, hfars, -⟩ := cleanup_inv h.proper.sorted h.proper.distinct hcl
  obtain ⟨f1, f2⟩ := fold_spec fars hs
  have hfold : d'.disassembly = fold fars := by rw [hd']
  -- a pair that is folded
  have hpair : ∀ {a c : Nat} {ft st : DisItem} {mn : Mnemonic}, OMap.find fars a = some ft → OMap.find fars c = some st →
      a < c → (∀ e y, OMap.find fars e = some y → ¬ (a < e ∧ e < c)) → foldPair ft st = some mn →
      c = a + 1 ∧ NoWrap a ∧ ∃ it jt, d.disassembly.find a = some it ∧ d.disassembly.find c = some jt ∧
        Carries it.instruction.mnemonic jt.instruction.mnemonic mn ∧ it.instruction.mode = .imp ∧
        st.instruction = jt.instruction ∧ ft.current = it.current ∧ d'.disassembly.find c = none := by
    intro a c ft st mn hft hst hac hbetween hp
    obtain ⟨it, hit, hti⟩ := hfars a ft hft
    obtain ⟨jt, hjt, htj⟩ := hfars c st hst
    obtain ⟨k1, k2, -, -⟩ := tidied_kind hti
    obtain ⟨l1, l2, -, -⟩ := tidied_kind htj
    obtain ⟨-, hmn⟩ := foldPair_spec hp
    rw [k1, l1] at hmn
    have hcarry : it.instruction.mnemonic = .clc ∨ it.instruction.mnemonic = .sec := by
      rcases hmn with ⟨h, -⟩ | ⟨h, -⟩ <;> simp [h]
    have hnw := hn a it hit hcarry
    obtain ⟨himp, hnext⟩ := h.proper.carry a it hit hcarry
    obtain ⟨nt, hnt⟩ := hnext hnw
    have hca : c = a + 1 := by
      rw [addWrapped_one hnw] at hnt
      obtain ⟨y, hy⟩ := Option.isSome_iff_exists.1 ((hfk (a + 1)).trans (by rw [hnt]; rfl))
      have := hbetween _ y hy
      omega
    refine ⟨hca, hnw, it, jt, hit, hjt, hmn, himp, folded_operand h hjt htj ?_, hti.current, ?_⟩
    · rcases hmn with ⟨-, h, -⟩ | ⟨-, h, -⟩ <;> simp [h]
    · rw [hfold]; exact fold_pair fars hs a c ft st mn hft hst hac hbetween hp
  constructor
  · intro a jt ha
    rw [hfold] at ha
    obtain ⟨ft, hft, hfo⟩ := f1 a jt ha
    rcases hfo with rfl | ⟨c, sc, mn, g1, g2, g3, g4, rfl⟩
    · obtain ⟨it, hit, hti⟩ := hfars a _ hft
      obtain ⟨k1, k2, k3, k4⟩ := tidied_kind hti
      refine .plain hit hti.current ?_ ?_ ?_
      · rcases hti.instruction with hi | ⟨t, n, ty, -, -, hi⟩ <;> rw [hi]
      · by_cases hb : it.instruction.isLocalBranch = true
        · exact .inr (.inl hb)
        · obtain ⟨bytes, j, hby, hdec, hsh⟩ := (h.items a it hit).bytes
          have hbr : ¬ MayBranch j := fun hm => hb ((mayBranch_iff _).2 ((mayBranch_shows hsh).2 hm))
          have harg := hsh.plain hbr
          have hre : rewriteOperand r j.arg1 = j.arg1 := by
            rcases decode_args_shape hdec with ⟨v, t, h⟩ | h <;> rw [h] <;> rfl
          rcases hti.instruction with hi | ⟨t, n, ty, hf, -, hi⟩
          · left; rw [hi, harg, hre]
          · right; right
            refine ⟨?_, ⟨none, n⟩, ty, by rw [hi]⟩
            have := far_mnemonic hf
            simpa using this
      · intro hb
        obtain ⟨name, e, v, kt, b1, b2, b3, b4, b5, b6⟩ := h.proper.branches a it hit hb
        obtain ⟨name', e', v', kt', c1, c2, c3, c4, c5, c6⟩ := hp'.branches a jt (by rw [hfold]; exact ha) (by rw [k4]; exact hb)
        have he : e' = e := by
          have := tidied_branch hti hb
          rw [this, b1] at c1
          simp only [rewriteOperand, Expr.label.injEq] at c1
          exact c1.2.symm
        subst he
        rw [b3] at c3
        cases c3
        refine ⟨name', e', v, kt', ?_, c1, b3, c6, ?_, c5⟩
        · rw [b1, Expr.eval, if_neg b2]; exact b3
        · rw [show nextAddr a it.instruction = nextAddr a jt.instruction by unfold nextAddr; rw [k2]]
          exact c4
    · obtain ⟨rfl, hnw, it, st, q1, q2, q3, q4, q5, q6, q7⟩ := hpair hft g1 g2 g3 g4
      exact .pair q1 q2 hnw q6 q3 q4 (by simp only [q5]) q7
  · intro a it ha
    obtain ⟨jt, hj⟩ := Option.isSome_iff_exists.1 ((hfk a).trans (by rw [ha]; rfl))
    obtain ⟨it', h1, ht⟩ := hfars a jt hj
    rw [ha] at h1; cases h1
    rcases f2 a jt hj with ⟨zt, hz⟩ | ⟨hbl, c, ft, mn, zt, hft, hca, hbetween, hp, hz, rfl⟩
    · obtain ⟨jt', h1, h2⟩ := f1 a zt hz
      rw [hj] at h1; cases h1
      obtain ⟨e1, -, e3⟩ := folded_rest h2
      have hz' : d'.disassembly.find a = some zt := by rw [hfold]; exact hz
      refine .here hz' (e3.trans ht.current) fun hl => ?_
      have hne : zt.label ≠ [] := by rw [e1]; exact (ht.made hl).ne
      exact ⟨hne, hent hz' hne⟩
    · obtain ⟨hc1, hnw, it2, jt2, q1, q2, q3, q4, q5, q6, q7⟩ := hpair hft hj hca hbetween hp
      rw [ha] at q2; cases q2
      refine .folded ?_ hc1 q1 (by rw [hfold]; exact hz) q3 (by simp only [q5]) q7
      by_contra hl
      exact (ht.made hl).ne hbl

end Nsasm
