import Verif.Lemmas.Relist
import Verif.Lemmas.EchoText
import Verif.Lemmas.Shown

/-! # Listings that the assembler does not read -/

namespace Nsasm
open Spec Props Parse Disassembler

/-! ## PER -/

/-- The tokens of a number in decimal. -/
def numberTokens (n : Int) : List Token := if n < 0 then [tok '-', .lit n.natAbs .unknown] else [.lit n.natAbs .unknown]

theorem lex_number {n : Int} (hn : n.natAbs < 2 ^ 31) : Lex (decimal n) (numberTokens n) ∧ ';' ∉ decimal n := by
  obtain ⟨-, h2, h3⟩ := Echo.digits10 n.natAbs
  have hsc : ';' ∉ digits 10 n.natAbs := fun h => (Echo.digit_facts (h2 _ h)).2.1 rfl
  have hlex := Echo.lex_decimal hn Echo.apart_nil lex_nil
  rw [List.append_nil] at hlex
  have e : decimal ((n.natAbs : Nat) : Int) = digits 10 n.natAbs := by
    unfold decimal
    rw [if_neg (by omega)]
    simp
  rw [e] at hlex
  unfold decimal numberTokens
  split
  · refine ⟨?_, by simp [hsc]⟩
    refine lex_scan (by decide) (by decide) ?_ hlex
    have : scanPunct ('-' :: digits 10 n.natAbs) = some (.ch '-', digits 10 n.natAbs) := by
      unfold scanPunct
      cases hd : digits 10 n.natAbs with
      | nil => exact absurd hd h3
      | cons d ds =>
        have := (Echo.digit_facts (h2 d (by rw [hd]; simp))).2.2.2.2.2.2.1
        simp [isPunctChar, this]
    rw [scanToken, this]
  · exact ⟨hlex, hsc⟩

theorem parse_per (n : Int) (k : Nat) : ∀ items, parseLoop k ([.mnem .per] ++ numberTokens n ++ [.eol]) ≠ .ok items := by
  intro items h
  cases k with
  | zero => cases h
  | succ k =>
    rw [parseLoop, if_neg (by simp)] at h
    unfold numberTokens at h
    split at h
    · cases h
    · cases h

theorem per_refused {l : Str} (hl : l = [] ∨ IsName l) {n : Int} (hn : n.natAbs < 2 ^ 31) (k : Nat) (c : Str) (its : List Item) :
    ¬ LineReads (Print.padTo 8 (Print.labelText l) ++ cs!" " ++ (cs!"per " ++ decimal n) ++ List.replicate k ' ' ++ cs!" ; " ++ c)
      its := by
  rintro ⟨ts, ht, hp⟩
  obtain ⟨h1, -⟩ := lex_number hn
  have h2 : Lex (cs!"per " ++ decimal n) ([.mnem .per] ++ numberTokens n) :=
    lex_sep (s := cs!"per") (by decide) (show tokenize _ = _ by decide) h1
  have h3 := lex_tail k c (lex_labelled hl h2)
  have e : Print.padTo 8 (Print.labelText l) ++ ' ' :: (cs!"per " ++ decimal n) ++ List.replicate k ' ' ++ cs!" ; " ++ c =
      Print.padTo 8 (Print.labelText l) ++ cs!" " ++ (cs!"per " ++ decimal n) ++ List.replicate k ' ' ++ cs!" ; " ++ c := by simp
  rw [e] at h3
  unfold Props.Lex at h3
  rw [h3] at ht
  cases ht
  unfold labelTokens at hp
  split at hp
  · exact parse_per n _ its hp
  · rw [parse] at hp
    have hlen : ∃ j, (([Token.ident l, tok ':'] ++ ([Token.mnem .per] ++ numberTokens n)) ++ [Token.eol]).length + 1 = j + 1 := ⟨_, rfl⟩
    obtain ⟨j, hj⟩ := hlen
    rw [hj, parseLoop, if_neg (by simp)] at hp
    have hll : lineLabel (([Token.ident l, tok ':'] ++ ([.mnem .per] ++ numberTokens n)) ++ [.eol]) =
        .ok (some ⟨l, false⟩, true, [.mnem .per] ++ numberTokens n ++ [.eol]) := by
      simp [lineLabel, labelAt, front]
    rw [hll] at hp
    simp only [Res.bind_ok, if_true] at hp
    obtain ⟨r, hr, -⟩ := Res.bind_eq_ok.mp hp
    exact parse_per n j r hr

theorem decoded_per {bytes : List UInt8} {f : StatusFlags} {j : Instruction} (h : decode bytes f = .ok j) (hm : j.mnemonic = .per) :
    j.mode = .rel16 ∧ ∃ v : Int, v.natAbs < 2 ^ 31 ∧ j.arg1.toStr = decimal v := by
  rw [decode_ok_iff] at h
  obtain ⟨op, l, a, a1, a2, -, n1, n2, ha, h, rfl⟩ := h
  simp only at hm ⊢
  have key : ∀ op : UInt8, (decodeOpcode op).1 = .per → (decodeOpcode op).2 = .rel16 := by
    apply forall_byte; decide +kernel
  have hk := key op hm
  have hne : (decodeOpcode op).2 ≠ .imm_fm ∧ (decodeOpcode op).2 ≠ .imm_fx := by rw [hk]; decide
  have hmode : a = .rel16 := by
    rw [← hk]
    simp_all
  subst hmode
  refine ⟨rfl, ?_⟩
  unfold decodeArgs at h
  simp only at h
  split at h
  · rename_i b0 b1 _
    cases h
    simp only [Expr.mkLit, Expr.toStr]
    refine ⟨_, ?_, rfl⟩
    have hb : ∀ x : Int, (NumericType.sword.castTo x).natAbs < 2 ^ 31 := by
      intro x
      unfold NumericType.castTo
      simp only
      split <;> omega
    exact hb _
  · cases h

/-- The line of a PER in a listing is not read. -/
theorem listed_per {src : Source} {d d' : Disassembler} (h : Session FlagsWritten src d) (hcl : d.cleanup = .ok d')
    {a : Addr} {it : DisItem} (ha : d'.disassembly.find a = some it) (hm : it.instruction.mnemonic = .per) :
    ∃ v : Int, v.natAbs < 2 ^ 31 ∧ it.instruction.toStr = cs!"per " ++ decimal v ∧ (it.label = [] ∨ IsName it.label) := by
  have hc := session_closed h
  obtain ⟨r, ops, fars, hs, rfl, hfk, hok, hops, hfars, -⟩ := cleanup_inv hc.proper.sorted hc.proper.distinct hcl
  obtain ⟨ft, hft, hfold⟩ := (fold_spec fars hs).1 a it ha
  have hlab : it.label = [] ∨ IsName it.label := by
    rw [(folded_rest hfold).1]
    obtain ⟨jt, -, hj⟩ := hfars a ft hft
    by_cases hl : jt.label = []
    · exact .inl (hj.blank hl)
    · exact .inr (isName_new (hj.made hl))
  rcases hfold with rfl | ⟨b, sc, mn, hb, -, -, hp, rfl⟩
  · obtain ⟨jt, hj, ht⟩ := hfars a it hft
    obtain ⟨bytes, j, hb, hdec, hsh⟩ := (hc.items a jt hj).bytes
    obtain ⟨k1, k2, k3, -⟩ := tidied_kind ht
    have hjm : j.mnemonic = .per := by rw [← hsh.mnemonic, ← k1]; exact hm
    obtain ⟨e1, v, hv, e2⟩ := decoded_per hdec hjm
    have hbr : ¬ MayBranch j := fun hb => hb.2 hjm
    have harg : jt.instruction.arg1 = j.arg1 := hsh.plain hbr
    have hre : rewriteOperand r j.arg1 = j.arg1 := by
      rcases decode_args_shape hdec with ⟨v, t, h⟩ | h <;> rw [h] <;> rfl
    have hself : ({ jt.instruction with arg1 := rewriteOperand r jt.instruction.arg1 } : Instruction) = jt.instruction := by
      rw [harg, hre, ← harg]
    have hi : it.instruction = jt.instruction := by
      rcases ht.instruction with hi | ⟨t, n, ty, hf, -, -⟩
      · rw [hi, hself]
      · rw [hself] at hf
        have := far_mnemonic hf
        rw [← k1, hm] at this
        simp at this
    have hn := (session_neat h a jt hj).1
    refine ⟨v, hv, ?_, hlab⟩
    rw [hi]
    have hm' : jt.instruction.mnemonic = .per := by rw [← k1]; exact hm
    have hsuf : jt.instruction.suffix = .none := by
      by_contra hs
      exact hn.suffix hs (by rw [hm']; rfl)
    have hret : jt.instruction.ret = .default := by
      by_contra hs
      have := hn.ret hs
      rw [hm'] at this
      simp at this
    unfold Instruction.toStr
    rw [hm', hsuf, hret, hsh.mode, e1, harg]
    unfold argsToStr
    rw [e2]
    simp [Suffix.name, ReturnConvention.toSuffixString, show Mnemonic.name .per = cs!"per" from rfl]
  · obtain ⟨-, hm'⟩ := foldPair_spec hp
    simp only at hm
    rcases hm' with ⟨-, -, h⟩ | ⟨-, -, h⟩ <;> rw [hm] at h <;> cases h

theorem per_code_refused {src : Source} {d d' : Disassembler} (h : Session FlagsWritten src d) (hcl : d.cleanup = .ok d')
    {a : Addr} {it : DisItem} (ha : d'.disassembly.find a = some it) (hm : it.instruction.mnemonic = .per) (its : List Item) :
    ¬ LineReads (Print.codeLine a it) its := by
  obtain ⟨v, hv, ht, hl⟩ := listed_per h hcl ha hm
  unfold Print.codeLine Print.lineLabel
  rw [Print.padTo.eq_def 35, ht]
  have key := fun l hl k c => per_refused (l := l) hl hv k c its
  cases it.isEntry with
  | true =>
    have := key [] (.inl rfl)
    simpa [Print.labelText] using this _ _
  | false =>
    have := key it.label hl
    simpa using this _ _

/-! ## A known carry -/

/-- The line of an entry point at which the carry is known is not read. -/
theorem carry_refused {it : DisItem} (hl : it.label = [] ∨ IsName it.label)
    (hc : it.current.flags.c = .on ∨ it.current.flags.c = .off) (its : List Item) : ¬ LineReads (Print.entryLine it) its := by
  rintro ⟨ts, ht, -⟩
  have hno : ∀ {w : Str}, IsName w → ';' ∉ w := fun hw hm => absurd (hw.chars _ hm) (by decide)
  have hs : ';' ∉ Print.padTo 8 (Print.labelText it.label) ++ cs!" .entry " ++ it.current.flags.toName ++ cs!"," := by
    have h1 : ';' ∉ Print.labelText it.label := by
      unfold Print.labelText
      split
      · simp
      · rcases hl with h | h
        · contradiction
        · simp [hno h]
    have h2 := hno (isName_mode it.current.flags)
    simp [Print.padTo, List.mem_replicate, h1, h2]
  have hok : (tokenize (Print.entryLine it)).isOk = true := by rw [ht]; rfl
  have key : ∀ t : Str, (tokenize t).isOk = false → Print.entryLine it =
      (Print.padTo 8 (Print.labelText it.label) ++ cs!" .entry " ++ it.current.flags.toName ++ cs!",") ++ ' ' :: t → False := by
    intro t h1 h2
    rw [h2] at hok
    have := ((C33_blank_separates _ t ' ' ((isSpace_iff ' ').1 rfl) hs).2.1 hok).2
    rw [h1] at this
    cases this
  rcases hc with hc | hc
  · exact key cs!"c=1" (by decide) (by simp [Print.entryLine, StatusFlags.toStr, hc])
  · exact key cs!"c=0" (by decide) (by simp [Print.entryLine, StatusFlags.toStr, hc])

/-! ## The lines of a listing -/

theorem body_lines {m : OMap DisItem} {p : Addr × DisItem} (hp : p ∈ m) : ∀ pc, Print.codeLine p.1 p.2 ∈ Print.body pc m ∧
    (p.2.isEntry = true → Print.entryLine p.2 ∈ Print.body pc m) := by
  induction m with
  | nil => cases hp
  | cons q m ih =>
    intro pc
    obtain ⟨a, it⟩ := q
    rw [Print.body, Print.itemLines]
    rcases List.mem_cons.1 hp with rfl | hp
    · refine ⟨by simp, fun he => ?_⟩
      simp only at he
      simp [he]
    · obtain ⟨h1, h2⟩ := ih hp (Address.addWrapped a it.instruction.serializedSize)
      exact ⟨by simp [h1], fun he => by simp [h2 he]⟩

theorem listing_lines_mem {m : OMap DisItem} {p : Addr × DisItem} (hp : p ∈ m) : Print.codeLine p.1 p.2 ∈ Print.listing m ∧
    (p.2.isEntry = true → Print.entryLine p.2 ∈ Print.listing m) := by
  cases m with
  | nil => cases hp
  | cons q m =>
    obtain ⟨h1, h2⟩ := body_lines hp q.1
    unfold Print.listing
    exact ⟨by simp [h1], fun he => by simp [h2 he]⟩

theorem items_lines {file : List Str} {items : List Item} (h : FileItems file items) {line : Str} (hl : line ∈ file) :
    ∃ its, LineReads line its := by
  obtain ⟨per, h1, -⟩ := h
  induction h1 with
  | nil => cases hl
  | cons hx _ ih =>
    rcases List.mem_cons.1 hl with rfl | hl
    · exact ⟨_, hx⟩
    · exact ih hl

/-- A listing that is read has no PER, and no entry point at which the carry is known. -/
theorem read_listing {src : Source} {d d' : Disassembler} (h : Session FlagsWritten src d) (hcl : d.cleanup = .ok d')
    {items : List Item} (hF : FileItems (Print.listing d'.disassembly) items) {a : Addr} {it : DisItem}
    (hl : Lists d'.disassembly a it) : it.instruction.mnemonic ≠ .per ∧
      (it.isEntry = true → it.current.flags.c ≠ .on ∧ it.current.flags.c ≠ .off) := by
  obtain ⟨h1, h2⟩ := listing_lines_mem (OMap.mem_of_find hl)
  have hper : it.instruction.mnemonic ≠ .per := by
    intro hm
    obtain ⟨its, hr⟩ := items_lines hF h1
    exact per_code_refused h hcl hl hm its hr
  refine ⟨hper, fun he => ?_⟩
  obtain ⟨its, hr⟩ := items_lines hF (h2 he)
  have hlab := (cleanup_listed h hcl hl hper).2.imp_right isName_new
  exact ⟨fun hc => carry_refused hlab (.inl hc) its hr, fun hc => carry_refused hlab (.inr hc) its hr⟩

/-- PER is neither made nor removed by Cleanup. -/
theorem cleanup_per {src : Source} {d d' : Disassembler} (h : Session FlagsWritten src d) (hcl : d.cleanup = .ok d')
    {a : Addr} {it : DisItem} (ha : Lists d.disassembly a it) (hm : it.instruction.mnemonic = .per) :
    ∃ jt, Lists d'.disassembly a jt ∧ jt.instruction.mnemonic = .per := by
  have hc := session_closed h
  obtain ⟨r, ops, fars, hs, rfl, hfk, -, -, hfars, -⟩ := cleanup_inv hc.proper.sorted hc.proper.distinct hcl
  obtain ⟨ft, hft⟩ := Option.isSome_iff_exists.1 ((hfk a).trans (by rw [show d.disassembly.find a = some it from ha]; rfl))
  obtain ⟨jt, h1, h2⟩ := hfars a ft hft
  rw [show d.disassembly.find a = some it from ha] at h1
  cases h1
  have hfm : ft.instruction.mnemonic = .per := by rw [(tidied_kind h2).1]; exact hm
  rcases (fold_spec fars hs).2 a ft hft with ⟨jt, hj⟩ | ⟨-, b, first, mn, jt, -, -, -, hp, -⟩
  · refine ⟨jt, hj, ?_⟩
    obtain ⟨gt, hg, hfold⟩ := (fold_spec fars hs).1 a jt hj
    rw [hft] at hg
    cases hg
    rcases hfold with rfl | ⟨b, sc, mn, hb, -, -, hp, rfl⟩
    · exact hfm
    · obtain ⟨-, hm'⟩ := foldPair_spec hp
      rcases hm' with ⟨h, -⟩ | ⟨h, -⟩ <;> rw [hfm] at h <;> cases h
  · obtain ⟨-, hm'⟩ := foldPair_spec hp
    rcases hm' with ⟨-, h, -⟩ | ⟨-, h, -⟩ <;> rw [hfm] at h <;> cases h

/-- A file that assembles is read. -/
theorem assembled_items {σ : Type} {fuel : Nat} {file : List Str} {sink : Sink σ} {s s' : σ} {as : Assembler}
    (h : Assembler.assembleFiles fuel [file] sink s = (s', .ok as)) : ∃ items, FileItems file items := by
  obtain ⟨order, wss, hA⟩ := assembled h
  have hmod : ∃ x, as.modules = [x] := by
    have := hA.length
    simpa [List.length_eq_one_iff] using this
  obtain ⟨md, hmod⟩ := hmod
  obtain ⟨f, m₀, m₁, m₂, externs, hf, h0, -⟩ := hA.passes 0 md (by rw [hmod]; rfl)
  have hff : f = file := by simpa using hf.symm
  subst hff
  obtain ⟨items, hF, -⟩ := loadAsmFile_ok h0
  exact ⟨items, hF⟩

/-! ## CLC and SEC at the end of a bank -/

theorem entry_kind {src : Source} {d : Disassembler} (h : Closed src d) {a : Addr} {it : DisItem}
    (ha : d.disassembly.find a = some it) : 1 ≤ instructionLength it.instruction.mode ∧
      it.instruction.mnemonic ≠ .padd ∧ it.instruction.mnemonic ≠ .psub := by
  obtain ⟨bytes, j, hb, hdec, hsh⟩ := (h.items a it ha).bytes
  rw [hsh.mode, hsh.mnemonic]
  rw [decode_ok_iff] at hdec
  obtain ⟨op, l, m, a1, a2, -, n1, n2, -, -, rfl⟩ := hdec
  simp only
  refine ⟨?_, ?_⟩
  · cases m <;> first | exact absurd rfl n1 | exact absurd rfl n2 | decide
  · have key : ∀ op : UInt8, (decodeOpcode op).1 ≠ .padd ∧ (decodeOpcode op).1 ≠ .psub := by
      apply forall_byte; decide +kernel
    exact key op

/-- Writes that fill no address twice do not overlap. -/
theorem filled_apart {ws : Writes} (hnd : (allFilled ws).Nodup) {w v : Addr × List UInt8} (hw : w ∈ ws) (hv : v ∈ ws) {x : Nat}
    (h1 : x ∈ filled w) (h2 : x ∈ filled v) : w = v := by
  unfold allFilled at hnd
  rw [List.nodup_flatMap] at hnd
  by_contra hne
  rcases List.pairwise_iff_getElem.1 hnd.2 with hp
  obtain ⟨i, hi, rfl⟩ := List.getElem_of_mem hw
  obtain ⟨j, hj, rfl⟩ := List.getElem_of_mem hv
  rcases Nat.lt_trichotomy i j with h | rfl | h
  · exact hp i j hi hj h h1 h2
  · exact hne rfl
  · exact hp j i hj hi h h2 h1

/-- In a listing that fills no address twice, no CLC or SEC at the end of a bank is folded: the byte after it is the first of
the bank, where there is another entry. -/
theorem folded_inside {src : Source} {d d' : Disassembler} (h : Session FlagsWritten src d) (hcl : d.cleanup = .ok d')
    (hlow : ∀ a it, Lists d.disassembly a it → a < 0x1000000) {ws : Writes} (hnd : (allFilled ws).Nodup)
    (hput : ∀ a it, Lists d'.disassembly a it → ∃ bs : List UInt8, bs.length = it.instruction.serializedSize ∧ (a, bs) ∈ ws) :
    ∀ a jt, Lists d'.disassembly a jt → jt.instruction.mnemonic = .padd ∨ jt.instruction.mnemonic = .psub → NoWrap a := by
  have hc := session_closed h
  obtain ⟨r, ops, fars, hs, rfl, hfk, -, -, hfars, -⟩ := cleanup_inv hc.proper.sorted hc.proper.distinct hcl
  obtain ⟨f1, f2⟩ := fold_spec fars hs
  simp only at hput ⊢
  -- where the entry after a CLC or SEC is
  have hafter : ∀ {a : Nat} {ft st : DisItem} {mn : Mnemonic}, OMap.find fars a = some ft → foldPair ft st = some mn →
      a < 0x1000000 ∧ ∃ y, OMap.find fars (Address.addWrapped a 1) = some y := by
    intro a ft st mn hft hp
    obtain ⟨it, hit, hti⟩ := hfars a ft hft
    obtain ⟨k1, -, -, -⟩ := tidied_kind hti
    obtain ⟨-, hmn⟩ := foldPair_spec hp
    have hcarry : it.instruction.mnemonic = .clc ∨ it.instruction.mnemonic = .sec := by
      rw [← k1]; rcases hmn with ⟨h, -⟩ | ⟨h, -⟩ <;> simp [h]
    obtain ⟨himp, -⟩ := hc.proper.carry a it hit hcarry
    have hret : it.instruction.ret = .default := by
      by_contra hr
      have := (session_neat h a it hit).1.ret hr
      rcases hcarry with e | e <;> rw [e] at this <;> simp at this
    obtain ⟨nt, hnt, -⟩ := hc.next a it hit (by
      unfold Instruction.isExitInstruction
      rw [hret]
      rcases hcarry with e | e <;> rw [e] <;> rfl)
    unfold nextAddr at hnt
    rw [himp] at hnt
    exact ⟨hlow a it hit, Option.isSome_iff_exists.1 ((hfk _).trans (by
      rw [show (1 : Int) = (instructionLength .imp : Nat) from rfl, hnt]; rfl))⟩
  intro a
  induction a using Nat.strongRecOn with
  | _ a ih =>
    intro jt hl hm
    obtain ⟨ft, hft, hfold⟩ := f1 a jt hl
    rcases hfold with rfl | ⟨c, st, mn, hst, hac, hbetween, hp, rfl⟩
    · obtain ⟨it, hit, hti⟩ := hfars a jt hft
      obtain ⟨-, n1, n2⟩ := entry_kind hc hit
      rw [(tidied_kind hti).1] at hm
      rcases hm with e | e
      · exact absurd e n1
      · exact absurd e n2
    · obtain ⟨hlt, y, hy⟩ := hafter hft hp
      refine ⟨hlt, fun hend => ?_⟩
      have hw : Address.addWrapped a 1 = a - 0xFFFF := by
        unfold Address.addWrapped
        omega
      rw [hw] at hy
      rcases f2 _ y hy with ⟨zt, hz⟩ | ⟨-, b, first, mn', zt, hb, hba, hbet, hp', hz', rfl⟩
      · -- both have the first byte of the bank
        obtain ⟨bs, hb1, hb2⟩ := hput a _ hl
        obtain ⟨bs', hb3, hb4⟩ := hput (a - 0xFFFF) zt hz
        obtain ⟨kt, hk, hkt⟩ := hfars c st hst
        have hlen : 2 ≤ bs.length := by
          rw [hb1]
          have := (entry_kind hc hk).1
          rw [← (tidied_kind hkt).2.1] at this
          unfold Instruction.serializedSize
          simp only at hm ⊢
          rw [if_pos hm]
          omega
        have hlen' : 1 ≤ bs'.length := by
          rw [hb3]
          unfold Instruction.serializedSize
          obtain ⟨gt, hg, hgf⟩ := f1 _ zt hz
          have : 1 ≤ instructionLength zt.instruction.mode := by
            rcases hgf with rfl | ⟨c', st', mn'', hst', -, -, -, rfl⟩
            · obtain ⟨kt', hk', ht'⟩ := hfars _ zt hg
              rw [(tidied_kind ht').2.1]
              exact (entry_kind hc hk').1
            · obtain ⟨kt', hk', ht'⟩ := hfars _ st' hst'
              simp only
              rw [(tidied_kind ht').2.1]
              exact (entry_kind hc hk').1
          omega
        have := filled_apart hnd hb2 hb4 (x := a - 0xFFFF)
          (by unfold filled; rw [List.mem_map]; exact ⟨1, by simp; omega, by unfold wrapped; simp only; omega⟩)
          (by unfold filled; rw [List.mem_map]; exact ⟨0, by simp; omega, by unfold wrapped; simp only; omega⟩)
        simp only [Prod.mk.injEq] at this
        omega
      · -- the entry at the beginning of the bank is folded itself
        have hm' : mn' = .padd ∨ mn' = .psub := by
          obtain ⟨-, h | h⟩ := foldPair_spec hp' <;> simp [h]
        obtain ⟨hn1, hn2⟩ := ih b (by omega) _ hz' hm'
        obtain ⟨-, y', hy'⟩ := hafter hb hp'
        rw [addWrapped_one ⟨hn1, hn2⟩] at hy'
        have := hbet _ y' hy'
        omega

end Nsasm
