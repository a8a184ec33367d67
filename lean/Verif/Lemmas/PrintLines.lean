import Verif.Lemmas.Neat

/-! # The lines of a printed listing -/

namespace Nsasm
open Spec Props Disassembler Parse

/-- The second operand of a decoded instruction, and the mode of a branch. -/
theorem decoded_forms {bytes : List UInt8} {f : StatusFlags} {j : Instruction} (h : decode bytes f = .ok j) :
    (j.mode ≠ .mov → j.arg2 = .null) ∧
    (j.mnemonic ∈ branchMnemonics → j.mode = if j.mnemonic = .brl then .rel16 else .rel8) := by
  rw [decode_ok_iff] at h
  obtain ⟨op, l, a, a1, a2, -, n1, n2, ha, h, rfl⟩ := h
  simp only
  refine ⟨fun hm => ?_, fun hm => ?_⟩
  · unfold decodeArgs at h
    split at h <;> first
      | (split at h <;> first | (cases h; first | rfl | exact absurd rfl hm) | cases h)
      | (cases h; rfl)
  · have key : ∀ op : UInt8, (decodeOpcode op).1 ∈ branchMnemonics →
        (decodeOpcode op).2 = if (decodeOpcode op).1 = .brl then .rel16 else .rel8 := by
      apply forall_byte; decide +kernel
    have hk := key op hm
    have hne : (decodeOpcode op).2 ≠ .imm_fm ∧ (decodeOpcode op).2 ≠ .imm_fx := by
      rw [hk]; split <;> decide
    rw [← hk]
    simp_all

theorem neat_with {i : Instruction} (h : NeatInstr i) {mn : Mnemonic}
    (hm : mn = i.mnemonic ∨ (i.mnemonic = .adc ∧ mn = .padd) ∨ (i.mnemonic = .sbc ∧ mn = .psub)) (e : Expr) :
    NeatInstr { i with mnemonic := mn, arg1 := e } := by
  obtain ⟨m, s, mode, a1, a2, r⟩ := i
  rcases hm with rfl | ⟨h1, rfl⟩ | ⟨h1, rfl⟩
  · exact ⟨h.suffix, h.ret⟩
  · simp only at h1; subst h1
    exact ⟨fun _ => by simp [flagControllingInstructionSize], fun hr => absurd (h.ret hr) (by simp)⟩
  · simp only at h1; subst h1
    exact ⟨fun _ => by simp [flagControllingInstructionSize], fun hr => absurd (h.ret hr) (by simp)⟩

theorem tidied_listed {src : Source} {d : Disassembler} (h : Closed src d) (hneat : Neat d) {r : List (Str × Str)}
    {ops fars : OMap DisItem} (hops : ∀ a it jt, d.disassembly.find a = some it → OMap.find ops a = some jt →
        (it.label = [] → jt.label = []) ∧ (it.label ≠ [] → HMap.find r it.label = some jt.label))
    (hok : ∀ a, (OMap.find ops a).isSome = (d.disassembly.find a).isSome)
    (hfk : ∀ a, (OMap.find fars a).isSome = (d.disassembly.find a).isSome)
    (hfars : ∀ a jt, OMap.find fars a = some jt → ∃ it, d.disassembly.find a = some it ∧
        Tidied r { d with disassembly := ops } a it jt)
    {a : Addr} {jt : DisItem} (hj : OMap.find fars a = some jt) (hper : jt.instruction.mnemonic ≠ .per) {mn : Mnemonic}
    (hmn : mn = jt.instruction.mnemonic ∨ (jt.instruction.mnemonic = .adc ∧ mn = .padd) ∨
      (jt.instruction.mnemonic = .sbc ∧ mn = .psub)) : Listed { jt.instruction with mnemonic := mn } := by
  obtain ⟨it, ha, ht⟩ := hfars a jt hj
  obtain ⟨bytes, j, hb, hdec, hsh⟩ := (h.items a it ha).bytes
  have hn := (hneat a it ha).1
  have hret := (h.items a it ha).ret
  obtain ⟨k1, k2, k3, -⟩ := tidied_kind ht
  obtain ⟨d1, d2⟩ := decoded_forms hdec
  rw [k1] at hmn hper
  by_cases hbr : MayBranch j
  · have hbr' : it.instruction.isLocalBranch = true := (mayBranch_iff _).2 ((mayBranch_shows hsh).2 hbr)
    obtain ⟨name, e, v, kt, p1, p2, p3, p4, p5, p6⟩ := h.proper.branches a it ha hbr'
    have hkind := h.proper.kinds a it ha hbr'
    obtain ⟨kt', hk'⟩ := Option.isSome_iff_exists.1 ((hfk _).trans (by rw [p4]; rfl))
    obtain ⟨kt0, q1, q2⟩ := hfars _ kt' hk'
    rw [p4] at q1; cases q1
    have hr := q2.named (by rw [p5]; exact p6)
    have hnew := q2.made (by rw [p5]; exact p6)
    rw [p5] at hr
    have hm : mn = it.instruction.mnemonic := by
      rcases hmn with h | ⟨h, -⟩ | ⟨h, -⟩
      · exact h
      · rw [h] at hkind; exact absurd hkind (by decide)
      · rw [h] at hkind; exact absurd hkind (by decide)
    rw [tidied_branch ht hbr']
    have harg : rewriteOperand r it.instruction.arg1 = .label kt'.label e := by
      rw [p1]; simp only [rewriteOperand, rewriteOf, hr, Option.getD_some]
    have hjk : j.mnemonic ∈ branchMnemonics := by rw [← hsh.mnemonic]; exact hkind
    have hjm := d2 hjk
    refine .branch (name := kt'.label) (e := e) (by simpa [hm] using hkind) ?_ harg ?_ hnew
      (neat_with hn (.inl hm) _)
    · simp only [hm]; rw [hsh.mode, hsh.mnemonic, hjm]
    · simp only; rw [hsh.arg2]
      apply d1
      rw [hjm]; split <;> decide
  · have harg : it.instruction.arg1 = j.arg1 := hsh.plain hbr
    have hre : rewriteOperand r j.arg1 = j.arg1 := by
      rcases decode_args_shape hdec with ⟨v, t, h⟩ | h <;> rw [h] <;> rfl
    have hself : ({ it.instruction with arg1 := rewriteOperand r it.instruction.arg1 } : Instruction) = it.instruction := by
      rw [harg, hre, ← harg]
    have hnr : j.mode ≠ .rel8 ∧ j.mode ≠ .rel16 := by
      unfold MayBranch at hbr
      rw [← hsh.mnemonic] at hbr
      constructor <;> intro hm <;> exact hbr ⟨by simp [hm], hper⟩
    rcases ht.instruction with hi | ⟨t, n, ty, hf, hna, hi⟩
    · rw [hi, hself]
      refine .plain hdec hnr ?_ hsh.mode harg hsh.arg2 (neat_with hn hmn _) hret
      simp only
      rw [← hsh.mnemonic]
      exact hmn
    · rw [hself] at hf
      have hmn' : mn = it.instruction.mnemonic := by
        have := far_mnemonic hf
        rcases hmn with h | ⟨h, -⟩ | ⟨h, -⟩
        · exact h
        · rw [h] at this; simp at this
        · rw [h] at this; simp at this
      have hty := ht.typed ⟨none, n⟩ ty (by rw [hi])
      have hty' : (it.instruction.mode = .dir_l ∧ ty = .long) ∨ (it.instruction.mode = .dir_w ∧ ty = .word) := by
        rcases hty with h | h
        · rw [harg, hre] at h
          rcases decode_args_shape hdec with ⟨v, t, h'⟩ | h' <;> rw [h'] at h <;> cases h
        · exact h
      have hnew : NewName 0 0 n := by
        unfold nameForAddress at hna
        split at hna
        · simp only at hna
          cases hot : OMap.find ops t with
          | none => rw [hot] at hna; cases hna
          | some x =>
            rw [hot] at hna
            simp only at hna
            split at hna
            · rename_i hx
              cases hna
              obtain ⟨y, hy⟩ := Option.isSome_iff_exists.1 ((hok t).symm.trans (by rw [hot]; rfl))
              obtain ⟨z, hz⟩ := Option.isSome_iff_exists.1 ((hfk t).trans (by rw [hy]; rfl))
              obtain ⟨g1, g2⟩ := hops t y x hy hot
              obtain ⟨y', hy', hty⟩ := hfars t z hz
              rw [hy] at hy'; cases hy'
              have hyl : y.label ≠ [] := fun h => hx (g1 h)
              have := hty.named hyl
              rw [g2 hyl] at this
              have heq := Option.some.inj this
              rw [heq]
              exact hty.made hyl
            · cases hna
        · cases hna
      rw [hi]
      have hmode : it.instruction.mode = .dir_l ∨ it.instruction.mode = .dir_w := by
        rcases hty' with h | h <;> simp [h]
      refine .far (name := n) (ty := ty) ?_ rfl ?_ hnew (neat_with hn (.inl hmn') _) hret
      · simp only [hmn']
        unfold Instruction.farBranchTarget at hf
        rcases hty' with ⟨h1, h2⟩ | ⟨h1, h2⟩
        · refine .inl ⟨h1, h2, ?_⟩
          by_contra hc
          rw [if_neg (by simp [hc]), if_neg (by simp [h1])] at hf
          cases hf
        · refine .inr ⟨h1, h2, ?_⟩
          by_contra hc
          rw [if_neg (by simp [h1]), if_neg (by simp [hc])] at hf
          cases hf
      · simp only; rw [hsh.arg2]
        apply d1
        rw [← hsh.mode]
        rcases hmode with h | h <;> rw [h] <;> decide

/-- **The entries after Cleanup.** -/
theorem cleanup_listed {src : Source} {d d' : Disassembler} (h : Session FlagsWritten src d) (hcl : d.cleanup = .ok d')
    {a : Addr} {it : DisItem} (ha : d'.disassembly.find a = some it) (hper : it.instruction.mnemonic ≠ .per) :
    Listed it.instruction ∧ (it.label = [] ∨ NewName 0 0 it.label) := by
  have hc := session_closed h
  obtain ⟨r, ops, fars, hs, rfl, hfk, hok, hops, hfars, -⟩ := cleanup_inv hc.proper.sorted hc.proper.distinct hcl
  obtain ⟨ft, hft, hfold⟩ := (fold_spec fars hs).1 a it ha
  have hlab : it.label = [] ∨ NewName 0 0 it.label := by
    rw [(folded_rest hfold).1]
    obtain ⟨jt, -, hj⟩ := hfars a ft hft
    by_cases hl : jt.label = []
    · exact .inl (hj.blank hl)
    · exact .inr (hj.made hl)
  refine ⟨?_, hlab⟩
  rcases hfold with rfl | ⟨b, sc, mn, hb, -, -, hp, rfl⟩
  · exact tidied_listed hc (session_neat h) hops hok hfk hfars hft hper (.inl rfl)
  · obtain ⟨-, hm⟩ := foldPair_spec hp
    refine tidied_listed hc (session_neat h) hops hok hfk hfars hb ?_ ?_
    · rcases hm with ⟨-, h, -⟩ | ⟨-, h, -⟩ <;> rw [h] <;> decide
    · rcases hm with ⟨-, h1, h2⟩ | ⟨-, h1, h2⟩
      · exact .inr (.inl ⟨h1, h2⟩)
      · exact .inr (.inr ⟨h1, h2⟩)

/-! ## Lines -/

/-- What the assembler makes of a line. -/
def LineReads (line : Str) (its : List Item) : Prop := ∃ ts, tokenize line = .ok ts ∧ parse ts = .ok its

/-- The tokens of a label. -/
def labelTokens (l : Str) : List Token := if l = [] then [] else [.ident l, tok ':']

theorem lex_labelled {l : Str} (hl : l = [] ∨ IsName l) {s : Str} {ts : List Token} (h : Lex s ts) :
    Lex (Print.padTo 8 (Print.labelText l) ++ ' ' :: s) (labelTokens l ++ ts) := by
  rcases hl with rfl | hl
  · exact lex_blanks 9 h
  · have hne : l ≠ [] := by rintro rfl; obtain ⟨c, t, h, -⟩ := hl.first; cases h
    rw [Print.labelText, labelTokens, if_neg hne, if_neg hne, Print.padTo]
    generalize 8 - (l ++ cs!":").length = n
    have e : l ++ cs!":" ++ List.replicate n ' ' ++ ' ' :: s = l ++ ':' :: (List.replicate n ' ' ++ ' ' :: s) := by simp
    rw [e]
    refine lex_name hl (by intro d hd; cases hd; decide) (lex_colon ?_ (lex_blanks n (lex_space h)))
    cases n <;> simp [List.replicate_succ]

theorem parse_label {l : Str} {ts : List Token} {st : Statement} (h : StmtReads ts st) (hne : ts ≠ []) :
    parse ((labelTokens l ++ ts) ++ [.eol]) = .ok (labelItems l ++ [.stmt st]) := by
  unfold labelTokens labelItems
  split
  · exact parse_stmt h hne
  · simpa using parse_labelled h l

theorem org_reads {a : Addr} (ha : a < 0x1000000) : LineReads (Print.orgLine a) [.stmt (orgStatement a)] := by
  obtain ⟨ts, h1, h2⟩ := reads_org ha
  have hlex := lex_org ha
  have : Lex (Print.orgLine a) [.dir .org, .lit a .long] := lex_blanks 9 hlex
  refine ⟨_, this, ?_⟩
  have e : ts = [.dir .org, .lit a .long, .eol] := by
    have := hlex
    unfold Props.Lex at this
    rw [this] at h1
    cases h1; rfl
  rw [e] at h2
  exact h2

theorem fromName_toName (f : StatusFlags) : ∃ g, StatusFlags.fromName f.toName = some g := by
  have : ∀ w ∈ modeNames, (StatusFlags.fromName w).isSome = true := by decide +kernel
  exact Option.isSome_iff_exists.1 (this _ (toName_mem f))

theorem entry_reads {it : DisItem} (hl : it.label = [] ∨ IsName it.label)
    (hc : it.current.flags.c ≠ .on ∧ it.current.flags.c ≠ .off) :
    ∃ f, StatusFlags.fromName it.current.flags.toName = some f ∧
      LineReads (Print.entryLine it) (labelItems it.label ++ [.stmt (entryStatement f)]) := by
  obtain ⟨f, hf⟩ := fromName_toName it.current.flags
  refine ⟨f, hf, ?_⟩
  have hn := isName_mode it.current.flags
  have h1 : Lex (cs!".entry " ++ it.current.flags.toName) [.dir .entry, .ident it.current.flags.toName] :=
    lex_dotted (w := cs!"entry") (s := ' ' :: it.current.flags.toName) (by decide)
      (by intro d h; simp at h; subst h; decide) (by decide) (lex_space (lex_whole hn))
  have h2 := lex_labelled hl h1
  have e : Print.entryLine it = Print.padTo 8 (Print.labelText it.label) ++ ' ' :: (cs!".entry " ++ it.current.flags.toName) := by
    unfold Print.entryLine StatusFlags.toStr
    rw [if_neg hc.1, if_neg hc.2]
    simp
  refine ⟨_, by rw [e]; exact h2, ?_⟩
  refine parse_label (stmt_directive ?_) (by simp)
  simp [directive, DirectiveName.type, directiveFlags, mode, front, hf, confirmAtEnd, atEnd, isEnd, returnConvention]

theorem code_reads {pc : Addr} {it : DisItem} (hl : it.label = [] ∨ IsName it.label) {i0 : Instruction}
    (hi : TextReads it.instruction i0) :
    LineReads (Print.codeLine pc it) ((if it.isEntry then [] else labelItems it.label) ++ [.stmt (.instr i0)]) := by
  obtain ⟨ts, h1, h2, h3⟩ := hi.text
  have hcode : ∀ l, (l = [] ∨ IsName l) → ∀ n c, LineReads (Print.padTo 8 (Print.labelText l) ++ cs!" " ++ it.instruction.toStr ++
      List.replicate n ' ' ++ cs!" ; " ++ c) (labelItems l ++ [.stmt (.instr i0)]) := by
    intro l hl n c
    have h4 := lex_labelled hl h1
    refine ⟨_, ?_, parse_label (l := l) h2 h3⟩
    have := lex_tail n c h4
    have e : Print.padTo 8 (Print.labelText l) ++ ' ' :: it.instruction.toStr ++ List.replicate n ' ' ++ cs!" ; " ++ c =
        Print.padTo 8 (Print.labelText l) ++ cs!" " ++ it.instruction.toStr ++ List.replicate n ' ' ++ cs!" ; " ++ c := by simp
    rw [e] at this
    exact this
  unfold Print.codeLine Print.lineLabel
  rw [Print.padTo.eq_def 35]
  cases it.isEntry with
  | true =>
    have := hcode [] (.inl rfl)
    simpa [Print.labelText, labelItems] using this _ _
  | false =>
    have := hcode it.label hl
    simpa using this _ _

theorem fileItems_nil : FileItems [] [] := ⟨[], .nil, rfl⟩

theorem fileItems_cons {line : Str} {its items : List Item} {file : List Str} (h : LineReads line its)
    (h' : FileItems file items) : FileItems (line :: file) (its ++ items) := by
  obtain ⟨ps, hp, rfl⟩ := h'
  exact ⟨its :: ps, .cons h hp, by simp⟩

theorem fileItems_append {f g : List Str} {is js : List Item} (h : FileItems f is) (h' : FileItems g js) :
    FileItems (f ++ g) (is ++ js) := by
  obtain ⟨ps, hp, rfl⟩ := h
  obtain ⟨qs, hq, rfl⟩ := h'
  exact ⟨ps ++ qs, List.rel_append hp hq, by simp⟩

/-- What is needed of an entry. -/
structure Printable (a : Addr) (it : DisItem) : Prop where
  address : a < 0x1000000
  label : it.label = [] ∨ IsName it.label
  carry : it.isEntry = true → it.current.flags.c ≠ .on ∧ it.current.flags.c ≠ .off
  reads : ∃ i0, TextReads it.instruction i0

theorem body_reads (m : OMap DisItem) (hm : ∀ p ∈ m, Printable p.1 p.2) (pc : Addr) :
    ∃ items, FileItems (Print.body pc m) items ∧ ListingItems pc m items := by
  induction m generalizing pc with
  | nil => exact ⟨[], fileItems_nil, .nil⟩
  | cons p m ih =>
    obtain ⟨a, it⟩ := p
    have hp := hm (a, it) (by simp)
    obtain ⟨i0, hi⟩ := hp.reads
    obtain ⟨items, h1, h2⟩ := ih (fun p hp => hm p (by simp [hp])) (Address.addWrapped a it.instruction.serializedSize)
    have hcode := fileItems_cons (code_reads (pc := a) hp.label hi) h1
    have horg : FileItems (if a ≠ pc then [Print.orgLine a] else []) (originItems pc a) := by
      unfold originItems
      by_cases h : a = pc
      · simpa [h] using fileItems_nil
      · simpa [h] using fileItems_cons (org_reads hp.address) fileItems_nil
    rw [Print.body, Print.itemLines]
    cases he : it.isEntry with
    | false =>
      refine ⟨_, ?_, .cons (es := []) (.inl ⟨he, rfl⟩) hi.back h2⟩
      rw [he] at hcode
      have := fileItems_append horg hcode
      simpa using this
    | true =>
      obtain ⟨f, hf, hent⟩ := entry_reads hp.label (hp.carry he)
      refine ⟨_, ?_, .cons (es := [.stmt (entryStatement f)]) (.inr ⟨he, f, hf, rfl⟩) hi.back h2⟩
      rw [he] at hcode
      have := fileItems_append horg (fileItems_cons hent hcode)
      simpa using this

theorem listing_reads (m : OMap DisItem) (hm : ∀ p ∈ m, Printable p.1 p.2) :
    ∃ items, FileItems (Print.listing m) items ∧ ListingFile m items := by
  have hcom : ∀ c, LineReads (';' :: c) [] := by
    intro c
    refine ⟨[.eol], ?_, by decide⟩
    have := C33_comment [] c
    rw [List.nil_append] at this
    rw [this]; decide
  match m, hm with
  | [], _ => exact ⟨[], fileItems_cons (hcom _) fileItems_nil, rfl⟩
  | (a, it) :: m, hm =>
    obtain ⟨items, h1, h2⟩ := body_reads ((a, it) :: m) hm a
    refine ⟨_, ?_, items, h2, rfl⟩
    exact fileItems_cons (hcom _) (fileItems_cons (org_reads (hm (a, it) (by simp)).address) h1)

end Nsasm
