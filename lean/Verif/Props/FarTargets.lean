import Verif.Lemmas.FarTargets
import Verif.Props.Listing

/-! # C53: the targets that the disassembler reports -/

namespace Nsasm.Props
open Nsasm Nsasm.Spec

theorem far_jumpsTo {src : Source} {a t : Nat} {it : DisItem} (h : ItemOk src a it)
    (ht : it.instruction.farBranchTarget a = .ok (some t)) : JumpsTo it.instruction a t := by
  obtain ⟨bytes, j, -, hd, hsh⟩ := h.bytes
  have hnb : it.instruction.isLocalBranch = false := by
    cases hb : it.instruction.isLocalBranch with
    | false => rfl
    | true => rw [branch_no_far hb] at ht; cases ht
  have harg : it.instruction.arg1 = j.arg1 := by
    refine hsh.plain fun hb => ?_
    have : it.instruction.isLocalBranch = true := by
      rw [mayBranch_iff]; unfold MayBranch at hb ⊢; rw [hsh.mode, hsh.mnemonic]; exact hb
    rw [hnb] at this; cases this
  unfold Instruction.farBranchTarget at ht
  split at ht
  · next hm =>
    split at ht
    · next v hv =>
      obtain ⟨u, hu, ht⟩ := Res.bind_eq_ok.1 ht
      cases ht
      unfold Address.ofInt at hu
      split at hu
      · next hb =>
        cases hu
        exact .long hm.1 hm.2 (by rw [hv, Int.toNat_of_nonneg hb.1]) (by omega)
      · cases hu
    · cases ht
    · cases ht
  · split at ht
    · next hm =>
      split at ht
      · next v hv =>
        cases ht
        rw [decode_ok_iff] at hd
        obtain ⟨op, l, m, a1, a2, -, -, -, -, h, rfl⟩ := hd
        have hmode : m = .dir_w := by rw [← hm.1, hsh.mode]
        subst hmode
        unfold decodeArgs at h
        split at h <;> first | (rename_i hh; cases hh; done) | skip
        split at h
        · next b0 b1 l' =>
          cases h
          simp only at harg
          rw [harg] at hv
          have hb0 := b0.toNat_lt
          have hb1 := b1.toNat_lt
          have hv' : v = ((b0.toNat + b1.toNat * 256 : Nat) : Int) := by
            simp only [Expr.mkLit, Expr.eval] at hv
            cases hv
            simp only [NumericType.castTo]
            omega
          subst hv'
          refine .near hm.1 hm.2 (v := b0.toNat + b1.toNat * 256) (by rw [harg]; exact hv) (by omega) ?_
          simp only [Address.ofBank, Address.bank]
          omega
        · cases h
      · cases ht
      · cases ht
    · cases ht

/-- **Every call and jump is reported, with flags that cover those at the call site**, after any history
of calls: for each listed jump or call to a known address one of the successful calls of `Disassemble`
reported the address, with flags that describe every processor that the state recorded at the call site
describes.

Partial: a call that the listing annotates with `yields` is left out.  When `Disassemble` visits such a
call for the second time it reports the flags after the return instead; see `C53_violated`. -/
theorem C53_call_sites_partial {src : Source} {d : Disassembler} {log : List (OMap StatusFlags)}
    (h : Reported HasName src d log) {a t : Addr} {it : DisItem} (hl : Lists d.disassembly a it)
    (hj : JumpsTo it.instruction a t) (hret : ∀ f, it.instruction.ret ≠ .yields f) :
    ∃ T ∈ log, ∃ f, T.find t = some f ∧
      ∀ (o : Meaning) (p : Cpu), p.Ok → FlagsDescribe o it.current.flags p → FlagsDescribe o f p := by
  replace hj := jumpsTo_far hj
  induction h generalizing it with
  | new => cases hl
  | table before sorted ok ih => exact ih hl hret hj
  | call before address ok result ih =>
    rcases (call_report (session_closed (reported_session before)) address (constructible_normal ok) result).1
        a it t hl hj hret with ⟨old, h1, h2, h3, h4⟩ | ⟨f, h1, h2⟩
    · obtain ⟨T, hT, f, h5, h6⟩ := ih h1 (by rw [h4]; exact hret) h3
      exact ⟨T, .tail _ hT, f, h5, by rw [← h2]; exact h6⟩
    · exact ⟨_, .head _, f, h1, h2⟩
  | failed before address ok result ended ih =>
    have := (C50_failure_keeps_result result).1
    rw [this] at hl
    exact ih hl hret hj

/-- Nothing else is reported: whatever address a call returns is the target of a listed jump or call. -/
theorem C53_only_targets {src : Source} {d d' : Disassembler} (h : Session HasName src d) {fuel : Nat} {start : Addr}
    (hs : start ≤ 0x1000000) {flags : StatusFlags} (hf : Constructible flags) {T : OMap StatusFlags}
    (hr : d.disassemble fuel src start flags = (d', .ok T)) {t : Addr} {f : StatusFlags} (ht : T.find t = some f) :
    ∃ a it, Lists d'.disassembly a it ∧ JumpsTo it.instruction a t := by
  obtain ⟨a, it, h1, h2⟩ := (call_report (session_closed h) hs (constructible_normal hf) hr).2 t f ht
  exact ⟨a, it, h1, far_jumpsTo ((session_closed (.call h hs hf hr trivial)).items a it h1) h2⟩

/-- **Whatever a processor jumps to is reported with the right flags.**  As in
`C49_shows_execution_partial`, let a processor run the bytes from `start`.  When it gets to a jump or a
call, one of the calls of `Disassemble` has reported the target, and all flags reported as known are
those of the processor.

Partial: as `C49_shows_execution_partial` and `C53_call_sites_partial`. -/
theorem C53_execution_partial {src : Source} {d₀ d₁ d : Disassembler} (h₀ : Session HasName src d₀)
    {fuel : Nat} {start : Addr} (hs : start ≤ 0x1000000) {flags : StatusFlags} (hf : Constructible flags)
    {far : OMap StatusFlags} (hr : d₀.disassemble fuel src start flags = (d₁, .ok far))
    (hl : Later HasName src d₁ d) (ht : ListingTame d.disassembly) {log : List (OMap StatusFlags)}
    (hlog : Reported HasName src d log) {a : Addr} {p : Cpu}
    (hrun : CodeRuns src (listedReturn d.disassembly) start flags a p) {j : Instruction} {t : Addr}
    (hfetch : Fetches src a p j) (hj : JumpsTo j a t) (hret : ∀ f, listedReturn d.disassembly a ≠ .yields f) :
    ∃ T ∈ log, ∃ f, T.find t = some f ∧ KnownFlagsRight f p := by
  obtain ⟨it, j', h1, ⟨b', hb', hd'⟩, hsh, hdesc⟩ := runs_described h₀ hs hf hr hl ht hrun
  obtain ⟨b, hb, hd⟩ := hfetch
  rw [hb] at hb'; cases hb'
  rw [hd] at hd'; cases hd'
  have hnb : ¬ MayBranch j := by
    rw [← mayBranch_iff]
    intro hb
    have := branch_no_far hb a
    rw [jumpsTo_far hj] at this
    cases this
  have hji : JumpsTo it.instruction a t := by
    have e := hsh.plain hnb
    cases hj with
    | long mode jump value bound => exact .long (hsh.mode.trans mode) (by rw [hsh.mnemonic]; exact jump) (by rw [e]; exact value) bound
    | near mode jump value bound target =>
      exact .near (hsh.mode.trans mode) (by rw [hsh.mnemonic]; exact jump) (by rw [e]; exact value) bound target
  have hret' : ∀ f, it.instruction.ret ≠ .yields f := by
    intro f hf
    apply hret f
    unfold listedReturn
    rw [show OMap.find d.disassembly a = some it from h1]
    exact hf
  obtain ⟨T, hT, f, h2, h3⟩ := C53_call_sites_partial hlog h1 hji hret'
  refine ⟨T, hT, f, h2, ?_⟩
  obtain ⟨hok, hfl, -⟩ := hdesc
  exact describes_known (es := { it.current with flags := f, stack := .abandoned }) ⟨hok, h3 .anything p hok hfl, trivial⟩

/-- The demonstration has such a call, and it is reported with 16-bit registers. -/
example : ∃ T it, Reported HasName demoRom.read demoCall.1 [T] ∧ Lists demoCall.1.disassembly 0x800c it ∧
    JumpsTo it.instruction 0x800c 0x8010 ∧ it.instruction.ret = .default ∧
    T.find 0x8010 = some ⟨.off, .off, .off, .unknown⟩ := by
  obtain ⟨it, h1, h2⟩ : ∃ it, Lists demoCall.1.disassembly 0x800c it ∧
    it.instruction = ⟨.jsr, .none, .dir_w, .lit 0x8010 .word, .null, .default⟩ := ⟨_, rfl, by decide +kernel⟩
  refine ⟨[(0x8010, ⟨.off, .off, .off, .unknown⟩)], it,
    .call (d := .empty) (fuel := 20) (start := 0x8000) (flags := ⟨.off, .on, .on, .unknown⟩) .new (by decide)
      ⟨.off, .on, .on, .unknown, by decide⟩ ?_, h1, ?_, by rw [h2], by decide⟩
  · exact Prod.ext rfl (by decide +kernel)
  · rw [h2]
    exact .near rfl (.inr rfl) (v := 0x8010) rfl (by decide) (by decide)

/-- `jsr $8010; rep #$20; bra $8000` at $8000. -/
def revisitRom : Rom := ⟨.loRom, [0x20, 0x10, 0x80, 0xc2, 0x20, 0x80, 0xf9, 0, 0, 0, 0]⟩

/-- The routine at $8010 is known to return with 8-bit registers. -/
def revisitStart : Disassembler :=
  Disassembler.empty.addTargetReturnConventions [(0x8010, .yields ⟨.off, .on, .on, .unknown⟩)]

/-- The call. -/
def revisitCall : Disassembler × Res (OMap StatusFlags) :=
  revisitStart.disassemble 20 revisitRom.read 0x8000 ⟨.off, .on, .on, .unknown⟩

/-- The full property is false.  The loop calls $8010 first with 8-bit and then with 16-bit registers;
the only report says that it is called with 8-bit registers. -/
theorem C53_violated : ∃ (src : Source) (d : Disassembler) (T : OMap StatusFlags) (f : StatusFlags) (p : Cpu)
    (j : Instruction), Reported HasName src d [T] ∧ ListingTame d.disassembly ∧
    CodeRuns src (listedReturn d.disassembly) 0x8000 ⟨.off, .on, .on, .unknown⟩ 0x8000 p ∧ Fetches src 0x8000 p j ∧
    JumpsTo j 0x8000 0x8010 ∧ T.find 0x8010 = some f ∧ ¬ KnownFlagsRight f p := by
  refine ⟨revisitRom.read, revisitCall.1, [(0x8010, ⟨.off, .on, .on, .unknown⟩)], ⟨.off, .on, .on, .unknown⟩,
    ⟨false, false, true, false, []⟩, ⟨.jsr, .none, .dir_w, .lit 0x8010 .word, .null, .default⟩,
    .call (d := revisitStart) (fuel := 20) (start := 0x8000) (flags := ⟨.off, .on, .on, .unknown⟩)
      (.table .new (by simp) ?_) (by decide) ⟨.off, .on, .on, .unknown, by decide⟩ ?_,
    listingTame_of_all (by decide +kernel), ?_, ⟨_, rfl, rfl⟩, .near rfl (.inr rfl) (v := 0x8010) rfl (by decide) (by decide),
    by decide, by simp [KnownFlagsRight]⟩
  · intro a f hf
    simp only [List.mem_singleton, Prod.mk.injEq, ReturnConvention.yields.injEq] at hf
    obtain ⟨-, rfl⟩ := hf
    exact ⟨cs!"m8x8", by decide +kernel⟩
  · exact Prod.ext rfl (by decide +kernel)
  · refine .branch (a := 0x8005) (p := ⟨false, false, true, false, []⟩) (v := -7)
      (j := ⟨.bra, .none, .rel8, .lit (-7) .sbyte, .null, .default⟩) ?_ ⟨_, rfl, rfl⟩ (by decide +kernel) rfl ?_
    · refine .next (a := 0x8003) (p := ⟨false, true, true, false, []⟩) (operand := 0x20)
        (j := ⟨.rep, .none, .imm_b, .lit 0x20 .byte, .null, .default⟩) ?_ ⟨_, rfl, rfl⟩ (by decide +kernel)
        (by intro v h; cases h; rfl) (by simp only [Follows]; decide +kernel)
      refine .next (a := 0x8000) (p := ⟨false, true, true, false, []⟩) (operand := 0x10)
        (j := ⟨.jsr, .none, .dir_w, .lit 0x8010 .word, .null, .default⟩) ?_ ⟨_, rfl, rfl⟩ (by decide +kernel)
        (by intro v h; cases h; rfl) ?_
      · exact .start (by simp [Cpu.Ok]) (by simp [KnownFlagsRight])
      · simp only [Follows]
        rw [show listedReturn revisitCall.1.disassembly 0x8000 = .yields ⟨.off, .on, .on, .unknown⟩ by decide +kernel]
        exact ⟨by simp [Cpu.Ok], rfl, by simp⟩
    · simp only [Branches]

end Nsasm.Props
