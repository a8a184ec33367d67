import Verif.Lemmas.SameListing
import Verif.Lemmas.Succeeds
import Verif.Props.Accept
import Verif.Props.Driver
import Verif.Props.DisDefined

/-! # C87: the order of the calls -/

namespace Nsasm.Props
open Nsasm Nsasm.Spec Tools Confluent

/-! ## The same calls -/

/-- Two disassemblers that were asked for the same routines with the same flags, in whatever order and however often,
list the same addresses, with the same instructions and the same flags, and name the same addresses. -/
theorem C87_same_entries {src : Source} {conv : OMap ReturnConvention} (hs : conv.Pairwise fun a b => a.1 < b.1)
    (ht : TableOk HasName conv) {asked asked' : List (Addr × StatusFlags)} {d d' : Disassembler}
    (h : Disassembled src conv asked d) (h' : Disassembled src conv asked' d') (hsame : ∀ p, p ∈ asked ↔ p ∈ asked') :
    (∀ a it, Lists d.disassembly a it → ∃ jt, Lists d'.disassembly a jt ∧ SameEntry it jt) ∧
    (∀ a jt, Lists d'.disassembly a jt → ∃ it, Lists d.disassembly a it ∧ SameEntry it jt) := by
  have key : ∀ a it, d.disassembly.find a = some it → ∃ jt, d'.disassembly.find a = some jt ∧ SameEntry it jt := by
    intro a it ha
    obtain ⟨jt, h1, -, h2⟩ := (disassembled_same hs ht h h' hsame).2 a it ha
    exact ⟨jt, h1, h2⟩
  refine ⟨fun a it ha => ?_, fun a jt ha => ?_⟩
  · obtain ⟨jt, h1, h2⟩ := key a it ha
    exact ⟨jt, h1, h2⟩
  · obtain ⟨it, h1, -⟩ := (disassembled_same hs ht h' h fun p => (hsame p).symm).2 a jt ha
    obtain ⟨jt', h2, h3⟩ := key a it h1
    rw [show d'.disassembly.find a = some jt from ha] at h2
    cases h2
    exact ⟨it, h1, h3⟩

/-- If more is asked, every address that is listed without it stays, with the same instruction, and no more is known
about the flags there. -/
theorem C87_more_calls {src : Source} {conv : OMap ReturnConvention} (hs : conv.Pairwise fun a b => a.1 < b.1)
    (ht : TableOk HasName conv) {asked asked' : List (Addr × StatusFlags)} {d d' : Disassembler}
    (h : Disassembled src conv asked d) (h' : Disassembled src conv asked' d') (hsub : ∀ p ∈ asked, p ∈ asked') :
    ∀ a it, Lists d.disassembly a it → ∃ jt, Lists d'.disassembly a jt ∧ WeakerEntry it jt := by
  intro a it ha
  have hB := disassembled_bound hs ht h
  have hB' := disassembled_bound hs ht h'
  obtain ⟨jt, h1, h2⟩ := disassembled_low hs ht h h' hsub a it ha
  obtain ⟨s1, s2, s3⟩ := item_same hB' h1 (hB.closed.items a it ha) (hB.rets a it ha) (closed_normal hB.closed ha).1 h2
  refine ⟨jt, h1, s1.mnemonic.symm, s1.mode.symm, ?_, s1.arg2.symm, s2.symm, ⟨h2.flags.e, h2.flags.m, h2.flags.x, h2.flags.c⟩,
    ⟨s3.flags.e, s3.flags.m, s3.flags.x, s3.flags.c⟩⟩
  cases hb : it.instruction.isLocalBranch with
  | true =>
    obtain ⟨e, n, m, g1, g2⟩ := s1.branch hb
    exact .inr ⟨e, n, m, g1, g2⟩
  | false => exact .inl (s1.plain hb).symm

/-- Two disassemblers that were asked for the same routines print the same listing, labels and all, but for the
suffixes `.b` and `.w`.  They print the same suffixes too if the flags tell the size of the accumulator or the index
registers wherever it matters.  The English claim is of the listings as they are printed, suffixes and all; that is
false in general, see `C87_violated`. -/
theorem C87_same_listing_partial {src : Source} {conv : OMap ReturnConvention} (hs : conv.Pairwise fun a b => a.1 < b.1)
    (ht : TableOk HasName conv) {asked asked' : List (Addr × StatusFlags)} {d d' c : Disassembler}
    (h : Disassembled src conv asked d) (h' : Disassembled src conv asked' d') (hsame : ∀ p, p ∈ asked ↔ p ∈ asked')
    (hc : d.cleanup = .ok c) :
    ∃ c', d'.cleanup = .ok c' ∧
      Print.listing (withoutSuffixes c.disassembly) = Print.listing (withoutSuffixes c'.disassembly) ∧
      (SizesKnownIn d.disassembly → Print.listing c.disassembly = Print.listing c'.disassembly) := by
  obtain ⟨c', h1, h2⟩ := cleanup_same hs ht h h' hsame hc
  refine ⟨c', h1, listing_par (without_par h2), fun hk => listing_par ?_⟩
  exact par_imp h2 fun _ _ _ _ _ hx => ⟨hx.label, hx.entry, hx.code, fun _ => hx.suffix hk, hx.before, hx.after⟩

/-- If calls succeed in one order, they succeed in any other, with enough steps, and so do some of them: for calls that
give both sizes.  Without the sizes it is false, see `C87_violated_undefined`. -/
theorem C87_any_order_partial {src : Source} (hsrc : ∀ a n, src a n ≠ .err .steps) {conv : OMap ReturnConvention}
    (hs : conv.Pairwise fun a b => a.1 < b.1) (ht : TableOk HasName conv) {asked : List (Addr × StatusFlags)}
    {d : Disassembler} (h : Disassembled src conv asked d)
    (hsize : ∀ a f, (a, f) ∈ asked → (f.m = .on ∨ f.m = .off) ∧ (f.x = .on ∨ f.x = .off))
    (order : List (Addr × StatusFlags)) (hsub : ∀ p ∈ order, p ∈ asked) : ∃ d', Disassembled src conv order d' :=
  disassembled_order hsrc hs ht h (fun p hp => hsize p.1 p.2 hp) order hsub

/-! ## The arguments of the tool -/

theorem readSeed_of_asks {msg : Err → Str} {rom : Rom} {arg : SeedArg} {a : Addr} {f : StatusFlags}
    (h : AsksFor rom arg a f) (hn : arg.number ≤ 0x1000000) : readSeed msg rom arg = .ok (.ok (a, f)) := by
  obtain ⟨h1, h2⟩ := h
  have hof : ∀ n : Nat, n ≤ 0x1000000 → Address.ofInt (n : Int) = .ok n := by
    intro n hn
    unfold Address.ofInt
    rw [if_pos ⟨by omega, by omega⟩]; simp
  unfold readSeed
  rw [h1]
  simp only [hof _ hn, Res.bind_ok]
  by_cases hi : arg.indirect
  · rw [if_pos hi] at h2 ⊢
    have := (readWord_defined rom arg.number).2 _ h2
    rw [h2]
    simp only [hof a (by omega), Res.bind_ok]
  · rw [if_neg hi] at h2 ⊢
    rw [h2]

theorem readSeeds_of_asks {msg : Err → Str} {rom : Rom} : ∀ (args : List SeedArg) (m : OMap StatusFlags),
    (∀ arg ∈ args, arg.number ≤ 0x1000000 ∧ ∃ a f, AsksFor rom arg a f) →
    ∃ seeds, readSeeds msg rom m args = .ok (.ok seeds) := by
  intro args
  induction args with
  | nil => intro m _; exact ⟨m, rfl⟩
  | cons arg args ih =>
    intro m h
    obtain ⟨hn, a, f, ha⟩ := h arg (by simp)
    unfold readSeeds
    rw [readSeed_of_asks ha hn, Res.bind_ok]
    exact ih _ fun x hx => h x (by simp [hx])

/-- The order of the pairs of arguments does not matter to quick_disassemble, nor whether one is repeated, as long as
arguments for one address agree on the flags: it prints the same, and ends with the same status. -/
theorem C87_arguments {msg : Err → Str} {fuel : Nat} {rom : Rom} {args args' : List SeedArg}
    (hsame : ∀ arg, arg ∈ args ↔ arg ∈ args')
    (hread : ∀ arg ∈ args, arg.number ≤ 0x1000000 ∧ ∃ a f, AsksFor rom arg a f)
    (hagree : ∀ x ∈ args, ∀ y ∈ args, ∀ a f g, AsksFor rom x a f → AsksFor rom y a g → f = g) :
    disassembleRom msg fuel rom args = disassembleRom msg fuel rom args' := by
  obtain ⟨s, hs⟩ := readSeeds_of_asks (msg := msg) args [] hread
  obtain ⟨s', hs'⟩ := readSeeds_of_asks (msg := msg) args' [] fun x hx => hread x ((hsame x).2 hx)
  have key : ∀ {args args' : List SeedArg} {s s' : OMap StatusFlags}, (∀ arg, arg ∈ args ↔ arg ∈ args') →
      (∀ x ∈ args, ∀ y ∈ args, ∀ a f g, AsksFor rom x a f → AsksFor rom y a g → f = g) →
      readSeeds msg rom [] args = .ok (.ok s) → readSeeds msg rom [] args' = .ok (.ok s') →
      ∀ a f, s.find a = some f → s'.find a = some f := by
    intro args args' s s' hsame hagree hs hs' a f ha
    obtain ⟨-, -, -, h4⟩ := readSeeds_spec args ⟨List.Pairwise.nil, fun a f h => by cases h⟩ hs
    obtain ⟨-, -, i3, i4⟩ := readSeeds_spec args' ⟨List.Pairwise.nil, fun a f h => by cases h⟩ hs'
    rcases h4 a f ha with h | ⟨arg, harg, h⟩
    · simp [OMap.find] at h
    · obtain ⟨a', f', g, h1, h2⟩ := i3 arg ((hsame arg).1 harg)
      obtain ⟨rfl, rfl⟩ := asksFor_unique h h1
      rcases i4 a g h2 with h5 | ⟨y, hy, h5⟩
      · simp [OMap.find] at h5
      · rw [hagree arg harg y ((hsame y).2 hy) a f g h h5, h2]
  have hk := key hsame hagree hs hs'
  have hk' := key (fun x => (hsame x).symm) (fun x hx y hy => hagree x ((hsame x).2 hx) y ((hsame y).2 hy)) hs' hs
  have ss := (readSeeds_spec args ⟨List.Pairwise.nil, fun a f h => by cases h⟩ hs).1.1
  have ss' := (readSeeds_spec args' ⟨List.Pairwise.nil, fun a f h => by cases h⟩ hs').1.1
  have hpar := par_of_find (P := fun _ (v w : StatusFlags) => v = w) ss ss' (fun a v h => ⟨v, hk a v h, rfl⟩)
    fun a w h => ⟨w, hk' a w h⟩
  have heq : s = s' := by
    clear hk hk' ss ss' hs hs'
    induction hpar with
    | nil => rfl
    | cons hxy hrest ih => rw [ih, Prod.ext hxy.1 hxy.2]
  unfold disassembleRom
  rw [hs, hs', heq]

/-! ## Two orders -/

/-- Two routines of `sharedRom` one after the other. -/
def bothOf (a : Addr) (f : StatusFlags) (b : Addr) (g : StatusFlags) : Disassembler :=
  ((Disassembler.empty.disassemble 20 sharedRom.read a f).1.disassemble 20 sharedRom.read b g).1

theorem both_disassembled {a b : Addr} {f g : StatusFlags} (ha : a ≤ 0x1000000) (hb : b ≤ 0x1000000) (hf : Constructible f)
    (hg : Constructible g)
    (h : (match (Disassembler.empty.disassemble 20 sharedRom.read a f).2,
        ((Disassembler.empty.disassemble 20 sharedRom.read a f).1.disassemble 20 sharedRom.read b g).2 with
      | .ok _, .ok _ => true
      | _, _ => false) = true) : Disassembled sharedRom.read [] [(b, g), (a, f)] (bothOf a f b g) := by
  split at h
  · next T X h1 h2 =>
    have hd : Disassembler.empty.disassemble 20 sharedRom.read a f =
        ((Disassembler.empty.disassemble 20 sharedRom.read a f).1, .ok T) := by rw [← h1]
    refine .call (.call .new ha hf hd) hb hg ?_ (fuel := 20) (T := X)
    rw [← h2]; rfl
  · cases h

/-- The accumulator has eight bits in both routines, the index registers have not. -/
def m8x16 : StatusFlags := ⟨.off, .on, .off, .unknown⟩
def m16x16 : StatusFlags := ⟨.off, .off, .off, .unknown⟩

theorem m8x16_ok : Constructible m8x16 := ⟨.off, .on, .off, .unknown, rfl⟩
theorem m16x16_ok : Constructible m16x16 := ⟨.off, .off, .off, .unknown, rfl⟩

/-- The two orders; the names that the disassembler makes up on the way differ. -/
example : Disassembled sharedRom.read [] [(0x8004, m8x8), (0x8000, m8x16)] (bothOf 0x8000 m8x16 0x8004 m8x8) ∧
    Disassembled sharedRom.read [] [(0x8000, m8x16), (0x8004, m8x8)] (bothOf 0x8004 m8x8 0x8000 m8x16) ∧
    ((bothOf 0x8000 m8x16 0x8004 m8x8).disassembly.map fun n => n.2.label) =
      [cs!"gensym1", cs!"gensym3", [], cs!"gensym2"] ∧
    ((bothOf 0x8004 m8x8 0x8000 m8x16).disassembly.map fun n => n.2.label) =
      [cs!"gensym3", cs!"gensym2", [], cs!"gensym1"] ∧
    SizesKnownIn (bothOf 0x8000 m8x16 0x8004 m8x8).disassembly ∧
    (∃ c, (bothOf 0x8000 m8x16 0x8004 m8x8).cleanup = .ok c ∧ Print.listing c.disassembly =
      [cs!"; Disassembled 4 instructions.", cs!"         .org $008000", cs!"entry1:  .entry m8x16",
        cs!"         nop                        ; $008000 m8x16", cs!"label1:  sta.b $10                  ; $008001 m8",
        cs!"         rts                        ; $008003 m8", cs!"entry2:  .entry m8x8",
        cs!"         bra label1                 ; $008004 m8x8"]) := by
  refine ⟨both_disassembled (by decide) (by decide) m8x16_ok m8x8_ok (by decide +kernel),
    both_disassembled (by decide) (by decide) m8x8_ok m8x16_ok (by decide +kernel), by decide +kernel, by decide +kernel,
    fun a it hl => ?_, ?_⟩
  · have hall : ∀ {m : OMap DisItem} (p : Nat × DisItem → Prop) [DecidablePred p], (m.all fun n => decide (p n)) = true →
        ∀ {a it}, Lists m a it → p (a, it) := by
      intro m p _ h a it hl
      exact of_decide_eq_true (List.all_eq_true.mp h (a, it) (OMap.mem_of_find hl))
    exact hall (m := (bothOf 0x8000 m8x16 0x8004 m8x8).disassembly) (fun n =>
      (n.2.instruction.mnemonic ∈ [Mnemonic.adc, .and, .asl, .bit, .cmp, .dec, .eor, .inc, .lda, .lsr, .ora, .pha, .pla, .rol,
        .ror, .sbc, .sta, .stz, .trb, .tsb, .txa, .tya, .padd, .psub] →
        n.2.current.flags.m = .on ∨ n.2.current.flags.m = .off) ∧
      (n.2.instruction.mnemonic ∈ [Mnemonic.cpx, .cpy, .dex, .dey, .inx, .iny, .ldx, .ldy, .phx, .phy, .plx, .ply, .stx, .sty,
        .tax, .tay, .tsx, .txy, .tyx] → n.2.current.flags.x = .on ∨ n.2.current.flags.x = .off)) (by decide +kernel) hl
  · simp only [cleanup_eval]
    exact ⟨(match cleanupEval (bothOf 0x8000 m8x16 0x8004 m8x8) with | .ok d => d | _ => .empty), by decide +kernel,
      by decide +kernel⟩

/-- The order of the calls can show.  Whichever routine comes first gives the shared store its suffix; after the other
the size is not known, but the suffix stays: once `.b`, once `.w`. -/
theorem C87_violated : ∃ d d' c c', Disassembled sharedRom.read [] [(0x8000, m16x16), (0x8004, m8x8)] d ∧
    Disassembled sharedRom.read [] [(0x8004, m8x8), (0x8000, m16x16)] d' ∧ d.cleanup = .ok c ∧ d'.cleanup = .ok c' ∧
    cs!"label1:  sta.b $10                  ; $008001 native" ∈ Print.listing c.disassembly ∧
    cs!"label1:  sta.w $10                  ; $008001 native" ∈ Print.listing c'.disassembly ∧
    Print.listing c.disassembly ≠ Print.listing c'.disassembly := by
  refine ⟨bothOf 0x8004 m8x8 0x8000 m16x16, bothOf 0x8000 m16x16 0x8004 m8x8,
    (match cleanupEval (bothOf 0x8004 m8x8 0x8000 m16x16) with | .ok d => d | _ => .empty),
    (match cleanupEval (bothOf 0x8000 m16x16 0x8004 m8x8) with | .ok d => d | _ => .empty),
    both_disassembled (by decide) (by decide) m8x8_ok m16x16_ok (by decide +kernel),
    both_disassembled (by decide) (by decide) m16x16_ok m8x8_ok (by decide +kernel), ?_, ?_, by decide +kernel,
    by decide +kernel, by decide +kernel⟩
  · rw [cleanup_eval]; decide +kernel
  · rw [cleanup_eval]; decide +kernel

/-- The sizes are given, and a ROM answers. -/
example : (∀ a n, sharedRom.read a n ≠ .err .steps) ∧
    Disassembled sharedRom.read [] [(0x8000, m16x16), (0x8004, m8x8)] (bothOf 0x8004 m8x8 0x8000 m16x16) ∧
    ∀ a f, (a, f) ∈ [((0x8000 : Addr), m16x16), (0x8004, m8x8)] → (f.m = .on ∨ f.m = .off) ∧ (f.x = .on ∨ f.x = .off) := by
  refine ⟨rom_answers sharedRom, both_disassembled (by decide) (by decide) m8x8_ok m16x16_ok (by decide +kernel), ?_⟩
  intro a f h
  simp only [List.mem_cons, Prod.mk.injEq, List.not_mem_nil, or_false] at h
  rcases h with ⟨-, rfl⟩ | ⟨-, rfl⟩ <;> decide

/-- `pha`, `pla`, `rts`. -/
def pushPullRom : Rom := ⟨.loRom, [0x48, 0x68, 0x60, 0, 0, 0]⟩

/-- The flags of `native`. -/
def nativeOnly : StatusFlags := ⟨.off, .unknown, .unknown, .unknown⟩

/-- Without the sizes the order can decide over undefined behaviour.  Disassembling from the `pla` first and from the
`pha` then is fine; from the `pha` first, an assertion fails at the `pla`. -/
theorem C87_violated_undefined :
    (∃ d, Disassembled pushPullRom.read [] [(0x8000, nativeOnly), (0x8001, m8x8)] d) ∧
    ∀ fuel ≥ 2, (Disassembler.empty.disassemble fuel pushPullRom.read 0x8000 nativeOnly).2 = .ub .assertFail := by
  constructor
  · have h1 : Disassembler.empty.disassemble 20 pushPullRom.read 0x8001 m8x8 =
        ((Disassembler.empty.disassemble 20 pushPullRom.read 0x8001 m8x8).1, .ok []) := by decide +kernel
    exact ⟨_, .call (.call .new (by decide) m8x8_ok h1) (by decide) ⟨.off, .unknown, .unknown, .unknown, rfl⟩
      (fuel := 20) (T := []) (Prod.ext rfl (by decide +kernel))⟩
  · intro fuel hf
    obtain ⟨n, rfl⟩ : ∃ n, fuel = n + 2 := ⟨fuel - 2, by omega⟩
    have h1 : ∃ w, Disassembler.step pushPullRom.read .empty (Disassembler.begin .empty 0x8000 nativeOnly) = .ok (some w) ∧
        Disassembler.step pushPullRom.read .empty w = .ub .assertFail := by
      refine ⟨(match Disassembler.step pushPullRom.read .empty (Disassembler.begin .empty 0x8000 nativeOnly) with
        | .ok (some w) => w | _ => ⟨[], [], [], [], 0⟩), by decide +kernel, by decide +kernel⟩
    obtain ⟨w, h1, h2⟩ := h1
    unfold Disassembler.disassemble Disassembler.run
    simp only [h1]
    unfold Disassembler.run
    simp only [h2]

/-- More calls: the shared store is known with an 8-bit accumulator, then not. -/
example : Disassembled sharedRom.read [] [(0x8000, m16x16), (0x8004, m8x8)] (bothOf 0x8004 m8x8 0x8000 m16x16) ∧
    ∃ d, Disassembled sharedRom.read [] [(0x8004, m8x8)] d ∧
      (d.disassembly.find 0x8001).map (fun it => it.current.flags) = some ⟨.off, .on, .on, .original⟩ ∧
      ((bothOf 0x8004 m8x8 0x8000 m16x16).disassembly.find 0x8001).map (fun it => it.current.flags) =
        some ⟨.off, .unknown, .unknown, .original⟩ := by
  refine ⟨both_disassembled (by decide) (by decide) m8x8_ok m16x16_ok (by decide +kernel), sharedOnce,
    .call (fuel := 20) (T := []) .new (by decide) m8x8_ok (by decide +kernel), by decide +kernel, by decide +kernel⟩

/-- Arguments that can be read: the two routines, one of them twice. -/
example : (∀ arg ∈ [SeedArg.mk false 0x8004 cs!"m8x8", ⟨false, 0x8000, cs!"m16x16"⟩, ⟨false, 0x8004, cs!"m8x8"⟩],
      arg.number ≤ 0x1000000 ∧ ∃ a f, AsksFor sharedRom arg a f) ∧
    ∀ x ∈ [SeedArg.mk false 0x8004 cs!"m8x8", ⟨false, 0x8000, cs!"m16x16"⟩, ⟨false, 0x8004, cs!"m8x8"⟩],
      ∀ y ∈ [SeedArg.mk false 0x8004 cs!"m8x8", ⟨false, 0x8000, cs!"m16x16"⟩, ⟨false, 0x8004, cs!"m8x8"⟩],
      ∀ a f g, AsksFor sharedRom x a f → AsksFor sharedRom y a g → f = g := by
  refine ⟨?_, ?_⟩
  · simp only [List.forall_mem_cons, List.not_mem_nil, false_implies, implies_true, and_true]
    exact ⟨⟨by decide, 0x8004, m8x8, by decide +kernel, rfl⟩, ⟨by decide, 0x8000, m16x16, by decide +kernel, rfl⟩,
      by decide, 0x8004, m8x8, by decide +kernel, rfl⟩
  · simp only [List.forall_mem_cons, List.not_mem_nil, false_implies, implies_true, and_true]
    unfold AsksFor
    refine ⟨⟨?_, ?_, ?_⟩, ⟨?_, ?_, ?_⟩, ?_, ?_, ?_⟩ <;> rintro a f g ⟨h1, h2⟩ ⟨h3, h4⟩ <;>
      simp only [Bool.false_eq_true, if_false] at h2 h4
    all_goals first
      | (rw [h1] at h3; cases h3; rfl)
      | (exfalso; omega)

end Nsasm.Props
