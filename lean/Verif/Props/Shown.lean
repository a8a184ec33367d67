import Verif.Lemmas.Shown
import Verif.Lemmas.Confluent
import Verif.Props.Calls

/-!
# What a listing depends on

C97: a listing depends only on the bytes that it shows.  Where it shows nothing, the program may be changed without changing the
listing.
-/

namespace Nsasm.Props
open Nsasm Nsasm.Spec Nsasm.Disassembler Nsasm.Tools

/-- **A listing depends only on the bytes it shows.**  If a call succeeds, and another source has the same bytes in the places of
the instructions listed, then the call gives the same listing, the same targets and the same state of the disassembler for the
other source. -/
theorem C97_call {src src' : Source} {d d' : Disassembler} (h : Session HasName src d) {fuel start : Nat}
    (address : start ≤ 0x1000000) {flags : StatusFlags} (ok : Constructible flags) {T : OMap StatusFlags}
    (result : d.disassemble fuel src start flags = (d', .ok T)) (same : SameShown d'.disassembly src src') :
    d.disassemble fuel src' start flags = (d', .ok T) :=
  Shown.disassemble_same (session_closed h) address (constructible_normal ok) result same

/-- C97 for any number of calls. -/
theorem C97_calls {src src' : Source} {conv : OMap ReturnConvention} (sorted : conv.Pairwise fun a b => a.1 < b.1)
    (table : TableOk HasName conv) {asked : List (Addr × StatusFlags)} {d : Disassembler} (h : Disassembled src conv asked d)
    (same : SameShown d.disassembly src src') : Disassembled src' conv asked d := by
  induction h with
  | new => exact .new
  | call before address ok result ih =>
    have hc := session_closed (Confluent.disassembled_session sorted table before).1
    exact .call (ih (Shown.same_before hc address (constructible_normal ok) result same)) address ok
      (Shown.disassemble_same hc address (constructible_normal ok) result same)

/-- C97: for ROMs, it is enough that the two are of the same kind and size and have the same bytes where the instructions are. -/
theorem C97_rom {rom rom' : Rom} {d : Disassembler} (h : Session HasName rom.read d) (same : SameCode d.disassembly rom rom') :
    SameShown d.disassembly rom.read rom'.read := by
  intro a it ha
  obtain ⟨bs, i0, h1, -, -⟩ := ((session_closed h).items a it ha).bytes
  have hlt := Shown.listed_low h ha
  obtain ⟨h2, h3⟩ := (C29_read_partial rom hlt (n := 4) (by omega) bs).1 h1
  have hex : ∀ i, i < bs.length → ∃ b, ByteAt rom' a i b ∧ (i < instructionLength it.instruction.mode → some b = bs[i]?) := by
    intro i hi
    by_cases hn : i < instructionLength it.instruction.mode
    · exact ⟨bs[i], same.bytes a it ha i hn _ (h3 i hi), fun _ => (List.getElem?_eq_getElem hi).symm⟩
    · obtain ⟨off, o1, o2⟩ := h3 i hi
      have : off < rom'.data.length := by rw [same.size]; exact (List.getElem?_eq_some_iff.mp o2).1
      exact ⟨rom'.data[off], ⟨off, by rw [same.mapping]; exact o1, List.getElem?_eq_getElem this⟩, fun h => absurd h hn⟩
  obtain ⟨b0, p0, q0⟩ := hex 0 (by omega)
  obtain ⟨b1, p1, q1⟩ := hex 1 (by omega)
  obtain ⟨b2, p2, q2⟩ := hex 2 (by omega)
  obtain ⟨b3, p3, q3⟩ := hex 3 (by omega)
  refine ⟨bs, [b0, b1, b2, b3], h1, (C29_read_partial rom' hlt (n := 4) (by omega) _).2 ⟨rfl, ?_⟩, ?_⟩
  · intro i hi
    have : i = 0 ∨ i = 1 ∨ i = 2 ∨ i = 3 := by simp at hi; omega
    rcases this with rfl | rfl | rfl | rfl
    · exact p0
    · exact p1
    · exact p2
    · exact p3
  · apply List.ext_getElem?
    intro i
    rw [List.getElem?_take, List.getElem?_take]
    split
    · next hn =>
      match i with
      | 0 => rw [← q0 hn]; rfl
      | 1 => rw [← q1 hn]; rfl
      | 2 => rw [← q2 hn]; rfl
      | 3 => rw [← q3 hn]; rfl
      | k + 4 => rw [List.getElem?_eq_none (by omega)]; rfl
    · rfl

theorem readSeeds_same {msg : Err → Str} {rom rom' : Rom} : ∀ (args : List SeedArg) (m : OMap StatusFlags),
    SamePointers args rom rom' → readSeeds msg rom' m args = readSeeds msg rom m args := by
  intro args
  induction args with
  | nil => intro m _; rfl
  | cons arg args ih =>
    intro m h
    have h1 : readSeed msg rom' arg = readSeed msg rom arg := by
      unfold readSeed
      by_cases hi : arg.indirect = true
      · simp only [hi, if_true]
        cases StatusFlags.fromName arg.mode with
        | none => rfl
        | some f =>
          unfold Address.ofInt
          by_cases hn : (0 : Int) ≤ arg.number ∧ (arg.number : Int) ≤ 0x1000000
          · simp only [if_pos hn, Res.bind_ok]
            rw [show (arg.number : Int).toNat = arg.number from rfl, h arg (by simp) hi]
          · simp only [if_neg hn]; rfl
      · simp only [hi]; rfl
    unfold readSeeds
    rw [h1]
    have := fun m => ih m fun x hx => h x (by simp [hx])
    simp only [this]

/-- What the tool has done when it ends well and reports no failure. -/
theorem clean_run {msg : Err → Str} {fuel : Nat} {rom : Rom} {args : List SeedArg} {out : Outcome}
    (h : disassembleRom msg fuel rom args = .ok out) (status : out.status = 0) (clean : NoFailures out.lines) :
    ∃ seeds d left c, readSeeds msg rom [] args = .ok (.ok seeds) ∧
      passes msg fuel rom.read (fun _ => false) 100 .empty seeds = .ok (d, left, []) ∧ d.cleanup = .ok c ∧
      out = { lines := Print.listing c.disassembly, status := 0 } := by
  unfold disassembleRom at h
  obtain ⟨x, hseeds, h⟩ := Res.bind_eq_ok.mp h
  cases x with
  | error line => simp only [Res.ok.injEq] at h; subst h; cases status
  | ok seeds =>
    simp only at h
    obtain ⟨⟨d, left, ls⟩, hrun, h⟩ := Res.bind_eq_ok.mp h
    have hls : ls = [] := by
      by_contra hne
      obtain ⟨l, hl, hp⟩ := Shown.passes_errors 100 hrun hne
      refine clean l ?_ hp
      simp only at h
      unfold finishListing at h
      split at h
      · cases h
      · simp only [Res.ok.injEq] at h; subst h; cases status
      · simp only [Res.ok.injEq] at h; subst h; simp [hl]
    subst hls
    simp only at h
    unfold finishListing at h
    split at h
    · cases h
    · simp only [Res.ok.injEq] at h; subst h; cases status
    · rename_i c hc
      simp only [Res.ok.injEq] at h
      exact ⟨seeds, d, left, c, hseeds, hrun, hc, h.symm⟩

/-- **C97 for the tool.**  What `quick_disassemble` prints, if it reports no failure, is the listing of a disassembler `d`; for
every ROM of the same kind and size that has the same bytes in the places of the instructions of `d`, and the same pointers
where the command line asks for pointers, it prints the same. -/
theorem C97_tool {msg : Err → Str} {fuel : Nat} {rom : Rom} {args : List SeedArg} {out : Outcome}
    (h : disassembleRom msg fuel rom args = .ok out) (status : out.status = 0) (clean : NoFailures out.lines) :
    ∃ d c, Explored rom.read d ∧ d.cleanup = .ok c ∧ out.lines = Print.listing c.disassembly ∧
      ∀ rom', SameCode d.disassembly rom rom' → SamePointers args rom rom' → disassembleRom msg fuel rom' args = .ok out := by
  obtain ⟨seeds, d, left, c, hseeds, hrun, hc, rfl⟩ := clean_run h status clean
  have hs := (readSeeds_spec args ⟨List.Pairwise.nil, fun a f h => by cases h⟩ hseeds).1
  obtain ⟨⟨-, -, ⟨log, hr, -⟩, -, hx⟩, -⟩ := passes_did 100 (empty_reported rom.read) hs hrun
  refine ⟨d, c, hx rfl .new, hc, rfl, fun rom' hcode hptr => ?_⟩
  unfold disassembleRom
  rw [readSeeds_same args [] hptr, hseeds, Res.bind_ok]
  simp only
  rw [(Shown.passes_same 100 (empty_reported rom.read) hs hrun (C97_rom (reported_session hr) hcode)).1, Res.bind_ok]
  simp only [finishListing, hc, List.nil_append]

/-! ## The hypotheses can be met -/

/-- `sharedRom` with other bytes after its routines. -/
def patchedRom : Rom := ⟨.loRom, [0xea, 0x85, 0x10, 0x60, 0x80, 0xfb, 1, 2, 3, 4]⟩

theorem patched_code {d : Disassembler} (h : ∀ a it, Lists d.disassembly a it →
    0x8000 ≤ a ∧ a + instructionLength it.instruction.mode ≤ 0x8006) : SameCode d.disassembly sharedRom patchedRom := by
  refine ⟨rfl, rfl, ?_⟩
  intro a it ha k hk b hb
  obtain ⟨h1, h2⟩ := h a it ha
  obtain ⟨off, h3, h4⟩ := hb
  refine ⟨off, h3, ?_⟩
  have hx : ∃ j, j < 6 ∧ a + k = 0x8000 + j := ⟨a + k - 0x8000, by omega, by omega⟩
  obtain ⟨j, hj, hx⟩ := hx
  have e : a / 0x10000 * 0x10000 + (a + k) % 0x10000 = 0x8000 + j := by omega
  rw [e] at h3
  have key : ∀ j < 6, ∀ off, snesToRom (0x8000 + j) .loRom = .ok off → off = j := by
    intro j hj off h
    have : j = 0 ∨ j = 1 ∨ j = 2 ∨ j = 3 ∨ j = 4 ∨ j = 5 := by omega
    rcases this with rfl | rfl | rfl | rfl | rfl | rfl <;> (cases h; rfl)
  have := key j hj off h3
  subst this
  have : ∀ j < 6, sharedRom.data[j]? = patchedRom.data[j]? := by decide
  rw [← this off hj]
  exact h4

/-- The routine at $8004 of both. -/
example : ∃ d T, Disassembler.empty.disassemble 20 sharedRom.read 0x8004 m8x8 = (d, .ok T) ∧ d.disassembly.length = 3 ∧
    SameCode d.disassembly sharedRom patchedRom ∧ sharedRom.read 0x8006 4 ≠ patchedRom.read 0x8006 4 ∧
    Disassembler.empty.disassemble 20 patchedRom.read 0x8004 m8x8 = (d, .ok T) := by
  have hk : (match Disassembler.empty.disassemble 20 sharedRom.read 0x8004 m8x8 with
    | (d, .ok _) => d.disassembly.length == 3 && d.disassembly.all fun p =>
        decide (0x8000 ≤ p.1 ∧ p.1 + instructionLength p.2.instruction.mode ≤ 0x8006)
    | _ => false) = true := by decide +kernel
  split at hk
  · rename_i d T hr
    rw [Bool.and_eq_true] at hk
    have hc : SameCode d.disassembly sharedRom patchedRom :=
      patched_code fun a it ha => of_decide_eq_true (List.all_eq_true.mp hk.2 _ (OMap.mem_of_find ha))
    have hok : Constructible m8x8 := ⟨.off, .on, .on, .unknown, rfl⟩
    refine ⟨d, T, hr, eq_of_beq hk.1, hc, by decide +kernel, ?_⟩
    exact C97_call .new (by decide) hok hr (C97_rom (.call .new (by decide) hok hr trivial) hc)
  · cases hk

/-- And the tool. -/
example : (match disassembleRom (fun _ => cs!"why") 20 sharedRom [⟨false, 0x8004, cs!"m8x8"⟩] with
    | .ok out => out.status == 0 && out.lines.length == 6 && out.lines.all fun l => !(cs!"; ERROR").isPrefixOf l
    | _ => false) = true := by decide +kernel

end Nsasm.Props
