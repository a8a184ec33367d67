import Verif.Lemmas.Place
import Verif.Lemmas.Noted
import Verif.Props.Place

/-! # C103: a listing shows what control can be brought to, and nothing else -/

namespace Nsasm.Props
open Nsasm Nsasm.Spec

/-- What the flags of a state that covers another are merged with does not change them. -/
theorem flags_absorb {f g : StatusFlags} (hf : Normal f) (h : FlagsAbove f g) : f.merge g = f := by
  have he := (bit_above_iff _ _).2 h.e
  have hm := (bit_above_iff _ _).2 h.m
  have hx := (bit_above_iff _ _).2 h.x
  have hc := (bit_above_iff _ _).2 h.c
  unfold StatusFlags.merge StatusFlags.make
  rw [he, hm, hx, hc, hf.1, hf.2]

/-- **An address is listed exactly if the flow of control can bring a state there**, from the addresses and flags that
were asked for. -/
theorem C103_listed_iff {src : Source} {conv : OMap ReturnConvention} (hs : OMap.Sorted conv) (ht : TableOk HasName conv)
    {asked : List (Addr × StatusFlags)} {d : Disassembler} (h : Called src conv asked d) (a : Addr) :
    (∃ it, Lists d.disassembly a it) ↔ ∃ s, BroughtTo src conv asked a s := by
  constructor
  · rintro ⟨it, ha⟩
    exact ⟨_, (Brought.called_listed hs (table_written ht) h a it ha).1⟩
  · rintro ⟨s, hb⟩
    obtain ⟨-, it, hit, -⟩ := Brought.brought_under (table_written ht) (Brought.called_bound hs (table_written ht) h)
      (Brought.called_covers hs (table_written ht) h) hb
    exact ⟨it, hit⟩

/-- **What is recorded at an address can be brought there, and merging what else can be brought there into its flags does
not change them.**  The instruction is the one that the bytes are under these flags. -/
theorem C103_entry {src : Source} {conv : OMap ReturnConvention} (hs : OMap.Sorted conv) (ht : TableOk HasName conv)
    {asked : List (Addr × StatusFlags)} {d : Disassembler} (h : Called src conv asked d) {a : Addr} {it : DisItem}
    (ha : Lists d.disassembly a it) :
    BroughtTo src conv asked a it.current ∧
    (∀ s, BroughtTo src conv asked a s → it.current.flags.merge s.flags = it.current.flags) ∧
    ∃ i, CodeAt src conv a it.current.flags i ∧ Shows i it.instruction ∧ i.ret = it.instruction.ret := by
  have hB := Brought.called_bound hs (table_written ht) h
  refine ⟨(Brought.called_listed hs (table_written ht) h a it ha).1, fun s hb => ?_, ?_⟩
  · obtain ⟨-, jt, hit, hab⟩ := Brought.brought_under (table_written ht) hB
      (Brought.called_covers hs (table_written ht) h) hb
    rw [show d.disassembly.find a = some it from ha] at hit
    cases hit
    exact flags_absorb (closed_normal hB.closed ha).1.1 hab.flags
  · have hi := hB.closed.items a it ha
    obtain ⟨bytes, j, hb, hd, hsh⟩ := hi.bytes
    exact ⟨_, Brought.bare_codeAt hi (hB.rets a it ha) hb hd hsh,
      ⟨hsh.mnemonic, hsh.mode, hsh.arg2, hsh.branch, hsh.plain⟩, rfl⟩

/-- **So what was asked for determines the flags that are recorded**: there is only one choice of flags that can be
brought to an address and that absorbs all others. -/
theorem C103_flags {src : Source} {conv : OMap ReturnConvention} (hs : OMap.Sorted conv) (ht : TableOk HasName conv)
    {asked : List (Addr × StatusFlags)} {d : Disassembler} (h : Called src conv asked d) {a : Addr} {it : DisItem}
    (ha : Lists d.disassembly a it) {t : ExecutionState} (hb : BroughtTo src conv asked a t)
    (hm : ∀ s, BroughtTo src conv asked a s → t.flags.merge s.flags = t.flags) : t.flags = it.current.flags := by
  obtain ⟨h1, h2, -⟩ := C103_entry hs ht h ha
  have hc : t.flags.merge it.current.flags = it.current.flags.merge t.flags := by
    unfold StatusFlags.merge
    rw [bit_merge_comm t.flags.e, bit_merge_comm t.flags.m, bit_merge_comm t.flags.x, bit_merge_comm t.flags.c]
  exact (hm _ h1).symm.trans (hc.trans (h2 _ hb))

/-- A jump is shown as it is. -/
theorem shown_jumps {j i : Instruction} (h : Shows j i) {a t : Addr} : JumpsTo i a t → JumpsTo j a t := by
  intro hj
  have hnb : i.isLocalBranch = false := by
    cases hb : i.isLocalBranch with
    | false => rfl
    | true => have := jumpsTo_far hj; rw [branch_no_far hb] at this; cases this
  have h1 := h.plain (by rw [← mayBranch_iff, ← Brought.shows_branch h, hnb]; simp)
  have h2 := h.mode
  have h3 := h.mnemonic
  cases hj with
  | long mode jump value bound => exact .long (h2 ▸ mode) (h3 ▸ jump) (h1 ▸ value) bound
  | near mode jump value bound target => exact .near (h2 ▸ mode) (h3 ▸ jump) (h1 ▸ value) bound target

/-- **What a call returns are the targets of the calls and jumps that control can be brought to.**  All that it returns
are such targets, and it returns all targets of calls and jumps that control could not be brought to before. -/
theorem C103_targets {src : Source} {conv : OMap ReturnConvention} (hs : OMap.Sorted conv) (ht : TableOk HasName conv)
    {asked : List (Addr × StatusFlags)} {d d' : Disassembler} (h : Called src conv asked d) {fuel start : Nat}
    (hstart : start ≤ 0x1000000) {flags : StatusFlags} (hok : Constructible flags) {T : OMap StatusFlags}
    (hr : d.disassemble fuel src start flags = (d', .ok T)) (t : Addr) :
    ((∃ f, T.find t = some f) → ∃ a s i, BroughtTo src conv ((start, flags) :: asked) a s ∧
      CodeAt src conv a s.flags i ∧ JumpsTo i a t) ∧
    ((∃ a s i, BroughtTo src conv ((start, flags) :: asked) a s ∧ CodeAt src conv a s.flags i ∧ JumpsTo i a t ∧
      ¬ ∃ s', BroughtTo src conv asked a s') → ∃ f, T.find t = some f) := by
  have hc : Called src conv ((start, flags) :: asked) d' := .call h hstart hok hr
  have hB := Brought.called_bound hs (table_written ht) hc
  constructor
  · rintro ⟨f, hf⟩
    obtain ⟨a, it, h1, h2⟩ := C53_only_targets (Brought.called_session hs (table_written ht) h).1 hstart hok hr hf
    obtain ⟨g1, -, i, g2, g3, -⟩ := C103_entry hs ht hc h1
    exact ⟨a, it.current, i, g1, g2, shown_jumps g3 h2⟩
  · rintro ⟨a, s, i, h1, h2, h3, h4⟩
    obtain ⟨it, ha⟩ := (C103_listed_iff hs ht hc a).2 ⟨s, h1⟩
    refine Brought.call_notes (Brought.called_bound hs (table_written ht) h).closed hstart (constructible_normal hok) hr
      ha ?_ ?_
    · obtain ⟨-, jt, hit, hab⟩ := Brought.brought_under (table_written ht) hB
        (Brought.called_covers hs (table_written ht) hc) h1
      rw [show d'.disassembly.find a = some it from ha] at hit
      cases hit
      obtain ⟨bytes, j, hb, hd, hsh⟩ := (hB.closed.items a it ha).bytes
      cases h2 with
      | code read decoded returns =>
        rw [hb] at read
        cases read
        rw [Confluent.decode_above hab.flags hd] at decoded
        cases decoded
        rw [Brought.shows_far hsh]
        have h5 := jumpsTo_far h3
        exact h5
    · cases hn : d.disassembly.find a with
      | none => rfl
      | some it' => exact absurd ((C103_listed_iff hs ht h a).1 ⟨it', hn⟩) h4

/-! ## The routine of `Props/Disassemble` -/

theorem demo_called : Called demoRom.read [] [(0x8000, ⟨.off, .on, .on, .unknown⟩)] demoCall.1 := by
  obtain ⟨far, h⟩ := demo_ok
  have h0 : Disassembler.empty.addTargetReturnConventions [] = .empty := by decide +kernel
  refine .call (d := .empty) (fuel := 20) (T := far) (h0 ▸ .new) (by decide) ⟨.off, .on, .on, .unknown, by decide⟩ ?_
  exact Prod.ext rfl h

/-- The loop is listed; the subroutine and the byte in the middle of an instruction are not, so control cannot be
brought to them. -/
example : (∃ s, BroughtTo demoRom.read [] [(0x8000, ⟨.off, .on, .on, .unknown⟩)] 0x8005 s) ∧
    (¬ ∃ s, BroughtTo demoRom.read [] [(0x8000, ⟨.off, .on, .on, .unknown⟩)] 0x8007 s) ∧
    ¬ ∃ s, BroughtTo demoRom.read [] [(0x8000, ⟨.off, .on, .on, .unknown⟩)] 0x8010 s := by
  have key : ∀ a, (∃ it, Lists demoCall.1.disassembly a it) ↔ _ :=
    fun a => C103_listed_iff List.Pairwise.nil (fun a f h => by cases h) demo_called a
  have look : ∀ a, (∃ it, Lists demoCall.1.disassembly a it) ↔ (demoCall.1.disassembly.find a).isSome = true := by
    intro a
    unfold Lists
    exact Option.isSome_iff_exists.symm
  refine ⟨(key _).1 ((look _).2 (by decide +kernel)), fun h => ?_, fun h => ?_⟩
  · exact absurd ((look _).1 ((key _).2 h)) (by decide +kernel)
  · exact absurd ((look _).1 ((key _).2 h)) (by decide +kernel)

/-- Control can be brought to a call of the subroutine. -/
example : ∃ a s i, BroughtTo demoRom.read [] [(0x8000, ⟨.off, .on, .on, .unknown⟩)] a s ∧
    CodeAt demoRom.read [] a s.flags i ∧ JumpsTo i a 0x8010 := by
  have h0 : Disassembler.empty.addTargetReturnConventions [] = .empty := by decide +kernel
  have hr : demoCall = (demoCall.1, .ok [(0x8010, ⟨.off, .off, .off, .unknown⟩)]) := Prod.ext rfl (by decide +kernel)
  exact (C103_targets (fuel := 20) (d := .empty) List.Pairwise.nil (fun a f h => by cases h) (h0 ▸ .new) (by decide)
    ⟨.off, .on, .on, .unknown, by decide⟩ hr 0x8010).1 ⟨⟨.off, .off, .off, .unknown⟩, by decide⟩

end Nsasm.Props
