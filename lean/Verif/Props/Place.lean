import Verif.Lemmas.Place
import Verif.Lemmas.Names
import Verif.Lemmas.PrintText
import Verif.Lemmas.EchoText
import Verif.Props.Reparse

/-! # C102: disassembling fails only where there is no code, and the error says where that is -/

namespace Nsasm.Props
open Nsasm Nsasm.Spec

/-! ## An image that cannot be disassembled

```
8000  e2 20        sep #$20
8002  d0 02        bne $8006
8004  c2 20        rep #$20
8006  a9 01 60     lda #$01 or lda #$6001
```
-/

/-- The image. -/
def clashRom : Rom := ⟨.loRom, [0xe2, 0x20, 0xd0, 0x02, 0xc2, 0x20, 0xa9, 0x01, 0x60, 0x00, 0x00, 0x00]⟩

/-- The image as a byte source. -/
def clashSource : PlacedSource := clashRom.source cs!"game.sfc"

/-- Disassembling the routine at $8000. -/
def clashCall : Disassembler × PRes (OMap StatusFlags) :=
  Disassembler.disassembleAt 20 clashSource (Disassembler.empty.addTargetReturnConventions []) 0x8000
    ⟨.off, .on, .on, .unknown⟩

/-! ## The functions with locations -/

/-- **Locations change nothing else.**  Reading a ROM and disassembling with the locations of errors have the outcomes that
the other claims are about. -/
theorem C102_same_outcome (path : Str) (rom : Rom) (a : Addr) (n : Int) (fuel : Nat) (src : PlacedSource)
    (d : Disassembler) (start : Addr) (flags : StatusFlags) :
    (rom.readAt path a n).erase = rom.read a n ∧
    ((Disassembler.disassembleAt fuel src d start flags).1, (Disassembler.disassembleAt fuel src d start flags).2.erase)
      = d.disassemble fuel src.bytes start flags :=
  ⟨Located.erase_readAt path rom a n, Located.erase_disassembleAt fuel src d start flags⟩

/-- A ROM with a path is the byte source of the other claims. -/
theorem source_bytes (path : Str) (rom : Rom) : (rom.source path).bytes = rom.read := by
  funext a n
  exact Located.erase_readAt path rom a n

/-- What can be read from the table is what has been written in it. -/
theorem table_written {conv : OMap ReturnConvention} (h : TableOk HasName conv) : TableOk FlagsWritten conv := h

/-! ## Where a disassembly fails -/

/-- **An error of the disassembler names the byte source and an address that control may be brought to, in a state in which
there is no instruction there**: the four bytes cannot be read, or they cannot be decoded.  The error that is reported is
the one of that read or of that decoding. -/
theorem C102_reported {src : PlacedSource} (hp : src.path ≠ []) {conv : OMap ReturnConvention}
    (hs : OMap.Sorted conv) (ht : TableOk HasName conv) {asked : List (Addr × StatusFlags)} {d d' : Disassembler}
    (h : Called src.bytes conv asked d) {fuel start : Nat} (hstart : start ≤ 0x1000000) {flags : StatusFlags}
    (hok : Constructible flags) {e : Err} {p : Place}
    (hr : Disassembler.disassembleAt fuel src d start flags = (d', .err e p)) (hn : e ≠ .steps) :
    ∃ a s, p = ⟨src.path, .address a⟩ ∧ BroughtTo src.bytes conv ((start, flags) :: asked) a s ∧
      CodeMissing src.bytes a s.flags e :=
  Located.disassembleAt_err hp hs (table_written ht) h hstart hok hr hn

example : clashCall.2 = .err .decodeFlagUnknown ⟨cs!"game.sfc", .address 0x8006⟩ := by decide +kernel

example : clashSource.path ≠ [] ∧ Called clashSource.bytes [] [] (Disassembler.empty.addTargetReturnConventions []) ∧
    Constructible ⟨.off, .on, .on, .unknown⟩ :=
  ⟨by decide, .new, .off, .on, .on, .unknown, by decide⟩

/-- **A call fails exactly when control may be brought to a place without code.** -/
theorem C102_exact {src : Source} {conv : OMap ReturnConvention}
    (hs : OMap.Sorted conv) (ht : TableOk HasName conv) {asked : List (Addr × StatusFlags)} {d d' : Disassembler}
    (h : Called src conv asked d) {fuel start : Nat} (hstart : start ≤ 0x1000000) {flags : StatusFlags}
    (hok : Constructible flags) {r : Res (OMap StatusFlags)}
    (hr : d.disassemble fuel src start flags = (d', r)) (he : Ended r) :
    (∃ e, r = .err e) ↔
      ∃ a s e, BroughtTo src conv ((start, flags) :: asked) a s ∧ CodeMissing src a s.flags e := by
  constructor
  · rintro ⟨e, rfl⟩
    have hb : (PlacedSource.mk ['x'] fun a n => PRes.new (src a n)).bytes = src := by
      funext a n
      exact Located.erase_new _
    have hx := Located.erase_disassembleAt fuel ⟨['x'], fun a n => PRes.new (src a n)⟩ d start flags
    rw [hb, hr] at hx
    obtain ⟨h1, h2⟩ := Prod.mk.injEq .. ▸ hx
    cases h3 : (Disassembler.disassembleAt fuel ⟨['x'], fun a n => PRes.new (src a n)⟩ d start flags).2 with
    | ok T => rw [h3] at h2; cases h2
    | ub u => rw [h3] at h2; cases h2
    | err e' p =>
      rw [h3] at h2
      cases h2
      obtain ⟨a, s, -, h4, h5⟩ := C102_reported (src := ⟨['x'], fun a n => PRes.new (src a n)⟩) (by simp) hs ht
        (hb.symm ▸ h) hstart hok (d' := d') (Prod.ext h1 h3) (by exact he)
      rw [hb] at h4 h5
      exact ⟨a, s, e, h4, h5⟩
  · rintro ⟨a, s, e, h1, h2⟩
    cases r with
    | err e => exact ⟨e, rfl⟩
    | ub u => exact he.elim
    | ok T =>
      obtain ⟨bytes, j, h3, h4⟩ := Located.called_code hs (table_written ht) (.call h hstart hok hr) h1
      cases h2 with
      | unreadable fails => rw [h3] at fails; cases fails
      | undecodable read fails =>
        rw [h3] at read
        cases read
        rw [h4] at fails
        cases fails

/-- Both cases occur. -/
example : Ended (Disassembler.empty.disassemble 20 clashRom.read 0x8000 ⟨.off, .on, .on, .unknown⟩).2 ∧
    (Disassembler.empty.disassemble 20 clashRom.read 0x8000 ⟨.off, .on, .on, .unknown⟩).2 = .err .decodeFlagUnknown ∧
    demoCall.2 = .ok [(0x8010, ⟨.off, .off, .off, .unknown⟩)] := by
  have h : (Disassembler.empty.disassemble 20 clashRom.read 0x8000 ⟨.off, .on, .on, .unknown⟩).2 = .err .decodeFlagUnknown := by
    decide +kernel
  exact ⟨by rw [h]; exact (by decide : Err.decodeFlagUnknown ≠ .steps), h, by decide +kernel⟩

/-! ## How an error is printed -/

/-- Two texts that go on with a character that neither has. -/
theorem split_at {s s' t t' : Str} {c : Char} (hs : c ∉ s) (hs' : c ∉ s') (h : s ++ c :: t = s' ++ c :: t') :
    s = s' ∧ t = t' := by
  induction s generalizing s' with
  | nil =>
    cases s' with
    | nil => simpa using h
    | cons x xs =>
      simp only [List.nil_append, List.cons_append, List.cons.injEq] at h
      exact absurd (h.1 ▸ List.mem_cons_self) hs'
  | cons x xs ih =>
    cases s' with
    | nil =>
      simp only [List.nil_append, List.cons_append, List.cons.injEq] at h
      exact absurd (h.1 ▸ List.mem_cons_self) hs
    | cons y ys =>
      simp only [List.cons_append, List.cons.injEq] at h
      obtain ⟨h1, h2⟩ := ih (fun h => hs (List.mem_cons_of_mem _ h)) (fun h => hs' (List.mem_cons_of_mem _ h)) h.2
      exact ⟨by rw [h.1, h1], h2⟩

theorem hexPadded_value (w n : Nat) : numberValue 16 (hexPadded w n) = n := by
  rw [hexPadded, numberValue_zeros, (digits_spec n).1]

theorem hexPadded_chars (w n : Nat) : ∀ c ∈ hexPadded w n, isHexDigit c = true := by
  intro c hc
  rw [hexPadded, List.mem_append] at hc
  rcases hc with hc | hc
  · rw [(List.mem_replicate.1 hc).2]; decide
  · exact (digits_spec n).2.1 c hc

/-- What is printed between the path and the message. -/
def offsetText : Offset → Str
  | .none => cs!": "
  | .line n => ':' :: (decimal n ++ cs!": ")
  | .address a => ':' :: '0' :: 'x' :: (hexPadded 6 a ++ cs!": ")

theorem errorText_path {path : Str} (hp : path ≠ []) (o : Offset) (m : Str) :
    errorText ⟨path, o⟩ m = path ++ (offsetText o ++ m) := by
  have : (Place.mk path o).text ≠ [] := by
    unfold Place.text
    rw [if_neg hp]
    cases o <;> simp [hp]
  unfold errorText
  rw [if_neg this]
  unfold Place.text
  rw [if_neg hp]
  cases o <;> simp [offsetText]

/-- **A printed error says which place is meant.**  With the same path, two errors are printed alike only if both are
without an offset, both at the same line or both at the same address, and the messages are the same. -/
theorem C102_text {path : Str} (hp : path ≠ []) {o o' : Offset} {m m' : Str}
    (h : errorText ⟨path, o⟩ m = errorText ⟨path, o'⟩ m') : o = o' ∧ m = m' := by
  rw [errorText_path hp, errorText_path hp] at h
  have h := List.append_cancel_left h
  have hd : ∀ n : Nat, ':' ∉ decimal n ∧ ' ' ∉ decimal n ∧ 'x' ∉ decimal n := by
    intro n
    refine ⟨fun h => ?_, fun h => ?_, fun h => ?_⟩ <;>
      exact absurd (decimal_chars n _ h) (by decide)
  have hx : ∀ n : Nat, ':' ∉ hexPadded 6 n := fun n h => absurd (hexPadded_chars 6 n _ h) (by decide)
  have spaced : ∀ (n : Nat) (m m' : Str), decimal n ++ ':' :: ' ' :: m ≠ ' ' :: m' := by
    intro n m m' h
    cases hn : decimal n with
    | nil => rw [hn] at h; simp at h
    | cons c cs =>
      rw [hn] at h
      simp only [List.cons_append, List.cons.injEq] at h
      exact (hd n).2.1 (by rw [hn, h.1]; exact List.mem_cons_self)
  have hexed : ∀ (n : Nat) (m m' : Str), decimal n ++ ':' :: ' ' :: m ≠ '0' :: 'x' :: m' := by
    intro n m m' h
    cases hn : decimal n with
    | nil => rw [hn] at h; simp at h
    | cons c cs =>
      cases cs with
      | nil => rw [hn] at h; simp at h
      | cons c' cs =>
        rw [hn] at h
        simp only [List.cons_append, List.cons.injEq] at h
        exact (hd n).2.2 (by rw [hn, h.2.1]; simp)
  cases o with
  | none =>
    cases o' with
    | none => simpa [offsetText] using h
    | line n => simp [offsetText] at h; exact absurd h.symm (spaced n _ _)
    | address a => simp [offsetText] at h
  | line n =>
    cases o' with
    | none => simp [offsetText] at h; exact absurd h (spaced n _ _)
    | line n' =>
      simp [offsetText] at h
      obtain ⟨h1, h2⟩ := split_at (hd n).1 (hd n').1 h
      rw [decimal_inj h1]
      simpa using h2
    | address a => simp [offsetText] at h; exact absurd h (hexed n _ _)
  | address a =>
    cases o' with
    | none => simp [offsetText] at h
    | line n => simp [offsetText] at h; exact absurd h.symm (hexed n _ _)
    | address a' =>
      simp [offsetText] at h
      obtain ⟨h1, h2⟩ := split_at (hx a) (hx a') h
      have := congrArg (numberValue 16) h1
      rw [hexPadded_value, hexPadded_value] at this
      rw [this]
      simpa using h2

example : errorText ⟨cs!"game.sfc", .address 0x8006⟩ cs!"unknown size" = cs!"game.sfc:0x008006: unknown size" ∧
    errorText ⟨cs!"game.sfc", .line 12⟩ cs!"bad" = cs!"game.sfc:12: bad" ∧
    errorText ⟨cs!"game.sfc", .none⟩ cs!"bad" = cs!"game.sfc: bad" := by decide +kernel

/-- Without a path nothing of the location is printed. -/
theorem C102_text_nowhere (o : Offset) (m : Str) : errorText ⟨[], o⟩ m = m := rfl

/-! ## Reading a ROM -/

/-- **An error of a read names the ROM, and an address only if the byte there is one that was asked for and cannot be
read.**  The other possibility is a read that begins and ends at addresses of the cartridge, the end past the end of the
image: then what is named is no address but the offset in the image at which the read begins, as if it were a line.  What
is missing is that an address is named in this case too. -/
theorem C102_read_partial {path : Str} (hp : path ≠ []) {rom : Rom} {a : Addr} (ha : a < 0x1000000) {n : Int} (hn : 0 ≤ n)
    {e : Err} {p : Place} (h : rom.readAt path a n = .err e p) :
    p.path = path ∧
    ((∃ k : Nat, (k : Int) < n ∧ p.offset = .address (Address.addWrapped a k) ∧
        Unreadable rom (Address.addWrapped a k) e) ∨
      ∃ first last, snesToRom a rom.mapping = .ok first ∧ snesToRom (Address.addWrapped a (n - 1)) rom.mapping = .ok last ∧
        first < last ∧ rom.data.length ≤ last ∧ e = .pastEndOfRom ∧ p.offset = .line first) :=
  Located.readAt_err hp ha hn h

example : clashRom.readAt cs!"game.sfc" 0x7fff 3 = .err .unmappedAddress ⟨cs!"game.sfc", .address 0x7fff⟩ ∧
    clashRom.readAt cs!"game.sfc" 0xfffe 4 = .err .unmappedAddress ⟨cs!"game.sfc", .address 0x0001⟩ ∧
    clashRom.readAt cs!"game.sfc" 0x9000 1 = .err .pastEndOfRom ⟨cs!"game.sfc", .address 0x9000⟩ := by decide +kernel

/-- **A read past the end of the image is reported at a line.**  Reading four bytes at $900a of an image of twelve bytes
gives the location `game.sfc:4106`, where an address was to be named. -/
theorem C102_violated :
    clashRom.readAt cs!"game.sfc" 0x900a 4 = .err .pastEndOfRom ⟨cs!"game.sfc", .line 4106⟩ ∧
    errorText ⟨cs!"game.sfc", .line 4106⟩ cs!"Address past end of ROM" = cs!"game.sfc:4106: Address past end of ROM" ∧
    Unreadable clashRom 0x900a .pastEndOfRom := by
  refine ⟨by decide +kernel, by decide +kernel, .past (n := 4106) (by decide +kernel) (by decide)⟩

end Nsasm.Props
