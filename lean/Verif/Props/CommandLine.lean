import Verif.Props.Disk

/-!
# The words of a command line mean what they say

C92.
-/

namespace Nsasm.Props

open Nsasm Nsasm.Spec Disk Tools

/-- With a ROM that is there and a disk that does not fail, quick_assemble does with the files named what it does with their
contents. -/
theorem C92_quick_assemble {msg : Err → Str} {fuel : Nat} {prog rom path : Str} {sources : List Str} {w : World}
    {file : List UInt8} {files : List (List Str)} (hs : Sound w) (hf : w.files rom = some file) (hl : file.length < 2147483648)
    (hso : Sources w sources files) (hne : sources ≠ []) :
    (CommandLine.quickAssemble msg fuel (prog :: rom :: path :: sources) w).2 = Tools.quickAssemble msg fuel file path files := by
  rcases sources with _ | ⟨source, sources⟩
  · exact absurd rfl hne
  rw [CommandLine.quickAssemble_eq]
  obtain ⟨w1, hf1, hs1, he⟩ := CommandLine.afterLoad_sound (pre := cs!"Error loading ROM: ") (msg := msg)
    (k := CommandLine.assembleWith msg fuel path (source :: sources)) hs hf hl
  rw [he]
  unfold Tools.quickAssemble
  rcases RomFile.load file with r | e | u
  · dsimp only
    unfold CommandLine.assembleWith assembleRom
    split
    · rfl
    · split
      · have hso1 : Sources w1 (source :: sources) files := by unfold Sources at hso ⊢; rw [hf1]; exact hso
        rw [CommandLine.afterSources_sound hs1 hso1]
        rw [if_neg (by decide +kernel), if_pos rfl]
      · rfl
  · rfl
  · rfl

/-- The same for disassemble_more. -/
theorem C92_disassemble_more {msg : Err → Str} {fuel : Nat} {prog rom : Str} {sources : List Str} {w : World}
    {file : List UInt8} {files : List (List Str)} (hs : Sound w) (hf : w.files rom = some file) (hl : file.length < 2147483648)
    (hso : Sources w sources files) (hne : sources ≠ []) :
    (CommandLine.disassembleMore msg fuel (prog :: rom :: sources) w).2 = Tools.disassembleMore msg fuel file files := by
  rcases sources with _ | ⟨source, sources⟩
  · exact absurd rfl hne
  rw [CommandLine.disassembleMore_eq]
  obtain ⟨w1, hf1, hs1, he⟩ := CommandLine.afterLoad_sound (pre := cs!"Error loading ROM: ") (msg := msg)
    (k := fun r => CommandLine.afterSources msg (source :: sources) fun files => disassembleMoreRom msg fuel r.rom files) hs hf hl
  rw [he]
  unfold Tools.disassembleMore
  have hso1 : Sources w1 (source :: sources) files := by unfold Sources at hso ⊢; rw [hf1]; exact hso
  rcases RomFile.load file with r | e | u
  · exact CommandLine.afterSources_sound hs1 hso1
  · rfl
  · rfl

/-- Pairs of a hexadecimal address, with or without `@` and `0x`, and a mode are read as what they say by quick_disassemble.
Missing: a last word without a partner, and words that are no numbers (`C92_violated_unpaired`, `C92_violated_garbage`,
`C92_violated_blank`). -/
theorem C92_quick_disassemble_partial {msg : Err → Str} {fuel : Nat} {prog rom : Str} {words : List Str} {args : List SeedArg}
    {w : World} {file : List UInt8} (hs : Sound w) (hf : w.files rom = some file) (hl : file.length < 2147483648)
    (hw : SeedWords words args) (hne : words ≠ []) :
    (CommandLine.quickDisassemble msg fuel (prog :: rom :: words) w).2 = Tools.quickDisassemble msg fuel file args := by
  obtain ⟨address, mode, rest, rfl⟩ : ∃ address mode rest, words = address :: mode :: rest := by
    cases hw with
    | nil => exact absurd rfl hne
    | direct => exact ⟨_, _, _, rfl⟩
    | indirect => exact ⟨_, _, _, rfl⟩
  rw [CommandLine.quickDisassemble_eq]
  obtain ⟨w1, -, -, he⟩ := CommandLine.afterLoad_sound (pre := []) (msg := msg) hs hf hl
  rw [he]
  unfold Tools.quickDisassemble
  rcases RomFile.load file with r | e | u
  · dsimp only
    rw [CommandLine.readPairs_words hw]
    unfold disassembleRom
    rcases readSeeds msg r.rom [] args with (line | seeds) | e | u <;> rfl
  · rfl
  · rfl

/-- dumb_disassemble starts at the hexadecimal address that it is given.  Missing: words that are no numbers, and words after the
mode, which are ignored. -/
theorem C92_dumb_disassemble_partial {msg : Err → Str} {fuel : Nat} {prog rom address mode : Str} {v : Nat} {w : World}
    {file : List UInt8} (hs : Sound w) (hf : w.files rom = some file) (hl : file.length < 2147483648)
    (hw : HexWord address v) (hv : v < 4294967296) :
    (CommandLine.dumbDisassemble msg fuel [prog, rom, address, mode] w).2 = Tools.dumbDisassemble msg fuel file v mode := by
  rw [CommandLine.dumbDisassemble_eq]
  obtain ⟨w1, -, -, he⟩ := CommandLine.afterLoad_sound (pre := []) (msg := msg)
    (k := fun r w => (w, CommandLine.dumbWith msg fuel address mode r)) hs hf hl
  rw [he]
  unfold Tools.dumbDisassemble CommandLine.dumbWith
  rw [CommandLine.scanHex_word hw hv]
  rcases RomFile.load file with r | e | u <;> rfl

/-- quick_dump prints what `C62` says for the hexadecimal address, the count, the size of the values, 1 if it is left out, and the
number of values in a line, 8 if it is left out.  Missing: words that are no numbers, and words after these, which are ignored. -/
theorem C92_quick_dump_partial {msg : Err → Str} {prog rom address count : Str} {rest : List Str} {start : Nat}
    {n stride perLine : Int} {w : World} {file : List UInt8} {r : RomFile} (hs : Sound w) (hf : w.files rom = some file)
    (hl : file.length < 2147483648) (hr : IsRomFile file r) (hw : HexWord address start) (hv : start < 4294967296)
    (hc : IntWord count n) (h1 : -2147483648 ≤ n) (h2 : n ≤ 2147483647) (hst : OptionalWord 1 rest[0]? stride)
    (hp : OptionalWord 8 rest[1]? perLine) :
    (CommandLine.quickDump msg (prog :: rom :: address :: count :: rest) w).2 =
      (do let lines ← Dump.output r.rom start n stride perLine
          .ok { lines := lines, status := 0 }) := by
  have opt : ∀ {d v : Int} {o : Option Str}, OptionalWord d o v → CommandLine.optionalInt d o = .ok (some v) := by
    intro d v o h
    cases h with
    | absent => rfl
    | present hi g1 g2 =>
      unfold CommandLine.optionalInt CommandLine.afterScan
      dsimp only
      rw [CommandLine.scanInt_word hi g1 g2]
  rw [CommandLine.quickDump_eq]
  obtain ⟨w1, -, -, he⟩ := CommandLine.afterLoad_sound (pre := []) (msg := msg)
    (k := fun r w => (w, CommandLine.dumpLoaded prog r.rom address count rest)) hs hf hl
  rw [he, (C60_load _ _).2 hr]
  dsimp only
  unfold CommandLine.dumpLoaded
  rw [CommandLine.scanHex_word hw hv, CommandLine.scanInt_word hc h1 h2, opt hst]
  simp only [Res.bind_ok]
  rw [opt hp]
  rfl

/-- With too few words, a tool prints how it is used and looks at no file.  Missing: the status is 0. -/
theorem C92_usage_partial {msg : Err → Str} {fuel : Nat} {tool : Tool} (h : IsTool msg fuel tool) {argv : List Str}
    (hl : argv.length < 3 ∨ argv.length = 3 ∧ tool ≠ CommandLine.disassembleMore msg fuel) :
    ∃ lines, (cs!"Usage: " ++ argv.headD []) <+: lines.headD [] ∧ ∀ w, tool argv w = (w, .ok { lines := lines, status := 0 }) := by
  rcases argv with _ | ⟨prog, _ | ⟨rom, _ | ⟨a, _ | ⟨b, c⟩⟩⟩⟩
  · cases h <;> exact ⟨_, List.prefix_append _ _, fun _ => rfl⟩
  · cases h <;> exact ⟨_, List.prefix_append _ _, fun _ => rfl⟩
  · cases h <;> exact ⟨_, List.prefix_append _ _, fun _ => rfl⟩
  · have hm : tool ≠ CommandLine.disassembleMore msg fuel := by simpa using hl
    cases h with
    | disassembleMore => exact absurd rfl hm
    | _ => exact ⟨_, List.prefix_append _ _, fun _ => rfl⟩
  · simp at hl
    omega

/-- A last word without a partner is ignored by quick_disassemble. -/
theorem C92_violated_unpaired {msg : Err → Str} {fuel : Nat} {prog rom : Str} {words : List Str} {args : List SeedArg}
    (hw : SeedWords words args) (hne : words ≠ []) (extra : Str) (w : World) :
    CommandLine.quickDisassemble msg fuel (prog :: rom :: words ++ [extra]) w =
      CommandLine.quickDisassemble msg fuel (prog :: rom :: words) w := by
  have key : ∀ {words : List Str} {args : List SeedArg} (r : Rom) (seeds : OMap StatusFlags), SeedWords words args →
      CommandLine.readPairs msg prog r seeds (words ++ [extra]) = CommandLine.readPairs msg prog r seeds words := by
    intro words args r seeds h
    induction h generalizing seeds with
    | nil => rfl
    | direct _ _ _ ih =>
      simp only [List.cons_append, CommandLine.readPairs]
      congr 1; funext x
      rcases x with line | ⟨a, f⟩
      · rfl
      · exact ih _
    | indirect _ _ _ ih =>
      simp only [List.cons_append, CommandLine.readPairs]
      congr 1; funext x
      rcases x with line | ⟨a, f⟩
      · rfl
      · exact ih _
  obtain ⟨address, mode, rest, rfl⟩ : ∃ address mode rest, words = address :: mode :: rest := by
    cases hw with
    | nil => exact absurd rfl hne
    | direct => exact ⟨_, _, _, rfl⟩
    | indirect => exact ⟨_, _, _, rfl⟩
  have := fun r => key r [] hw
  simp only [List.cons_append] at this ⊢
  rw [CommandLine.quickDisassemble_eq, CommandLine.quickDisassemble_eq]
  simp only [this]

/-- A word that begins with a number and goes on with something else is taken for that number: `8000h` for $8000, and `1O` for 1. -/
theorem C92_violated_garbage : CommandLine.scanHex cs!"8000h" = .number 0x8000 ∧ CommandLine.scanInt cs!"1O" = .number 1 := by
  constructor <;> decide +kernel

/-- An empty word for an address makes dumb_disassemble use a variable that was never set, and so does a lonely `@` for
quick_disassemble. -/
theorem C92_violated_blank {msg : Err → Str} {fuel : Nat} {prog rom : Str} {w : World} {file : List UInt8} {r : RomFile}
    (hs : Sound w) (hf : w.files rom = some file) (hl : file.length < 2147483648) (hr : IsRomFile file r) :
    (CommandLine.dumbDisassemble msg fuel [prog, rom, [], cs!"m8x8"] w).2 = .ub .nullDeref ∧
    (CommandLine.quickDisassemble msg fuel [prog, rom, cs!"@", cs!"m8x8"] w).2 = .ub .nullDeref := by
  constructor
  · rw [CommandLine.dumbDisassemble_eq]
    obtain ⟨w1, -, -, he⟩ := CommandLine.afterLoad_sound (pre := []) (msg := msg)
      (k := fun r w => (w, CommandLine.dumbWith msg fuel [] cs!"m8x8" r)) hs hf hl
    rw [he, (C60_load _ _).2 hr]
    rfl
  · rw [CommandLine.quickDisassemble_eq]
    obtain ⟨w1, -, -, he⟩ := CommandLine.afterLoad_sound (pre := []) (msg := msg) hs hf hl
    rw [he, (C60_load _ _).2 hr]
    rfl

/-! ## Examples -/

theorem hexWord_of {s : Str} {v : Nat} (hne : s ≠ []) (h : ∀ c ∈ s, isHexDigit c = true) (hv : v = numberValue 16 s) :
    HexWord s v := .plain (digits_hex.mpr ⟨hne, h, hv⟩)

/-- `808000 m8x8 @fffc e` and `0xFFc0` are words of this kind. -/
example : SeedWords [cs!"808000", cs!"m8x8", cs!"@fffc", cs!"e"] [⟨false, 0x808000, cs!"m8x8"⟩, ⟨true, 0xfffc, cs!"e"⟩] ∧
    HexWord cs!"0xFFc0" 0xffc0 ∧ IntWord cs!"-12" (-12) := by
  refine ⟨.direct (hexWord_of (by decide) (by decide +kernel) (by decide +kernel)) (by decide)
    (.indirect (hexWord_of (by decide) (by decide +kernel) (by decide +kernel)) (by decide) .nil),
    .small (digits_hex.mpr ⟨by decide, by decide +kernel, by decide +kernel⟩),
    .minus (digits_decimal.mpr ⟨by decide, by decide +kernel, by decide +kernel⟩)⟩

/-- There is a disk with a ROM and a source. -/
example : Sound (exampleDisk []) ∧ Sources (exampleDisk []) [cs!"a.asm"] [[cs!" nop", [], cs!" rts"]] :=
  ⟨(fun _ h => nomatch h), .cons ⟨_, rfl, by decide +kernel⟩ .nil⟩

end Nsasm.Props
