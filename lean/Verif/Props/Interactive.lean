import Verif.Lemmas.EchoText

/-! # C88: a statement's text is read as the statement -/

namespace Nsasm.Props
open Nsasm Nsasm.Spec Nsasm.Interactive

/-- **C88**, partial: the line that the interactive parser shows for a label or a statement, entered again, is read
as that label or statement and nothing else.  Missing: statements with operators or negative numbers and `.remote`
(`C88_violated`). -/
theorem C88_reads_back_partial (text : Str) (items : List Item) (h : ParsesAs text items) (x : Item) (hx : x ∈ items)
    (ha : AtomicItem x) : ParsesAs (line x) [x] := by
  obtain ⟨ts, h1, h2⟩ := h
  obtain ⟨i1, i2⟩ := Echo.parseLoop_made _ (fun hm => by
    obtain ⟨c, t, he, -⟩ := (Echo.good_tokens h1 _ hm : IsName []).first
    cases he) items h2
  exact Echo.item_again (fun st hs => i1 st (hs ▸ hx)) (fun l hl => i2 l (hl ▸ hx)) (Echo.good_tokens h1) ha

/-- **C88**, partial: so two different labels or statements are never shown by the same line. -/
theorem C88_distinct_partial (text text' : Str) (items items' : List Item) (h : ParsesAs text items)
    (h' : ParsesAs text' items') (x y : Item) (hx : x ∈ items) (hy : y ∈ items') (ha : AtomicItem x) (hb : AtomicItem y)
    (same : line x = line y) : x = y := by
  obtain ⟨ts, h1, h2⟩ := C88_reads_back_partial text items h x hx ha
  obtain ⟨us, h3, h4⟩ := C88_reads_back_partial text' items' h' y hy hb
  rw [same, h3] at h1
  cases h1
  rw [h4] at h2
  cases h2
  rfl

/-- **C88**, partial: whoever enters the lines shown for a line, one by one, is shown each of them unchanged. -/
theorem C88_session_partial (msg : Err → Str) (text : Str) (items : List Item) (h : ParsesAs text items)
    (ha : ∀ x ∈ items, AtomicItem x) :
    answer msg text = .ok (items.map line) ∧
      session msg (items.map line) = .ok ((items.map fun x => cs!"> " ++ line x ++ ['\n']).flatten ++ cs!"> ") := by
  have key : ∀ ys : List Item, (∀ y ∈ ys, y ∈ items) →
      session msg (ys.map line) = .ok ((ys.map fun x => cs!"> " ++ line x ++ ['\n']).flatten ++ cs!"> ") := by
    intro ys
    induction ys with
    | nil => intro _; rfl
    | cons y ys ih =>
      intro hy
      obtain ⟨ts, h1, h2⟩ := C88_reads_back_partial text items h y (hy y (by simp)) (ha y (hy y (by simp)))
      have e : answer msg (line y) = .ok [line y] := by simp [answer, h1, h2]
      rw [List.map_cons, session, e, ih fun z hz => hy z (by simp [hz])]
      simp
  refine ⟨?_, key items fun _ h => h⟩
  obtain ⟨ts, h1, h2⟩ := h
  simp [answer, h1, h2]

/-- What the text is read as. -/
private def items (text : Str) : Res (List Item) := tokenize text >>= Parse.parse

private theorem parsesAs_of {text : Str} {xs : List Item} (h : items text = .ok xs) : ParsesAs text xs := by
  obtain ⟨ts, h1, h2⟩ := Res.bind_eq_ok.mp h
  exact ⟨ts, h1, h2⟩

private theorem refused_of {text : Str} {e : Err} (h : items text = .err e) : ∀ xs, ¬ ParsesAs text xs := by
  rintro xs ⟨ts, h1, h2⟩
  simp [items, h1, h2] at h

/-- **C88** does not hold of statements with operators, of decimal numbers of 2^31 and more, and of `.remote`: the line
shown is read as something else or refused, and two different statements are shown alike. -/
theorem C88_violated :
    (∃ x y, ParsesAs cs!".db -foo" [x] ∧ line x = cs!"    .DB op-(foo)" ∧ ParsesAs (line x) [y] ∧ y ≠ x ∧
      ParsesAs cs!".db op - foo" [y]) ∧
    (∃ x, ParsesAs cs!"lda #<foo" [x] ∧ line x = cs!"    lda #op<(foo)" ∧ ∀ xs, ¬ ParsesAs (line x) xs) ∧
    (∃ x y, ParsesAs cs!".dl 4294967295" [x] ∧ line x = cs!"    .DL -1" ∧ ParsesAs (line x) [y] ∧ y ≠ x) ∧
    (∃ x y, ParsesAs cs!".remote foo m8" [x] ∧ ParsesAs cs!".remote foo m8 noreturn" [y] ∧ x ≠ y ∧
      line x = cs!"     foo m8" ∧ line y = line x ∧ ∀ xs, ¬ ParsesAs (line x) xs) := by
  let dir (n : DirectiveName) (es : List Expr) : Item := .stmt (.dir ⟨n, .null, .default, .default, es⟩)
  let foo (n : Str) : Expr := .ident ⟨none, n⟩ .word
  let remote (r : ReturnConvention) : Item := .stmt (.dir ⟨.remote, foo cs!"foo", ⟨.off, .on, .unknown, .unknown⟩, r, []⟩)
  refine ⟨⟨dir .db [.un .neg (foo cs!"foo")], dir .db [.bin .minus (foo cs!"op") (foo cs!"foo")], parsesAs_of (by decide +kernel),
      by decide +kernel, parsesAs_of (by decide +kernel), by decide +kernel, parsesAs_of (by decide +kernel)⟩,
    ⟨.stmt (.instr ⟨.lda, .none, .imm_fm, .un .lowbyte (foo cs!"foo"), .null, .default⟩), parsesAs_of (by decide +kernel),
      by decide +kernel, refused_of (e := .parse) (by decide +kernel)⟩,
    ⟨dir .dl [.lit (-1) .unknown], dir .dl [.un .neg (.lit 1 .unknown)], parsesAs_of (by decide +kernel), by decide +kernel,
      parsesAs_of (by decide +kernel), by decide +kernel⟩,
    ⟨remote .default, remote .noreturn, parsesAs_of (by decide +kernel), parsesAs_of (by decide +kernel), by decide +kernel,
      by decide +kernel, by decide +kernel, refused_of (e := .parse) (by decide +kernel)⟩⟩

/-- `export go: jsl @far::away yields m16x8 : .dw 12, $00AB : asl A` is read as a label and three statements to which the
theorems apply, and they are shown so. -/
example : ∃ xs, ParsesAs cs!"export go: jsl @far::away yields m16x8 : .dw 12, $00AB : asl A" xs ∧ (∀ x ∈ xs, AtomicItem x) ∧
    xs.map line = [cs!"export go:", cs!"    jsl @far::away yields m16x8", cs!"    .DW 12, $00ab", cs!"    asl"] := by
  refine ⟨[.label ⟨cs!"go", true⟩, .stmt (.instr ⟨.jsl, .none, .dir_l, .ident ⟨some cs!"far", cs!"away"⟩ .long, .null,
      .yields ⟨.off, .off, .on, .unknown⟩⟩), .stmt (.dir ⟨.dw, .null, .default, .default, [.lit 12 .unknown, .lit 0xab .word]⟩),
      .stmt (.instr ⟨.asl, .none, .acc, .null, .null, .default⟩)], parsesAs_of (by decide +kernel), ?_, by decide +kernel⟩
  intro x hx
  simp only [List.mem_cons, List.not_mem_nil, or_false] at hx
  rcases hx with rfl | rfl | rfl | rfl <;> simp [AtomicItem, Atomic]

end Nsasm.Props
