import Verif.Lemmas.Relocate
import Verif.Props.Constants

/-!
# Moving code

C90: when the address in an `.org` is replaced by another one, the statements after it move along, up to the next `.org`;
nothing else moves, everything keeps its length, and the bytes of a statement change only if it shows where something is.
-/

namespace Nsasm.Props
open Nsasm Nsasm.Spec Nsasm.Values

/-- C90: the first pass.  The same lines are reached in the same states, with the same lengths; only the addresses differ. -/
theorem C90_same_analysis {f f' : List Str} (hr : MovedFile f f') (fuel : Nat) {m m' : Module}
    (h : (do let m ← Module.loadAsmFile f; m.runFirstPass fuel) = .ok m)
    (h' : (do let m ← Module.loadAsmFile f'; m.runFirstPass fuel) = .ok m') :
    m'.name = m.name ∧ m'.globals = m.globals ∧
      List.Forall₂ (fun l l' => l'.labels = l.labels ∧ l'.reached = l.reached ∧ l'.incoming = l.incoming ∧
        l'.statement.serializedSize = l.statement.serializedSize) m.lines m'.lines := by
  obtain ⟨h1, h2, h3⟩ := firstPass_like (like_of_moved hr) h h'
  refine ⟨h1, h2, forall2_of_map h3.symm fun l _ l' he => ?_⟩
  refine ⟨(congrArg Line.labels he :).symm, (congrArg Line.reached he :).symm, (congrArg Line.incoming he :).symm, ?_⟩
  have h4 : blank true l.statement = blank true l'.statement := (congrArg Line.statement he :)
  rw [← size_blank (o := true), ← h4, size_blank]

/-- **Blocks move as a whole.**  A line after an `.org` is as far from it, in its bank, in the one assembly as in the other; so
that two lines of the same block keep their distance, and a block whose `.org` was not changed stays where it was. -/
theorem C90_moves {fuel : Nat} {files files' : List (List Str)} (hr : List.Forall₂ MovedFile files files') {ws ws' : Writes}
    {a a' : Assembler} (h : Assembler.assembleFiles fuel files recorder [] = (ws, .ok a))
    (h' : Assembler.assembleFiles fuel files' recorder [] = (ws', .ok a')) (hfit : OriginsFit files) (hfit' : OriginsFit files') :
    ∃ (Ps Ps' : Programs), ProgramsOf files a.modules Ps ∧ ProgramsOf files' a'.modules Ps' ∧
      ∀ (i k o : Nat), PlacedFrom Ps i k o →
        ∃ m m' d d' x x' n, a.modules[i]? = some m ∧ a'.modules[i]? = some m' ∧
          HasStatement Ps i o (.dir d) ∧ HasStatement Ps' i o (.dir d') ∧ d.name = .org ∧ d'.name = .org ∧
          d.argument.eval nullCtx = .ok x ∧ d'.argument.eval nullCtx = .ok x' ∧
          valueAt m k = some (place x n) ∧ valueAt m' k = some (place x' n) := by
  have hp := pair hr h h' hfit hfit'
  refine ⟨_, _, (writtenLines h).programs, (writtenLines h').programs, fun i k o ho => ?_⟩
  obtain ⟨name, P, line, hP, -⟩ := id ho
  obtain ⟨m, f, hm, hf⟩ := module_of hP
  obtain ⟨f, f', items, items', m₁, m₁', m', hf, hf', hm', hS, hS', hT⟩ := hp.both.pair i m hm
  obtain ⟨l, l', x, x', n, h1, h1', ⟨d, h2, h2n, h2e⟩, ⟨d', h2', h2n', h2e'⟩, -, -, h4, h4'⟩ := hp.shift hm hm' ho
  exact ⟨m, m', d, d', x, x', n, hm, hm', statement_of hm hf hS h1 h2, statement_of hm' hf' hS' h1' h2', h2n, h2n', h2e, h2e', h4, h4'⟩

/-- **What moving changes.**  When two sets of files that differ in origins only are assembled, as many bytes are written for a
line of the one as for the corresponding line of the other; and the same bytes, unless the statement shows where something is. -/
theorem C90_image {fuel : Nat} {files files' : List (List Str)} (hr : List.Forall₂ MovedFile files files') {ws ws' : Writes}
    {a a' : Assembler} (h : Assembler.assembleFiles fuel files recorder [] = (ws, .ok a))
    (h' : Assembler.assembleFiles fuel files' recorder [] = (ws', .ok a')) (hfit : OriginsFit files) (hfit' : OriginsFit files') :
    ∃ (Ps Ps' : Programs) (out out' : Nat → Nat → Writes), WrittenLines files a ws Ps out ∧ WrittenLines files' a' ws' Ps' out' ∧
      ∀ i k, (out' i k).map (·.2.length) = (out i k).map (·.2.length) ∧
        (Indifferent Ps Ps' i k → (out' i k).map (·.2) = (out i k).map (·.2)) := by
  refine ⟨_, _, _, _, writtenLines h, writtenLines h', fun i k => ?_⟩
  have hp := pair hr h h' hfit hfit'
  obtain ⟨order, wss, hA⟩ := assembled h
  obtain ⟨order', wss', hA'⟩ := assembled h'
  cases hm : a.modules[i]? with
  | none =>
    have hm' : a'.modules[i]? = none := by
      rw [List.getElem?_eq_none_iff] at hm ⊢
      rw [hA'.length, ← hr.length_eq, ← hA.length]; exact hm
    simp [outOf, hm, hm']
  | some m =>
    obtain ⟨-, -, -, -, -, -, m', -, -, hm', -, -, hT⟩ := hp.both.pair i m hm
    cases hl : m.lines[k]? with
    | none =>
      have hl' : m'.lines[k]? = none := by
        rw [List.getElem?_eq_none_iff] at hl ⊢
        rw [hT.length]; exact hl
      simp [outOf, hm, hm', hl, hl']
    | some l =>
      obtain ⟨l', hl', -⟩ := hT.line k l hl
      exact moved_out h hp hm hm' hl hl' (line_out hA hm hl) (line_out hA' hm' hl')

/-- C90: a constant keeps its value, or the lower 16 bits of it, or moves along with a block, as its definition does. -/
theorem C90_constants {fuel : Nat} {files files' : List (List Str)} (hr : List.Forall₂ MovedFile files files') {ws ws' : Writes}
    {a a' : Assembler} (h : Assembler.assembleFiles fuel files recorder [] = (ws, .ok a))
    (h' : Assembler.assembleFiles fuel files' recorder [] = (ws', .ok a')) (hfit : OriginsFit files) (hfit' : OriginsFit files') :
    ∃ (Ps Ps' : Programs), ProgramsOf files a.modules Ps ∧ ProgramsOf files' a'.modules Ps' ∧
      ∀ (i k : Nat) (d : Directive) (s : Shift), HasStatement Ps i k (.dir d) → d.name = .equ → Behaves Ps Ps' s i k d.argument →
        ∃ m m' v v', a.modules[i]? = some m ∧ a'.modules[i]? = some m' ∧ valueAt m k = some v ∧ valueAt m' k = some v' ∧
          match s with
          | .exact => v' = v
          | .low => v' % 65536 = v % 65536
          | .along j o => ∃ n n' x x', a.modules[j]? = some n ∧ a'.modules[j]? = some n' ∧ valueAt n o = some x ∧
              valueAt n' o = some x' ∧ (v' - v) % 65536 = (x' - x) % 65536 := by
  have hp := pair hr h h' hfit hfit'
  refine ⟨_, _, (writtenLines h).programs, (writtenLines h').programs, fun i k d s hd hq hb => ?_⟩
  obtain ⟨name, P, ls, hP, hk⟩ := id hd
  obtain ⟨m, f, hm, hf⟩ := module_of hP
  obtain ⟨f, f', items, items', m₁, m₁', m', hf, hf', hm', hS, hS', hT⟩ := hp.both.pair i m hm
  rw [programsOf_get hm hf] at hP; cases hP
  obtain ⟨l, hl⟩ := line_at hS hk
  have hs := hasStatement_iff hm hf hS hl hd
  simp only at hs
  obtain ⟨l', hl', hbl, -⟩ := hT.line k l hl
  have hno : ¬ IsOrg l := by
    rintro ⟨d', h1, h2⟩
    rw [hs] at h1; cases h1
    rw [hq] at h2; cases h2
  have hs' : l'.statement = .dir d := by rw [same_statement hbl hno, hs]
  obtain ⟨v, hv, he⟩ := hS.constants k l d hl hs hq
  obtain ⟨v', hv', he'⟩ := hS'.constants k l' d hl' hs' hq
  refine ⟨m, m', v, v', hm, hm', ?_, ?_, ?_⟩
  · unfold valueAt; rw [hl]; exact hv
  · unfold valueAt; rw [hl']; exact hv'
  · have := behaves_value hp hb m m' l l' hm hm' hl hl' v v' he he'
    cases s with
    | exact => exact this
    | low => exact this
    | along j o => exact this

/-- Two files; the code of the first one begins at the address. -/
def movable (org : Str) : List (List Str) :=
  [[cs!".module main", cs!" .org " ++ org, cs!"start .entry m8x8", cs!"again lda other::flag", cs!" beq again", cs!" jmp again",
    cs!"size .dw stop - start", cs!"stop .db <other::flag"], [cs!".module other", cs!" .org $1f10", cs!"flag .db 0"]]

/-- Their programs. -/
def movables (org : Str) : Programs := (movable org).zipWith (fun f n => (n, fileProgram f)) [cs!"main", cs!"other"]

/-- The hypotheses can be met.  The code is moved to the end of a bank, where it wraps.  The branch, the distance, and the use of a
variable elsewhere stay as they were, but the jump does not. -/
example : ∃ (ws ws' : Writes) (a a' : Assembler),
    List.Forall₂ MovedFile (movable cs!"$8000") (movable cs!"$91fffd") ∧
    OriginsFit (movable cs!"$8000") ∧ OriginsFit (movable cs!"$91fffd") ∧
    Assembler.assembleFiles 100 (movable cs!"$8000") recorder [] = (ws, .ok a) ∧
    Assembler.assembleFiles 100 (movable cs!"$91fffd") recorder [] = (ws', .ok a') ∧
    ws = [(0x8000, [0xad, 0x10, 0x1f]), (0x8003, [0xf0, 0xfb]), (0x8005, [0x4c, 0x00, 0x80]), (0x8008, [0x0a, 0x00]),
      (0x800a, [0x10]), (0x1f10, [0x00])] ∧
    ws' = [(0x91fffd, [0xad, 0x10, 0x1f]), (0x910000, [0xf0, 0xfb]), (0x910002, [0x4c, 0xfd, 0xff]), (0x910005, [0x0a, 0x00]),
      (0x910007, [0x10]), (0x1f10, [0x00])] := by
  obtain ⟨ws, a, h, hc⟩ := assembles_of_check (fuel := 100) (files := movable cs!"$8000")
    (fun ws _ => decide (
      ws = [(0x8000, [0xad, 0x10, 0x1f]), (0x8003, [0xf0, 0xfb]), (0x8005, [0x4c, 0x00, 0x80]), (0x8008, [0x0a, 0x00]),
        (0x800a, [0x10]), (0x1f10, [0x00])]))
    (by decide +kernel)
  obtain ⟨ws', a', h', hc'⟩ := assembles_of_check (fuel := 100) (files := movable cs!"$91fffd")
    (fun ws _ => decide (
      ws = [(0x91fffd, [0xad, 0x10, 0x1f]), (0x910000, [0xf0, 0xfb]), (0x910002, [0x4c, 0xfd, 0xff]), (0x910005, [0x0a, 0x00]),
        (0x910007, [0x10]), (0x1f10, [0x00])]))
    (by decide +kernel)
  exact ⟨ws, ws', a, a', moved_of_test (by decide +kernel), fit_of_test (by decide +kernel), fit_of_test (by decide +kernel),
    h, h', of_decide_eq_true hc, of_decide_eq_true hc'⟩

/-- A name of a place in the block that begins with line `o` of file `j` moves along with it. -/
theorem moves_along {Ps Ps' : Programs} {j o : Nat} {id : FullId}
    (h : labelsTest Ps id.name (fun j' t => decide (j' = j) && placedTest Ps j t o) = true) (i k : Nat) (t : NumericType) :
    Behaves Ps Ps' (.along j o) i k (.ident id t) := by
  refine .moved id t j o fun j' s hp => ?_
  have := labels_of_test h hp
  rw [Bool.and_eq_true, decide_eq_true_eq] at this
  exact ⟨this.1, placed_of_test this.2⟩

/-- In these programs, the branch, the distance, and the uses of a variable elsewhere do not show where the code is. -/
example : ∀ k ∈ [3, 4, 6, 7], Indifferent (movables cs!"$8000") (movables cs!"$91fffd") 0 k := by
  have other : ∀ k, Behaves (movables cs!"$8000") (movables cs!"$91fffd") .exact 0 k
      (.ident ⟨some cs!"other", cs!"flag"⟩ .word) := by
    intro k
    refine .fixed _ _ fun j s hp => ⟨1, .dir ⟨.org, .lit 0x1f10 .word, ⟨.unknown, .unknown, .unknown, .unknown⟩, .default, []⟩, ?_⟩
    have := labels_of_test (good := fun j s => decide (j = 1) && placedTest (movables cs!"$8000") 1 s 1) (by decide +kernel) hp
    rw [Bool.and_eq_true, decide_eq_true_eq] at this
    obtain ⟨rfl, h⟩ := this
    exact ⟨placed_of_test h, ⟨cs!"other", fileProgram (movable cs!"$8000")[1]!, [], by decide +kernel, by decide +kernel⟩,
      ⟨cs!"other", fileProgram (movable cs!"$91fffd")[1]!, [], by decide +kernel, by decide +kernel⟩⟩
  intro k hk
  simp only [List.mem_cons, List.not_mem_nil, or_false] at hk
  rcases hk with rfl | rfl | rfl | rfl
  · exact .operand ⟨.lda, .none, .dir_w, .ident ⟨some cs!"other", cs!"flag"⟩ .word, .null, .default⟩
      ⟨cs!"main", fileProgram (movable cs!"$8000")[0]!, [⟨cs!"again", false⟩], by decide +kernel, by decide +kernel⟩ (by decide)
      (by decide) (fun _ => .weaken (other 3)) fun h => absurd rfl h
  · exact .relative ⟨.beq, .none, .rel8, .ident ⟨none, cs!"again"⟩ .word, .null, .default⟩ 1
      ⟨cs!"main", fileProgram (movable cs!"$8000")[0]!, [], by decide +kernel, by decide +kernel⟩
      (placed_of_test (by decide +kernel)) (moves_along (by decide +kernel) 0 4 .word) (.inl rfl)
  · refine .data ⟨.dw, .null, ⟨.unknown, .unknown, .unknown, .unknown⟩, .default,
        [.bin .minus (.ident ⟨none, cs!"stop"⟩ .word) (.ident ⟨none, cs!"start"⟩ .word)]⟩
      ⟨cs!"main", fileProgram (movable cs!"$8000")[0]!, [⟨cs!"size", false⟩], by decide +kernel, by decide +kernel⟩ fun e he => ?_
    rw [List.mem_singleton] at he
    subst he
    exact .distance (moves_along (j := 0) (o := 1) (by decide +kernel) 0 6 .word) (moves_along (by decide +kernel) 0 6 .word)
  · refine .data ⟨.db, .null, ⟨.unknown, .unknown, .unknown, .unknown⟩, .default,
        [.un .lowbyte (.ident ⟨some cs!"other", cs!"flag"⟩ .word)]⟩
      ⟨cs!"main", fileProgram (movable cs!"$8000")[0]!, [⟨cs!"stop", false⟩], by decide +kernel, by decide +kernel⟩ fun e he => ?_
    rw [List.mem_singleton] at he
    subst he
    exact .weaken (.unary _ (other 7))

end Nsasm.Props
