import Verif.Lemmas.Export
import Verif.Props.Split
import Verif.Props.Unused

/-! # C108: the debug listing shows the program and where it is -/

namespace Nsasm.Props
open Nsasm Nsasm.Spec Nsasm.Debug

/-- **The listing shows the program.**  After an assembly, the listing has for each file, in the order given, a heading with its path
and the rows of all statements of the file in order, each after its labels. -/
theorem C108_shows {σ : Type} {fuel : Nat} {files : List (List Str)} {sink : Sink σ} {s s' : σ} {a : Assembler}
    (h : Assembler.assembleFiles fuel files sink s = (s', .ok a)) (paths : List Str) :
    ∃ listings : List (List Str), a.debugPrint paths =
        (List.zipWith (fun path listing => (cs!"  === debug info for " ++ path) :: listing) paths listings).flatten ∧
      listings = a.modules.map Module.debugPrint ∧
      List.Forall₂ (fun file listing => ∃ (items : List Item) (vs : List (Option Int)), FileItems file items ∧
        vs.length = (program [] items).length ∧ listing = rows (program [] items) vs) files listings := by
  refine ⟨a.modules.map Module.debugPrint, ?_, rfl, ?_⟩
  · unfold Assembler.debugPrint
    generalize a.modules = ms
    induction paths generalizing ms with
    | nil => rfl
    | cons path paths ih =>
      cases ms with
      | nil => rfl
      | cons m ms =>
        rw [List.zip_cons_cons, List.flatMap_cons, ih ms]
        rfl
  · obtain ⟨order, wss, hA⟩ := assembled h
    apply List.forall₂_iff_get.mpr
    refine ⟨by rw [List.length_map, hA.length], fun i hi hi' => ?_⟩
    have hlt : i < a.modules.length := by simpa using hi'
    obtain ⟨file, items, hf, hF, hS⟩ := assembled_shows h (List.getElem?_eq_getElem hlt)
    rw [List.getElem?_eq_getElem hi] at hf
    cases hf
    refine ⟨items, (a.modules[i]).lines.map (·.value), hF, by rw [List.length_map, hS.length_eq], ?_⟩
    rw [← rows_of_shows hS]
    simp [Module.debugPrint]

/-- **The listing shows where the code is.**  The bytes that the assembly writes for a statement go to the address shown at its
row. -/
theorem C108_addresses {σ : Type} {fuel : Nat} {files : List (List Str)} {sink : Sink σ} {s s' : σ} {a : Assembler}
    (h : Assembler.assembleFiles fuel files sink s = (s', .ok a)) :
    ∃ (order : List Nat) (wss : List (List Writes)), order.Perm (List.range files.length) ∧ Feeds sink s wss.flatten.flatten s' ∧
      List.Forall₂ (fun i ws => ∃ (file : List Str) (m : Module) (items : List Item) (vs : List (Option Int)),
        files[i]? = some file ∧ a.modules[i]? = some m ∧ FileItems file items ∧
        vs.length = (program [] items).length ∧ ws.length = vs.length ∧ m.debugPrint = rows (program [] items) vs ∧
        ∀ (k : Nat) (w : Writes) (x : Addr) (bs : List UInt8), ws[k]? = some w → (x, bs) ∈ w → vs[k]? = some (some (x : Int))) order wss := by
  obtain ⟨order, wss, hA⟩ := assembled h
  refine ⟨order, wss, hA.perm, hA.feeds, hA.writes.imp ?_⟩
  rintro i ws ⟨m, hm, hws⟩
  obtain ⟨file, items, hf, hF, hS⟩ := assembled_shows h hm
  refine ⟨file, m, items, m.lines.map (·.value), hf, hm, hF, by rw [List.length_map, hS.length_eq],
    by rw [List.length_map, hws.length_eq], by unfold Module.debugPrint; exact rows_of_shows hS, fun k w x bs hw hx => ?_⟩
  obtain ⟨l, hl, hlw⟩ := forall2_getElem? hws hw
  rcases hlw with ⟨-, rfl⟩ | ⟨y, cs, hv, -, -, -, rfl⟩
  · cases hx
  · rw [List.mem_singleton] at hx
    cases hx
    rw [List.getElem?_map, hl, ← hv]
    rfl

/-- **The listing shows the values of constants**: the row of an `.equ` shows the value of its operand. -/
theorem C108_constants {σ : Type} {fuel : Nat} {files : List (List Str)} {sink : Sink σ} {s s' : σ} {a : Assembler}
    (h : Assembler.assembleFiles fuel files sink s = (s', .ok a)) :
    ∃ externs : Ctx, Publishes a.modules externs ∧
      ∀ (i : Nat) (m : Module), a.modules[i]? = some m → ∃ (file : List Str) (items : List Item) (vs : List (Option Int)),
        files[i]? = some file ∧ FileItems file items ∧ vs.length = (program [] items).length ∧
        m.debugPrint = rows (program [] items) vs ∧
        ∀ (k : Nat) (pl : ProgLine) (d : Directive), (program [] items)[k]? = some pl → pl.statement = .dir d → d.name = .equ →
          ∃ ctx v, Sees (program [] items) m externs k ctx ∧ vs[k]? = some (some v) ∧ d.argument.eval ctx = .ok v := by
  obtain ⟨externs, hp, -, hv⟩ := C57_values h
  refine ⟨externs, hp, fun i m hm => ?_⟩
  obtain ⟨file, items, hf, hF, hS⟩ := assembled_shows h hm
  obtain ⟨file', items', hf', hF', hlen, hl⟩ := hv i m hm
  rw [hf] at hf'
  cases hf'
  cases fileItems_unique hF hF'
  refine ⟨file, items, m.lines.map (·.value), hf, hF, by rw [List.length_map, hlen],
    by unfold Module.debugPrint; exact rows_of_shows hS, fun k pl d hk hd hn => ?_⟩
  obtain ⟨l, hlk, -⟩ := forall2_getElem? hS hk
  obtain ⟨h1, -, pl', hk', h2⟩ := hl k l hlk
  rw [hk] at hk'
  cases hk'
  rw [hd] at h2
  obtain ⟨ctx, v, h3, h4, h5⟩ := h1 d h2 hn
  exact ⟨ctx, v, h3, by rw [List.getElem?_map, hlk, ← h4]; rfl, h5⟩

/-- The column is six hexadecimal digits that stand for the value. -/
theorem C108_column (x : Nat) (h : x < 0x1000000) : (column (some x)).length = 6 ∧
    tokenize ('$' :: column (some x)) = .ok [.lit x .long, .eol] := by
  refine ⟨column_length _, ?_⟩
  have e : column (some (x : Int)) = hexPadded 6 x := by
    show hexPadded 6 ((x : Int) % 0x1000000).toNat = _
    have : ((x : Int) % 0x1000000).toNat = x := by omega
    rw [this]
  have := lex_hex (w := 6) (n := x) (t := .long) (s := []) (by decide) (by decide) (by omega) (by decide) (by simp) lex_nil
  rw [List.append_nil] at this
  rw [e]
  exact this

/-- **The listing is a source of the program**, partial: without the column of values, the listing of a file is a file with the same
statements, and the same labels without `export`.  Missing: statements that are not shown as they are written (`C88_violated`). -/
theorem C108_reads_back_partial {σ : Type} {fuel : Nat} {files : List (List Str)} {sink : Sink σ} {s s' : σ} {a : Assembler}
    (h : Assembler.assembleFiles fuel files sink s = (s', .ok a)) {i : Nat} {file : List Str} {m : Module} {items : List Item}
    (hf : files[i]? = some file) (hm : a.modules[i]? = some m) (hF : FileItems file items) (ha : ∀ x ∈ items, AtomicItem x) :
    FileItems (withoutColumn m.debugPrint) (plainItems (program [] items)) := by
  obtain ⟨file', items', hf', hF', hS⟩ := assembled_shows h hm
  rw [hf] at hf'
  cases hf'
  cases fileItems_unique hF hF'
  have := listing_items hF ha (vs := m.lines.map (·.value)) (by rw [List.length_map, hS.length_eq])
  rw [← rows_of_shows hS] at this
  exact this

/-- **The listing is a source of the program**, partial: if the files also have no `export` in scopes, the listings assemble as the
files do.  Missing: files with `export` in scopes, and with statements that are not shown as they are written (`C108_violated`). -/
theorem C108_again_partial {σ τ : Type} {fuel : Nat} {files : List (List Str)} {sink : Sink σ} {s s' : σ} {a : Assembler}
    (h : Assembler.assembleFiles fuel files sink s = (s', .ok a))
    (ha : ∀ file ∈ files, ∀ items, FileItems file items → (∀ x ∈ items, AtomicItem x) ∧ ExportsOutside (program [] items))
    (steps : Nat) (sink' : Sink τ) (t : τ) :
    Assembler.assembleFiles steps (a.modules.map fun m => withoutColumn m.debugPrint) sink' t =
      Assembler.assembleFiles steps files sink' t := by
  obtain ⟨order, wss, hA⟩ := assembled h
  have key : List.Forall₂ (fun g f => Module.loadAsmFile g = Module.loadAsmFile f)
      (a.modules.map fun m => withoutColumn m.debugPrint) files := by
    apply List.forall₂_iff_get.mpr
    refine ⟨by rw [List.length_map, hA.length], fun i hi' hi => ?_⟩
    have hlt : i < a.modules.length := by simpa using hi'
    obtain ⟨file, items, hf, hF, -⟩ := assembled_shows h (List.getElem?_eq_getElem hlt)
    have hmem := ha file (List.mem_of_getElem? hf) items hF
    have := C108_reads_back_partial h hf (List.getElem?_eq_getElem hlt) hF hmem.1
    rw [List.getElem?_eq_getElem hi] at hf
    cases hf
    simp only [List.get_eq_getElem, List.getElem_map]
    exact (load_same_scopes hF this (plain_same hmem.2)).symm
  have : Assembler.loadAll (a.modules.map fun m => withoutColumn m.debugPrint) = Assembler.loadAll files := by
    generalize (a.modules.map fun m => withoutColumn m.debugPrint) = gs at key
    clear ha hA h
    induction key with
    | nil => rfl
    | cons h1 _ ih => rw [Assembler.loadAll, Assembler.loadAll, h1, ih]
  unfold Assembler.assembleFiles
  rw [this]

/-- The listings that the assembly of some files leaves, without the column of values. -/
def listingsOf (files : List (List Str)) : List (List Str) :=
  match Assembler.assembleFiles 100 files recorder [] with
  | (_, .ok a) => a.modules.map fun m => withoutColumn m.debugPrint
  | _ => []

/-- **C108** does not hold of files with `export` in a scope, whose listing may be refused, nor of statements with operators, whose
listing may be assembled to other bytes. -/
theorem C108_violated :
    (∃ ws, writtenBy [[cs!" .org $8000", cs!" .begin", cs!"export foo: .dw foo", cs!" .end", cs!" .dw foo"]] = some ws ∧
      failure (listingsOf [[cs!" .org $8000", cs!" .begin", cs!"export foo: .dw foo", cs!" .end", cs!" .dw foo"]]) =
        some (.inl .undefinedName)) ∧
    writtenBy [[cs!" .org $8000", cs!"op: .equ 3", cs!" .db -5"]] = some [(0x8000, [0xfb])] ∧
    writtenBy (listingsOf [[cs!" .org $8000", cs!"op: .equ 3", cs!" .db -5"]]) = some [(0x8000, [0xfe])] :=
  ⟨⟨[(0x8000, [0, 0x80]), (0x8002, [0, 0x80])], by decide +kernel, by decide +kernel⟩, by decide +kernel, by decide +kernel⟩

/-- `Atomic`, decided. -/
def atomic : Expr → Bool
  | .null => true
  | .lit v _ => decide (0 ≤ v)
  | .ident _ _ => true
  | _ => false

theorem atomic_of {e : Expr} (h : atomic e = true) : Atomic e := by
  cases e <;> simp_all [atomic, Atomic]

/-- A program with code, data, a constant, a scope and an exported label outside it. -/
def shownFile : List Str :=
  [cs!" .org $8000", cs!"size: .equ $12", cs!" .entry m8x16", cs!"export go", cs!" .begin", cs!"again: lda #size",
   cs!" bne again : rts", cs!" .end", cs!" .dw go, $1234"]

example : (match Assembler.assembleFiles 100 [shownFile] recorder [] with
      | (_, .ok a) => a.debugPrint [cs!"shown.asm"]
      | _ => []) =
    [cs!"  === debug info for shown.asm", cs!"008000     .ORG $8000", cs!"       size:", cs!"000012     .EQU $12",
     cs!"008000     .ENTRY m8x16", cs!"       go:", cs!"008000     .BEGIN", cs!"       again:", cs!"008000     lda #size",
     cs!"008002     bne again", cs!"008004     rts", cs!"008005     .END", cs!"008005     .DW go, $1234"] := by decide +kernel

/-- It meets the conditions. -/
example : (∃ ws a, Assembler.assembleFiles 100 [shownFile] recorder [] = (ws, .ok a) ∧ ws ≠ []) ∧
    ∀ file ∈ [shownFile], ∀ items, FileItems file items → (∀ x ∈ items, AtomicItem x) ∧ ExportsOutside (program [] items) := by
  refine ⟨?_, ?_⟩
  · obtain ⟨ws, a, h, hp⟩ := assembles_of_check (fuel := 100) (files := [shownFile]) (fun ws _ => decide (ws ≠ [])) (by decide +kernel)
    exact ⟨ws, a, h, of_decide_eq_true hp⟩
  · intro file hf items hF
    rw [List.mem_singleton] at hf
    subst hf
    have hr : (readItems shownFile).isSome = true := by decide +kernel
    obtain ⟨is, his⟩ := Option.isSome_iff_exists.1 hr
    cases fileItems_unique hF (fileItems_of_read his)
    refine ⟨fun x hx => ?_, ?_⟩
    · have hall : ((readItems shownFile).getD []).all (fun x => match x with
          | .label _ => true
          | .stmt (.instr i) => atomic i.arg1 && atomic i.arg2
          | .stmt (.dir d) => d.name ≠ .remote && atomic d.argument && d.list.all atomic) = true := by decide +kernel
      rw [his] at hall
      have := List.all_eq_true.1 hall x hx
      cases x with
      | label l => trivial
      | stmt st =>
        cases st with
        | instr i =>
          simp only [Bool.and_eq_true] at this
          exact ⟨atomic_of this.1, atomic_of this.2⟩
        | dir d =>
          simp only [Bool.and_eq_true, decide_eq_true_eq, List.all_eq_true] at this
          exact ⟨this.1.1, atomic_of this.1.2, fun e he => atomic_of (this.2 e he)⟩
    · have hall : (List.range 20).all (fun k => match (program [] ((readItems shownFile).getD []))[k]? with
          | none => decide ((program [] ((readItems shownFile).getD [])).length ≤ k)
          | some pl => decide (level (program [] ((readItems shownFile).getD [])) k = 0) || pl.labels.all (fun l => !l.exported)) &&
          decide ((program [] ((readItems shownFile).getD [])).length ≤ 20) = true := by decide +kernel
      rw [his, Bool.and_eq_true, List.all_eq_true] at hall
      intro k pl hk hl l hx
      have hlt := (List.getElem?_eq_some_iff.mp hk).1
      have := hall.1 k (List.mem_range.2 (Nat.lt_of_lt_of_le hlt (by simpa using hall.2)))
      simp only [Option.getD_some, hk, Bool.or_eq_true, decide_eq_true_eq, List.all_eq_true] at this
      rcases this with h | h
      · exact absurd h hl
      · simpa using h l hx

end Nsasm.Props
