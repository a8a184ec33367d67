import Verif.Lemmas.Loader
import Verif.Props.Flags

/-! # Flag states in a loaded file are ones that can be written -/

namespace Nsasm
open Spec Parse

/-- The flag state has a name in the source language. -/
def FlagsWritten (f : StatusFlags) : Prop := ∃ s, StatusFlags.fromName s = some f

/-- Flag states of a statement that the analysis uses have names. -/
def StatementWritten : Statement → Prop
  | .instr i => ∀ f, i.ret = .yields f → FlagsWritten f
  | .dir d => d.name ∈ [DirectiveName.entry, .mode, .remote] → FlagsWritten d.flags

theorem mode_written {ts ts' : Toks} {f : StatusFlags} (h : mode ts = .ok (f, ts')) :
    FlagsWritten f := by
  unfold mode at h
  replace h := Res.bind_eq_ok.mp h
  obtain ⟨t, -, h⟩ := h
  cases t with
  | ident s =>
    simp only at h
    cases hf : StatusFlags.fromName s with
    | none => rw [hf] at h; cases h
    | some g => rw [hf] at h; cases h; exact ⟨s, hf⟩
  | _ => cases h

theorem returnConvention_written {ts ts' : Toks} {rc : ReturnConvention}
    (h : returnConvention ts = .ok (rc, ts')) : ∀ f, rc = .yields f → FlagsWritten f := by
  unfold returnConvention at h
  replace h := Res.bind_eq_ok.mp h
  obtain ⟨t, -, h⟩ := h
  split at h
  · cases h; simp
  · replace h := Res.bind_eq_ok.mp h
    obtain ⟨⟨f, ts1⟩, hm, h⟩ := h
    cases h
    intro g hg
    cases hg
    exact mode_written hm
  · cases h; simp

theorem instruction_written {ts ts' : Toks} {i : Instruction} (h : instruction ts = .ok (i, ts')) :
    StatementWritten (.instr i) := by
  unfold instruction at h
  replace h := Res.bind_eq_ok.mp h
  obtain ⟨⟨i0, ts1⟩, -, h⟩ := h
  replace h := Res.bind_eq_ok.mp h
  obtain ⟨⟨rc, ts2⟩, hr, h⟩ := h
  simp only at h
  split at h
  · cases h
  · cases h
    exact returnConvention_written hr

theorem directiveFlags_written {d : DirectiveName} {a : Expr} {ts ts' : Toks} {r : Directive}
    (h : directiveFlags d a ts = .ok (r, ts')) : StatementWritten (.dir r) := by
  unfold directiveFlags at h
  replace h := Res.bind_eq_ok.mp h
  obtain ⟨⟨f, ts1⟩, hm, h⟩ := h
  have key : ∀ {x : Res (Directive × Toks)}, x = (do
      let (rc, ts) ← returnConvention ts1
      confirmAtEnd ts
      .ok (⟨d, a, f, rc, []⟩, ts)) → x = .ok (r, ts') → StatementWritten (.dir r) := by
    intro x hx hok
    rw [hx] at hok
    replace hok := Res.bind_eq_ok.mp hok
    obtain ⟨⟨rc, ts2⟩, hr, hok⟩ := hok
    replace hok := Res.bind_eq_ok.mp hok
    obtain ⟨-, -, hok⟩ := hok
    cases hok
    exact fun _ => mode_written hm
  by_cases hd : d.type = .flag_arg
  · simp only [hd, if_true] at h
    replace h := Res.bind_eq_ok.mp h
    obtain ⟨-, -, h⟩ := h
    exact key rfl h
  · simp only [hd, if_false] at h
    exact key rfl h

theorem directive_written {d : DirectiveName} {ts ts' : Toks} {r : Directive}
    (h : directive d ts = .ok (r, ts')) : StatementWritten (.dir r) := by
  have hne : ∀ {d : DirectiveName} {r : Directive}, r.name = d →
      d.type ≠ .remote_arg → d.type ≠ .flag_arg → d.type ≠ .calling_convention_arg →
      StatementWritten (.dir r) := by
    intro d r hr h1 h2 h3 hm
    subst hr
    simp only [List.mem_cons, List.not_mem_nil, or_false] at hm
    rcases hm with hm | hm | hm <;> rw [hm] at h1 h2 h3
    · exact absurd rfl h3
    · exact absurd rfl h2
    · exact absurd rfl h1
  unfold directive at h
  cases ht : d.type <;> rw [ht] at h <;> simp only at h
  case no_arg =>
    replace h := Res.bind_eq_ok.mp h
    obtain ⟨-, -, h⟩ := h
    cases h
    exact hne rfl (by simp [ht]) (by simp [ht]) (by simp [ht])
  case list_arg =>
    replace h := Res.bind_eq_ok.mp h
    obtain ⟨⟨es, ts1⟩, -, h⟩ := h
    cases h
    exact hne rfl (by simp [ht]) (by simp [ht]) (by simp [ht])
  case remote_arg =>
    replace h := Res.bind_eq_ok.mp h
    obtain ⟨⟨es, ts1⟩, -, h⟩ := h
    exact directiveFlags_written h
  case flag_arg => exact directiveFlags_written h
  case calling_convention_arg => exact directiveFlags_written h
  all_goals
    unfold directiveArg at h
    replace h := Res.bind_eq_ok.mp h
    obtain ⟨⟨a, ts1⟩, -, h⟩ := h
    simp only at h
    split at h
    · cases h
    · split at h
      · cases h
      · replace h := Res.bind_eq_ok.mp h
        obtain ⟨-, -, h⟩ := h
        cases h
        exact hne rfl (by simp [ht]) (by simp [ht]) (by simp [ht])

theorem lineStatement_written {ts ts' : Toks} {st : Statement}
    (h : lineStatement ts = .ok (some (st, ts'))) : StatementWritten st := by
  unfold lineStatement at h
  replace h := Res.bind_eq_ok.mp h
  obtain ⟨t, -, h⟩ := h
  split at h
  · cases h
  · split at h
    · cases h; intro hm; simp at hm
    · cases h; intro hm; simp at hm
    · replace h := Res.bind_eq_ok.mp h
      obtain ⟨⟨d, ts1⟩, hd, h⟩ := h
      replace h := Res.bind_eq_ok.mp h
      obtain ⟨b, -, h⟩ := h
      split at h
      · cases h
      · cases h; exact directive_written hd
    · replace h := Res.bind_eq_ok.mp h
      obtain ⟨⟨i, ts1⟩, hd, h⟩ := h
      replace h := Res.bind_eq_ok.mp h
      obtain ⟨b, -, h⟩ := h
      split at h
      · cases h
      · cases h; exact instruction_written hd
    · cases h

theorem parseLoop_written : ∀ (n : Nat) (ts : Toks) (items : List Item),
    parseLoop n ts = .ok items → ∀ st, Item.stmt st ∈ items → StatementWritten st := by
  intro n
  induction n with
  | zero => intro ts items h; cases h
  | succ n ih =>
    intro ts items h st hst
    rw [parseLoop] at h
    split at h
    · cases h; simp at hst
    · replace h := Res.bind_eq_ok.mp h
      obtain ⟨⟨l, colon, ts1⟩, -, h⟩ := h
      have hlab : ∀ s, Item.stmt s ∉ (l.map Item.label).toList := by
        intro s hs; cases l <;> simp at hs
      simp only at h
      split at h
      · replace h := Res.bind_eq_ok.mp h
        obtain ⟨rest, hr, h⟩ := h
        cases h
        rw [List.mem_append] at hst
        rcases hst with hst | hst
        · exact absurd hst (hlab st)
        · exact ih _ _ hr st hst
      · replace h := Res.bind_eq_ok.mp h
        obtain ⟨o, ho, h⟩ := h
        cases o with
        | none => cases h; exact absurd hst (hlab st)
        | some q =>
          obtain ⟨s, ts2⟩ := q
          simp only at h
          replace h := Res.bind_eq_ok.mp h
          obtain ⟨rest, hr, h⟩ := h
          cases h
          rw [List.mem_append, List.mem_cons] at hst
          rcases hst with hst | hst | hst
          · exact absurd hst (hlab st)
          · cases hst; exact lineStatement_written ho
          · exact ih _ _ hr st hst

theorem fileItems_written {file : List Str} {items : List Item} (h : FileItems file items) :
    ∀ st, Item.stmt st ∈ items → StatementWritten st := by
  obtain ⟨per, h1, rfl⟩ := h
  intro st hst
  rw [List.mem_flatten] at hst
  obtain ⟨its, h2, h3⟩ := hst
  induction h1 with
  | nil => simp at h2
  | cons hx _ ih =>
    rw [List.mem_cons] at h2
    rcases h2 with rfl | h2
    · obtain ⟨ts, -, hp⟩ := hx
      exact parseLoop_written _ _ _ hp st h3
    · exact ih h2

theorem program_written {items : List Item} (h : ∀ st, Item.stmt st ∈ items → StatementWritten st) :
    ∀ (ls : List ParsedLabel) (l : ProgLine), l ∈ program ls items → StatementWritten l.statement := by
  induction items with
  | nil => intro ls l hl; simp [program] at hl
  | cons it items ih =>
    intro ls l hl
    cases it with
    | label x => exact ih (fun st hst => h st (List.mem_cons_of_mem _ hst)) _ l hl
    | stmt s =>
      simp only [program, List.mem_cons] at hl
      rcases hl with rfl | hl
      · exact h s (by simp)
      · exact ih (fun st hst => h st (List.mem_cons_of_mem _ hst)) _ l hl

/-- The statements of a loaded module use flag states that have names. -/
theorem loaded_written {file : List Str} {m : Module} (h : Module.loadAsmFile file = .ok m) :
    ∀ l ∈ m.lines, StatementWritten l.statement := by
  obtain ⟨items, h1, h2, -⟩ := loadAsmFile_ok h
  intro l hl
  obtain ⟨i, hi⟩ := List.getElem?_of_mem hl
  obtain ⟨⟨pl, h4, h5⟩, -⟩ := h2.line i l hi
  rw [h5]
  exact program_written (fileItems_written h1) [] pl (List.mem_of_getElem? h4)

end Nsasm
