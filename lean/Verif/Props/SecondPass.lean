import Verif.Lemmas.SecondPass
import Verif.Spec.Link
import Verif.Props.Module

/-! # C43: values after the second pass -/

namespace Nsasm.Props
open Nsasm Nsasm.Spec

theorem localLookup_ok (m : Module) (t : Nat) (v : Int) :
    m.localLookup t = .ok v ↔ valueAt m t = some v := by
  unfold Module.localLookup valueAt
  cases m.lines[t]? with
  | none => simp
  | some l => cases hv : l.value <;> simp [hv]

/-- A module whose names are those of a program. -/
structure Names (P : Program) (m : Module) : Prop where
  locals : ∀ i l, m.lines[i]? = some l → ∀ name t,
    (m.localIndex name l.scopes = some t ↔ Resolves P i name t)
  globals : ∀ name t, m.localIndex name [] = some t ↔ Defines P none name t

theorem names_loaded {P : Program} {m : Module} (h : LoadInv P m) : Names P m := by
  constructor
  · intro i l hl name t
    obtain ⟨⟨pl, h4, -⟩, h5, -⟩ := h.line i l hl
    rw [h5]
    refine localIndex_resolves h name t i ?_
    have := (List.getElem?_eq_some_iff.mp h4).1
    omega
  · intro name t
    rw [Module.localIndex, h.globals, find_tableOf h.nodup]

theorem names_firstPass {P : Program} {fuel : Nat} {m m' : Module} (h : Names P m)
    (hf : m.runFirstPass fuel = .ok m') : Names P m' := by
  constructor
  · intro i l hl name t
    obtain ⟨l₀, h0, -, hs, -⟩ := firstPass_line hf hl
    rw [firstPass_localIndex hf, hs]
    exact h.locals i l₀ h0 name t
  · intro name t
    rw [firstPass_localIndex hf]
    exact h.globals name t

theorem names_more {P : Program} {m m' : Module} (h : Names P m) (hm : MoreValues m m') :
    Names P m' := by
  constructor
  · intro i l hl name t
    obtain ⟨l₀, h0, hv⟩ := getElem?_valueless hm.lines.symm hl
    rw [hm.localIndex, ← (valueless_fields hv).2.2.1]
    exact h.locals i l₀ h0 name t
  · intro name t
    rw [hm.localIndex]
    exact h.globals name t

/-- What evaluation at a line of a module sees. -/
theorem lookup_means {P : Program} {m : Module} (h : Names P m) (externs : Ctx) {i : Nat} {l : Line}
    (hl : m.lines[i]? = some l) (id : FullId) (v : Int) :
    m.lookup l.scopes externs id = .ok v ↔ Means P m.name (valueAt m) externs i id v := by
  unfold Module.lookup Means
  cases hm : id.module with
  | none =>
    simp only
    cases hi : m.localIndex id.name l.scopes with
    | none =>
      have hn : ∀ t, ¬ Resolves P i id.name t := by
        intro t ht
        rw [(h.locals i l hl id.name t).mpr ht] at hi
        cases hi
      simp only
      constructor
      · exact fun hv => .inr ⟨hn, hv⟩
      · rintro (⟨t, ht, -⟩ | ⟨-, hv⟩)
        · exact absurd ht (hn t)
        · exact hv
    | some t =>
      have ht := (h.locals i l hl id.name t).mp hi
      simp only
      rw [localLookup_ok]
      constructor
      · exact fun hv => .inl ⟨t, ht, hv⟩
      · rintro (⟨t', ht', hv⟩ | ⟨hn, -⟩)
        · rw [← h.locals i l hl, hi] at ht'
          cases ht'
          exact hv
        · exact absurd ht (hn t)
  | some other =>
    simp only
    by_cases he : other = m.name
    · rw [if_pos he]
      cases hi : m.localIndex id.name [] with
      | none =>
        have hn : ∀ t, ¬ Defines P none id.name t := by
          intro t ht
          rw [(h.globals id.name t).mpr ht] at hi
          cases hi
        simp only
        constructor
        · exact fun hv => .inr ⟨.inr hn, hv⟩
        · rintro (⟨-, t, ht, -⟩ | ⟨-, hv⟩)
          · exact absurd ht (hn t)
          · exact hv
      | some t =>
        have ht := (h.globals id.name t).mp hi
        simp only
        rw [localLookup_ok]
        constructor
        · exact fun hv => .inl ⟨he, t, ht, hv⟩
        · rintro (⟨-, t', ht', hv⟩ | ⟨hn | hn, -⟩)
          · rw [← h.globals, hi] at ht'
            cases ht'
            exact hv
          · exact absurd he hn
          · exact absurd ht (hn t)
    · rw [if_neg he]
      constructor
      · exact fun hv => .inr ⟨.inl he, hv⟩
      · rintro (⟨h', -⟩ | ⟨-, hv⟩)
        · exact absurd h' he
        · exact hv

/-- **`.equ` values are consistent.**  After the second pass every `.equ` line has a value,
and it is what its expression evaluates to when every name has the value it means *after* the
pass.  No other line is changed. -/
theorem C43_equ_values {file : List Str} {fuel : Nat} {externs : Ctx} {m m₁ m₂ : Module}
    (hm : Module.loadAsmFile file = .ok m) (h1 : m.runFirstPass fuel = .ok m₁)
    (h2 : m₁.runSecondPass externs = .ok m₂) :
    ∃ items, FileItems file items ∧
      (∀ i l d, m₂.lines[i]? = some l → l.statement = .dir d → d.name = .equ →
        ∃ ctx : Ctx,
          (∀ id w, ctx id = .ok w ↔
            Means (program [] items) m₂.name (valueAt m₂) externs i id w) ∧
          ∃ v, l.value = some v ∧ d.argument.eval ctx = .ok v) ∧
      (∀ (i : Nat) (l : Line), m₁.lines[i]? = some l → ¬ IsEqu l → m₂.lines[i]? = some l) := by
  obtain ⟨items, hF, hI, -, -⟩ := loadAsmFile_ok hm
  have hnone : ∀ (j : Nat) (l : Line) (d : Directive), 0 ≤ j → m₁.lines[j]? = some l →
      l.statement = .dir d → d.name = .equ → l.value = none := by
    intro j l d _ hl hd hq
    obtain ⟨l₀, h0, -, -, -, -, hv⟩ := firstPass_line h1 hl
    rw [hv ((isDir_iff _ _).mpr ⟨d, hd, hq⟩)]
    exact (hI.line j l₀ h0).2.2.2
  obtain ⟨hmore, hright, hsame⟩ := secondLoop_spec _ 0 m₁ m₂ h2 hnone
  have hN := names_more (names_firstPass (names_loaded hI) h1) hmore
  refine ⟨items, hF, ?_, ?_⟩
  · intro i l d hl hd hq
    have hlen : i < 0 + m₁.lines.length := by
      have := congrArg List.length hmore.lines
      simp at this
      have := (List.getElem?_eq_some_iff.mp hl).1
      omega
    exact ⟨m₂.lookup l.scopes externs, fun id w => lookup_means hN externs hl id w,
      hright i l (Nat.zero_le _) hlen hl d hd hq⟩
  · intro i l hl hne
    obtain ⟨l', hl', -⟩ := getElem?_valueless hmore.lines hl
    rw [hl', hsame i l l' hl hl' (by rw [← Bool.not_eq_true, isDir_iff]; exact hne)]

/-- Values that depend on each other, on a label defined later, and on another module. -/
example : ∃ m m₁ m₂, Module.loadAsmFile
      [cs!"size: .equ finish - start", cs!"twice: .equ size * 2 + other::base", cs!" .org $8000",
       cs!" .entry m8x8", cs!"start: lda #$12", cs!" .begin", cs!"size: .equ twice + 1",
       cs!" sta size", cs!" .end", cs!"finish: rts"] = .ok m ∧
    m.runFirstPass 30 = .ok m₁ ∧
    m₁.runSecondPass (fun id => if id = ⟨some cs!"other", cs!"base"⟩ then .ok 100 else
      .error .undefinedName) = .ok m₂ ∧
    m₂.lines.map (·.value) = [some 5, some 110, some 0x8000, some 0x8000, some 0x8000, some 0x8002,
      some 111, some 0x8002, some 0x8005, some 0x8005] := by
  refine ⟨_, _, _, rfl, rfl, rfl, ?_⟩
  decide +kernel

end Nsasm.Props
