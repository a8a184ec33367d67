import Verif.Lemmas.Answers

/-! # C83: what the assembler says after assembling is what the files say -/

namespace Nsasm.Props
open Nsasm Nsasm.Spec

/-- **The name given for an address is a name of that address**: an exported name of the first file with a name
that has one for the address, and there is an answer whenever there is such a file.  Every exported name is the name of an
address. -/
theorem C83_names {σ : Type} {fuel : Nat} {files : List (List Str)} {sink : Sink σ} {s s' : σ} {a : Assembler}
    (h : Assembler.assembleFiles fuel files sink s = (s', .ok a)) :
    ∃ externs : Ctx, Publishes a.modules externs ∧
      (∀ id v, externs id = .ok v → 0 ≤ v ∧ v ≤ 0x1000000) ∧
      (∀ x id, a.nameForAddress x = some id → externs id = .ok (x : Int) ∧
        ∃ (i : Nat) (m : Module), a.modules[i]? = some m ∧ m.name ≠ [] ∧ id.module = some m.name ∧
          ∀ (j : Nat) (m' : Module), j < i → a.modules[j]? = some m' → m'.name ≠ [] → ∀ name t,
            (name, t) ∈ m'.globals → valueAt m' t ≠ some (x : Int)) ∧
      (∀ x : Nat, a.nameForAddress x = none → ∀ id, externs id = .ok (x : Int) → id.module = some []) := by
  obtain ⟨order, wss, hA⟩ := assembled h
  have hpub := assembled_publishes hA
  have hval : ∀ (m : Module) (t x : Nat), AddressOf m t x → valueAt m t = some (x : Int) := by
    rintro m t x ⟨l, h1, h2, -⟩
    simp [valueAt, h1, h2]
  have hmod : ∀ (m : Module) (x : Nat) (id : FullId), m.nameForAddress x = some id ↔
      m.name ≠ [] ∧ id.module = some m.name ∧ HMap.find m.addrNames x = some id.name := by
    intro m x id
    obtain ⟨mo, nm⟩ := id
    unfold Module.nameForAddress
    cases hn : m.name with
    | nil => simp
    | cons c cs =>
      rw [← hn]
      have : m.name.isEmpty = false := by rw [hn]; rfl
      simp only [this, Bool.false_eq_true, if_false]
      cases HMap.find m.addrNames x with
      | none => simp
      | some w =>
        simp only [Option.map_some, Option.some.injEq, FullId.mk.injEq]
        rw [hn]
        constructor
        · rintro ⟨rfl, rfl⟩; exact ⟨by simp, rfl, rfl⟩
        · rintro ⟨-, rfl, rfl⟩; exact ⟨rfl, rfl⟩
  refine ⟨_, hpub, fun id v hv => ?_, fun x id hx => ?_, fun x hx id hv => ?_⟩
  · obtain ⟨m, hm, t, -, ht, hvt⟩ := (hpub id v).mp hv
    obtain ⟨i, hi⟩ := List.getElem?_of_mem hm
    obtain ⟨x, hx⟩ := (assembled_tables h i m hi).2.1 _ ht
    have := hval m t x hx
    rw [hvt] at this
    cases this
    obtain ⟨-, -, -, hle⟩ := hx
    omega
  · unfold Assembler.nameForAddress at hx
    obtain ⟨i, m, hi, hq, hall⟩ := findSome_first.mp hx
    obtain ⟨q1, q2, q3⟩ := (hmod m x id).mp hq
    obtain ⟨t, ht, hxt⟩ := ((assembled_tables h i m hi).1 x).2 _ q3
    refine ⟨(hpub id x).mpr ⟨m, List.mem_of_getElem? hi, t, q2, ht, hval m t x hxt⟩, i, m, hi, q1, q2,
      fun j m' hj hm' hne name t' ht' hv => ?_⟩
    have hnone := hall j m' hj hm'
    have hN := (assembled_tables h j m' hm').1 x
    obtain ⟨y, hy⟩ := (assembled_tables h j m' hm').2.1 _ ht'
    have hyx := hval m' t' y hy
    rw [hv] at hyx
    have : x = y := by injection hyx with hyx; omega
    subst this
    cases hf : HMap.find m'.addrNames x with
    | none => exact hN.1.mp hf _ ht' hy
    | some w =>
      have := (hmod m' x ⟨some m'.name, w⟩).mpr ⟨hne, rfl, hf⟩
      rw [hnone] at this; cases this
  · obtain ⟨m, hm, t, h1, h2, h3⟩ := (hpub id x).mp hv
    rw [h1]
    by_cases hne : m.name = []
    · rw [hne]
    · exfalso
      obtain ⟨i, hi⟩ := List.getElem?_of_mem hm
      have hN := (assembled_tables h i m hi).1 x
      obtain ⟨y, hy⟩ := (assembled_tables h i m hi).2.1 _ h2
      have hyx := hval m t y hy
      rw [h3] at hyx
      have : x = y := by injection hyx with hyx; omega
      subst this
      have hnone : m.nameForAddress x = none := by
        unfold Assembler.nameForAddress at hx
        exact List.findSome?_eq_none_iff.mp hx m hm
      cases hf : HMap.find m.addrNames x with
      | none => exact hN.1.mp hf _ h2 hy
      | some w =>
        have := (hmod m x ⟨some m.name, w⟩).mpr ⟨hne, rfl, hf⟩
        rw [hnone] at this; cases this

/-- Statement `k` of file `i` says that the code at `x` returns as in `r`. -/
def Declared (files : List (List Str)) (a : Assembler) (externs : Ctx) (i k x : Nat) (r : ReturnConvention) : Prop :=
  ∃ (file : List Str) (items : List Item) (m : Module) (l : Line) (ctx : Ctx),
    files[i]? = some file ∧ FileItems file items ∧ a.modules[i]? = some m ∧
    m.lines[k]? = some l ∧ Sees (program [] items) m externs k ctx ∧ Declares ctx l x r

/-- **The return conventions reported are those of the files.**  The convention reported for an address is the one that
the last statement about it in the first file with such a statement gives; an address that no statement is about has none. -/
theorem C83_conventions {σ : Type} {fuel : Nat} {files : List (List Str)} {sink : Sink σ} {s s' : σ} {a : Assembler}
    (h : Assembler.assembleFiles fuel files sink s = (s', .ok a)) :
    ∃ externs : Ctx, Publishes a.modules externs ∧
      ∀ x r, OMap.find a.jumpTargetReturnConventions x = some r ↔
        ∃ i k, Declared files a externs i k x r ∧
          ∀ i' k' r', Declared files a externs i' k' x r' → i < i' ∨ (i = i' ∧ k' ≤ k) := by
  obtain ⟨order, wss, hA⟩ := assembled h
  have hD : ∀ (i k : Nat) (m : Module) (l : Line) (x : Nat) (r : ReturnConvention), a.modules[i]? = some m →
      m.lines[k]? = some l → (Declared files a (Assembler.lookup a.modules a.names) i k x r ↔
        Declares (m.lookup l.scopes (Assembler.lookup a.modules a.names)) l x r) := by
    intro i k m l x r hm hl
    obtain ⟨f, m₀, m₁, m₂, externs, hf, h0, h1, h2, hs, -⟩ := hA.passes i m hm
    obtain ⟨items, hF, hI, -, -⟩ := loadAsmFile_ok h0
    obtain ⟨hmore, -, -⟩ := secondLoop_spec _ 0 m₁ m₂ h2
      (fun j l d _ => unvalued_first h0 h1 j l d)
    have hN₂ := names_more (names_firstPass (names_loaded hI) h1) hmore
    have hN : Names (program [] items) m :=
      ⟨fun k l hl name t => by rw [hs.localIndex]; rw [hs.2.1] at hl; exact hN₂.locals k l hl name t,
        fun name t => by rw [hs.localIndex]; exact hN₂.globals name t⟩
    constructor
    · rintro ⟨f', items', m', l', ctx, hf', hF', hm', hl', hS, hd⟩
      rw [hf] at hf'; cases hf'
      rw [hm] at hm'; cases hm'
      rw [hl] at hl'; cases hl'
      rw [fileItems_unique hF' hF] at hS
      obtain ⟨c1, d, c2, c3, c4⟩ := hd
      refine ⟨c1, d, c2, c3, c4.imp_right fun c4 => ⟨c4.1, ?_⟩⟩
      exact eval_mono (fun id v hv => (lookup_means hN _ hl id v).2 ((hS id v).1 hv)) _ _ c4.2
    · intro hd
      exact ⟨f, items, m, l, _, hf, hF, hm, hl, fun id v => lookup_means hN _ hl id v, hd⟩
  refine ⟨_, assembled_publishes hA, fun x r => ?_⟩
  rw [find_conventions, findSome_first]
  constructor
  · rintro ⟨i, m, hm, hf, hall⟩
    obtain ⟨k, l, hl, hd, hlast⟩ := ((assembled_tables h i m hm).2.2 x r).mp hf
    refine ⟨i, k, (hD i k m l x r hm hl).mpr hd, fun i' k' r' hd' => ?_⟩
    obtain ⟨-, -, m', l', -, -, -, hm', hl', -, -⟩ := id hd'
    have hd' := (hD i' k' m' l' x r' hm' hl').mp hd'
    rcases Nat.lt_trichotomy i i' with hlt | rfl | hlt
    · exact .inl hlt
    · rw [hm] at hm'; cases hm'
      refine .inr ⟨rfl, ?_⟩
      by_contra hc
      exact hlast k' l' r' (by omega) hl' hd'
    · exfalso
      have hnone := hall i' m' hlt hm'
      have hall' : ∀ r'', ¬ LastSays (fun l => Declares (m'.lookup l.scopes
          (Assembler.lookup a.modules a.names)) l) m'.lines x r'' := by
        intro r'' hc
        rw [((assembled_tables h i' m' hm').2.2 x r'').mpr hc] at hnone; cases hnone
      obtain ⟨k2, l2, r2, e1, e2, e3⟩ := last_exists (D := fun l => Declares (m'.lookup l.scopes
          (Assembler.lookup a.modules a.names)) l) hl' hd'
      exact hall' r2 ⟨k2, l2, e1, e2, e3⟩
  · rintro ⟨i, k, hd, hfirst⟩
    obtain ⟨-, -, m, l, -, -, -, hm, hl, -, -⟩ := id hd
    refine ⟨i, m, hm, ((assembled_tables h i m hm).2.2 x r).mpr ⟨k, l, hl, (hD i k m l x r hm hl).mp hd,
      fun k' l' r' hlt hl' hd' => ?_⟩, fun j m' hj hm' => ?_⟩
    · have := hfirst i k' r' ((hD i k' m l' x r' hm hl').mpr hd')
      omega
    · cases hf : OMap.find m'.conventions x with
      | none => rfl
      | some r' =>
        exfalso
        obtain ⟨k', l', hl', hd', -⟩ := ((assembled_tables h j m' hm').2.2 x r').mp hf
        have := hfirst j k' r' ((hD j k' m' l' x r' hm' hl').mpr hd')
        omega

/-- Two files.  The first is `lib`, with two names for one of its addresses and one for a constant; the second says
something about a routine of the first, twice, and about one of its own. -/
example : ∃ (ws : Writes) (a : Assembler), Assembler.assembleFiles 30
      [[cs!".module lib", cs!" .org $8000", cs!"one:", cs!"two .entry m8x8 noreturn", cs!" stp",
        cs!"size .equ $9000"],
       [cs!".module main", cs!" .org $9000", cs!"start .entry m8x8 yields m8x16", cs!" rep #$10", cs!" rts",
        cs!" .remote lib::one m8x8 yields m16x16", cs!" .remote $a000 m8x8 yields m16x16", cs!" .remote $a000 m8x8 noreturn"]]
      recorder [] = (ws, .ok a) ∧
    (a.nameForAddress 0x8000 = some ⟨some cs!"lib", cs!"one"⟩ ∧ a.nameForAddress 0x9000 = some ⟨some cs!"lib", cs!"size"⟩ ∧
      a.nameForAddress 0x9002 = none) ∧
    a.jumpTargetReturnConventions = [(0x8000, .noreturn), (0x9000, .yields ⟨.off, .on, .off, .unknown⟩), (0xa000, .noreturn)] := by
  obtain ⟨ws, a, h, hc⟩ := assembles_of_check (fuel := 30) (files :=
      [[cs!".module lib", cs!" .org $8000", cs!"one:", cs!"two .entry m8x8 noreturn", cs!" stp",
        cs!"size .equ $9000"],
       [cs!".module main", cs!" .org $9000", cs!"start .entry m8x8 yields m8x16", cs!" rep #$10", cs!" rts",
        cs!" .remote lib::one m8x8 yields m16x16", cs!" .remote $a000 m8x8 yields m16x16", cs!" .remote $a000 m8x8 noreturn"]])
    (fun ws a => decide ((a.nameForAddress 0x8000 = some ⟨some cs!"lib", cs!"one"⟩ ∧
        a.nameForAddress 0x9000 = some ⟨some cs!"lib", cs!"size"⟩ ∧ a.nameForAddress 0x9002 = none) ∧
      a.jumpTargetReturnConventions =
        [(0x8000, .noreturn), (0x9000, .yields ⟨.off, .on, .off, .unknown⟩), (0xa000, .noreturn)]))
    (by decide +kernel)
  exact ⟨ws, a, h, by simpa using hc⟩

end Nsasm.Props
