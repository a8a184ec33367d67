import Verif.Lemmas.RangeMap

/-!
# Properties of address ranges (C23–C26)

The specification (`Verif/Spec/Ranges.lean`) speaks of sets of addresses:
`InChunk`, `Covers`, `Canonical` and `wrapped`.
-/

namespace Nsasm.Props

open Nsasm Nsasm.Spec

/-- `Contains` answers membership in the set of addresses covered. -/
theorem C23_contains_iff {r : DataRange} (h : Canonical r.ranges) (a : Nat) :
    r.contains a = true ↔ Covers r.ranges a := contains_iff h a

/-- Claiming one non-empty chunk: the set covered grows by exactly that chunk, the
list stays canonical, and success is reported exactly when nothing was covered
before. -/
theorem C23_claim_chunk {r : DataRange} (h : Canonical r.ranges) {new : Chunk} (hn : new.1 < new.2) :
    Canonical (r.claimChunk new).1.ranges ∧
    (∀ a, (r.claimChunk new).1.contains a = true ↔ r.contains a = true ∨ InChunk a new) ∧
    ((r.claimChunk new).2 = true ↔ ∀ a, InChunk a new → ¬ r.contains a = true) := by
  obtain ⟨h1, h2, h3⟩ := claimChunk_spec h hn
  refine ⟨h1, ?_, ?_⟩
  · intro a; rw [contains_iff h1, contains_iff h, h2]
  · rw [h3]
    constructor
    · intro h4 a ha; rw [contains_iff h]; exact h4 a ha
    · intro h4 a ha; rw [← contains_iff h]; exact h4 a ha

example : Canonical (DataRange.mk [(2, 5), (7, 9), (20, 30)]).ranges ∧
    (DataRange.claimChunk ⟨[(2, 5), (7, 9), (20, 30)]⟩ (5, 8)) = (⟨[(2, 9), (20, 30)]⟩, false) := by
  refine ⟨⟨by decide, by decide⟩, by decide⟩

/-! ## Wrapping claims -/

theorem addWrapped_wrapped {a : Nat} (ha : a < 0x1000000) (i : Nat) :
    Address.addWrapped a i = wrapped a i := by
  unfold Address.addWrapped wrapped
  omega

/-- The bytes `0 .. length-1` from `location`, all distinct and none claimed. -/
def Fresh (r : DataRange) (location length : Nat) : Prop :=
  (∀ i < length, r.contains (wrapped location i) = false) ∧
  (∀ i < length, ∀ j < i, wrapped location i ≠ wrapped location j)

/-- A wrapping claim covers exactly the bytes reached by wrapped steps, keeps the
list canonical, and reports success exactly when these bytes were all unclaimed and
distinct. -/
theorem C25_claim_bytes {r : DataRange} (h : Canonical r.ranges) {location : Nat}
    (hl : location < 0x1000000) (length : Nat) :
    ∃ r' ok, r.claimBytes location length = .ok (r', ok) ∧
      Canonical r'.ranges ∧
      (∀ a, r'.contains a = true ↔
        r.contains a = true ∨ ∃ i < length, a = wrapped location i) ∧
      (ok = true ↔ Fresh r location length) := by
  induction length using Nat.strongRecOn generalizing r location with
  | _ length ih =>
    rw [DataRange.claimBytes]
    by_cases hlen : length = 0
    · subst hlen
      exact ⟨r, true, by simp, h, by simp, by simp [Fresh]⟩
    have hpos : ((length : Nat) : Int) > 0 := by omega
    simp only [dif_pos hpos]
    -- the number of bytes claimed in this round
    obtain ⟨n, hn⟩ : ∃ n : Nat, min length (0x10000 - location % 0x10000) = n := ⟨_, rfl⟩
    have hnext : (min (length : Int) (0x10000 - (Address.bankAddress location : Int)) : Int) = (n : Nat) := by
      unfold Address.bankAddress; omega
    have hstop : Address.addUnwrapped location ((n : Nat) : Int) = .ok (location + n) := by
      unfold Address.addUnwrapped Address.ofInt
      rw [if_pos (by omega)]
      congr 1
    have hn0 : 0 < n := by omega
    have hrest : (length : Int) - ((n : Nat) : Int) = ((length - n : Nat) : Int) := by omega
    rw [hnext, hstop, hrest]
    simp only [Res.bind_ok]
    have hc := C23_claim_chunk h (new := (location, location + n)) (by simp only; omega)
    obtain ⟨hc1, hc2, hc3⟩ := hc
    have hbase : Address.ofBank (Address.bank location : Int) 0 = location / 0x10000 * 0x10000 := by
      unfold Address.ofBank Address.bank; omega
    rw [hbase]
    obtain ⟨r', ok, heq, hk1, hk2, hk3⟩ := ih (length - n) (by omega) hc1
      (location := location / 0x10000 * 0x10000) (by omega)
    rw [heq]
    simp only [Res.bind_ok]
    -- positions in the first round are consecutive, later ones start at the bank's beginning
    have hfirst : ∀ i < n, wrapped location i = location + i := by
      intro i hi; unfold wrapped; omega
    have hlater : ∀ i < length - n, wrapped (location / 0x10000 * 0x10000) i = wrapped location (n + i) := by
      intro i hi; unfold wrapped; omega
    have hin : ∀ a, InChunk a (location, location + n) ↔ ∃ i < n, a = wrapped location i := by
      intro a
      constructor
      · rintro ⟨h1, h2⟩
        simp only at h1 h2
        exact ⟨a - location, by omega, by rw [hfirst _ (by omega)]; omega⟩
      · rintro ⟨i, hi, rfl⟩
        rw [hfirst i hi]
        exact ⟨by simp only; omega, by simp only; omega⟩
    refine ⟨r', _, rfl, hk1, ?_, ?_⟩
    · intro a
      rw [hk2, hc2, hin, or_assoc]
      apply or_congr_right
      constructor
      · rintro (⟨i, hi, rfl⟩ | ⟨i, hi, rfl⟩)
        · exact ⟨i, by omega, rfl⟩
        · exact ⟨n + i, by omega, hlater i hi⟩
      · rintro ⟨i, hi, rfl⟩
        by_cases hin' : i < n
        · exact Or.inl ⟨i, hin', rfl⟩
        · refine Or.inr ⟨i - n, by omega, ?_⟩
          rw [hlater _ (by omega)]; congr 1; omega
    · rw [Bool.and_eq_true, hc3, hk3]
      constructor
      · rintro ⟨h1, h2, h3⟩
        have hnew : ∀ i < length - n,
            r.contains (wrapped location (n + i)) = false ∧
            ∀ j < n, wrapped location (n + i) ≠ wrapped location j := by
          intro i hi
          have h4 := h2 i hi
          rw [hlater i hi, ← Bool.not_eq_true, hc2, not_or] at h4
          refine ⟨by simpa using h4.1, ?_⟩
          intro j hj heq'
          exact h4.2 ((hin _).2 ⟨j, hj, heq'⟩)
        refine ⟨?_, ?_⟩
        · intro i hi
          by_cases hi' : i < n
          · have := h1 _ ((hin _).2 ⟨i, hi', rfl⟩)
            simpa using this
          · have := (hnew (i - n) (by omega)).1
            rwa [show n + (i - n) = i by omega] at this
        · intro i hi j hj
          by_cases hi' : i < n
          · rw [hfirst i hi', hfirst j (by omega)]; omega
          · by_cases hj' : j < n
            · have := (hnew (i - n) (by omega)).2 j hj'
              rwa [show n + (i - n) = i by omega] at this
            · have := h3 (i - n) (by omega) (j - n) (by omega)
              rw [hlater _ (by omega), hlater _ (by omega)] at this
              rwa [show n + (i - n) = i by omega, show n + (j - n) = j by omega] at this
      · rintro ⟨h1, h2⟩
        refine ⟨?_, ?_, ?_⟩
        · intro a ha
          obtain ⟨i, hi, rfl⟩ := (hin a).1 ha
          rw [h1 i (by omega)]; simp
        · intro i hi
          rw [hlater i hi, ← Bool.not_eq_true, hc2, not_or]
          refine ⟨by rw [h1 _ (by omega)]; simp, ?_⟩
          intro hx
          obtain ⟨j, hj, heq'⟩ := (hin _).1 hx
          exact h2 (n + i) (by omega) j (by omega) heq'
        · intro i hi j hj
          rw [hlater i hi, hlater j (by omega)]
          exact h2 (n + i) (by omega) (n + j) (by omega)

/-- A claim of a negative or zero length does nothing. -/
theorem C25_claim_nothing (r : DataRange) (location : Nat) {length : Int} (h : length ≤ 0) :
    r.claimBytes location length = .ok (r, true) := by
  rw [DataRange.claimBytes, dif_neg (by omega)]

example : DataRange.claimBytes .empty 0x12fffe 4 = .ok (⟨[(0x120000, 0x120002), (0x12fffe, 0x130000)]⟩, true)
    ∧ wrapped 0x12fffe 3 = 0x120001 := by
  refine ⟨?_, by decide⟩
  have h0 : ∀ r : DataRange, r.claimBytes 0x120000 0 = .ok (r, true) := by
    intro r; rw [DataRange.claimBytes]; simp
  have h2 : ∀ r : DataRange, r.claimBytes 0x120000 2 = .ok (r.claimChunk (0x120000, 0x120002)) := by
    intro r
    rw [DataRange.claimBytes, dif_pos (by decide)]
    simp [Address.addUnwrapped, Address.ofInt, Address.bankAddress, Address.bank, Address.ofBank,
      show min (2 : Int) 65536 = 2 by decide, h0]
  rw [DataRange.claimBytes, dif_pos (by decide)]
  simp [Address.addUnwrapped, Address.ofInt, Address.bankAddress, Address.bank, Address.ofBank,
    show min (4 : Int) 2 = 2 by decide, h2]
  decide

/-! ## Histories of claims -/

/-- One call of `ClaimBytes`. -/
inductive Claim where
  | chunk (c : Chunk)
  | bytes (location : Nat) (length : Int)

/-- The arguments the public functions are specified for: a non-empty chunk, a
24-bit address. -/
def Claim.Valid : Claim → Prop
  | .chunk c => c.1 < c.2
  | .bytes location _ => location < 0x1000000

/-- The addresses a claim asks for. -/
def Claim.Asks (k : Claim) (a : Nat) : Prop :=
  match k with
  | .chunk c => c.1 ≤ a ∧ a < c.2
  | .bytes location length => ∃ i : Nat, (i : Int) < length ∧ a = wrapped location i

/-- A claim that asks for some address twice. -/
def Claim.Repeats : Claim → Prop
  | .chunk _ => False
  | .bytes _ length => length > 0x10000

/-- The call. -/
def Claim.run (r : DataRange) : Claim → Res (DataRange × Bool)
  | .chunk c => .ok (r.claimChunk c)
  | .bytes location length => r.claimBytes location length

/-- A history of calls on one object: the final state and the returned flags. -/
def runClaims : DataRange → List Claim → Res (DataRange × List Bool)
  | r, [] => .ok (r, [])
  | r, k :: ks => do
      let (r, ok) ← k.run r
      let (r, oks) ← runClaims r ks
      .ok (r, ok :: oks)

/-- Which claims of a history should succeed: those that repeat nothing and ask for
no address asked for before. -/
def ShouldSucceed (earlier : List Claim) : List Claim → List Bool → Prop
  | [], oks => oks = []
  | k :: ks, oks => ∃ ok rest, oks = ok :: rest ∧
      (ok = true ↔ ¬ k.Repeats ∧ ∀ a, k.Asks a → ∀ k' ∈ earlier, ¬ k'.Asks a) ∧
      ShouldSucceed (earlier ++ [k]) ks rest

theorem claim_step {r : DataRange} (h : Canonical r.ranges) {k : Claim} (hk : k.Valid) :
    ∃ r' ok, k.run r = .ok (r', ok) ∧ Canonical r'.ranges ∧
      (∀ a, r'.contains a = true ↔ r.contains a = true ∨ k.Asks a) ∧
      (ok = true ↔ ¬ k.Repeats ∧ ∀ a, k.Asks a → ¬ r.contains a = true) := by
  cases k with
  | chunk c =>
    obtain ⟨h1, h2, h3⟩ := C23_claim_chunk h (new := c) hk
    exact ⟨(r.claimChunk c).1, (r.claimChunk c).2, rfl, h1, h2, by rw [h3]; simp [Claim.Repeats, Claim.Asks, InChunk]⟩
  | bytes location length =>
    by_cases hl : length ≤ 0
    · refine ⟨r, true, C25_claim_nothing r location hl, h, ?_, ?_⟩
      · intro a
        simp only [Claim.Asks]
        constructor
        · exact Or.inl
        · rintro (h | ⟨i, hi, -⟩)
          · exact h
          · omega
      · simp only [Claim.Repeats, Claim.Asks, true_iff]
        refine ⟨by omega, ?_⟩
        rintro a ⟨i, hi, -⟩
        omega
    · obtain ⟨n, rfl⟩ : ∃ n : Nat, length = n := ⟨length.toNat, by omega⟩
      obtain ⟨r', ok, h1, h2, h3, h4⟩ := C25_claim_bytes h (location := location) hk n
      refine ⟨r', ok, h1, h2, ?_, ?_⟩
      · intro a
        rw [h3]
        simp only [Claim.Asks]
        constructor
        · rintro (h | ⟨i, hi, rfl⟩)
          · exact Or.inl h
          · exact Or.inr ⟨i, by omega, rfl⟩
        · rintro (h | ⟨i, hi, rfl⟩)
          · exact Or.inl h
          · exact Or.inr ⟨i, by omega, rfl⟩
      · rw [h4]
        unfold Fresh
        rw [and_comm]
        apply and_congr
        · simp only [Claim.Repeats]
          constructor
          · intro h5 h6
            have := h5 0x10000 (by omega) 0 (by omega)
            unfold wrapped at this
            omega
          · intro h5 i hi j hj
            unfold wrapped
            omega
        · simp only [Claim.Asks]
          constructor
          · rintro h5 a ⟨i, hi, rfl⟩
            rw [h5 i (by omega)]; simp
          · intro h5 i hi
            have := h5 _ ⟨i, by omega, rfl⟩
            simpa using this

theorem runClaims_spec {r : DataRange} (hr : Canonical r.ranges) (earlier : List Claim)
    (he : ∀ a, r.contains a = true ↔ ∃ k ∈ earlier, k.Asks a)
    (ks : List Claim) (hks : ∀ k ∈ ks, k.Valid) :
    ∃ r' oks, runClaims r ks = .ok (r', oks) ∧ Canonical r'.ranges ∧
      (∀ a, r'.contains a = true ↔ ∃ k ∈ earlier ++ ks, k.Asks a) ∧
      ShouldSucceed earlier ks oks := by
  induction ks generalizing r earlier with
  | nil => exact ⟨r, [], rfl, hr, by simpa using he, rfl⟩
  | cons k ks ih =>
    obtain ⟨r1, ok, h1, h2, h3, h4⟩ := claim_step hr (hks k (by simp))
    obtain ⟨r2, oks, h5, h6, h7, h8⟩ := ih h2 (earlier ++ [k])
      (by
        intro a
        rw [h3, he]
        constructor
        · rintro (⟨k', hk', ha⟩ | ha)
          · exact ⟨k', by simp [hk'], ha⟩
          · exact ⟨k, by simp, ha⟩
        · rintro ⟨k', hk', ha⟩
          rcases List.mem_append.1 hk' with hk' | hk'
          · exact Or.inl ⟨k', hk', ha⟩
          · simp at hk'; subst hk'; exact Or.inr ha)
      (fun k' hk' => hks k' (List.mem_cons_of_mem _ hk'))
    refine ⟨r2, ok :: oks, ?_, h6, ?_, ok, oks, rfl, ?_, h8⟩
    · simp only [runClaims, h1, Res.bind_ok, h5]
    · intro a; rw [h7]; simp
    · rw [h4]
      apply and_congr_right
      intro _
      constructor
      · intro h9 a ha k' hk' hka
        exact h9 a ha ((he a).2 ⟨k', hk', hka⟩)
      · intro h9 a ha hc
        obtain ⟨k', hk', hka⟩ := (he a).1 hc
        exact h9 a ha k' hk' hka

/-- After any history of claims, an address is contained exactly when some claim asked
for it, the chunks stored are non-empty, sorted, disjoint and non-adjacent, and each
claim reported success exactly when it asked for nothing twice and nothing asked for
before.  No claim has undefined behaviour. -/
theorem C23_history (ks : List Claim) (hks : ∀ k ∈ ks, k.Valid) :
    ∃ r oks, runClaims .empty ks = .ok (r, oks) ∧
      Canonical r.ranges ∧
      (∀ a, r.contains a = true ↔ ∃ k ∈ ks, k.Asks a) ∧
      ShouldSucceed [] ks oks := by
  have := runClaims_spec (r := .empty) (by exact ⟨by simp [DataRange.empty], .nil⟩) []
    (by intro a; simp [DataRange.contains, DataRange.empty, DataRange.before]) ks hks
  simpa using this

/-- Histories that ask for the same addresses end in the same list of chunks. -/
theorem C24_order_irrelevant {ks ks' : List Claim} (hks : ∀ k ∈ ks, k.Valid)
    (hks' : ∀ k ∈ ks', k.Valid)
    (hsame : ∀ a, (∃ k ∈ ks, k.Asks a) ↔ ∃ k ∈ ks', k.Asks a)
    {r r' : DataRange} {oks oks' : List Bool} (h : runClaims .empty ks = .ok (r, oks))
    (h' : runClaims .empty ks' = .ok (r', oks')) : r = r' := by
  obtain ⟨r1, oks1, h1, h2, h3, -⟩ := C23_history ks hks
  obtain ⟨r2, oks2, h4, h5, h6, -⟩ := C23_history ks' hks'
  rw [h] at h1; rw [h'] at h4
  simp only [Res.ok.injEq, Prod.mk.injEq] at h1 h4
  obtain ⟨rfl, -⟩ := h1
  obtain ⟨rfl, -⟩ := h4
  have : r.ranges = r'.ranges := by
    apply canonical_unique h2 h5
    intro a
    rw [← contains_iff h2, ← contains_iff h5, h3, h6, hsame]
  cases r; cases r'; simp_all

/-- In particular any permutation of the claims. -/
theorem C24_permutation {ks ks' : List Claim} (hks : ∀ k ∈ ks, k.Valid) (hp : ks.Perm ks')
    {r r' : DataRange} {oks oks' : List Bool} (h : runClaims .empty ks = .ok (r, oks))
    (h' : runClaims .empty ks' = .ok (r', oks')) : r = r' :=
  C24_order_irrelevant hks (fun k hk => hks k (hp.mem_iff.2 hk))
    (by intro a; simp only [hp.mem_iff]) h h'

example : runClaims .empty [.chunk (10, 20), .chunk (30, 40), .chunk (15, 35)] =
      .ok (⟨[(10, 40)]⟩, [true, true, false]) ∧
    runClaims .empty [.chunk (30, 40), .chunk (15, 35), .chunk (10, 20)] =
      .ok (⟨[(10, 40)]⟩, [true, false, false]) := by decide

/-! ## RangeMap -/

/-- The abstract map: a partial function from addresses. -/
abbrev AMap (τ : Type) := Nat → Option τ

/-- Abstract insertion: refused, without effect, when some address of the range is
already mapped. -/
noncomputable def AMap.insert {τ : Type} (f : AMap τ) (range : DataRange) (v : τ) : AMap τ × Bool :=
  open Classical in
  if ∃ a, range.contains a = true ∧ f a ≠ none then (f, false)
  else (fun a => if range.contains a = true then some v else f a, true)

/-- A history of inserts on the concrete map, with the returned flags. -/
def runInserts {τ : Type} (m : RangeMap τ) : List (DataRange × τ) → RangeMap τ × List Bool
  | [] => (m, [])
  | (r, v) :: rest =>
      let (m, ok) := m.insert r v
      let (m, oks) := runInserts m rest
      (m, ok :: oks)

/-- The same history on the abstract map. -/
noncomputable def runAbstract {τ : Type} (f : AMap τ) : List (DataRange × τ) → AMap τ × List Bool
  | [] => (f, [])
  | (r, v) :: rest =>
      let (f, ok) := f.insert r v
      let (f, oks) := runAbstract f rest
      (f, ok :: oks)

section

open RangeMap

variable {τ : Type}

theorem insert_spec {m : RangeMap τ} (hm : m.Inv) {range : DataRange} (hr : Canonical range.ranges)
    (v : τ) {f : AMap τ} (hf : ∀ a, m.lookup a = f a) :
    (m.insert range v).1.Inv ∧ (m.insert range v).2 = (f.insert range v).2 ∧
    ∀ a, (m.insert range v).1.lookup a = (f.insert range v).1 a := by
  -- an address is covered exactly when it is mapped
  have hcov : ∀ a, Covers m.used.ranges a ↔ f a ≠ none := by
    intro a
    rw [hm.covered, ← hf, Option.ne_none_iff_exists']
    constructor
    · rintro ⟨e, he, hin⟩; exact ⟨e.2, (lookup_iff hm a e.2).2 ⟨e, he, hin, rfl⟩⟩
    · rintro ⟨w, hw⟩
      obtain ⟨e, he, hin, -⟩ := (lookup_iff hm a w).1 hw
      exact ⟨e, he, hin⟩
  have hc := claimAll_spec hm.used hr
  unfold RangeMap.insert AMap.insert
  cases hca : claimAll m.used range.ranges with
  | none =>
    rw [hca] at hc
    obtain ⟨a, ha, ha'⟩ := hc
    have hex : ∃ a, range.contains a = true ∧ f a ≠ none :=
      ⟨a, (contains_iff hr a).2 ha, (hcov a).1 ha'⟩
    rw [if_pos hex]
    exact ⟨hm, rfl, hf⟩
  | some r' =>
    rw [hca] at hc
    obtain ⟨h1, h2, h3⟩ := hc
    have hex : ¬ ∃ a, range.contains a = true ∧ f a ≠ none := by
      rintro ⟨a, ha, ha'⟩
      exact h1 a ((contains_iff hr a).1 ha) ((hcov a).2 ha')
    rw [if_neg hex]
    have hdis : ∀ e ∈ m.mapping, ∀ c ∈ range.ranges, e.1.2 ≤ c.1 ∨ c.2 ≤ e.1.1 := by
      intro e he c hc'
      by_contra hno
      push Not at hno
      have hen := hm.nonempty e he
      have hcn := hr.1 c hc'
      have hmax : InChunk (max e.1.1 c.1) e.1 ∧ InChunk (max e.1.1 c.1) c := by
        unfold InChunk; omega
      exact h1 (max e.1.1 c.1) ⟨c, hc', hmax.2⟩ ((hm.covered _).2 ⟨e, he, hmax.1⟩)
    obtain ⟨f1, f2, f3⟩ := foldl_emplace_spec v range.ranges hr m.mapping hm.nonempty hm.sorted hdis
    have hinv : RangeMap.Inv (τ := τ) ⟨r', range.ranges.foldl (fun mp c => emplace c v mp) m.mapping⟩ := by
      refine ⟨h2, f2, f3, ?_⟩
      intro a
      rw [h3, hm.covered]
      constructor
      · rintro (⟨e, he, hin⟩ | ⟨c, hc', hin⟩)
        · exact ⟨e, (f1 e).2 (Or.inl he), hin⟩
        · exact ⟨(c, v), (f1 _).2 (Or.inr ⟨c, hc', rfl⟩), hin⟩
      · rintro ⟨e, he, hin⟩
        rcases (f1 e).1 he with he | ⟨c, hc', rfl⟩
        · exact Or.inl ⟨e, he, hin⟩
        · exact Or.inr ⟨c, hc', hin⟩
    refine ⟨hinv, rfl, ?_⟩
    intro a
    apply Option.ext
    intro w
    simp only
    rw [lookup_iff hinv]
    simp only
    by_cases ha : range.contains a = true
    · rw [if_pos ha]
      have hca' := (contains_iff hr a).1 ha
      have hnu := h1 a hca'
      constructor
      · rintro ⟨e, he, hin, rfl⟩
        rcases (f1 e).1 he with he | ⟨c, hc', rfl⟩
        · exact absurd ((hm.covered a).2 ⟨e, he, hin⟩) hnu
        · rfl
      · intro hv
        obtain ⟨c, hc', hin⟩ := hca'
        exact ⟨(c, v), (f1 _).2 (Or.inr ⟨c, hc', rfl⟩), hin, Option.some.inj hv⟩
    · rw [if_neg ha, ← hf, lookup_iff hm]
      constructor
      · rintro ⟨e, he, hin, rfl⟩
        rcases (f1 e).1 he with he | ⟨c, hc', rfl⟩
        · exact ⟨e, he, hin, rfl⟩
        · exact absurd ((contains_iff hr a).2 ⟨c, hc', hin⟩) ha
      · rintro ⟨e, he, hin, rfl⟩
        exact ⟨e, (f1 e).2 (Or.inl he), hin, rfl⟩

theorem runInserts_spec {m : RangeMap τ} (hm : m.Inv) {f : AMap τ} (hf : ∀ a, m.lookup a = f a)
    (ops : List (DataRange × τ)) (hops : ∀ p ∈ ops, Canonical p.1.ranges) :
    (runInserts m ops).1.Inv ∧ (runInserts m ops).2 = (runAbstract f ops).2 ∧
    ∀ a, (runInserts m ops).1.lookup a = (runAbstract f ops).1 a := by
  induction ops generalizing m f with
  | nil => exact ⟨hm, rfl, hf⟩
  | cons p ops ih =>
    obtain ⟨r, v⟩ := p
    obtain ⟨h1, h2, h3⟩ := insert_spec hm (hops (r, v) (by simp)) v hf
    obtain ⟨h4, h5, h6⟩ := ih h1 h3 (fun q hq => hops q (List.mem_cons_of_mem _ hq))
    simp only [runInserts, runAbstract]
    exact ⟨h4, by rw [h2, h5], h6⟩

end

/-- After any history of inserts the map is the partial function built by the same
history of abstract inserts, and each insert reports what the abstract one does: it
is refused exactly when its range meets an address already mapped, and then nothing
changes. -/
theorem C26_range_map {τ : Type} (ops : List (DataRange × τ))
    (hops : ∀ p ∈ ops, Canonical p.1.ranges) :
    (runInserts (.empty : RangeMap τ) ops).2 = (runAbstract (fun _ => none) ops).2 ∧
    ∀ a, (runInserts (.empty : RangeMap τ) ops).1.lookup a =
        (runAbstract (fun _ => none) ops).1 a ∧
      ((runInserts (.empty : RangeMap τ) ops).1.contains a = true ↔
        (runAbstract (fun _ => none) ops).1 a ≠ none) := by
  have hinv : (RangeMap.empty : RangeMap τ).Inv :=
    ⟨⟨by simp [RangeMap.empty, DataRange.empty], .nil⟩, by simp [RangeMap.empty],
      by simp [RangeMap.empty], by intro a; simp [RangeMap.empty, DataRange.empty]⟩
  obtain ⟨h1, h2, h3⟩ := runInserts_spec hinv (f := fun _ => none)
    (by intro a; simp [RangeMap.lookup, RangeMap.lookupBack, RangeMap.empty]) ops hops
  refine ⟨h2, fun a => ⟨h3 a, ?_⟩⟩
  rw [← h3, RangeMap.contains, contains_iff h1.used, h1.covered, Option.ne_none_iff_exists']
  constructor
  · rintro ⟨e, he, hin⟩; exact ⟨e.2, (RangeMap.lookup_iff h1 a e.2).2 ⟨e, he, hin, rfl⟩⟩
  · rintro ⟨w, hw⟩
    obtain ⟨e, he, hin, -⟩ := (RangeMap.lookup_iff h1 a w).1 hw
    exact ⟨e, he, hin⟩

example : ((runInserts (.empty : RangeMap Nat)
      [(⟨[(10, 20), (30, 40)]⟩, 1), (⟨[(20, 25)]⟩, 2), (⟨[(24, 31)]⟩, 3)]).2 = [true, true, false]) ∧
    ((runInserts (.empty : RangeMap Nat)
      [(⟨[(10, 20), (30, 40)]⟩, 1), (⟨[(20, 25)]⟩, 2), (⟨[(24, 31)]⟩, 3)]).1.lookup 24 = some 2) ∧
    Canonical [(10, 20), (30, 40)] := by
  refine ⟨by decide, by decide, by decide, by decide⟩

end Nsasm.Props
