import Verif.Lemmas.DataFile
import Verif.Props.Rom

/-! # The text and the bytes of a dump -/

namespace Nsasm
open Spec Props Parse

/-- A directive or suffix. -/
theorem lex_dotted {w s : Str} {t : Token} {ts : List Token}
    (hw : ∀ d ∈ w, isIdentifierChar d = true) (hs : ∀ d, s.head? = some d → isIdentifierChar d = false)
    (ht : dottedToken ('.' :: w) = .ok t) (h : Lex s ts) : Lex ('.' :: w ++ s) (t :: ts) := by
  obtain ⟨e1, e2⟩ := takeWhile_all hw hs
  rw [List.cons_append]
  refine lex_scan (by decide) (by decide) ?_ h
  have hp : scanPunct ('.' :: (w ++ s)) = none := by
    unfold scanPunct
    simp [isPunctChar]
  have hx : hexPrefix ('.' :: (w ++ s)) = none := by
    unfold hexPrefix; split <;> simp_all
  have hb : binaryPrefix ('.' :: (w ++ s)) = none := by
    unfold binaryPrefix; split <;> simp_all
  have hdd : isDecimalDigit '.' = false := by decide
  rw [scanToken, hp]
  simp only [hx, hb, hdd, e1, e2, ht, Res.bind_ok, if_true, Bool.false_eq_true, if_false]

/-- The type of the literals of a dump. -/
def dumpType (k : Nat) : NumericType := if k = 2 then .word else if k = 3 then .long else .byte

def dumpName (k : Nat) : DirectiveName := if k = 2 then .dw else if k = 3 then .dl else .db

/-- The tokens of a list of values. -/
def listTokens (t : NumericType) : List Nat → List Token
  | [] => []
  | [v] => [.lit v t]
  | v :: vs => .lit v t :: tok ',' :: listTokens t vs

theorem valueText_nat (k v : Nat) : Dump.valueText k (v : Int) = '$' :: hexPadded (2 * k) v := rfl

theorem lex_join {k : Nat} (hk : 1 ≤ k ∧ k ≤ 3) (vs : List Nat) (hv : ∀ v ∈ vs, v < 256 ^ k) :
    Lex (Dump.join ((vs.map (fun v : Nat => (v : Int))).map (Dump.valueText k))) (listTokens (dumpType k) vs) := by
  have hty : literalType 2 (2 * k) = dumpType k := by
    rcases (by omega : k = 1 ∨ k = 2 ∨ k = 3) with rfl | rfl | rfl <;> rfl
  have hpow : ∀ v, v < 256 ^ k → v < 16 ^ (2 * k) := by
    intro v h
    rw [Nat.pow_mul]; exact h
  induction vs with
  | nil => exact lex_nil
  | cons v vs ih =>
    cases vs with
    | nil =>
      simp only [List.map_cons, List.map_nil, Dump.join, listTokens, valueText_nat]
      have := lex_hex (w := 2 * k) (n := v) (s := []) (ts := []) (by omega) (by omega) (hpow v (hv v (by simp))) hty
        (by simp) lex_nil
      simpa using this
    | cons w ws =>
      have ih := ih (fun v h => hv v (by simp at h ⊢; tauto))
      simp only [List.map_cons, Dump.join, listTokens] at ih ⊢
      rw [List.append_assoc, valueText_nat]
      exact lex_hex (w := 2 * k) (n := v) (by omega) (by omega) (hpow v (hv v (by simp))) hty
        (by intro c h; simp at h; subst h; decide) (lex_punct (by decide) (lex_space ih))

theorem lex_line {k : Nat} (hk : 1 ≤ k ∧ k ≤ 3) (vs : List Nat) (hv : ∀ v ∈ vs, v < 256 ^ k) :
    Lex (Dump.line k (vs.map (fun v : Nat => (v : Int)))) (.dir (dumpName k) :: listTokens (dumpType k) vs) := by
  have h := lex_space (lex_space (lex_join hk vs hv))
  unfold Dump.line
  generalize Dump.join _ = j at h
  have sp : ∀ d, (' ' :: ' ' :: j).head? = some d → isIdentifierChar d = false := by
    intro d h; simp at h; subst h; decide
  rcases (by omega : k = 1 ∨ k = 2 ∨ k = 3) with rfl | rfl | rfl
  · exact lex_dotted (w := cs!"db") (by decide) sp (t := .dir .db) (by decide) h
  · exact lex_dotted (w := cs!"dw") (by decide) sp (t := .dir .dw) (by decide) h
  · exact lex_dotted (w := cs!"dl") (by decide) sp (t := .dir .dl) (by decide) h

theorem lex_org {start : Nat} (hs : start < 0x1000000) :
    Lex (cs!".org $" ++ hexPadded 6 start) [.dir .org, .lit start .long] := by
  have := lex_hex (w := 6) (n := start) (s := []) (ts := []) (t := .long) (by omega) (by omega) (by simpa using hs) rfl
    (by simp) lex_nil
  rw [List.append_nil] at this
  exact lex_dotted (w := cs!"org") (s := ' ' :: '$' :: hexPadded 6 start) (by decide)
    (by intro d h; simp at h; subst h; decide) (by decide) (lex_space this)

theorem castTo_dump {k v : Nat} (hk : 1 ≤ k ∧ k ≤ 3) (hv : v < 256 ^ k) :
    (dumpType k).castTo (v : Int) = v := by
  rcases (by omega : k = 1 ∨ k = 2 ∨ k = 3) with rfl | rfl | rfl <;> simp only [dumpType, NumericType.castTo] <;> simp at hv ⊢ <;> omega

/-- The directive a line of a dump stands for. -/
def dumpDirective (k : Nat) (vs : List Nat) : Directive :=
  ⟨dumpName k, .null, .default, .default, vs.map fun v : Nat => .lit v (dumpType k)⟩

theorem exprList_dump {k : Nat} (hk : 1 ≤ k ∧ k ≤ 3) (vs : List Nat) (hv : ∀ v ∈ vs, v < 256 ^ k) (hne : vs ≠ [])
    (n : Nat) (hn : vs.length ≤ n) :
    exprList n (listTokens (dumpType k) vs ++ [.eol]) = .ok (vs.map fun v : Nat => .lit v (dumpType k), [.eol]) := by
  induction vs generalizing n with
  | nil => exact absurd rfl hne
  | cons v vs ih =>
    cases n with
    | zero => simp at hn
    | succ n =>
      have hc := castTo_dump hk (hv v (by simp))
      cases vs with
      | nil =>
        simp only [listTokens, List.cons_append, List.nil_append, exprList]
        rw [expression_lit v (dumpType k) .eol [] (by unfold Follow; decide)]
        simp [atEnd, front, isEnd, Expr.mkLit, hc]
      | cons w ws =>
        simp only [listTokens, List.cons_append, exprList]
        rw [expression_lit v (dumpType k) (tok ',') _ (by unfold Follow; decide)]
        have ih := ih (fun v h => hv v (by simp at h ⊢; tauto)) (by simp) n (by simpa using hn)
        have hat : atEnd (tok ',' :: (listTokens (dumpType k) (w :: ws) ++ [.eol])) = .ok false := rfl
        have hco : consume ',' (tok ',' :: (listTokens (dumpType k) (w :: ws) ++ [.eol])) =
          .ok (listTokens (dumpType k) (w :: ws) ++ [.eol]) := rfl
        simp only [Res.bind_ok, hat, hco, ih, Bool.false_eq_true, if_false, Expr.mkLit, hc, List.map_cons]

theorem dumpName_type (k : Nat) : (dumpName k).type = .list_arg := by
  unfold dumpName
  split
  · rfl
  · split <;> rfl

theorem listTokens_length (t : NumericType) (vs : List Nat) : vs.length ≤ (listTokens t vs).length := by
  induction vs with
  | nil => simp
  | cons v vs ih =>
    cases vs with
    | nil => simp [listTokens]
    | cons w ws => simp only [listTokens, List.length_cons] at ih ⊢; omega

theorem reads_line {k : Nat} (hk : 1 ≤ k ∧ k ≤ 3) (vs : List Nat) (hv : ∀ v ∈ vs, v < 256 ^ k) (hne : vs ≠ []) :
    ReadsAs (Dump.line k (vs.map (fun v : Nat => (v : Int)))) (dumpDirective k vs) := by
  refine ⟨_, lex_line hk vs hv, ?_⟩
  have hd : directive (dumpName k) (listTokens (dumpType k) vs ++ [.eol]) = .ok (dumpDirective k vs, [.eol]) := by
    unfold directive
    rw [dumpName_type]
    simp only
    rw [exprList_dump hk vs hv hne _ (by
      have := listTokens_length (dumpType k) vs
      rw [List.length_append]; omega)]
    rfl
  have hl : lineLabel (.dir (dumpName k) :: (listTokens (dumpType k) vs ++ [.eol])) =
    .ok (none, false, .dir (dumpName k) :: (listTokens (dumpType k) vs ++ [.eol])) := rfl
  have hst : lineStatement (.dir (dumpName k) :: (listTokens (dumpType k) vs ++ [.eol])) =
      .ok (some (.dir (dumpDirective k vs), [])) := by
    unfold lineStatement
    simp only [front, Res.bind_ok, isEnd, List.tail_cons, hd, atEnd]
    simp
  rw [List.cons_append, parse]
  generalize hN : (Token.dir (dumpName k) :: (listTokens (dumpType k) vs ++ [.eol])).length = N
  have hN1 : ∃ N', N = N' + 1 := by
    rw [← hN]; exact ⟨_, rfl⟩
  obtain ⟨N', rfl⟩ := hN1
  rw [parseLoop, if_neg (by simp), hl]
  simp only [Res.bind_ok, Option.map_none, Option.toList_none, Bool.false_eq_true, if_false, hst]
  simp [parseLoop]

theorem reads_org {start : Nat} (hs : start < 0x1000000) :
    ReadsAs (cs!".org $" ++ hexPadded 6 start) (orgDirective start .long) := by
  refine ⟨_, lex_org hs, ?_⟩
  have hc : NumericType.long.castTo (start : Int) = start := by simp only [NumericType.castTo]; omega
  have hd : directive .org [.lit start .long, .eol] = .ok (orgDirective start .long, [.eol]) := by
    unfold directive
    simp only [DirectiveName.type, directiveArg]
    rw [expression_lit _ _ _ _ (by unfold Follow; decide)]
    simp [Expr.mkLit, hc, Expr.requiresLookup, confirmAtEnd, atEnd, front, isEnd, orgDirective]
  have hst : lineStatement [.dir .org, .lit start .long, .eol] = .ok (some (.dir (orgDirective start .long), [])) := by
    unfold lineStatement
    simp only [front, Res.bind_ok, isEnd, List.tail_cons, hd, atEnd]
    simp
  have hl : lineLabel [.dir .org, .lit start .long, .eol] = .ok (none, false, [.dir .org, .lit start .long, .eol]) := rfl
  simp only [List.cons_append, List.nil_append, parse, List.length_cons, List.length_nil]
  rw [parseLoop, if_neg (by simp), hl]
  simp only [Res.bind_ok, Option.map_none, Option.toList_none, Bool.false_eq_true, if_false, hst]
  simp [parseLoop]

/-- The bytes of a value. -/
def dumpBytes (k v : Nat) : List UInt8 := Directive.encodeValue (dumpName k) v

theorem dumpBytes_length {k : Nat} (hk : 1 ≤ k ∧ k ≤ 3) (v : Nat) : (dumpBytes k v).length = k := by
  rcases (by omega : k = 1 ∨ k = 2 ∨ k = 3) with rfl | rfl | rfl <;> rfl

theorem encodeList_dump {k : Nat} (vs : List Nat) (ctx : Ctx) :
    Directive.encodeList (dumpName k) ctx (vs.map fun v : Nat => .lit v (dumpType k)) =
      .ok (vs.flatMap (dumpBytes k)) := by
  induction vs with
  | nil => rfl
  | cons v vs ih =>
    simp only [List.map_cons, Directive.encodeList, Expr.eval, Res.bind_ok, ih, List.flatMap_cons, dumpBytes]

theorem holds_dump {k : Nat} (hk : 1 ≤ k ∧ k ≤ 3) (vs : List Nat) (hne : vs ≠ []) :
    Holds (dumpDirective k vs) (vs.flatMap (dumpBytes k)) := by
  intro ctx
  have hlen : (vs.flatMap (dumpBytes k)).length = k * vs.length := by
    clear hne
    induction vs with
    | nil => rfl
    | cons v vs ih =>
      rw [List.flatMap_cons, List.length_append, ih, dumpBytes_length hk, List.length_cons, Nat.mul_succ]
      omega
  refine ⟨?_, ?_, ?_⟩
  · unfold Directive.assembleBytes
    rw [if_neg]
    · simp only [dumpDirective, encodeList_dump, Res.bind_ok]
    · simp only [dumpDirective, dumpName]
      split_ifs <;> decide
  · rw [hlen, Directive.serializedSize]
    simp only [dumpDirective, List.length_map]
    congr 1
    rcases (by omega : k = 1 ∨ k = 2 ∨ k = 3) with rfl | rfl | rfl <;> rfl
  · intro h
    have := congrArg List.length h
    rw [hlen] at this
    have h1 := List.length_pos_iff.2 hne
    have h2 : 0 < k * vs.length := Nat.mul_pos hk.1 h1
    simp at this
    omega

theorem plain_dump (k : Nat) (vs : List Nat) : Plain (dumpDirective k vs) ∧ (dumpDirective k vs).name ≠ .org := by
  simp only [dumpDirective, dumpName, Plain]
  split_ifs <;> simp

/-- The lines hold the values in order. -/
theorem lines_chunks {k p : Nat} (hp : 1 ≤ p) (n : Nat) (vs : List Int) {ls : List Str}
    (h : Dump.lines k p n vs = .ok ls) :
    ∃ chunks : List (List Int), chunks.flatten = vs ∧ (∀ c ∈ chunks, c ≠ []) ∧ ls = chunks.map (Dump.line k) := by
  induction n generalizing vs ls with
  | zero => simp [Dump.lines] at h
  | succ n ih =>
    rw [Dump.lines] at h
    split at h
    · rename_i hl
      obtain ⟨rest, h1, h2⟩ := Res.bind_eq_ok.mp h
      obtain ⟨chunks, c1, c2, c3⟩ := ih _ h1
      simp only [Res.ok.injEq] at h2
      refine ⟨vs.take p :: chunks, ?_, ?_, ?_⟩
      · rw [List.flatten_cons, c1, List.take_append_drop]
      · intro c hc
        rcases List.mem_cons.1 hc with rfl | hc
        · intro h0
          have := congrArg List.length h0
          rw [List.length_take, List.length_nil] at this
          omega
        · exact c2 c hc
      · rw [← h2, c3, List.map_cons]
    · split at h
      · rename_i hne
        simp only [Res.ok.injEq] at h
        exact ⟨[vs], by simp, by simpa using hne, by simp [← h]⟩
      · rename_i hne
        simp only [Res.ok.injEq] at h
        exact ⟨[], by simpa using (not_not.1 hne).symm, by simp, by simp [← h]⟩

/-- Enough rounds. -/
theorem lines_ok {k p : Nat} (hp : 1 ≤ p) (n : Nat) (vs : List Int) (hn : vs.length < n) :
    ∃ ls, Dump.lines k p n vs = .ok ls := by
  induction n generalizing vs with
  | zero => omega
  | succ n ih =>
    rw [Dump.lines]
    split
    · obtain ⟨ls, h⟩ := ih (vs.drop p) (by rw [List.length_drop]; omega)
      rw [h]; exact ⟨_, rfl⟩
    · split <;> exact ⟨_, rfl⟩

theorem byteOf_eq {v : Int} {b : UInt8} (h : v % 256 = b.toNat) : byteOf v = b := by
  apply UInt8.toNat_inj.1
  have := byteOf_toNat v
  omega

/-- One value is little-endian bytes of the ROM. -/
theorem value_bytes {rom : Rom} {k a : Nat} (hk : 1 ≤ k ∧ k ≤ 3) (ha : a < 0x1000000) {v : Int}
    (h : Dump.value rom k a = .ok v) :
    ∃ n : Nat, v = n ∧ n < 256 ^ k ∧ rom.read a k = .ok (dumpBytes k n) := by
  have hlen : ∀ n bs, n ≤ 3 → rom.read a (n : Nat) = .ok bs → bs.length = n := by
    intro n bs hn hr
    exact ((C29_read_partial rom ha (by omega) bs).1 hr).1
  rcases (by omega : k = 1 ∨ k = 2 ∨ k = 3) with rfl | rfl | rfl
  · simp only [Dump.value, Rom.readByte] at h
    rw [if_neg (by decide), if_neg (by decide)] at h
    obtain ⟨bs, hr, h⟩ := Res.bind_eq_ok.mp h
    have hl := hlen 1 bs (by omega) hr
    obtain ⟨b0, rfl⟩ := List.length_eq_one_iff.1 hl
    simp only [Res.ok.injEq] at h
    have hb := b0.toNat_lt
    refine ⟨b0.toNat, h.symm, by simpa using hb, ?_⟩
    rw [show ((1 : Nat) : Int) = 1 from rfl, hr]
    simp only [dumpBytes, dumpName, Directive.encodeValue]
    rw [byteOf_eq (b := b0) (by omega)]
    rfl
  · simp only [Dump.value, Rom.readWord] at h
    rw [if_pos trivial] at h
    obtain ⟨bs, hr, h⟩ := Res.bind_eq_ok.mp h
    have hl := hlen 2 bs (by omega) hr
    obtain ⟨b0, b1, rfl⟩ := List.length_eq_two.1 hl
    simp only [Res.ok.injEq] at h
    have hb := b0.toNat_lt
    have hb1 := b1.toNat_lt
    refine ⟨b0.toNat + b1.toNat * 256, h.symm, by omega, ?_⟩
    rw [show ((2 : Nat) : Int) = 2 from rfl, hr]
    simp only [dumpBytes, dumpName, Directive.encodeValue]
    rw [byteOf_eq (b := b0) (by omega), byteOf_eq (b := b1) (by omega)]
    rfl
  · simp only [Dump.value, Rom.readLong] at h
    rw [if_neg (by decide), if_pos trivial] at h
    obtain ⟨bs, hr, h⟩ := Res.bind_eq_ok.mp h
    have hl := hlen 3 bs (by omega) hr
    obtain ⟨b0, b1, b2, rfl⟩ := List.length_eq_three.1 hl
    simp only [Res.ok.injEq] at h
    have hb := b0.toNat_lt
    have hb1 := b1.toNat_lt
    have hb2 := b2.toNat_lt
    refine ⟨b0.toNat + b1.toNat * 256 + b2.toNat * 256 * 256, h.symm, by omega, ?_⟩
    rw [show ((3 : Nat) : Int) = 3 from rfl, hr]
    simp only [dumpBytes, dumpName, Directive.encodeValue]
    rw [byteOf_eq (b := b0) (by omega), byteOf_eq (b := b1) (by omega), byteOf_eq (b := b2) (by omega)]
    rfl

theorem byteAt_wrapped {rom : Rom} {a i j : Nat} {b : UInt8} :
    ByteAt rom (wrapped a i) j b ↔ ByteAt rom a (i + j) b := by
  unfold ByteAt
  have : wrapped a i / 0x10000 * 0x10000 + (wrapped a i + j) % 0x10000 =
      a / 0x10000 * 0x10000 + (a + (i + j)) % 0x10000 := by
    unfold wrapped; omega
  rw [this]

/-- The values are those of the bytes read one after the other. -/
theorem values_bytes {rom : Rom} {k a : Nat} (hk : 1 ≤ k ∧ k ≤ 3) (ha : a < 0x1000000) (n i : Nat) {vs : List Int}
    (h : Dump.values rom k n (wrapped a i) = .ok vs) :
    ∃ ns : List Nat, vs = ns.map (fun v : Nat => (v : Int)) ∧ ns.length = n ∧ (∀ v ∈ ns, v < 256 ^ k) ∧
      (ns.flatMap (dumpBytes k)).length = n * k ∧
      ∀ j (hj : j < (ns.flatMap (dumpBytes k)).length), ByteAt rom a (i + j) (ns.flatMap (dumpBytes k))[j] := by
  induction n generalizing i vs with
  | zero =>
    simp only [Dump.values, Res.ok.injEq] at h
    exact ⟨[], by simp [← h], rfl, by simp, by simp, by simp⟩
  | succ n ih =>
    rw [Dump.values] at h
    cases hv : Dump.value rom k (wrapped a i) with
    | err e => rw [hv] at h; simp at h
    | ub u => rw [hv] at h; simp at h
    | ok v =>
      rw [hv] at h
      simp only at h
      obtain ⟨vs', h1, h2⟩ := Res.bind_eq_ok.mp h
      simp only [Res.ok.injEq] at h2
      subst h2
      rw [addWrapped_wrapped (wrapped_lt ha), wrapped_add] at h1
      obtain ⟨ns, e1, e2, e3, e4, e5⟩ := ih (i + k) h1
      obtain ⟨m, f1, f2, f3⟩ := value_bytes hk (wrapped_lt ha) hv
      obtain ⟨g1, g2⟩ := (C29_read_partial rom (wrapped_lt ha) (by omega) _).1 f3
      refine ⟨m :: ns, by simp [f1, e1], by simp [e2], ?_, ?_, ?_⟩
      · intro v hv
        rcases List.mem_cons.1 hv with rfl | hv
        · exact f2
        · exact e3 v hv
      · rw [List.flatMap_cons, List.length_append, e4, dumpBytes_length hk, Nat.succ_mul]; omega
      · intro j hj
        simp only [List.flatMap_cons]
        by_cases hjk : j < k
        · rw [List.getElem_append_left (by omega)]
          exact byteAt_wrapped.1 (g2 j (by omega))
        · rw [List.getElem_append_right (by omega)]
          have := e5 (j - (dumpBytes k m).length) (by
            rw [List.flatMap_cons, List.length_append] at hj; omega)
          simp only [g1] at this ⊢
          rwa [show i + k + (j - k) = i + j by omega] at this

/-- A value can be read, or there is an error. -/
theorem value_cases {rom : Rom} {k a : Nat} (hk : 1 ≤ k ∧ k ≤ 3) (ha : a < 0x1000000) :
    (∃ v, Dump.value rom k a = .ok v) ∨
    ((∃ e, Dump.value rom k a = .err e) ∧ ¬ ∃ bs, rom.read a k = .ok bs) := by
  have hd := (C29_read_defined rom a k).1
  cases hr : rom.read a k with
  | ub u => rw [hr] at hd; simp at hd
  | err e =>
    right
    refine ⟨⟨e, ?_⟩, by rintro ⟨bs, h⟩; simp at h⟩
    rcases (by omega : k = 1 ∨ k = 2 ∨ k = 3) with rfl | rfl | rfl
    · simp only [Dump.value, Rom.readByte]
      rw [if_neg (by decide), if_neg (by decide)]
      rw [show ((1 : Nat) : Int) = 1 from rfl] at hr
      rw [hr]; rfl
    · simp only [Dump.value, Rom.readWord]
      rw [if_pos trivial]
      rw [show ((2 : Nat) : Int) = 2 from rfl] at hr
      rw [hr]; rfl
    · simp only [Dump.value, Rom.readLong]
      rw [if_neg (by decide), if_pos trivial]
      rw [show ((3 : Nat) : Int) = 3 from rfl] at hr
      rw [hr]; rfl
  | ok bs =>
    left
    have hl := ((C29_read_partial rom ha (by omega) bs).1 hr).1
    rcases (by omega : k = 1 ∨ k = 2 ∨ k = 3) with rfl | rfl | rfl
    · obtain ⟨b0, rfl⟩ := List.length_eq_one_iff.1 hl
      simp only [Dump.value, Rom.readByte]
      rw [if_neg (by decide), if_neg (by decide)]
      rw [show ((1 : Nat) : Int) = 1 from rfl] at hr
      rw [hr]; exact ⟨_, rfl⟩
    · obtain ⟨b0, b1, rfl⟩ := List.length_eq_two.1 hl
      simp only [Dump.value, Rom.readWord]
      rw [if_pos trivial]
      rw [show ((2 : Nat) : Int) = 2 from rfl] at hr
      rw [hr]; exact ⟨_, rfl⟩
    · obtain ⟨b0, b1, b2, rfl⟩ := List.length_eq_three.1 hl
      simp only [Dump.value, Rom.readLong]
      rw [if_neg (by decide), if_pos trivial]
      rw [show ((3 : Nat) : Int) = 3 from rfl] at hr
      rw [hr]; exact ⟨_, rfl⟩

theorem values_cases {rom : Rom} {k a : Nat} (hk : 1 ≤ k ∧ k ≤ 3) (ha : a < 0x1000000) (n i : Nat) :
    (∃ vs, Dump.values rom k n (wrapped a i) = .ok vs) ∨ Dump.values rom k n (wrapped a i) = .ub .assertFail := by
  induction n generalizing i with
  | zero => exact .inl ⟨[], rfl⟩
  | succ n ih =>
    rw [Dump.values]
    rcases value_cases (rom := rom) hk (wrapped_lt (i := i) ha) with ⟨v, hv⟩ | ⟨⟨e, hv⟩, -⟩
    · rw [hv]
      simp only
      rw [addWrapped_wrapped (wrapped_lt ha), wrapped_add]
      rcases ih (i + k) with ⟨vs, h⟩ | h
      · rw [h]; exact .inl ⟨_, rfl⟩
      · rw [h]; exact .inr rfl
    · rw [hv]; exact .inr rfl

theorem values_ok {rom : Rom} {k a : Nat} (hk : 1 ≤ k ∧ k ≤ 3) (ha : a < 0x1000000) (n i : Nat)
    (h : ∀ j < n * k, ∃ b, ByteAt rom a (i + j) b) : ∃ vs, Dump.values rom k n (wrapped a i) = .ok vs := by
  induction n generalizing i with
  | zero => exact ⟨[], rfl⟩
  | succ n ih =>
    rw [Dump.values]
    rw [Nat.succ_mul] at h
    rcases value_cases (rom := rom) hk (wrapped_lt (i := i) ha) with ⟨v, hv⟩ | ⟨-, hv⟩
    · rw [hv]
      simp only
      rw [addWrapped_wrapped (wrapped_lt ha), wrapped_add]
      obtain ⟨vs, hvs⟩ := ih (i + k) (by
        intro j hj
        have := h (k + j) (by omega)
        rwa [← Nat.add_assoc] at this)
      rw [hvs]; exact ⟨_, rfl⟩
    · refine absurd ?_ hv
      have hch : ∀ m ≤ k, ∃ bs : List UInt8, bs.length = m ∧ ∀ j (hj : j < bs.length), ByteAt rom (wrapped a i) j bs[j] := by
        intro m
        induction m with
        | zero => intro _; exact ⟨[], rfl, by simp⟩
        | succ m ihm =>
          intro hm
          obtain ⟨bs, b1, b2⟩ := ihm (by omega)
          obtain ⟨b, hb⟩ := h m (by omega)
          refine ⟨bs ++ [b], by simp [b1], ?_⟩
          intro j hj
          rw [List.length_append, List.length_singleton] at hj
          by_cases hjm : j < bs.length
          · rw [List.getElem_append_left hjm]; exact b2 j hjm
          · obtain rfl : j = m := by omega
            rw [List.getElem_append_right (by omega)]
            simpa using byteAt_wrapped.2 hb
      obtain ⟨bs, b1, b2⟩ := hch k (by omega)
      exact ⟨bs, (C29_read_partial rom (wrapped_lt ha) (by omega) bs).2 ⟨b1, b2⟩⟩

/-- What consecutive writes store. -/
theorem stored_chunks {start : Nat} (hs : start < 0x1000000) (bss : List (List UInt8)) (k : Nat) :
    stored (chunkWrites (wrapped start k) bss) =
      (bss.flatten.zipIdx k).map fun b => (wrapped start b.2, b.1) := by
  induction bss generalizing k with
  | nil => rfl
  | cons bs bss ih =>
    have hcons : ∀ (w : Addr × List UInt8) (ws : Writes), stored (w :: ws) =
        (w.2.zipIdx).map (fun b => (wrapped w.1 b.2, b.1)) ++ stored ws := fun _ _ => rfl
    have hstep : Address.addWrapped (wrapped start k) bs.length = wrapped start (k + bs.length) := by
      rw [addWrapped_wrapped (wrapped_lt hs), wrapped_add]
    rw [chunkWrites, hstep, hcons, List.flatten_cons,
      List.zipIdx_append, List.map_append, ih (k + bs.length)]
    have hz : ∀ (l : List UInt8) (i : Nat), (l.zipIdx i).map (fun b => (wrapped (wrapped start k) b.2, b.1)) =
        (l.zipIdx (k + i)).map (fun b => (wrapped start b.2, b.1)) := by
      intro l
      induction l with
      | nil => intro i; simp
      | cons b l ih =>
        intro i
        rw [List.zipIdx_cons, List.zipIdx_cons, List.map_cons, List.map_cons, ih (i + 1), wrapped_add,
          Nat.add_assoc]
    have hz0 := hz bs 0
    rw [Nat.add_zero] at hz0
    rw [hz0]

theorem feeds_recorder (ws ws' : Writes) : Feeds recorder ws' ws (ws' ++ ws) := by
  induction ws generalizing ws' with
  | nil => rw [List.append_nil]; exact .nil _
  | cons w ws ih =>
    obtain ⟨a, bs⟩ := w
    have := ih (ws' ++ [(a, bs)])
    rw [List.append_assoc] at this
    exact .cons rfl this

/-- The ROM accepts the bytes read from it. -/
theorem feeds_checker {rom : Rom} {start : Nat} (hs : start < 0x1000000) (bss : List (List UInt8)) (k : Nat)
    (hlen : bss.flatten.length ≤ 0x10000)
    (hb : ∀ j (hj : j < bss.flatten.length), ByteAt rom start (k + j) bss.flatten[j]) :
    Feeds (checker rom) () (chunkWrites (wrapped start k) bss) () := by
  induction bss generalizing k with
  | nil => exact .nil _
  | cons bs bss ih =>
    simp only [chunkWrites]
    rw [addWrapped_wrapped (wrapped_lt hs), wrapped_add]
    rw [List.flatten_cons, List.length_append] at hlen
    refine .cons (s' := ()) ?_ (ih (k + bs.length) (by omega) ?_)
    · simp only [checker]
      rw [((C30_identity_sink_partial rom (wrapped_lt hs) (by omega)).1).2]
      intro i hi
      rw [byteAt_wrapped]
      have := hb i (by rw [List.flatten_cons, List.length_append]; omega)
      simp only [List.flatten_cons] at this
      rwa [List.getElem_append_left hi] at this
    · intro j hj
      have := hb (bs.length + j) (by rw [List.flatten_cons, List.length_append]; omega)
      simp only [List.flatten_cons] at this
      rw [List.getElem_append_right (by omega)] at this
      simp only [Nat.add_sub_cancel_left] at this
      rwa [← Nat.add_assoc] at this

end Nsasm
