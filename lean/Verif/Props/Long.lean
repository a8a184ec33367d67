import Verif.Props.Dump
import Verif.Spec.Overwrite
import Verif.Props.Link
import Verif.Props.RomFile

/-!
# C29, C30, C31, C44, C62: reads, writes, sections and dumps of more than a bank
-/

namespace Nsasm.Props
open Nsasm Nsasm.Spec

/-! ## C29 -/

/-- **The bytes that a read returns are right**, whatever its length: the `i`-th is the one of the image at the `i`-th address.
Only the number of them may be wrong, for reads of more than 64 KiB (`C29_violated`): whole banks may be left out. -/
theorem C29_bytes_right (rom : Rom) {a : Nat} (ha : a < 0x1000000) {n : Nat} {bs : List UInt8} (h : rom.read a n = .ok bs) :
    (∀ i (hi : i < bs.length), ByteAt rom a i bs[i]) ∧
      (bs.length = n ∨ 0x10000 < n ∧ bs.length = (n - 1) % 0x10000 + 1) := by
  rcases Nat.lt_or_ge 0x10000 n with hn | hn
  · have hr := C29_read_partial rom ha (n := (n - 1) % 0x10000 + 1) (by omega) bs
    unfold Rom.read at h hr
    rw [if_neg (by omega), if_neg (by omega)] at h hr
    rw [show (((n - 1) % 0x10000 + 1 : Nat) : Int) - 1 = (((n - 1) % 0x10000 : Nat) : Int) by omega, wrappedStep ha,
      show (a + (n - 1) % 0x10000) % 0x10000 = (a + (n - 1)) % 0x10000 by omega] at hr
    rw [show ((n : Int) - 1) = ((n - 1 : Nat) : Int) by omega, wrappedStep ha] at h
    obtain ⟨f, hf, h⟩ := Res.bind_eq_ok.mp h
    obtain ⟨l, hl, h⟩ := Res.bind_eq_ok.mp h
    rw [hf, Res.bind_ok, hl, Res.bind_ok] at hr
    by_cases hlf : l > f
    · rw [if_pos hlf] at h hr
      obtain ⟨h1, h2⟩ := hr.mp h
      exact ⟨h2, .inr ⟨hn, h1⟩⟩
    · rw [if_neg hlf, readLoop_iff rom ha] at h
      obtain ⟨h1, h2⟩ := h
      exact ⟨by simpa using h2, .inl (by simpa using h1)⟩
  · obtain ⟨h1, h2⟩ := (C29_read_partial rom ha hn bs).mp h
    exact ⟨h2, .inl h1⟩

theorem sevens (n : Nat) : ∃ l : List UInt8, l.length = n ∧ ∀ i, i < n → l[i]? = some 7 :=
  ⟨List.replicate n 7, List.length_replicate, fun i hi => by rw [List.getElem?_replicate, if_pos hi]⟩

/-- A read that goes round a bank. -/
theorem read_round {D bs : List UInt8} (hD : ∀ i, i < 0x10000 → D[i]? = some 7) {n : Nat} (hn : n % 0x10000 = 1)
    (hb : bs.length = n) (hbs : ∀ i, i < n → bs[i]? = some 7) : Rom.read ⟨.hiRom, D⟩ 0xc00000 n = .ok bs := by
  unfold Rom.read
  rw [if_neg (by omega), if_neg (by omega)]
  have h1 : snesToRom 0xc00000 .hiRom = .ok 0 := by decide
  have h2 : Address.addWrapped 0xc00000 ((n : Int) - 1) = 0xc00000 := by unfold Address.addWrapped; omega
  simp only [h2, h1, Res.bind_ok]
  rw [if_neg (by omega), readLoop_iff _ (by decide)]
  refine ⟨by omega, fun j hj => ?_⟩
  have h7 : bs[j] = 7 := by
    have := hbs j (by omega)
    rw [List.getElem?_eq_getElem hj] at this
    exact Option.some.inj this
  rw [h7]
  refine ⟨(0xc00000 + (0 + j)) % 0x10000, ?_, hD _ (by omega)⟩
  unfold snesToRom Address.bankAddress Address.bank
  simp only
  rw [if_neg (by omega), if_neg (by omega)]
  congr 1
  omega

/-- Both cases occur: the read of `C29_violated`, which leaves a bank out, and one that goes round a whole bank. -/
example : Rom.read ⟨.hiRom, [5, 6]⟩ 0xc00000 0x10002 = .ok [5, 6] ∧
    ∃ (rom : Rom) (bs : List UInt8), rom.read 0xc00000 (0x10001 : Nat) = .ok bs ∧ bs.length = 0x10001 := by
  obtain ⟨D, -, hD⟩ := sevens 0x10000
  obtain ⟨bs, h1, h2⟩ := sevens 0x10001
  exact ⟨by decide, ⟨.hiRom, D⟩, bs, read_round hD (by omega) h1 h2, h1⟩

/-! ## C30 -/

/-- **What the identity sink accepts is in the ROM**, whatever the length of the write. -/
theorem C30_accepted_right (rom : Rom) {a : Nat} (ha : a < 0x1000000) {data : List UInt8}
    (h : rom.identityWrite a data = .ok ()) : ∀ i (hi : i < data.length), ByteAt rom a i data[i] := by
  unfold Rom.identityWrite at h
  obtain ⟨bs, hb, h⟩ := Res.bind_eq_ok.mp h
  split at h
  · next he => subst he; exact (C29_bytes_right rom ha hb).1
  · exact absurd h (compareLoop_not_ok _ _)

/-- The write of `C30_violated` is not accepted; one that goes round the whole bank is. -/
example : ∃ (rom : Rom) (data : List UInt8), 0x10000 < data.length ∧ rom.identityWrite 0xc00000 data = .ok () := by
  obtain ⟨D, -, hD⟩ := sevens 0x10000
  obtain ⟨bs, h1, h2⟩ := sevens 0x10001
  refine ⟨⟨.hiRom, D⟩, bs, by omega, ?_⟩
  unfold Rom.identityWrite
  rw [h1, read_round hD (by omega) h1 h2, Res.bind_ok, if_pos rfl]

/-! ## C31 -/

theorem overwrite_any (mode : Mapping) {a : Nat} (ha : a < 0x1000000) (data : List UInt8) (i : Nat) (buf : List UInt8) :
    (Rom.overwriteLoop mode a i buf data).1.length = buf.length ∧
    (∀ off, (∀ j < data.length, snesToRom (a / 0x10000 * 0x10000 + (a + (i + j)) % 0x10000) mode ≠ .ok off) →
      (Rom.overwriteLoop mode a i buf data).1[off]? = buf[off]?) ∧
    ((Rom.overwriteLoop mode a i buf data).2 = .ok () → ∀ j (h : j < data.length), data.length ≤ j + 0x10000 →
      ∃ off, snesToRom (a / 0x10000 * 0x10000 + (a + (i + j)) % 0x10000) mode = .ok off ∧
        (Rom.overwriteLoop mode a i buf data).1[off]? = some data[j]) ∧
    (((Rom.overwriteLoop mode a i buf data).2 = .ok () ∧ ∀ j < data.length, ∃ off < buf.length,
        snesToRom (a / 0x10000 * 0x10000 + (a + (i + j)) % 0x10000) mode = .ok off) ∨
     ∃ k < data.length, (∀ j < k, ∃ off < buf.length,
        snesToRom (a / 0x10000 * 0x10000 + (a + (i + j)) % 0x10000) mode = .ok off) ∧
      (Rom.overwriteLoop mode a i buf data).1 = (Rom.overwriteLoop mode a i buf (data.take k)).1 ∧
      StopsAt mode buf.length (a / 0x10000 * 0x10000 + (a + (i + k)) % 0x10000) (Rom.overwriteLoop mode a i buf data).2) := by
  induction data generalizing i buf with
  | nil => simp [Rom.overwriteLoop]
  | cons d ds ih =>
    by_cases hstop : ∃ r, Rom.overwriteLoop mode a i buf (d :: ds) = (buf, r) ∧ r ≠ .ok () ∧
        StopsAt mode buf.length (a / 0x10000 * 0x10000 + (a + i) % 0x10000) r
    · obtain ⟨r, h1, h2, h3⟩ := hstop
      rw [h1]
      exact ⟨rfl, fun _ _ => rfl, fun h => absurd h h2, .inr ⟨0, by simp, fun j hj => by omega, rfl, h3⟩⟩
    cases hs : snesToRom (a / 0x10000 * 0x10000 + (a + i) % 0x10000) mode with
    | err e => exact absurd ⟨.err e, by rw [Rom.overwriteLoop, wrappedStep ha, hs], by simp, .inl ⟨e, hs, rfl⟩⟩ hstop
    | ub u =>
      exfalso
      unfold snesToRom at hs
      cases mode <;> simp only at hs <;> split_ifs at hs
    | ok idx =>
      by_cases h1 : idx > buf.length
      · exact absurd ⟨.err .pastEndOfRom, by rw [Rom.overwriteLoop, wrappedStep ha, hs]; simp only; rw [if_pos h1], by simp,
          .inr (.inl ⟨idx, hs, h1, rfl⟩)⟩ hstop
      by_cases h2 : idx = buf.length
      · exact absurd ⟨.ub .outOfBounds, by rw [Rom.overwriteLoop, wrappedStep ha, hs]; simp only; rw [if_neg h1, if_pos h2], by simp,
          .inr (.inr ⟨by rw [hs, h2], rfl⟩)⟩ hstop
      have hlt : idx < buf.length := by omega
      have hstep : ∀ es, Rom.overwriteLoop mode a i buf (d :: es) = Rom.overwriteLoop mode a (i + 1) (buf.set idx d) es := by
        intro es
        rw [Rom.overwriteLoop, wrappedStep ha, hs]
        simp only
        rw [if_neg h1, if_neg h2]
      obtain ⟨i1, i2, i3, i4⟩ := ih (i + 1) (buf.set idx d)
      rw [List.length_set] at i1 i4
      have hsh : ∀ j, i + 1 + j = i + (j + 1) := fun j => by omega
      simp only [hsh] at i2 i3 i4
      rw [hstep]
      refine ⟨i1, ?_, ?_, ?_⟩
      · intro off hoff
        rw [i2 off fun j hj => hoff (j + 1) (by simpa using hj), List.getElem?_set_ne]
        rintro rfl
        exact hoff 0 (by simp) hs
      · intro hok j hj hl
        cases j with
        | zero =>
          refine ⟨idx, hs, ?_⟩
          rw [i2 idx ?_, List.getElem?_set_self hlt]
          · simp
          · intro j hj hj'
            simp only [List.length_cons] at hl
            have hsb := (same_bank (bank := a / 0x10000) (p := (a + i) % 0x10000)
              (q := (a + (i + (j + 1))) % 0x10000) (by omega) (by omega) (by omega) hs hj').1
            omega
        | succ j =>
          obtain ⟨off, o1, o2⟩ := i3 hok j (by simpa using hj) (by simp only [List.length_cons] at hl; omega)
          exact ⟨off, o1, by simpa using o2⟩
      · have hin : ∀ k, (∀ j < k, ∃ off < buf.length,
              snesToRom (a / 0x10000 * 0x10000 + (a + (i + (j + 1))) % 0x10000) mode = .ok off) →
            ∀ j < k + 1, ∃ off < buf.length, snesToRom (a / 0x10000 * 0x10000 + (a + (i + j)) % 0x10000) mode = .ok off := by
          intro k h j hj
          cases j with
          | zero => exact ⟨idx, hlt, hs⟩
          | succ j => exact h j (by omega)
        rcases i4 with ⟨j1, j2⟩ | ⟨k, hk, j1, j2, j3⟩
        · exact .inl ⟨j1, by simpa only [List.length_cons] using hin _ j2⟩
        · exact .inr ⟨k + 1, by simpa using hk, hin k j1, by rw [List.take_succ_cons, hstep]; exact j2, j3⟩

/-- **A write of any length**: it never changes the size nor a byte that is not addressed, even when it fails; it succeeds exactly
when every byte is mapped inside the image, and then the last byte written to each address is there. -/
theorem C31_write_any (mode : Mapping) {a : Nat} (ha : a < 0x1000000) (buf data : List UInt8) :
    (Rom.overwriterWrite mode buf a data).1.length = buf.length ∧
    (∀ off, (∀ j < data.length, snesToRom (a / 0x10000 * 0x10000 + (a + j) % 0x10000) mode ≠ .ok off) →
      (Rom.overwriterWrite mode buf a data).1[off]? = buf[off]?) ∧
    ((Rom.overwriterWrite mode buf a data).2 = .ok () ↔
      ∀ j < data.length, ∃ off < buf.length, snesToRom (a / 0x10000 * 0x10000 + (a + j) % 0x10000) mode = .ok off) ∧
    ((Rom.overwriterWrite mode buf a data).2 = .ok () → ∀ j (h : j < data.length), data.length ≤ j + 0x10000 →
      ByteAt ⟨mode, (Rom.overwriterWrite mode buf a data).1⟩ a j data[j]) := by
  obtain ⟨h1, h2, h3, h4⟩ := overwrite_any mode ha data 0 buf
  simp only [Nat.zero_add] at h2 h3 h4
  refine ⟨h1, h2, ?_, h3⟩
  rcases h4 with ⟨h4, h5⟩ | ⟨k, hk, -, -, h5⟩
  · exact ⟨fun _ => h5, fun _ => h4⟩
  · constructor
    · intro h
      change (Rom.overwriteLoop mode a 0 buf data).2 = _ at h
      rw [h] at h5
      rcases h5 with ⟨e, -, h5⟩ | ⟨off, -, -, h5⟩ | ⟨-, h5⟩ <;> cases h5
    · intro h
      obtain ⟨off, o1, o2⟩ := h k hk
      rcases h5 with ⟨e, h5, -⟩ | ⟨off', h5, h6, -⟩ | ⟨h5, -⟩ <;> rw [o2] at h5 <;> cases h5 <;> omega

/-- **A write that fails has written what comes before the byte it fails at**: that byte is not mapped, or is past the end of the
image; the error for the byte just past the end is missing (`C31_violated_bound`). -/
theorem C31_failure (mode : Mapping) {a : Nat} (ha : a < 0x1000000) (buf data : List UInt8)
    (h : (Rom.overwriterWrite mode buf a data).2 ≠ .ok ()) :
    ∃ k < data.length, Rom.overwriterWrite mode buf a (data.take k) = ((Rom.overwriterWrite mode buf a data).1, .ok ()) ∧
      StopsAt mode buf.length (a / 0x10000 * 0x10000 + (a + k) % 0x10000) (Rom.overwriterWrite mode buf a data).2 := by
  obtain ⟨-, -, -, h4⟩ := overwrite_any mode ha data 0 buf
  simp only [Nat.zero_add] at h4
  rcases h4 with ⟨h4, -⟩ | ⟨k, hk, h5, h6, h7⟩
  · exact absurd h4 h
  · refine ⟨k, hk, Prod.ext h6.symm ((C31_write_any mode ha buf (data.take k)).2.2.1.mpr fun j hj => h5 j ?_), h7⟩
    rw [List.length_take] at hj
    omega

/-- A write that stops at an address that is not mapped, after changing two bytes; one that goes past the end. -/
example : Rom.overwriterWrite .hiRom [1, 2, 3, 4] 0xc00001 [8, 9] = ([1, 8, 9, 4], .ok ()) ∧
    (Rom.overwriterWrite .hiRom [1, 2, 3, 4] 0xc00003 [8, 9, 10]) = ([1, 2, 3, 8], .ub .outOfBounds) ∧
    (Rom.overwriterWrite .hiRom [1, 2, 3, 4] 0xc00005 [8]) = ([1, 2, 3, 4], .err .pastEndOfRom) := by decide

/-! ## C44 -/

theorem pigeon {l : List Nat} (hn : l.Nodup) {b : Nat} (hb : ∀ x ∈ l, x / 0x10000 = b) : l.length ≤ 0x10000 := by
  have hmap : (l.map (· % 0x10000)).Nodup := by
    rw [List.nodup_map_iff_inj_on hn]
    intro x hx y hy h
    have h1 := hb x hx
    have h2 := hb y hy
    omega
  have hsub : (l.map (· % 0x10000)) ⊆ List.range 0x10000 := by
    intro x hx
    obtain ⟨y, -, rfl⟩ := List.mem_map.mp hx
    rw [List.mem_range]
    omega
  have := (hmap.subperm hsub).length_le
  simpa only [List.length_map, List.length_range] using this

theorem filled_length (ws : Writes) : (allFilled ws).length = (ws.map (·.2.length)).sum := by
  induction ws with
  | nil => rfl
  | cons w ws ih =>
    unfold allFilled at ih ⊢
    rw [List.flatMap_cons, List.length_append, ih]
    simp [filled]

theorem line_filled {ctx : Line → Ctx} {ls : List Line} {ws : List Writes}
    (h : List.Forall₂ (fun l w => LineWrites (ctx l) l w) ls ws) :
    (allFilled ws.flatten).length = (ls.map fun l => l.statement.serializedSize).sum := by
  induction h with
  | nil => rfl
  | @cons l w ls ws h1 _ ih =>
    have : allFilled (w :: ws).flatten = allFilled w ++ allFilled ws.flatten := by
      unfold allFilled; rw [List.flatten_cons, List.flatMap_append]
    rw [this, List.length_append, ih, List.map_cons, List.sum_cons]
    congr 1
    rcases h1 with ⟨h1, rfl⟩ | ⟨a, bs, -, -, h2, -, rfl⟩
    · rw [h1]; rfl
    · rw [filled_length]; simp [h2]

theorem forall2_slice {α β : Type} {R : α → β → Prop} {l : List α} {k : List β} (h : List.Forall₂ R l k) (n o : Nat) :
    List.Forall₂ R ((l.take n).drop o) ((k.take n).drop o) := by
  have h1 : ∀ {l : List α} {k : List β}, List.Forall₂ R l k → ∀ n, List.Forall₂ R (l.take n) (k.take n) := by
    intro l k h
    induction h with
    | nil => intro n; simp
    | cons hx _ ih => intro n; cases n with
      | zero => simp
      | succ n => simpa using ⟨hx, ih n⟩
  have h2 : ∀ {l : List α} {k : List β}, List.Forall₂ R l k → ∀ n, List.Forall₂ R (l.drop n) (k.drop n) := by
    intro l k h
    induction h with
    | nil => intro n; simp
    | cons hx ht ih => intro n; cases n with
      | zero => simpa using ⟨hx, ht⟩
      | succ n => simpa using ih n
  exact h2 (h1 h n) o

theorem flatMap_sublist {α β : Type} (f : α → List β) {l k : List α} (h : l.Sublist k) : (l.flatMap f).Sublist (k.flatMap f) := by
  induction h with
  | slnil => exact .refl _
  | cons x _ ih => rw [List.flatMap_cons]; exact ih.trans (List.sublist_append_right _ _)
  | cons_cons x _ ih => rw [List.flatMap_cons, List.flatMap_cons]; exact (List.Sublist.refl _).append ih

/-- **What follows an origin fits into a bank**: if the assembly succeeds, the statements from an `.org` to before the next take at
most 64 KiB.  (Their addresses wrap in the bank, so more of them would be written twice.) -/
theorem C44_section_fits {σ : Type} {fuel : Nat} {files : List (List Str)} {sink : Sink σ} {s s' : σ} {a : Assembler}
    (h : Assembler.assembleFiles fuel files sink s = (s', .ok a)) {i : Nat} {m : Module} (hm : a.modules[i]? = some m)
    {k o : Nat} {v : Int} (ho : LastOrigin m.lines k o v) (hv : v < 0x1000000) :
    bytesBetween m.lines o (k + 1) ≤ 0x10000 := by
  obtain ⟨order, wss, hA⟩ := assembled h
  have hi : i ∈ order := by
    rw [hA.perm.mem_iff, List.mem_range, ← hA.length]
    exact (List.getElem?_eq_some_iff.mp hm).1
  obtain ⟨j, hj⟩ := List.mem_iff_getElem?.mp hi
  obtain ⟨ws, hws, m', hm', hlw⟩ : ∃ ws, wss[j]? = some ws ∧ ∃ m', a.modules[i]? = some m' ∧
      List.Forall₂ (fun l w => LineWrites (m'.lookup l.scopes (Assembler.lookup a.modules a.names)) l w) m'.lines ws := by
    have hl := hA.writes.length_eq
    have hjl := (List.getElem?_eq_some_iff.mp hj).1
    obtain ⟨x, hx, hr⟩ := forall2_getElem? hA.writes (List.getElem?_eq_getElem (show j < wss.length by omega))
    rw [hj] at hx
    cases hx
    exact ⟨_, List.getElem?_eq_getElem _, hr⟩
  rw [hm] at hm'
  cases hm'
  have hslice := forall2_slice hlw (k + 1) o
  have hlen := line_filled (ctx := fun l => m.lookup l.scopes (Assembler.lookup a.modules a.names)) hslice
  unfold bytesBetween
  rw [← hlen]
  refine pigeon (b := (v / 0x10000).toNat) ?_ ?_
  · have hnd := hA.claims.nodup
    have hsub : List.Sublist ((ws.take (k + 1)).drop o).flatten wss.flatten.flatten := by
      have h1 : List.Sublist ((ws.take (k + 1)).drop o) wss.flatten :=
        ((List.drop_sublist _ _).trans (List.take_sublist _ _)).trans (List.sublist_flatten_of_mem (List.mem_of_getElem? hws))
      simpa only [List.flatMap_id] using flatMap_sublist id h1
    exact (flatMap_sublist filled hsub).nodup hnd
  · intro x hx
    unfold allFilled at hx
    obtain ⟨w, hw, hx⟩ := List.mem_flatMap.mp hx
    obtain ⟨W, hW, hw⟩ := List.mem_flatten.mp hw
    obtain ⟨q, hq⟩ := List.mem_iff_getElem?.mp hW
    obtain ⟨l, hl, hlw'⟩ := forall2_getElem? hslice hq
    rcases hlw' with ⟨-, rfl⟩ | ⟨b, bs, hval, -, hsz, hne, rfl⟩
    · cases hw
    · obtain rfl := List.mem_singleton.mp hw
      rw [List.getElem?_drop] at hl
      have hlt : o + q < k + 1 := by
        have := (List.getElem?_eq_some_iff.mp hl).1
        simp only [List.length_take] at this
        omega
      rw [List.getElem?_take, if_pos hlt] at hl
      obtain ⟨externs, -, -, hval'⟩ := C57_values h
      obtain ⟨file, items, -, -, -, hline⟩ := hval' i m hm
      have hplace := (hline (o + q) l hl).2.1 o v ⟨by omega, ho.2.1, fun k' l' h1 h2 => ho.2.2 k' l' h1 (by omega)⟩ hv (by
        rintro ⟨d, hd, he⟩
        rw [hd] at hsz
        simp only [Statement.serializedSize, Directive.serializedSize, he, Nat.zero_mul] at hsz
        exact hne (List.length_eq_zero_iff.mp hsz))
      rw [hval] at hplace
      simp only [Option.some.injEq] at hplace
      unfold filled at hx
      obtain ⟨p, -, rfl⟩ := List.mem_map.mp hx
      unfold wrapped
      unfold place at hplace
      simp only
      omega

/-- A section that goes round its bank. -/
example : ∃ ws a m, Assembler.assembleFiles 30 [[cs!" .org $80fffe", cs!" .dl 1, 2", cs!" .db 3"]] recorder [] = (ws, .ok a) ∧
    a.modules[0]? = some m ∧ LastOrigin m.lines 2 0 0x80fffe ∧ bytesBetween m.lines 0 3 = 7 := by
  obtain ⟨ws, a, h, hc⟩ := assembles_of_check (fuel := 30) (files := [[cs!" .org $80fffe", cs!" .dl 1, 2", cs!" .db 3"]])
    (fun ws a => match a.modules with
      | [m] => (match m.lines with
        | [l0, l1, l2] =>
          (match l0.statement, l1.statement, l2.statement with
          | .dir d0, .dir d1, .dir d2 => decide (d0 = orgDirective 0x80fffe .long) && decide (d1.name = .dl) && decide (d2.name = .db)
              && decide (bytesBetween [l0, l1, l2] 0 3 = 7)
          | _, _, _ => false)
        | _ => false)
      | _ => false) (by decide +kernel)
  refine ⟨ws, a, ?_⟩
  split at hc
  · next m hm =>
    refine ⟨m, h, by rw [hm]; rfl, ?_⟩
    split at hc
    · next l0 l1 l2 hl =>
      split at hc
      · next d0 d1 d2 e0 e1 e2 =>
        simp only [Bool.and_eq_true, decide_eq_true_eq] at hc
        obtain ⟨⟨⟨rfl, c1⟩, c2⟩, c3⟩ := hc
        rw [hl]
        refine ⟨⟨by omega, ⟨l0, rfl, _, e0, rfl, rfl⟩, ?_⟩, c3⟩
        rintro k l h1 h2 hk ⟨d, hd, ho⟩
        obtain rfl | rfl : k = 1 ∨ k = 2 := by omega
        · simp only [List.getElem?_cons_succ, List.getElem?_cons_zero, Option.some.injEq] at hk
          subst hk
          rw [e1] at hd
          cases hd
          rw [c1] at ho
          cases ho
        · simp only [List.getElem?_cons_succ, List.getElem?_cons_zero, Option.some.injEq] at hk
          subst hk
          rw [e2] at hd
          cases hd
          rw [c2] at ho
          cases ho
      · cases hc
    · cases hc
  · cases hc

/-! ## C61 -/

/-- **Exactly which bytes of an image of any size can be read**: in an extended image those of the second 4 MiB, in any other those of
the first. -/
theorem C61_readable_iff {rom : Rom} {off : Nat} : Readable rom off ↔
    off < rom.data.length ∧ (rom.mapping ≠ .exHiRom → off < 4194304) ∧
      (rom.mapping = .exHiRom → 4194304 ≤ off ∧ off < 8388608) := by
  constructor
  · rintro ⟨a, b, ha, hs, hb, -⟩
    refine ⟨(List.getElem?_eq_some_iff.mp hb).1, fun hm => ?_, fun hm => ?_⟩
    · have := (C27_offset ha hm hs).2
      revert this hm
      cases rom.mapping <;> simp [capacity]
    · rw [hm] at hs
      unfold snesToRom Address.bank Address.bankAddress at hs
      simp only at hs
      split_ifs at hs <;> simp only [Res.ok.injEq] at hs <;> omega
  · rintro ⟨h, h1, h2⟩
    by_cases hm : rom.mapping = .exHiRom
    · obtain ⟨h2, h3⟩ := h2 hm
      have ha : 0x800000 + off < 0x1000000 := by omega
      have hs : snesToRom (0x800000 + off) rom.mapping = .ok off := by
        rw [hm]
        unfold snesToRom Address.bank Address.bankAddress
        simp only
        rw [if_neg (by omega), if_neg (by omega), if_pos (by omega)]
        congr 1
        omega
      refine ⟨0x800000 + off, rom.data[off], ha, hs, List.getElem?_eq_getElem h, ?_⟩
      refine (C29_read_partial rom ha (n := 1) (by omega) [rom.data[off]]).2 ⟨rfl, fun i hi => ?_⟩
      simp only [List.length_singleton] at hi
      obtain rfl : i = 0 := by omega
      refine ⟨off, ?_, List.getElem?_eq_getElem h⟩
      rw [← hs]
      congr 1
      omega
    · have hlo := h1 hm
      obtain ⟨a, b, ha, hs, hb, hr⟩ := C61_all_readable_partial (rom := ⟨rom.mapping, rom.data.take 4194304⟩) hm
        (by simp only [List.length_take]; omega) (off := off) (by simp only [List.length_take]; omega)
      simp only at hs hb
      rw [List.getElem?_take_of_lt hlo] at hb
      refine ⟨a, b, ha, hs, hb, (C29_read_partial rom ha (n := 1) (by omega) [b]).2 ⟨rfl, fun i hi => ?_⟩⟩
      simp only [List.length_singleton] at hi
      obtain rfl : i = 0 := by omega
      refine ⟨off, ?_, hb⟩
      rw [← hs]
      congr 1
      omega

/-- A byte of an extended image that can be read, and one that cannot. -/
example : ∃ rom : Rom, Readable rom 4194304 ∧ ¬ Readable rom 0 := by
  obtain ⟨D, hD, -⟩ := sevens 4194305
  refine ⟨⟨.exHiRom, D⟩, C61_readable_iff.mpr ⟨by simp only [hD]; omega, by simp, by simp⟩, ?_⟩
  rw [C61_readable_iff]
  simp

/-! ## C62 -/

theorem reads_program {texts : List Str} {ds : List Directive} (h : List.Forall₂ ReadsAs texts ds) :
    ∃ items, FileItems texts items ∧ program [] items = ds.map fun d => ⟨[], .dir d⟩ := by
  refine ⟨(ds.map fun d => [Item.stmt (.dir d)]).flatten, ⟨_, ?_, rfl⟩, ?_⟩
  · rw [List.forall₂_map_right_iff]
    exact h
  · clear h
    induction ds with
    | nil => rfl
    | cons d ds ih => simpa [program] using ih

theorem sizes_sum {ds : List Directive} {bss : List (List UInt8)} (h : List.Forall₂ Nsasm.Holds ds bss) :
    (ds.map Directive.serializedSize).sum = bss.flatten.length := by
  induction h with
  | nil => rfl
  | cons h1 _ ih => rw [List.map_cons, List.sum_cons, ih, List.flatten_cons, List.length_append, (h1 nullCtx).2.1]

/-- A dump of more than 64 KiB repeats addresses, and is not accepted by the assembler. -/
theorem C62_long_refused {rom : Rom} {start : Nat} {count stride perLine : Int} {lines : List Str} (hs : start < 0x1000000)
    {n : Nat} (hn : n = (max count 1).toNat * bytesPerValue stride) (hn' : 0x10000 < n)
    (h : Dump.output rom start count stride perLine = .ok lines) {σ : Type} (fuel : Nat) (sink : Sink σ) (s s' : σ)
    (a : Assembler) : Assembler.assembleFiles fuel [lines] sink s ≠ (s', .ok a) := by
  intro hasm
  obtain ⟨ls, ds, bss, rfl, hr, hpl, hh, hlen, -⟩ := dump_parts hs hn h
  obtain ⟨items, hF, hp⟩ := reads_program (List.Forall₂.cons (reads_org hs) hr)
  obtain ⟨externs, -, hl, hval⟩ := C57_values hasm
  obtain ⟨m, hm⟩ : ∃ m, a.modules[0]? = some m := ⟨_, List.getElem?_eq_getElem (by rw [hl]; simp)⟩
  obtain ⟨file, items', hf, hF', hlines, hline⟩ := hval 0 m hm
  simp only [List.getElem?_cons_zero, Option.some.injEq] at hf
  subst hf
  rw [← fileItems_unique hF hF', hp] at hlines
  simp only [← fileItems_unique hF hF', hp] at hline
  have hst : ∀ (k : Nat) (l : Line), m.lines[k]? = some l → ∃ d, (orgDirective start .long :: ds)[k]? = some d ∧ l.statement = .dir d := by
    intro k l hk
    obtain ⟨-, -, pl, h1, h2⟩ := hline k l hk
    rw [List.getElem?_map] at h1
    obtain ⟨d, hd, rfl⟩ := Option.map_eq_some_iff.mp h1
    exact ⟨d, hd, h2⟩
  have hfits := C44_section_fits hasm hm (k := ds.length) (o := 0) (v := start) ⟨Nat.zero_le _, ?_, ?_⟩ (by omega)
  · unfold bytesBetween at hfits
    have hall : m.lines.map (fun l => l.statement.serializedSize) = (orgDirective start .long :: ds).map Directive.serializedSize := by
      apply List.ext_getElem?
      intro k
      rw [List.getElem?_map, List.getElem?_map]
      cases hk : m.lines[k]? with
      | none =>
        rw [List.getElem?_eq_none_iff] at hk
        rw [List.getElem?_eq_none (by simp only [List.length_map] at hlines; omega)]
        rfl
      | some l =>
        obtain ⟨d, h1, h2⟩ := hst k l hk
        rw [h1]
        simp only [Option.map_some, h2, Statement.serializedSize]
    rw [List.drop_zero, List.take_of_length_le (by rw [hlines]; simp), hall, List.map_cons, List.sum_cons, sizes_sum hh, hlen] at hfits
    omega
  · obtain ⟨l, hl0⟩ : ∃ l, m.lines[0]? = some l := ⟨_, List.getElem?_eq_getElem (by rw [hlines]; simp)⟩
    obtain ⟨d, h1, h2⟩ := hst 0 l hl0
    simp only [List.getElem?_cons_zero, Option.some.injEq] at h1
    subst h1
    exact ⟨l, hl0, _, h2, rfl, rfl⟩
  · rintro k l hk - hl' ⟨d, hd, ho⟩
    obtain ⟨d', h1, h2⟩ := hst k l hl'
    obtain ⟨k', rfl⟩ : ∃ k', k = k' + 1 := ⟨k - 1, by omega⟩
    rw [List.getElem?_cons_succ] at h1
    rw [h2] at hd
    cases hd
    exact (hpl d (List.mem_of_getElem? h1)).2 ho

/-- Such dumps can be printed. -/
example : ∃ rom lines, Dump.output rom 0xc00000 0x10001 1 8 = .ok lines := by
  obtain ⟨D, -, hD⟩ := sevens 0x10000
  refine ⟨⟨.hiRom, D⟩, (C62_prints_iff (by omega) rfl).1.mpr fun j hj => ⟨7, (0xc00000 + j) % 0x10000, ?_, hD _ (by omega)⟩⟩
  unfold snesToRom Address.bankAddress Address.bank
  simp only
  rw [if_neg (by omega), if_neg (by omega)]
  congr 1
  omega

/-- **A dump is accepted exactly when it has at most 64 KiB.** -/
theorem C62_accepted_iff {rom : Rom} {start : Nat} {count stride perLine : Int} {lines : List Str} (hs : start < 0x1000000)
    (h : Dump.output rom start count stride perLine = .ok lines) :
    (∃ fuel ws a, Assembler.assembleFiles fuel [lines] recorder [] = (ws, .ok a)) ↔
      (max count 1).toNat * bytesPerValue stride ≤ 0x10000 := by
  constructor
  · rintro ⟨fuel, ws, a, hasm⟩
    by_contra hc
    exact C62_long_refused hs rfl (by omega) h fuel _ _ _ _ hasm
  · intro hn
    obtain ⟨bs, -, -, ⟨ws, a, h1, -⟩, -⟩ := C62_dump_assembles_partial hs rfl hn h 0
    exact ⟨_, ws, a, h1⟩

end Nsasm.Props
