import Verif.Lemmas.Dump

/-!
# C62: a dump of a ROM assembles to the ROM

The specification is `Verif/Spec/Dump.lean`.
-/

namespace Nsasm.Props
open Nsasm Nsasm.Spec

/-- What a dump consists of: an origin, then lines of data with the bytes of the ROM. -/
theorem dump_parts {rom : Rom} {start : Nat} {count stride perLine : Int} {lines : List Str}
    (hs : start < 0x1000000) {n : Nat} (hn : n = (max count 1).toNat * bytesPerValue stride)
    (h : Dump.output rom start count stride perLine = .ok lines) :
    ∃ (ls : List Str) (ds : List Directive) (bss : List (List UInt8)), lines = (cs!".org $" ++ hexPadded 6 start) :: ls ∧
      List.Forall₂ ReadsAs ls ds ∧ (∀ d ∈ ds, Plain d ∧ d.name ≠ .org) ∧ List.Forall₂ Holds ds bss ∧ bss.flatten.length = n ∧
      ∀ j (hj : j < bss.flatten.length), ByteAt rom start j bss.flatten[j] := by
  unfold Dump.output at h
  simp only at h
  have hk : (if stride > 3 ∨ stride < 2 then 1 else stride.toNat) = bytesPerValue stride := by
    unfold bytesPerValue
    split_ifs <;> omega
  have hc : (if count < 1 then 1 else count.toNat) = (max count 1).toNat := by
    split_ifs <;> omega
  rw [hk, hc, if_pos (by omega), Res.bind_ok] at h
  have hp : 1 ≤ (if perLine < 1 then 1 else perLine.toNat) := by split_ifs <;> omega
  generalize (if perLine < 1 then 1 else perLine.toNat) = p at h hp
  have hk3 : 1 ≤ bytesPerValue stride ∧ bytesPerValue stride ≤ 3 := by
    unfold bytesPerValue; split_ifs <;> omega
  generalize hK : bytesPerValue stride = k at *
  obtain ⟨vs, h1, h⟩ := Res.bind_eq_ok.mp h
  obtain ⟨ls, h2, h⟩ := Res.bind_eq_ok.mp h
  simp only [Res.ok.injEq] at h
  have hw : wrapped start 0 = start := by unfold wrapped; omega
  rw [← hw] at h1
  obtain ⟨ns, e1, e2, e3, e4, e5⟩ := values_bytes hk3 hs _ 0 h1
  obtain ⟨chunks, c1, c2, c3⟩ := lines_chunks hp _ _ h2
  -- the chunks as natural numbers
  have hex : ∃ ncs : List (List Nat), chunks = ncs.map (List.map fun v : Nat => (v : Int)) ∧ ncs.flatten = ns := by
    refine ⟨chunks.map (List.map Int.toNat), ?_, ?_⟩
    · rw [List.map_map]
      symm
      have : ∀ c ∈ chunks, ((List.map fun v : Nat => (v : Int)) ∘ (List.map Int.toNat)) c = c := by
        intro c hc
        simp only [Function.comp, List.map_map]
        have : ∀ v ∈ c, ((fun v : Nat => (v : Int)) ∘ Int.toNat) v = v := by
          intro v hv
          have hv' : v ∈ vs := by rw [← c1]; exact List.mem_flatten.2 ⟨c, hc, hv⟩
          rw [e1] at hv'
          obtain ⟨m, -, rfl⟩ := List.mem_map.1 hv'
          simp
        rw [List.map_congr_left this]; simp
      rw [List.map_congr_left this]; simp
    · rw [← List.map_flatten, c1, e1, List.map_map]
      have : (Int.toNat ∘ fun v : Nat => (v : Int)) = id := by funext v; simp
      rw [this]; simp
  obtain ⟨ncs, d1, d2⟩ := hex
  have hne : ∀ c ∈ ncs, c ≠ [] := by
    intro c hc h0
    refine c2 (c.map fun v : Nat => (v : Int)) ?_ (by simp [h0])
    rw [d1]; exact List.mem_map.2 ⟨c, hc, rfl⟩
  have hsmall : ∀ c ∈ ncs, ∀ v ∈ c, v < 256 ^ k := by
    intro c hc v hv
    exact e3 v (by rw [← d2]; exact List.mem_flatten.2 ⟨c, hc, hv⟩)
  -- the file
  have hr : List.Forall₂ ReadsAs ls (ncs.map (dumpDirective k)) := by
    rw [c3, d1, List.map_map, List.forall₂_map_left_iff, List.forall₂_map_right_iff]
    exact List.forall₂_same.2 fun c hc => reads_line hk3 c (hsmall c hc) (hne c hc)
  have hh : List.Forall₂ Holds (ncs.map (dumpDirective k)) (ncs.map (List.flatMap (dumpBytes k))) := by
    rw [List.forall₂_map_left_iff, List.forall₂_map_right_iff]
    exact List.forall₂_same.2 fun c hc => holds_dump hk3 c (hne c hc)
  have hpl : ∀ d ∈ ncs.map (dumpDirective k), Plain d ∧ d.name ≠ .org := by
    intro d hd
    obtain ⟨c, -, rfl⟩ := List.mem_map.1 hd
    exact plain_dump k c
  have hflat : (ncs.map (List.flatMap (dumpBytes k))).flatten = ns.flatMap (dumpBytes k) := by
    rw [← d2, List.flatMap_def, List.map_flatten, List.flatten_flatten, List.map_map]
    rfl
  have hlen : (ncs.map (List.flatMap (dumpBytes k))).flatten.length = n := by
    rw [hflat, e4, hn]
  refine ⟨ls, _, _, h.symm, hr, hpl, hh, hlen, ?_⟩
  rw [hflat]
  intro j hj
  have := e5 j hj
  rwa [Nat.zero_add] at this

/-- The dump of at most 64 KiB, assembled, stores exactly the bytes of the ROM at the addresses dumped, in
order, and occupies exactly those addresses; assembled against the ROM it is accepted.  Missing: longer
dumps, which wrap inside the bank and repeat addresses. -/
theorem C62_dump_assembles_partial {rom : Rom} {start : Nat} {count stride perLine : Int} {lines : List Str}
    (hs : start < 0x1000000) {n : Nat} (hn : n = (max count 1).toNat * bytesPerValue stride) (hn' : n ≤ 0x10000)
    (h : Dump.output rom start count stride perLine = .ok lines) (fuel : Nat) :
    ∃ bs : List UInt8, rom.read start n = .ok bs ∧ bs.length = n ∧
      (∃ ws a, Assembler.assembleFiles (fuel + 1) [lines] recorder [] = (ws, .ok a) ∧
        stored ws = bs.zipIdx.map (fun b => (wrapped start b.2, b.1)) ∧
        ∀ x, a.contains x = true ↔ ∃ i < n, x = wrapped start i) ∧
      ∃ a, Assembler.assembleFiles (fuel + 1) [lines] (checker rom) () = ((), .ok a) := by
  obtain ⟨ls, ds, bss, rfl, hr, hpl, hh, hlen, hbytes⟩ := dump_parts hs hn h
  have hw : wrapped start 0 = start := by unfold wrapped; omega
  refine ⟨bss.flatten, (C29_read_partial rom hs hn' _).2 ⟨hlen, hbytes⟩, hlen, ?_, ?_⟩
  · have hf := feeds_recorder (chunkWrites start bss) []
    obtain ⟨a, a1, a2⟩ := data_file hs (reads_org hs) hr hpl hh (by omega) hf fuel
    refine ⟨_, a, a1, ?_, ?_⟩
    · have := stored_chunks hs bss 0
      rw [hw] at this
      exact this
    · intro x; rw [a2 x, hlen]
  · have hf := feeds_checker hs bss 0 (by omega) (fun j hj => by rw [Nat.zero_add]; exact hbytes j hj)
    rw [hw] at hf
    obtain ⟨a, a1, -⟩ := data_file hs (reads_org hs) hr hpl hh (by omega) hf fuel
    exact ⟨a, a1⟩

/-- A dump, of any length, prints something exactly when every byte of it is in the ROM; otherwise the program ends by an exception
instead of printing the error. -/
theorem C62_prints_iff {rom : Rom} {start : Nat} {count stride perLine : Int} (hs : start < 0x1000000) {n : Nat}
    (hn : n = (max count 1).toNat * bytesPerValue stride) :
    ((∃ lines, Dump.output rom start count stride perLine = .ok lines) ↔ ∀ j < n, ∃ b, ByteAt rom start j b) ∧
    (¬ (∀ j < n, ∃ b, ByteAt rom start j b) → Dump.output rom start count stride perLine = .ub .assertFail) := by
  have hfwd : (∃ lines, Dump.output rom start count stride perLine = .ok lines) → ∀ j < n, ∃ b, ByteAt rom start j b := by
    rintro ⟨lines, h⟩ j hj
    obtain ⟨ls, ds, bss, -, -, -, -, hlen, hbytes⟩ := dump_parts hs hn h
    exact ⟨_, hbytes j (by omega)⟩
  have hk : (if stride > 3 ∨ stride < 2 then 1 else stride.toNat) = bytesPerValue stride := by
    unfold bytesPerValue
    split_ifs <;> omega
  have hc : (if count < 1 then 1 else count.toNat) = (max count 1).toNat := by
    split_ifs <;> omega
  have hp : 1 ≤ (if perLine < 1 then 1 else perLine.toNat) := by split_ifs <;> omega
  have hk3 : 1 ≤ bytesPerValue stride ∧ bytesPerValue stride ≤ 3 := by
    unfold bytesPerValue; split_ifs <;> omega
  have hw : wrapped start 0 = start := by unfold wrapped; omega
  have hout : Dump.output rom start count stride perLine = (do
      let vs ← Dump.values rom (bytesPerValue stride) (max count 1).toNat (wrapped start 0)
      let ls ← Dump.lines (bytesPerValue stride) (if perLine < 1 then 1 else perLine.toNat) (vs.length + 1) vs
      .ok ((cs!".org $" ++ hexPadded 6 start) :: ls)) := by
    unfold Dump.output
    simp only
    rw [hk, hc, if_pos (by omega), Res.bind_ok, hw]
  have hok : ∀ vs, Dump.values rom (bytesPerValue stride) (max count 1).toNat (wrapped start 0) = .ok vs →
      ∃ lines, Dump.output rom start count stride perLine = .ok lines := by
    intro vs hv
    obtain ⟨ls, hl⟩ := lines_ok (k := bytesPerValue stride) hp (vs.length + 1) vs (by omega)
    exact ⟨_, by rw [hout, hv, Res.bind_ok, hl, Res.bind_ok]⟩
  refine ⟨⟨hfwd, ?_⟩, ?_⟩
  · intro h
    obtain ⟨vs, hv⟩ := values_ok hk3 hs (max count 1).toNat 0 (fun j hj => by rw [Nat.zero_add]; exact h j (by omega))
    exact hok vs hv
  · intro h
    rcases values_cases (rom := rom) hk3 hs (max count 1).toNat 0 with ⟨vs, hv⟩ | hv
    · exact absurd (hfwd (hok vs hv)) h
    · rw [hout, hv]; rfl

/-- A dump of a small ROM: four words, three to a line. -/
example : Dump.output ⟨.hiRom, [1, 2, 3, 4, 5, 6, 7, 8]⟩ 0xc00000 4 2 3 =
    .ok [cs!".org $c00000", cs!".dw  $0201, $0403, $0605", cs!".dw  $0807"] := by decide +kernel

/-- The failing case is reachable. -/
theorem C62_violated : ∃ (rom : Rom) (start : Nat), start < 0x1000000 ∧
    Dump.output rom start 1 1 8 = .ub .assertFail :=
  ⟨⟨.loRom, [1, 2]⟩, 0, by decide, by decide +kernel⟩

end Nsasm.Props
