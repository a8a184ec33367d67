import Verif.Lemmas.Brought
import Verif.Lemmas.Relist

/-! # Locations of errors: without them the functions are the ones of `Model/Rom.lean` and `Model/Disassemble.lean` -/

namespace Nsasm.Located
open Nsasm Spec Disassembler Brought

@[simp] theorem erase_bind {α β : Type} (x : PRes α) (f : α → PRes β) :
    (x >>= f).erase = (x.erase >>= fun a => (f a).erase) := by cases x <;> rfl
@[simp] theorem erase_new {α : Type} (x : Res α) : (PRes.new x).erase = x := by cases x <;> rfl
@[simp] theorem erase_set {α : Type} (l : Place) (x : PRes α) : (x.set l).erase = x.erase := by cases x <;> rfl
@[simp] theorem erase_set2 {α : Type} (l m : Place) (x : PRes α) : (x.set2 l m).erase = x.erase := by cases x <;> rfl
@[simp] theorem erase_ok {α : Type} (a : α) : (PRes.ok a).erase = .ok a := rfl
@[simp] theorem erase_err {α : Type} (e : Err) (p : Place) : (PRes.err e p : PRes α).erase = .err e := rfl
@[simp] theorem erase_ub {α : Type} (u : Ub) : (PRes.ub u : PRes α).erase = .ub u := rfl
@[simp] theorem erase_atPc {α : Type} (src : PlacedSource) (pc : Addr) (x : PRes α) : (atPc src pc x).erase = x.erase :=
  erase_set2 _ _ _

theorem erase_snesToRomAt (a : Addr) (m : Mapping) : (snesToRomAt a m).erase = snesToRom a m := by
  simp [snesToRomAt]

theorem erase_readLoopAt (path : Str) (rom : Rom) (a : Addr) : ∀ (n i : Nat),
    (rom.readLoopAt path a i n).erase = rom.readLoop a i n := by
  intro n
  induction n with
  | zero => intro i; rfl
  | succ n ih =>
    intro i
    unfold Rom.readLoopAt Rom.readLoop
    simp only [erase_bind, erase_set, erase_snesToRomAt]
    congr 1
    funext x
    cases rom.data[x]? with
    | none => simp
    | some b => simp [ih]

theorem erase_readAt (path : Str) (rom : Rom) (a : Addr) (n : Int) :
    (rom.readAt path a n).erase = rom.read a n := by
  unfold Rom.readAt Rom.read
  split
  · rfl
  split
  · rfl
  simp only [erase_bind, erase_set, erase_snesToRomAt]
  congr 1
  funext x
  congr 1
  funext y
  split
  · split <;> simp
  · exact erase_readLoopAt path rom a _ _

theorem erase_branchVisitAt (src : PlacedSource) (d : Disassembler) (w : Work) (pc nextPc : Addr) (i : Instruction)
    (s : ExecutionState) : (branchVisitAt src d w pc nextPc i s).erase = branchVisit d w nextPc i s := by
  unfold branchVisitAt branchVisit
  split <;> simp

theorem erase_visitNewAt (src : PlacedSource) (d : Disassembler) (w : Work) (pc : Addr) (s : ExecutionState) :
    (visitNewAt src d w pc s).erase = visitNew src.bytes d w pc s := by
  unfold visitNewAt visitNew
  simp only [erase_bind, erase_atPc, erase_new, erase_branchVisitAt]
  congr 1
  funext x
  congr 1
  funext y
  congr 1
  funext z
  congr 1
  funext t
  congr 1
  funext u
  split <;> rfl

theorem erase_redecodeAt (src : PlacedSource) (pc : Addr) (f : StatusFlags) :
    (redecodeAt src pc f).erase = redecode src.bytes pc f := by
  unfold redecodeAt redecode PlacedSource.bytes
  cases src.read pc 4 <;> simp

theorem erase_branchRevisitAt (src : PlacedSource) (w : Work) (pc nextPc : Addr) (i : Instruction)
    (s : ExecutionState) : (branchRevisitAt src w pc nextPc i s).erase = branchRevisit w nextPc i s := by
  unfold branchRevisitAt branchRevisit
  split <;> simp

theorem erase_visitOldAt (src : PlacedSource) (w : Work) (pc : Addr) (s : ExecutionState) (di : DisItem) :
    (visitOldAt src w pc s di).erase = visitOld src.bytes w pc s di := by
  unfold visitOldAt visitOld
  simp only
  split
  · rfl
  · simp only [erase_bind, erase_atPc, erase_new, erase_redecodeAt, erase_branchRevisitAt]

theorem erase_stepAt (src : PlacedSource) (d : Disassembler) (w : Work) :
    (stepAt src d w).erase = step src.bytes d w := by
  unfold stepAt step
  cases w.stack with
  | nil => rfl
  | cons x rest =>
    obtain ⟨pc, s⟩ := x
    simp only
    generalize getInstruction d { w with stack := rest } pc = y
    obtain ⟨o, w1⟩ := y
    cases o with
    | none => simp only [erase_bind, erase_visitNewAt, erase_ok]
    | some di => simp only [erase_bind, erase_visitOldAt, erase_ok]

theorem erase_runAt (src : PlacedSource) (d : Disassembler) : ∀ (n : Nat) (w : Work),
    ((runAt src d n w).1, (runAt src d n w).2.erase) = run src.bytes d n w := by
  intro n
  induction n with
  | zero => intro w; rfl
  | succ n ih =>
    intro w
    unfold runAt run
    rw [← erase_stepAt]
    cases h : stepAt src d w with
    | ok o =>
      cases o with
      | none => rfl
      | some w' => exact ih w'
    | err e p => rfl
    | ub u => rfl

theorem erase_disassembleAt (fuel : Nat) (src : PlacedSource) (d : Disassembler) (start : Addr) (flags : StatusFlags) :
    ((disassembleAt fuel src d start flags).1, (disassembleAt fuel src d start flags).2.erase)
      = d.disassemble fuel src.bytes start flags := by
  unfold disassembleAt disassemble
  simp only
  rw [← erase_runAt]
  generalize runAt src d fuel (begin d start flags) = x
  obtain ⟨w, r⟩ := x
  cases r <;> rfl

/-! ## Where the disassembler says that an error is -/

theorem bindAt_err {α β : Type} {x : PRes α} {f : α → PRes β} {e : Err} {p : Place} (h : (x >>= f) = .err e p) :
    x = .err e p ∨ ∃ a, x = .ok a ∧ f a = .err e p := by
  cases x with
  | ok a => exact .inr ⟨a, rfl, h⟩
  | err e' p' =>
    left
    have : (PRes.err e' p' : PRes β) = .err e p := h
    cases this
    rfl
  | ub u => cases h

theorem atPc_err {α : Type} {src : PlacedSource} (hp : src.path ≠ []) {pc : Addr} {x : PRes α} {e : Err} {p : Place}
    (h : atPc src pc x = .err e p) : p = ⟨src.path, .address pc⟩ := by
  cases x with
  | ok a => cases h
  | ub u => cases h
  | err e' q =>
    cases h
    simp [Place.update, Place.ofPath, Place.ofAddress, hp]

theorem new_err {α : Type} {x : Res α} {e : Err} {p : Place} (h : PRes.new x = .err e p) : x = .err e := by
  cases x <;> cases h
  rfl

theorem visitNewAt_err {src : PlacedSource} (hp : src.path ≠ []) {d : Disassembler} {w : Work} {pc : Addr}
    {s : ExecutionState} {e : Err} {p : Place} (h : visitNewAt src d w pc s = .err e p) :
    p = ⟨src.path, .address pc⟩ := by
  unfold visitNewAt at h
  rcases bindAt_err h with h | ⟨bytes, -, h⟩
  · exact atPc_err hp h
  rcases bindAt_err h with h | ⟨j, -, h⟩
  · exact atPc_err hp h
  rcases bindAt_err h with h | ⟨nx, -, h⟩
  · exact atPc_err hp h
  rcases bindAt_err h with h | ⟨⟨i1, nx1, w1⟩, -, h⟩
  · have h := new_err h
    unfold farVisit at h
    rcases bind_err h with h | ⟨t, -, h⟩
    · exact absurd h (far_noErr _ _ _)
    · cases t <;> cases h
  rcases bindAt_err h with h | ⟨⟨i2, w2⟩, -, h⟩
  · unfold branchVisitAt at h
    split at h
    · rcases bindAt_err h with h | ⟨v, -, h⟩
      · exact absurd (new_err h) (evalUnchecked_noErr _ _)
      · simp only at h
        rcases bindAt_err h with h | ⟨b, -, h⟩
        · exact atPc_err hp h
        · cases h
    · cases h
  · simp only at h
    split at h <;> cases h

theorem visitOldAt_err {src : PlacedSource} (hp : src.path ≠ []) {w : Work} {pc : Addr}
    {s : ExecutionState} {di : DisItem} {e : Err} {p : Place} (h : visitOldAt src w pc s di = .err e p) :
    p = ⟨src.path, .address pc⟩ := by
  unfold visitOldAt at h
  simp only at h
  split at h
  · cases h
  rcases bindAt_err h with h | ⟨⟨⟩, -, h⟩
  · unfold redecodeAt at h
    split at h
    · rcases bindAt_err h with h | ⟨_, -, h⟩
      · exact atPc_err hp h
      · cases h
    · cases h
    · cases h
  rcases bindAt_err h with h | ⟨nx, -, h⟩
  · exact atPc_err hp h
  rcases bindAt_err h with h | ⟨w1, -, h⟩
  · have h := new_err h
    unfold farRevisit at h
    rcases bind_err h with h | ⟨t, -, h⟩
    · exact absurd h (far_noErr _ _ _)
    · cases t <;> cases h
  · unfold branchRevisitAt at h
    split at h
    · rcases bindAt_err h with h | ⟨b, -, h⟩
      · exact atPc_err hp h
      · rcases bindAt_err h with h | ⟨v, -, h⟩
        · exact absurd (new_err h) (evalUnchecked_noErr _ _)
        · cases h
    · cases h

theorem stepAt_err {src : PlacedSource} (hp : src.path ≠ []) {d : Disassembler} {w : Work} {e : Err} {p : Place}
    (h : stepAt src d w = .err e p) :
    ∃ pc s rest, w.stack = (pc, s) :: rest ∧ p = ⟨src.path, .address pc⟩ := by
  unfold stepAt at h
  split at h
  · cases h
  · rename_i pc s rest hst
    refine ⟨pc, s, rest, hst, ?_⟩
    simp only at h
    split at h
    · rcases bindAt_err h with h | ⟨w2, -, h⟩
      · exact visitNewAt_err hp h
      · cases h
    · rcases bindAt_err h with h | ⟨w2, -, h⟩
      · exact visitOldAt_err hp h
      · cases h

theorem runAt_err {src : PlacedSource} {d : Disassembler} : ∀ (n : Nat) (w w' : Work) (e : Err) (p : Place),
    runAt src d n w = (w', .err e p) → e ≠ .steps → stepAt src d w' = .err e p := by
  intro n
  induction n with
  | zero => intro w w' e p h hn; cases h; exact absurd rfl hn
  | succ n ih =>
    intro w w' e p h hn
    unfold runAt at h
    split at h
    · cases h
    · exact ih _ _ _ _ h hn
    · rename_i e' p' hs; cases h; exact hs
    · cases h

/-- Where a call fails. -/
theorem disassembleAt_err {src : PlacedSource} (hp : src.path ≠ []) {conv : OMap ReturnConvention}
    (hs : OMap.Sorted conv) (ht : TableOk FlagsWritten conv) {asked : List (Addr × StatusFlags)} {d d' : Disassembler}
    (h : Called src.bytes conv asked d) {fuel start : Nat} (hstart : start ≤ 0x1000000) {flags : StatusFlags}
    (hok : Constructible flags) {e : Err} {p : Place}
    (hr : disassembleAt fuel src d start flags = (d', .err e p)) (hn : e ≠ .steps) :
    ∃ pc s, p = ⟨src.path, .address pc⟩ ∧ BroughtTo src.bytes conv ((start, flags) :: asked) pc s ∧
      CodeMissing src.bytes pc s.flags e := by
  unfold disassembleAt at hr
  simp only at hr
  split at hr
  case h_1 => cases hr
  case h_3 => cases hr
  rename_i w e' p' hrun
  cases hr
  have hb := called_session hs ht h
  have hrun' : run src.bytes d fuel (begin d start flags) = (w, .err e) := by
    rw [← erase_runAt, hrun]; rfl
  obtain ⟨k1, k2⟩ := loop_kept (session_closed hb.1) hb.2 (called_listed hs ht h) hstart (constructible_normal hok) hrun'
  have hst := runAt_err _ _ _ _ _ hrun hn
  obtain ⟨pc, s0, rest, s, g1, g2, g3⟩ := step_err k1 k2 (run_err _ _ _ _ hrun' hn)
  obtain ⟨pc', s', rest', g4, g5⟩ := stepAt_err hp hst
  rw [g1] at g4
  cases g4
  rw [hb.2] at g2
  exact ⟨pc, s, g5, g2, g3⟩

/-- After a call that succeeds, there is code wherever control may be brought. -/
theorem called_code {src : Source} {conv : OMap ReturnConvention} (hs : OMap.Sorted conv)
    (ht : TableOk FlagsWritten conv) {asked : List (Addr × StatusFlags)} {d : Disassembler}
    (h : Called src conv asked d) {a : Addr} {s : ExecutionState} (hb : BroughtTo src conv asked a s) :
    ∃ bytes j, src a 4 = .ok bytes ∧ decode bytes s.flags = .ok j := by
  have hB := called_bound hs ht h
  obtain ⟨-, it, hit, hab⟩ := brought_under ht hB (called_covers hs ht h) hb
  obtain ⟨bytes, j, h1, h2, -⟩ := (hB.closed.items a it hit).bytes
  exact ⟨bytes, j, h1, Confluent.decode_above hab.flags h2⟩

/-! ## Where a read fails -/

theorem snesToRomAt_err {path : Str} (hp : path ≠ []) {a : Addr} {m : Mapping} {e : Err} {p : Place}
    (h : (snesToRomAt a m).set (.ofPath path) = .err e p) :
    p = ⟨path, .address a⟩ ∧ snesToRom a m = .err e := by
  unfold snesToRomAt at h
  cases hs : snesToRom a m with
  | ok n => rw [hs] at h; cases h
  | ub u => rw [hs] at h; cases h
  | err e' =>
    rw [hs] at h
    cases h
    simp [Place.update, Place.ofPath, Place.ofAddress, Place.none, hp]

theorem snesToRomAt_ok {path : Str} {a : Addr} {m : Mapping} {n : Nat}
    (h : (snesToRomAt a m).set (.ofPath path) = .ok n) : snesToRom a m = .ok n := by
  have := congrArg PRes.erase h
  simpa [erase_snesToRomAt] using this

theorem readLoopAt_err {path : Str} (hp : path ≠ []) {rom : Rom} {a : Addr} {e : Err} {p : Place} : ∀ (n i : Nat),
    rom.readLoopAt path a i n = .err e p →
    ∃ k, i ≤ k ∧ k < i + n ∧ p = ⟨path, .address (Address.addWrapped a k)⟩ ∧
      Unreadable rom (Address.addWrapped a k) e := by
  intro n
  induction n with
  | zero => intro i h; cases h
  | succ n ih =>
    intro i h
    unfold Rom.readLoopAt at h
    rcases bindAt_err h with h | ⟨x, hx, h⟩
    · obtain ⟨h1, h2⟩ := snesToRomAt_err hp h
      exact ⟨i, Nat.le_refl _, by omega, h1, .unmapped h2⟩
    · have hx := snesToRomAt_ok hx
      split at h
      · rename_i hd
        cases h
        refine ⟨i, Nat.le_refl _, by omega, ?_, .past hx ?_⟩
        · simp [Place.update, Place.ofPath, Place.ofAddress, Place.none, hp]
        · exact List.getElem?_eq_none_iff.1 hd
      · rcases bindAt_err h with h | ⟨_, -, h⟩
        · obtain ⟨k, h1, h2, h3⟩ := ih (i + 1) h
          exact ⟨k, by omega, by omega, h3⟩
        · cases h

theorem readAt_err {path : Str} (hp : path ≠ []) {rom : Rom} {a : Addr} (ha : a < 0x1000000) {n : Int} (hn : 0 ≤ n)
    {e : Err} {p : Place}
    (h : rom.readAt path a n = .err e p) :
    p.path = path ∧
    ((∃ k : Nat, (k : Int) < n ∧ p.offset = .address (Address.addWrapped a k) ∧
        Unreadable rom (Address.addWrapped a k) e) ∨
      ∃ first last, snesToRom a rom.mapping = .ok first ∧ snesToRom (Address.addWrapped a (n - 1)) rom.mapping = .ok last ∧
        first < last ∧ rom.data.length ≤ last ∧ e = .pastEndOfRom ∧ p.offset = .line first) := by
  unfold Rom.readAt at h
  split at h
  · cases h
  rename_i h0
  rw [if_neg (by omega)] at h
  rcases bindAt_err h with h | ⟨first, hf, h⟩
  · obtain ⟨rfl, h2⟩ := snesToRomAt_err hp h
    refine ⟨rfl, .inl ⟨0, by omega, ?_⟩⟩
    rw [addWrapped_zero ha]
    exact ⟨rfl, .unmapped h2⟩
  have hf := snesToRomAt_ok hf
  rcases bindAt_err h with h | ⟨last, hl, h⟩
  · obtain ⟨rfl, h2⟩ := snesToRomAt_err hp h
    refine ⟨rfl, .inl ⟨n.toNat - 1, by omega, ?_⟩⟩
    rw [show ((n.toNat - 1 : Nat) : Int) = n - 1 by omega]
    exact ⟨rfl, .unmapped h2⟩
  have hl := snesToRomAt_ok hl
  split at h
  · rename_i h1
    split at h
    · rename_i h2
      cases h
      exact ⟨by simp [Place.update, Place.ofPath, Place.ofLine, Place.none, hp],
        .inr ⟨first, last, hf, hl, h1, h2, rfl, by simp [Place.update, Place.ofPath, Place.ofLine, Place.none]⟩⟩
    · cases h
  · obtain ⟨k, -, h2, rfl, h4⟩ := readLoopAt_err hp _ _ h
    exact ⟨rfl, .inl ⟨k, by omega, rfl, h4⟩⟩

end Nsasm.Located
