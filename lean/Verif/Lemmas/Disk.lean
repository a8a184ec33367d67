import Verif.Spec.Disk
import Verif.Props.RomFile

/-! # Lemmas about files on a disk that may fail -/

namespace Nsasm.Disk

open Spec Props

theorem ask_cases (w : World) : ∃ a w1, w.ask = (a, w1) ∧ w1.files = w.files ∧ w1.open_ = w.open_ ∧
    (Sound w → a = .fine ∧ Sound w1) := by
  unfold World.ask
  rcases h : w.answers with _ | ⟨a, as⟩
  · exact ⟨_, _, rfl, rfl, rfl, fun hs => ⟨rfl, hs⟩⟩
  · refine ⟨_, _, rfl, rfl, rfl, fun hs => ⟨hs a (by simp [h]), fun b hb => hs b (by simp [h, show b ∈ as from hb])⟩⟩

theorem close_spec (w : World) : w.close.files = w.files ∧ w.close.open_ = w.open_ - 1 ∧ (Sound w → Sound w.close) := by
  obtain ⟨a, w1, h, hf, ho, hs⟩ := ask_cases w
  unfold World.close
  rw [h]
  exact ⟨hf, by show w1.open_ - 1 = _; rw [ho], fun h => (hs h).2⟩

theorem read_spec (w : World) (n : Nat) (left : List UInt8) : ∃ w1 bs, w.read n left = (w1, bs) ∧ w1.files = w.files ∧
    w1.open_ = w.open_ ∧ (Sound w → Sound w1) ∧ (bs = left.take n ∨ bs.length < (left.take n).length) ∧
    (Sound w → bs = left.take n) := by
  obtain ⟨a, w1, h, hf, ho, hs⟩ := ask_cases w
  unfold World.read
  rw [h]
  cases a with
  | fine => exact ⟨_, _, rfl, hf, ho, fun h => (hs h).2, .inl rfl, fun _ => rfl⟩
  | fails k =>
    refine ⟨_, _, rfl, hf, ho, fun h => (hs h).2, ?_, fun h => absurd (hs h).1 (by simp)⟩
    rcases Nat.lt_or_ge k (left.take n).length with hk | hk
    · right; rw [List.length_take]; omega
    · left; exact List.take_of_length_le hk

theorem recognise_short {header data : List UInt8} {size : Int} (h : (data.length : Int) ≠ size) :
    recognise header data size = .err .other := by
  unfold recognise; rw [if_pos (.inl h)]

/-- Reading the image: the outcome is that of the whole image, or an error. -/
theorem loadImage_spec (header left : List UInt8) (w : World) (size : Int) (h1 : 0 ≤ size) (h2 : size.toNat ≤ left.length) :
    let r := loadImage header left size w
    let good : Res RomFile := if size = 0 then .ub .emptyAccess else recognise header (left.take size.toNat) size
    r.1.files = w.files ∧ (size ≠ 0 → r.1.open_ = w.open_ - 1) ∧ (Sound w → Sound r.1) ∧ (r.2 = good ∨ r.2 = .err .other) ∧
      (Sound w → r.2 = good) := by
  intro r good
  by_cases h0 : size = 0
  · have hr : r = (w, .ub .emptyAccess) := by simp only [r, loadImage]; rw [if_pos h0]
    have hg : good = .ub .emptyAccess := by simp only [good]; rw [if_pos h0]
    rw [hr, hg]
    exact ⟨rfl, fun h => absurd h0 h, id, .inl rfl, fun _ => rfl⟩
  · obtain ⟨w1, bs, h, hf, ho, hs, hb, hb'⟩ := read_spec w size.toNat left
    obtain ⟨cf, co, cs⟩ := close_spec w1
    have hr : r = (w1.close, recognise header bs size) := by simp only [r, loadImage]; rw [if_neg h0, h]
    have hg : good = recognise header (left.take size.toNat) size := by simp only [good]; rw [if_neg h0]
    rw [hr, hg]
    refine ⟨cf.trans hf, fun _ => by show w1.close.open_ = _; rw [co, ho], fun h => cs (hs h), ?_,
      fun h => by show recognise header bs size = _; rw [hb' h]⟩
    rcases hb with hb | hb
    · left; show recognise header bs size = _; rw [hb]
    · right
      refine recognise_short ?_
      rw [List.length_take] at hb
      omega

/-- What `loadSized` gives when all goes well. -/
def sizedGood (bytes : List UInt8) (size : Int) : Res RomFile :=
  if size % 0x1000 ≠ 0 ∧ size % 0x1000 ≠ 0x200 then .err .other
  else if size % 0x1000 = 0x200 then
    (if size - 0x200 = 0 then .ub .emptyAccess
     else recognise (bytes.take 0x200) ((bytes.drop 0x200).take (size - 0x200).toNat) (size - 0x200))
  else if size = 0 then .ub .emptyAccess else recognise [] (bytes.take size.toNat) size

theorem loadSized_spec (bytes : List UInt8) (w : World) (size : Int) (h1 : 0 < size) (h2 : size.toNat ≤ bytes.length) :
    let r := loadSized bytes size w
    r.1.files = w.files ∧ (size % 0x1000 ≠ 0x200 → r.1.open_ = w.open_ - 1) ∧ (∀ f, r.2 = .ok f → r.1.open_ = w.open_ - 1) ∧
      (Sound w → Sound r.1) ∧ (r.2 = sizedGood bytes size ∨ r.2 = .err .other) ∧ (Sound w → r.2 = sizedGood bytes size) := by
  intro r
  unfold sizedGood
  by_cases hp : size % 0x1000 ≠ 0 ∧ size % 0x1000 ≠ 0x200
  · have hr : r = (w.close, .err .other) := by simp only [r, loadSized]; rw [if_pos hp]
    obtain ⟨cf, co, cs⟩ := close_spec w
    rw [hr, if_pos hp]
    exact ⟨cf, fun _ => co, fun _ _ => co, cs, .inl rfl, fun _ => rfl⟩
  rw [if_neg hp]
  obtain ⟨a, w1, ha, hf, ho, hs⟩ := ask_cases w
  cases a with
  | fails n =>
    obtain ⟨cf, co, cs⟩ := close_spec w1
    have hr : r = (w1.close, .err .other) := by simp only [r, loadSized]; rw [if_neg hp, ha]
    rw [hr]
    exact ⟨cf.trans hf, fun _ => by show w1.close.open_ = _; rw [co, ho], (fun _ h => nomatch h), fun h => cs (hs h).2, .inr rfl,
      fun h => absurd (hs h).1 (by simp)⟩
  | fine =>
    by_cases hh : size % 0x1000 = 0x200
    · obtain ⟨w2, bs, hr2, hf2, ho2, hs2, hb, hb'⟩ := read_spec w1 0x200 bytes
      have hbl : (bytes.take 0x200).length = 0x200 := by rw [List.length_take]; omega
      have hr : r = if bs.length ≠ 0x200 then (w2, .err .other)
          else loadImage bs (bytes.drop 0x200) (size - 0x200) w2 := by
        simp only [r, loadSized]; rw [if_neg hp, ha]; simp only; rw [if_pos hh, hr2]
      rw [if_pos hh, hr]
      by_cases hl : bs.length ≠ 0x200
      · rw [if_pos hl]
        exact ⟨hf2.trans hf, fun h => absurd hh h, (fun _ h => nomatch h), fun h => hs2 (hs h).2, .inr rfl,
          fun h => absurd (by rw [hb' (hs h).2]; exact hbl) hl⟩
      · have hbs : bs = bytes.take 0x200 := by
          rcases hb with hb | hb
          · exact hb
          · omega
        rw [if_neg hl]
        obtain ⟨g1, g2, g3, g4, g5⟩ := loadImage_spec bs (bytes.drop 0x200) w2 (size - 0x200) (by omega)
          (by rw [List.length_drop]; omega)
        rw [hbs] at g1 g2 g3 g4 g5 ⊢
        refine ⟨g1.trans (hf2.trans hf), fun h => absurd hh h, fun f hok => ?_, fun h => g3 (hs2 (hs h).2), g4,
          fun h => g5 (hs2 (hs h).2)⟩
        rw [g2 ?_, ho2, ho]
        intro h0
        rw [h0] at hok
        simp [loadImage] at hok
    · have hr : r = loadImage [] bytes size w1 := by
        simp only [r, loadSized]; rw [if_neg hp, ha]; simp only; rw [if_neg hh]
      rw [if_neg hh, hr]
      obtain ⟨g1, g2, g3, g4, g5⟩ := loadImage_spec [] bytes w1 size (by omega) h2
      have ho' : (loadImage [] bytes size w1).1.open_ = w.open_ - 1 := by rw [g2 (by omega), ho]
      exact ⟨g1.trans hf, fun _ => ho', fun _ _ => ho', fun h => g3 (hs h).2, g4, fun h => g5 (hs h).2⟩

theorem toInt_range (n : Nat) : -0x80000000 ≤ toInt n ∧ toInt n < 0x80000000 ∧ toInt n % 0x1000 = (n : Int) % 0x1000 ∧
    toInt n ≤ n := by
  unfold toInt; omega

theorem toInt_small {n : Nat} (h : n < 0x80000000) : toInt n = n := by unfold toInt; omega

/-- What `loadRomFile` gives when all goes well. -/
def loadGood : Option (List UInt8) → Res RomFile
  | none => .err .other
  | some bytes => if toInt bytes.length ≤ 0 then .err .other else sizedGood bytes (toInt bytes.length)

theorem loadRomFile_spec (path : Str) (w : World) :
    let r := loadRomFile path w
    r.1.files = w.files ∧ ((∀ bytes, w.files path = some bytes → bytes.length % 0x1000 ≠ 0x200) → r.1.open_ = w.open_) ∧
      (∀ f, r.2 = .ok f → r.1.open_ = w.open_) ∧
      (Sound w → Sound r.1) ∧ (r.2 = loadGood (w.files path) ∨ r.2 = .err .other) ∧ (Sound w → r.2 = loadGood (w.files path)) := by
  intro r
  obtain ⟨a, w1, ha, hf, ho, hs⟩ := ask_cases w
  cases a with
  | fails n =>
    have hr : r = (w1, .err .other) := by simp only [r, loadRomFile]; rw [ha]
    rw [hr]
    exact ⟨hf, fun _ => ho, (fun _ h => nomatch h), fun h => (hs h).2, .inr rfl, fun h => absurd (hs h).1 (by simp)⟩
  | fine =>
    rcases hb : w.files path with _ | bytes
    · have hr : r = (w1, .err .other) := by simp only [r, loadRomFile]; rw [ha]; simp only; rw [show w1.files path = _ from (congrFun hf path).trans hb]
      rw [hr]
      exact ⟨hf, fun _ => ho, (fun _ h => nomatch h), fun h => (hs h).2, .inr rfl, fun _ => rfl⟩
    · obtain ⟨b, w2, hb2, hf2, ho2, hs2⟩ := ask_cases { w1 with open_ := w1.open_ + 1 }
      have ho2' : w2.open_ = w.open_ + 1 := by rw [ho2]; show w1.open_ + 1 = _; rw [ho]
      have hf2' : w2.files = w.files := hf2.trans hf
      have hs2' : Sound w → b = .fine ∧ Sound w2 := fun h => hs2 (hs h).2
      cases b with
      | fails n =>
        have hr : r = (w2.close, .err .other) := by
          simp only [r, loadRomFile]; rw [ha]; simp only; rw [show w1.files path = _ from (congrFun hf path).trans hb]; simp only; rw [hb2]
        obtain ⟨cf, co, cs⟩ := close_spec w2
        rw [hr]
        exact ⟨cf.trans hf2', fun _ => by show w2.close.open_ = _; rw [co, ho2']; rfl, (fun _ h => nomatch h),
          fun h => cs (hs2' h).2, .inr rfl, fun h => absurd (hs2' h).1 (by simp)⟩
      | fine =>
        obtain ⟨c, w3, hb3, hf3, ho3, hs3⟩ := ask_cases w2
        obtain ⟨cf, co, cs⟩ := close_spec w3
        have hco : w3.close.open_ = w.open_ := by rw [co, ho3, ho2']; rfl
        cases c with
        | fails n =>
          have hr : r = (w3.close, .err .other) := by
            simp only [r, loadRomFile]; rw [ha]; simp only; rw [show w1.files path = _ from (congrFun hf path).trans hb]; simp only; rw [hb2]; simp only; rw [hb3]
          rw [hr]
          exact ⟨cf.trans (hf3.trans hf2'), fun _ => hco, (fun _ h => nomatch h), fun h => cs (hs3 (hs2' h).2).2, .inr rfl,
            fun h => absurd (hs3 (hs2' h).2).1 (by simp)⟩
        | fine =>
          have hr : r = if toInt bytes.length ≤ 0 then (w3.close, .err .other) else loadSized bytes (toInt bytes.length) w3 := by
            simp only [r, loadRomFile]; rw [ha]; simp only; rw [show w1.files path = _ from (congrFun hf path).trans hb]; simp only; rw [hb2]; simp only; rw [hb3]
          rw [hr]
          unfold loadGood
          dsimp only
          by_cases h0 : toInt bytes.length ≤ 0
          · rw [if_pos h0, if_pos h0]
            exact ⟨cf.trans (hf3.trans hf2'), fun _ => hco, (fun _ h => nomatch h), fun h => cs (hs3 (hs2' h).2).2, .inl rfl,
              fun _ => rfl⟩
          · rw [if_neg h0, if_neg h0]
            obtain ⟨t1, t2, t3, t4⟩ := toInt_range bytes.length
            clear hr
            generalize toInt bytes.length = size at *
            obtain ⟨g1, g2, g3, g4, g5, g6⟩ := loadSized_spec bytes w3 size (by omega) (by omega)
            refine ⟨g1.trans (hf3.trans hf2'), fun h => ?_, fun f hok => ?_, fun h => g4 (hs3 (hs2' h).2).2, g5,
              fun h => g6 (hs3 (hs2' h).2).2⟩
            · rw [g2 ?_, ho3, ho2']; rfl
              have := h bytes rfl
              omega
            · rw [g3 f hok, ho3, ho2']; rfl

/-- For a file that is not too long, this is what the model of `LoadRomFile` on contents gives. -/
theorem loadGood_eq {bytes : List UInt8} (h : bytes.length < 0x80000000) : loadGood (some bytes) = RomFile.load bytes := by
  unfold loadGood RomFile.load sizedGood
  dsimp only
  rw [toInt_small h]
  by_cases h0 : bytes.length = 0
  · rw [if_pos (by omega), if_pos h0]
  rw [if_neg (by omega), if_neg h0]
  by_cases hp : bytes.length % 0x1000 ≠ 0 ∧ bytes.length % 0x1000 ≠ 0x200
  · rw [if_pos (by omega), if_pos hp]
  rw [if_neg (by omega), if_neg hp]
  by_cases hh : bytes.length % 0x1000 = 0x200
  · rw [if_pos (by omega), if_pos hh, if_pos hh]
    have hl : (bytes.drop 0x200).length = bytes.length - 0x200 := List.length_drop
    by_cases he : bytes.drop 0x200 = []
    · rw [if_pos he]
      have := congrArg List.length he
      simp only [List.length_nil] at this
      rw [if_pos (by omega)]
    · rw [if_neg he]
      have hpos : 0 < (bytes.drop 0x200).length := List.length_pos_iff.mpr he
      have ht : (bytes.drop 0x200).take ((bytes.length : Int) - 0x200).toNat = bytes.drop 0x200 :=
        List.take_of_length_le (by omega)
      rw [if_neg (by omega), ht]
      unfold recognise
      by_cases hs : (bytes.drop 0x200).length < 0x10000
      · rw [if_pos hs, if_pos (.inr (by omega))]
      · rw [if_neg hs, if_neg (by omega)]
        by_cases hx : (bytes.drop 0x200).length < 0x400000
        · rw [if_pos hx, if_pos (show (bytes.length : Int) - 0x200 < 0x400000 by omega)]
        · rw [if_neg hx, if_neg (show ¬ (bytes.length : Int) - 0x200 < 0x400000 by omega)]
  · have hne : bytes ≠ [] := by rintro rfl; exact h0 rfl
    rw [if_neg (by omega), if_neg hh, if_neg hh, if_neg (by omega), if_neg hne, List.take_of_length_le (by omega)]
    unfold recognise
    by_cases hs : bytes.length < 0x10000
    · rw [if_pos hs, if_pos (.inr (by omega))]
    · rw [if_neg hs, if_neg (by omega)]
      by_cases hx : bytes.length < 0x400000
      · rw [if_pos hx, if_pos (show (bytes.length : Int) < 0x400000 by omega)]
      · rw [if_neg hx, if_neg (show ¬ (bytes.length : Int) < 0x400000 by omega)]

/-! ## Source files -/

def sourceGood : Option (List UInt8) → Res (List Str)
  | none => .err .other
  | some bytes => .ok (sourceLines bytes)

theorem openSource_spec (path : Str) (w : World) :
    let r := openSource path w
    r.1.files = w.files ∧ r.1.open_ = w.open_ ∧ (Sound w → Sound r.1) ∧
      (r.2 = sourceGood (w.files path) ∨ r.2 = .err .other) ∧ (Sound w → r.2 = sourceGood (w.files path)) := by
  intro r
  obtain ⟨a, w1, ha, hf, ho, hs⟩ := ask_cases w
  cases a with
  | fails n =>
    have hr : r = (w1, .err .other) := by simp only [r, openSource]; rw [ha]
    rw [hr]
    exact ⟨hf, ho, fun h => (hs h).2, .inr rfl, fun h => absurd (hs h).1 (by simp)⟩
  | fine =>
    rcases hb : w.files path with _ | bytes
    · have hr : r = (w1, .err .other) := by simp only [r, openSource]; rw [ha]; simp only; rw [show w1.files path = _ from (congrFun hf path).trans hb]
      rw [hr]
      exact ⟨hf, ho, fun h => (hs h).2, .inr rfl, fun _ => rfl⟩
    · obtain ⟨b, w2, hb2, hf2, ho2, hs2⟩ := ask_cases w1
      cases b with
      | fails n =>
        have hr : r = (w2, .err .other) := by
          simp only [r, openSource]; rw [ha]; simp only; rw [show w1.files path = _ from (congrFun hf path).trans hb]; simp only; rw [hb2]
        rw [hr]
        exact ⟨hf2.trans hf, ho2.trans ho, fun h => (hs2 (hs h).2).2, .inr rfl, fun h => absurd (hs2 (hs h).2).1 (by simp)⟩
      | fine =>
        have hr : r = (w2, .ok (openFile (textOf bytes))) := by
          simp only [r, openSource]; rw [ha]; simp only; rw [show w1.files path = _ from (congrFun hf path).trans hb]; simp only; rw [hb2]
        rw [hr]
        exact ⟨hf2.trans hf, ho2.trans ho, fun h => (hs2 (hs h).2).2, .inl rfl, fun _ => rfl⟩

/-! ## Saving -/

theorem put_files (w : World) (path : Str) (bytes : List UInt8) : (w.put path bytes).files path = some bytes ∧
    ∀ p, p ≠ path → (w.put path bytes).files p = w.files p := by
  unfold World.put
  exact ⟨if_pos rfl, fun p h => if_neg h⟩

theorem write_spec (w : World) (path : Str) (old bytes : List UInt8) (ho : w.files path = some old) : ∃ w1 n,
    w.write path bytes = (w1, n) ∧ (∀ p, p ≠ path → w1.files p = w.files p) ∧ w1.files path = some (old ++ bytes.take n) ∧
    n ≤ bytes.length ∧ w1.open_ = w.open_ ∧ (Sound w → Sound w1 ∧ n = bytes.length) := by
  obtain ⟨a, w1, ha, hf, hop, hs⟩ := ask_cases w
  unfold World.write
  rw [ha, ho]
  cases a with
  | fine =>
    refine ⟨_, _, rfl, fun p hp => ?_, ?_, Nat.le_refl _, hop, fun h => ⟨(hs h).2, rfl⟩⟩
    · rw [(put_files w1 path _).2 p hp, hf]
    · rw [(put_files w1 path _).1, List.take_length]; rfl
  | fails k =>
    refine ⟨_, _, rfl, fun p hp => ?_, ?_, ?_, hop, fun h => absurd (hs h).1 (by simp)⟩
    · rw [(put_files w1 path _).2 p hp, hf]
    · rw [(put_files w1 path _).1, List.length_take]
      congr 2
      rcases Nat.le_total k bytes.length with hk | hk
      · rw [Nat.min_eq_left hk]
      · rw [Nat.min_eq_right hk, List.take_of_length_le hk, List.take_of_length_le (Nat.le_refl _)]
    · rw [List.length_take]; omega

/-- The bytes that a file is saved as. -/
def savedBytes (header data : List UInt8) : List UInt8 := (if header ≠ [] then header.take 0x200 else []) ++ data

theorem writeFile_spec (path : Str) (header data : List UInt8) (w : World) (ho : w.files path = some []) (hd : data ≠ []) :
    let r := writeFile path header data w
    (∀ p, p ≠ path → r.1.files p = w.files p) ∧ (r.2 = .ok () ∨ r.2 = .err .other) ∧
      (∃ n, r.1.files path = some ((savedBytes header data).take n)) ∧
      (r.2 = .ok () → r.1.files path = some (savedBytes header data) ∧ r.1.open_ = w.open_ - 1) ∧
      (Sound w → header = [] ∨ 0x200 ≤ header.length → r.2 = .ok ()) := by
  intro r
  obtain ⟨w1, n, h1, hp1, hf1, hn1, ho1, hs1⟩ : ∃ w1 n,
      (if header ≠ [] then w.write path (header.take 0x200) else (w, 0x200)) = (w1, n) ∧
      (∀ p, p ≠ path → w1.files p = w.files p) ∧
      w1.files path = some ((if header ≠ [] then header.take 0x200 else []).take n) ∧ n ≤ 0x200 ∧ w1.open_ = w.open_ ∧
      (Sound w → header = [] ∨ 0x200 ≤ header.length → Sound w1 ∧ n = 0x200) := by
    by_cases hh : header ≠ []
    · obtain ⟨w1, n, h, hp, hf, hn, hop, hs⟩ := write_spec w path [] (header.take 0x200) ho
      rw [List.length_take] at hn
      refine ⟨w1, n, by rw [if_pos hh, h], hp, by rw [if_pos hh, hf]; rfl, by omega, hop, fun h hl => ⟨(hs h).1, ?_⟩⟩
      have h2 := (hs h).2
      rw [List.length_take] at h2
      rcases hl with hl | hl
      · exact absurd hl hh
      · omega
    · exact ⟨w, 0x200, if_neg hh, fun _ _ => rfl, by rw [if_neg hh, ho]; rfl, Nat.le_refl _, rfl, fun h _ => ⟨h, rfl⟩⟩
  generalize hH : (if header ≠ [] then header.take 0x200 else []) = H at hf1
  have hHl : H.length ≤ 0x200 := by
    rw [← hH]; split
    · rw [List.length_take]; omega
    · simp
  have hsv : savedBytes header data = H ++ data := by unfold savedBytes; rw [hH]
  rw [hsv]
  by_cases hw : n ≠ 0x200
  · have hr : r = (w1, .err .other) := by simp only [r, writeFile]; rw [h1]; simp only; rw [if_pos hw]
    rw [hr]
    refine ⟨hp1, .inr rfl, ⟨min n H.length, ?_⟩, (fun h => nomatch h), fun h hl => absurd (hs1 h hl).2 hw⟩
    rw [List.take_append_of_le_length (by omega)]
    show w1.files path = _
    rw [hf1]
    rcases Nat.le_total n H.length with hk | hk
    · rw [Nat.min_eq_left hk]
    · rw [Nat.min_eq_right hk, List.take_of_length_le hk, List.take_of_length_le (Nat.le_refl _)]
  · have hnn : n = 0x200 := by omega
    have hf1' : w1.files path = some H := by rw [hf1, List.take_of_length_le (by omega)]
    obtain ⟨w2, m, h2, hp2, hf2, hm2, ho2, hs2⟩ := write_spec w1 path H data hf1'
    have hbase : r = if m ≠ data.length then (w2, .err .other) else
        match w2.ask with
        | (.fine, w) => ({ w with open_ := w.open_ - 1 }, .ok ())
        | (.fails k, w) =>
          ({ w.put path (((w.files path).getD []).take k) with open_ := (w.put path (((w.files path).getD []).take k)).open_ - 1 },
            .err .other) := by
      simp only [r, writeFile]; rw [h1]; simp only; rw [if_neg hw, if_neg hd, h2]; rfl
    have hpp : ∀ p, p ≠ path → w2.files p = w.files p := fun p h => (hp2 p h).trans (hp1 p h)
    by_cases hm : m ≠ data.length
    · rw [hbase, if_pos hm]
      refine ⟨hpp, .inr rfl, ⟨H.length + m, ?_⟩, (fun h => nomatch h), fun h hl => absurd (hs2 (hs1 h hl).1).2 hm⟩
      show w2.files path = _
      rw [hf2, List.take_length_add_append]
    · have hmm : m = data.length := by omega
      have hf2' : w2.files path = some (H ++ data) := by rw [hf2, hmm, List.take_length]
      rw [hbase, if_neg hm]
      obtain ⟨c, w3, h3, hf3, ho3, hs3⟩ := ask_cases w2
      rw [h3]
      cases c with
      | fine =>
        refine ⟨fun p h => ?_, .inl rfl, ⟨(H ++ data).length, ?_⟩, fun _ => ⟨?_, ?_⟩, fun _ _ => rfl⟩
        · show w3.files p = _; rw [hf3, hpp p h]
        · show w3.files path = _; rw [hf3, hf2', List.take_length]
        · show w3.files path = _; rw [hf3, hf2']
        · show w3.open_ - 1 = _; rw [ho3, ho2, ho1]
      | fails k =>
        refine ⟨fun p h => ?_, .inr rfl, ⟨k, ?_⟩, (fun h => nomatch h), fun h hl => absurd (hs3 (hs2 (hs1 h hl).1).1).1 (by simp)⟩
        · show (w3.put path _).files p = _; rw [(put_files _ _ _).2 p h, hf3, hpp p h]
        · show (w3.put path _).files path = _
          rw [(put_files _ _ _).1, hf3, hf2']; rfl

theorem createFile_spec (path : Str) (header data : List UInt8) (w : World) (hd : data ≠ []) :
    let r := createFile path header data w
    (∀ p, p ≠ path → r.1.files p = w.files p) ∧ (r.2 = .ok () ∨ r.2 = .err .other) ∧
      (r.1.files path = w.files path ∨ ∃ n, r.1.files path = some ((savedBytes header data).take n)) ∧
      (r.2 = .ok () → r.1.files path = some (savedBytes header data) ∧ r.1.open_ = w.open_) ∧
      (Sound w → header = [] ∨ 0x200 ≤ header.length → r.2 = .ok ()) := by
  intro r
  obtain ⟨a, w1, ha, hf, ho, hs⟩ := ask_cases w
  cases a with
  | fails n =>
    have hr : r = (w1, .err .other) := by simp only [r, createFile]; rw [ha]
    rw [hr]
    exact ⟨fun p _ => by show w1.files p = _; rw [hf], .inr rfl, .inl (by show w1.files path = _; rw [hf]),
      (fun h => nomatch h), fun h => absurd (hs h).1 (by simp)⟩
  | fine =>
    have hr : r = writeFile path header data { w1.put path [] with open_ := (w1.put path []).open_ + 1 } := by
      simp only [r, createFile]; rw [ha]
    obtain ⟨g1, g2, g3, g4, g5⟩ := writeFile_spec path header data
      { w1.put path [] with open_ := (w1.put path []).open_ + 1 } (put_files w1 path []).1 hd
    rw [hr]
    refine ⟨fun p h => ?_, g2, .inr g3, fun h => ⟨(g4 h).1, ?_⟩, fun h hl => g5 (hs h).2 hl⟩
    · rw [g1 p h]
      show (w1.put path []).files p = _
      rw [(put_files _ _ _).2 p h, hf]
    · rw [(g4 h).2]
      show w1.open_ + 1 - 1 = _
      rw [ho]; rfl

end Nsasm.Disk
