import Verif.Model.Numeric

/-! # Address ranges (nsasm/ranges.h, nsasm/ranges.cc) -/

namespace Nsasm

/-- `using Chunk` (nsasm/ranges.h:15): a half-open address range. -/
abbrev Chunk := Nat × Nat

/-- `class DataRange` (nsasm/ranges.h:17-38): the vector `ranges_`. -/
structure DataRange where
  ranges : List Chunk
deriving DecidableEq, Repr

namespace DataRange

/-- A freshly constructed range. -/
def empty : DataRange := ⟨[]⟩

/-- The part of `ranges_` before `std::upper_bound(.., location, LeftSideSearch)`
(nsasm/ranges.cc:11-13, 34-35, 55-56): the chunks whose left end is `≤ location`
(`ranges_` is sorted by left end). -/
def before (location : Addr) (l : List Chunk) : List Chunk :=
  l.takeWhile (fun c => c.1 ≤ location)

/-- The part of `ranges_` from `std::upper_bound` on. -/
def after (location : Addr) (l : List Chunk) : List Chunk :=
  l.dropWhile (fun c => c.1 ≤ location)

/-- `Contains` (nsasm/ranges.cc:30-41). -/
def contains (r : DataRange) (location : Addr) : Bool :=
  match (before location r.ranges).getLast? with
  | none => false
  | some c => decide (location ≥ c.1 ∧ location < c.2)

/-- The merge with further chunks to the right (nsasm/ranges.cc:88-103).
`ins` is `*insertion_point` and `rest` what follows it; the result is the new
tail of the vector, starting at the insertion point, and the new
`overlaps_existing`. -/
def mergeRight (ins : Chunk) (overlaps : Bool) (rest : List Chunk) : List Chunk × Bool :=
  let merged := rest.takeWhile (fun c => c.1 ≤ ins.2)
  let remaining := rest.dropWhile (fun c => c.1 ≤ ins.2)
  match merged.head?, merged.getLast? with
  | some first, some last =>
      ((ins.1, max ins.2 last.2) :: remaining, overlaps || decide (ins.2 > first.1))
  | _, _ => (ins :: remaining, overlaps)

/-- `ClaimBytes(Chunk)`, when nothing on the left touches the new chunk
(nsasm/ranges.cc:70-103). -/
def claimRight (pre post : List Chunk) (new : Chunk) : DataRange × Bool :=
  match post with
  | q :: post' =>
    if q.1 ≤ new.2 then
      (⟨pre ++ (mergeRight (new.1, max q.2 new.2) (decide (q.1 < new.2)) post').1⟩,
        !(mergeRight (new.1, max q.2 new.2) (decide (q.1 < new.2)) post').2)
    else (⟨pre ++ new :: post⟩, true)
  | [] => (⟨pre ++ [new]⟩, true)

/-- `ClaimBytes(Chunk)` on a non-empty range split at the new chunk
(nsasm/ranges.cc:53-103). -/
def claimSplit (pre post : List Chunk) (new : Chunk) : DataRange × Bool :=
  match pre.getLast? with
  | some p =>
    if new.1 ≤ p.2 then
      (⟨pre.dropLast ++ (mergeRight (p.1, max p.2 new.2) (decide (new.1 < p.2)) post).1⟩,
        !(mergeRight (p.1, max p.2 new.2) (decide (new.1 < p.2)) post).2)
    else claimRight pre post new
  | none => claimRight pre post new

/-- `ClaimBytes(Chunk)` (nsasm/ranges.cc:43-104): the new range and the returned
flag. -/
def claimChunk (r : DataRange) (new : Chunk) : DataRange × Bool :=
  if r.ranges.isEmpty then (⟨[new]⟩, true)
  else claimSplit (before new.1 r.ranges) (after new.1 r.ranges) new

/-- `ClaimBytes(Address, int)` (nsasm/ranges.cc:17-28).  Each round claims at
least one byte, so the number of rounds is bounded by the length. -/
def claimBytes (r : DataRange) (location : Addr) (length : Int) : Res (DataRange × Bool) :=
  if _h : length > 0 then do
    let next : Int := min length (0x10000 - (Address.bankAddress location : Int))
    let stop ← Address.addUnwrapped location next
    let (r, ok) := claimChunk r (location, stop)
    let (r, rest) ← claimBytes r (Address.ofBank (Address.bank location) 0) (length - next)
    .ok (r, ok && rest)
  else .ok (r, true)
termination_by length.toNat
decreasing_by
  simp only [Address.bankAddress]
  omega

end DataRange

/-- `std::pair` comparison of chunks. -/
def Chunk.lt (a b : Chunk) : Bool := decide (a.1 < b.1 ∨ (a.1 = b.1 ∧ a.2 < b.2))

/-- `class RangeMap<T>` (nsasm/ranges.h:42-65).  `mapping` lists the entries of
`std::map<Chunk, T>` in key order. -/
structure RangeMap (τ : Type) where
  used : DataRange
  mapping : List (Chunk × τ)

namespace RangeMap

variable {τ : Type}

/-- A freshly constructed map. -/
def empty : RangeMap τ := ⟨.empty, []⟩

/-- `std::map::emplace`: existing keys are kept. -/
def emplace (c : Chunk) (v : τ) : List (Chunk × τ) → List (Chunk × τ)
  | [] => [(c, v)]
  | (k, w) :: rest =>
      if Chunk.lt k c then (k, w) :: emplace c v rest
      else if k = c then (k, w) :: rest
      else (c, v) :: (k, w) :: rest

/-- The claiming loop of `Insert` (nsasm/ranges.h:71-77): `none` is a conflict. -/
def claimAll : DataRange → List Chunk → Option DataRange
  | combined, [] => some combined
  | combined, c :: cs =>
      let (combined, ok) := combined.claimChunk c
      if ok then claimAll combined cs else none

/-- `Insert` (nsasm/ranges.h:69-84). -/
def insert (m : RangeMap τ) (range : DataRange) (value : τ) : RangeMap τ × Bool :=
  match claimAll m.used range.ranges with
  | none => (m, false)
  | some combined =>
      (⟨combined, range.ranges.foldl (fun mp c => emplace c value mp) m.mapping⟩, true)

/-- The second half of `Lookup` (nsasm/ranges.h:94-99): the entry before the upper
bound. -/
def lookupBack (address : Addr) (pre : List (Chunk × τ)) : Option τ :=
  match pre.getLast? with
  | none => none
  | some e => if address ≥ e.1.1 ∧ address < e.1.2 then some e.2 else none

/-- `Lookup` (nsasm/ranges.h:86-100). -/
def lookup (m : RangeMap τ) (address : Addr) : Option τ :=
  let notAbove := fun (e : Chunk × τ) => !Chunk.lt (address, address) e.1
  let pre := m.mapping.takeWhile notAbove
  let post := m.mapping.dropWhile notAbove
  match post.head? with
  | some e => if e.1.1 = address then some e.2 else lookupBack address pre
  | none => lookupBack address pre

/-- `Contains` (nsasm/ranges.h:58-60). -/
def contains (m : RangeMap τ) (address : Addr) : Bool := m.used.contains address

end RangeMap

end Nsasm
