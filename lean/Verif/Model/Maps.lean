import Verif.Model.Numeric

/-! # Associative containers used by the assembler and the disassembler -/

namespace Nsasm

/-- `absl::flat_hash_map<K, V>`: its entries in iteration order.  The C++ iteration
order is unspecified; nothing in the model sorts or otherwise relies on it, and
theorems about functions that iterate over such a map are stated for any entry
list. -/
abbrev HMap (κ ν : Type) := List (κ × ν)

namespace HMap

variable {κ ν : Type} [DecidableEq κ]

/-- `find(k)`. -/
def find (m : HMap κ ν) (k : κ) : Option ν :=
  match m with
  | [] => none
  | (k', v) :: rest => if k' = k then some v else find rest k

/-- `contains(k)`. -/
def has (m : HMap κ ν) (k : κ) : Bool := (find m k).isSome

/-- `m[k] = v` for a key that is not there yet. -/
def insertNew (m : HMap κ ν) (k : κ) (v : ν) : HMap κ ν := m ++ [(k, v)]

end HMap

/-- `std::map<size_t, V>` and `std::map<Address, V>`: entries in key order. -/
abbrev OMap (ν : Type) := List (Nat × ν)

namespace OMap

variable {ν : Type}

/-- `find(k)`. -/
def find (m : OMap ν) (k : Nat) : Option ν :=
  match m with
  | [] => none
  | (k', v) :: rest => if k' = k then some v else find rest k

/-- Insert `v` under `k`, or replace the value `w` found there by `f w`. -/
def upsert (f : ν → ν) (m : OMap ν) (k : Nat) (v : ν) : OMap ν :=
  match m with
  | [] => [(k, v)]
  | (k', w) :: rest =>
      if k' < k then (k', w) :: upsert f rest k v
      else if k' = k then (k', f w) :: rest
      else (k, v) :: (k', w) :: rest

/-- `m[k] = v`. -/
def set (m : OMap ν) (k : Nat) (v : ν) : OMap ν := m.upsert (fun _ => v) k v

/-- `m.insert({k, v})`: an existing entry is kept. -/
def insertKeep (m : OMap ν) (k : Nat) (v : ν) : OMap ν := m.upsert (fun w => w) k v

end OMap

end Nsasm
