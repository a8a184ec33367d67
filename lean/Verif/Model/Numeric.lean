import Verif.Model.Base

/-! # Numeric types and addresses (nsasm/numeric_type.h, nsasm/address.h) -/

namespace Nsasm

/-- `enum NumericType` (nsasm/numeric_type.h:9-17). -/
inductive NumericType where
  | unknown | byte | word | long | sbyte | sword | slong
deriving DecidableEq, Repr

namespace NumericType

/-- The numeric value of the enumerator (declaration order), which `std::max`
compares (nsasm/numeric_type.h:9-17). -/
def rank : NumericType → Nat
  | unknown => 0 | byte => 1 | word => 2 | long => 3 | sbyte => 4 | sword => 5 | slong => 6

/-- `CastTo` (nsasm/numeric_type.h:20-43).  `value & 0xff...` on a two's
complement `int` is the Euclidean remainder. -/
def castTo (type : NumericType) (value : Int) : Int :=
  match type with
  | byte => value % 0x100
  | word => value % 0x10000
  | long => value % 0x1000000
  | sbyte => let v := value % 0x100; if v ≥ 0x80 then v - 0x100 else v
  | sword => let v := value % 0x10000; if v ≥ 0x8000 then v - 0x10000 else v
  | slong => let v := value % 0x1000000; if v ≥ 0x800000 then v - 0x1000000 else v
  | unknown => value

/-- `Unsigned` (nsasm/numeric_type.h:45-50). -/
def unsigned : NumericType → NumericType
  | sbyte => byte | sword => word | slong => long | t => t

/-- `Signed` (nsasm/numeric_type.h:52-57). -/
def signed : NumericType → NumericType
  | byte => sbyte | word => sword | long => slong | t => t

/-- `IsSigned` (nsasm/numeric_type.h:59-62). -/
def isSigned (t : NumericType) : Bool := t == sbyte || t == sword || t == slong

/-- `std::max` on enumerators: returns the first argument unless it is smaller. -/
def maxT (a b : NumericType) : NumericType := if a.rank < b.rank then b else a

/-- `ArtihmeticConversion` [sic] (nsasm/numeric_type.h:65-71). -/
def arith (lhs rhs : NumericType) : NumericType :=
  if lhs = unknown then rhs
  else if rhs = unknown then lhs
  else
    let signedResult := lhs.isSigned || rhs.isSigned
    let wider := maxT lhs.unsigned rhs.unsigned
    if signedResult then wider.signed else wider.unsigned

end NumericType

/-- `class Address` (nsasm/address.h:16-74): the wrapped `uint32_t`.
`Addr` is just another spelling of `Nat`, so that arithmetic tactics apply. -/
macro "Addr" : term => `(Nat)

namespace Address

/-- `explicit Address(uint32_t)` applied to an `int` (nsasm/address.h:19-23).
The conversion to `uint32_t` makes negative numbers huge, so the assertion
`value <= 0x1000000` holds exactly for `0 ≤ v ≤ 0x1000000`. -/
def ofInt (v : Int) : Res Addr :=
  if 0 ≤ v ∧ v ≤ 0x1000000 then .ok v.toNat else .ub .assertFail

/-- `explicit Address(uint8_t bank, uint16_t bank_address)`
(nsasm/address.h:24-25), with the implicit narrowing of `int` arguments. -/
def ofBank (bank : Int) (bankAddress : Int) : Addr :=
  (bank % 0x100).toNat * 0x10000 + (bankAddress % 0x10000).toNat

/-- `Bank` (nsasm/address.h:27). -/
def bank (a : Addr) : Nat := a / 0x10000

/-- `BankAddress` (nsasm/address.h:28). -/
def bankAddress (a : Addr) : Nat := a % 0x10000

/-- `AddWrapped` (nsasm/address.h:36-40).  `value_ & 0xff0000` drops bit 24. -/
def addWrapped (a : Addr) (offset : Int) : Addr :=
  a / 0x10000 % 0x100 * 0x10000 + (((a : Int) + offset) % 0x10000).toNat

/-- `AddUnwrapped` (nsasm/address.h:42-44). -/
def addUnwrapped (a : Addr) (offset : Int) : Res Addr := ofInt ((a : Int) + offset)

/-- `SubtractWrapped` (nsasm/address.h:51-58). -/
def subtractWrapped (a rhs : Addr) : Res Int :=
  if bank a ≠ bank rhs then .err .bankMismatch
  else
    let offset : Int := ((bankAddress a : Int) - (bankAddress rhs : Int)) % 0x10000
    .ok (if offset > 0x7fff then offset - 0x10000 else offset)

end Address

/-- `LabelValue(Address)` followed by `ToInt` (nsasm/address.h:83-84, 93):
`(Bank() << 16) | BankAddress()`. -/
def labelOfAddress (a : Addr) : Int := (Address.bank a * 0x10000 + Address.bankAddress a : Nat)

end Nsasm
