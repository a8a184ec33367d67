/-!
# Outcomes, machine integers and character strings

Shared conventions of the model.  See `DESIGN.md`, "Modelling conventions".
-/

namespace Nsasm

/-- Which `Error(...)` was returned.  Models the message of `class Error`
(nsasm/error.h:13-40); the text and the `Location` are replaced by a tag naming
the site. -/
inductive Err where
  | divisionByZero        -- expression.h:41
  | nullLookup            -- expression.h:91
  | nullExpression        -- expression.h:173
  | bankMismatch          -- address.h:53
  | mode                  -- addressing_mode.cc: any rejection by DeduceMode
  | illegalCombination    -- instruction.cc:25, 426
  | suffixNotVariable     -- instruction.cc:34
  | suffixContradiction   -- instruction.cc:44, 50
  | flagUnknown           -- instruction.cc:63, 71, 93, 130
  | immediateContradiction -- instruction.cc:98, 103
  | sizeNotKnown          -- instruction.cc:431
  | branchTooFar          -- instruction.cc:489
  | unhandledMode         -- instruction.cc:507
  | notEnoughBytes        -- decode.cc:12 ...
  | decodeFlagUnknown     -- decode.cc:31
  | executeData           -- directive.cc:59
  | unmappedAddress       -- rom.cc: SnesToROMAddress
  | pastEndOfRom          -- rom.cc: Rom::Read, RomOverwriter::Write
  | romMismatch           -- rom.cc: RomIdentityTest::Write
  | tokenize              -- token.cc
  | parse                 -- parse.cc
  | unclosedScope         -- module.cc
  | duplicateLabel        -- module.cc
  | equWithoutLabel       -- module.cc
  | moduleName            -- module.cc
  | undefinedName         -- module.cc
  | pastEndOfFile         -- module.cc
  | entryMissing          -- module.cc
  | unreached             -- module.cc
  | noOrigin              -- module.cc
  | noValue               -- module.cc
  | overlap               -- module.cc, assembler.cc
  | cyclic                -- assembler.cc
  | duplicateExport       -- assembler.cc
  | steps                 -- not a C++ outcome: the step bound of a model function ran out
  | sink                  -- any other OutputSink failure
  | other
deriving DecidableEq, Repr

/-- Undefined behaviour or a failed `assert`. -/
inductive Ub where
  | overflow     -- signed integer overflow
  | assertFail   -- failed assert()
  | emptyAccess  -- front()/back() of an empty container
  | outOfBounds  -- index outside a container
  | nullDeref    -- dereferenced null pointer / empty optional
deriving DecidableEq, Repr

/-- `ErrorOr<T>` (nsasm/error.h:42-67) extended with undefined behaviour. -/
inductive Res (α : Type) where
  | ok (a : α)
  | err (e : Err)
  | ub (u : Ub)
deriving DecidableEq, Repr

namespace Res

/-- `NSASM_RETURN_IF_ERROR` (nsasm/error.h:88-100): errors (and UB) propagate. -/
@[inline] def bind {α β : Type} (x : Res α) (f : α → Res β) : Res β :=
  match x with
  | ok a => f a
  | err e => err e
  | ub u => ub u

instance : Monad Res where
  pure := ok
  bind := bind

@[simp] theorem bind_ok {α β : Type} (a : α) (f : α → Res β) : (Res.ok a >>= f) = f a := rfl
@[simp] theorem bind_err {α β : Type} (e : Err) (f : α → Res β) :
    ((Res.err e : Res α) >>= f) = Res.err e := rfl
@[simp] theorem bind_ub {α β : Type} (u : Ub) (f : α → Res β) :
    ((Res.ub u : Res α) >>= f) = Res.ub u := rfl
@[simp] theorem pure_eq {α : Type} (a : α) : (pure a : Res α) = Res.ok a := rfl
@[simp] theorem map_ok {α β : Type} (a : α) (f : α → β) : (f <$> Res.ok a) = Res.ok (f a) := rfl
@[simp] theorem map_err {α β : Type} (e : Err) (f : α → β) :
    (f <$> (Res.err e : Res α)) = Res.err e := rfl
@[simp] theorem map_ub {α β : Type} (u : Ub) (f : α → β) :
    (f <$> (Res.ub u : Res α)) = Res.ub u := rfl

theorem bind_eq_ok {α β : Type} {x : Res α} {f : α → Res β} {b : β} :
    (x >>= f) = Res.ok b ↔ ∃ a, x = Res.ok a ∧ f a = Res.ok b := by
  cases x <;> simp

/-- Lift of a lookup result (which never has UB). -/
def ofExcept {α : Type} : Except Err α → Res α
  | .ok a => .ok a
  | .error e => .err e

@[simp] theorem ofExcept_ok {α : Type} (a : α) : ofExcept (.ok a) = .ok a := rfl
@[simp] theorem ofExcept_error {α : Type} (e : Err) : (ofExcept (.error e) : Res α) = .err e := rfl

/-- `ErrorOr::ok()` (nsasm/error.h:60). -/
def isOk {α : Type} : Res α → Bool
  | .ok _ => true
  | _ => false

/-- The outcome is defined behaviour. -/
def noUb {α : Type} : Res α → Prop
  | .ub _ => False
  | _ => True

@[simp] theorem noUb_ok {α : Type} (a : α) : (Res.ok a).noUb = True := rfl
@[simp] theorem noUb_err {α : Type} (e : Err) : (Res.err e : Res α).noUb = True := rfl
@[simp] theorem noUb_ub {α : Type} (u : Ub) : (Res.ub u : Res α).noUb = False := rfl

theorem noUb_bind {α β : Type} {x : Res α} {f : α → Res β} (hx : x.noUb)
    (hf : ∀ a, x = .ok a → (f a).noUb) : (x >>= f).noUb := by
  cases x with
  | ok a => exact hf a rfl
  | err e => trivial
  | ub u => exact hx

end Res

/-- Values representable in C++ `int` (32 bits). -/
def InInt (v : Int) : Prop := -2147483648 ≤ v ∧ v ≤ 2147483647

instance (v : Int) : Decidable (InInt v) := by unfold InInt; infer_instance

/-- Result of a signed C++ `int` operation whose mathematical value is `v`:
undefined outside the range of `int`. -/
def i32 (v : Int) : Res Int := if InInt v then .ok v else .ub .overflow

/-- `value & 0xff` stored in a `uint8_t`. -/
def byteOf (v : Int) : UInt8 := UInt8.ofNat (v % 256).toNat

theorem byteOf_toNat (v : Int) : ((byteOf v).toNat : Int) = v % 256 := by
  unfold byteOf
  rw [UInt8.toNat_ofNat']
  have h : (v % 256).toNat < 256 := by omega
  omega

/-- Character strings (`std::string`, `std::string_view`): each `Char` stands
for one byte. -/
abbrev Str := List Char

/-- `cs!"abc"` is the literal `['a', 'b', 'c']`. -/
syntax:max (name := charsLit) "cs!" str : term
macro_rules
  | `(cs! $s:str) => do
    let cs := s.getString.toList.toArray.map fun c => Lean.Syntax.mkCharLit c
    `(([$cs,*] : List Char))

/-- `absl::ascii_tolower`. -/
def toLowerC (c : Char) : Char :=
  if 'A'.toNat ≤ c.toNat ∧ c.toNat ≤ 'Z'.toNat then Char.ofNat (c.toNat + 32) else c
/-- `absl::ascii_toupper`. -/
def toUpperC (c : Char) : Char :=
  if 'a'.toNat ≤ c.toNat ∧ c.toNat ≤ 'z'.toNat then Char.ofNat (c.toNat - 32) else c
/-- `absl::AsciiStrToLower`. -/
def lower (s : Str) : Str := s.map toLowerC
/-- `absl::AsciiStrToUpper`. -/
def upper (s : Str) : Str := s.map toUpperC

end Nsasm
