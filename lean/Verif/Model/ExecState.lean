import Verif.Model.Base

/-! # Static-analysis state (nsasm/execution_state.h, nsasm/execution_state.cc,
nsasm/calling_convention.h) -/

namespace Nsasm

/-- `enum BitState` (nsasm/execution_state.h:13-23). -/
inductive BitState where
  | off | on | original | unknown
deriving DecidableEq, Repr

/-- `ConstrainedForEBit` (nsasm/execution_state.h:30-53). -/
def constrainedForEBit (input e : BitState) : BitState :=
  if e = .on then .on
  else if e = .off then input
  else if input = .on then .on
  else if input = .original ∧ e = .original then .original
  else .unknown

/-- `operator|(BitState, BitState)` (nsasm/execution_state.h:57-59). -/
def BitState.merge (l r : BitState) : BitState := if l = r then l else .unknown

/-- `class StatusFlags` (nsasm/execution_state.h:61-135). -/
structure StatusFlags where
  e : BitState
  m : BitState
  x : BitState
  c : BitState
deriving DecidableEq, Repr

namespace StatusFlags

/-- The constructor (nsasm/execution_state.h:64-69). -/
def make (e m x c : BitState) : StatusFlags :=
  ⟨e, constrainedForEBit m e, constrainedForEBit x e, c⟩

/-- The default-constructed state. -/
def default : StatusFlags := make .unknown .unknown .unknown .unknown

/-- `SetMBit` (nsasm/execution_state.h:83). -/
def setM (f : StatusFlags) (s : BitState) : StatusFlags := { f with m := constrainedForEBit s f.e }
/-- `SetXBit` (nsasm/execution_state.h:84). -/
def setX (f : StatusFlags) (s : BitState) : StatusFlags := { f with x := constrainedForEBit s f.e }
/-- `SetCBit` (nsasm/execution_state.h:85). -/
def setC (f : StatusFlags) (s : BitState) : StatusFlags := { f with c := s }

/-- One bit of `SetIncoming`. -/
def incomingBit (b : BitState) : BitState := if b = .unknown then .original else b

/-- `SetIncoming` (nsasm/execution_state.h:89-94). -/
def setIncoming (f : StatusFlags) : StatusFlags :=
  ⟨incomingBit f.e, incomingBit f.m, incomingBit f.x, incomingBit f.c⟩

/-- `ExchangeCE` (nsasm/execution_state.h:96-105). -/
def exchangeCE (f : StatusFlags) : StatusFlags :=
  ⟨f.c, constrainedForEBit f.m f.c, constrainedForEBit f.x f.c, f.e⟩

/-- `operator|` (nsasm/execution_state.h:116-119). -/
def merge (l r : StatusFlags) : StatusFlags :=
  make (l.e.merge r.e) (l.m.merge r.m) (l.x.merge r.x) (l.c.merge r.c)

/-- `Known` (nsasm/execution_state.cc:9). -/
def known (s : BitState) : Bool := s = .off || s = .on

/-- `ToName` (nsasm/execution_state.cc:38-55). -/
def toName (f : StatusFlags) : Str :=
  if !known f.e then cs!"unk"
  else if f.e = .on then cs!"emu"
  else
    let mStr := if !known f.m then [] else if f.m = .off then cs!"m16" else cs!"m8"
    let xStr := if !known f.x then [] else if f.x = .off then cs!"x16" else cs!"x8"
    if mStr.isEmpty && xStr.isEmpty then cs!"native" else mStr ++ xStr

/-- `ToString` (nsasm/execution_state.cc:57-62). -/
def toStr (f : StatusFlags) : Str :=
  f.toName ++ (if f.c = .on then cs!", c=1" else if f.c = .off then cs!", c=0" else [])

/-- `ConsumeNamePart` (nsasm/execution_state.cc:13-26): the value and the rest. -/
def consumeNamePart : Str → Option (BitState × Str)
  | '8' :: rest => some (.on, rest)
  | '1' :: '6' :: rest => some (.off, rest)
  | _ => none

/-- `ConsumeByte` (nsasm/execution_state.cc:28-34): the rest, if it matched. -/
def consumeByte (ch : Char) : Str → Option Str
  | c :: rest => if c = ch then some rest else none
  | [] => none

/-- One `if (ConsumeByte(..)) { ConsumeNamePart }` block of `FromName`
(nsasm/execution_state.cc:80-93): `none` is `return nullopt`. -/
def consumeField (ch : Char) (s : Str) : Option (BitState × Str) :=
  match consumeByte ch s with
  | some rest => consumeNamePart rest
  | none => some (.unknown, s)

/-- `FromName` (nsasm/execution_state.cc:64-99). -/
def fromName (name : Str) : Option StatusFlags :=
  let l := lower name
  if l = cs!"unk" then some (make .unknown .unknown .unknown .unknown)
  else if l = cs!"emu" then some (make .on .on .on .unknown)
  else if l = cs!"native" then some (make .off .unknown .unknown .unknown)
  else if l.isEmpty then none
  else match consumeField 'm' l with
    | none => none
    | some (m, l) =>
      match consumeField 'x' l with
      | none => none
      | some (x, l) => if l.isEmpty then some (make .off m x .unknown) else none

end StatusFlags

/-- `class RegisterValue` (nsasm/execution_state.h:142-186).  `value_` is 0 unless
the type is `T_value`, so it is carried by that constructor only. -/
inductive RegisterValue where
  | unknown | original | value (v : Nat)
deriving DecidableEq, Repr

namespace RegisterValue

/-- `RegisterValue(uint16_t)` from an `int` (nsasm/execution_state.h:151). -/
def ofInt (v : Int) : RegisterValue := .value (v % 0x10000).toNat

/-- `Add` (nsasm/execution_state.h:160-167); `mask` is `0xff` or `0xffff`.
`value_ + offset` is an `int` sum. -/
def add (r : RegisterValue) (offset : Int) (mask : Nat) : Res RegisterValue :=
  match r with
  | .value v => do
      let s ← i32 (v + offset)
      .ok (.value (s % (mask + 1 : Nat)).toNat)
  | _ => .ok .unknown

/-- `operator|=` (nsasm/execution_state.h:175-181). -/
def merge (l r : RegisterValue) : RegisterValue := if l = r then l else .unknown

end RegisterValue

/-- The register a stack byte came from. -/
inductive RegName where
  | a | x | y
deriving DecidableEq, Repr

/-- `struct StackValue` (nsasm/execution_state.h:201-320).  The thirteen `Type`
enumerators are grouped: `hi r`/`lo r` are `T_{a,x,y}_{hi,lo}` (their `value_`
is always 0) and `var r orig` is `T_{a,x,y}_varsize` with
`value_ == 1` iff `orig`. -/
inductive StackValue where
  | unknown
  | byte (v : UInt8)
  | flags (f : StatusFlags)
  | hi (r : RegName)
  | lo (r : RegName)
  | var (r : RegName) (orig : Bool)
  | dbr
deriving DecidableEq, Repr

namespace StackValue

/-- `StackValue(Type, RegisterValue)` for a high-byte type
(nsasm/execution_state.h:229-238). -/
def ofHi (r : RegName) : RegisterValue → StackValue
  | .original => .hi r
  | .unknown => .unknown
  | .value v => .byte (UInt8.ofNat (v / 0x100 % 0x100))

/-- `StackValue(Type, RegisterValue)` for a low-byte type
(nsasm/execution_state.h:239-249). -/
def ofLo (r : RegName) : RegisterValue → StackValue
  | .original => .lo r
  | .unknown => .unknown
  | .value v => .byte (UInt8.ofNat (v % 0x100))

/-- `StackValue(Type, RegisterValue)` for `T_dbr` (nsasm/execution_state.h:239-249). -/
def ofDbr : RegisterValue → StackValue
  | .original => .dbr
  | .unknown => .unknown
  | .value v => .byte (UInt8.ofNat (v % 0x100))

/-- `StackValue(Type, RegisterValue)` for a varsize type
(nsasm/execution_state.h:250-256). -/
def ofVar (r : RegName) (v : RegisterValue) : StackValue := .var r (v = .original)

/-- `IsVarSize` (nsasm/execution_state.h:301-303). -/
def isVarSize : StackValue → Bool
  | .var _ _ => true
  | _ => false

/-- `type() == rhs.type()`. -/
def sameType : StackValue → StackValue → Bool
  | .unknown, .unknown => true
  | .byte _, .byte _ => true
  | .flags _, .flags _ => true
  | .hi r, .hi r' => r = r'
  | .lo r, .lo r' => r = r'
  | .var r _, .var r' _ => r = r'
  | .dbr, .dbr => true
  | _, _ => false

/-- `operator|=` (nsasm/execution_state.h:265-286). -/
def merge (l r : StackValue) : StackValue :=
  if !sameType l r then .unknown
  else match l, r with
    | .byte v, .byte v' => if v = v' then .byte v else .unknown
    | .flags f, .flags f' => .flags (f.merge f')
    | .var n o, .var _ o' => if o = o' then .var n o else .var n false
    | l, _ => l

/-- `CanMergeWith` (nsasm/execution_state.h:288-290). -/
def canMergeWith (l r : StackValue) : Bool :=
  sameType l r || (!l.isVarSize && !r.isVarSize)

end StackValue

/-- `class Stack` (nsasm/execution_state.h:323-535).  `live l` holds the
entries with the top of the stack (C++ `back()`) first; `Abandon` clears the
vector, so an abandoned stack carries nothing. -/
inductive Stack where
  | abandoned
  | live (l : List StackValue)
deriving DecidableEq, Repr

namespace Stack

/-- The default constructor (nsasm/execution_state.h:326). -/
def empty : Stack := .live []

/-- `stack_.push_back` guarded by `!abandoned_`. -/
def push (s : Stack) (v : StackValue) : Stack :=
  match s with
  | .abandoned => .abandoned
  | .live l => .live (v :: l)

/-- `PushByte(uint8_t)` (nsasm/execution_state.h:335-339). -/
def pushByte (s : Stack) (v : Nat) : Stack := s.push (.byte (UInt8.ofNat v))

/-- `PushUnknownWord` (nsasm/execution_state.h:370-375). -/
def pushUnknownWord (s : Stack) : Stack := (s.push .unknown).push .unknown

/-- `PushWord(optional<uint16_t>)` from an `optional<int>`
(nsasm/execution_state.h:355-368). -/
def pushWord (s : Stack) : Option Int → Stack
  | some v =>
      let w := (v % 0x10000).toNat
      (s.pushByte (w / 0x100 % 0x100)).pushByte (w % 0x100)
  | none => s.pushUnknownWord

/-- `PullByte` (nsasm/execution_state.h:377-389). -/
def pullByte : Stack → StackValue × Stack
  | .live (v :: l) => if v.isVarSize then (.unknown, .abandoned) else (v, .live l)
  | _ => (.unknown, .abandoned)

/-- `PullVarsize` (nsasm/execution_state.h:393-404): `back()` of an empty vector
is undefined. -/
def pullVarsize : Stack → Res (StackValue × Stack)
  | .abandoned => .ok (.unknown, .abandoned)
  | .live [] => .ub .emptyAccess
  | .live (v :: l) => if v.isVarSize then .ok (v, .live l) else .ok (.unknown, .abandoned)

/-- `PushReg` (nsasm/execution_state.h:407-422) for register `r`. -/
def pushReg (s : Stack) (r : RegName) (reg : RegisterValue) (bit : BitState) : Stack :=
  match s with
  | .abandoned => .abandoned
  | .live l =>
    match bit with
    | .original => .live (StackValue.ofVar r reg :: l)
    | .unknown => .abandoned
    | .on => .live (StackValue.ofLo r reg :: l)
    | .off => .live (StackValue.ofLo r reg :: StackValue.ofHi r reg :: l)

/-- `PullReg` (nsasm/execution_state.h:424-467) for register `r`.  In the
variable-size case `result.value()` asserts that the type is `T_byte`
(nsasm/execution_state.h:293-296), which fails for a matching entry. -/
def pullReg (s : Stack) (r : RegName) (bit : BitState) : Res (RegisterValue × Stack) :=
  match s with
  | .abandoned => .ok (.unknown, .abandoned)
  | .live _ =>
    match bit with
    | .unknown => .ok (.unknown, .abandoned)
    | .original => do
        let (v, _s') ← s.pullVarsize
        match v with
        | .var r' _ => if r' = r then .ub .assertFail else .ok (.unknown, .abandoned)
        | _ => .ok (.unknown, .abandoned)
    | .on =>
        let (b, s') := s.pullByte
        match b with
        | .lo r' => if r' = r then .ok (.original, s') else .ok (.unknown, s')
        | .byte v => .ok (.value v.toNat, s')
        | _ => .ok (.unknown, s')
    | .off =>
        let (lo, s') := s.pullByte
        let (hi, s'') := s'.pullByte
        match lo, hi with
        | .lo r', .hi r'' => if r' = r ∧ r'' = r then .ok (.original, s'') else .ok (.unknown, s'')
        | .byte l, .byte h => .ok (.value (l.toNat * 0x100 + h.toNat), s'')
        | _, _ => .ok (.unknown, s'')

/-- The element loop of `operator|=` (nsasm/execution_state.h:517-523): `none` is
`Abandon()`.  The C++ walks from the bottom; since the outcome of a failure does
not depend on where it happens, the direction is irrelevant. -/
def mergeList : List StackValue → List StackValue → Option (List StackValue)
  | [], [] => some []
  | l :: ls, r :: rs =>
      if l.canMergeWith r then (mergeList ls rs).map (l.merge r :: ·) else none
  | _, _ => none

/-- `operator|=` (nsasm/execution_state.h:513-526). -/
def merge : Stack → Stack → Stack
  | .live l, .live r =>
      match mergeList l r with
      | some m => .live m
      | none => .abandoned
  | _, _ => .abandoned

end Stack

/-- `class ExecutionState` (nsasm/execution_state.h:539-631). -/
structure ExecutionState where
  a : RegisterValue
  x : RegisterValue
  y : RegisterValue
  dbr : RegisterValue
  flags : StatusFlags
  stack : Stack
deriving DecidableEq, Repr

namespace ExecutionState

/-- `ExecutionState(const StatusFlags&)` (nsasm/execution_state.h:545-547). -/
def init (flags : StatusFlags) : ExecutionState :=
  ⟨.unknown, .unknown, .unknown, .unknown, flags.setIncoming, .empty⟩

/-- The default constructor (nsasm/execution_state.h:542). -/
def default : ExecutionState := ⟨.unknown, .unknown, .unknown, .unknown, .default, .empty⟩

/-- `PushFlags` (nsasm/execution_state.h:559, 492-496). -/
def pushFlags (s : ExecutionState) : ExecutionState := { s with stack := s.stack.push (.flags s.flags) }

/-- `PullFlags` (nsasm/execution_state.h:567-581). -/
def pullFlags (s : ExecutionState) : ExecutionState :=
  let (v, st) := s.stack.pullByte
  match v with
  | .flags f => { s with stack := st, flags := .make s.flags.e f.m f.x f.c }
  | _ => { s with stack := st, flags := .make s.flags.e .unknown .unknown .unknown }

/-- `operator|` (nsasm/execution_state.h:601-614). -/
def merge (l r : ExecutionState) : ExecutionState :=
  ⟨l.a.merge r.a, l.x.merge r.x, l.y.merge r.y, l.dbr.merge r.dbr, l.flags.merge r.flags,
    l.stack.merge r.stack⟩

end ExecutionState

/-- `class ReturnConvention` (nsasm/calling_convention.h:18-63). -/
inductive ReturnConvention where
  | default
  | yields (f : StatusFlags)
  | noreturn
deriving DecidableEq, Repr

namespace ReturnConvention

/-- `YieldFlags` (nsasm/calling_convention.h:33-39). -/
def yieldFlags : ReturnConvention → Option StatusFlags
  | .yields f => some f
  | _ => none

/-- `ApplyTo` (nsasm/calling_convention.h:41-46). -/
def applyTo (r : ReturnConvention) (s : ExecutionState) : ExecutionState :=
  match r with
  | .yields f => { s with flags := f }
  | _ => s

/-- `IsExitCall` (nsasm/calling_convention.h:53). -/
def isExitCall : ReturnConvention → Bool
  | .noreturn => true
  | _ => false

/-- `ToSuffixString` (nsasm/calling_convention.cc:7-18). -/
def toSuffixString : ReturnConvention → Str
  | .default => []
  | .yields f => cs!" yields " ++ f.toStr
  | .noreturn => cs!" noreturn"

end ReturnConvention

end Nsasm
