import Verif.Model.Instruction

/-!
# Specification of the part of the 65816 that the static analysis talks about

The processor has the bits E, M, X, C and a stack of bytes.  `Follows` is the relation
between the processor before an instruction and after it (on the path that falls
through to the next instruction), taken from the WDC data sheet.  What is not tracked
(register contents, memory, the other status bits) is left arbitrary.

What the analysis claims about a processor is the relation `Describes`.
-/

namespace Nsasm.Spec

/-- The processor: four status bits and the stack, its top first. -/
structure Cpu where
  e : Bool
  m : Bool
  x : Bool
  c : Bool
  stack : List UInt8
deriving DecidableEq

/-- In emulation mode M and X are set. -/
def Cpu.Ok (p : Cpu) : Prop := p.e = true → p.m = true ∧ p.x = true

/-- Bit `n` of a byte. -/
def bit (b : UInt8) (n : Nat) : Bool := b.toNat / 2 ^ n % 2 = 1

/-- Where the return convention of a call says the processor is when the call returns:
the stack is as before, the carry is arbitrary and E, M, X are as before, unless the
convention says `yields`, which fixes the bits it names. -/
def Returns (ret : ReturnConvention) (p q : Cpu) : Prop :=
  q.Ok ∧ q.stack = p.stack ∧
  match ret with
  | .yields f =>
      (f.e = .on → q.e = true) ∧ (f.e = .off → q.e = false) ∧
      (f.m = .on → q.m = true) ∧ (f.m = .off → q.m = false) ∧
      (f.x = .on → q.x = true) ∧ (f.x = .off → q.x = false)
  | _ => q.e = p.e ∧ q.m = p.m ∧ q.x = p.x

/-- The bits M, X forced on in emulation mode. -/
def forced (e b : Bool) : Bool := e || b

/-- The number of bytes of the accumulator and of the index registers. -/
def Cpu.aBytes (p : Cpu) : Nat := if p.m then 1 else 2
def Cpu.iBytes (p : Cpu) : Nat := if p.x then 1 else 2

/-- `n` arbitrary bytes are pushed. -/
def Pushes (n : Nat) (p q : Cpu) : Prop :=
  ∃ bs : List UInt8, bs.length = n ∧ q = { p with stack := bs ++ p.stack }

/-- `n` bytes are pulled. -/
def Pulls (n : Nat) (p q : Cpu) : Prop := q = { p with stack := p.stack.drop n }

/-- Executing an instruction and falling through to the next one.  `operand` is the
operand byte of REP and SEP, `ret` the return convention of a call. -/
def Follows (mn : Mnemonic) (operand : UInt8) (ret : ReturnConvention) (p q : Cpu) : Prop :=
  match mn with
  | .clc => q = { p with c := false }
  | .sec => q = { p with c := true }
  -- conditional branches that were not taken
  | .bcc => p.c = true ∧ q = p
  | .bcs => p.c = false ∧ q = p
  | .rep => q = { p with
      c := p.c && !bit operand 0
      x := forced p.e (p.x && !bit operand 4)
      m := forced p.e (p.m && !bit operand 5) }
  | .sep => q = { p with
      c := p.c || bit operand 0, x := p.x || bit operand 4, m := p.m || bit operand 5 }
  -- arithmetic, shifts, comparisons: arbitrary carry
  | .adc | .sbc | .padd | .psub | .asl | .lsr | .rol | .ror | .cmp | .cpx | .cpy =>
      ∃ c, q = { p with c := c }
  -- the stack
  | .pea | .pei | .per | .phd => Pushes 2 p q
  | .phb | .phk => Pushes 1 p q
  | .pha => Pushes p.aBytes p q
  | .phx | .phy => Pushes p.iBytes p q
  | .pla => Pulls p.aBytes p q
  | .plx | .ply => Pulls p.iBytes p q
  | .plb => Pulls 1 p q
  | .pld => Pulls 2 p q
  | .php => ∃ b, bit b 0 = p.c ∧ bit b 4 = p.x ∧ bit b 5 = p.m ∧ q = { p with stack := b :: p.stack }
  | .plp => ∃ b rest, (p.stack = b :: rest ∨ (p.stack = [] ∧ rest = [])) ∧
      q = { p with c := bit b 0, x := forced p.e (bit b 4), m := forced p.e (bit b 5), stack := rest }
  | .txs | .tcs => ∃ s, q = { p with stack := s }
  | .xce => q = { p with c := p.e, e := p.c, m := forced p.c p.m, x := forced p.c p.x }
  -- calls, back from the call
  | .jsr | .jsl | .brk | .cop | .jmp => Returns ret p q
  -- everything else leaves these bits and the stack alone
  | _ => q = p

/-- Taking a branch: nothing changes, and BCC, BCS tell what the carry is. -/
def Branches (mn : Mnemonic) (p q : Cpu) : Prop :=
  match mn with
  | .bcc => p.c = false ∧ q = p
  | .bcs => p.c = true ∧ q = p
  | _ => q = p

/-! ## What the analysis claims -/

/-- What `original` is taken to mean: which values a bit tracked as `original` may have,
and which sizes a register may have that was pushed at its `original` size. -/
structure Meaning where
  e : Bool → Prop
  m : Bool → Prop
  x : Bool → Prop
  a : Nat → Prop
  i : Nat → Prop

/-- `original` means: as in the processor state `p`, the state on entry. -/
def Meaning.asIn (p : Cpu) : Meaning := ⟨(· = p.e), (· = p.m), (· = p.x), (· = p.aBytes), (· = p.iBytes)⟩

/-- `original` means nothing at all. -/
def Meaning.anything : Meaning := ⟨fun _ => True, fun _ => True, fun _ => True, fun _ => True, fun _ => True⟩

/-- A meaning that respects emulation mode and the sizes of registers. -/
structure Meaning.Good (o : Meaning) : Prop where
  m_forced : ∀ e m, o.e e → o.m m → o.m (forced e m)
  x_forced : ∀ e x, o.e e → o.x x → o.x (forced e x)
  a_size : ∀ m, o.m m → o.a (if m then 1 else 2)
  i_size : ∀ x, o.x x → o.i (if x then 1 else 2)

/-- A tracked bit describes an actual bit; `o` says what `original` means. -/
def BitIs (o : Bool → Prop) : BitState → Bool → Prop
  | .off, b => b = false
  | .on, b => b = true
  | .original, b => o b
  | .unknown, _ => True

/-- The same, without giving a meaning to `original`. -/
def BitKnown : BitState → Bool → Prop
  | .off, b => b = false
  | .on, b => b = true
  | _, _ => True

/-- Tracked flags describe the processor. -/
def FlagsDescribe (o : Meaning) (f : StatusFlags) (p : Cpu) : Prop :=
  BitIs o.e f.e p.e ∧ BitIs o.m f.m p.m ∧ BitIs o.x f.x p.x ∧ BitKnown f.c p.c

/-- A tracked stack entry describes the bytes it stands for: one byte, or a register of
its original size. A saved status register describes the bits in the byte. -/
def EntryDescribes (o : Meaning) : StackValue → List UInt8 → Prop
  | .flags f, bs => ∃ b, bs = [b] ∧ BitIs o.m f.m (bit b 5) ∧ BitIs o.x f.x (bit b 4) ∧
      BitKnown f.c (bit b 0)
  | .var .a _, bs => o.a bs.length
  | .var _ _, bs => o.i bs.length
  | _, bs => bs.length = 1

/-- Tracked entries, top first, describe the top of the stack. -/
def StackDescribes (o : Meaning) : List StackValue → List UInt8 → Prop
  | [], _ => True
  | v :: l, s => ∃ bs rest, s = bs ++ rest ∧ EntryDescribes o v bs ∧ StackDescribes o l rest

/-- The tracked state describes the processor, if `original` means `o`. -/
def Describes (o : Meaning) (es : ExecutionState) (p : Cpu) : Prop :=
  p.Ok ∧ FlagsDescribe o es.flags p ∧
  match es.stack with
  | .abandoned => True
  | .live l => StackDescribes o l p.stack

/-- Every flag that is claimed known has the claimed value. -/
def KnownFlagsRight (f : StatusFlags) (p : Cpu) : Prop :=
  (f.e = .on → p.e = true) ∧ (f.e = .off → p.e = false) ∧
  (f.m = .on → p.m = true) ∧ (f.m = .off → p.m = false) ∧
  (f.x = .on → p.x = true) ∧ (f.x = .off → p.x = false) ∧
  (f.c = .on → p.c = true) ∧ (f.c = .off → p.c = false)

end Nsasm.Spec
