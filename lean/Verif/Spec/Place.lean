import Verif.Spec.Disassemble
import Verif.Model.Place

/-!
# Specification of where a disassembly can fail

`conv` is a table of return conventions and `asked` lists the calls that were made: a start address and
flags for each.  Both are what a user gave; nothing of a disassembler's listing is mentioned.
-/

namespace Nsasm.Spec

/-- A call, `j` at address `a`, returns as `r` says: as the table has it for the address that is called, and in the
ordinary way if the table has nothing for it. -/
inductive ReturnsAs (conv : OMap ReturnConvention) (a : Addr) (j : Instruction) : ReturnConvention → Prop
  | table {t : Addr} {r : ReturnConvention} (call : j.mnemonic = .jsr ∨ j.mnemonic = .jsl) (target : JumpsTo j a t)
      (entry : conv.find t = some r) : ReturnsAs conv a j r
  | ordinary (none : ∀ t, (j.mnemonic = .jsr ∨ j.mnemonic = .jsl) → JumpsTo j a t → conv.find t = none) :
      ReturnsAs conv a j .default

/-- Under the flags `f`, the bytes at address `a` are the instruction `i`. -/
inductive CodeAt (src : Source) (conv : OMap ReturnConvention) (a : Addr) (f : StatusFlags) : Instruction → Prop
  | code {bytes : List UInt8} {j : Instruction} {r : ReturnConvention} (read : src a 4 = .ok bytes)
      (decoded : decode bytes f = .ok j) (returns : ReturnsAs conv a j r) : CodeAt src conv a f { j with ret := r }

/-- A state that the flow of control may bring to an address.  Where several meet, they are merged. -/
inductive BroughtTo (src : Source) (conv : OMap ReturnConvention) (asked : List (Addr × StatusFlags)) :
    Addr → ExecutionState → Prop
  | start {a : Addr} {f : StatusFlags} (call : (a, f) ∈ asked) : BroughtTo src conv asked a (.init f)
  | next {a : Addr} {s t : ExecutionState} {i : Instruction} (before : BroughtTo src conv asked a s)
      (code : CodeAt src conv a s.flags i) (runs : i.execute s nullCtx = .ok t) (on : ¬ Stops (.instr i)) :
      BroughtTo src conv asked (following a i) t
  | branch {a : Addr} {s t : ExecutionState} {i : Instruction} {v : Int} (before : BroughtTo src conv asked a s)
      (code : CodeAt src conv a s.flags i) (may : MayBranch i) (offset : i.arg1.eval nullCtx = .ok v)
      (runs : i.executeBranch s = .ok t) : BroughtTo src conv asked (Address.addWrapped (following a i) v) t
  | merge {a : Addr} {s t : ExecutionState} (one : BroughtTo src conv asked a s)
      (other : BroughtTo src conv asked a t) : BroughtTo src conv asked a (s.merge t)

/-- There is no instruction to be shown at the address, in view of the flags: the bytes cannot be read, or they cannot
be decoded. -/
inductive CodeMissing (src : Source) (a : Addr) (f : StatusFlags) : Err → Prop
  | unreadable {e : Err} (fails : src a 4 = .err e) : CodeMissing src a f e
  | undecodable {bytes : List UInt8} {e : Err} (read : src a 4 = .ok bytes) (fails : decode bytes f = .err e) :
      CodeMissing src a f e

/-- A disassembler that was given the table `conv` and then called any number of times; `asked` lists the calls that
succeeded, the last one first. -/
inductive Called (src : Source) (conv : OMap ReturnConvention) : List (Addr × StatusFlags) → Disassembler → Prop
  | new : Called src conv [] (Disassembler.empty.addTargetReturnConventions conv)
  | call {asked : List (Addr × StatusFlags)} {d d' : Disassembler} {fuel start : Nat} {flags : StatusFlags}
      {T : OMap StatusFlags} (before : Called src conv asked d) (address : start ≤ 0x1000000)
      (ok : Constructible flags) (result : d.disassemble fuel src start flags = (d', .ok T)) :
      Called src conv ((start, flags) :: asked) d'
  | failed {asked : List (Addr × StatusFlags)} {d d' : Disassembler} {fuel start : Nat} {flags : StatusFlags}
      {e : Err} (before : Called src conv asked d) (address : start ≤ 0x1000000)
      (ok : Constructible flags) (result : d.disassemble fuel src start flags = (d', .err e)) (ended : e ≠ .steps) :
      Called src conv asked d'

/-- A byte cannot be read from the ROM: its address is not one of the cartridge's, or is past the end. -/
inductive Unreadable (rom : Rom) (a : Addr) : Err → Prop
  | unmapped {e : Err} (fails : snesToRom a rom.mapping = .err e) : Unreadable rom a e
  | past {n : Nat} (offset : snesToRom a rom.mapping = .ok n) (past : rom.data.length ≤ n) : Unreadable rom a .pastEndOfRom

end Nsasm.Spec
