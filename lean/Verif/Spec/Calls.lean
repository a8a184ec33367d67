import Verif.Spec.Disassemble
import Verif.Spec.Instruction

/-!
# Specification: listings that say the same

Several routines of one program are disassembled one after the other.  Here is what it means that two
listings say the same about the program.
-/

namespace Nsasm.Spec

/-- The disassembler after calls that all succeeded, with the table `conv` of return conventions; `asked` are the
addresses and flags of the calls, the last one first. -/
inductive Disassembled (src : Source) (conv : OMap ReturnConvention) : List (Addr × StatusFlags) → Disassembler → Prop
  | new : Disassembled src conv [] (Disassembler.empty.addTargetReturnConventions conv)
  | call {asked : List (Addr × StatusFlags)} {d d' : Disassembler} {fuel start : Nat} {flags : StatusFlags}
      {T : OMap StatusFlags} (before : Disassembled src conv asked d) (address : start ≤ 0x1000000)
      (ok : Constructible flags) (result : d.disassemble fuel src start flags = (d', .ok T)) :
      Disassembled src conv ((start, flags) :: asked) d'

/-- The operand of an instruction, whatever the name of the label that it refers to. -/
def SameOperand (x y : Expr) : Prop := x = y ∨ ∃ e name name', x = .label name e ∧ y = .label name' e

/-- Two entries for one address say the same: the instruction, the flags before and after it, and whether the address
has a name. -/
structure SameEntry (it jt : DisItem) : Prop where
  mnemonic : it.instruction.mnemonic = jt.instruction.mnemonic
  mode : it.instruction.mode = jt.instruction.mode
  operand : SameOperand it.instruction.arg1 jt.instruction.arg1
  second : it.instruction.arg2 = jt.instruction.arg2
  convention : it.instruction.ret = jt.instruction.ret
  before : it.current.flags = jt.current.flags
  after : it.next.flags = jt.next.flags
  named : it.label = [] ↔ jt.label = []

/-- Of every flag, `g` says the same as `f` or that it is not known. -/
def NoMoreKnown (f g : StatusFlags) : Prop :=
  (g.e = f.e ∨ g.e = .unknown) ∧ (g.m = f.m ∨ g.m = .unknown) ∧ (g.x = f.x ∨ g.x = .unknown) ∧ (g.c = f.c ∨ g.c = .unknown)

/-- The second entry has the instruction of the first, and knows no more about the flags. -/
structure WeakerEntry (it jt : DisItem) : Prop where
  mnemonic : it.instruction.mnemonic = jt.instruction.mnemonic
  mode : it.instruction.mode = jt.instruction.mode
  operand : SameOperand it.instruction.arg1 jt.instruction.arg1
  second : it.instruction.arg2 = jt.instruction.arg2
  convention : it.instruction.ret = jt.instruction.ret
  before : NoMoreKnown it.current.flags jt.current.flags
  after : NoMoreKnown it.next.flags jt.next.flags

/-- What is printed of a listing if the suffixes `.b` and `.w` are left out. -/
def withoutSuffixes (m : OMap DisItem) : OMap DisItem :=
  m.map fun p => (p.1, { p.2 with instruction := { p.2.instruction with suffix := .none } })

/-- The instruction works on as many bits as the accumulator has. -/
def AsWideAsA (m : Mnemonic) : Prop :=
  m ∈ [Mnemonic.adc, .and, .asl, .bit, .cmp, .dec, .eor, .inc, .lda, .lsr, .ora, .pha, .pla, .rol, .ror, .sbc, .sta, .stz,
    .trb, .tsb, .txa, .tya, .padd, .psub]

/-- The instruction works on as many bits as the index registers have. -/
def AsWideAsX (m : Mnemonic) : Prop :=
  m ∈ [Mnemonic.cpx, .cpy, .dex, .dey, .inx, .iny, .ldx, .ldy, .phx, .phy, .plx, .ply, .stx, .sty, .tax, .tay, .tsx, .txy,
    .tyx]

/-- The size of the operand is known from the flags wherever the mnemonic leaves it open. -/
def SizesKnownIn (m : OMap DisItem) : Prop :=
  ∀ a it, Lists m a it →
    (AsWideAsA it.instruction.mnemonic → it.current.flags.m = .on ∨ it.current.flags.m = .off) ∧
    (AsWideAsX it.instruction.mnemonic → it.current.flags.x = .on ∨ it.current.flags.x = .off)

end Nsasm.Spec
