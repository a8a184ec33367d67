import Verif.Props.Shown
import Verif.Props.Driver

/-!
# What a successful check of a listing means

C98: a ROM that has what a listing assembles to is disassembled to that listing.
-/

namespace Nsasm.Props
open Nsasm Nsasm.Spec Nsasm.Disassembler Nsasm.Tools

/-- What a listing assembles to are the bytes that it was made from, all of them: a ROM of the same kind and size that has them
has the same code. -/
theorem same_of_check {rom rom' : Rom} {d d' : Disassembler} (h : Session HasName rom.read d) (hcl : d.cleanup = .ok d')
    (mapping : rom'.mapping = rom.mapping) (size : rom'.data.length = rom.data.length) {fuel : Nat} {ws : Writes} {as : Assembler}
    (hasm : Assembles fuel [Print.listing d'.disassembly] ws as) (hin : InRom rom' ws) :
    SameCode d.disassembly rom rom' := by
  obtain ⟨vs, hf, -, h1, h2⟩ := C64_listing_reassembles rom h hcl hasm
  have hvw := feeds_recorder_eq hf
  simp only [List.nil_append] at hvw
  subst hvw
  refine ⟨mapping, size, fun a it ha k hk b hb => ?_⟩
  obtain ⟨b', hb'⟩ := h2 a it ha k hk
  obtain ⟨off, o1, o2⟩ := h1 _ _ hb'
  obtain ⟨off', p1, p2⟩ := hin _ _ hb'
  obtain ⟨off'', q1, q2⟩ := hb
  have hw : wrapped a k = a / 0x10000 * 0x10000 + (a + k) % 0x10000 := rfl
  rw [hw] at o1 p1
  rw [o1] at q1
  cases q1
  rw [o2] at q2
  cases q2
  exact ⟨off', p1, p2⟩

/-! ## C98 -/

/-- **A ROM that passes the check of a listing is disassembled to that listing.**  The tool prints the listing of a ROM, without
reporting a failure.  If the assembling tool finds that another ROM, of the same kind and size, has what that listing
assembles to, then the tool prints exactly the same lines for the other ROM. -/
theorem C98_checked {msg : Err → Str} {fuel : Nat} {r : RomFile} {args : List SeedArg} {out : Outcome}
    (h : disassembleRom msg fuel r.rom args = .ok out) (status : out.status = 0) (clean : NoFailures out.lines)
    {r' : RomFile} (mapping : r'.rom.mapping = r.rom.mapping) (size : r'.rom.data.length = r.rom.data.length)
    (pointers : SamePointers args r.rom r'.rom) {msg' : Err → Str} {fuel' : Nat} {out' : Outcome}
    (check : assembleRom msg' fuel' r' cs!"-" [out.lines] = .ok out') (good : out'.status = 0) :
    disassembleRom msg fuel r'.rom args = .ok out := by
  obtain ⟨d, c, hx, hcl, hlines, hsame⟩ := C97_tool h status clean
  obtain ⟨ws, as, h1, h2, -⟩ := (C66_identity_check _).mp ⟨check, good⟩
  rw [hlines] at h1
  exact hsame r'.rom (same_of_check (explored_session hx) hcl mapping size h1 h2) pointers

/-- What the tool prints for the routine at an address if it ends well, otherwise nothing. -/
def printedFor (rom : Rom) (a : Nat) : List Str :=
  match disassembleRom (fun _ => cs!"why") 20 rom [⟨false, a, cs!"m8x8"⟩] with
  | .ok out => if out.status = 0 then out.lines else []
  | _ => []

/-- Whether the check finds that the ROM has what the lines assemble to. -/
def checks (rom : Rom) (lines : List Str) : Bool :=
  match assembleRom (fun _ => cs!"why") 20 ⟨[], rom⟩ cs!"-" [lines] with
  | .ok out => out.status == 0
  | _ => false

/-- Two ROMs with the same routine at $8004 and other bytes elsewhere: the second passes the check of the listing of the
first. -/
example : printedFor sharedRom 0x8004 ≠ [] ∧ ((printedFor sharedRom 0x8004).all fun l => !(cs!"; ERROR").isPrefixOf l) = true ∧
    checks patchedRom (printedFor sharedRom 0x8004) = true ∧
    printedFor patchedRom 0x8004 = printedFor sharedRom 0x8004 ∧ sharedRom.data ≠ patchedRom.data := by
  decide +kernel

end Nsasm.Props
