import Verif.Spec.Module
import Verif.Spec.Expr
import Verif.Spec.Syntax
import Verif.Spec.Disassemble

/-!
# Specification of the programs that can be assembled without a crash

The conditions are given relative to bounds for the values of names, chosen by whoever applies
the specification: `A n v` says that `v` is within the bounds of the name `n`.
-/

namespace Nsasm.Spec

/-- A value that can be made an address: one of a byte, or the one behind the last. -/
def IsAddress (v : Int) : Prop := 0 ≤ v ∧ v ≤ 0x1000000

/-- The expression is written on a line of the file. -/
def WrittenIn (file : List Str) (e : Expr) : Prop :=
  ∃ line ∈ file, ∃ ts p q r, tokenize line = .ok ts ∧ ts = p ++ q ++ r ∧ Derives .expr q e

/-- The names that have a value have one within the bounds. -/
def Respects (A : Str → Int → Prop) (env : FullId → Option Int) : Prop :=
  ∀ id v, env id = some v → A id.name v ∧ InInt v

/-- If the names are within the bounds, the value of `e`, if it has one, is in `B`. -/
def Yields (A : Str → Int → Prop) (e : Expr) (B : Int → Prop) : Prop :=
  ∀ env, Respects A env → ∀ v, denote env e = some v → B v

/-- The value of `e`, if it has one without looking at names, is in `B`. -/
def YieldsAlone (e : Expr) (B : Int → Prop) : Prop := ∀ v, denote (fun _ => none) e = some v → B v

/-- If the names are within the bounds, no operation in `e` has a result that is not an `int`. -/
def Tame (A : Str → Int → Prop) (e : Expr) : Prop := ∀ s, Occurs s e → Yields A s InInt

/-- The value is not close to the ends of the range of `int`. -/
def AwayFromEnds (v : Int) : Prop := -2147483648 + 65536 ≤ v ∧ v < 2147483647 - 65536

/-- The statements of a program keep within the bounds. -/
structure BoundedProgram (A : Str → Int → Prop) (P : Program) : Prop where
  /-- A constant is within the bounds of its names. -/
  constants : ∀ l ∈ P, ∀ d, l.statement = .dir d → d.name = .equ → ∀ lab ∈ l.labels,
    Yields A d.argument (A lab.name)
  /-- The bounds of a label that is not a constant do not exclude any address. -/
  labels : ∀ l ∈ P, IsDirective .equ l = false → ∀ lab ∈ l.labels, ∀ v, IsAddress v → A lab.name v
  /-- A constant visible in the whole module is an address. -/
  globals : ∀ name i l d, Defines P none name i → P[i]? = some l → l.statement = .dir d →
    d.name = .equ → Yields A d.argument IsAddress
  /-- `.org` is given an address. -/
  origins : ∀ l ∈ P, ∀ d, l.statement = .dir d → d.name = .org → YieldsAlone d.argument IsAddress
  /-- `.remote` is given an address. -/
  remotes : ∀ l ∈ P, ∀ d, l.statement = .dir d → d.name = .remote → Yields A d.argument IsAddress
  /-- The target of a branch is an address. -/
  branches : ∀ l ∈ P, ∀ i, l.statement = .instr i → i.mode = .rel8 ∨ i.mode = .rel16 →
    Yields A i.arg1 IsAddress
  /-- The target of a long jump is an address, if it is a number. -/
  jumps : ∀ l ∈ P, ∀ i, l.statement = .instr i → i.mode = .dir_l → i.mnemonic = .jmp ∨ i.mnemonic = .jsl →
    YieldsAlone i.arg1 IsAddress
  /-- The first operand of MVN, MVP is not close to the ends of the range of `int`, if it is a number. -/
  moves : ∀ l ∈ P, ∀ i, l.statement = .instr i → i.mnemonic = .mvn ∨ i.mnemonic = .mvp →
    YieldsAlone i.arg1 AwayFromEnds
  /-- Every `.entry` gives the sizes of the registers, or there is no PLA, PLX, PLY. -/
  sizes : (∀ l ∈ P, ∀ d, l.statement = .dir d → d.name = .entry → GivesSizes d.flags) ∨
    (∀ l ∈ P, ∀ i, l.statement = .instr i → i.mnemonic ∉ [.pla, .plx, .ply])

/-- The file keeps within the bounds. -/
structure BoundedFile (A : Str → Int → Prop) (file : List Str) : Prop where
  expressions : ∀ e, WrittenIn file e → Tame A e
  statements : ∀ items, FileItems file items → BoundedProgram A (program [] items)

/-! ## Plain files, for which the conditions hold with all names being addresses -/

/-- A line of at most 127 tokens, without products, whose numbers have at most 24 bits. -/
def ModestLine (ts : List Token) : Prop :=
  ts.length ≤ 127 ∧ tok '*' ∉ ts ∧ ∀ v t, .lit v t ∈ ts → -0x1000000 ≤ t.castTo v ∧ t.castTo v ≤ 0x1000000

/-- A name, or a number that is an address. -/
def PlainOperand (e : Expr) : Prop := (∃ id t, e = .ident id t) ∨ ∃ v t, e = .lit v t ∧ IsAddress v

/-- `.equ`, `.org` and `.remote` have a plain operand.  So do long jumps and block moves, or their operand
mentions a name. -/
def PlainStatement : Statement → Prop
  | .dir d => d.name = .equ ∨ d.name = .org ∨ d.name = .remote → PlainOperand d.argument
  | .instr i => (i.mode = .dir_l ∧ (i.mnemonic = .jmp ∨ i.mnemonic = .jsl)) ∨ i.mnemonic = .mvn ∨ i.mnemonic = .mvp →
      PlainOperand i.arg1 ∨ ∃ id, Mentions id i.arg1

/-- Every `.entry` among the statements gives the sizes of the registers, or there is no PLA, PLX, PLY. -/
def SizesKnown (sts : List Statement) : Prop :=
  (∀ d, .dir d ∈ sts → d.name = .entry → GivesSizes d.flags) ∨
    (∀ i, .instr i ∈ sts → i.mnemonic ∉ [Mnemonic.pla, .plx, .ply])

/-- The statements among the items. -/
def statementsOf (items : List Item) : List Statement :=
  items.filterMap fun | .stmt st => some st | .label _ => none

/-- A file that assembles without a crash. -/
structure PlainFile (file : List Str) : Prop where
  lines : ∀ line ∈ file, ∀ ts, tokenize line = .ok ts → ModestLine ts
  statements : ∀ items, FileItems file items → ∀ st ∈ statementsOf items, PlainStatement st
  sizes : ∀ items, FileItems file items → SizesKnown (statementsOf items)

end Nsasm.Spec
