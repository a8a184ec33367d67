import Verif.Model.Assembler
import Verif.Spec.Ranges

/-!
# Specification of linking modules
-/

namespace Nsasm.Spec

/-- The module exports the name: it is qualified with the module's name, and a global label of
the module. -/
def Exports (m : Module) (id : FullId) : Prop :=
  id.module = some m.name ∧ ∃ t, (id.name, t) ∈ m.globals

/-- In this order, every module comes after modules that export the names it depends on. -/
def LinkOrder (l : List Module) : Prop :=
  ∀ pre m post, l = pre ++ m :: post → ∀ id ∈ m.deps, ∃ q ∈ pre, Exports q id

/-- No name is exported by two of the modules. -/
def UniqueExports (ms : List Module) : Prop :=
  ms.Pairwise fun a b => ∀ id, Exports a id → ¬ Exports b id

/-- The modules can be linked: no name is exported twice, and the modules can be ordered so that
each comes after those it depends on. -/
def Linkable (ms : List Module) : Prop :=
  UniqueExports ms ∧ ∃ l, l.Perm ms ∧ LinkOrder l

/-- Calls of an output sink's `Write`: addresses and bytes. -/
abbrev Writes := List (Addr × List UInt8)

/-- The addresses a write fills, wrapping inside the bank of its address. -/
def filled (w : Addr × List UInt8) : List Nat := (List.range w.2.length).map (wrapped w.1)

/-- The addresses the writes fill, in order and with repetitions. -/
def allFilled (ws : Writes) : List Nat := ws.flatMap filled

/-- Making exactly these calls, in this order, takes the sink from one state to another, and all
of them succeed. -/
inductive Feeds {σ : Type} (sink : Sink σ) : σ → Writes → σ → Prop
  | nil (s : σ) : Feeds sink s [] s
  | cons {s s' s'' : σ} {a : Addr} {bs : List UInt8} {ws : Writes} :
      sink s a bs = (s', .ok ()) → Feeds sink s' ws s'' → Feeds sink s ((a, bs) :: ws) s''

/-- A sink that accepts every write and keeps a record. -/
def recorder : Sink Writes := fun ws a bs => (ws ++ [(a, bs)], .ok ())

/-- The writes a line stands for, when `ctx` gives the values of its names: none if it takes no space, and
otherwise one, of the encoding of its statement at the address that is the value of the line. -/
def LineWrites (ctx : Ctx) (l : Line) (ws : Writes) : Prop :=
  (l.statement.serializedSize = 0 ∧ ws = []) ∨
  ∃ (a : Nat) (bs : List UInt8), l.value = some (a : Int) ∧
    l.statement.assembleBytes a ctx = .ok (some bs) ∧
    bs.length = l.statement.serializedSize ∧ bs ≠ [] ∧ ws = [(a, bs)]

/-- The line transfers control to an address given by number, or declares that code outside
does, in a state with these flags; `ctx` gives the values of names.  A jump or call with a 16-bit address stays in its bank. -/
inductive TransfersTo (ctx : Ctx) (l : Line) : Nat → StatusFlags → Prop
  | long {i : Instruction} {t : Nat} : l.statement = .instr i → i.mode = .dir_l →
      i.mnemonic = .jmp ∨ i.mnemonic = .jsl → i.arg1.eval nullCtx = .ok (t : Int) →
      TransfersTo ctx l t l.incoming.flags
  | near {i : Instruction} {a : Nat} {t : Int} : l.statement = .instr i → i.mode = .dir_w →
      i.mnemonic = .jmp ∨ i.mnemonic = .jsr → i.arg1.eval nullCtx = .ok t →
      l.value = some (a : Int) →
      TransfersTo ctx l (a / 0x10000 * 0x10000 + (t % 0x10000).toNat) l.incoming.flags
  | remote {d : Directive} {t : Nat} : l.statement = .dir d → d.name = .remote →
      d.argument.eval ctx = .ok (t : Int) →
      TransfersTo ctx l t d.flags

/-- The value of a line of a module. -/
def valueAt (m : Module) (t : Nat) : Option Int := (m.lines[t]?).bind (·.value)

/-- `externs` gives exactly the names the modules export, with the values of their lines. -/
def Publishes (ms : List Module) (externs : Ctx) : Prop :=
  ∀ id v, externs id = .ok v ↔
    ∃ m ∈ ms, ∃ t, id.module = some m.name ∧ (id.name, t) ∈ m.globals ∧ valueAt m t = some v

end Nsasm.Spec
