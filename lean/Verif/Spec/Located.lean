import Verif.Spec.Flow
import Verif.Spec.Module
import Verif.Spec.Link
import Verif.Model.Located

/-!
# Specification of what is wrong with a line of a file

Lines of a file are counted from 1, as in the messages of the assembler.  Statements are counted from 0.
-/

namespace Nsasm.Spec

/-! ## Loading -/

/-- A file that begins with these lines does not load, whatever follows, and always for the same reason. -/
def Doomed (lines : List Str) (e : Err) : Prop := ∀ rest, Module.loadAsmFile (lines ++ rest) = .err e

/-- With line `n` there is no hope for the file; the lines before could have been the beginning of a file with
another outcome. -/
def FirstDoomed (file : List Str) (n : Nat) (e : Err) : Prop :=
  0 < n ∧ n ≤ file.length ∧ Doomed (file.take n) e ∧ ∀ k, k < n → ∀ e', ¬ Doomed (file.take k) e'

/-- Statement `j` of the file stands on line `n`: the lines before have at most `j` statements, and with line `n` there
are more. -/
def StandsOn (file : List Str) (n j : Nat) : Prop :=
  ∃ before line after xs ys, file = before ++ line :: after ∧ n = before.length + 1 ∧
    FileItems before xs ∧ FileItems [line] ys ∧
    (program [] xs).length ≤ j ∧ j < (program [] (xs ++ ys)).length

/-- On line `n` the innermost of the scopes is opened that are still open at the end of the file. -/
def NeverClosed (file : List Str) (n : Nat) : Prop :=
  ∃ items j, FileItems file items ∧ StandsOn file n j ∧
    Encloses (program [] items) j (program [] items).length ∧
    ∀ j', Encloses (program [] items) j' (program [] items).length → j' ≤ j

/-! ## The flow of control and the layout -/

/-- A state that the flow of control may bring to a statement.  Where several meet, they are merged. -/
inductive Arrives (m : Module) : Nat → ExecutionState → Prop
  | entry {i : Nat} {f : StatusFlags} (h : DeclaresEntry m i f) : Arrives m (i + 1) (.init f)
  | next {k : Nat} {l : Line} {s t : ExecutionState} (before : Arrives m k s) (here : m.lines[k]? = some l)
      (runs : l.statement.execute s = .ok t) (on : ¬ Stops l.statement) : Arrives m (k + 1) t
  | branch {k t : Nat} {l : Line} {i : Instruction} {name : Str} {s u : ExecutionState} (before : Arrives m k s)
      (here : m.lines[k]? = some l) (instr : l.statement = .instr i) (may : MayBranch i)
      (named : i.arg1.simpleIdentifier = some name) (target : m.localIndex name l.scopes = some t)
      (runs : i.executeBranch s = .ok u) : Arrives m t u
  | merge {k : Nat} {s t : ExecutionState} (one : Arrives m k s) (other : Arrives m k t) : Arrives m k (s.merge t)

/-- The statement takes up bytes. -/
def TakesSpace : Statement → Prop
  | .instr _ => True
  | .dir d => d.serializedSize > 0

/-- What can be wrong with statement `j` of a module, as it was loaded, in view of the flow of control and the layout. -/
inductive FlowFault (m : Module) (j : Nat) : Err → Prop
  /-- It does not run in a state that may arrive there. -/
  | runs {l : Line} {s : ExecutionState} {e : Err} (here : m.lines[j]? = some l) (arrives : Arrives m j s)
      (fails : l.statement.execute s = .err e) : FlowFault m j e
  /-- It branches to a name that means nothing there. -/
  | target {l : Line} {i : Instruction} {name : Str} {s : ExecutionState} (here : m.lines[j]? = some l)
      (arrives : Arrives m j s) (instr : l.statement = .instr i) (may : MayBranch i)
      (named : i.arg1.simpleIdentifier = some name) (unknown : m.localIndex name l.scopes = none) :
      FlowFault m j .undefinedName
  /-- The branch does not run in a state that may arrive there. -/
  | branch {l : Line} {i : Instruction} {s : ExecutionState} {e : Err} (here : m.lines[j]? = some l)
      (arrives : Arrives m j s) (instr : l.statement = .instr i) (may : MayBranch i)
      (fails : i.executeBranch s = .err e) : FlowFault m j e
  /-- It is an instruction that execution does not reach from an entry point. -/
  | unreached {l : Line} {i : Instruction} (here : m.lines[j]? = some l) (instr : l.statement = .instr i)
      (never : ¬ Reachable m j) : FlowFault m j .unreached
  /-- The size of its operand is not known in a state that may arrive there. -/
  | size {l : Line} {i : Instruction} {s : ExecutionState} {e : Err} (here : m.lines[j]? = some l)
      (arrives : Arrives m j s) (instr : l.statement = .instr i) (fails : i.fixAddressingMode s.flags = .err e) :
      FlowFault m j e
  /-- It is an `.org` whose operand has no value. -/
  | origin {l : Line} {d : Directive} {e : Err} (here : m.lines[j]? = some l) (dir : l.statement = .dir d)
      (org : d.name = .org) (fails : d.argument.eval nullCtx = .err e) : FlowFault m j e
  /-- It takes up bytes and there is no `.org` before it. -/
  | noOrigin {l : Line} (here : m.lines[j]? = some l) (space : TakesSpace l.statement)
      (none : ∀ (k : Nat) (q : Line), k ≤ j → m.lines[k]? = some q → ¬ IsOrg q) : FlowFault m j .noOrigin

/-! ## Values and bytes -/

/-- `m'` is the module `m` when the constants that are defined before statement `j` have got their values, and nothing
else has changed. -/
structure Partway (m : Module) (externs : Ctx) (j : Nat) (m' : Module) : Prop where
  name : m'.name = m.name
  globals : m'.globals = m.globals
  locals : ∀ i, m'.localsAt i = m.localsAt i
  length : m'.lines.length = m.lines.length
  line : ∀ (k : Nat) (l l' : Line), m.lines[k]? = some l → m'.lines[k]? = some l' →
    (¬ (k < j ∧ IsEqu l) → l' = l) ∧
    (∀ d, k < j → l.statement = .dir d → d.name = .equ → ∃ v, l' = { l with value := some v } ∧
      d.argument.eval (m'.lookup l.scopes externs) = .ok v)

/-- Statement `j` of a module is an `.equ` whose operand has no value; `m` is the module after its first pass. -/
inductive ConstantFault (m : Module) (externs : Ctx) (j : Nat) : Err → Prop
  | value {m' : Module} {l : Line} {d : Directive} {e : Err} (here : m.lines[j]? = some l) (dir : l.statement = .dir d)
      (equ : d.name = .equ) (before : Partway m externs j m')
      (fails : d.argument.eval (m'.lookup l.scopes externs) = .err e) : ConstantFault m externs j e

/-- What can be wrong with statement `j` of a module that has been through its two passes, when its bytes are to be
written to a sink that was in state `s₀` at the start. -/
inductive WriteFault {σ : Type} (m : Module) (externs : Ctx) (sink : Sink σ) (s₀ : σ) (j : Nat) : Err → Prop
  /-- It has no encoding at its address. -/
  | bytes {l : Line} {a : Nat} {e : Err} (here : m.lines[j]? = some l) (value : l.value = some (a : Int))
      (fails : l.statement.assembleBytes a (m.lookup l.scopes externs) = .err e) : WriteFault m externs sink s₀ j e
  /-- The sink refuses its bytes, after the writes before it. -/
  | refused {l : Line} {a : Nat} {bs : List UInt8} {ws : Writes} {s s' : σ} {e : Err} (here : m.lines[j]? = some l)
      (before : Feeds sink s₀ ws s) (writes : LineWrites (m.lookup l.scopes externs) l [(a, bs)]) (refuses : sink s a bs = (s', .err e)) :
      WriteFault m externs sink s₀ j e
  /-- It goes where an earlier statement of the module has gone. -/
  | twice {k : Nat} {l q : Line} {v w : Addr × List UInt8} {x : Nat} (here : m.lines[j]? = some l) (earlier : k < j)
      (there : m.lines[k]? = some q) (writes : LineWrites (m.lookup l.scopes externs) l [v])
      (wrote : LineWrites (m.lookup q.scopes externs) q [w]) (one : x ∈ filled v) (other : x ∈ filled w) :
      WriteFault m externs sink s₀ j .overlap
  /-- It is longer than a bank and reaches its own beginning. -/
  | itself {l : Line} {v : Addr × List UInt8} (here : m.lines[j]? = some l)
      (writes : LineWrites (m.lookup l.scopes externs) l [v]) (long : v.2.length > 0x10000) :
      WriteFault m externs sink s₀ j .overlap
  /-- It is a `.remote` whose operand has no value. -/
  | remote {l : Line} {d : Directive} {e : Err} (here : m.lines[j]? = some l) (dir : l.statement = .dir d)
      (remote : d.name = .remote) (fails : d.argument.eval (m.lookup l.scopes externs) = .err e) :
      WriteFault m externs sink s₀ j e
  /-- It is an `.entry`, or has a label, and there is no `.org` before it. -/
  | noPlace {l : Line} (here : m.lines[j]? = some l) (notConstant : ¬ IsEqu l)
      (needs : (∃ d, l.statement = .dir d ∧ d.name = .entry) ∨ ∃ name, (name, j) ∈ m.globals)
      (none : ∀ (k : Nat) (q : Line), k ≤ j → m.lines[k]? = some q → ¬ IsOrg q) : WriteFault m externs sink s₀ j .noValue

/-- What is wrong with the line of one of the files that is named by the location: its number, counted from 1, and the path
of the file. -/
inductive AtFault {σ : Type} (files : List (Str × List Str)) (fuel : Nat) (sink : Sink σ) (s₀ : σ) : Location → Err → Prop
  | load {path : Str} {file : List Str} {n : Nat} {e : Err} (one : (path, file) ∈ files)
      (fault : FirstDoomed file n e) : AtFault files fuel sink s₀ ⟨path, some n⟩ e
  | scope {path : Str} {file : List Str} {n : Nat} (one : (path, file) ∈ files) (fault : NeverClosed file n) :
      AtFault files fuel sink s₀ ⟨path, some n⟩ .unclosedScope
  | flow {path : Str} {file : List Str} {n j : Nat} {m : Module} {e : Err} (one : (path, file) ∈ files)
      (loads : Module.loadAsmFile file = .ok m) (line : StandsOn file n j) (fault : FlowFault m j e) :
      AtFault files fuel sink s₀ ⟨path, some n⟩ e
  | constant {path : Str} {file : List Str} {n i j : Nat} {ms ms₁ ms' : List Module} {m : Module}
      {o : Assembler.Ordering} {pre post : List Nat} {e : Err} (one : files[i]? = some (path, file))
      (loads : Assembler.loadAll (files.map (·.2)) = .ok ms) (ordered : Assembler.findAssemblyOrder ms = .ok o)
      (first : Assembler.firstPasses fuel ms o.order = .ok ms₁) (turn : o.order = pre ++ i :: post)
      (before : Assembler.secondPasses o.exported ms₁ pre = .ok ms') (here : ms'[i]? = some m)
      (line : StandsOn file n j) (fault : ConstantFault m (Assembler.lookup ms' o.exported) j e) :
      AtFault files fuel sink s₀ ⟨path, some n⟩ e
  | write {path : Str} {file : List Str} {n i j : Nat} {ms : List Module} {m : Module} {a : Assembler} {order : List Nat}
      {e : Err} (one : files[i]? = some (path, file)) (loads : Assembler.loadAll (files.map (·.2)) = .ok ms)
      (prepared : Assembler.prepare fuel ms = .ok (a, order)) (here : a.modules[i]? = some m) (line : StandsOn file n j)
      (fault : WriteFault m (Assembler.lookup a.modules a.names) sink s₀ j e) : AtFault files fuel sink s₀ ⟨path, some n⟩ e

/-- What is reported without a location. -/
inductive Unplaced (files : List (Str × List Str)) : Err → Prop
  /-- The analysis took more steps than were allowed. -/
  | steps : Unplaced files .steps
  /-- A file refers to a name that no file defines, or files refer to each other. -/
  | cyclic : Unplaced files .cyclic
  /-- Two files claim the same address. -/
  | overlap : Unplaced files .overlap
  /-- Execution continues past the end of a file. -/
  | pastEnd {path : Str} {file : List Str} {m : Module} {s : ExecutionState} (one : (path, file) ∈ files)
      (loads : Module.loadAsmFile file = .ok m) (runs : Arrives m m.lines.length s) : Unplaced files .pastEndOfFile
  /-- A line does not parse for a reason that is not tied to one of its words. -/
  | parse {path : Str} {file : List Str} {line : Str} {ts : List Token} (one : (path, file) ∈ files) (within : line ∈ file)
      (words : tokenize line = .ok ts) (fails : Parse.parse ts = .err .other) : Unplaced files .other

/-- Two files define the same name; the location has the path of the one, and the number of its statement. -/
inductive TwiceDefined (files : List (Str × List Str)) : Location → Prop
  | name {i k : Nat} {path path' : Str} {file file' : List Str} {m m' : Module} {name : Str} {t t' : Nat}
      (different : i ≠ k) (one : files[i]? = some (path, file)) (other : files[k]? = some (path', file'))
      (loads : Module.loadAsmFile file = .ok m) (loads' : Module.loadAsmFile file' = .ok m') (same : m'.name = m.name)
      (defines : (name, t) ∈ m.globals) (defines' : (name, t') ∈ m'.globals) : TwiceDefined files ⟨path, some t⟩

end Nsasm.Spec
