import Verif.Model.Assembler

/-!
# The assembler, with any order of iteration over its hash tables

The order in which a loop goes through an `absl::flat_hash_map` is not specified and differs from run to run.  Only
`global_to_line_` (nsasm/module.h:117) is ever gone through, in two loops (nsasm/module.cc:320-324, 388-398).  The other
modules of the model do so in the order of insertion; here the order is arbitrary.
-/

namespace Nsasm

/-- In what order the names of module `i` are gone through: where they are exported (nsasm/module.cc:320-324;
nsasm/assembler.cc:42-52 then takes them from a `std::map`), and where addresses get their names (nsasm/module.cc:388-398). -/
structure Iteration where
  exports : Nat → List (Str × Nat) → List (Str × Nat)
  names : Nat → List (Str × Nat) → List (Str × Nat)

/-- `Assemble` (nsasm/module.cc:328-400); `gs` are the global names as they are gone through. -/
def Module.assembleIn {σ : Type} (gs : List (Str × Nat)) (m : Module) (externs : Ctx) (sink : Sink σ) (s : σ) :
    σ × Res Module :=
  let (s, r) := m.assembleLines externs sink m.lines s ⟨m.owned, m.targets, m.conventions⟩
  (s, do
    let o ← r
    let names ← m.nameAddresses m.addrNames gs
    .ok { m with owned := o.owned, targets := o.targets, conventions := o.conventions,
                 addrNames := names })

namespace Assembler

/-- One module of a round (nsasm/assembler.cc:28-53). -/
def considerIn (it : Iteration) (o : Ordering) (i : Nat) (m : Module) : Res Ordering :=
  if i ∈ o.order then .ok o
  else if m.deps.all (fun d => o.exported.has d) then do
    let exported ← addExports i o.exported ((it.exports i m.globals).map fun n => ⟨some m.name, n.1⟩)
    .ok ⟨o.order ++ [i], exported⟩
  else .ok o

/-- One round over the modules (nsasm/assembler.cc:27-54). -/
def roundIn (it : Iteration) (o : Ordering) (i : Nat) : List Module → Res Ordering
  | [] => .ok o
  | m :: ms => do
      let o ← considerIn it o i m
      roundIn it o (i + 1) ms

/-- The loop of `FindAssemblyOrder` (nsasm/assembler.cc:25-59), at most `n` rounds. -/
def orderLoopIn (it : Iteration) (ms : List Module) : Nat → Ordering → Res Ordering
  | 0, _ => .err .steps
  | n + 1, o =>
      if o.order.length < ms.length then do
        let o' ← roundIn it o 0 ms
        if o'.order.length = o.order.length then .err .cyclic else orderLoopIn it ms n o'
      else .ok o

/-- `FindAssemblyOrder` (nsasm/assembler.cc:19-61). -/
def findAssemblyOrderIn (it : Iteration) (ms : List Module) : Res Ordering :=
  orderLoopIn it ms (ms.length + 1) ⟨[], []⟩

/-- The final loop of `Assemble` (nsasm/assembler.cc:101-109). -/
def finalPassesIn {σ : Type} (it : Iteration) (sink : Sink σ) (a : Assembler) : List Nat → σ → σ × Res Assembler
  | [], s => (s, .ok a)
  | i :: is, s =>
      match a.modules[i]? with
      | none => (s, .ub .outOfBounds)
      | some m =>
        match m.assembleIn (it.names i m.globals) (lookup a.modules a.names) sink s with
        | (s, .err e) => (s, .err e)
        | (s, .ub u) => (s, .ub u)
        | (s, .ok m) =>
          match a.memory.insert m.owned i with
          | (_, false) => (s, .err .overlap)
          | (memory, true) =>
              finalPassesIn it sink { a with modules := a.modules.set i m, memory := memory } is s

/-- The two analysis passes of `Assemble` (nsasm/assembler.cc:86-99). -/
def prepareIn (it : Iteration) (fuel : Nat) (ms : List Module) : Res (Assembler × List Nat) := do
  let o ← findAssemblyOrderIn it ms
  let ms ← firstPasses fuel ms o.order
  let ms ← secondPasses o.exported ms o.order
  .ok (⟨ms, o.exported, .empty⟩, o.order)

/-- `Assembler::Assemble` (nsasm/assembler.cc:85-112). -/
def assembleIn {σ : Type} (it : Iteration) (fuel : Nat) (ms : List Module) (sink : Sink σ) (s : σ) :
    σ × Res Assembler :=
  match prepareIn it fuel ms with
  | .err e => (s, .err e)
  | .ub u => (s, .ub u)
  | .ok (a, order) => finalPassesIn it sink a order s

/-- `Assemble(files, sink)` (nsasm/assembler.cc:163-170). -/
def assembleFilesIn {σ : Type} (it : Iteration) (fuel : Nat) (files : List (List Str)) (sink : Sink σ) (s : σ) :
    σ × Res Assembler :=
  match loadAll files with
  | .ok ms => assembleIn it fuel ms sink s
  | .err e => (s, .err e)
  | .ub u => (s, .ub u)

end Assembler

end Nsasm
