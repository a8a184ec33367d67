import Verif.Model.Module

/-! # The assembler (nsasm/assembler.h, nsasm/assembler.cc) -/

namespace Nsasm

/-- `class Assembler` (nsasm/assembler.h).  A `Module*` is an index into
`modules`. -/
structure Assembler where
  modules : List Module
  names : HMap FullId Nat
  memory : RangeMap Nat

namespace Assembler

/-- The state of `FindAssemblyOrder` (nsasm/assembler.cc:20-23).  `exported` is both
`exported_names` (its keys) and `name_to_module_map_`: they are filled together.
`already_inserted` holds the elements of `order`. -/
structure Ordering where
  order : List Nat
  exported : HMap FullId Nat
deriving DecidableEq, Repr

/-- The loop over the exports of a module (nsasm/assembler.cc:42-52). -/
def addExports (i : Nat) (exported : HMap FullId Nat) : List FullId → Res (HMap FullId Nat)
  | [] => .ok exported
  | n :: ns =>
      if exported.has n then .err .duplicateExport
      else addExports i (exported.insertNew n i) ns

/-- One module of a round (nsasm/assembler.cc:28-53). -/
def consider (o : Ordering) (i : Nat) (m : Module) : Res Ordering :=
  if i ∈ o.order then .ok o
  else if m.deps.all (fun d => o.exported.has d) then do
    let exported ← addExports i o.exported m.exportedNames
    .ok ⟨o.order ++ [i], exported⟩
  else .ok o

/-- One round over the modules (nsasm/assembler.cc:27-54); `i` is the index of the
first module of the list. -/
def round (o : Ordering) (i : Nat) : List Module → Res Ordering
  | [] => .ok o
  | m :: ms => do
      let o ← consider o i m
      round o (i + 1) ms

/-- The loop of `FindAssemblyOrder` (nsasm/assembler.cc:25-59), at most `n` rounds.
`more_found` is set exactly when the order grew. -/
def orderLoop (ms : List Module) : Nat → Ordering → Res Ordering
  | 0, _ => .err .steps
  | n + 1, o =>
      if o.order.length < ms.length then do
        let o' ← round o 0 ms
        if o'.order.length = o.order.length then .err .cyclic else orderLoop ms n o'
      else .ok o

/-- `FindAssemblyOrder` (nsasm/assembler.cc:19-61).  Every round but a failing one
adds a module, so the bound on the rounds is never reached
(`Props.C45_bound_not_reached`). -/
def findAssemblyOrder (ms : List Module) : Res Ordering :=
  orderLoop ms (ms.length + 1) ⟨[], []⟩

/-- `AssemblerLookupContext::Lookup` (nsasm/assembler.cc:67-79). -/
def lookup (ms : List Module) (names : HMap FullId Nat) : Ctx := fun id =>
  if id.module.isNone then .error .other
  else match names.find id with
    | none => .error .undefinedName
    | some i =>
      match ms[i]? with
      | none => .error .undefinedName
      | some m => m.valueForName id

/-- The first-pass loop of `Assemble` (nsasm/assembler.cc:89-92). -/
def firstPasses (fuel : Nat) (ms : List Module) : List Nat → Res (List Module)
  | [] => .ok ms
  | i :: is =>
      match ms[i]? with
      | none => .ub .outOfBounds
      | some m => do
          let m ← m.runFirstPass fuel
          firstPasses fuel (ms.set i m) is

/-- The second-pass loop of `Assemble` (nsasm/assembler.cc:94-99).  The C++ context
looks at the live modules; while module `i` runs its pass the model uses the state
before it.  That is the same, since `i`'s own names are found without asking the
context. -/
def secondPasses (names : HMap FullId Nat) (ms : List Module) : List Nat → Res (List Module)
  | [] => .ok ms
  | i :: is =>
      match ms[i]? with
      | none => .ub .outOfBounds
      | some m => do
          let m ← m.runSecondPass (lookup ms names)
          secondPasses names (ms.set i m) is

/-- The final loop of `Assemble` (nsasm/assembler.cc:101-109). -/
def finalPasses {σ : Type} (sink : Sink σ) (a : Assembler) : List Nat → σ → σ × Res Assembler
  | [], s => (s, .ok a)
  | i :: is, s =>
      match a.modules[i]? with
      | none => (s, .ub .outOfBounds)
      | some m =>
        match m.assemble (lookup a.modules a.names) sink s with
        | (s, .err e) => (s, .err e)
        | (s, .ub u) => (s, .ub u)
        | (s, .ok m) =>
          match a.memory.insert m.owned i with
          | (_, false) => (s, .err .overlap)
          | (memory, true) =>
              finalPasses sink { a with modules := a.modules.set i m, memory := memory } is s

/-- The two analysis passes of `Assemble` (nsasm/assembler.cc:86-99). -/
def prepare (fuel : Nat) (ms : List Module) : Res (Assembler × List Nat) := do
  let o ← findAssemblyOrder ms
  let ms ← firstPasses fuel ms o.order
  let ms ← secondPasses o.exported ms o.order
  .ok (⟨ms, o.exported, .empty⟩, o.order)

/-- `Assembler::Assemble` (nsasm/assembler.cc:85-112) on a fresh assembler holding
`ms`; `fuel` bounds the rounds of each module's analysis. -/
def assemble {σ : Type} (fuel : Nat) (ms : List Module) (sink : Sink σ) (s : σ) :
    σ × Res Assembler :=
  match prepare fuel ms with
  | .err e => (s, .err e)
  | .ub u => (s, .ub u)
  | .ok (a, order) => finalPasses sink a order s

/-- The `AddAsmFile` loop (nsasm/assembler.cc:12-17, 164-167). -/
def loadAll : List (List Str) → Res (List Module)
  | [] => .ok []
  | f :: fs => do
      let m ← Module.loadAsmFile f
      let ms ← loadAll fs
      .ok (m :: ms)

/-- `Assemble(files, sink)` (nsasm/assembler.cc:163-170). -/
def assembleFiles {σ : Type} (fuel : Nat) (files : List (List Str)) (sink : Sink σ) (s : σ) :
    σ × Res Assembler :=
  match loadAll files with
  | .ok ms => assemble fuel ms sink s
  | .err e => (s, .err e)
  | .ub u => (s, .ub u)

/-- `Contains` (nsasm/assembler.h:33-35). -/
def contains (a : Assembler) (address : Addr) : Bool := a.memory.contains address

/-- `NameForAddress` (nsasm/assembler.cc:114-123). -/
def nameForAddress (a : Assembler) (address : Addr) : Option FullId :=
  a.modules.findSome? (·.nameForAddress address)

/-- The inner loop of `JumpTargets` (nsasm/assembler.cc:130-140). -/
def addTargets (a : Assembler) (ret : OMap StatusFlags) : List (Nat × StatusFlags) →
    OMap StatusFlags
  | [] => ret
  | (dest, f) :: rest =>
      if a.contains dest then addTargets a ret rest
      else addTargets a (Module.addTarget ret dest f) rest

/-- `JumpTargets` (nsasm/assembler.cc:125-143). -/
def jumpTargets (a : Assembler) : OMap StatusFlags :=
  a.modules.foldl (fun ret m => a.addTargets ret m.targets) []

/-- `JumpTargetReturnConventions` (nsasm/assembler.cc:145-154). -/
def jumpTargetReturnConventions (a : Assembler) : OMap ReturnConvention :=
  a.modules.foldl (fun ret m => m.conventions.foldl (fun r n => r.insertKeep n.1 n.2) ret) []

end Assembler

end Nsasm
