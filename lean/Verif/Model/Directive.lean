import Verif.Model.Instruction

/-! # Directives and statements (nsasm/directive.cc, nsasm/statement.cc) -/

namespace Nsasm

/-- `enum DirectiveName` (nsasm/mnemonic.h:140-153). -/
inductive DirectiveName where
  | begin_ | db | dl | dw | end_ | entry | equ | halt | mode | module_ | org | remote
deriving DecidableEq, Repr

/-- `enum DirectiveType` (nsasm/directive.h:18-27). -/
inductive DirectiveType where
  | no_arg | single_arg | constant_arg | flag_arg | calling_convention_arg | list_arg
  | name_arg | remote_arg
deriving DecidableEq, Repr

/-- `DirectiveTypeByName` (nsasm/directive.cc:12-26). -/
def DirectiveName.type : DirectiveName → DirectiveType
  | .begin_ => .no_arg | .db => .list_arg | .dl => .list_arg | .dw => .list_arg
  | .end_ => .no_arg | .entry => .calling_convention_arg | .equ => .single_arg
  | .halt => .no_arg | .mode => .flag_arg | .module_ => .name_arg
  | .org => .constant_arg | .remote => .remote_arg

/-- `struct Directive` (nsasm/directive.h:32-38), without the location. -/
structure Directive where
  name : DirectiveName
  argument : Expr
  flags : StatusFlags
  ret : ReturnConvention
  list : List Expr
deriving DecidableEq, Repr

namespace Directive

/-- `IsExitInstruction` (nsasm/directive.h:53). -/
def isExitInstruction (d : Directive) : Bool := d.name = .halt

/-- `Directive::Execute` (nsasm/directive.cc:56-69). -/
def execute (d : Directive) (es : ExecutionState) : Res ExecutionState :=
  if d.name ∈ [DirectiveName.db, .dl, .dw, .org] then .err .executeData
  else if d.name = .mode then .ok { es with flags := d.flags }
  else .ok es

/-- `Directive::SerializedSize` (nsasm/directive.cc:71-81). -/
def serializedSize (d : Directive) : Nat :=
  (match d.name with
    | .db => 1
    | .dw => 2
    | .dl => 3
    | _ => 0) * d.list.length

/-- `EncodeValue` (nsasm/directive.cc:84-92). -/
def encodeValue (n : DirectiveName) (v : Int) : List UInt8 :=
  [byteOf v] ++ (if n = .dw ∨ n = .dl then [byteOf (v / 0x100)] else [])
    ++ (if n = .dl then [byteOf (v / 0x10000)] else [])

/-- The loop of `Directive::Assemble` (nsasm/directive.cc:101-106). -/
def encodeList (n : DirectiveName) (ctx : Ctx) : List Expr → Res (List UInt8)
  | [] => .ok []
  | e :: es => do
      let v ← e.eval ctx
      let rest ← encodeList n ctx es
      .ok (encodeValue n v ++ rest)

/-- `Directive::Assemble` (nsasm/directive.cc:95-108): `none` if nothing is
written. -/
def assembleBytes (d : Directive) (ctx : Ctx) : Res (Option (List UInt8)) :=
  if d.name ≠ .db ∧ d.name ≠ .dw ∧ d.name ≠ .dl then .ok none
  else do .ok (some (← encodeList d.name ctx d.list))

end Directive

end Nsasm
