import Verif.Model.Interactive
import Verif.Model.Assembler

/-! # The debug listing (`DebugPrint` of nsasm/module.cc and nsasm/assembler.cc), as a list of lines -/

namespace Nsasm

/-- The value column of `Module::DebugPrint` (nsasm/module.cc:410-415) and the blanks after it.  `ToNumber(T_long)`
(nsasm/address.h:91) is a cast, so the number is not negative. -/
def debugColumn : Option Int → Str
  | some v => hexPadded 6 (NumericType.long.castTo v).toNat ++ cs!"     "
  | none => cs!"           "

/-- The rows of one line (nsasm/module.cc:404-415).  `plus_minus_labels` is always empty (`Line`). -/
def Line.debugPrint (l : Line) : List Str :=
  l.labels.map (fun label => cs!"       " ++ label ++ cs!":") ++ [debugColumn l.value ++ l.statement.toStr]

/-- `Module::DebugPrint` (nsasm/module.cc:402-417). -/
def Module.debugPrint (m : Module) : List Str := m.lines.flatMap Line.debugPrint

/-- `Assembler::DebugPrint` (nsasm/assembler.cc:156-161); `paths` are the paths of the modules. -/
def Assembler.debugPrint (paths : List Str) (a : Assembler) : List Str :=
  (paths.zip a.modules).flatMap fun (path, m) => (cs!"  === debug info for " ++ path) :: m.debugPrint

end Nsasm
