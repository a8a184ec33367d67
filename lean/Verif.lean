import Verif.Conformance
import Verif.Lemmas.Accepts
import Verif.Lemmas.Answers
import Verif.Lemmas.AnyOrder
import Verif.Lemmas.AnySink
import Verif.Lemmas.Assembles
import Verif.Lemmas.Bindings
import Verif.Lemmas.BindingsBlock
import Verif.Lemmas.BindingsLoad
import Verif.Lemmas.Brought
import Verif.Lemmas.Builds
import Verif.Lemmas.Case
import Verif.Lemmas.Chart
import Verif.Lemmas.Cleaned
import Verif.Lemmas.Cleanup
import Verif.Lemmas.Closed
import Verif.Lemmas.CommandLine
import Verif.Lemmas.Confluent
import Verif.Lemmas.Constants
import Verif.Lemmas.ConstantsLink
import Verif.Lemmas.Coverage
import Verif.Lemmas.DataFile
import Verif.Lemmas.DebugPrint
import Verif.Lemmas.Deduce
import Verif.Lemmas.Defined
import Verif.Lemmas.DisDefined
import Verif.Lemmas.DisFlow
import Verif.Lemmas.DisHalts
import Verif.Lemmas.DisHistory
import Verif.Lemmas.Disassemble
import Verif.Lemmas.Disk
import Verif.Lemmas.Divide
import Verif.Lemmas.DividePass
import Verif.Lemmas.Driver
import Verif.Lemmas.Dump
import Verif.Lemmas.EchoParse
import Verif.Lemmas.EchoText
import Verif.Lemmas.Emission
import Verif.Lemmas.Emit
import Verif.Lemmas.Entries
import Verif.Lemmas.Exact
import Verif.Lemmas.Explore
import Verif.Lemmas.Export
import Verif.Lemmas.FarTargets
import Verif.Lemmas.Faults
import Verif.Lemmas.FileOrder
import Verif.Lemmas.FirstPass
import Verif.Lemmas.Fitted
import Verif.Lemmas.Fitting
import Verif.Lemmas.Flow
import Verif.Lemmas.Grammar
import Verif.Lemmas.Inline
import Verif.Lemmas.Instruction
import Verif.Lemmas.Join
import Verif.Lemmas.JoinLink
import Verif.Lemmas.Layout
import Verif.Lemmas.Lex
import Verif.Lemmas.Link
import Verif.Lemmas.ListRows
import Verif.Lemmas.Listing
import Verif.Lemmas.Load
import Verif.Lemmas.Loader
import Verif.Lemmas.Located
import Verif.Lemmas.Monotone
import Verif.Lemmas.Names
import Verif.Lemmas.Neat
import Verif.Lemmas.Noted
import Verif.Lemmas.Order
import Verif.Lemmas.Parse
import Verif.Lemmas.ParseDefined
import Verif.Lemmas.Patch
import Verif.Lemmas.Place
import Verif.Lemmas.PrintLines
import Verif.Lemmas.PrintText
import Verif.Lemmas.RangeMap
import Verif.Lemmas.Ranges
import Verif.Lemmas.Reached
import Verif.Lemmas.Refused
import Verif.Lemmas.Relist
import Verif.Lemmas.Relocate
import Verif.Lemmas.Rename
import Verif.Lemmas.RenameParse
import Verif.Lemmas.Rounds
import Verif.Lemmas.Runs
import Verif.Lemmas.SameListing
import Verif.Lemmas.SecondPass
import Verif.Lemmas.Separate
import Verif.Lemmas.Shift
import Verif.Lemmas.ShiftAll
import Verif.Lemmas.ShiftConstant
import Verif.Lemmas.ShiftLink
import Verif.Lemmas.ShiftLoad
import Verif.Lemmas.ShiftPass
import Verif.Lemmas.Shown
import Verif.Lemmas.Simulate
import Verif.Lemmas.Sinks
import Verif.Lemmas.Succeeds
import Verif.Lemmas.Suffix
import Verif.Lemmas.SuffixText
import Verif.Lemmas.Syntax
import Verif.Lemmas.Targets
import Verif.Lemmas.Token
import Verif.Lemmas.Unused
import Verif.Lemmas.UnusedLink
import Verif.Lemmas.UnusedPasses
import Verif.Lemmas.Written
import Verif.Model.AnyOrder
import Verif.Model.Assembler
import Verif.Model.Base
import Verif.Model.CommandLine
import Verif.Model.DebugPrint
import Verif.Model.Deduce
import Verif.Model.Directive
import Verif.Model.Disassemble
import Verif.Model.Disk
import Verif.Model.Dump
import Verif.Model.ExecState
import Verif.Model.Expr
import Verif.Model.File
import Verif.Model.Instruction
import Verif.Model.Interactive
import Verif.Model.Located
import Verif.Model.Maps
import Verif.Model.Module
import Verif.Model.Numeric
import Verif.Model.Opcode
import Verif.Model.OpcodeTable
import Verif.Model.Parse
import Verif.Model.Place
import Verif.Model.Print
import Verif.Model.Ranges
import Verif.Model.Rom
import Verif.Model.RomFile
import Verif.Model.Text
import Verif.Model.Token
import Verif.Model.Tools
import Verif.Props.Accept
import Verif.Props.Answers
import Verif.Props.AnyOrder
import Verif.Props.AnySink
import Verif.Props.Bindings
import Verif.Props.Branch
import Verif.Props.Calls
import Verif.Props.Case
import Verif.Props.Checked
import Verif.Props.CommandLine
import Verif.Props.Constant
import Verif.Props.Constants
import Verif.Props.DebugPrint
import Verif.Props.Deduce
import Verif.Props.Defined
import Verif.Props.DisDefined
import Verif.Props.Disassemble
import Verif.Props.Disk
import Verif.Props.Divide
import Verif.Props.Driver
import Verif.Props.Dump
import Verif.Props.Exact
import Verif.Props.Execute
import Verif.Props.Export
import Verif.Props.Expr
import Verif.Props.Families
import Verif.Props.FarTargets
import Verif.Props.FileOrder
import Verif.Props.FirstPass
import Verif.Props.Flags
import Verif.Props.Grammar
import Verif.Props.Inline
import Verif.Props.Instruction
import Verif.Props.Interactive
import Verif.Props.Join
import Verif.Props.Layout
import Verif.Props.Lex
import Verif.Props.Link
import Verif.Props.Listing
import Verif.Props.Loads
import Verif.Props.Located
import Verif.Props.Long
import Verif.Props.Module
import Verif.Props.MoreTools
import Verif.Props.Numeric
import Verif.Props.Once
import Verif.Props.OneFile
import Verif.Props.Opcode
import Verif.Props.OpcodeTable
import Verif.Props.Order
import Verif.Props.Parse
import Verif.Props.ParseText
import Verif.Props.Patch
import Verif.Props.Place
import Verif.Props.Plain
import Verif.Props.Print
import Verif.Props.Ranges
import Verif.Props.Reached
import Verif.Props.Relist
import Verif.Props.Relocate
import Verif.Props.Rename
import Verif.Props.Reparse
import Verif.Props.Rom
import Verif.Props.RomFile
import Verif.Props.Run
import Verif.Props.SecondPass
import Verif.Props.Separate
import Verif.Props.Shown
import Verif.Props.Simulate
import Verif.Props.Sizes
import Verif.Props.Split
import Verif.Props.Stack
import Verif.Props.Status
import Verif.Props.Suffix
import Verif.Props.Syntax
import Verif.Props.TargetFlags
import Verif.Props.Terminates
import Verif.Props.Token
import Verif.Props.Tools
import Verif.Props.Unused
import Verif.Spec.Accept
import Verif.Spec.Answers
import Verif.Spec.AnyOrder
import Verif.Spec.AnySink
import Verif.Spec.Bindings
import Verif.Spec.Branch
import Verif.Spec.Calls
import Verif.Spec.Case
import Verif.Spec.Constant
import Verif.Spec.Constants
import Verif.Spec.Cpu
import Verif.Spec.DebugPrint
import Verif.Spec.Defined
import Verif.Spec.Disassemble
import Verif.Spec.Disk
import Verif.Spec.Divide
import Verif.Spec.Dump
import Verif.Spec.Exact
import Verif.Spec.Export
import Verif.Spec.Expr
import Verif.Spec.Families
import Verif.Spec.Flow
import Verif.Spec.Inline
import Verif.Spec.Instruction
import Verif.Spec.Interactive
import Verif.Spec.Join
import Verif.Spec.Layout
import Verif.Spec.Lex
import Verif.Spec.Link
import Verif.Spec.Located
import Verif.Spec.Module
import Verif.Spec.Numeric
import Verif.Spec.OpcodeTable
import Verif.Spec.Opcodes
import Verif.Spec.Overwrite
import Verif.Spec.Patch
import Verif.Spec.Place
import Verif.Spec.Plain
import Verif.Spec.Print
import Verif.Spec.Ranges
import Verif.Spec.Relocate
import Verif.Spec.Rename
import Verif.Spec.Rom
import Verif.Spec.RomFile
import Verif.Spec.Run
import Verif.Spec.Separate
import Verif.Spec.Shown
import Verif.Spec.Simulate
import Verif.Spec.Split
import Verif.Spec.Status
import Verif.Spec.Suffix
import Verif.Spec.Syntax
import Verif.Spec.Text
import Verif.Spec.Tools
import Verif.Spec.Unused
