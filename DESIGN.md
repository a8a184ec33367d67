# Formal model of nsasm: design

nsasm is a 65816 (SNES) assembler and disassembler in C++.  This directory
holds a Lean 4 model of its semantics (`lean/Verif/Model`), small
specifications that do not mention the model's helpers (`lean/Verif/Spec`),
and the property theorems (`lean/Verif/Props`).  `properties.jsonl` lists the
properties in English, `MANIFEST.json` maps them to theorem names, and
`seeded/LOG.jsonl` records the wrong-program experiments.

## Trusted base

* Lean 4.33.0's kernel.
* Axioms: only Lean's standard `propext`, `Classical.choice`, `Quot.sound`;
  the last section lists them for each theorem.  No axioms are added, no `sorry`/`admit`,
  no `native_decide`, no `bv_decide`.  Finite tables (256 opcodes, the
  mnemonic x mode matrix) are discharged by `decide +kernel` over the whole
  domain, i.e. by kernel reduction, and then lifted to the universally
  quantified statement.
* The hand translation from C++ to Lean.  Every definition cites the file and
  lines it models.  Nothing connects the C++ to the model mechanically.
* The specifications in `Verif/Spec`, in particular the 65816 behaviour
  relevant to the e/m/x/c flags and the stack (`Spec/Cpu.lean`), taken from the
  processor's public documentation.

## Layout of the Lean project

* `Verif/Model/*.lean`: the model, one file per group of C++ files.  Every
  definition cites the lines it models and says where it simplifies.
* `Verif/Spec/*.lean`: what the properties talk about, written without the
  model's functions where an independent notion exists (bit widths, exact integer
  arithmetic, the data-sheet opcode table, the processor's flags and stack, the
  grammar of lines and expressions, the layout and meaning of names of a program,
  the control flow of a listing).
* `Verif/Lemmas/*.lean`: proofs of intermediate facts; nothing in them is a claim.
* `Verif/Props/*.lean`: the property theorems, named `Cnn_...`.  A theorem named
  `Cnn_..._partial` proves part of a property and its comment says what is
  missing.  A theorem named `Cnn_violated...` proves, with a concrete input, that
  the code does not have the property as stated.  `example`s beside the theorems
  show that their hypotheses can be met.

## What is modelled

| C++ | model | not modelled |
|-----|-------|--------------|
| `numeric_type.h`, `address.h` | `Model/Numeric` | printing of addresses is in `Model/Text` |
| `opcode_map.cc`, `addressing_mode.cc` (`InstructionLength`, size flags), `mnemonic.h` | `Model/Opcode` | the static checks the tests make |
| `execution_state.{h,cc}`, `calling_convention.{h,cc}` | `Model/ExecState` | debug printing |
| `expression.{h,cc}`, `identifiers.h` | `Model/Expr`; printing in `Model/Text` | `ApplyLabel`'s allocation; smart pointers |
| `addressing_mode.cc` (`DeduceMode`) | `Model/Deduce` | error texts |
| `instruction.cc`, `decode.cc`, `statement.cc` | `Model/Instruction` | |
| `directive.cc` | `Model/Directive` | |
| `ranges.{h,cc}` | `Model/Ranges` | |
| `rom.cc`, `memory.cc` | `Model/Rom`, `Model/RomFile`; with `FILE*` calls that may fail in `Model/Disk` | buffers of streams |
| `mnemonic.cc`, `ToString` of instructions, directives, expressions | `Model/Text` | `Token::ToString`, used in error texts only |
| `token.cc` | `Model/Token` | |
| `parse.cc` | `Model/Parse` | error texts |
| `module.{h,cc}` | `Model/Module`, containers in `Model/Maps`, `DebugPrint` in `Model/DebugPrint` | |
| `assembler.{h,cc}` | `Model/Assembler`; with any order of iteration over hash tables in `Model/AnyOrder`, `DebugPrint` in `Model/DebugPrint` | |
| `disassemble.{h,cc}` | `Model/Disassemble` | |
| `util/quick_dump.cc` | `Model/Dump`; from the words of the command line on in `Model/CommandLine` | |
| `util/quick_disassemble.cc`, `util/disassemble_more.cc`, `util/quick_assemble.cc`, `util/dumb_disassemble.cc` | `Model/Tools`, the listing in `Model/Print`; from the words of the command line on, with `sscanf`, usage texts and failing files, in `Model/CommandLine` | texts of errors; whether the last line printed ends with a newline |
| `util/interactive_parse.cc` | `Model/Interactive` | the texts of the errors it shows |
| `util/print_opcode_map.cc` | `Model/OpcodeTable` | |
| `file.{h,cc}` | `Model/File`; a file is its list of lines; with reads that may fail in `Model/Disk` | |
| `error.{h,cc}`, `location.h` | `Res`; the locations of the assembler's errors in `Model/Located`, those of ROMs and of the disassembler and how they are printed in `Model/Place` | texts of messages |

## How the model was compared with the code

The code cannot be run here, so that the model does what the code does is a matter of reading.
Each file of the model was compared with its source twice, the second time after the proofs.
`Conformance.lean` runs the project's own unit tests on the model, with the inputs and the
expected outputs copied from the `_test.cc` files.  It uses `#guard`, which evaluates an
expression with Lean's interpreter; it is no part of any proof.

## Modelling conventions

* Outcomes.  `Res a = ok a | err Err | ub Ub`.  `err` is nsasm's `ErrorOr`
  carrying an `Error`; the message text is replaced by a
  tag that names the error site; the source location is left out, except in
  `Model/Located`.  `ub` is C++ undefined behaviour or a failed
  `assert` (the project builds with assertions on by default).  Errors and UB
  are never totalised away.
* Integers.  C++ `int` values are Lean `Int`s; every arithmetic node checks the
  32-bit range and yields `ub .overflow` outside it.  `& 0xff` and `>>` on
  ints are `%` and floor `/` (two's complement, arithmetic shift).
  Bytes are `UInt8`.  Addresses are `Nat`s (the C++ class asserts
  `<= 0x1000000`, and so does the model).
* Strings.  `List Char`; characters stand for bytes.
* `std::map` / `absl::btree_map` keyed by addresses or line numbers are
  `OMap`, a sorted association list.  Hash maps are `HMap`, an association list
  with the most recent assignment first; where the C++ iterates over a hash map
  the property theorems hold for whatever order the list has.
* Loops whose termination is not obvious (tokenizer, parser, `RunFirstPass`,
  `FindAssemblyOrder`, `Disassemble`) are modelled with a number of rounds and end
  with the distinct error `Err.steps` when it is used up.  Termination theorems
  (C32, C40, C45, C48) say that from some number of rounds on the result no longer
  changes and is not `Err.steps`; all other theorems hold for every number of
  rounds.
* The disk is a function from paths to bytes and a list of answers to the calls to
  come (`Model/Disk`).  A failing call that transfers bytes has transferred some of
  them.  What is written is in the file at once; a failing `fclose` may lose some.
* Not modelled: other programs that use the disk, error message texts, `Location` bookkeeping and memory
  management.

## Properties: what is modelled and how it is proved

| id | modelled code | proof plan |
|----|---------------|-----------|
| C01 | `CastTo`, `Signed`, `Unsigned` | case split on the type, `omega` for all ints |
| C02 | `ArtihmeticConversion`, `BinaryExpression::Type` | finite case split; lifted to trees by induction (type of a tree = fold over its leaves) |
| C03 | `Address` arithmetic | `omega` |
| C04 | full `decode_map`, reverse map construction, `EncodeOpcode` | generic lemma about the reverse map plus kernel evaluation of the 256-entry table |
| C05 | `SerializedSize`, `Instruction::Assemble` | case split on the 27 modes, arbitrary expressions and contexts |
| C06, C07 | `Instruction::Assemble`, `Decode` | byte-level little-endian round-trip lemmas, case split on modes |
| C08 | `Decode` | case split on length and flag |
| C09, C10, C11 | `DeduceMode` | DeduceMode factors through (mnemonic, form, type1, type2, is-identifier); kernel check over that finite domain, lifted to all expressions |
| C12, C13, C14 | `Expression` class tree | structural induction against an independent denotation into unbounded integers |
| C15 | `operator|` for BitState, StatusFlags, RegisterValue, StackValue, Stack, ExecutionState | algebra by finite split on flags, induction on stacks; soundness against a concretisation relation |
| C16 | `StatusFlags` operations | invariant over lists of operations |
| C17 | `FromName`, `ToName` | finite split; case-insensitivity for all strings |
| C18 | `Instruction::Execute`, `ExecuteBranch` vs. a concrete 65816 flag/stack machine; a tracked state is read as a set of concrete ones relative to the flags on entry (`Meaning`) | simulation; **the code violates the property** for some instructions (XCE with carry in its entry value, pushes of B/D/K which are not tracked, TXS/TCS): negations with witnesses, and a `_partial` theorem for everything else |
| C19 | `PushReg`, `PullReg`, varsize | **violated** for known 16-bit values (bytes are swapped): negation, and `_partial` for the other cases |
| C20 | `PushFlags`, `PullFlags` | induction on a grammar of balanced sequences |
| C21 | `PullVarsize`, `PullReg` | **violated** (empty stack read, assertion): negation, and `_partial` characterising exactly when it happens |
| C22 | `FixAddressingMode`, `CheckConsistency` | case split |
| C23, C24, C25 | `DataRange` | invariant + refinement to a set of addresses, induction over claim histories; canonical-form uniqueness |
| C26 | `RangeMap` | refinement to a partial function |
| C27, C28 | `SnesToROMAddress` | `omega` per mode; **C28 violated**: negation |
| C29 | `Rom::Read` | case split fast/slow path; **violated** for lengths above 64 KiB (too few bytes, though the right ones): negation plus `_partial` |
| C30 | `RomIdentityTest::Write` | from C29 |
| C31 | `RomOverwriter` | **violated** (off-by-one bound; constructor reads a moved-from pointer): negation plus `_partial` |
| C32, C33 | `Tokenize` on `List Char` | well-founded recursion, induction |
| C34 | the whole parser with reads past the end as `ub` | "last token is end-of-line" is kept by every parser function |
| C35 | `Expr`/`Term`/`Factor`/`Comp` | induction on trees with a precedence-aware printer |
| C36 | `Parse` | **violated** (stray ':' ends the line): negation plus `_partial` |
| C37 | `ToString`, `Tokenize`, `Parse`, `DeduceMode`, `Assemble` | composition of printing, lexing and parsing lemmas |
| C38 | `LoadAsmFile`, `LocalIndex` | invariant over the statement list; the files accepted are exactly those of the specification (`C38_exactly`) |
| C39 | address assignment in `RunFirstPass` | induction over lines |
| C40 | work-list loop of `RunFirstPass` | merged states only ever lose information; measure on the height of flags, registers and stack entries |
| C41 | the same loop + C18 | **violated** by backward branches (states are overwritten, not merged): negation plus `_partial` for forward control flow |
| C42 | end of `RunFirstPass` | invariant |
| C43 | `RunSecondPass` | monotonicity of contexts |
| C44 | `Module::Assemble`, `Assembler::Assemble` | from C23/C25 by induction over lines and modules; hence at most 64 KiB follow an origin (`C44_section_fits`) |
| C45, C46 | `FindAssemblyOrder` | greedy-sort invariant; completeness by minimal-counterexample |
| C47 | `JumpTargets` | induction over modules; a table of targets is related to the set of transfers it stands for: same addresses, flags that cover all, and every known flag on which all agree |
| C48, C49, C50 | `Disassemble` | measure on remaining lattice height; work-list invariant |
| C51, C52 | `Disassemble`, `Cleanup` | invariant on labels; byte equality from C05/C06 |
| C53 | `Disassemble` | **violated** on revisits of calls with a return convention: negation plus `_partial` |
| C54 | `Directive` | induction on the argument list |
| C55 | `decode_map`, `InstructionLength` | comparison with the data sheet's matrix, transcribed separately, for all 256 bytes |
| C56 | `RunFirstPass` | invariant of the work list: every successor of an analysed line is analysed |
| C57 | `Assembler::Assemble` with all passes | refinement: layout, values and bytes of a linked program are specified over the list of files (`Spec/Link`) |
| C58 | `Disassemble`, `Cleanup`, `Instruction::Assemble` | invariant that every entry is the decoding of the bytes at its address; **violated** for PER and by a second `Cleanup`: negations plus `_partial` |
| C59 | `Tokenize` | inductive lexical grammar with longest match; existence and uniqueness of the longest lexeme; **violated** for numbers of 2^31 and more: negation plus `_partial` |
| C60 | `LoadRomFile`, `CreateFile` | file contents as byte lists; the loader is characterised by an independent description of files; **violated** for 512-byte files and by the overwriter's constructor: negation plus `_partial` |
| C61 | `LoadRomFile`, `SnesToROMAddress`, `Read` | an explicit address for every offset; **violated** for 4 MiB HiROM and extended images: negations plus `_partial` |
| C62 | `quick_dump`, `Tokenize`, `Parse`, `LoadAsmFile`, the passes, `Assemble` | the whole pipeline on the printed text, by induction over values and lines; **violated** when a read fails and for more than 64 KiB (refused, `C62_accepted_iff`): negation plus `_partial` |
| C63 | the printing in `quick_disassemble`, `ToString`, `Tokenize`, `Parse` | every instruction that a cleaned-up listing can hold is one of three forms; each form's text is lexed and parsed; induction over the listing; **violated** when the carry is known at an entry point: negation plus `_partial`; the conditions are exact for ROMs (`C63_read_iff`, `Lemmas/Refused`): a PER is printed with a number, and relative instructions take only names |
| C64 | as C63, and `LoadAsmFile`, `RunFirstPass`, `RunSecondPass`, `Assemble` | the lines of the listing as rows with their addresses; layout computes exactly these; an accepted immediate has the size its suffix shows; labels resolve to the rows that carry them; then C58; for accepted listings (C65 says which are); a listing that would assemble to something else (C52, C58) is not accepted: PER is not read (C63), and a CLC at the end of a bank that was folded takes the first byte of the bank twice (`folded_inside`) |
| C65 | all of the above together: `Disassemble`, `Cleanup`, the printing, `Assembler::Assemble` | the states the disassembler records are stable under the assembler's first pass (a fixed point that the assembler starts below), so every line is reached with a state that fits it; **violated** when a size is known at first and unknown later: negation plus `_partial` |
| C66 | `quick_assemble`'s `main`, the identity sink, `Assembler::Assemble` | assembling does not look at what the sink does except whether it fails, so checking is assembling and comparing; equivalence; **violated** with an output path: negation |
| C67 | `main` of both tools | C65 for the passes of the tool; comment lines in front do not matter to the assembler |
| C68 | `quick_disassemble`'s `main`, `CombineStates` | an invariant over the passes: what was asked for or reported is listed, failed with a message, or still a seed; then C49 and C53 across calls; **violated** after 100 passes and for repeated addresses: negations plus `_partial` |
| C69 | `disassemble_more`'s `main` | **violated** whenever there is something to do: negation for every such input plus `_partial` |
| C70 | `dumb_disassemble`'s `main` | the offset in the bank grows until it wraps to where there is no ROM; **violated** in banks that begin with ROM: negation plus `_partial` |
| C71 | `Disassembler`, `disassembleRom`, `dumbRom` | invariant over histories of calls with `Cleanup`: every entry can be read and was decoded, addresses stay 24 bit and, when every mode gives the sizes, no size is the unknown incoming one; **violated** for PLA/PLX/PLY where a size is not known: negation plus `_partial` |
| C72 | whole assembler: `tokenize` to `assembleFiles` | invariant over load, first pass, second pass and output: values of names within given bounds, program counter 24 bit, stack states fine; interval bound on expressions by induction on their derivation; **violated** outside the bounds: negations plus `_partial` |
| C73 | `Tokenize`, `Parse` | completeness of the parser for the grammar of `Spec/Syntax` by induction on derivations; with C36 an equivalence |
| C74 | `OpenFile`, `MakeFakeFile`, `LoadAsmFile`, `Assemble` | `SameLayout` is the least equivalence generated by single layout changes; induction on it; two lines of the grammar join to one (induction on the derivation), which C73 then says is accepted |
| C75 | composition: `Assemble`, `RunFirstPass`, `Decode`, ROM | simulation of the run of the source lines (`Spec/Run`) by the run of the bytes (`Spec/Disassemble`), induction on the run; **violated** for branches to `.equ` names: negation proved |
| C76 | as C75 | simulation in the other direction, induction on the run of the bytes; a pseudo-op is two machine steps; **violated** for branches to `.equ` names: negation proved |
| C77 | as C75, `Disassembler::Disassemble` | C75 composed with C49; **violated** at the end of LoROM banks: negation proved |
| C78 | as C77 | invariant of the disassembler's loop: every state it visits is at the address of an instruction of the source and below the state that the assembler's analysis recorded there (`Lemmas/Chart`, `Lemmas/Exact`); **violated** where the analysis has not come to rest: negation proved |
| C79 | as C43-C46 | assembling a list of files is characterised without the order, the passes or the tables: a context of names that is the one the modules, assembled with it, export, and writes that do not overlap (`Lemmas/Builds`, both directions); what a module takes from that context (`Lemmas/Separate`); the four claims follow from the uniqueness of exported names along the order |
| C80 | `Model/Located` (the whole assembler once more, with the location of every error), `Spec/Located` | erasing the locations gives the model of the other theorems (`Lemmas/Located`); from the error back to a statement with that fault, pass by pass (`Lemmas/Faults`), and from the statement to its line by counting the statements of the lines before. What is wrong with a statement is said without the passes where that is possible |
| C81 | `Model/AnyOrder` (the loops over hash tables with the entries in any order), `Spec/AnyOrder` | relational: two runs with different orders side by side; the tables of exported names have the same entries, the modules differ in the names of addresses only (`Lemmas/AnyOrder`) |
| C82 | `Spec/Rename` (names replaced token by token, answers up to the renaming) | equivariance: every function of the parser (`Lemmas/RenameParse`), the modules and the assembler (`Lemmas/Rename`) commutes with the renaming |
| C83 | `Spec/Answers` (what a line says about how code returns) | invariant of the last pass over the tables of a module (`Lemmas/Answers`), carried to the whole assembly with C81's lemma on names |
| C84 | `Spec/Unused` (a line added to one of the files; the answers agree but for one name) | the line is taken out of the program while it is read (`Lemmas/Unused`), through the passes (`Lemmas/UnusedPasses`) and through linking (`Lemmas/UnusedLink`): every table of the smaller program is the other's with one name dropped |
| C85 | `Spec/Plain` (instructions in a straight line; the last branch to an address; the lines) | the map of branch targets holds exactly the last branch to each address, an invariant of the loop; `C07` for the bytes |
| C86 | `Spec/Status` (each way a tool can end) | case by case from `C60`, `C66`, `C69`, `C71` and `C85` |
| C87 | `Spec/Calls` (successful calls with what was asked; entries that say the same; sizes known from the flags) | the listing after all calls is the least one that is closed under the steps of the program and covers the starts: every state that any order of the calls can reach stays below it (`Lemmas/Confluent`, over the monotonicity in `Lemmas/Monotone`), so each of two orders is below the other; then the two listings go through `Cleanup` and printing side by side (`Lemmas/SameListing`); below a closed listing no round fails (`Lemmas/Succeeds`) |
| C88 | `Spec/Interactive` (statements without operators and negative numbers; what a line is read as) | every part of a statement read from a line is made of tokens that the tokenizer can make (`Lemmas/EchoParse`, along the parser, for any line); the text of such a part has tokens that derive it again, and the addressing mode printed leads to the form that it was deduced from (`Lemmas/EchoText`); the grammar (C73) does the rest |
| C89 | `Spec/Constants` (statements that differ in values only; which line a name points to; lines whose value depends on nothing that changed) | values are erased: loading and the first pass commute with erasing them, and two such files are equal once erased (`Lemmas/Constants`); the values of unaffected lines agree by induction along the dependencies, using C57 (`Lemmas/ConstantsLink`) |
| C90 | `Spec/Relocate` (files that differ in the addresses of `.org`s; the block a line is in; how the value of an expression changes when blocks move; statements that do not show where anything is) | as C89 with the addresses of `.org`s erased instead: the results of the first pass agree up to the addresses; the lines of a block are at their distances from the `.org` by C57; the values of expressions by induction along their structure and the definitions of constants (`Lemmas/Relocate`) |
| C91 | `Model/Disk`, `Model/CommandLine`, `Spec/Disk` (a disk that does not fail; the same files on such a disk; the five tools) | for each function, for every list of answers: the files afterwards, the streams open, and the result is the one without failures or an error (`Lemmas/Disk`); each tool is a step of loading, a step of reading sources, and the rest, which does not use the disk (`Lemmas/CommandLine`) |
| C92 | `Spec/Disk` (words that are numbers; pairs of words and what they ask for) | `sscanf` on such words gives the number; then as C91 with a disk that does not fail |
| C93 | `Spec/Inline` (what an expression comes to by arithmetic and definitions; when two expressions of two programs stand for the same value) | by induction on this relation, the two expressions have the same value in the linked programs, because a name has the value of the line it points to and a constant that of its definition; with C89 for the places (`Lemmas/Inline`) |
| C94 | `Spec/Split` (a data directive made into two; writes made in two parts) | a line put into a module renumbers all later ones; by induction over loading, the flow analysis, the layout, the second pass and the writing, both modules go through the same states up to the renumbering (`Lemmas/Shift`, `ShiftPass`, `ShiftLink`, `ShiftLoad`, `ShiftAll`) |
| C95 | `Spec/Constant` (a constant added where execution cannot come) | first the `.equ` without its label, by the same renumbering as for C94 (`Lemmas/ShiftConstant`); then the label, by C84 |
| C96 | `Spec/Case` (lines that differ only in the case of letters; the names in a line) | the tokenizer on the two lines in step, by induction over the length of the rest (`Lemmas/Case`); the tables of mnemonics, suffixes, directives and keywords are looked up after folding. Names include the words for flag states, whose case does not matter either (C17) |
| C97 | `Spec/Shown` (sources and ROMs with the same bytes where a listing has instructions) | the loop on the two sources in step: every address popped has an entry at the end, entries keep their size, and decoding reads no more bytes than the size (C08); for revisits the flags merged still give the size recorded (`Lemmas/Shown`) |
| C98 | both tools | the check says that the other ROM has what the listing assembles to (C66); that is every byte of every instruction listed (C64); so the listings are the same (C97) |
| C99 | `LoadAsmFile` to `Assembler::Assemble` on two programs | `Spec/Bindings` says what a name stands for by C38's `Resolves`; a relation between the two modules (same values, flags and tables seen from outside, statements alike, names found at the same line) is kept by every pass (`Lemmas/Bindings`, `BindingsLoad`); for a block, `Resolves` is computed for the renamed program (`Lemmas/BindingsBlock`) |
| C100 | `RomOverwriter::Write` and `RomIdentityTest::Write` as sinks of `Assembler::Assemble` | what is fed to any sink is the same (`Lemmas/Sinks`); feeding the overwriter is a fold over the bytes (`Lemmas/Patch`), which is the only image that `Spec/Patch` allows; composed with C60, C66 and C79; **violated** for programs that write a byte of the cartridge through two addresses: negations plus `_partial` |
| C101 | `Statement::Assemble` to `Assembler::Assemble`, for any sink | `Spec/AnySink` says what becomes of a sequence of writes; every function that takes a sink plays such a sequence (`Lemmas/AnySink`, closed under sequencing); the sequence is that of the recording sink |
| C102 | `Location`, `Error::ToString`, `Rom::Read` and `Disassemble` with `SetLocation` | `Spec/Place` says inductively which states control brings to which addresses, without mentioning the listing; every state on the work stack and in the listing is such a state (`Lemmas/Brought`, invariant of the loop), `Execute` never fails on what has been decoded, and after a success the listing covers every such state; without locations the functions are those of the other claims (`Lemmas/Place`); **violated** by reads past the end: negation plus `_partial` |
| C103 | `Disassemble`, `AddTargetReturnConventions` | the inductive relation of C102; the recorded states belong to it (invariant of the loop) and cover it (induction on the relation, with monotonicity of `Execute`); `Lemmas/Noted`: targets of what is listed for the first time are returned |
| C104 | `Instruction::CheckConsistency` and all of loading, linking and assembly | simulation of a run by the run without some suffixes: equal up to suffixes in every pass, but for an early end with an error about a suffix in the first (`Lemmas/Suffix`); induction on the grammar of C73 for the text (`Lemmas/SuffixText`) |
| C105 | all of loading, linking and assembly | simulation of the two modules' passes by those of the module with the lines of both, with line indices, scopes and names moved (`Lemmas/Join`, `Lemmas/JoinLink`); the characterisation of success of C79 (`Lemmas/Builds`) for the other files; C105_order_matters and C105_last_label_matters show that the conditions are needed |
| C106 | all of loading, linking and assembly | the simulation of C105 run backwards: the worklist of the whole file is that of the first part followed by that of the second, because control stops at the `.org` and branches stay in their part (`Lemmas/Divide`, `Lemmas/DividePass`); every value a part needs of the other is exported; C106_org_matters, C106_branch_matters and C106_order_matters show that the conditions are needed |
| C107 | the opcode table's family column, the two predicates on mnemonics, the operand types | instruction sets written out by kind of instruction (`Spec/Families`), compared with all 256 opcodes by the kernel, then lifted to every byte |
| C108 | `DebugPrint` of modules and of the assembler, as lists of lines | the passes change nothing of what is shown but the values; values and writes from C57; reading back from C88; loading depends only on the program that the items of a file make. Partial: an `export` is not shown, which matters in scopes (C109), and operators are shown in a way that is read differently (C108_violated) |
| C109 | loading | loading depends only on the program that the items make; the number of open scopes is the level of the specification at every statement; C109_scope_matters shows the other side |
| C110 | Assembler answers | the modules an assembly ends with are a function of the file and the values of exported names, so they are permuted with the files; merging obtainable flag states is commutative and associative (C15), so the jump targets agree; of two names, or two return conventions, for one address the first file's is given (C110_violated_names, C110_violated_conventions), so there only the sets of addresses agree, and the conventions of addresses that are declared in one way |
| C111 | `Instruction::Assemble` | success is equivalent to a specification of encodable instructions (Spec/Branch.lean: the displacements a branch can hold, and where they lead); case analysis over the modes, and uniqueness of the displacement between two addresses of a bank |
| C112 | `util/print_opcode_map.cc` | kernel evaluation of the 256 rows against the data sheet (Spec/Opcodes.lean) and its notation (Spec/OpcodeTable.lean); texts are compared by splitting them after the mnemonic, so that pairs need no enumeration; **violated** for opcodes that differ only in the width of the operand |
| C113 | Assembler, Module | the module a file becomes is a function of the file and the exported names (C110), so both copies have the same lines with the same addresses; every address is written once (C44), so no line takes space; exported names are unique (C45); a copy exports and writes nothing, so it can be left out of the order of linking and of the writes |

## Where the code does not have the property

Each of these is a theorem with a concrete witness.

* C18: PHB/PHK/PHD/PLB/PLD/TXS/TCS move the stack without the analysis noticing.
* C19: a pulled 16-bit register has its bytes swapped; with sizes as on entry the
  pull is undefined behaviour.
* C20: PHB matched by PLP.
* C21: pulling from the empty tracked stack, and pulling with sizes as on entry,
  read an empty vector.
* C28: ExHiROM uses bit 23 itself instead of its inverse.
* C29, C30, C31: lengths above 64 KiB; off-by-one bound; moved-from pointer.
* C36: a stray `:` or a parenthesised operand followed by more text.
* C36, C73: `lda ($12),x` and `lda ($12),s` are rejected: an operand that begins with a parenthesised expression followed by `,` is always read as indirect. The grammar says so (`NotIndirect`).
* C37: branches and PER print an offset where the parser takes a target.
* C41: a branch back replaces the recorded state instead of merging it.
* C47: a call of an external routine through a name is not reported.
* C49: as C18.
* C52: CLC in the last byte of a bank is folded with the ADC of the next bank.
* C53: a call annotated with `yields` that is visited again is reported with the
  flags after its return.
* C58: PER; stale names after a second `Cleanup`.
* C59: `$100000000` is read as zero.
* C60: a file of 512 bytes; the overwriter's constructor.
* C61: a HiROM file of exactly 4 MiB is taken for ExHiROM; the first half of ExHiROM images.
* C62: after a failed read `quick_dump` asks a value for its error.
* C63: `.entry m8x8, c=1` in a printed listing is not accepted, and neither is PER, which is printed with its offset as a number (`C63_read_iff`).
* C65: an instruction keeps the suffix for the size known when it was first read; when
  a later call finds the size unknown there, the printed listing is refused.
* C66: `quick_assemble` with an output path moves the ROM away before it uses it.
  Besides, it ends with status 0 when the file cannot be written.
* C68: `quick_disassemble` stops after 100 passes without a message, and ignores the
  second mode given for an address.
* C69: `disassemble_more` reads the ROM through a pointer that was moved from.
* C70: `dumb_disassemble` goes round in a HiROM bank that never leaves its straight line.
* C71: `quick_disassemble` crashes on an assertion when a routine is called with both accumulator sizes and does `PHA`, `PLA`.
* C72: `.org -1`, `.remote -1 m8x8`, `size .equ -1` for a name of the module, a branch to a constant that is not an address and `jmp $ffffff+2` end the assembler by an assertion; `.entry unk` followed by `pla` reads from an empty stack; products overflow. `.org $ffffff+1` is accepted and the code is placed at address 0.
* C75, C76: a branch to a name defined by `.equ` is analysed as if it went to the line of the `.equ` (module.cc:220-236), but it is assembled as a branch to the value. So code is assembled for flags that the processor does not have there, and it may execute the second byte of an operand (`C75_violated`, `C76_violated`).
* C77: the disassembler reads four bytes for every instruction, also for shorter ones. In a LoROM bank the bytes after the last are not ROM, so an instruction in the last three bytes of a bank cannot be disassembled (`C77_violated`).
* C78: where the assembler's analysis has not come to rest (see C41), the disassembler, which does merge states, disagrees with it, and lists instructions in the middle of others (`C78_violated`).
* C80: the location of an exported name is the number of its statement instead of its line (module.cc:318-322), so the error for a name that two files define points to a wrong line, and possibly to line 0 (`C80_violated_duplicate`). A label that is defined twice is reported on the line of the statement that follows it (`C80_violated_label`). A return convention on an instruction other than a call (parse.cc:424-429), execution past the end of a file, a missing or cyclic dependency, and files that overlap are reported without a location (`C80_violated_missing`). Words after a return convention are reported as `logic error` (parse.cc:583-586, `C80_violated_word`).
* C81: `Module::Assemble` goes through a hash table at its end. If a name of the module has no value and another is not an address, the order of iteration decides between an error and a failing assertion (`C81_violated`); if an address has two names, it decides which one `NameForAddress` gives (`C81_violated_name`).
* C83: two different return conventions for one address are accepted without a word; the last one of the first file with one counts (the example beside `C83_conventions`).
* C84: at its end `Module::Assemble` wants the address of every global name, used or not. So a label that nothing refers to makes the assembly fail when it stands in front of `.module` or the first `.org`, and crash when it stands in front of a negative constant (`C84_violated`).
* C86: `quick_disassemble` ends with status 0 even if disassembling failed at every address it was given; it only prints a comment (`C86_violated`).
* C87: a suffix `.b` or `.w` that one call has given stays when a later call finds that the size is not known, so the suffix depends on the order of the calls (`C87_violated`; the assembler then refuses the listing, `C65_violated`). With a start whose sizes are not given, the order can decide whether an assertion fails (`C87_violated_undefined`).
* C88: `Expression::ToString` writes `-foo` as `op-(foo)`, which is read as a difference, and `<foo` as `op<(foo)`, which is refused. A decimal number of 2^31 and more is shown as a negative one. The range check of `ToString(DirectiveName)` stops before `.remote`, so that directive is shown without its name, and always without its return convention (`C88_violated`).
* C91: `LoadRomFile` puts the size of the file into an `int`, so a file of more than 4 GiB is taken for the ROM that it begins with (`C91_violated_large`). It returns without `fclose` when the header cannot be read (rom.cc:118-121, `C91_violated_open`), and so does `CreateFile` after a failed `fwrite`, which has already emptied the file (`C91_violated_save`). `quick_assemble` would end with status 0 when `CreateFile` fails (quick_assemble.cc:66-70), if an overwriter could be built.
* C92: the tools test `!sscanf(..)`, but on an empty word `sscanf` returns -1, and the variable is used without a value (`C92_violated_blank`). What follows a number in a word is ignored (`C92_violated_garbage`), and so are a last word without a partner (`C92_violated_unpaired`) and further words. With too few words the status is 0 (`C92_usage_partial`). `dumb_disassemble` shows the address instead of its own name in its usage message (dumb_disassemble.cc:32).
* C102: `Rom::Read` gives `SetLocation` an offset of the image, a `size_t`, for the address (rom.cc:55); the constructor for line numbers takes it, so that a read past the end at $900a is reported as `path:4106` (`C102_violated`). The disassembler replaces the location by the address of the instruction, so its users do not see it.
* C93: the flow analysis evaluates operands without the names of the module, so that `rep #$30` and `rep #<flags` with `flags .equ $30` are not the same to it (`C93_violated`).
* C95: an unused constant between two instructions of a loop can change the machine code: the flow analysis visits lines in another order, and what is known of a line is overwritten instead of merged (`C95_violated`).
* C100: the assembler compares addresses, not places in the cartridge. Files that write $008001 and $808001 are accepted together although these are one byte of a LoROM; the last one written stays, the check against the same files then fails (`C100_violated`), and the order of the files decides which byte it is (`C100_violated_order`). (The overwriting sink itself cannot be constructed, see C31; C100 is about its `Write`.)
* C110: `NameForAddress` and `JumpTargetReturnConventions` go through the modules in the order of the files and take the first answer (assembler.cc:114-123, 145-154), while `JumpTargets` merges. So two files that give an address different names or return conventions make the answer depend on the order on the command line.
* C112: `print_opcode_map` prints every operand as `Literal(0x654321)` (print_opcode_map.cc:18), whose type is unknown, so `ToString` prints it in decimal, as 6636321, whatever the width of the operand: $A5, $AD and $AF are all shown as `lda 6636321` (C112_violated).

Statuses and exact theorem names are in `MANIFEST.json`.

## Wrong-program experiments

`seeded/LOG.jsonl` has one line for each edit that was made to a scratch copy of
the model: the definition, the edit, the claim it breaks, the theorems whose
proofs failed (or that depend on a failed one), and the theorems that were
tightened because of it.

## Axioms of each theorem

<!-- axioms -->
* Classical.choice, Quot.sound, propext (247): C01_castTo_canonical, C03_addWrapped, C03_subtractWrapped, C04_pseudo_not_encodable, C06_decode_assembled, C07_assemble_decoded, C08_decode_succeeds_iff, C11_unsized_constant, C12_eval_is_integer_arithmetic, C12_eval_complete, C18_known_flags_partial, C18_original_flags_partial, C19_push_pull_partial, C21_defined_partial, C21_known_sizes_partial, C23_claim_chunk, C23_history, C24_order_irrelevant, C24_permutation, C25_claim_bytes, C26_range_map, C27_mapped_iff, C27_offset, C27_injective_up_to_mirrors, C27_never_system, C27_exhirom_same_half_partial, C28_low_banks_partial, C29_bytes_right, C29_read_partial, C30_accepted_right, C30_identity_sink_partial, C31_write_any, C31_failure, C31_write_partial, C33_comment, C33_blank_separates, C33_blanks, C34_stays_on_line, C34_source_line, C35_accepts_grammar, C35_only_grammar, C35_round_trip, C35_text, C35_whole_text, C36_all_tokens_partial, C36_no_statement_dropped_partial, C36_source_line_partial, C37_reparse_partial, C37_same_bytes_partial, C38_exactly, C38_resolution, C38_exports, C38_accepts, C38_rejects, C39_layout, C40_first_pass_terminates, C41_sizes_right_partial, C41_forward_partial, C42_every_instruction_analysed, C43_equ_values, C44_written_once, C44_section_fits, C45_dependencies, C45_order_sound, C45_order_found_iff, C45_bound_not_reached, C46_order_independent, C47_targets_partial, C47_flags, C48_terminates, C48_rom_terminates, C49_closed, C49_start_listed, C49_kept, C49_shows_execution_partial, C51_labels_distinct, C51_branches_labelled, C52_cleanup_preserves_bytes_partial, C53_call_sites_partial, C53_only_targets, C53_execution_partial, C56_never_into_data, C57_image, C57_values, C58_entry_reassembles_partial, C58_rom_reassembles_partial, C58_rom_covered_partial, C58_violated_second_cleanup, C59_accepts, C59_tokens_partial, C59_violated, C60_load, C60_defined_partial, C60_save_partial, C61_readable_iff, C61_all_readable_partial, C61_violated, C62_dump_assembles_partial, C62_prints_iff, C62_long_refused, C62_accepted_iff, C63_reads_back_partial, C63_read_iff, C64_listing_reassembles, C65_listing_accepted_partial, C65_rom_round_trip_partial, C65_entries, C66_identity_check, C67_output, C67_round_trip_partial, C67_entries, C68_all_followed_partial, C68_execution_partial, C68_terminates, C69_nothing_left_partial, C69_violated, C70_terminates_partial, C70_violated, C71_defined_partial, C71_cause, C71_cleanup, C71_tool_cause, C71_tool_sizes_partial, C71_dumb, C72_defined_partial, C72_plain_partial, C72_loading, C72_loading_lines, C73_accepts_grammar, C73_unambiguous, C73_exact, C74_layout, C74_same_output, C74_fake_file, C75_simulates_partial, C75_finds_partial, C75_violated, C76_nothing_else_partial, C76_violated, C77_lists_program_partial, C77_fresh_partial, C78_succeeds_partial, C78_exact_partial, C78_shows_partial, C78_forward_partial, C78_violated, C79_added, C79_combined, C79_permuted, C79_removed, C80_reported_partial, C81_any_order_partial, C82_renaming, C83_names, C83_conventions, C84_removed, C84_added_partial, C85_prints, C85_bytes, C86_quick_assemble, C86_disassemble_more, C86_quick_disassemble_partial, C86_plain, C87_same_entries, C87_more_calls, C87_same_listing_partial, C87_any_order_partial, C87_arguments, C88_reads_back_partial, C88_distinct_partial, C88_session_partial, C89_image, C89_same_places, C89_same_values, C90_moves, C90_image, C90_constants, C91_load_partial, C91_violated_large, C91_closed_partial, C91_save, C91_tools, C91_no_rom, C91_no_source, C92_quick_assemble, C92_disassemble_more, C92_quick_disassemble_partial, C92_dumb_disassemble_partial, C92_quick_dump_partial, C92_usage_partial, C92_violated_blank, C93_line_partial, C93_image_partial, C93_constants, C93_computed, C94_split, C94_joined, C95_removed_partial, C95_added_partial, C96_tokens, C96_line, C96_program, C97_call, C97_calls, C97_rom, C97_tool, C98_checked, C99_bindings, C99_block, C99_renamed, C100_image, C100_again, C100_check_iff, C100_check_partial, C100_saved_partial, C100_order_partial, C100_violated, C102_reported, C102_exact, C103_listed_iff, C103_entry, C103_flags, C103_targets, C104_same_outcome, C104_removed, C104_added, C104_text, C105_joined, C105_two, C105_program, C106_divided, C106_reordered, C106_left_out, C108_shows, C108_addresses, C108_constants, C108_reads_back_partial, C108_again_partial, C109_export, C109_same_output, C110_same_answers_partial, C110_conventions_partial, C111_accepted, C111_refused, C111_long_will_do, C113_once, C113_once_is_enough
* Quot.sound, propext (88): C02_type_independent_of_shape, C04_encode_iff, C04_encode_decode, C04_same_byte_same_mnemonic, C05_assemble_writes_declared_size, C06_pseudo_op, C08_decode_local, C09_deduced_mode_is_encodable, C10_every_instruction_expressible, C11_mode_depends_on_types_only, C11_field_not_narrower, C13_no_lookup_constant, C14_dependencies_complete, C15_state_comm, C15_state_idem, C15_state_assoc, C15_state_sound, C17_accepted_iff, C17_case_insensitive, C19_violated_other_sizes, C20_balanced_stack, C20_php_plp_partial, C21_pull_undefined_iff, C22_resolve_immediate, C22_suffix_contradiction, C22_accepted_size_agrees, C23_contains_iff, C25_claim_nothing, C28_violated_everywhere, C29_read_defined, C32_one_end_of_line, C32_terminates, C41_violated, C47_violated, C52_violated, C53_violated, C54_data_directive, C60_violated_short, C61_violated_extended, C63_violated, C65_violated, C66_violated, C68_seeds, C72_violated, C72_violated_pull, C72_violated_overflow, C74_line_ends, C77_violated, C80_same_outcome, C80_violated_duplicate, C80_violated_label, C80_violated_missing, C80_violated_word, C81_same_outcome, C81_violated, C81_violated_name, C84_violated, C87_violated, C87_violated_undefined, C88_violated, C89_same_layout, C90_same_analysis, C91_violated_open, C92_violated_unpaired, C93_violated, C95_violated, C100_violated_order, C101_any_sink, C101_ends, C101_stops_anywhere, C102_same_outcome, C102_text, C102_read_partial, C105_order_matters, C105_last_label_matters, C106_org_matters, C106_branch_matters, C106_order_matters, C107_all_there, C108_column, C108_violated, C109_scope_matters, C110_violated_names, C110_violated_conventions, C111_long_reach, C112_rows, C112_distinguishes_partial, C112_violated
* none (6): C15_flags_comm, C28_violated, C31_violated_constructor, C31_violated_bound, C91_violated_save, C102_text_nowhere
* propext (43): C02_arith_semilattice, C02_type_of_expression, C10_pseudo_ops, C11_sized_operands, C11_unsized_rejected, C14_dependencies_sound, C15_flags_idem, C15_flags_assoc, C15_flags_sound, C16_emulation_forces_8bit, C17_name_round_trip, C17_name_loses_m, C18_violated, C19_violated, C20_violated, C21_violated, C29_violated, C30_violated, C34_overflow_while_parsing, C36_violated_colon, C36_violated_paren, C37_violated, C49_violated, C50_failure_keeps_result, C50_entry_point_remains, C55_opcode_table_is_data_sheet, C55_instruction_lengths, C58_violated, C62_violated, C68_violated, C68_violated_repeated, C71_violated, C74_read_back, C74_last_newline, C82_exchange, C86_violated, C89_labels_steady, C91_source, C92_violated_garbage, C102_violated, C107_families, C107_relatives, C107_operand_type
