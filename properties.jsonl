{"id": "C01", "title": "Casting a value to a numeric type is canonical", "statement": "CastTo(type, v) returns the unique integer inside the type's range that is congruent to v modulo 2^width; casting twice is the same as casting once; T_unknown leaves v alone.", "quantifier": "every C++ int v and every NumericType", "why_tests_cant": "2^32 values times seven types; the unit tests sample a handful of them.", "anchors": ["nsasm/numeric_type.h: CastTo, Signed, Unsigned"]}
{"id": "C02", "title": "Arithmetic type conversion is a semilattice", "statement": "The type of a compound expression does not depend on operand order or grouping: the conversion is commutative, associative, idempotent on every type, has T_unknown as identity, its width is the larger width, and the result is signed exactly when one operand is signed.", "quantifier": "every pair and triple of NumericType, and every expression built from them by any nesting", "why_tests_cant": "Expressions nest without bound, so operand-order independence of an operand's size needs the algebraic laws.", "anchors": ["nsasm/numeric_type.h: ArtihmeticConversion", "nsasm/expression.h: BinaryExpression::Type"]}
{"id": "C03", "title": "Wrapped address arithmetic stays inside the bank and is invertible", "statement": "Adding an offset with wrapping never leaves the bank; adding n then m is adding n+m; subtracting two addresses fails exactly when the banks differ and otherwise yields the unique signed 16-bit offset that leads from one to the other.", "quantifier": "every 24-bit address (and pair of addresses) and every int offset", "why_tests_cant": "2^48 address pairs; relative branches depend on the law for every one of them.", "anchors": ["nsasm/address.h: Address::AddWrapped, Address::SubtractWrapped"]}
{"id": "C04", "title": "Opcode bytes and (mnemonic, addressing mode) pairs correspond one to one", "statement": "Every byte decodes to a mnemonic and mode; encoding that pair gives the byte back; every pair that encodes decodes back to itself, where an immediate operand of flag-dependent size encodes the same in both sizes; no pair encodes to two bytes.", "quantifier": "all 256 opcodes and all (mnemonic, addressing mode) pairs, including pseudo-mnemonics", "why_tests_cant": "The forward and reverse tables are separate; the tests check spots, while a single collision corrupts every program using that opcode.", "anchors": ["nsasm/opcode_map.cc: decode_map, MakeReverseOpcodeMap, EncodeOpcode, DecodeOpcode, IsLegalCombination"]}
{"id": "C05", "title": "An instruction emits exactly as many bytes as its declared size", "statement": "When Instruction::Assemble succeeds it performs exactly one write, at the given address, of exactly SerializedSize() bytes; when it fails it writes nothing.", "quantifier": "every instruction (mnemonic, mode, operand expressions), address, and lookup context", "why_tests_cant": "The layout of the module is computed from sizes before any byte is emitted, so a single disagreeing mode shifts all later labels; operands and contexts are unbounded.", "anchors": ["nsasm/instruction.cc: Instruction::SerializedSize, Instruction::Assemble"]}
{"id": "C06", "title": "Assembled code decodes to the instruction that was assembled", "statement": "Decoding the bytes emitted for a real instruction, under flags that agree with the operand size chosen, returns the same mnemonic and addressing mode with operands equal to the evaluated operands modulo the operand width; for a relative branch the decoded offset added to the next address is the evaluated target; the bytes emitted for pseudo-ops add/sub decode to CLC+ADC / SEC+SBC.", "quantifier": "every instruction, operand value, address and lookup context for which assembly succeeds", "why_tests_cant": "Round trips must hold for 2^24 operand values in 27 modes at 2^24 addresses.", "anchors": ["nsasm/instruction.cc: Instruction::Assemble", "nsasm/decode.cc: Decode"]}
{"id": "C07", "title": "Decoded code re-assembles to the same bytes", "statement": "If Decode accepts a byte sequence, assembling the decoded instruction emits exactly the leading bytes consumed, at every address; for an instruction with a relative operand this holds once the decoded offset has been rewritten to the absolute target it denotes at that address.", "quantifier": "every byte sequence, every flag state, every address", "why_tests_cant": "There are 2^32 four-byte instruction images; disassembly is trusted to reproduce every one.", "anchors": ["nsasm/decode.cc: Decode", "nsasm/instruction.cc: Instruction::Assemble"]}
{"id": "C08", "title": "Decode fails only for a missing flag or missing bytes, and looks at nothing else", "statement": "Decode succeeds exactly when the flag governing the immediate size (if any) is known on or off and the sequence is at least as long as the instruction; the result depends only on the first length bytes and on that flag.", "quantifier": "every byte sequence and every flag state", "why_tests_cant": "A decoder that reads one byte further, or consults the wrong flag, passes sampled tests.", "anchors": ["nsasm/decode.cc: Decode", "nsasm/opcode_map.cc: FlagControllingInstructionSize"]}
{"id": "C09", "title": "Addressing-mode deduction only yields encodable instructions", "statement": "Whenever the mode deduction accepts a mnemonic with a syntactic form and operands, the resulting (mnemonic, mode) pair is one the opcode table can encode, so assembly never reports an impossible combination.", "quantifier": "every mnemonic, every syntactic form, every pair of operand expressions", "why_tests_cant": "Operand expressions are unbounded trees and the deduction is a 200-line decision tree.", "anchors": ["nsasm/addressing_mode.cc: DeduceMode", "nsasm/opcode_map.cc: IsLegalCombination"]}
{"id": "C10", "title": "Addressing-mode deduction can express every instruction", "statement": "For every (mnemonic, mode) pair in the opcode table there are a syntactic form, operand types and a size suffix for which deduction (followed by flag resolution) yields that pair.", "quantifier": "every legal (mnemonic, addressing mode) pair", "why_tests_cant": "It is an existence claim over the whole table; tests only check the forms somebody thought of.", "anchors": ["nsasm/addressing_mode.cc: DeduceMode", "nsasm/instruction.cc: FixAddressingMode"]}
{"id": "C11", "title": "Operand width follows the operand's type, never its value", "statement": "The addressing mode chosen depends only on the operands' types and on whether they are bare identifiers: operands of the same types never get different modes, sized operands are accepted or rejected whatever their value, and a chosen mode never has an operand field narrower than the operand's declared type (flag-sized immediates and branch targets aside). The value of an untyped constant only decides whether it is accepted as an 8- or 16-bit operand, and it is accepted exactly when it fits as signed or unsigned.", "quantifier": "every mnemonic, operand form and pair of operand expressions", "why_tests_cant": "Operand values and expression shapes are unbounded.", "anchors": ["nsasm/addressing_mode.cc: DeduceMode"]}
{"id": "C12", "title": "Expression evaluation is integer arithmetic", "statement": "If evaluation yields a value then that value is the mathematical result of the expression over unbounded integers (with truncating division and explicit casts), given the looked-up names; evaluation fails only for a failed lookup, a missing operand or a division by zero, and machine-int overflow is the only undefined outcome.", "quantifier": "every expression tree and every lookup context", "why_tests_cant": "Unbounded trees; overflow boundaries at every node.", "anchors": ["nsasm/expression.h: BinaryExpression::Evaluate, UnaryExpression::Evaluate", "nsasm/expression.cc: Literal::Evaluate, Identifier::Evaluate"]}
{"id": "C13", "title": "An expression that needs no lookup is constant", "statement": "If an expression says it requires no lookup, its value is the same in every context, including the null context used to evaluate .org operands; a source expression that does require a lookup has no value in the null context.", "quantifier": "every expression tree and every pair of contexts", "why_tests_cant": "Quantifies over arbitrary contexts and unbounded trees.", "anchors": ["nsasm/expression.h: RequiresLookup", "nsasm/module.cc: Module::RunFirstPass"]}
{"id": "C14", "title": "The dependency set of an expression is complete", "statement": "The value of an expression depends only on local names and on the names it reports as external references: contexts that agree on those give the same result.", "quantifier": "every expression, every local-name predicate and every pair of contexts", "why_tests_cant": "The assembly order of modules is computed from these sets; a missed reference shows only in particular link orders.", "anchors": ["nsasm/expression.h: ExternalNamesReferenced", "nsasm/module.cc: Module::RunFirstPass"]}
{"id": "C15", "title": "Merging processor states is a join", "statement": "Merging two flag states (and two whole execution states) is commutative, associative and idempotent, and every machine state described by either operand is described by the merge.", "quantifier": "every triple of execution states, with stacks of any depth", "why_tests_cant": "Stacks are unbounded and the merge has special cases for the E flag and for variable-size entries; analysis results would depend on visiting order if a law failed.", "anchors": ["nsasm/execution_state.h: BitState operator|, StatusFlags::operator|, Stack::operator|, ExecutionState::operator|"]}
{"id": "C16", "title": "Emulation mode forces 8-bit registers in every tracked state", "statement": "In every flag state obtainable through the public operations, a state known to be in emulation mode has M and X known on, and no state claims M or X off unless native mode is known.", "quantifier": "every sequence of public flag operations of any length", "why_tests_cant": "It is an invariant over unbounded histories of operations.", "anchors": ["nsasm/execution_state.h: ConstrainedForEBit, StatusFlags", "nsasm/execution_state.cc"]}
{"id": "C17", "title": "Flag-state names round-trip", "statement": "Parsing the printed name of a flag state recovers E, M and X whenever the name can express them; parsing is case-insensitive; a name is accepted exactly when it is one of the documented spellings.", "quantifier": "every flag state and every string", "why_tests_cant": "Quantifies over every string.", "anchors": ["nsasm/execution_state.cc: StatusFlags::FromName, StatusFlags::ToName"]}
{"id": "C18", "title": "Executing an instruction abstractly over-approximates the processor", "statement": "If the tracked state describes the processor before an instruction and the instruction is accepted, then the tracked state after it describes the processor after it: every flag claimed known has that value and PLP restores what PHP saved.", "quantifier": "every instruction, every tracked state, every machine state it describes, every outcome the 65816 allows", "why_tests_cant": "Needs all combinations of flags with stacks of unbounded depth.", "anchors": ["nsasm/instruction.cc: Instruction::Execute, Instruction::ExecuteBranch", "nsasm/execution_state.h"]}
{"id": "C19", "title": "Pushing then pulling a register restores it", "statement": "After pushing A, X or Y and pulling it again in the same mode the tracked value and the tracked stack are what they were.", "quantifier": "every tracked state with a stack of any depth, each register width", "why_tests_cant": "Tests push literal values at two widths only; the claim is for every value and stack.", "anchors": ["nsasm/execution_state.h: Stack::PushReg, Stack::PullReg, Stack::PushVarsize, Stack::PullVarsize"]}
{"id": "C20", "title": "Saving and restoring the status register restores the flags", "statement": "PHP followed by any balanced sequence of pushes and pulls and then PLP restores the M, X and C knowledge held at the PHP, except as overridden by emulation mode.", "quantifier": "every flag state and every balanced push/pull sequence", "why_tests_cant": "Balanced sequences are unbounded.", "anchors": ["nsasm/execution_state.h: Stack::PushFlags, Stack::PullFlags"]}
{"id": "C21", "title": "State tracking never has undefined behaviour", "statement": "Abstractly executing any accepted program never reads an empty stack or trips an internal assertion.", "quantifier": "every instruction sequence from every entry state", "why_tests_cant": "Undefined behaviour on particular histories is exactly what example-based tests miss.", "anchors": ["nsasm/execution_state.h: Stack::PullVarsize, Stack::PullReg"]}
{"id": "C22", "title": "An immediate is never encoded at a guessed size", "statement": "Resolving a flag-dependent immediate succeeds exactly when the controlling flag is known, and picks 1 byte for on and 2 bytes for off; a size suffix that contradicts the tracked flags is rejected.", "quantifier": "every instruction and every tracked state", "why_tests_cant": "A wrong size desynchronises the CPU from the assembler; must hold in every state.", "anchors": ["nsasm/instruction.cc: Instruction::FixAddressingMode, Instruction::CheckConsistency"]}
{"id": "C23", "title": "Claimed address ranges are exactly the union of the claims", "statement": "After any sequence of claims, an address is contained exactly when some claim covered it, and the stored chunks are non-empty, sorted, disjoint and non-adjacent; each claim reports success exactly when it covered no previously claimed address.", "quantifier": "every sequence of claims of any addresses and lengths", "why_tests_cant": "Histories are unbounded and the merge code has many overlap cases.", "anchors": ["nsasm/ranges.cc: DataRange::ClaimBytes, DataRange::Contains"]}
{"id": "C24", "title": "The set of claimed ranges does not depend on claim order", "statement": "Two histories of claims covering the same addresses yield the same chunk list.", "quantifier": "every pair of claim histories, in particular every permutation", "why_tests_cant": "Permutations of unbounded histories.", "anchors": ["nsasm/ranges.cc: DataRange::ClaimBytes, DataRange::Chunks"]}
{"id": "C25", "title": "A wrapping claim covers exactly the wrapped bytes", "statement": "Claiming length bytes at an address covers exactly the addresses reached by stepping 0..length-1 with wrapping inside the bank, and reports success exactly when these were all unclaimed and distinct.", "quantifier": "every 24-bit address, every length, every previous history", "why_tests_cant": "Every bank boundary and every length, including lengths above one bank.", "anchors": ["nsasm/ranges.cc: DataRange::ClaimBytes(Address, int)"]}
{"id": "C26", "title": "RangeMap is a partial function from addresses", "statement": "After any sequence of inserts, looking up an address gives the value of the one successful insert whose ranges contain it, or nothing; a failed insert changes nothing; insert fails exactly when its ranges overlap earlier ones.", "quantifier": "every sequence of inserts and every address", "why_tests_cant": "Unbounded histories; lookup relies on an ordered-map boundary argument.", "anchors": ["nsasm/ranges.h: RangeMap::Insert, RangeMap::Lookup, RangeMap::Contains"]}
{"id": "C27", "title": "SNES to ROM mapping is injective up to the documented mirrors", "statement": "Under each mapping mode an address maps to an offset below the mode's capacity, two addresses share an offset exactly when they are mirrors of each other, and ROM is never reported at work-RAM or system addresses.", "quantifier": "every 24-bit address and pair of addresses, every mapping mode", "why_tests_cant": "2^48 pairs in each mode.", "anchors": ["nsasm/rom.cc: SnesToROMAddress"]}
{"id": "C28", "title": "ExHiROM uses inverted address bit 23 as offset bit 22", "statement": "Under ExHiROM, banks $80-$ff address the first 4 MiB of the image and banks $00-$7f the second.", "quantifier": "every 24-bit address", "why_tests_cant": "Only an all-addresses statement separates the halves.", "anchors": ["nsasm/rom.cc: SnesToROMAddress (Mapping::kExHiRom)"]}
{"id": "C29", "title": "Reading ROM reads the addressed bytes", "statement": "A successful read of length n returns exactly n bytes, the i-th being the image byte at the mapping of address+i wrapped in the bank; a read succeeds exactly when its bytes are all mapped and inside the image.", "quantifier": "every image, mapping, address and length", "why_tests_cant": "The fast path and the wrapping path must agree for every length and boundary.", "anchors": ["nsasm/rom.cc: Rom::Read"]}
{"id": "C30", "title": "The identity sink accepts exactly the ROM's own bytes", "statement": "Writing to the identity-test sink succeeds exactly when the data equals the bytes the ROM returns for that address range.", "quantifier": "every image, address and byte string", "why_tests_cant": "Universal over images and data.", "anchors": ["nsasm/rom.cc: RomIdentityTest::Write"]}
{"id": "C31", "title": "The overwriting sink never writes outside the image", "statement": "A ROM-overwriting sink changes exactly the addressed bytes, fails on addresses outside the image, and leaves other bytes and the size unchanged.", "quantifier": "every image, address and byte string", "why_tests_cant": "Boundary of every image size.", "anchors": ["nsasm/rom.cc: RomOverwriter::RomOverwriter, RomOverwriter::Write"]}
{"id": "C32", "title": "Tokenizing always ends in exactly one end-of-line token", "statement": "Tokenizing any line terminates without undefined behaviour and, when it succeeds, yields a list whose last token and only its last token is end-of-line.", "quantifier": "every character sequence", "why_tests_cant": "Every string of every length.", "anchors": ["nsasm/token.cc: Tokenize"]}
{"id": "C33", "title": "Comments and blanks do not change a line's meaning", "statement": "Appending a ';' comment or trailing blanks, or inserting leading blanks, to any line leaves its tokens unchanged.", "quantifier": "every line, every comment text", "why_tests_cant": "Every string of every length.", "anchors": ["nsasm/token.cc: Tokenize"]}
{"id": "C34", "title": "Parsing never reads past the end of a line", "statement": "Parsing the tokens of any line terminates and never inspects a token beyond the end-of-line token.", "quantifier": "every token list produced by the tokenizer", "why_tests_cant": "Out-of-bounds reads on odd token sequences are not visible to tests on sensible ones.", "anchors": ["nsasm/parse.cc: Parse, Expr, ParseInstructionCore, ParseDirective"]}
{"id": "C35", "title": "Expression syntax has the documented precedence and associativity", "statement": "Parsing the rendering of any expression tree (with parentheses only where precedence and left associativity require them) gives back that tree and leaves the rest of the line untouched.", "quantifier": "every expression tree and every following token list that cannot continue the expression", "why_tests_cant": "Unbounded trees.", "anchors": ["nsasm/parse.cc: Expr, Term, Factor, Comp"]}
{"id": "C36", "title": "No statement on a line is silently dropped", "statement": "If a line parses, every token of the line contributes to the resulting statements and labels.", "quantifier": "every token list", "why_tests_cant": "Quantifies over all token sequences.", "anchors": ["nsasm/parse.cc: Parse"]}
{"id": "C37", "title": "Disassembled text re-parses to the same instruction", "statement": "Rendering a decoded instruction to text, tokenizing and parsing it gives an instruction that assembles to the same bytes.", "quantifier": "every opcode and every operand value", "why_tests_cant": "2^24 operand values per mode; tests use 0.", "anchors": ["nsasm/addressing_mode.cc: ArgsToString", "nsasm/instruction.cc: Instruction::ToString", "nsasm/parse.cc"]}
{"id": "C38", "title": "Names resolve to the innermost enclosing scope", "statement": "Looking up a plain name from a line finds the definition in the innermost scope enclosing that line that defines it, else the module-wide one; defining a name twice in one scope is an error; scopes must balance. A file whose lines can all be read is accepted exactly if no scope defines a name twice, the scopes balance and there is at most one .module.", "quantifier": "every sequence of statements and labels", "why_tests_cant": "Nesting and program length are unbounded.", "anchors": ["nsasm/module.cc: Module::LoadAsmFile, Module::LocalIndex"]}
{"id": "C39", "title": "Statements are laid out contiguously", "statement": "Each statement's address is the last origin plus the sizes of the statements since then, wrapping in the bank, and the value of a non-.equ label is the address of its line.", "quantifier": "every module", "why_tests_cant": "Programs are unbounded and sizes depend on analysis.", "anchors": ["nsasm/module.cc: Module::RunFirstPass"]}
{"id": "C40", "title": "The first pass terminates", "statement": "Analysing any finite module finishes.", "quantifier": "every finite sequence of statements", "why_tests_cant": "Non-termination cannot be observed by a finite test.", "anchors": ["nsasm/module.cc: Module::RunFirstPass"]}
{"id": "C41", "title": "Immediate sizes are right on every execution path", "statement": "If a module assembles, then on every execution path from a declared entry point in a matching processor state, every instruction executed is reached with M and X flags that agree with the operand size assembled.", "quantifier": "every module and every execution path of any length", "why_tests_cant": "Paths are unbounded and loops revisit instructions in different states.", "anchors": ["nsasm/module.cc: Module::RunFirstPass", "nsasm/instruction.cc: Instruction::Execute"]}
{"id": "C42", "title": "Every instruction of a successful module has been analysed", "statement": "When the first pass succeeds every instruction in the module was reached from an entry point, passed the consistency check in the state recorded for it, and has a concrete encodable size.", "quantifier": "every module", "why_tests_cant": "Quantifies over every module.", "anchors": ["nsasm/module.cc: Module::RunFirstPass"]}
{"id": "C43", "title": ".equ values are consistent", "statement": "After the second pass every .equ label holds the value of its expression evaluated in the final environment.", "quantifier": "every module and every external environment", "why_tests_cant": "Evaluation order could otherwise leak into values.", "anchors": ["nsasm/module.cc: Module::RunSecondPass, Module::ValueForName"]}
{"id": "C44", "title": "A successful assembly writes each address at most once", "statement": "If assembling a set of modules succeeds, the writes sent to the sink are pairwise disjoint (with bank wrapping), and the assembler reports an address as contained exactly when it was written.", "quantifier": "every set of modules", "why_tests_cant": "Every layout.", "anchors": ["nsasm/module.cc: Module::Assemble", "nsasm/assembler.cc: Assembler::Assemble, Assembler::Contains"]}
{"id": "C45", "title": "Modules are linked in dependency order", "statement": "Assembly order lists every module exactly once, after all the modules that define names it references; such an order is found whenever one exists and exported names are unique.", "quantifier": "every finite list of modules with any exports and dependencies", "why_tests_cant": "Every dependency graph.", "anchors": ["nsasm/assembler.cc: Assembler::FindAssemblyOrder"]}
{"id": "C46", "title": "Success of linking does not depend on file order", "statement": "Permuting the input files does not change whether an assembly order is found.", "quantifier": "every permutation of every list of modules", "why_tests_cant": "Factorially many orders of unbounded lists.", "anchors": ["nsasm/assembler.cc: Assembler::FindAssemblyOrder"]}
{"id": "C47", "title": "Jump targets are the external ones", "statement": "The reported jump targets are exactly the far-branch targets of assembled code that lie outside the assembled ranges, each with a state describing every call site.", "quantifier": "every set of modules", "why_tests_cant": "Every call graph.", "anchors": ["nsasm/assembler.cc: Assembler::JumpTargets", "nsasm/module.cc: Module::Assemble"]}
{"id": "C48", "title": "Disassembly terminates", "statement": "Disassembling from any start finishes, for any ROM contents.", "quantifier": "every byte source, start address, entry state and return-convention table", "why_tests_cant": "Non-termination cannot be observed by a finite test.", "anchors": ["nsasm/disassemble.cc: Disassembler::Disassemble"]}
{"id": "C49", "title": "Disassembly covers every reachable instruction in the right state", "statement": "If disassembly succeeds the result contains the start address, is closed under fall-through and local branches, and at each address the instruction is the decoding of the bytes there under the recorded flags, which cover every state propagated along any path.", "quantifier": "every byte source, start, entry state, and every prior disassembly built the same way", "why_tests_cant": "Paths are unbounded and merges happen in an order fixed by addresses.", "anchors": ["nsasm/disassemble.cc: Disassembler::Disassemble"]}
{"id": "C50", "title": "A failed disassembly changes nothing", "statement": "If Disassemble reports an error the previously accumulated result is unchanged.", "quantifier": "every byte source, start and prior state", "why_tests_cant": "Failure may occur at any step.", "anchors": ["nsasm/disassemble.cc: Disassembler::Disassemble"]}
{"id": "C51", "title": "Branch targets are labelled consistently", "statement": "After disassembly and cleanup every local branch operand names a label that is attached to the instruction at its target, and distinct addresses have distinct labels.", "quantifier": "every disassembly", "why_tests_cant": "Every control-flow graph.", "anchors": ["nsasm/disassemble.cc: Disassembler::Disassemble, Disassembler::Cleanup, GenSym"]}
{"id": "C52", "title": "Pseudo-op folding preserves the machine code", "statement": "Folding CLC+ADC and SEC+SBC into add and sub leaves the bytes the listing assembles to unchanged.", "quantifier": "every disassembly", "why_tests_cant": "Every operand and every neighbourhood.", "anchors": ["nsasm/disassemble.cc: Disassembler::Cleanup", "nsasm/instruction.cc: Instruction::Assemble"]}
{"id": "C53", "title": "Far-branch states cover every call site", "statement": "The state reported for an external jump target describes the flags at every call site that reaches it.", "quantifier": "every byte source and disassembly history", "why_tests_cant": "A call site may be revisited in a later state.", "anchors": ["nsasm/disassemble.cc: Disassembler::Disassemble"]}
{"id": "C54", "title": "Data directives emit the values they list", "statement": "A .db/.dw/.dl directive emits one little-endian group of 1/2/3 bytes per argument, in order, each congruent to the argument's value; its size is the number of bytes it emits.", "quantifier": "every argument list, context and address", "why_tests_cant": "Argument lists are unbounded.", "anchors": ["nsasm/directive.cc: Directive::SerializedSize, Directive::Assemble"]}
{"id": "C55", "title": "The opcode table is the 65816's", "statement": "Every one of the 256 opcode bytes decodes to the instruction and addressing mode that the WDC 65816 data sheet assigns to it, and every instruction length is the data sheet's.", "quantifier": "every opcode byte", "why_tests_cant": "The unit tests check self-consistency of the table, not the table against the processor's documentation.", "anchors": ["nsasm/opcode_map.cc: decode_map", "nsasm/addressing_mode.cc: InstructionLength"]}
{"id": "C56", "title": "Assembled code never runs off the end of the file or into data", "statement": "If a module assembles, every line that execution can reach from a declared entry point by falling through or taking local branches exists and is neither a data directive nor an .org.", "quantifier": "every module and every path of any length", "why_tests_cant": "Paths are unbounded.", "anchors": ["nsasm/module.cc: Module::RunFirstPass", "nsasm/directive.cc: Directive::Execute"]}
{"id": "C57", "title": "The image is the linked program", "statement": "If assembling a set of files succeeds, the sink receives exactly the encodings of the files' lines, each at the address that the layout gives the line, with every name having the value it means in its scope, its file or another module's exports; .equ values, including those that use other modules' names, are consistent in the final result.", "quantifier": "every set of files, every number of modules, scopes and names", "why_tests_cant": "It quantifies over all programs and all ways modules can refer to each other; tests fix a few files.", "anchors": ["nsasm/assembler.cc: Assembler::Assemble, AssemblerLookupContext", "nsasm/module.cc: Module::RunFirstPass, Module::RunSecondPass, Module::Assemble"]}
{"id": "C58", "title": "A listing assembles back to the bytes it was made from", "statement": "Every entry of a disassembly, assembled at its address with the labels standing for the addresses they label, emits exactly the bytes that were read there; so the listing as a whole reproduces the covered part of the ROM, before and after Cleanup.", "quantifier": "every ROM and every history of disassembly calls", "why_tests_cant": "It ranges over all byte strings, all entry points and all histories.", "anchors": ["nsasm/disassemble.cc: Disassembler::Disassemble, Disassembler::Cleanup", "nsasm/decode.cc: Decode", "nsasm/instruction.cc: Instruction::Assemble"]}
{"id": "C59", "title": "A line is read as its longest lexemes", "statement": "The tokenizer accepts exactly the texts made of blanks, lexemes and perhaps a comment, where each lexeme is the longest one possible: symbols, hexadecimal, binary and decimal numbers, reserved words in either case, names and dotted words. It yields the token each lexeme stands for, a number with its value and with the size that its digits give it.", "quantifier": "every text of any length", "why_tests_cant": "Texts are unbounded and adjacent lexemes interact: every text must be split the same way, and every number of any length must keep its value.", "anchors": ["nsasm/token.cc: Tokenize", "nsasm/mnemonic.cc: ToMnemonic, ToSuffix, ToDirectiveName"]}
{"id": "C60", "title": "A ROM file is recognised by its size and checksum, and kept when saved", "statement": "Exactly the files that are an image of at least 64 KiB in whole 4 KiB pages, alone or after a 512-byte header, and that have a checksum with its complement at $7fdc or at $ffdc but not both, are loaded; the checksum's place and the size select the mapping. Loading a file never has undefined behaviour. Saving a loaded file without changes gives the same bytes; saving it after overwriting keeps the header and the length.", "quantifier": "every file contents of any length", "why_tests_cant": "It ranges over all files; tests have no ROM files at all.", "anchors": ["nsasm/rom.cc: LoadRomFile, CheckSnesHeader, RomOverwriter::CreateFile"]}
{"id": "C61", "title": "Every byte of a loaded ROM has an address", "statement": "For every byte of a ROM file that loads there is an address at which reading returns it.", "quantifier": "every file that loads and every byte of it", "why_tests_cant": "It ranges over all images and sizes, including the largest of each mapping.", "anchors": ["nsasm/rom.cc: LoadRomFile, SnesToROMAddress, Rom::Read"]}
{"id": "C62", "title": "A dump assembles to the bytes dumped", "statement": "The text that quick_dump prints for an address, a count, a value size and a number of values per line assembles without error and puts exactly the ROM's bytes at exactly the addresses dumped; if a value cannot be read, the error is reported.", "quantifier": "every ROM, address, count, value size and line length", "why_tests_cant": "It composes the ROM reader, number formatting, tokenizer, parser, layout and assembler for all values and lengths.", "anchors": ["util/quick_dump.cc: main", "nsasm/memory.cc: InputSource::ReadWord", "nsasm/assembler.cc: Assemble"]}
{"id": "C63", "title": "A printed listing is read back as what was listed", "statement": "The file that the disassembler tools print is accepted by the assembler's tokenizer and parser line by line, and says exactly what was listed: the origins, the labels, the entry points with their flags, and each instruction with the same mnemonic, size suffix, operands and return convention, in an addressing mode that becomes the listed one when the flags agree with the listed size.", "quantifier": "every byte source and every history of disassembly calls followed by Cleanup", "why_tests_cant": "It composes instruction formatting with the tokenizer and the parser for all opcodes, operands, flags, labels and addresses.", "anchors": ["util/quick_disassemble.cc: main", "nsasm/instruction.cc: Instruction::ToString", "nsasm/token.cc: Tokenize", "nsasm/parse.cc: Parse"]}
{"id": "C64", "title": "A printed listing assembles to the ROM it was made from", "statement": "Disassemble a ROM from any entry points, clean up, print the listing and give the text to the assembler: if it is accepted, every byte that the assembly stores is the byte that the ROM has at that address, every byte of every disassembled instruction is stored, and no address is written twice.", "quantifier": "every ROM, every history of disassembly calls followed by Cleanup, every sink", "why_tests_cant": "It composes the disassembler, Cleanup, the printer, the tokenizer, the parser, all passes of the assembler and the encoder; the listing can be any program.", "anchors": ["util/quick_disassemble.cc: main", "nsasm/disassemble.cc: Disassemble, Cleanup", "nsasm/assembler.cc: Assemble", "nsasm/module.cc: RunFirstPass, Assemble"]}
{"id": "C65", "title": "A printed listing is accepted by the assembler", "statement": "Disassembling a ROM from any set of entry points, cleaning up and printing the result gives a source file that the assembler accepts, and the bytes it writes are the ROM's bytes at the same addresses.", "quantifier": "every ROM, every sequence of disassembly calls, every starting flag state", "why_tests_cant": "The static analysis in the assembler has to agree with the disassembler's at every instruction of every program; tests disassemble a few ROMs.", "anchors": ["util/quick_disassemble.cc: main", "nsasm/disassemble.cc: Disassembler::Disassemble, Disassembler::Cleanup", "nsasm/module.cc: Module::RunFirstPass", "nsasm/assembler.cc: Assembler::Assemble"]}
{"id": "C66", "title": "The assembling tool's check accepts exactly the programs that the ROM has", "statement": "quick_assemble with - as output ends with status 0 if and only if the source files assemble and every byte they assemble to is the byte that the ROM has at that address, and then prints the jump targets; with an output path it writes the ROM with exactly the assembled bytes replaced.", "quantifier": "every ROM, every set of source files, every output path", "why_tests_cant": "It composes the ROM mapping, the comparing sink, and all passes of the assembler; tests check a few programs.", "anchors": ["util/quick_assemble.cc: main", "nsasm/rom.cc: RomIdentityTest::Write, RomOverwriter", "nsasm/assembler.cc: Assemble"]}
{"id": "C67", "title": "What the disassembling tool prints can be checked by the assembling tool", "statement": "When quick_disassemble ends well, everything it printed, given back to quick_assemble with the same ROM and - as output, is found to agree with the ROM.", "quantifier": "every ROM, every list of addresses and modes on the command line", "why_tests_cant": "It composes both tools, hence the whole code base, for all programs in all ROMs.", "anchors": ["util/quick_disassemble.cc: main", "util/quick_assemble.cc: main"]}
{"id": "C68", "title": "The disassembling tool follows everything it was asked for and everything that is called", "statement": "quick_disassemble always comes to an end; each address asked for, and each target of a listed jump or call to a known address, is listed with flags that are right for every way of getting there, or an error is printed for it; so whatever a processor can execute from there is shown.", "quantifier": "every ROM, every list of addresses and modes, every execution", "why_tests_cant": "The set of routines reachable by calls and the flags they are reached with form a fixed point over an arbitrary call graph.", "anchors": ["util/quick_disassemble.cc: main, CombineStates", "nsasm/disassemble.cc: Disassembler::Disassemble"]}
{"id": "C69", "title": "What a program calls can be disassembled in turn", "statement": "disassemble_more, given a ROM and source files that agree with it, lists the routines that the program jumps to or calls and does not itself contain.", "quantifier": "every ROM and every set of source files", "why_tests_cant": "It composes the assembler's jump targets with the disassembler for all programs.", "anchors": ["util/disassemble_more.cc: main", "nsasm/assembler.cc: Assembler::JumpTargets"]}
{"id": "C70", "title": "The plain disassembler comes to an end", "statement": "dumb_disassemble ends, whatever the ROM, the address and the mode.", "quantifier": "every ROM, address and mode", "why_tests_cant": "No test can show that a loop ends for every image.", "anchors": ["util/dumb_disassemble.cc: main", "nsasm/address.h: Address::AddWrapped"]}
{"id": "C71", "title": "Disassembling does not crash", "statement": "Disassembling never ends the program by an assertion or undefined behaviour, whatever the bytes are: a call returns a listing or an error, and so do the clean-up and the disassembling tools.", "quantifier": "every ROM, every history of calls, every start address and mode", "why_tests_cant": "The analysis keeps an abstract stack whose accesses are only guarded by assertions; whether one fails depends on the path through the image, and images are unlimited.", "anchors": ["nsasm/disassemble.cc: Disassembler::Disassemble, Cleanup", "nsasm/execution_state.cc: ExecutionState, StackState::PullReg", "util/quick_disassemble.cc: main", "util/dumb_disassemble.cc: main"]}
{"id": "C72", "title": "Assembling does not crash", "statement": "Assembling never ends the program by an assertion or undefined behaviour, whatever the source files are: it succeeds or reports an error.", "quantifier": "every set of source files, every order, every output that does not itself crash", "why_tests_cant": "Assertions guard addresses, the abstract stack and integer arithmetic in all three passes; whether one fails depends on values that flow between lines and files.", "anchors": ["nsasm/assembler.cc: Assemble", "nsasm/module.cc: Module::LoadAsmFile, RunFirstPass, RunSecondPass, Assemble", "nsasm/address.h: Address", "nsasm/expression.h: BinaryExpression::Evaluate", "nsasm/execution_state.cc: StackState::PullReg"]}
{"id": "C73", "title": "A line is accepted with the meaning the grammar gives it", "statement": "Every line written according to the statement grammar (labels, statements separated by ':', blocks in braces, operands of each addressing form, directives with their arguments) is accepted and parses to exactly what the grammar says it means; no line has two meanings; and of the lines without an empty statement and with balanced parentheses no others are accepted.", "quantifier": "every token sequence, every source line", "why_tests_cant": "The grammar generates infinitely many lines with nested expressions and any number of statements.", "anchors": ["nsasm/parse.cc: Parse, ParseInstruction, ParseDirective, ParseExpression", "nsasm/token.cc: Tokenize"]}
{"id": "C74", "title": "The layout of a source file does not matter", "statement": "Programs whose files differ only in blanks around lines, comments, blank lines, DOS or Unix line ends, a missing newline at the end, or in whether labels and statements stand on one line or on several, assemble to the same output or fail in the same way; reading a file yields the lines written to it.", "quantifier": "every set of source files and every re-arrangement of their layout, every output", "why_tests_cant": "It relates every pair of files out of an infinite class of equivalent files.", "anchors": ["nsasm/file.cc: OpenFile, MakeFakeFile", "nsasm/token.cc: Tokenize", "nsasm/parse.cc: Parse", "nsasm/module.cc: Module::LoadAsmFile", "nsasm/assembler.cc: Assemble"]}
{"id": "C75", "title": "The processor executes the program as written", "statement": "When source files are assembled into a ROM and a processor runs the ROM from a declared entry point in a state with the declared flags, the processor gets wherever the program, read as lines of source, gets: to the address at which the line stands, in the same state, and there it finds the instruction of that line with its operands.", "quantifier": "every set of source files, every ROM that holds their output, every execution of any length", "why_tests_cant": "It is a simulation between two machines over executions of unbounded length.", "anchors": ["nsasm/assembler.cc: Assemble", "nsasm/module.cc: Module::RunFirstPass, Module::Assemble", "nsasm/instruction.cc: Instruction::Assemble", "nsasm/decode.cc: Decode"]}
{"id": "C76", "title": "The processor executes nothing but the program", "statement": "When a processor runs an assembled ROM from a declared entry point, every instruction that it executes is one of the program: it stands at the address of a line that the program, read as lines of source, gets to in the same state. It never executes data, operands or other memory.", "quantifier": "every set of source files, every ROM that holds their output, every execution of any length", "why_tests_cant": "It is a simulation between two machines over executions of unbounded length, in the direction opposite to the previous one.", "anchors": ["nsasm/assembler.cc: Assemble", "nsasm/module.cc: Module::RunFirstPass, Module::Assemble", "nsasm/instruction.cc: Instruction::Assemble, Execute"]}
{"id": "C77", "title": "Disassembling an assembled program shows the program", "statement": "When source files are assembled into a ROM and the ROM is disassembled from a declared entry point with the declared flags, the listing shows every instruction that the program can get to, at the address of its line and with its operands.", "quantifier": "every set of source files, every ROM that holds their output, every history of calls of the disassembler", "why_tests_cant": "It composes the assembler, the ROM mapping and the disassembler's own analysis for all programs.", "anchors": ["nsasm/assembler.cc: Assemble", "nsasm/disassemble.cc: Disassembler::Disassemble", "nsasm/rom.cc: Rom::Read"]}
{"id": "C78", "title": "Disassembling an assembled program shows exactly the program", "statement": "When source files are assembled into a ROM and the ROM is disassembled with a new disassembler from a declared entry point with the declared flags, that succeeds; the listing has an entry at an address if and only if an instruction of the source that can be reached from the entry point begins there; and each entry shows that instruction with its operands.", "quantifier": "every set of source files, every ROM that holds their output, every entry point", "why_tests_cant": "It says of every address whether it is listed, for all programs, and it composes two analyses that differ.", "anchors": ["nsasm/assembler.cc: Assemble", "nsasm/module.cc: Module::RunFirstPass", "nsasm/disassemble.cc: Disassembler::Disassemble", "nsasm/rom.cc: Rom::Read"]}
{"id": "C79", "title": "Files can be assembled together and apart", "statement": "If some files assemble, and also together with further files, the further files change nothing that is written for the former and no value of their names. Two programs that assemble can be assembled together exactly if no name is exported by both and no address is written by both, and then what is written is what is written for each. Files whose names nothing refers to can be left out. The order of the files does not matter for success or for what is written where.", "quantifier": "every two lists of source files", "why_tests_cant": "It compares the results of several runs over all programs, with all the ways their names can depend on each other.", "anchors": ["nsasm/assembler.cc: Assembler::FindAssemblyOrder, Assembler::Assemble", "nsasm/module.cc: Module::RunSecondPass, Module::Assemble, Module::ValueForName", "nsasm/ranges.h: RangeMap::Insert"]}
{"id": "C80", "title": "An error names the file and line at fault", "statement": "When assembling fails, the error that is reported comes with the path of a file and the number of a line, and that line has a statement with the fault: with the lines up to it the file cannot be loaded whatever follows, or the statement cannot run in a state in which control may arrive there, or has an unknown size, no address, an operand without value, no encoding, or bytes that go where others have gone.", "quantifier": "every list of source files, every sink, every error", "why_tests_cant": "The number of the line is carried through three passes and several files; tests look at a few messages at most.", "anchors": ["nsasm/error.h: Error::SetLocation", "nsasm/location.h: Location", "nsasm/module.cc: Module::LoadAsmFile, Module::RunFirstPass, Module::RunSecondPass, Module::Assemble, Module::ExportedNames", "nsasm/parse.cc: Parse, ParseInstruction", "nsasm/assembler.cc: Assembler::FindAssemblyOrder"]}
{"id": "C81", "title": "The result does not depend on the order of iteration over hash tables", "statement": "Assembling the same files always has the same effects: whatever the order in which hash tables are gone through, which differs from run to run, the sink receives the same writes, the same error is reported or none, and afterwards the same values of names, jump targets, return conventions and claimed addresses can be asked for.", "quantifier": "every list of source files, every sink, every two orders of iteration", "why_tests_cant": "The order is chosen by the hash function of the library at random; a test sees one order per run.", "anchors": ["nsasm/module.cc: Module::ExportedNames, Module::Assemble, Module::NameForAddress", "nsasm/module.h: global_to_line_", "nsasm/assembler.cc: Assembler::FindAssemblyOrder, Assembler::Assemble, Assembler::NameForAddress, Assembler::JumpTargets"]}
{"id": "C82", "title": "Consistently renaming names changes nothing", "statement": "If the names in the source files (labels, constants, modules) are replaced by others, each name everywhere by the same new name and different names by different ones, then the assembler makes the same writes to the sink and succeeds or fails in the same way; the values of names, the names of addresses, jump targets, return conventions and claimed addresses it reports afterwards are the same up to the renaming.", "quantifier": "every list of source files, every renaming that keeps names distinct and leaves the names of modes alone, every sink", "why_tests_cant": "A test compares two particular spellings of one program; a dependence on the spelling (a name taken for another, or looked up in the wrong scope) shows only for particular names.", "anchors": ["nsasm/parse.cc: Parse, Comp, ParseInstruction", "nsasm/module.cc: Module::LoadAsmFile, Module::LocalIndex, ModuleLookupContext::Lookup, ModuleIsLocalContext::IsLocal, Module::Assemble", "nsasm/assembler.cc: Assembler::FindAssemblyOrder, AssemblerLookupContext::Lookup, Assembler::NameForAddress", "nsasm/identifiers.h: FullIdentifier"]}
{"id": "C83", "title": "What the assembler says after assembling is what the files say", "statement": "After a successful assembly, the name given for an address is an exported name with that address as its value, of the first named file that has one, and there is an answer if any named file has one; every exported name is the name of an address. The return convention reported for an address is the one given by the last .entry at the address or .remote for it in the first file that has one, and no other addresses are reported.", "quantifier": "every list of source files that assembles, every sink, every address", "why_tests_cant": "A test asks about a few addresses of one program; a wrong entry in a table that is filled while assembling shows for other programs only.", "anchors": ["nsasm/assembler.h: Assembler::NameForAddress, Assembler::JumpTargetReturnConventions", "nsasm/assembler.cc: Assembler::NameForAddress, Assembler::JumpTargetReturnConventions", "nsasm/module.cc: Module::Assemble, Module::NameForAddress"]}
{"id": "C84", "title": "A label that nothing refers to changes nothing", "statement": "If a line with only a label is added to the source files and its name occurs nowhere else, the assembler makes the same writes to the sink and succeeds or fails in the same way, and afterwards it gives the same values of all other names, the same jump targets, return conventions and claimed addresses; the same when such a line is removed.", "quantifier": "every list of source files, every place in them, every label, exported or not, every sink", "why_tests_cant": "Labels are kept in tables together with others, limit the reach of names in blocks and are exported; a test tries a label in one place of one program.", "anchors": ["nsasm/module.cc: Module::LoadAsmFile, Module::RunFirstPass, Module::RunSecondPass, Module::Assemble, Module::ExportedNames", "nsasm/assembler.cc: Assembler::FindAssemblyOrder, Assembler::Assemble", "nsasm/parse.cc: Parse"]}
{"id": "C85", "title": "The plain disassembler shows the code that is in the ROM", "statement": "dumb_disassemble prints, from the address given, each instruction that the ROM has, in a straight line, with the flags after it and what it knows of a branch's target, until an instruction that does not go on and whose next address is not the target of a branch shown before, or until there is no instruction that can be executed, which it reports. What it prints at the end is the nearest and the lowest target of the branches shown. Assembling an instruction shown at its address gives the bytes that the ROM has there.", "quantifier": "every ROM, every start address, every mode, all instructions shown", "why_tests_cant": "A test looks at the listing of one routine; a wrong state or target kept for a branch shows only when the listing goes on there.", "anchors": ["util/dumb_disassemble.cc: main", "nsasm/decode.cc: Decode", "nsasm/rom.cc: Rom::Read"]}
{"id": "C86", "title": "The exit status of a tool tells how it ended", "statement": "Each command line tool ends with status 0 only if the ROM file could be loaded, all arguments make sense, and what was asked for was done; otherwise it prints one line that says what is wrong, for the first thing that is wrong, ends with status 1, and leaves no file behind.", "quantifier": "every ROM file, every command line, all source files", "why_tests_cant": "Each kind of failure can happen in every part of the program; tests do not run the tools at all.", "anchors": ["util/quick_assemble.cc: main", "util/quick_disassemble.cc: main", "util/disassemble_more.cc: main", "util/dumb_disassemble.cc: main", "nsasm/rom.cc: LoadRomFile"]}
{"id": "C87", "title": "The order in which routines are disassembled does not matter", "statement": "A disassembler that is asked for several routines of a program ends up with the same listing whatever the order of the calls, and however often one is repeated: the same addresses, instructions, flags and labels, and the same text once it is cleaned up and printed. Calls that succeed in one order succeed in any other. Asking for more keeps all that was listed and makes no flag better known. The order of the arguments of quick_disassemble does not matter.", "quantifier": "every byte source, every table of return conventions, every sequence of calls, every command line", "why_tests_cant": "Routines share code, and each call changes what earlier ones have left; there are as many orders as permutations, and a test runs one.", "anchors": ["nsasm/disassemble.h: Disassembler", "nsasm/disassemble.cc: Disassembler::Disassemble, Disassembler::Cleanup", "util/quick_disassemble.cc: main"]}
{"id": "C88", "title": "A statement's text is read as the statement", "statement": "interactive_parse answers a line with one line for each label and statement on it, in order, or with one error. Each line that it shows, entered again, is read as the same label or statement and nothing else, and is answered with itself. So no two different labels or statements are shown alike.", "quantifier": "every line of text, every label and statement on it", "why_tests_cant": "There are infinitely many operands, and what is printed for each has to meet what the tokenizer, the parser and the choice of addressing mode make of it; a test compares a few.", "anchors": ["util/interactive_parse.cc: main", "nsasm/statement.cc: Statement::ToString", "nsasm/parse.cc: ParsedLabel::ToString, Parse", "nsasm/instruction.cc: Instruction::ToString", "nsasm/directive.cc: Directive::ToString", "nsasm/expression.cc: Literal::ToString", "nsasm/addressing_mode.cc: ArgsToString, DeduceMode"]}
{"id": "C89", "title": "Changing a value moves nothing", "statement": "When the value of a constant, a value in a data directive, or an operand of an instruction (other than a branch, an instruction that sets flags or one that puts a number into a tracked register) is replaced by another of the same form, the first pass gives the same result: the same states, addresses and errors. If both versions assemble, each statement is written to the same address with as many bytes, labels keep their values, and the bytes differ only in statements that were changed or that depend on a changed constant, however indirectly.", "quantifier": "every set of files, every replacement of values in any number of places, every statement of the files", "why_tests_cant": "The size of an operand, the flow analysis and the addresses of all that follows could depend on any value; a test tries a few values.", "anchors": ["nsasm/module.cc: Module::LoadAsmFile, Module::RunFirstPass, Module::RunSecondPass, Module::Assemble", "nsasm/instruction.cc: Instruction::Execute, Instruction::SerializedSize, Instruction::FixAddressingMode", "nsasm/directive.cc: Directive::SerializedSize", "nsasm/addressing_mode.cc: DeduceMode"]}
{"id": "C90", "title": "Code moves as a whole", "statement": "When the address in an .org is replaced by another 24-bit address, the analysis of the code stays the same, and the statements up to the next .org move along: each stays as far from the .org, counted in its bank, as it was, also across the end of a bank. Statements after other .orgs stay where they were. If both versions assemble, each statement is written with as many bytes, and with the same bytes unless it shows where something is: a branch within the block, a distance between two places of the block, the lower bytes of a sum of such things, and anything that refers to blocks that were not moved, directly or by way of constants, are written alike.", "quantifier": "every set of files, every change of any number of origins, every statement of the files, every expression made of numbers, labels and constants", "why_tests_cant": "There are as many places as addresses, and expressions of any depth; a test moves a program once.", "anchors": ["nsasm/module.cc: Module::RunFirstPass, Module::RunSecondPass, Module::Assemble", "nsasm/address.h: Address::AddWrapped, Address::SubtractWrapped", "nsasm/instruction.cc: Instruction::Assemble", "nsasm/directive.cc: Directive::Assemble", "nsasm/expression.h: BinaryExpression::Evaluate, UnaryExpression::Evaluate"]}
{"id": "C91", "title": "An error of the disk is reported", "statement": "Whatever calls of the system fail, a ROM is loaded as what the file holds or not at all, a source file is read whole or not at all, and neither changes a file. Saving an image changes no other file; if it reports no error the file holds the header and the image, and otherwise it is as it was or holds their beginning. Each command line tool, for every command line, does the same as on a disk without errors, or prints one line and ends with status 1; and it does the latter when a file that it was given is missing. Streams are closed.", "quantifier": "every content of the disk, every sequence of failing and succeeding system calls, every command line", "why_tests_cant": "Each of the calls may fail, in every combination and after any number of bytes; a test has a disk that works.", "anchors": ["nsasm/rom.cc: LoadRomFile, RomOverwriter::CreateFile", "nsasm/file.cc: OpenFile", "util/quick_assemble.cc: main", "util/disassemble_more.cc: main", "util/quick_disassemble.cc: main", "util/dumb_disassemble.cc: main", "util/quick_dump.cc: main"]}
{"id": "C92", "title": "The words of a command line mean what they say", "statement": "A hexadecimal address with or without 0x, and with @ for an address that is looked up, and decimal counts are read as the numbers they spell; file names stand for the contents of the files; a size of values that is left out is 1, and a number of values per line that is left out is 8. With these a tool does what it does for the contents and numbers. With too few words it prints how it is used and reads no file. A command line that is not of this form is refused.", "quantifier": "every command line, every content of the files, numbers of any length", "why_tests_cant": "There are infinitely many words and command lines; a test tries a few that are right.", "anchors": ["util/quick_assemble.cc: main, usage", "util/disassemble_more.cc: main, usage", "util/quick_disassemble.cc: main, usage", "util/dumb_disassemble.cc: main, usage", "util/quick_dump.cc: main, usage"]}
{"id": "C93", "title": "An expression stands for its value", "statement": "When an expression is replaced by another one that stands for the same value, what is assembled does not change: the name of a constant may be replaced by its definition or its value, and the other way round, an arithmetic expression by its result, and a name of a place by another name of it, in constants, data and operands of the same form. A constant has the value that its definition comes to by integer arithmetic.", "quantifier": "every set of files, every replacement of any number of expressions, expressions and chains of definitions of any depth, names of the file, of a scope and of other files", "why_tests_cant": "There are infinitely many expressions for one value; a test replaces one.", "anchors": ["nsasm/expression.h: BinaryExpression::Evaluate, UnaryExpression::Evaluate, IdentifierExpression::Evaluate", "nsasm/module.cc: Module::RunSecondPass, Module::ValueForName, Module::Assemble, ModuleLookupContext::Lookup", "nsasm/assembler.cc: AssemblerLookupContext::Lookup", "nsasm/instruction.cc: Instruction::Assemble", "nsasm/directive.cc: Directive::Assemble"]}
{"id": "C94", "title": "Data may be split over directives", "statement": "A list of values may be written as one .db, .dw or .dl directive or as two, one right after the other. The same files are accepted, the same bytes are stored at the same addresses in the same order, every name has the same value, and all questions about memory, names, jump targets and return conventions are answered the same.", "quantifier": "every set of files, any number of them changed, directives anywhere in the file, with lists and expressions of any length and any labels, also across the end of a bank", "why_tests_cant": "The new line moves all later lines of the module, so that every scope, label and entry of the flow analysis has another index; a test looks at one file.", "anchors": ["nsasm/module.cc: Module::LoadAsmFile, Module::RunFirstPass, Module::RunSecondPass, Module::Assemble", "nsasm/directive.cc: Directive::Assemble, Directive::SerializedSize", "nsasm/ranges.cc: DataRange::ClaimBytes", "nsasm/assembler.cc: Assembler::Assemble"]}
{"id": "C95", "title": "A constant that nothing refers to changes nothing", "statement": "A file may define a constant, a label and an .equ with a value that needs no other names, that is not used. With and without it the same files are accepted, the same bytes are stored at the same addresses, and all other names, jump targets and return conventions are the same.", "quantifier": "every set of files, every place in one of them, every label and every closed expression", "why_tests_cant": "The new line moves all later lines, takes part in the flow analysis and gives the module one more name; a test looks at one file.", "anchors": ["nsasm/module.cc: Module::LoadAsmFile, Module::RunFirstPass, Module::RunSecondPass, Module::Assemble", "nsasm/directive.cc: Directive::Execute, Directive::Assemble", "nsasm/assembler.cc: Assembler::Assemble, Assembler::FindAssemblyOrder"]}
{"id": "C96", "title": "The case of letters matters only in names", "statement": "Mnemonics, size suffixes, directives, registers, keywords and the digits of numbers may be written in upper or lower case. Two lines that differ only in the case of letters have the same tokens or are both rejected, but for names that differ in case; files that differ only in the case of letters outside names are assembled to the same result, and fail in the same way.", "quantifier": "every line of characters; every set of files", "why_tests_cant": "There are 2^n ways to write a line of n letters, and the tokenizer decides character by character and table by table what is folded to one case.", "anchors": ["nsasm/token.cc: Tokenize", "nsasm/mnemonic.cc: ToMnemonic, ToSuffix, ToDirectiveName", "nsasm/module.cc: Module::LoadAsmFile"]}
{"id": "C97", "title": "A listing depends only on the bytes it shows", "statement": "If disassembling succeeds, it gives the same listing, the same targets of jumps and calls and the same return value for every other source of bytes that has the same bytes in the places of the instructions listed; for a ROM, whatever the other bytes are. quick_disassemble prints the same for two ROMs of the same kind and size with the same bytes in those places, if it reports no failure.", "quantifier": "every pair of sources of bytes, every history of calls that succeed, every command line", "why_tests_cant": "The disassembler always reads four bytes, and reads an instruction again whenever it reaches it with other flags; that the bytes after the instruction have no influence must hold for all of them.", "anchors": ["nsasm/disassemble.cc: Disassembler::Disassemble", "nsasm/decode.cc: Decode", "util/quick_disassemble.cc: main"]}
{"id": "C98", "title": "A ROM that passes the check of a listing is disassembled to that listing", "statement": "If quick_disassemble prints a listing for a ROM without reporting a failure, and quick_assemble with - as output finds that another ROM of the same kind and size agrees with that listing, then quick_disassemble prints exactly the same for the other ROM (given the same arguments, and the same contents of the vectors that they name).", "quantifier": "every pair of ROMs of the same kind and size, every list of addresses and modes on the command line", "why_tests_cant": "It composes both tools in the direction from text to ROM: the listing must pin down every byte that the disassembler looked at, for all programs.", "anchors": ["util/quick_disassemble.cc: main", "util/quick_assemble.cc: main", "nsasm/rom.cc: RomIdentityTest::Write"]}
{"id": "C99", "title": "Only what a name stands for matters", "statement": "If two sets of files differ only in names, and every name in one stands for the same label as the name in its place in the other, assembling them writes the same, succeeds or fails in the same way and gives the same answers afterwards. In particular the name of a label of a .begin/.end block can be replaced, in the whole block, by any word that does not occur in the block, also by one that is used outside of it: the file is still accepted and everything is as before.", "quantifier": "every set of files, every change of names under which names stand for the same, every sink", "why_tests_cant": "It compares two assemblies of arbitrary programs with nested blocks in which names are shadowed; tests can only try single programs.", "anchors": ["nsasm/module.cc: LoadAsmFile, LocalIndex, ModuleLookupContext::Lookup, RunFirstPass, RunSecondPass, Assemble", "nsasm/assembler.cc: Assembler::Assemble"]}
{"id": "C100", "title": "A program assembled into a ROM is in it", "statement": "Assembling files with a ROM-overwriting sink succeeds exactly if the files assemble and each of their bytes has a place in the image; the result has the same size, the bytes of the program in their places and all other bytes unchanged. Doing it again changes nothing. The result passes the check against the same files, also after it was saved and loaded as a ROM file, and does not depend on the order of the files.", "quantifier": "every set of files, every image, every kind of cartridge", "why_tests_cant": "It relates the runs of three sinks on the same arbitrary program and needs the addresses of all its statements to be compared; tests see single programs, and none that writes through mirrors.", "anchors": ["nsasm/rom.cc: RomOverwriter::Write, RomIdentityTest::Write, SnesToROMAddress, LoadRomFile, CreateFile", "nsasm/assembler.cc: Assembler::Assemble", "util/quick_assemble.cc: main"]}
{"id": "C101", "title": "A sink decides only where an assembly stops", "statement": "Assembling files makes the same writes in the same order whatever output sink is used, up to the first write that the sink refuses. If it refuses none, the assembly ends in the same way with every sink; if it refuses one, nothing more is written and the error of the sink is what the assembly reports.", "quantifier": "every set of files, whether they assemble or not; every sink in every state; every point at which it can fail", "why_tests_cant": "It ranges over all sinks and all points at which one may fail; a test fixes one sink and one failure.", "anchors": ["nsasm/memory.h: OutputSink", "nsasm/statement.cc: Assemble", "nsasm/module.cc: Assemble", "nsasm/assembler.cc: Assembler::Assemble"]}
{"id": "C102", "title": "Disassembling fails only where there is no code, and the error says where", "statement": "A call of Disassemble fails exactly when the flow of control from the start addresses asked for so far can bring a state to an address at which four bytes cannot be read or cannot be decoded under the flags of that state. The error names the path of the byte source and such an address, and is the error of that read or decoding. Printed errors with the same path differ if their places or messages do. An error of reading a ROM names the path and an address that was asked for and cannot be read.", "quantifier": "every byte source, every sorted table of return conventions, every history of calls that succeed or fail, every start address and flags; every ROM, address and length", "why_tests_cant": "It ranges over all programs that can be disassembled and all paths through them; a test fixes one image that fails in one place.", "anchors": ["nsasm/disassemble.cc: Disassemble", "nsasm/rom.cc: Rom::Read, SnesToROMAddress", "nsasm/location.h: Location", "nsasm/error.cc: Error::ToString"]}
{"id": "C103", "title": "A listing shows what control can be brought to, and nothing else", "statement": "After any calls of Disassemble, an address is listed exactly if the flow of control from the start addresses of the successful calls can bring a state to it. The recorded state is one that can be brought there, and merging the flags of any other such state into its flags does not change them, which determines the recorded flags. The instruction shown is what the bytes are under these flags. The addresses that a call returns are targets of calls and jumps that control can be brought to, among them all targets of those it could not be brought to before.", "quantifier": "every byte source, every sorted table of return conventions, every history of calls that succeed or fail, every address", "why_tests_cant": "It ranges over all programs and all paths through them, and says that nothing is missing and nothing is superfluous; a test compares one listing with an expected one.", "anchors": ["nsasm/disassemble.cc: Disassemble, AddTargetReturnConventions", "nsasm/execution_state.cc: Merge", "nsasm/instruction.cc: Execute, ExecuteBranch, FarBranchTarget"]}
{"id": "C104", "title": "A size suffix only asserts", "statement": "A size suffix (.b or .w after a mnemonic) never decides what is assembled: it states the size the programmer expects and is checked against the tracked flags. Files are assembled exactly as they are with some of the suffixes left out, with the same writes, the same answers and the same failures, unless they are rejected with an error about a suffix, before anything is written. A line of the grammar stays one when suffixes are left out, and says the same without them.", "quantifier": "every set of files, every choice of the suffixes that are left out, every sink", "why_tests_cant": "It compares all programs with all their variants; the suffix is carried through the parser and every pass, any of which could use it to choose a size.", "anchors": ["nsasm/instruction.cc: CheckConsistency, FixAddressingMode, Assemble", "nsasm/parse.cc: CreateInstruction", "nsasm/module.cc: RunFirstPass", "nsasm/assembler.cc: Assemble"]}
{"id": "C105", "title": "Two files may be put in one", "statement": "Let files that assemble be put in an order in which the constants of every file are defined with names of files before it. Two neighbours that do not name their modules may be replaced by one file with the lines of the first followed by those of the second, if the first does not end with a label. The files still assemble, make the same writes, and give every exported name the same value. So all the files of a program that do not name their modules or end with a label can be put in one file, in some order, and two files in one of the two orders; other orders may be refused, because within a file a constant cannot be used in the definition of an earlier one.", "quantifier": "every set of files that assembles, every two of them that meet the conditions, every number of steps", "why_tests_cant": "It compares all programs with all ways of merging their files; scopes, line numbers, flow analysis, name lookup, address layout and the check for overlapping output are per file and all change meaning when files are merged.", "anchors": ["nsasm/module.cc: LoadAsmFile, RunFirstPass, RunSecondPass, Assemble", "nsasm/assembler.cc: Assemble"]}
{"id": "C106", "title": "A file may be divided before an .org", "statement": "Let files assemble, one of which has the lines of two files that could be loaded alone and do not name their modules, the first not ending with a label and the second having an .org as its first statement. If no branch of either part goes to a name of the other, and the files with the two parts in the place of the whole can be put in an order in which the constants of every file are defined with names of files before it, then they assemble too, in no more steps, make the same writes, and give every exported name the same value. So the two parts of a file may also change places, if the constants allow it. And a second part to whose names nothing else refers may be left out: the rest assembles, makes the writes it made before, and gives its names the same values. Without an .org, with a branch across the cut, or with constants that need each other's parts, the divided program may be refused.", "quantifier": "every set of files that assembles, every way of cutting one of them that meets the conditions, every number of steps", "why_tests_cant": "It compares all programs with all ways of cutting their files; scopes, line numbers, flow analysis, name lookup, address layout and the order of the constants are per file and all change meaning when a file is cut.", "anchors": ["nsasm/module.cc: LoadAsmFile, RunFirstPass, RunSecondPass, Assemble", "nsasm/assembler.cc: Assemble"]}
{"id": "C107", "title": "Opcodes are put in the family of the processor that brought them", "statement": "The family given for an opcode is 6502 exactly if its instruction was one of the 151 of the 6502, 65C02 exactly if it is one of the 27 that the 65C02 added, and 65816 otherwise; every instruction of the older processors has an opcode. The mnemonics said to take a distance are exactly the branches and per, the long ones exactly brl and per. The type given for the operand of an addressing mode has as many bytes as the operand has in memory; for a block move, whose operand is two bytes, it is one byte.", "quantifier": "every opcode, every mnemonic, every addressing mode", "why_tests_cant": "Tests look at single opcodes; the claim compares the whole table with the instruction sets of the three processors.", "anchors": ["nsasm/opcode_map.cc: FamilyForOpcode, TakesOffsetArgument, TakesLongOffsetArgument", "nsasm/addressing_mode.cc: Arg1Type"]}
{"id": "C108", "title": "The debug listing shows the program and where it is", "statement": "After a successful assembly the debug listing has, for each file, a heading and then for every statement of the file, in order, a row for each of its labels and a row with its value and its text. The bytes that the assembly writes for a statement go to the address in its row, six hexadecimal digits; the row of a constant shows its value. Without the column of values the listing of a file is a source file with the same labels and statements, and assembles to the same bytes.", "quantifier": "every set of files that assembles, every file and statement of it, every sink", "why_tests_cant": "It relates every program to a text made from it after three passes, and the text to what reading and assembling it again gives.", "anchors": ["nsasm/module.cc: DebugPrint", "nsasm/assembler.cc: DebugPrint", "nsasm/statement.cc: ToString"]}
{"id": "C109", "title": "export says something only in a scope", "statement": "If two files have the same labels and statements, except for export at labels that are in no scope, they are loaded alike, with the same errors, and programs with one or the other assemble alike. In a scope export matters: it makes the name known outside.", "quantifier": "every pair of files that differ in export at labels outside scopes only, every program with such files, every sink", "why_tests_cant": "It compares all files with all ways of writing export in them.", "anchors": ["nsasm/module.cc: LoadAsmFile", "nsasm/assembler.cc: Assemble"]}
{"id": "C110", "title": "What the assembler says does not depend on the order of the files", "statement": "If the same files are given in another order, and both assemble, the same bytes are written to the same addresses, every exported name has the same value, and every question the assembler answers afterwards has the same answer: which addresses it contains, the name of an address, the jump targets with their flags, and the return conventions.", "quantifier": "every list of files and every permutation of it that assembles", "why_tests_cant": "It compares all programs in all orders of their files.", "anchors": ["nsasm/assembler.cc: Assemble, NameForAddress, JumpTargets, JumpTargetReturnConventions", "nsasm/module.cc: Assemble"]}
{"id": "C111", "title": "An instruction is accepted exactly if it has an encoding at its address", "statement": "Instruction::Assemble succeeds exactly if the processor has the instruction in its addressing mode, the size of an immediate operand is settled, the operands it writes have values, and, for a relative branch, the target is in the same bank and a displacement of the branch's width leads to it from the next instruction, wrapping within the bank. A branch to any other address is refused with an error and writes nothing; a long branch reaches every address of its bank, and so will do wherever a short one does.", "quantifier": "every instruction, every address and lookup context, and every branch target", "why_tests_cant": "It is about all pairs of addresses of a branch and its target, and says both that nothing else is accepted and that nothing is refused needlessly.", "anchors": ["nsasm/instruction.cc: Instruction::Assemble", "nsasm/address.h: AddWrapped, SubtractWrapped", "nsasm/opcode_map.cc: EncodeOpcode"]}
{"id": "C112", "title": "The printed opcode table shows every opcode, and tells opcodes apart", "statement": "print_opcode_map prints exactly one row for each opcode, in order. The row starts with the number of the opcode and shows the mnemonic and addressing mode that the processor's data sheet gives it, and two opcodes are never shown by the same text.", "quantifier": "every opcode, and every pair of opcodes", "why_tests_cant": "It compares every row with the data sheet, and all pairs of rows; the repository has no test of the tool.", "anchors": ["util/print_opcode_map.cc: main", "nsasm/addressing_mode.cc: ArgsToString", "nsasm/opcode_map.cc: DecodeOpcode"]}
{"id": "C113", "title": "A file that has a meaning cannot be given twice", "statement": "If a list of files assembles, into whatever sink, a file that is in the list twice has no instruction, no directive that takes space, and no name that other files can refer to. So a file with any of them that is named twice by mistake is refused, and never assembled twice; and where a file may be given twice, giving it once has the same result.", "quantifier": "every list of files, every file that occurs in it twice, and every sink", "why_tests_cant": "It is about all programs, and the refusal comes from the interplay of layout, linking and the record of claimed addresses.", "anchors": ["nsasm/assembler.cc: Assemble", "nsasm/module.cc: Assemble", "nsasm/ranges.h: DataRange, RangeMap"]}
