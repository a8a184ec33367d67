import Verif.Model.Token

/-! # The parser (nsasm/parse.cc)

A `TokenSpan` is a list of tokens; `front()` of an empty span is undefined
behaviour.  Functions that take a `TokenSpan*` return the remaining tokens.
Every parse error is `Err.parse`.  `expr` to `comp` recurse without a syntactically
decreasing argument, so they carry a step bound, whose exhaustion is the separate
error `Err.steps`. -/

namespace Nsasm

abbrev Toks := List Token

/-- `class Statement` (nsasm/statement.h:15-84): a variant. -/
inductive Statement where
  | instr (i : Instruction)
  | dir (d : Directive)
deriving DecidableEq, Repr

/-- `class ParsedLabel` (nsasm/parse.h:11-29), only the named variety: nothing
constructs a `+`/`-` label. -/
structure ParsedLabel where
  name : Str
  exported : Bool
deriving DecidableEq, Repr

/-- `absl::variant<Statement, ParsedLabel>`. -/
inductive Item where
  | stmt (s : Statement)
  | label (l : ParsedLabel)
deriving DecidableEq, Repr

namespace Parse

/-- A single-character token. -/
abbrev pc (c : Char) : Token := .punct (.ch c)

/-- `pos->front()`. -/
def front : Toks → Res Token
  | [] => .ub .emptyAccess
  | t :: _ => .ok t

/-- The test of `AtEnd` (nsasm/parse.cc:21-23). -/
def isEnd (t : Token) : Bool := t = .eol || t = pc ':'

/-- `AtEnd` (nsasm/parse.cc:21-23). -/
def atEnd (ts : Toks) : Res Bool := do .ok (isEnd (← front ts))

/-- The test of `AtEndOrSuffix` (nsasm/parse.cc:25-28). -/
def isEndOrSuffix (t : Token) : Bool := isEnd t || t = .punct .yields || t = .punct .noreturn

/-- `AtEndOrSuffix` (nsasm/parse.cc:25-28). -/
def atEndOrSuffix (ts : Toks) : Res Bool := do .ok (isEndOrSuffix (← front ts))

/-- `Consume` (nsasm/parse.cc:36-43). -/
def consume (c : Char) (ts : Toks) : Res Toks := do
  if (← front ts) ≠ pc c then .err .parse else .ok ts.tail

/-- `ConfirmAtEnd` (nsasm/parse.cc:45-51). -/
def confirmAtEnd (ts : Toks) : Res Unit := do
  if !(← atEnd ts) then .err .parse else .ok ()

/-- `ConfirmAtEndOrSuffix` (nsasm/parse.cc:53-60). -/
def confirmAtEndOrSuffix (ts : Toks) : Res Unit := do
  if !(← atEndOrSuffix ts) then .err .parse else .ok ()

/-- `IsRegister` (nsasm/parse.cc:32-34). -/
def isRegister (t : Token) : Bool := t = pc 'A' || t = pc 'S' || t = pc 'X' || t = pc 'Y'

/-- `ConfirmLegalRegister` (nsasm/parse.cc:62-73). -/
def confirmLegalRegister (allowed : List Char) (ts : Toks) : Res Unit := do
  let t ← front ts
  if isRegister t ∧ t ∉ allowed.map pc then .err .parse else .ok ()

/-- `Mode` (nsasm/parse.cc:76-90). -/
def mode (ts : Toks) : Res (StatusFlags × Toks) := do
  match ← front ts with
  | .ident s =>
    match StatusFlags.fromName s with
    | some f => .ok (f, ts.tail)
    | none => .err .parse
  | _ => .err .parse

/-- The operator of `Expr`'s loop (nsasm/parse.cc:99-105). -/
def addOp (t : Token) : Option BinOp :=
  if t = pc '+' then some .plus else if t = pc '-' then some .minus else none

/-- The operator of `Term`'s loop (nsasm/parse.cc:123-129). -/
def mulOp (t : Token) : Option BinOp :=
  if t = pc '*' then some .mul else if t = pc '/' then some .div else none

/-- The operator of `Factor` (nsasm/parse.cc:141-150). -/
def unaryOp (t : Token) : Option UnOp :=
  if t = pc '-' then some .neg
  else if t = pc '<' then some .lowbyte
  else if t = pc '>' then some .highbyte
  else if t = pc '^' then some .bankbyte
  else none

/-- `*pos->front().Identifier()` after a check that it is one
(nsasm/parse.cc:180-186, 195-201). -/
def identifier (ts : Toks) : Res (Str × Toks) := do
  match ← front ts with
  | .ident s => .ok (s, ts.tail)
  | _ => .err .parse

/-- The identifier part of `Comp` (nsasm/parse.cc:177-207): `none` if there is no
identifier here.  `t` is the type the identifier gets. -/
def compIdent (t : NumericType) (ts : Toks) : Res (Option (Expr × Toks)) := do
  match ← front ts with
  | .punct .scope =>
      let (s, ts) ← identifier ts.tail
      .ok (some (.ident ⟨some [], s⟩ t, ts))
  | .ident s1 =>
      let ts := ts.tail
      if (← front ts) = .punct .scope then
        let (s2, ts) ← identifier ts.tail
        .ok (some (.ident ⟨some s1, s2⟩ t, ts))
      else .ok (some (.ident ⟨none, s1⟩ t, ts))
  | _ => .ok none

mutual

/-- `Expr` (nsasm/parse.cc:92-114). -/
def expr : Nat → Toks → Res (Expr × Toks)
  | 0, _ => .err .steps
  | n + 1, ts => do
      let (t, ts) ← term n ts
      exprLoop n t ts

/-- The loop of `Expr` (nsasm/parse.cc:97-112). -/
def exprLoop : Nat → Expr → Toks → Res (Expr × Toks)
  | 0, _, _ => .err .steps
  | n + 1, acc, ts => do
      let t ← front ts
      if isEnd t then .ok (acc, ts)
      else match addOp t with
        | none => .ok (acc, ts)
        | some op => do
            let (rhs, ts) ← term n ts.tail
            exprLoop n (.bin op acc rhs) ts

/-- `Term` (nsasm/parse.cc:116-138). -/
def term : Nat → Toks → Res (Expr × Toks)
  | 0, _ => .err .steps
  | n + 1, ts => do
      let (f, ts) ← factor n ts
      termLoop n f ts

/-- The loop of `Term` (nsasm/parse.cc:121-136). -/
def termLoop : Nat → Expr → Toks → Res (Expr × Toks)
  | 0, _, _ => .err .steps
  | n + 1, acc, ts => do
      let t ← front ts
      if isEnd t then .ok (acc, ts)
      else match mulOp t with
        | none => .ok (acc, ts)
        | some op => do
            let (rhs, ts) ← factor n ts.tail
            termLoop n (.bin op acc rhs) ts

/-- `Factor` (nsasm/parse.cc:140-158). -/
def factor : Nat → Toks → Res (Expr × Toks)
  | 0, _ => .err .steps
  | n + 1, ts => do
      match unaryOp (← front ts) with
      | some op => do
          let (a, ts) ← factor n ts.tail
          .ok (.un op a, ts)
      | none => comp n ts

/-- `Comp` (nsasm/parse.cc:160-217). -/
def comp : Nat → Toks → Res (Expr × Toks)
  | 0, _ => .err .steps
  | n + 1, ts => do
      match ← front ts with
      | .lit v t => .ok (.mkLit v t, ts.tail)
      | .punct (.ch '@') => do
          match ← compIdent .long ts.tail with
          | some r => .ok r
          | none => .err .parse
      | t => do
          match ← compIdent .word ts with
          | some r => .ok r
          | none =>
              if t = pc '(' then do
                let (e, ts) ← expr n ts.tail
                let ts ← consume ')' ts
                .ok (e, ts)
              else .err .parse

end

/-- The step bound used for an expression: enough for any token list
(`expr_steps`). -/
def bound (ts : Toks) : Nat := 4 * ts.length + 4

/-- `Expr(pos)` as called by the rest of the parser. -/
def expression (ts : Toks) : Res (Expr × Toks) := expr (bound ts) ts

/-- `CreateInstruction` (nsasm/parse.cc:219-238). -/
def createInstruction (m : Mnemonic) (s : Suffix) (sam : SMode) (arg1 arg2 : Expr := .null) :
    Res Instruction := do
  let am ← deduceMode m sam arg1 arg2
  if s ≠ .none ∧ flagControllingInstructionSize m = .notVariable then .err .parse
  else .ok ⟨m, s, am, arg1, arg2, .default⟩

/-- `CreateInstruction` at the position reached. -/
def create (m : Mnemonic) (s : Suffix) (sam : SMode) (arg1 arg2 : Expr) (ts : Toks) :
    Res (Instruction × Toks) := do
  .ok (← createInstruction m s sam arg1 arg2, ts)

/-- `ConfirmAtEndOrSuffix` followed by `CreateInstruction`. -/
def finish (m : Mnemonic) (s : Suffix) (sam : SMode) (arg1 arg2 : Expr) (ts : Toks) :
    Res (Instruction × Toks) := do
  confirmAtEndOrSuffix ts
  create m s sam arg1 arg2 ts

/-- The `#` branch (nsasm/parse.cc:265-281), after the `#`. -/
def immediate (m : Mnemonic) (s : Suffix) (ts : Toks) : Res (Instruction × Toks) := do
  let (a1, ts) ← expression ts
  if ← atEndOrSuffix ts then create m s .imm a1 .null ts
  else do
    let ts ← consume ',' ts
    let ts ← consume '#' ts
    let (a2, ts) ← expression ts
    finish m s .mov a1 a2 ts

/-- The `[` branch (nsasm/parse.cc:283-300), after the `[`. -/
def bracketed (m : Mnemonic) (s : Suffix) (ts : Toks) : Res (Instruction × Toks) := do
  let (a1, ts) ← expression ts
  let ts ← consume ']' ts
  if ← atEndOrSuffix ts then create m s .lng a1 .null ts
  else do
    let ts ← consume ',' ts
    confirmLegalRegister ['Y'] ts
    let ts ← consume 'Y' ts
    finish m s .lng_y a1 .null ts

/-- After `OPR (arg1,` (nsasm/parse.cc:321-349). -/
def indirectComma (m : Mnemonic) (s : Suffix) (a1 : Expr) (ts : Toks) :
    Res (Instruction × Toks) := do
  confirmLegalRegister ['X', 'S'] ts
  if (← front ts) = pc 'X' then do
    let ts ← consume ')' ts.tail
    finish m s .ind_x a1 .null ts
  else do
    let ts ← consume 'S' ts
    let ts ← consume ')' ts
    let ts ← consume ',' ts
    confirmLegalRegister ['Y'] ts
    let ts ← consume 'Y' ts
    finish m s .stk_y a1 .null ts

/-- The bare-expression case (nsasm/parse.cc:376-402). -/
def bare (m : Mnemonic) (s : Suffix) (ts : Toks) : Res (Instruction × Toks) := do
  let (a1, ts) ← expression ts
  if ← atEndOrSuffix ts then create m s .dir a1 .null ts
  else do
    let ts ← consume ',' ts
    confirmLegalRegister ['X', 'Y', 'S'] ts
    let r ← front ts
    if r = pc 'X' then finish m s .dir_x a1 .null ts.tail
    else if r = pc 'Y' then finish m s .dir_y a1 .null ts.tail
    else do
      let ts ← consume 'S' ts
      finish m s .stk a1 .null ts

/-- The `(` branch (nsasm/parse.cc:312-374); `ts` starts with the `(`.  Falls back
to the bare expression on the unconsumed tokens.  When the token after the
argument is neither `,` nor `)` the C++ continues at line 377 without restoring
the position. -/
def parenthesized (m : Mnemonic) (s : Suffix) (ts : Toks) : Res (Instruction × Toks) := do
  let (a1, ts1) ← expression ts.tail
  let t ← front ts1
  if t = pc ',' then indirectComma m s a1 ts1.tail
  else if t = pc ')' then do
    let ts2 := ts1.tail
    if ← atEndOrSuffix ts2 then create m s .ind a1 .null ts2
    else if (← front ts2) = pc ',' then do
      let ts3 := ts2.tail
      confirmLegalRegister ['Y'] ts3
      let ts3 ← consume 'Y' ts3
      finish m s .ind_y a1 .null ts3
    else bare m s ts
  else bare m s ts1

/-- The operand part of `ParseInstructionCore` (nsasm/parse.cc:254-402). -/
def operand (m : Mnemonic) (s : Suffix) (ts : Toks) : Res (Instruction × Toks) := do
  if ← atEndOrSuffix ts then create m s .imp .null .null ts
  else do
    confirmLegalRegister ['A'] ts
    let t ← front ts
    if t = pc 'A' then finish m s .acc .null .null ts.tail
    else if t = pc '#' then immediate m s ts.tail
    else if t = pc '[' then bracketed m s ts.tail
    else if t = pc '(' then parenthesized m s ts
    else bare m s ts

/-- `ParseInstructionCore` (nsasm/parse.cc:241-403). -/
def instructionCore (ts : Toks) : Res (Instruction × Toks) := do
  match ← front ts with
  | .mnem m => do
      match ← front ts.tail with
      | .suffix s => operand m s ts.tail.tail
      | _ => operand m .none ts.tail
  | _ => .err .other

/-- `ParseReturnConvention` (nsasm/parse.cc:405-417). -/
def returnConvention (ts : Toks) : Res (ReturnConvention × Toks) := do
  match ← front ts with
  | .punct .noreturn => .ok (.noreturn, ts.tail)
  | .punct .yields => do
      let (f, ts) ← mode ts.tail
      .ok (.yields f, ts)
  | _ => .ok (.default, ts)

/-- `ParseInstruction` (nsasm/parse.cc:419-432).  `Err.other`: this error is not given a location
(`Model/Located.lean`). -/
def instruction (ts : Toks) : Res (Instruction × Toks) := do
  let (i, ts) ← instructionCore ts
  let (rc, ts) ← returnConvention ts
  if rc ≠ .default ∧ i.mnemonic ≠ .jsl ∧ i.mnemonic ≠ .jsr then .err .other
  else .ok ({ i with ret := rc }, ts)

/-- The loop of the `DT_list_arg` case (nsasm/parse.cc:467-480), at most `n`
rounds. -/
def exprList : Nat → Toks → Res (List Expr × Toks)
  | 0, _ => .err .steps
  | n + 1, ts => do
      let (e, ts) ← expression ts
      if ← atEnd ts then .ok ([e], ts)
      else do
        let ts ← consume ',' ts
        let (es, ts) ← exprList n ts
        .ok (e :: es, ts)

/-- The flags and return convention at the end of a directive
(nsasm/parse.cc:487-500). -/
def directiveFlags (d : DirectiveName) (arg : Expr) (ts : Toks) : Res (Directive × Toks) := do
  let (f, ts) ← mode ts
  if d.type = .flag_arg then confirmAtEnd ts
  let (rc, ts) ← returnConvention ts
  confirmAtEnd ts
  .ok (⟨d, arg, f, rc, []⟩, ts)

/-- The cases with one expression (nsasm/parse.cc:448-466). -/
def directiveArg (d : DirectiveName) (ts : Toks) : Res (Directive × Toks) := do
  let (a, ts) ← expression ts
  if d.type = .constant_arg ∧ a.requiresLookup then .err .parse
  else if d.type = .name_arg ∧ a.simpleIdentifier = none then .err .parse
  else do
    confirmAtEnd ts
    .ok (⟨d, a, .default, .default, []⟩, ts)

/-- `ParseDirective` (nsasm/parse.cc:434-502), after the directive's name. -/
def directive (d : DirectiveName) (ts : Toks) : Res (Directive × Toks) :=
  match d.type with
  | .no_arg => do
      confirmAtEnd ts
      .ok (⟨d, .null, .default, .default, []⟩, ts)
  | .single_arg | .constant_arg | .name_arg => directiveArg d ts
  | .list_arg => do
      let (es, ts) ← exprList (ts.length + 1) ts
      .ok (⟨d, .null, .default, .default, es⟩, ts)
  | .remote_arg => do
      let (a, ts) ← expression ts
      directiveFlags d a ts
  | .flag_arg | .calling_convention_arg => directiveFlags d .null ts

/-- The label at the start of `ts`, if there is one (nsasm/parse.cc:531-545). -/
def labelAt (exported : Bool) (ts : Toks) : Res (Option ParsedLabel × Bool × Toks) := do
  match ← front ts with
  | .ident s =>
      if ts.tail.head? = some (pc ':') then .ok (some ⟨s, exported⟩, true, ts.tail.tail)
      else .ok (some ⟨s, exported⟩, false, ts.tail)
  | _ => if exported then .err .parse else .ok (none, false, ts)

/-- The label part of one round of `Parse` (nsasm/parse.cc:527-545): the label, if
there is one, whether a colon followed it, and the remaining tokens. -/
def lineLabel (ts : Toks) : Res (Option ParsedLabel × Bool × Toks) := do
  if (← front ts) = .punct .export_ then labelAt true ts.tail else labelAt false ts

/-- The statement part of one round of `Parse` (nsasm/parse.cc:547-589): `none` for
the early `return` at line 548. -/
def lineStatement (ts : Toks) : Res (Option (Statement × Toks)) := do
  let t ← front ts
  if isEnd t then .ok none
  else match t with
    | .punct (.ch '{') => .ok (some (.dir ⟨.begin_, .null, .default, .default, []⟩, ts.tail))
    | .punct (.ch '}') => .ok (some (.dir ⟨.end_, .null, .default, .default, []⟩, ts.tail))
    | .dir d => do
        let (d, ts) ← directive d ts.tail
        if !(← atEnd ts) then .err .other
        else .ok (some (.dir d, ts.tail))
    | .mnem _ => do
        let (i, ts) ← instruction ts
        if !(← atEnd ts) then .err .other
        else .ok (some (.instr i, ts.tail))
    | _ => .err .parse

/-- The loop of `Parse` (nsasm/parse.cc:520-591), at most `n` rounds. -/
def parseLoop : Nat → Toks → Res (List Item)
  | 0, _ => .err .steps
  | n + 1, ts =>
    if ts = [] then .ok []
    else do
      let (l, colon, ts) ← lineLabel ts
      let labels := (l.map Item.label).toList
      if colon then do
        let rest ← parseLoop n ts
        .ok (labels ++ rest)
      else do
        match ← lineStatement ts with
        | none => .ok labels
        | some (s, ts) => do
            let rest ← parseLoop n ts
            .ok (labels ++ .stmt s :: rest)

/-- `Parse` (nsasm/parse.cc:516-592). -/
def parse (ts : Toks) : Res (List Item) := parseLoop (ts.length + 1) ts

/-- `ParseExpression` (nsasm/parse.cc:594-602). -/
def parseExpression (s : Str) : Res Expr := do
  let ts ← tokenize s
  let (e, ts) ← expression ts
  confirmAtEnd ts
  .ok e

end Parse

end Nsasm
