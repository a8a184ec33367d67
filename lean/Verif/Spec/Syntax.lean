import Verif.Spec.Text

/-! # Specification of the statement syntax: operands, statements and lines -/

namespace Nsasm.Spec

/-- `Operand ts sm a b`: the tokens `ts` are an operand of the syntactic form `sm`
with the expressions `a` and `b`. -/
inductive Operand : List Token → SMode → Expr → Expr → Prop
  | imp : Operand [] .imp .null .null
  | acc : Operand [tok 'A'] .acc .null .null
  | imm {ts a} : Derives .expr ts a → Operand (tok '#' :: ts) .imm a .null
  | mov {ts us a b} : Derives .expr ts a → Derives .expr us b →
      Operand (tok '#' :: ts ++ tok ',' :: tok '#' :: us) .mov a b
  | lng {ts a} : Derives .expr ts a → Operand (tok '[' :: ts ++ [tok ']']) .lng a .null
  | lng_y {ts a} : Derives .expr ts a →
      Operand (tok '[' :: ts ++ [tok ']', tok ',', tok 'Y']) .lng_y a .null
  | ind {ts a} : Derives .expr ts a → Operand (tok '(' :: ts ++ [tok ')']) .ind a .null
  | ind_x {ts a} : Derives .expr ts a →
      Operand (tok '(' :: ts ++ [tok ',', tok 'X', tok ')']) .ind_x a .null
  | ind_y {ts a} : Derives .expr ts a →
      Operand (tok '(' :: ts ++ [tok ')', tok ',', tok 'Y']) .ind_y a .null
  | stk_y {ts a} : Derives .expr ts a →
      Operand (tok '(' :: ts ++ [tok ',', tok 'S', tok ')', tok ',', tok 'Y']) .stk_y a .null
  | dir {ts a} : Derives .expr ts a → Operand ts .dir a .null
  | dir_x {ts a} : Derives .expr ts a → Operand (ts ++ [tok ',', tok 'X']) .dir_x a .null
  | dir_y {ts a} : Derives .expr ts a → Operand (ts ++ [tok ',', tok 'Y']) .dir_y a .null
  | stk {ts a} : Derives .expr ts a → Operand (ts ++ [tok ',', tok 'S']) .stk a .null

/-- An operand of a form without indirection does not begin with a parenthesised
expression that is the whole operand or is followed by a `,`: that would be an
indirect operand. -/
def NotIndirect (ts : List Token) : SMode → Prop
  | .dir | .dir_x | .dir_y | .stk => ∀ us e rest, Derives .expr us e →
      ts = tok '(' :: us ++ tok ')' :: rest → ∃ t r, rest = t :: r ∧ t ≠ tok ','
  | _ => True

/-- An optional `.b` or `.w` after a mnemonic. -/
inductive SuffixForm : List Token → Suffix → Prop
  | absent : SuffixForm [] .none
  | present (s) : SuffixForm [.suffix s] s

/-- An optional return convention. -/
inductive Convention : List Token → ReturnConvention → Prop
  | absent : Convention [] .default
  | noreturn : Convention [.punct .noreturn] .noreturn
  | yields {n f} : StatusFlags.fromName n = some f →
      Convention [.punct .yields, .ident n] (.yields f)

/-- One or more expressions separated by commas. -/
inductive ExprList : List Token → List Expr → Prop
  | one {ts a} : Derives .expr ts a → ExprList ts [a]
  | cons {ts us a as} : Derives .expr ts a → ExprList us as →
      ExprList (ts ++ tok ',' :: us) (a :: as)

/-- The operand of a directive. -/
inductive DirectiveForm : DirectiveName → List Token → Directive → Prop
  | none {d} : d.type = .no_arg → DirectiveForm d [] ⟨d, .null, .default, .default, []⟩
  | expr {d ts a} : d.type = .single_arg ∨ d.type = .constant_arg ∨ d.type = .name_arg →
      Derives .expr ts a → (d.type = .constant_arg → a.requiresLookup = false) →
      (d.type = .name_arg → a.simpleIdentifier ≠ none) →
      DirectiveForm d ts ⟨d, a, .default, .default, []⟩
  | list {d ts as} : d.type = .list_arg → ExprList ts as →
      DirectiveForm d ts ⟨d, .null, .default, .default, as⟩
  | flags {d n f} : d.type = .flag_arg → StatusFlags.fromName n = some f →
      DirectiveForm d [.ident n] ⟨d, .null, f, .default, []⟩
  | convention {d n f ts rc} : d.type = .calling_convention_arg →
      StatusFlags.fromName n = some f → Convention ts rc →
      DirectiveForm d (.ident n :: ts) ⟨d, .null, f, rc, []⟩
  | remote {d ts a n f us rc} : d.type = .remote_arg → Derives .expr ts a →
      StatusFlags.fromName n = some f → Convention us rc →
      DirectiveForm d (ts ++ .ident n :: us) ⟨d, a, f, rc, []⟩

/-- The instruction `i` is written with mnemonic `m`, suffix `s`, an operand of form
`sm` and expressions `a`, `b`, and return convention `rc`.  Only an instruction whose
immediate can have either size takes a suffix. -/
def Written (m : Mnemonic) (s : Suffix) (sm : SMode) (a b : Expr) (rc : ReturnConvention)
    (i : Instruction) : Prop :=
  deduceMode m sm a b = .ok i.mode ∧ i.mnemonic = m ∧ i.suffix = s ∧ i.arg1 = a ∧ i.arg2 = b ∧
    i.ret = rc ∧ (s ≠ .none → flagControllingInstructionSize m ≠ .notVariable)

/-- The tokens of a statement other than a brace.  Only a call has a return
convention. -/
inductive StatementForm : List Token → Statement → Prop
  | instr {m ss s ts sm a b cs rc i} : SuffixForm ss s → Operand ts sm a b → NotIndirect ts sm →
      Convention cs rc → (rc ≠ .default → m = .jsr ∨ m = .jsl) →
      Written m s sm a b rc i → StatementForm (.mnem m :: ss ++ ts ++ cs) (.instr i)
  | dir {d ts st} : DirectiveForm d ts st → StatementForm (.dir d :: ts) (.dir st)

/-- A label's tokens. -/
def labelTokens (l : ParsedLabel) : List Token :=
  (if l.exported then [.punct .export_] else []) ++ [.ident l.name]

/-- The label an unterminated statement may carry. -/
inductive LabelForm : List Token → List Item → Prop
  | absent : LabelForm [] []
  | present (l) : LabelForm (labelTokens l) [.label l]

/-- The tokens of a line, each accounted for by an item. -/
inductive LineForm : List Token → List Item → Prop
  | done : LineForm [.eol] []
  | label {l ts is} : LineForm ts is → LineForm (labelTokens l ++ tok ':' :: ts) (.label l :: is)
  | lastLabel (l) : LineForm (labelTokens l ++ [.eol]) [.label l]
  | stmt {ls li ts st us is} : LabelForm ls li → StatementForm ts st → LineForm us is →
      LineForm (ls ++ ts ++ tok ':' :: us) (li ++ .stmt st :: is)
  | last {ls li ts st} : LabelForm ls li → StatementForm ts st →
      LineForm (ls ++ ts ++ [.eol]) (li ++ [.stmt st])
  | opening {ls li ts is} : LabelForm ls li → LineForm ts is →
      LineForm (ls ++ tok '{' :: ts) (li ++ .stmt (.dir ⟨.begin_, .null, .default, .default, []⟩) :: is)
  | closing {ls li ts is} : LabelForm ls li → LineForm ts is →
      LineForm (ls ++ tok '}' :: ts) (li ++ .stmt (.dir ⟨.end_, .null, .default, .default, []⟩) :: is)

/-- No statement of the line is empty: no `:` at its beginning or directly after
another `:` or a brace. -/
def NoEmptyStatement (ts : List Token) : Prop :=
  ts.head? ≠ some (tok ':') ∧
    ∀ c ∈ [tok ':', tok '{', tok '}'], ∀ p q, ts ≠ p ++ c :: tok ':' :: q

/-- As many `(` as `)`. -/
def ParensBalanced (ts : List Token) : Prop := ts.count (tok '(') = ts.count (tok ')')

/-- A token that begins a statement. -/
def StartsStatement : Token → Bool
  | .mnem _ | .dir _ | .punct (.ch '{') | .punct (.ch '}') => true
  | _ => false

/-- A statement rather than a label. -/
def IsStatement : Item → Bool
  | .stmt _ => true
  | .label _ => false

end Nsasm.Spec
