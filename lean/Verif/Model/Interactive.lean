import Verif.Model.Text
import Verif.Model.Parse

/-!
# The interactive parser

`util/interactive_parse.cc`: reads lines and prints the items each of them parses to.  The text of an error is a
parameter.  The status is 0 in every case, so it is left out.
-/

namespace Nsasm

/-- `ParsedLabel::ToString` (nsasm/parse.cc:506-514).  No label with `+` or `-` signs is ever made. -/
def ParsedLabel.toStr (l : ParsedLabel) : Str := if l.exported then cs!"export " ++ l.name else l.name

/-- `Statement::ToString` (nsasm/statement.cc:5-13). -/
def Statement.toStr : Statement → Str
  | .instr i => i.toStr
  | .dir d => d.toStr

namespace Interactive

/-- The line printed for an item (util/interactive_parse.cc:34-43). -/
def line : Item → Str
  | .label l => l.toStr ++ cs!":"
  | .stmt st => cs!"    " ++ st.toStr

/-- The lines printed for a line that was read (util/interactive_parse.cc:19-43). -/
def answer (msg : Err → Str) (text : Str) : Res (List Str) :=
  match tokenize text with
  | .err e => .ok [msg e]
  | .ub u => .ub u
  | .ok ts =>
    match Parse.parse ts with
    | .err e => .ok [msg e]
    | .ub u => .ub u
    | .ok items => .ok (items.map line)

/-- All that is printed (util/interactive_parse.cc:14-46), given the lines of the input.  `while (std::cin)` is
only left when a line could not be read, so there is one more round with an empty line at the end of the input,
which prints just the prompt. -/
def session (msg : Err → Str) : List Str → Res Str
  | [] => .ok cs!"> "
  | text :: more => do
      let out ← answer msg text
      let rest ← session msg more
      .ok (cs!"> " ++ (out.map (· ++ ['\n'])).flatten ++ rest)

end Interactive
end Nsasm
