import Verif.Model.Text
import Verif.Spec.Opcodes

/-! # How an opcode table is written

One row for each opcode: its number in two hexadecimal digits, its mnemonic, and the notation of its addressing
mode with numbers for the operands. -/

namespace Nsasm.Spec
open Nsasm

/-- What is written after the mnemonic, with `n` for the operand and `k` for the second one.  `.b` shows that the
size of an immediate is that of a register. -/
def notationOf (n k : Str) : Mode → Str
  | .imp | .acc => []
  | .imm_fm | .imm_fx => cs!".b #" ++ n
  | .imm_b | .imm_w => cs!" #" ++ n
  | .dir_b | .dir_w | .dir_l | .rel8 | .rel16 => cs!" " ++ n
  | .dir_bx | .dir_wx | .dir_lx => cs!" " ++ n ++ cs!", X"
  | .dir_by | .dir_wy => cs!" " ++ n ++ cs!", Y"
  | .ind_b | .ind_w => cs!" (" ++ n ++ cs!")"
  | .ind_bx | .ind_wx => cs!" (" ++ n ++ cs!", X)"
  | .ind_by => cs!" (" ++ n ++ cs!"), Y"
  | .lng_b | .lng_w => cs!" [" ++ n ++ cs!"]"
  | .lng_by => cs!" [" ++ n ++ cs!"], Y"
  | .stk => cs!" " ++ n ++ cs!", S"
  | .stk_y => cs!" (" ++ n ++ cs!", S), Y"
  | .mov => cs!" #" ++ n ++ cs!", #" ++ k

/-- The modes that differ only in the width of the operand. -/
def widths : List (List Mode) := [
  [.imp], [.acc], [.imm_fm, .imm_fx], [.imm_b, .imm_w], [.dir_b, .dir_w, .dir_l, .rel8, .rel16],
  [.dir_bx, .dir_wx, .dir_lx], [.dir_by, .dir_wy], [.ind_b, .ind_w], [.ind_bx, .ind_wx], [.ind_by],
  [.lng_b, .lng_w], [.lng_by], [.stk], [.stk_y], [.mov]]

/-- Two modes are the same but for the width of the operand. -/
def SameButWidth (a b : Mode) : Prop := ∃ w ∈ widths, a ∈ w ∧ b ∈ w

instance (a b : Mode) : Decidable (SameButWidth a b) := by unfold SameButWidth; infer_instance

/-- A row of the table for opcode `op`. -/
def RowFor (op : UInt8) (text row : Str) : Prop :=
  ∃ hi lo, cs!"0123456789ABCDEF"[op.toNat / 16]? = some hi ∧ cs!"0123456789ABCDEF"[op.toNat % 16]? = some lo ∧
    row = [hi, lo, ' ', ' '] ++ text

end Nsasm.Spec
