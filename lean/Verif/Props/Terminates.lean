import Verif.Lemmas.Explore

/-! # C40: the first pass ends -/

namespace Nsasm.Props
open Nsasm Nsasm.Spec

theorem binop_noSteps (op : BinOp) (a b : Int) : (op.apply a b).NoSteps := by
  cases op <;> simp only [BinOp.apply] <;>
    first
    | exact i32_noSteps _
    | (repeat' split) <;> first | trivial | exact i32_noSteps _

theorem unop_noSteps (op : UnOp) (a : Int) : (op.apply a).NoSteps := by
  cases op <;> simp only [UnOp.apply] <;>
    first
    | trivial
    | exact i32_noSteps _
    | (repeat' split) <;> first | trivial | exact i32_noSteps _

theorem eval_noSteps {ctx : Ctx} (hc : ∀ id, ctx id ≠ .error .steps) (e : Expr) :
    (e.eval ctx).NoSteps := by
  induction e with
  | null => trivial
  | lit v t => trivial
  | ident id t =>
    rw [Expr.eval]
    have := hc id
    revert this
    cases ctx id with
    | ok v => intro _; trivial
    | error e => cases e <;> simp [Res.ofExcept, Res.NoSteps]
  | bin op l r ihl ihr =>
    rw [Expr.eval]
    revert ihl ihr
    cases l.eval ctx <;> cases r.eval ctx <;> intro h1 h2 <;>
      first | exact binop_noSteps _ _ _ | exact h1 | exact h2 | trivial
  | un op a ih =>
    rw [Expr.eval]
    exact Res.noSteps_bind ih fun v _ => unop_noSteps op v
  | label n h ih =>
    rw [Expr.eval]
    exact noSteps_ite (fun _ => trivial) (fun _ => ih)

theorem ofInt_noSteps (v : Int) : (Address.ofInt v).NoSteps := by
  unfold Address.ofInt; exact noSteps_ite (fun _ => trivial) (fun _ => trivial)

theorem fixLines_noSteps (ls : List Line) : (Module.fixLines ls).NoSteps := by
  induction ls with
  | nil => trivial
  | cons l ls ih =>
    rw [Module.fixLines]
    split
    · exact Res.noSteps_bind ih fun _ _ => trivial
    · refine noSteps_ite (fun _ => trivial) (fun _ => Res.noSteps_bind ?_ fun _ _ =>
        Res.noSteps_bind ih fun _ _ => trivial)
      unfold Instruction.fixAddressingMode
      refine noSteps_ite (fun _ => ?_) (fun _ => trivial)
      split <;> trivial

theorem layout_noSteps (ls : List Line) : ∀ pc, (Module.layout pc ls).NoSteps := by
  induction ls with
  | nil => intro _; trivial
  | cons l ls ih =>
    intro pc
    rw [Module.layout]
    refine Res.noSteps_bind ?_ fun o _ => ?_
    · unfold Module.originAt
      split
      · trivial
      · refine noSteps_ite (fun _ => ?_) (fun _ => trivial)
        exact Res.noSteps_bind (eval_noSteps (fun _ h => by cases h) _) fun v _ =>
          Res.noSteps_bind (ofInt_noSteps v) fun _ _ => trivial
    · cases o with
      | none => exact noSteps_ite (fun _ => trivial) fun _ => Res.noSteps_bind (ih _) fun _ _ => trivial
      | some a => exact Res.noSteps_bind (ih _) fun _ _ => trivial

/-- **The first pass ends on every file.**  The only unbounded loop of the pass is the analysis,
which the model runs for at most `fuel` rounds.  For every file that loads there is a number of
rounds after which the bound plays no role: with that bound or any larger one the pass gives the
same result, and that result is a module or a proper error, not the exhaustion of the bound. -/
theorem C40_first_pass_terminates {file : List Str} {m : Module}
    (h : Module.loadAsmFile file = .ok m) :
    ∃ N r, r ≠ .err .steps ∧ ∀ fuel, N ≤ fuel → m.runFirstPass fuel = r := by
  have hw := loaded_written h
  obtain ⟨hs, hn⟩ := seeds_good m.lines 0 [] List.Pairwise.nil (by simp) hw
  obtain ⟨N, r, hr, hN⟩ := halts_all m ⟨m.lines, Module.seeds [] 0 m.lines⟩ ⟨hs, hn, hw⟩
  refine ⟨N, m.runFirstPass N, ?_, fun fuel hf => ?_⟩
  · have : (m.runFirstPass N).NoSteps := by
      unfold Module.runFirstPass
      rw [hN N (Nat.le_refl _)]
      exact Res.noSteps_bind hr fun p _ => Res.noSteps_bind (fixLines_noSteps _) fun ls _ =>
        Res.noSteps_bind (layout_noSteps ls _) fun _ _ => trivial
    intro he
    rw [he] at this
    exact this
  · unfold Module.runFirstPass
    rw [hN fuel hf, hN N (Nat.le_refl _)]

/-- A file with a loop around which the state changes: three rounds are not enough, a hundred are. -/
example : ∃ m m', Module.loadAsmFile
    [cs!".org $8000", cs!".entry m8x8", cs!"loop: sta $10", cs!"rep #$20", cs!"bne loop",
      cs!"rts"] = .ok m ∧ m.runFirstPass 100 = .ok m' ∧ m.runFirstPass 3 = .err .steps ∧
    m.runFirstPass 200 = .ok m' := by
  refine ⟨_, _, rfl, rfl, ?_, ?_⟩ <;> decide +kernel

end Nsasm.Props
