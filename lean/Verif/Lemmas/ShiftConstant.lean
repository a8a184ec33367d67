import Verif.Lemmas.ShiftAll
import Verif.Spec.Constant

/-! # A constant more -/

namespace Nsasm.Shift
open Spec Parse Props

theorem closed_eval : ∀ {e : Expr} {v : Int}, e.eval nullCtx = .ok v → (∀ ctx, e.eval ctx = .ok v) ∧ ∀ f, e.externalNames f = [] := by
  intro e
  induction e with
  | null => intro v h; cases h
  | lit a t => intro v h; exact ⟨fun _ => h, fun _ => rfl⟩
  | ident id t => intro v h; cases h
  | label n a ih =>
    intro v h
    refine ⟨fun ctx => ?_, fun _ => rfl⟩
    rw [Expr.eval] at h ⊢
    split at h
    · cases h
    · rename_i hn
      rw [if_neg hn]
      exact (ih h).1 ctx
  | un op a ih =>
    intro v h
    rw [Expr.eval] at h
    obtain ⟨x, hx, h⟩ := Res.bind_eq_ok.mp h
    refine ⟨fun ctx => ?_, fun f => (ih hx).2 f⟩
    rw [Expr.eval, (ih hx).1 ctx]
    exact h
  | bin op a b iha ihb =>
    intro v h
    rw [Expr.eval] at h
    cases ha : a.eval nullCtx with
    | ub e => rw [ha] at h; cases h
    | err e => rw [ha] at h; cases hb : b.eval nullCtx <;> rw [hb] at h <;> cases h
    | ok x =>
      cases hb : b.eval nullCtx with
      | ub e => rw [ha, hb] at h; cases h
      | err e => rw [ha, hb] at h; cases h
      | ok y =>
        rw [ha, hb] at h
        refine ⟨fun ctx => ?_, fun f => ?_⟩
        · rw [Expr.eval, (iha ha).1 ctx, (ihb hb).1 ctx]; exact h
        · rw [Expr.externalNames, (iha ha).2 f, (ihb hb).2 f]; rfl

theorem noCode_idle : ∀ {B : List Item}, CodeFree B → IdleStmts (stmtsOf B)
  | [], _ => trivial
  | .label _ :: B, h => by
    rw [CodeFree] at h
    simpa [stmtsOf] using noCode_idle h
  | .stmt (.instr _) :: _, h => by rw [CodeFree] at h; exact h.elim
  | .stmt (.dir d) :: B, h => by
    rw [CodeFree] at h
    have : stmtsOf (.stmt (.dir d) :: B) = .dir d :: stmtsOf B := by simp [stmtsOf]
    rw [this]
    refine ⟨d, rfl, h.1, h.2.imp (fun h => ?_) noCode_idle⟩
    simp only [List.mem_cons, List.not_mem_nil, or_false] at h ⊢
    rcases h with h | h | h | h <;> simp [h]

theorem fileItems_append {f g : List Str} {A B : List Item} (hf : FileItems f A) (hg : FileItems g B) : FileItems (f ++ g) (A ++ B) := by
  obtain ⟨P, h1, rfl⟩ := hf
  obtain ⟨Q, h2, rfl⟩ := hg
  refine ⟨P ++ Q, ?_, by simp⟩
  induction h1 with
  | nil => exact h2
  | cons h _ ih => exact .cons h ih

theorem strong_of {st : Statement} (h : Stops st ∨ ∃ d, st = .dir d ∧ d.name ∈ [DirectiveName.db, .dw, .dl, .org]) : Strong st := by
  rcases h with h | ⟨d, rfl, hd⟩
  · exact .inl ((stops_iff st).mpr h)
  · refine .inr fun es a h => ?_
    simp only [Statement.execute, Directive.execute] at h
    rw [if_pos] at h
    · cases h
    · simp only [List.mem_cons, List.not_mem_nil, or_false] at hd ⊢
      rcases hd with h | h | h | h <;> simp [h]

theorem constant_rel {v : Int} {above below : List Str} {line : Str} (hl : EquLine v line) (ho : OffPath above below) :
    Both RelQ (Module.loadAsmFile (above ++ below)) (Module.loadAsmFile (above ++ line :: below)) := by
  obtain ⟨ts, d, ht, hp, hd, hv⟩ := hl
  obtain ⟨A, st, B, hA, hB, hst, hq⟩ := ho
  have hc : Const (.dir d) d := ⟨rfl, hd, fun ctx => ⟨v, (closed_eval hv).1 ctx⟩, (closed_eval hv).2⟩
  have h1 : FileItems (above ++ below) (A ++ .stmt st :: B) := by
    have := fileItems_append hA hB
    simpa using this
  have h2 : FileItems (above ++ line :: below) (A ++ .stmt st :: .stmt (.dir d) :: B) := by
    have hE : FileItems [line] [.stmt (.dir d)] := ⟨[[.stmt (.dir d)]], .cons ⟨ts, ht, hp⟩ .nil, rfl⟩
    have := fileItems_append hA (fileItems_append hE hB)
    simpa using this
  have h3 : st.isDir .entry = false := by
    cases st with
    | instr i => rfl
    | dir d' => simpa [Statement.isDir] using hst d' rfl
  refine (load_quiet hc h1 h2 h3 ?_).mono fun m m' _ hm => .inr ⟨_, _, _, _, const_site hc _, hm⟩
  rcases hq with hq | hq | hq
  · exact .inl (strong_of (.inl hq))
  · exact .inl (strong_of (.inr hq))
  · exact .inr (noCode_idle hq)

/-- Loading depends on the items only. -/
theorem loadLines_items : ∀ {file : List Str} {items : List Item}, FileItems file items → ∀ ld,
    Module.loadLines ld file = Module.loadItems ld items := by
  rintro file items ⟨per, h, rfl⟩
  induction h with
  | nil => intro ld; rfl
  | @cons line its file per h _ ih =>
    obtain ⟨ts, h1, h2⟩ := h
    intro ld
    rw [Module.loadLines, h1, Res.bind_ok, h2, Res.bind_ok, List.flatten_cons, loadItems_append]
    exact congrArg _ (funext ih)

theorem load_same {f g : List Str} {items : List Item} (hf : FileItems f items) (hg : FileItems g items) :
    Module.loadAsmFile f = Module.loadAsmFile g := by
  unfold Module.loadAsmFile
  rw [loadLines_items hf, loadLines_items hg]

theorem loadAll_same {f g : List Str} (h : Module.loadAsmFile f = Module.loadAsmFile g) (post : List (List Str)) :
    ∀ pre, Assembler.loadAll (pre ++ f :: post) = Assembler.loadAll (pre ++ g :: post)
  | [] => by simp only [List.nil_append, Assembler.loadAll, h]
  | x :: pre => by simp only [List.cons_append, Assembler.loadAll, loadAll_same h post pre]

end Nsasm.Shift
