import Verif.Props.Syntax
import Verif.Props.Token

/-!
# The text of an expression
-/

namespace Nsasm.Props
open Nsasm Nsasm.Spec Nsasm.Parse

/-- The rest of a line is a line. -/
theorem isLine_rest {ts rest : List Token} {t : Token} (h : IsLine (ts ++ t :: rest)) : IsLine (t :: rest) := by
  obtain ⟨body, hb, hn⟩ := h
  rcases List.append_eq_append_iff.1 hb with ⟨a, ha, hb⟩ | ⟨c, hc, hb⟩
  · exact ⟨a, hb, fun h => hn (by rw [ha]; exact List.mem_append_right _ h)⟩
  · cases c with
    | nil => exact ⟨[], by simpa using hb.symm, by simp⟩
    | cons x c => simp at hb

/-- **A text is read as the expression it is.**  `ParseExpression` returns `e` exactly if the tokens of the text are those of an
expression with tree `e`, by the grammar, up to the end of the text or up to a colon, which separates statements; what follows a
colon is not looked at. -/
theorem C35_text (s : Str) (e : Expr) : parseExpression s = .ok e ↔
    ∃ ts t rest, tokenize s = .ok (ts ++ t :: rest) ∧ (t = .eol ∨ t = tok ':') ∧ Derives .expr ts e := by
  constructor
  · intro h
    unfold parseExpression at h
    obtain ⟨ts, h1, h⟩ := Res.bind_eq_ok.mp h
    obtain ⟨⟨e', us⟩, h2, h⟩ := Res.bind_eq_ok.mp h
    obtain ⟨x, h3, h⟩ := Res.bind_eq_ok.mp h
    cases h
    obtain ⟨read, rfl, hd⟩ := C35_only_grammar ts us e (tokenize_names s ts h1) h2
    unfold confirmAtEnd at h3
    obtain ⟨b, h4, h3⟩ := Res.bind_eq_ok.mp h3
    unfold atEnd at h4
    obtain ⟨t, h5, h4⟩ := Res.bind_eq_ok.mp h4
    cases us with
    | nil => cases h5
    | cons u us =>
      cases h5
      cases h4
      refine ⟨read, t, us, h1, ?_, hd⟩
      cases hE : isEnd t with
      | false => rw [hE] at h3; cases h3
      | true => simpa [isEnd, pc, tok] using hE
  · rintro ⟨ts, t, rest, h1, h2, h3⟩
    have hE : isEnd t = true := by rcases h2 with rfl | rfl <;> decide
    have hF : Props.Follow t := by
      unfold Props.Follow
      rcases h2 with rfl | rfl <;> decide
    have hline : IsLine (t :: rest) := isLine_rest ((C32_one_end_of_line s).2 _ h1)
    unfold parseExpression
    refine Res.bind_eq_ok.mpr ⟨_, h1, Res.bind_eq_ok.mpr ⟨(e, t :: rest), C35_accepts_grammar ts e t rest h3 hline hF, ?_⟩⟩
    refine Res.bind_eq_ok.mpr ⟨(), ?_, rfl⟩
    refine Res.bind_eq_ok.mpr ⟨true, ?_, rfl⟩
    exact Res.bind_eq_ok.mpr ⟨t, rfl, by rw [hE]⟩

/-- Without a colon, the whole text is the expression. -/
theorem C35_whole_text (s : Str) (e : Expr) (hc : ∀ ts, tokenize s = .ok ts → tok ':' ∉ ts) :
    parseExpression s = .ok e ↔ ∃ ts, tokenize s = .ok (ts ++ [.eol]) ∧ Derives .expr ts e := by
  rw [C35_text]
  constructor
  · rintro ⟨ts, t, rest, h1, h2, h3⟩
    rcases h2 with rfl | rfl
    · obtain ⟨body, hb, hn⟩ := isLine_rest ((C32_one_end_of_line s).2 _ h1)
      cases body with
      | nil => simp at hb; subst hb; exact ⟨ts, h1, h3⟩
      | cons x body =>
        obtain ⟨rfl, -⟩ := List.cons.inj hb
        exact absurd (by simp) hn
    · exact absurd (by simp) (hc _ h1)
  · rintro ⟨ts, h1, h3⟩
    exact ⟨ts, .eol, [], h1, .inl rfl, h3⟩

example : parseExpression cs!"1 + 2 * $ff" =
    .ok (.bin .plus (.lit 1 .unknown) (.bin .mul (.lit 2 .unknown) (.lit 255 .byte))) := by decide +kernel

/-- What follows a colon is not looked at. -/
example : parseExpression cs!"1 : + nonsense )" = .ok (.lit 1 .unknown) := by decide +kernel

end Nsasm.Props
