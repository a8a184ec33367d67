import Verif.Spec.Tools

/-!
# Specification of what a sink can do to an assembly
-/

namespace Nsasm.Spec

/-- What happens when a sink in state `s` is given these writes in order, until it refuses one, and the end is to be `r` if it
refuses none: the state of the sink afterwards and how it ends. -/
inductive Plays {σ α : Type} (sink : Sink σ) : σ → Writes → Res α → σ × Res α → Prop
  | done (s : σ) (r : Res α) : Plays sink s [] r (s, r)
  | accepted {s s' : σ} {a : Addr} {bs : List UInt8} {ws : Writes} {r : Res α} {out : σ × Res α} :
      sink s a bs = (s', .ok ()) → Plays sink s' ws r out → Plays sink s ((a, bs) :: ws) r out
  | refused {s s' : σ} {a : Addr} {bs : List UInt8} {e : Err} (ws : Writes) (r : Res α) :
      sink s a bs = (s', .err e) → Plays sink s ((a, bs) :: ws) r (s', .err e)
  | crashed {s s' : σ} {a : Addr} {bs : List UInt8} {u : Ub} (ws : Writes) (r : Res α) :
      sink s a bs = (s', .ub u) → Plays sink s ((a, bs) :: ws) r (s', .ub u)

/-- A sink that keeps a record of the writes and refuses all after the first `n`, like a disk that is full. -/
def limited (n : Nat) : Sink Writes := fun ws a bs =>
  if ws.length < n then (ws ++ [(a, bs)], .ok ()) else (ws, .err .sink)

end Nsasm.Spec
