/-
Specification of the course of a run, independent of the model's loops.
-/
import Verif.Spec.Chain
import Mathlib.Data.Real.Basic
import Mathlib.Data.Nat.Cast.Order.Field

namespace Verif.Spec

/-- `N` is the least number of steps of length `dt` that lead from `t0` to `T` or beyond. -/
def StepsNeeded (t0 dt T : ℝ) (N : ℕ) : Prop := (∀ n < N, t0 + n * dt < T) ∧ T ≤ t0 + N * dt

/-- `t` is a whole number of periods. -/
def WholePeriods (tau t : ℝ) : Prop := ∃ k : ℤ, t = k * tau

/-- A chain `c`, the chains it goes through under repeated `upd`, and the least number `N` of steps
to the end of the run; the parameters stay the same and the time advances by `dt`. -/
structure Course (upd : SpinChain ℝ → R (SpinChain ℝ)) (c : SpinChain ℝ) (L s N : ℕ)
    (chain : ℕ → SpinChain ℝ) : Prop where
  zero : chain 0 = c
  step : ∀ i, upd (chain i) = .ok (chain (i + 1))
  time : ∀ i : ℕ, (chain i).t = c.t + i * c.vars.dt
  vars : ∀ i, (chain i).vars = c.vars
  file : ∀ i, (chain i).file = c.file
  wf : ∀ i, WF (chain i) L s
  steps : StepsNeeded c.t c.vars.dt c.vars.t N

end Verif.Spec
