/-
Specification for C127: mean square error of an estimate made with a new chain, and the number of samples worth one independent one.
-/
import Verif.Spec.Gap

namespace Verif.Spec

open MeasureTheory

/-- Squared error of a computed value as an estimate of `m`; a panic counts as an infinite error. -/
noncomputable def errSq (m : ℝ) : R ℝ → ENNReal
  | .ok e => ENNReal.ofReal ((e - m) ^ 2)
  | .error _ => ⊤

/-- Mean square error of `n` samples taken `per` updates apart from a chain made by `SpinChain::new`, run at inverse temperature
`beta`, as an estimate of `m`, over independent uniform draws and for given normal draws `zj`, `zh` of the couplings and fields. -/
noncomputable def squareError (upd : SpinChain ℝ → Draw ℝ → R (SpinChain ℝ)) (L per n : ℕ) (obs : SpinChain ℝ → R ℝ) (conf : Config ℝ)
    (beta : ℝ) (zj zh : ℕ → ℝ) (m : ℝ) : ENNReal :=
  ∫⁻ r : EstRaw L per n, errSq m (estimate upd per n obs conf beta (estRand zj zh r)) ∂(estLaw L per n)

/-- Number of samples, taken `per` updates apart, after which the sampler has forgotten, at inverse temperature `b` and for couplings
and fields that add up to at most `K` at each of `L` sites. -/
noncomputable def samplesWorth (b K : ℝ) (L per : ℕ) : ℝ := 1 + 768 * Real.exp (26 * (|b| * K)) * L / per

end Verif.Spec
