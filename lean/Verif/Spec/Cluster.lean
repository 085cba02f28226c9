/-
Specification for C124: observables of a block of neighbouring sites.
-/
import Verif.Spec.Sampling

namespace Verif.Spec

/-- `f` reads nothing but the spins of the `p` sites `a, a + 1, …, a + p - 1`, counted round the ring of `L` sites. -/
def ReadsBlock (L a p : ℕ) (f : SpinChain ℝ → ℝ) : Prop :=
  ∀ c c' : SpinChain ℝ, (∀ j < p, S c ((a + j) % L) = S c' ((a + j) % L)) → f c = f c'

/-- `f` is a Borel function of the spins with values of size at most `C` on unit spins. -/
structure BoundedBy (c : SpinChain ℝ) (L : ℕ) (C : ℝ) (f : SpinChain ℝ → ℝ) : Prop where
  meas : Measurable fun v : Fin L → V3 ℝ => f (withSpins c v)
  bound : ∀ v : Fin L → V3 ℝ, (∀ i, len (v i) = 1) → |f (withSpins c v)| ≤ C

/-- What `n` sites in between leave of the influence of one spin on another, at inverse temperature `b` and for
couplings and fields that add up to at most `K` at each site. -/
noncomputable def influence (b K : ℝ) (n : ℕ) : ℝ := Real.exp (4 * (|b| * K)) * (1 - Real.exp (-(2 * (|b| * K)))) ^ n

/-- covariance of two observables over the Boltzmann distribution -/
noncomputable def thermalCov (c : SpinChain ℝ) (L : ℕ) (E f g : SpinChain ℝ → ℝ) : ℝ :=
  thermalMean c L E (fun x => f x * g x) - thermalMean c L E f * thermalMean c L E g

/-- Bound on the variance, per site and in units of the size of one term, of a sum of terms that each read a site and its
right neighbour. -/
noncomputable def perSite (b K : ℝ) : ℝ := 6 + (2 + Real.exp (4 * (|b| * K))) * Real.exp (6 * (|b| * K))

end Verif.Spec
