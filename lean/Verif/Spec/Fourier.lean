/-
Specification of the Fourier power of a chain.
-/
import Verif.Spec.Chain
import Mathlib.Analysis.SpecialFunctions.Complex.Circle

namespace Verif.Spec

open Finset

/-- Fourier mode `n` of `L` real numbers. -/
noncomputable def fourier (L : ℕ) (x : ℕ → ℝ) (n : ℕ) : ℂ :=
  ∑ j ∈ range L, (x j : ℂ) * Complex.exp (-(2 * Real.pi * n * j / L : ℝ) * Complex.I)

/-- Power of mode `n` summed over the three components of the spins. -/
noncomputable def power (L : ℕ) (c : SpinChain ℝ) (n : ℕ) : ℝ :=
  Complex.normSq (fourier L (fun j => (S c j).x) n)
    + Complex.normSq (fourier L (fun j => (S c j).y) n)
    + Complex.normSq (fourier L (fun j => (S c j).z) n)

end Verif.Spec
