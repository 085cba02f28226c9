/-
Specification for C129: lower bound on the heat capacity.
-/
import Mathlib.Analysis.SpecialFunctions.Exp

namespace Verif.Spec

/-- Lower bound on the variance of the energy per site, at inverse temperature `b`, for couplings and fields that add up to at most
`K` at each site and couplings of length at least `j0`. -/
noncomputable def heatLow (b K j0 : ℝ) : ℝ := Real.exp (-(8 * (|b| * K))) * j0 ^ 2 / 27

end Verif.Spec
