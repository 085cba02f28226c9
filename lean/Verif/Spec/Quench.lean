/-
Specification for C131: chains with different couplings and fields.
-/
import Verif.Spec.Cluster

namespace Verif.Spec

/-- By how much the coupling and the field of two chains differ at site `i`. -/
noncomputable def change (c c' : SpinChain ℝ) (i : ℕ) : ℝ := len (sub (J c' i) (J c i)) + len (sub (H0 c' i) (H0 c i))

/-- By how much the thermal energy follows a change of the couplings and fields, at inverse temperature `b` and for couplings and fields
that add up to at most `K` at each site. -/
noncomputable def feel (b K : ℝ) : ℝ := 1 + |b| * (perSite b K * K)

/-- The normal draws of a new chain of `L` sites, three per site, are of size at most `Z`. -/
def DrawsWithin (Z : ℝ) (L : ℕ) (z : ℕ → ℝ) : Prop := ∀ x < 3 * L, |z x| ≤ Z

end Verif.Spec
