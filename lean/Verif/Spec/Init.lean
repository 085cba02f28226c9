/-
Specification of a freshly generated chain: a walk on the unit sphere whose steps have
Boltzmann-distributed inner products.
-/
import Verif.Spec.Metropolis

namespace Verif.Spec

/-- unit vector along the part of `r` orthogonal to the unit vector `d` -/
noncomputable def perpUnit (d r : V3 ℝ) : V3 ℝ :=
  smul (1 / len (sub r (smul (dot r d) d))) (sub r (smul (dot r d) d))

/-- `d` turned by the angle `a` about the direction `perpUnit d r` orthogonal to it -/
noncomputable def turn (d r : V3 ℝ) (a : ℝ) : V3 ℝ :=
  add (smul (Real.cos a) d) (smul (Real.sin a) (cross (perpUnit d r) d))

/-- inverse of the distribution function of the density `∝ e^{b c}` on `[-1, 1]`, at `1 - u` -/
noncomputable def overlap (b u : ℝ) : ℝ :=
  Real.log (Real.exp b - u * (Real.exp b - Real.exp (-b))) / b

/-- The walk: `walk b u 0` is the starting direction (azimuth 0.01 in the x-y plane), `walk b u (x+1)`
the direction of the spin at site `x`, generated with the draws `u (3x), u (3x+1), u (3x+2)`. -/
noncomputable def walk (b : ℝ) (u : ℕ → ℝ) : ℕ → V3 ℝ
  | 0 => ⟨Real.cos (1 / 100), Real.sin (1 / 100), 0⟩
  | x + 1 => turn (walk b u x) (spherePoint (u (3 * x)) (u (3 * x + 1)))
      (Real.arccos (overlap b (u (3 * x + 2))))

/-- The draws lie in `[0, 1)`. -/
def UnitDraws (u : ℕ → ℝ) : Prop := ∀ k, 0 ≤ u k ∧ u k < 1

/-- No degenerate direction in the first `n` steps: the sampled axis is not (anti)parallel to the
present direction, and no direction has vanishing x component (there the code's angles break down,
C07). -/
def NonDegenerate (b : ℝ) (u : ℕ → ℝ) (n : ℕ) : Prop :=
  ∀ x < n, cross (walk b u x) (spherePoint (u (3 * x)) (u (3 * x + 1))) ≠ zero ∧
    (walk b u (x + 1)).x ≠ 0

end Verif.Spec
