/-
Specification of the exchange of energy with the edges: squared torque on the edge spins, and means of
quantities of the chain along a run with random noise.
-/
import Verif.Spec.Thermostat

namespace Verif.Spec

open MeasureTheory

/-- Squared torque `|S × Ω|²` on the two edge spins of an open chain of `m` sites. -/
noncomputable def edgeTorque {L : ℕ} (m : ℕ) (J B : ℕ → V3 ℝ) (v : Fin L → V3 ℝ) : ℝ :=
  ∑ i : Fin L, if (i : ℕ) = 0 ∨ (i : ℕ) + 1 = m then len (cross (v i) (openOmega m (atSite v) J B i)) ^ 2 else 0

/-- the number computed, nothing if the computation panics -/
def orZero : R ℝ → ℝ
  | .ok x => x
  | .error _ => 0

/-- Mean of `g` after `n` updates with independent noise.  Panicking runs contribute nothing. -/
noncomputable def meanChain (g : LangevinChain ℝ → ℝ) : ℕ → LangevinChain ℝ → ℝ
  | 0, c => g c
  | n + 1, c => ∫ ζ, (match c.update (noiseOf ζ) with
    | .ok c' => meanChain g n c'
    | .error _ => 0) ∂normals

/-- Energy of the open chain, in the field at the time of the chain's clock. -/
noncomputable def energyNow (L : ℕ) (c : LangevinChain ℝ) : ℝ :=
  openEnergy L (S c.toSpinChain) (J c.toSpinChain) (B c.toSpinChain L c.t)

end Verif.Spec
