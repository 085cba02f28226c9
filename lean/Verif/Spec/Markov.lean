/-
Specification of sampling: the distribution of a random direction, averages over independent draws,
and averages over the Boltzmann distribution.
-/
import Verif.Spec.Metropolis
import Mathlib.MeasureTheory.Constructions.Pi
import Mathlib.MeasureTheory.Measure.Prod

namespace Verif.Spec

open Finset MeasureTheory
open scoped ENNReal

/-- a rotation or reflection about the origin: linear and length-preserving -/
structure Orthogonal (O : V3 ℝ → V3 ℝ) : Prop where
  add : ∀ a b, O (Spec.add a b) = Spec.add (O a) (O b)
  smul : ∀ r a, O (Spec.smul r a) = Spec.smul r (O a)
  len : ∀ a, Spec.len (O a) = Spec.len a

/-- Borel sets of three-dimensional space -/
instance : MeasurableSpace (V3 ℝ) := MeasurableSpace.comap (fun v => (v.x, v.y, v.z)) inferInstance

/-- Distribution of the direction with azimuth `2 π u1` and height `1 - 2 u2` for independent `u1`, `u2`
uniform in `[0, 1)` -/
noncomputable def sphereMeasure : Measure (V3 ℝ) :=
  ((volume.restrict (Set.Ico (0 : ℝ) 1)).prod (volume.restrict (Set.Ico (0 : ℝ) 1))).map
    fun p => spherePoint p.1 p.2

/-- The chain with the same parameters as `c` and the spins `v`. -/
def withSpins (c : SpinChain ℝ) {L : ℕ} (v : Fin L → V3 ℝ) : SpinChain ℝ :=
  { c with spins := List.ofFn fun i => ⟨v i⟩ }

/-- Mean of `f` after `n` updates started in `c`.  The draws are independent: the site is uniform among
`0, …, L-1` and the three other numbers are uniform in `[0, 1)`.  Panicking runs contribute nothing. -/
noncomputable def expect (upd : SpinChain ℝ → Draw ℝ → R (SpinChain ℝ)) (L : ℕ)
    (f : SpinChain ℝ → ℝ≥0∞) : ℕ → SpinChain ℝ → ℝ≥0∞
  | 0, c => f c
  | n + 1, c => (∑ i ∈ range L, ∫⁻ u1 in Set.Ico (0 : ℝ) 1, ∫⁻ u2 in Set.Ico (0 : ℝ) 1,
      ∫⁻ u3 in Set.Ico (0 : ℝ) 1, match upd c ⟨i, u1, u2, u3⟩ with
        | .ok c' => expect upd L f n c'
        | .error _ => 0) / L

/-- Integral of `f` over all spin configurations with the Boltzmann weight `exp (-beta E)`. -/
noncomputable def boltzmannSum (c : SpinChain ℝ) (L : ℕ) (E : SpinChain ℝ → ℝ) (f : SpinChain ℝ → ℝ≥0∞) :
    ℝ≥0∞ :=
  ∫⁻ v : Fin L → V3 ℝ, ENNReal.ofReal (Real.exp (-(c.vars.beta * E (withSpins c v)))) * f (withSpins c v)
    ∂(Measure.pi fun _ => sphereMeasure)

/-- Thermal mean of `f` for the energy `E`. -/
noncomputable def boltzmannMean (c : SpinChain ℝ) (L : ℕ) (E : SpinChain ℝ → ℝ) (f : SpinChain ℝ → ℝ≥0∞) :
    ℝ≥0∞ :=
  boltzmannSum c L E f / boltzmannSum c L E fun _ => 1

/-- `f` is a (Borel) function of the spins. -/
def Observable (c : SpinChain ℝ) (L : ℕ) (f : SpinChain ℝ → ℝ≥0∞) : Prop :=
  Measurable fun v : Fin L → V3 ℝ => f (withSpins c v)

end Verif.Spec
