/-
Specification of a Monte-Carlo estimate: independent draws, thermal means of real observables.
-/
import Verif.Spec.Markov
import Mathlib.MeasureTheory.Integral.Bochner.Basic
import Mathlib.MeasureTheory.Measure.Count

namespace Verif.Spec

open MeasureTheory
open scoped ENNReal

/-- site, two numbers for the direction, one for the decision -/
abbrev Raw (L : ℕ) : Type := Fin L × ℝ × ℝ × ℝ

/-- the uniform distribution on `[0, 1)` -/
noncomputable def unitLaw : Measure ℝ := volume.restrict (Set.Ico (0 : ℝ) 1)

/-- uniform site and three uniform numbers, independent -/
noncomputable def rawLaw (L : ℕ) : Measure (Raw L) :=
  ((L : ℝ≥0∞)⁻¹ • Measure.count).prod (unitLaw.prod (unitLaw.prod unitLaw))

/-- independent draws for `n` blocks of `per` updates -/
noncomputable def blockLaw (L per n : ℕ) : Measure (Fin n → Fin per → Raw L) :=
  Measure.pi fun _ => Measure.pi fun _ => rawLaw L

/-- the draws handed to the samplers -/
def blockDraws {L per n : ℕ} (w : Fin n → Fin per → Raw L) (i k : ℕ) : Draw ℝ :=
  if h : i < n ∧ k < per then
    let d := w ⟨i, h.1⟩ ⟨k, h.2⟩
    ⟨d.1, d.2.1, d.2.2.1, d.2.2.2⟩
  else ⟨0, 0, 0, 0⟩

/-- mean of `f` over the Boltzmann distribution of the energy `E` -/
noncomputable def thermalMean (c : SpinChain ℝ) (L : ℕ) (E f : SpinChain ℝ → ℝ) : ℝ :=
  (∫ v : Fin L → V3 ℝ, Real.exp (-(c.vars.beta * E (withSpins c v))) * f (withSpins c v)
      ∂(Measure.pi fun _ => sphereMeasure)) /
    ∫ v : Fin L → V3 ℝ, Real.exp (-(c.vars.beta * E (withSpins c v))) ∂(Measure.pi fun _ => sphereMeasure)

/-- the chain at another inverse temperature -/
def atBeta (c : SpinChain ℝ) (beta : ℝ) : SpinChain ℝ := { c with vars := { c.vars with beta } }

end Verif.Spec
