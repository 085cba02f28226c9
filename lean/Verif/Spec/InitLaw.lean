/-
Specification of the distribution of the spins of a freshly generated chain.
-/
import Verif.Spec.Init
import Verif.Spec.Markov

namespace Verif.Spec

open MeasureTheory

/-- three independent numbers, uniform in `[0, 1)` -/
noncomputable def tripleMeasure : Measure (ℝ × ℝ × ℝ) :=
  (volume.restrict (Set.Ico (0 : ℝ) 1)).prod
    ((volume.restrict (Set.Ico (0 : ℝ) 1)).prod (volume.restrict (Set.Ico (0 : ℝ) 1)))

/-- the numbers in the order in which they are drawn: three for each site -/
noncomputable def drawsOf {L : ℕ} (w : Fin L → ℝ × ℝ × ℝ) (k : ℕ) : ℝ :=
  if h : k / 3 < L then
    if k % 3 = 0 then (w ⟨k / 3, h⟩).1 else if k % 3 = 1 then (w ⟨k / 3, h⟩).2.1 else (w ⟨k / 3, h⟩).2.2
  else 0

/-- the direction the generator starts from: azimuth 0.01 in the x-y plane -/
noncomputable def startDir : V3 ℝ := ⟨Real.cos (1 / 100), Real.sin (1 / 100), 0⟩

/-- the neighbour on the left of site `i` in an open chain whose first spin is attached to `d` -/
def before {L : ℕ} (d : V3 ℝ) (v : Fin L → V3 ℝ) (i : Fin L) : V3 ℝ :=
  if h : (i : ℕ) = 0 then d else v ⟨i - 1, by omega⟩

/-- energy of the open chain with unit couplings whose first spin is attached to the fixed direction `d` -/
def hungEnergy {L : ℕ} (d : V3 ℝ) (v : Fin L → V3 ℝ) : ℝ := -∑ i : Fin L, dot (before d v i) (v i)

/-- sum of `f` over all spins with the Boltzmann weight of `hungEnergy` at inverse temperature `b` -/
noncomputable def hungSum (b : ℝ) (L : ℕ) (f : (Fin L → V3 ℝ) → ENNReal) : ENNReal :=
  ∫⁻ v : Fin L → V3 ℝ, ENNReal.ofReal (Real.exp (-(b * hungEnergy startDir v))) * f v
    ∂(Measure.pi fun _ => sphereMeasure)

end Verif.Spec
