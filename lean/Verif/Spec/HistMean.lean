/-
Specification for C135: the random numbers of the histogram of the dynamics, what its columns are and the shares of its rows.
-/
import Verif.Spec.Gap
import Verif.Spec.Chain
import Verif.Model.Writers
import Mathlib.MeasureTheory.Constructions.Pi

namespace Verif.Spec

open MeasureTheory Finset

/-- The uniform numbers of the `n` chains that `gen_hist_dynamics` makes, all of them independent. -/
noncomputable def histLaw (L n : ℕ) : Measure (Fin n → Fin L → ℝ × ℝ × ℝ) :=
  Measure.pi fun _ => Measure.pi fun _ => tripleMeasure

/-- the random numbers as the program gets them; it makes no Metropolis updates -/
noncomputable def histRand (zj zh : ℕ → ℕ → ℝ) {L n : ℕ} (w : Fin n → Fin L → ℝ × ℝ × ℝ) (i : ℕ) : Rand ℝ where
  u := if h : i < n then drawsOf (w ⟨i, h⟩) else fun _ => 0
  zj := zj i
  zh := zh i
  ds := fun _ _ => ⟨0, 0, 0, 0⟩

/-- The quantities in columns 1 to 4: magnetisation per site of the subsystem, and its energy per bond. -/
noncomputable def histQuantity (s k : ℕ) (c : SpinChain ℝ) : ℝ :=
  if k = 1 then (∑ i ∈ range s, (S c i).x) / s
  else if k = 2 then (∑ i ∈ range s, (S c i).y) / s
  else if k = 3 then (∑ i ∈ range s, (S c i).z) / s
  else (openEnergy s (S c) (J c) (B c s c.t) - dot (B c s c.t (s - 1)) (S c (s - 1))) / ((s : ℝ) - 1)

open Classical in
/-- Share of the rows whose entry in column `k` lies in `A`. -/
noncomputable def rowShare (rows : List (List ℝ)) (k : ℕ) (A : Set ℝ) : ℝ :=
  ((rows.filter fun row => decide (row.getD k 0 ∈ A)).length : ℝ) / rows.length

/-- Mean of column `k` of the rows. -/
noncomputable def rowMean (rows : List (List ℝ)) (k : ℕ) : ℝ := (rows.map fun row => row.getD k 0).sum / rows.length

end Verif.Spec
