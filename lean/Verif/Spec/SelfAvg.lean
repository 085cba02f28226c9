/-
Specification for C132: chains with random couplings and fields.
-/
import Verif.Spec.Quench
import Verif.Props.Thermal
import Mathlib.MeasureTheory.Constructions.Pi

namespace Verif.Spec

open MeasureTheory Props

/-- The random numbers in the order in which a new chain of `L` sites draws them: three per coupling, then three per field. -/
def stream {N : ℕ} (z : Fin N → ℝ) (x : ℕ) : ℝ := if h : x < N then z ⟨x, h⟩ else 0

/-- The draws for the couplings. -/
def forJ {L : ℕ} (z : Fin (6 * L) → ℝ) : ℕ → ℝ := stream z

/-- The draws for the fields. -/
def forH {L : ℕ} (z : Fin (6 * L) → ℝ) (x : ℕ) : ℝ := stream z (3 * L + x)

/-- Independent draws, each with the law `ν`. -/
noncomputable def drawLaw (ν : Measure ℝ) (L : ℕ) : Measure (Fin (6 * L) → ℝ) := Measure.pi fun _ => ν

/-- Thermal energy per site, at inverse temperature `b`, of the new chain with the random numbers `z`. -/
noncomputable def drawnEnergy (conf : Config ℝ) (u0 : ℕ → ℝ) (L : ℕ) (b : ℝ) (z : Fin (6 * L) → ℝ) : ℝ :=
  match SpinChain.new conf 0 u0 (forJ z) (forH z) with
  | .ok c => energyAt c L b
  | .error _ => 0

/-- A number cut off at `Z`. -/
noncomputable def trim (Z t : ℝ) : ℝ := max (-Z) (min t Z)

/-- Mean of the thermal energy per site over the draws, cut off at `Z`. -/
noncomputable def typicalEnergy (conf : Config ℝ) (u0 : ℕ → ℝ) (L : ℕ) (ν : Measure ℝ) (Z b : ℝ) : ℝ :=
  ∫ z, drawnEnergy conf u0 L b (fun i => trim Z (z i)) ∂(drawLaw ν L)

/-- Draws for the couplings and fields of sixteen estimates. -/
def searchJ {L : ℕ} (z : Fin 16 → Fin (6 * L) → ℝ) (k : ℕ) : ℕ → ℝ := if h : k < 16 then forJ (z ⟨k, h⟩) else 0

def searchH {L : ℕ} (z : Fin 16 → Fin (6 * L) → ℝ) (k : ℕ) : ℕ → ℝ := if h : k < 16 then forH (z ⟨k, h⟩) else 0

end Verif.Spec
