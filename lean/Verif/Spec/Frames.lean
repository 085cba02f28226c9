/-
Specification for C130: the fields of the laboratory and of the rotating frame.
-/
import Verif.Spec.Chain
import Mathlib.Analysis.SpecialFunctions.Trigonometric.Basic

namespace Verif.Spec

/-- The field of the laboratory frame for the period `tau`: `-1/(2 om)` along `z`, where `om = 2 pi / tau`. -/
noncomputable def labField (tau : ℝ) : V3 ℝ := ⟨0, 0, -(tau / (4 * Real.pi))⟩

/-- The field of the rotating frame at site `i`, for the period `tau` and a subsystem of `s` sites. -/
noncomputable def rotField (s : ℕ) (tau : ℝ) (i : ℕ) : V3 ℝ := ⟨if i < s then 1 else 0, 0, -(2 * Real.pi / tau)⟩

/-- The chain `c` of `L` sites with other static fields. -/
def inStatic (c : SpinChain ℝ) (L : ℕ) (h : ℕ → V3 ℝ) : SpinChain ℝ := { c with static_h := List.ofFn fun i : Fin L => h i }

end Verif.Spec
