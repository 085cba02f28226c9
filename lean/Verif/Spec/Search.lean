/-
Specification of the random numbers of a temperature search: sixteen estimates, each with its own new chain and
its own draws, all independent and uniform.
-/
import Verif.Spec.InitLaw
import Verif.Spec.Sampling
import Verif.Model.Obs

namespace Verif.Spec

open MeasureTheory

/-- the uniform numbers of one estimate: three per site for the new chain, and the draws of `n` blocks of `per`
updates -/
abbrev EstRaw (L per n : ℕ) : Type := (Fin L → ℝ × ℝ × ℝ) × (Fin n → Fin per → Raw L)

/-- all of them independent -/
noncomputable def estLaw (L per n : ℕ) : Measure (EstRaw L per n) :=
  (Measure.pi fun _ => tripleMeasure).prod (blockLaw L per n)

/-- as handed to the estimators; `zj`, `zh` are the normal draws -/
noncomputable def estRand {L per n : ℕ} (zj zh : ℕ → ℝ) (w : EstRaw L per n) : Rand ℝ :=
  ⟨drawsOf w.1, zj, zh, blockDraws w.2⟩

/-- sixteen independent estimates -/
noncomputable def searchLaw (L per n : ℕ) : Measure (Fin 16 → EstRaw L per n) := Measure.pi fun _ => estLaw L per n

noncomputable def searchRand {L per n : ℕ} (zj zh : ℕ → ℕ → ℝ) (w : Fin 16 → EstRaw L per n) (k : ℕ) : Rand ℝ :=
  if h : k < 16 then estRand (zj k) (zh k) (w ⟨k, h⟩) else ⟨fun _ => 0, fun _ => 0, fun _ => 0, fun _ _ => ⟨0, 0, 0, 0⟩⟩

end Verif.Spec
