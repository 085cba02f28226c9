/-
Specification for C133: the random numbers of a Monte-Carlo run with several workers, and the averages of what it sends.
-/
import Verif.Spec.GapMean
import Verif.Model.Writers
import Mathlib.MeasureTheory.Constructions.Pi

namespace Verif.Spec

open MeasureTheory

/-- The uniform numbers of the workers: worker `i` makes a chain and takes `l[i]` snapshots, `per` updates apart. -/
abbrev McRaw (L per : ℕ) (l : List ℕ) : Type := ∀ i : Fin l.length, EstRaw L per (l.get i)

/-- all of them independent -/
noncomputable def mcLaw (L per : ℕ) (l : List ℕ) : Measure (McRaw L per l) := Measure.pi fun i => estLaw L per (l.get i)

/-- as handed to the workers; `zj i`, `zh i` are the normal draws of worker `i` -/
noncomputable def mcRand {L per : ℕ} {l : List ℕ} (zj zh : ℕ → ℕ → ℝ) (w : McRaw L per l) (i : ℕ) : Rand ℝ :=
  if h : i < l.length then estRand (zj i) (zh i) (w ⟨i, h⟩) else ⟨fun _ => 0, fun _ => 0, fun _ => 0, fun _ _ => ⟨0, 0, 0, 0⟩⟩

/-- Average of column `k` over all rows of all workers. -/
noncomputable def columnMean (k : ℕ) (rows : List (List (List ℝ))) : ℝ :=
  (rows.flatten.map fun row => row.getD k 0).sum / rows.flatten.length

/-- Average of `m i`, worker `i` counting as often as it takes snapshots. -/
noncomputable def shareMean (l : List ℕ) (m : ℕ → ℝ) : ℝ := (∑ i : Fin l.length, (l.get i : ℝ) * m i) / l.sum

/-- A number no smaller than column `k` of `mc_live.dat`, for couplings and static fields that add up to at most `K` at each site
and a drive of size `D`. -/
noncomputable def columnSize (K D : ℝ) (k : ℕ) : ℝ := if k = 0 then K + D else if k = 1 then K else 1

/-- The four numbers of a row of the profile: energy of the site and its spin. -/
def profileColumns (r : ℕ × ℝ × V3 ℝ) : List ℝ := [r.2.1, r.2.2.x, r.2.2.y, r.2.2.z]

/-- A number no smaller than column `k` of a row of the profile. -/
noncomputable def profileSize (K : ℝ) (k : ℕ) : ℝ := if k = 0 then K else 1

end Verif.Spec
