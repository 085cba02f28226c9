/-
Specification of the Metropolis algorithm and of the energies the samplers are meant for.
-/
import Verif.Spec.Chain
import Verif.Model.Metropolis
import Verif.Instances.Real
import Mathlib.MeasureTheory.Measure.Lebesgue.Basic

namespace Verif.Spec

open Finset

/-- The three uniforms of an update lie in `[0, 1)`. -/
structure ValidDraw (d : Draw ℝ) : Prop where
  u1 : 0 ≤ d.u1 ∧ d.u1 < 1
  u2 : 0 ≤ d.u2 ∧ d.u2 < 1
  u3 : 0 ≤ d.u3 ∧ d.u3 < 1

/-- The point of the unit sphere with azimuth `2 π u1` and height `1 - 2 u2`. -/
noncomputable def spherePoint (u1 u2 : ℝ) : V3 ℝ :=
  ⟨Real.sqrt (1 - (1 - 2 * u2) ^ 2) * Real.cos (2 * Real.pi * u1),
   Real.sqrt (1 - (1 - 2 * u2) ^ 2) * Real.sin (2 * Real.pi * u1), 1 - 2 * u2⟩

/-- The chain with the spin at site `i` replaced by `v`. -/
def replace (c : SpinChain ℝ) (i : ℕ) (v : V3 ℝ) : SpinChain ℝ :=
  { c with spins := c.spins.set i ⟨v⟩ }

open Classical in
/-- One Metropolis decision between the present state `c` and the proposed state `c'`, which
differ in energy by `dE`, at inverse temperature `beta` with the uniform number `u`. -/
noncomputable def metropolis (beta dE u : ℝ) (c c' : SpinChain ℝ) : SpinChain ℝ :=
  if dE < 0 ∨ u < Real.exp (-(beta * dE)) then c' else c

/-! ### Energies of the rotating-frame samplers -/

/-- couplings averaged over the plane of rotation -/
noncomputable def rotJ (j : V3 ℝ) : V3 ℝ := ⟨(j.x + j.y) / 2, (j.x + j.y) / 2, j.z⟩
/-- anisotropy in the plane of rotation -/
def aniso (j : V3 ℝ) : ℝ := j.y - j.x
/-- two-spin correction of the bond between `i` and `i+1` -/
def bondCorr (L : ℕ) (S J : ℕ → V3 ℝ) (i : ℕ) : ℝ :=
  aniso (J i) ^ 2 *
    ((S (right L i)).z * ((S i).x ^ 2 + (S i).y ^ 2)
      + (S i).z * ((S (right L i)).x ^ 2 + (S (right L i)).y ^ 2))
/-- three-spin correction centred at `i` -/
def tripCorr (L : ℕ) (S J : ℕ → V3 ℝ) (i : ℕ) : ℝ :=
  2 * (aniso (J (left L i)) * aniso (J i)) * (S i).z *
    ((S (left L i)).x * (S (right L i)).x + (S (left L i)).y * (S (right L i)).y)
/-- Sum of the corrections, the two-spin ones with weight `kb`, the three-spin ones with weight
`kt`. Each correction is counted once for `kb = kt = 1`. -/
def corr (L : ℕ) (kb kt : ℝ) (S J : ℕ → V3 ℝ) : ℝ :=
  kb * (∑ i ∈ range L, bondCorr L S J i) + kt * ∑ i ∈ range L, tripCorr L S J i

/-- Energy of the rotating frame: averaged couplings, unit field along `x` on the subsystem, `-om`
along `z` everywhere, and corrections. -/
noncomputable def rotE (L s : ℕ) (om kb kt : ℝ) (S J : ℕ → V3 ℝ) : ℝ :=
  ringEnergy L S (fun i => rotJ (J i)) (fun i => ⟨if i < s then 1 else 0, 0, -om⟩)
    - corr L kb kt S J / (16 * om)

/-- Energy of the laboratory frame: bare couplings, field `-1/(2 om)` along `z`, and corrections. -/
noncomputable def maglabE (L : ℕ) (om kb kt : ℝ) (S J : ℕ → V3 ℝ) : ℝ :=
  ringEnergy L S J (fun _ => ⟨0, 0, -(1 / (2 * om))⟩) - corr L kb kt S J / (16 * om)

/-- first-order Magnus term of site `i` -/
def magTerm (L : ℕ) (S J : ℕ → V3 ℝ) (i : ℕ) : ℝ :=
  ((J i).z * (S (right L i)).z + (J (left L i)).z * (S (left L i)).z) * (S i).x
    - ((J i).x * (S (right L i)).x + (J (left L i)).x * (S (left L i)).x) * (S i).z

/-- First-order Magnus energy of a ring whose first `s` sites are driven, the `S^z` term entering
with weight `k` (one in the theory). -/
noncomputable def magnusE (L s : ℕ) (tau k : ℝ) (S J : ℕ → V3 ℝ) : ℝ :=
  ringEnergy L S J (fun _ => zero)
    - Real.pi / tau * ∑ i ∈ range s, (k * (S i).z + 2 * magTerm L S J i)

end Verif.Spec

namespace Verif.Spec

/-- Probability (over the acceptance number, uniform in `[0,1)`) that the sampler `upd` turns `c` into
`c'` when the site and the proposed direction are given by `site, u1, u2`. -/
noncomputable def acceptProb (upd : SpinChain ℝ → Draw ℝ → R (SpinChain ℝ)) (c c' : SpinChain ℝ)
    (site : ℕ) (u1 u2 : ℝ) : ENNReal :=
  MeasureTheory.volume {u : ℝ | 0 ≤ u ∧ u < 1 ∧ upd c ⟨site, u1, u2, u⟩ = .ok c'}

/-- Detailed balance of the sampler `upd` with respect to the weight `W`, on rings of `L` sites of
which `s` are driven, at non-negative inverse temperature: for any move of one spin from
`spherePoint w1 w2` to another direction `spherePoint u1 u2`. -/
def DetailedBalance (upd : SpinChain ℝ → Draw ℝ → R (SpinChain ℝ)) (L s : ℕ)
    (W : SpinChain ℝ → ℝ) : Prop :=
  ∀ (c : SpinChain ℝ) (i : ℕ) (u1 u2 w1 w2 : ℝ), WF c L s → 0 ≤ c.vars.beta → i < L →
    0 ≤ u2 → u2 < 1 → 0 ≤ w2 → w2 < 1 →
    S c i = spherePoint w1 w2 → spherePoint u1 u2 ≠ spherePoint w1 w2 →
    ENNReal.ofReal (W c) * acceptProb upd c (replace c i (spherePoint u1 u2)) i u1 u2
      = ENNReal.ofReal (W (replace c i (spherePoint u1 u2)))
        * acceptProb upd (replace c i (spherePoint u1 u2)) c i w1 w2

end Verif.Spec
