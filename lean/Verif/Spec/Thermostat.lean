/-
Specification of a thermostat: the stochastic Landau–Lifshitz equation at the edges of an open chain, its
generator, and averages over the noise.
-/
import Verif.Spec.Langevin
import Verif.Spec.Markov
import Mathlib.Analysis.Calculus.IteratedDeriv.Defs
import Mathlib.Probability.Distributions.Gaussian.Real

namespace Verif.Spec

open MeasureTheory ProbabilityTheory

/-- components of all spins -/
def coords {L : ℕ} (v : Fin L → V3 ℝ) : Fin L → ℝ × ℝ × ℝ := fun i => ((v i).x, (v i).y, (v i).z)

/-- the spins as a function of the site number (zero outside the chain) -/
def atSite {L : ℕ} (v : Fin L → V3 ℝ) (i : ℕ) : V3 ℝ := if h : i < L then v ⟨i, h⟩ else zero

/-- the spin on site `i` is turned about the axis `a` for time `t` -/
noncomputable def turned {L : ℕ} (v : Fin L → V3 ℝ) (i : Fin L) (a : V3 ℝ) (t : ℝ) : Fin L → V3 ℝ :=
  Function.update v i (precess (v i) a t)

/-- Rate of change of `f` when the spin on site `i` turns about `a`. -/
noncomputable def rateOf {L : ℕ} (f : (Fin L → V3 ℝ) → ℝ) (v : Fin L → V3 ℝ) (i : Fin L) (a : V3 ℝ) : ℝ :=
  deriv (fun t => f (turned v i a t)) 0

/-- Laplace operator on the sphere of the spin on site `i`: sum of the second derivatives along the turns
about the three coordinate axes. -/
noncomputable def laplace {L : ℕ} (f : (Fin L → V3 ℝ) → ℝ) (v : Fin L → V3 ℝ) (i : Fin L) : ℝ :=
  iteratedDeriv 2 (fun t => f (turned v i ⟨1, 0, 0⟩ t)) 0 + iteratedDeriv 2 (fun t => f (turned v i ⟨0, 1, 0⟩ t)) 0
    + iteratedDeriv 2 (fun t => f (turned v i ⟨0, 0, 1⟩ t)) 0

/-- Generator of the stochastic Landau–Lifshitz dynamics of an open chain of `m` sites: every spin turns
about its local field `Ω`; the two edge spins are also damped (they turn about `-γ S × Ω`) and diffuse on
the sphere with diffusion constant `γ / β`. -/
noncomputable def generator {L : ℕ} (m : ℕ) (γ β : ℝ) (J B : ℕ → V3 ℝ) (f : (Fin L → V3 ℝ) → ℝ)
    (v : Fin L → V3 ℝ) : ℝ :=
  ∑ i : Fin L, ((if (i : ℕ) < m then rateOf f v i (openOmega m (atSite v) J B i) else 0)
    + if (i : ℕ) = 0 ∨ (i : ℕ) + 1 = m then
        γ / β * laplace f v i - γ * rateOf f v i (cross (v i) (openOmega m (atSite v) J B i))
      else 0)

/-- the six numbers drawn in an update -/
def noiseOf (ζ : Fin 6 → ℝ) : Noise ℝ := ⟨⟨ζ 0, ζ 1, ζ 2⟩, ⟨ζ 3, ζ 4, ζ 5⟩⟩

/-- distribution of six independent standard normal numbers -/
noncomputable def normals : Measure (Fin 6 → ℝ) := Measure.pi fun _ => gaussianReal 0 1

/-- The Langevin chain with the parameters of `c`, time-step `dt` and spins `v`. -/
def langevinAt (c : LangevinChain ℝ) (dt : ℝ) {L : ℕ} (v : Fin L → V3 ℝ) : LangevinChain ℝ :=
  { c with
    vars := { c.vars with dt := dt }
    spins := List.ofFn fun i => ⟨v i⟩ }

/-- Mean of `f` after one update with random noise.  Panicking updates contribute nothing. -/
noncomputable def meanAfter (c : LangevinChain ℝ) (L : ℕ) (f : (Fin L → V3 ℝ) → ℝ) : ℝ :=
  ∫ ζ, (match c.update (noiseOf ζ) with
    | .ok c' => f fun i => S c'.toSpinChain i
    | .error _ => 0) ∂normals

/-- Boltzmann weight of an open chain of `m` sites -/
noncomputable def openWeight {L : ℕ} (m : ℕ) (β : ℝ) (J B : ℕ → V3 ℝ) (v : Fin L → V3 ℝ) : ℝ :=
  Real.exp (-(β * openEnergy m (atSite v) J B))

/-- Integral over all spin configurations with the Boltzmann weight of an open chain. -/
noncomputable def openSum (L m : ℕ) (β : ℝ) (J B : ℕ → V3 ℝ) (f : (Fin L → V3 ℝ) → ℝ) : ℝ :=
  ∫ v : Fin L → V3 ℝ, f v * openWeight m β J B v ∂(Measure.pi fun _ => sphereMeasure)

/-- Thermal mean for an open chain of `m` sites at inverse temperature `β`. -/
noncomputable def openMean (L m : ℕ) (β : ℝ) (J B : ℕ → V3 ℝ) (f : (Fin L → V3 ℝ) → ℝ) : ℝ :=
  openSum L m β J B f / openSum L m β J B fun _ => 1

/-- Mean of `f` after `n` updates with independent noise.  Panicking runs contribute nothing. -/
noncomputable def meanRun (L : ℕ) (f : (Fin L → V3 ℝ) → ℝ) : ℕ → LangevinChain ℝ → ℝ
  | 0, c => f fun i => S c.toSpinChain i
  | n + 1, c => ∫ ζ, (match c.update (noiseOf ζ) with
    | .ok c' => meanRun L f n c'
    | .error _ => 0) ∂normals

/-- Almost surely none of the next `n` updates meets a vanishing field. -/
def SurelyRegular (L s : ℕ) : ℕ → LangevinChain ℝ → Prop
  | 0, _ => True
  | n + 1, c => ∀ᵐ ζ ∂normals, RegularStepL c L s (noiseOf ζ) ∧
      ∀ c', c.update (noiseOf ζ) = .ok c' → SurelyRegular L s n c'

/-- fields used in the update after `k` others (with time-step `dt`), at the time reached by that update -/
noncomputable def usedField (c : SpinChain ℝ) (s : ℕ) (dt : ℝ) (k : ℕ) : ℕ → V3 ℝ := B c s (c.t + (k + 1) * dt)

/-- Excess of the squared torque `|S × Ω|²` on the edge spins over its thermal value `2 S·Ω / β`.  (A spin
in a fixed field `Ω` at inverse temperature `β` has the mean squared torque `2 ⟨S·Ω⟩ / β`.) -/
noncomputable def torqueExcess {L : ℕ} (m : ℕ) (β : ℝ) (J B : ℕ → V3 ℝ) (v : Fin L → V3 ℝ) : ℝ :=
  ∑ i : Fin L, if (i : ℕ) = 0 ∨ (i : ℕ) + 1 = m then
    len (cross (v i) (openOmega m (atSite v) J B i)) ^ 2 - 2 / β * dot (v i) (openOmega m (atSite v) J B i) else 0

end Verif.Spec
