/-
Specification: what it means that a sampler settles in one state.
-/
import Verif.Spec.Sampling
import Verif.Model.Obs

namespace Verif.Spec

open MeasureTheory
open scoped ENNReal

/-- `π` is a distribution of unit spins that one update does not change: the mean of every observable is the
same before and after. -/
structure Stationary (upd : SpinChain ℝ → Draw ℝ → R (SpinChain ℝ)) (c : SpinChain ℝ) (L : ℕ)
    (π : Measure (Fin L → V3 ℝ)) : Prop where
  prob : IsProbabilityMeasure π
  unit : ∀ᵐ v ∂π, ∀ i, len (v i) = 1
  step : ∀ f : SpinChain ℝ → ℝ≥0∞, Observable c L f →
    ∫⁻ v, expect upd L f 1 (withSpins c v) ∂π = ∫⁻ v, f (withSpins c v) ∂π

/-- The distribution of unit spins with density proportional to `exp (-beta E)` -/
noncomputable def boltzmannMeasure (c : SpinChain ℝ) (L : ℕ) (E : SpinChain ℝ → ℝ) : Measure (Fin L → V3 ℝ) :=
  (boltzmannSum c L E fun _ => 1)⁻¹ • (Measure.pi fun _ => sphereMeasure).withDensity
    fun v => ENNReal.ofReal (Real.exp (-(c.vars.beta * E (withSpins c v))))

/-- From any unit spins, the distribution after `n` updates approaches `π` geometrically in the number of
sweeps, uniformly over the starting spins and the observables with values in `[0, 1]`. -/
def Approaches (upd : SpinChain ℝ → Draw ℝ → R (SpinChain ℝ)) (c : SpinChain ℝ) (L : ℕ)
    (π : Measure (Fin L → V3 ℝ)) : Prop :=
  ∃ ε : ℝ, 0 < ε ∧ ε ≤ 1 ∧ ∀ f : SpinChain ℝ → ℝ≥0∞, Observable c L f → (∀ c, f c ≤ 1) →
    ∀ v : Fin L → V3 ℝ, (∀ i, len (v i) = 1) → ∀ n : ℕ,
    |(expect upd L f n (withSpins c v)).toReal - (∫⁻ v, f (withSpins c v) ∂π).toReal| ≤ (1 - ε) ^ (n / L)

/-- There is a constant `K` such that the average of an observable of size `M` over `n` samples of the
sampling loop, with any number `per ≥ 1` of updates before each and from any unit spins, differs from the
mean of the observable in `π` by `√(K M² / n)` in root mean square over independent uniform draws.  With
probability one the loop does not panic. -/
def Estimates (upd : SpinChain ℝ → Draw ℝ → R (SpinChain ℝ)) (c : SpinChain ℝ) (L : ℕ)
    (π : Measure (Fin L → V3 ℝ)) : Prop :=
  ∃ K : ℝ, 0 < K ∧ ∀ (f : SpinChain ℝ → ℝ) (obs : SpinChain ℝ → R ℝ) (M : ℝ),
    (∀ v : Fin L → V3 ℝ, obs (withSpins c v) = .ok (f (withSpins c v))) →
    Measurable (fun v : Fin L → V3 ℝ => f (withSpins c v)) →
    (∀ v : Fin L → V3 ℝ, (∀ i, len (v i) = 1) → |f (withSpins c v)| ≤ M) →
    ∀ v : Fin L → V3 ℝ, (∀ i, len (v i) = 1) → ∀ per n : ℕ, 1 ≤ per → 1 ≤ n →
    ∃ est : (Fin n → Fin per → Raw L) → ℝ, Measurable est ∧
      (∀ᵐ w ∂(blockLaw L per n), ∃ c' xs,
        sampleLoop upd per n obs (blockDraws w) (withSpins c v) = .ok (c', xs) ∧ meanOf xs n = est w) ∧
      ∫⁻ w, ENNReal.ofReal ((est w - ∫ v, f (withSpins c v) ∂π) ^ 2) ∂(blockLaw L per n)
        ≤ ENNReal.ofReal (K * M ^ 2 / n)

/-- The sampler has exactly one stationary distribution of unit spins, in which every region of positive
uniform measure has positive probability; runs approach it and averages estimate its means. -/
def Settles (upd : SpinChain ℝ → Draw ℝ → R (SpinChain ℝ)) (c : SpinChain ℝ) (L : ℕ) : Prop :=
  ∃ π : Measure (Fin L → V3 ℝ), Stationary upd c L π ∧ (∀ π', Stationary upd c L π' → π' = π) ∧
    (∀ A, MeasurableSet A → 0 < (Measure.pi fun _ : Fin L => sphereMeasure) A → 0 < π A) ∧
    Approaches upd c L π ∧ Estimates upd c L π

end Verif.Spec
