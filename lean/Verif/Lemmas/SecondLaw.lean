/-
Measure-preserving maps cannot take energy from a Boltzmann distribution (for C121).
-/
import Mathlib.MeasureTheory.Integral.Bochner.Set
import Mathlib.MeasureTheory.Function.L1Space.Integrable
import Mathlib.Analysis.SpecialFunctions.Exp
import Mathlib.Dynamics.Ergodic.MeasurePreserving

set_option linter.unusedSectionVars false

namespace Verif.SecondLaw

open MeasureTheory

variable {Ω : Type*} [MeasurableSpace Ω] {μ : Measure Ω} [IsProbabilityMeasure μ] {E : Ω → ℝ} {Φ : Ω → Ω} {D : ℝ}

theorem integrable_bd {f : Ω → ℝ} (hf : Measurable f) {K : ℝ} (h : ∀ᵐ v ∂μ, |f v| ≤ K) : Integrable f μ :=
  Integrable.of_bound hf.aestronglyMeasurable K (h.mono fun v hv => by rwa [Real.norm_eq_abs])

theorem bound_comp (hΦ : MeasurePreserving Φ μ μ) (hD : ∀ᵐ v ∂μ, |E v| ≤ D) : ∀ᵐ v ∂μ, |E (Φ v)| ≤ D :=
  hΦ.quasiMeasurePreserving.ae hD

theorem exp_bd (b : ℝ) {x D : ℝ} (h : |x| ≤ D) : |Real.exp (-(b * x))| ≤ Real.exp (|b| * D) := by
  rw [abs_of_pos (Real.exp_pos _), Real.exp_le_exp]
  have : |b * x| ≤ |b| * D := by rw [abs_mul]; exact mul_le_mul_of_nonneg_left h (abs_nonneg _)
  have := (abs_le.1 this).1
  linarith

theorem integrable_weight (b : ℝ) (hE : Measurable E) (hD : ∀ᵐ v ∂μ, |E v| ≤ D) :
    Integrable (fun v => Real.exp (-(b * E v))) μ :=
  integrable_bd ((hE.const_mul b).neg.exp) (hD.mono fun _ h => exp_bd b h)

theorem weight_pos (b : ℝ) (hE : Measurable E) (hD : ∀ᵐ v ∂μ, |E v| ≤ D) : 0 < ∫ v, Real.exp (-(b * E v)) ∂μ :=
  integral_exp_pos (integrable_weight b hE hD)

/-- the weight after the map -/
theorem weight_map (b : ℝ) (hE : Measurable E) (hΦ : MeasurePreserving Φ μ μ) :
    ∫ v, Real.exp (-(b * E (Φ v))) ∂μ = ∫ v, Real.exp (-(b * E v)) ∂μ := by
  have h := integral_map (μ := μ) (φ := Φ) hΦ.measurable.aemeasurable (f := fun v => Real.exp (-(b * E v)))
    ((hE.const_mul b).neg.exp).aestronglyMeasurable
  rw [hΦ.map_eq] at h
  exact h.symm

theorem integrable_mul (b : ℝ) (hE : Measurable E) (hD : ∀ᵐ v ∂μ, |E v| ≤ D) {f : Ω → ℝ} (hf : Measurable f) {K : ℝ}
    (hK : ∀ᵐ v ∂μ, |f v| ≤ K) : Integrable (fun v => Real.exp (-(b * E v)) * f v) μ := by
  refine integrable_bd (((hE.const_mul b).neg.exp).mul hf) (K := Real.exp (|b| * D) * K) ?_
  filter_upwards [hD, hK] with v h1 h2
  rw [abs_mul]
  exact mul_le_mul (exp_bd b h1) h2 (abs_nonneg _) (Real.exp_pos _).le

/-- `1 + u ≤ exp u`, weighted -/
theorem pointwise (b x y : ℝ) : 0 ≤ Real.exp (-(b * y)) - (Real.exp (-(b * x)) - b * (Real.exp (-(b * x)) * y - Real.exp (-(b * x)) * x)) := by
  have h := Real.add_one_le_exp (-(b * y) + b * x)
  rw [Real.exp_add] at h
  have hp := Real.exp_pos (-(b * x))
  have h2 := mul_le_mul_of_nonneg_left h hp.le
  have h3 : Real.exp (-(b * x)) * (Real.exp (-(b * y)) * Real.exp (b * x)) = Real.exp (-(b * y)) := by
    rw [mul_comm, mul_assoc, ← Real.exp_add, add_neg_cancel, Real.exp_zero, mul_one]
  rw [h3] at h2
  linarith

theorem pointwise_eq {b x y : ℝ} (hb : b ≠ 0)
    (h : Real.exp (-(b * y)) - (Real.exp (-(b * x)) - b * (Real.exp (-(b * x)) * y - Real.exp (-(b * x)) * x)) = 0) : y = x := by
  by_contra hne
  have hu : -(b * y) + b * x ≠ 0 := by
    intro h0
    apply hne
    have : b * (x - y) = 0 := by linarith
    rcases mul_eq_zero.1 this with h | h
    · exact absurd h hb
    · linarith
  have h1 := Real.add_one_lt_exp hu
  rw [Real.exp_add] at h1
  have hp := Real.exp_pos (-(b * x))
  have h2 := mul_lt_mul_of_pos_left h1 hp
  have h3 : Real.exp (-(b * x)) * (Real.exp (-(b * y)) * Real.exp (b * x)) = Real.exp (-(b * y)) := by
    rw [mul_comm, mul_assoc, ← Real.exp_add, add_neg_cancel, Real.exp_zero, mul_one]
  rw [h3] at h2
  linarith

/-- the energy gained, weighted by the Boltzmann factor -/
theorem gain_eq (b : ℝ) (hE : Measurable E) (hD : ∀ᵐ v ∂μ, |E v| ≤ D) (hΦ : MeasurePreserving Φ μ μ) :
    ∫ v, (Real.exp (-(b * E (Φ v))) - (Real.exp (-(b * E v)) - b * (Real.exp (-(b * E v)) * E (Φ v) - Real.exp (-(b * E v)) * E v))) ∂μ
      = b * (∫ v, Real.exp (-(b * E v)) * E (Φ v) ∂μ - ∫ v, Real.exp (-(b * E v)) * E v ∂μ) := by
  have i1 := integrable_weight (μ := μ) b hE hD
  have i2 := integrable_weight (μ := μ) (E := fun v => E (Φ v)) b (hE.comp hΦ.measurable) (bound_comp hΦ hD)
  have i3 := integrable_mul (μ := μ) (f := fun v => E (Φ v)) b hE hD (hE.comp hΦ.measurable) (bound_comp hΦ hD)
  have i4 := integrable_mul (μ := μ) b hE hD hE hD
  have i5 : Integrable (fun v => b * (Real.exp (-(b * E v)) * E (Φ v) - Real.exp (-(b * E v)) * E v)) μ := (i3.sub i4).const_mul b
  have i6 : Integrable (fun v => Real.exp (-(b * E v))
      - b * (Real.exp (-(b * E v)) * E (Φ v) - Real.exp (-(b * E v)) * E v)) μ := i1.sub i5
  rw [integral_sub i2 i6, integral_sub i1 i5, integral_const_mul, integral_sub i3 i4, weight_map b hE hΦ]
  ring

/-- a measure-preserving map does not lower the mean energy of a Boltzmann distribution -/
theorem gain_nonneg (b : ℝ) (hE : Measurable E) (hD : ∀ᵐ v ∂μ, |E v| ≤ D) (hΦ : MeasurePreserving Φ μ μ) :
    0 ≤ b * (∫ v, Real.exp (-(b * E v)) * E (Φ v) ∂μ - ∫ v, Real.exp (-(b * E v)) * E v ∂μ) := by
  rw [← gain_eq b hE hD hΦ]
  exact integral_nonneg fun v => pointwise b (E v) (E (Φ v))

/-- and raises it unless the energies are unchanged -/
theorem gain_zero {b : ℝ} (hb : b ≠ 0) (hE : Measurable E) (hD : ∀ᵐ v ∂μ, |E v| ≤ D) (hΦ : MeasurePreserving Φ μ μ)
    (h : ∫ v, Real.exp (-(b * E v)) * E (Φ v) ∂μ = ∫ v, Real.exp (-(b * E v)) * E v ∂μ) : ∀ᵐ v ∂μ, E (Φ v) = E v := by
  have h0 := gain_eq b hE hD hΦ
  rw [h, sub_self, mul_zero] at h0
  have i1 := integrable_weight (μ := μ) b hE hD
  have i2 := integrable_weight (μ := μ) (E := fun v => E (Φ v)) b (hE.comp hΦ.measurable) (bound_comp hΦ hD)
  have i3 := integrable_mul (μ := μ) (f := fun v => E (Φ v)) b hE hD (hE.comp hΦ.measurable) (bound_comp hΦ hD)
  have i4 := integrable_mul (μ := μ) b hE hD hE hD
  have := (integral_eq_zero_iff_of_nonneg (fun v => pointwise b (E v) (E (Φ v))) (i2.sub (i1.sub ((i3.sub i4).const_mul b)))).1 h0
  filter_upwards [this] with v hv
  exact pointwise_eq hb hv

/-- the map takes the energy `x` from a Boltzmann distribution with probability at most `exp (-b x)` -/
theorem tail_le {b : ℝ} (hb : 0 ≤ b) (x : ℝ) (hE : Measurable E) (hD : ∀ᵐ v ∂μ, |E v| ≤ D) (hΦ : MeasurePreserving Φ μ μ) :
    ∫ v, Real.exp (-(b * E v)) * (if E (Φ v) ≤ E v - x then 1 else 0) ∂μ
      ≤ Real.exp (-(b * x)) * ∫ v, Real.exp (-(b * E v)) ∂μ := by
  have i2 := integrable_weight (μ := μ) (E := fun v => E (Φ v)) b (hE.comp hΦ.measurable) (bound_comp hΦ hD)
  have hm : Measurable fun v => if E (Φ v) ≤ E v - x then (1 : ℝ) else 0 :=
    Measurable.ite (measurableSet_le (hE.comp hΦ.measurable) (hE.sub_const x)) measurable_const measurable_const
  have i3 := integrable_mul (μ := μ) b hE hD hm (K := 1) (Filter.Eventually.of_forall fun v => by split <;> simp)
  rw [← weight_map b hE hΦ, ← integral_const_mul]
  refine integral_mono i3 (i2.const_mul _) fun v => ?_
  dsimp only [Function.comp_apply]
  split
  · rename_i h
    rw [mul_one, ← Real.exp_add, Real.exp_le_exp]
    nlinarith
  · rw [mul_zero]
    positivity

end Verif.SecondLaw
