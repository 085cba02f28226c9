/-
Helper lemmas: a bound on the thermal energy from the weight of a set of configurations.
-/
import Verif.Lemmas.Thermal

namespace Verif.Thermal

set_option linter.unusedSectionVars false

open MeasureTheory Finset Spec Markov Function
open scoped ENNReal

section
variable {Ω : Type} [MeasurableSpace Ω] {μ : Measure Ω} [IsProbabilityMeasure μ] {E : Ω → ℝ} {D : ℝ}
  (hE : Measurable E) (hD : ∀ᵐ v ∂μ, |E v| ≤ D)

include hE hD

/-- the mean energy is at most the free energy -/
theorem U_free {β : ℝ} (hb : 0 < β) : U μ E β ≤ -(Real.log (∫ v, Real.exp (-(β * E v)) ∂μ) / β) := by
  set Z := ∫ v, Real.exp (-(β * E v)) ∂μ with hZ
  have Z0 : 0 < Z := part_pos hE hD β
  have i1 := exp_int1 hE hD β
  have i2 := exp_int hE hD β hE hD
  have key : ∀ v, Real.exp (-(β * E v)) - Z ≤ -β * (Real.exp (-(β * E v)) * E v) - Real.log Z * Real.exp (-(β * E v)) := by
    intro v
    have y0 := Real.exp_pos (-(β * E v))
    have h := Real.log_le_sub_one_of_pos (div_pos Z0 y0)
    rw [Real.log_div Z0.ne' y0.ne', Real.log_exp] at h
    have h2 := mul_le_mul_of_nonneg_left h y0.le
    have h3 : Real.exp (-(β * E v)) * (Z / Real.exp (-(β * E v)) - 1) = Z - Real.exp (-(β * E v)) := by
      field_simp
    rw [h3] at h2
    nlinarith
  have h := integral_mono (μ := μ) (f := fun v => Real.exp (-(β * E v)) - Z)
    (g := fun v => -β * (Real.exp (-(β * E v)) * E v) - Real.log Z * Real.exp (-(β * E v)))
    (i1.sub (integrable_const Z)) ((i2.const_mul (-β)).sub (i1.const_mul (Real.log Z))) key
  rw [integral_sub i1 (integrable_const Z), integral_sub (i2.const_mul (-β)) (i1.const_mul (Real.log Z)),
    integral_const_mul, integral_const_mul, ← hZ, integral_const, probReal_univ, one_smul, sub_self] at h
  unfold U
  rw [← hZ, div_le_iff₀ Z0, neg_mul, div_mul_eq_mul_div, ← neg_div, le_div_iff₀ hb]
  linarith

/-- a set of configurations of energy at most `a` bounds the mean energy -/
theorem U_cap {β a p : ℝ} (hb : 0 < β) {A : Set Ω} (hA : MeasurableSet A) (hp : 0 < p) (hpA : p ≤ μ.real A)
    (ha : ∀ v ∈ A, E v ≤ a) : U μ E β ≤ a - Real.log p / β := by
  refine (U_free hE hD hb).trans ?_
  have i1 := exp_int1 hE hD β
  have h1 : p * Real.exp (-(β * a)) ≤ ∫ v, Real.exp (-(β * E v)) ∂μ := by
    calc p * Real.exp (-(β * a)) ≤ μ.real A * Real.exp (-(β * a)) := by gcongr
      _ = ∫ v in A, Real.exp (-(β * a)) ∂μ := by rw [setIntegral_const, smul_eq_mul]
      _ ≤ ∫ v in A, Real.exp (-(β * E v)) ∂μ := by
          refine setIntegral_mono_on (integrable_const _).integrableOn i1.integrableOn hA fun v hv => ?_
          exact Real.exp_le_exp.2 (neg_le_neg (mul_le_mul_of_nonneg_left (ha v hv) hb.le))
      _ ≤ ∫ v, Real.exp (-(β * E v)) ∂μ := setIntegral_le_integral i1 (Filter.Eventually.of_forall fun v => (Real.exp_pos _).le)
  have h2 := Real.log_le_log (by positivity) h1
  rw [Real.log_mul hp.ne' (Real.exp_pos _).ne', Real.log_exp] at h2
  have h3 := div_le_div_of_nonneg_right h2 hb.le
  have h4 : (Real.log p + -(β * a)) / β = Real.log p / β - a := by field_simp; ring
  rw [h4] at h3
  linarith

end

/-- weight of a cap around the south pole -/
theorem cap_weight : sphereMeasure.real {x | x.z ≤ -0.9} = 0.05 := by
  have msp : Measurable fun q : ℝ × ℝ => spherePoint q.1 q.2 := measurable_spherePoint
  have mc : MeasurableSet {x : V3 ℝ | x.z ≤ -0.9} := measurable_z measurableSet_Iic
  have e : (fun q : ℝ × ℝ => spherePoint q.1 q.2) ⁻¹' {x | x.z ≤ -0.9} = Set.univ ×ˢ Set.Ici (0.95 : ℝ) := by
    ext q
    simp only [spherePoint, Set.mem_preimage, Set.mem_ofPred_eq, Set.mem_prod, Set.mem_univ, true_and, Set.mem_Ici]
    constructor <;> intro h <;> linarith
  unfold sphereMeasure Measure.real
  rw [Measure.map_apply msp mc, e, Measure.prod_prod, Measure.restrict_apply_univ, Measure.restrict_apply measurableSet_Ici]
  have e2 : Set.Ici (0.95 : ℝ) ∩ Set.Ico 0 1 = Set.Ico 0.95 1 := by
    ext x
    simp only [Set.mem_inter_iff, Set.mem_Ici, Set.mem_Ico]
    constructor
    · exact fun h => ⟨h.1, h.2.2⟩
    · exact fun h => ⟨h.1, by linarith [h.1], h.2⟩
  rw [e2, Real.volume_Ico, Real.volume_Ico, sub_zero, ENNReal.ofReal_one, one_mul, ENNReal.toReal_ofReal (by norm_num)]
  norm_num

theorem caps_weight (L : ℕ) : (Measure.pi fun _ : Fin L => sphereMeasure).real {v | ∀ i, (v i).z ≤ -0.9} = 0.05 ^ L := by
  have e : {v : Fin L → V3 ℝ | ∀ i, (v i).z ≤ -0.9} = Set.univ.pi fun _ => {x : V3 ℝ | x.z ≤ -0.9} := by
    ext v
    simp
  rw [e, Measure.real, Measure.pi_pi, ENNReal.toReal_prod]
  have := cap_weight
  unfold Measure.real at this
  rw [prod_congr rfl fun i _ => this, prod_const, card_univ, Fintype.card_fin]

end Verif.Thermal
