/-
Derivatives of Boltzmann means with respect to a field, and correlations under maps that keep the Boltzmann
distribution (for C123).
-/
import Verif.Lemmas.SecondLaw
import Mathlib.Analysis.Calculus.ParametricIntegral
import Mathlib.Analysis.SpecialFunctions.ExpDeriv
import Mathlib.Analysis.Calculus.Deriv.Inv

set_option linter.unusedSectionVars false

namespace Verif.Response

open MeasureTheory SecondLaw

variable {Ω : Type*} [MeasurableSpace Ω] {μ : Measure Ω} [IsProbabilityMeasure μ] {E X g h : Ω → ℝ} {Φ R : Ω → Ω} {D DX M N : ℝ}

/-- mean of `g` over the Boltzmann distribution of `E` -/
noncomputable def mean (μ : Measure Ω) (b : ℝ) (E g : Ω → ℝ) : ℝ :=
  (∫ v, Real.exp (-(b * E v)) * g v ∂μ) / ∫ v, Real.exp (-(b * E v)) ∂μ

theorem tilt_bound (hD : ∀ᵐ v ∂μ, |E v| ≤ D) (hX : ∀ᵐ v ∂μ, |X v| ≤ DX) (a : ℝ) : ∀ᵐ v ∂μ, |E v + a * X v| ≤ D + |a| * DX := by
  filter_upwards [hD, hX] with v h1 h2
  refine (abs_add_le _ _).trans (add_le_add h1 ?_)
  rw [abs_mul]
  exact mul_le_mul_of_nonneg_left h2 (abs_nonneg _)

theorem tilt_deriv (b : ℝ) (mE : Measurable E) (mX : Measurable X) (mg : Measurable g) (hD : ∀ᵐ v ∂μ, |E v| ≤ D)
    (hX : ∀ᵐ v ∂μ, |X v| ≤ DX) (hM : ∀ᵐ v ∂μ, |g v| ≤ M) (a : ℝ) :
    HasDerivAt (fun a => ∫ v, Real.exp (-(b * (E v + a * X v))) * g v ∂μ)
      (∫ v, Real.exp (-(b * (E v + a * X v))) * (-(b * X v) * g v) ∂μ) a := by
  have mT : ∀ x : ℝ, Measurable fun v => E v + x * X v := fun x => mE.add (mX.const_mul x)
  have mW : ∀ x : ℝ, Measurable fun v => Real.exp (-(b * (E v + x * X v))) := fun x => ((mT x).const_mul b).neg.exp
  have D0 : 0 ≤ D := by
    obtain ⟨v, hv⟩ := hD.exists
    exact (abs_nonneg _).trans hv
  have X0 : 0 ≤ DX := by
    obtain ⟨v, hv⟩ := hX.exists
    exact (abs_nonneg _).trans hv
  refine (hasDerivAt_integral_of_dominated_loc_of_deriv_le (μ := μ) (s := Metric.ball a 1) (𝕜 := ℝ)
    (F := fun x v => Real.exp (-(b * (E v + x * X v))) * g v)
    (F' := fun x v => Real.exp (-(b * (E v + x * X v))) * (-(b * X v) * g v))
    (bound := fun _ => Real.exp (|b| * (D + (|a| + 1) * DX)) * (|b| * DX * M)) (Metric.ball_mem_nhds a one_pos)
    (Filter.Eventually.of_forall fun x => ((mW x).mul mg).aestronglyMeasurable)
    (integrable_mul b (mT a) (tilt_bound hD hX a) mg hM)
    ((mW a).mul (((mX.const_mul b).neg).mul mg)).aestronglyMeasurable ?_ (integrable_const _) ?_).2
  · filter_upwards [hD, hX, hM] with v h1 h2 h3 x hx
    have hx' : |x| ≤ |a| + 1 := by
      have h4 : |x - a| < 1 := by rwa [Metric.mem_ball, Real.dist_eq] at hx
      have h5 : |x| ≤ |x - a| + |a| := by
        calc |x| = |(x - a) + a| := by ring_nf
          _ ≤ _ := abs_add_le _ _
      linarith
    have h6 : |E v + x * X v| ≤ D + (|a| + 1) * DX := by
      refine (abs_add_le _ _).trans (add_le_add h1 ?_)
      rw [abs_mul]
      exact mul_le_mul hx' h2 (abs_nonneg _) (by positivity)
    rw [Real.norm_eq_abs, abs_mul]
    refine mul_le_mul (exp_bd b h6) ?_ (abs_nonneg _) (Real.exp_pos _).le
    rw [abs_mul, abs_neg, abs_mul]
    gcongr
  · refine Filter.Eventually.of_forall fun v x _ => ?_
    have h1 : HasDerivAt (fun x => -(b * (E v + x * X v))) (-(b * X v)) x := by
      have := ((((hasDerivAt_id x).mul_const (X v)).const_add (E v)).const_mul b).fun_neg
      simpa using this
    have := (h1.exp.mul_const (g v))
    rwa [mul_assoc] at this

/-- the derivative of a Boltzmann mean with respect to the strength of a field is minus `b` times the covariance with
what the field couples to -/
theorem mean_deriv (b : ℝ) (mE : Measurable E) (mX : Measurable X) (mg : Measurable g) (hD : ∀ᵐ v ∂μ, |E v| ≤ D)
    (hX : ∀ᵐ v ∂μ, |X v| ≤ DX) (hM : ∀ᵐ v ∂μ, |g v| ≤ M) (a : ℝ) :
    HasDerivAt (fun a => mean μ b (fun v => E v + a * X v) g)
      (-(b * (mean μ b (fun v => E v + a * X v) (fun v => g v * X v)
        - mean μ b (fun v => E v + a * X v) g * mean μ b (fun v => E v + a * X v) X))) a := by
  have mT : Measurable fun v => E v + a * X v := mE.add (mX.const_mul a)
  have hp := weight_pos b mT (tilt_bound hD hX a)
  have h1 := tilt_deriv b mE mX mg hD hX hM a
  have h2 := tilt_deriv b mE mX (measurable_const (a := (1 : ℝ))) hD hX (M := 1) (.of_forall fun _ => by simp) a
  simp only [mul_one] at h2
  have h3 := h1.div h2 hp.ne'
  unfold mean
  refine HasDerivAt.congr_deriv h3 ?_
  have e1 : ∫ v, Real.exp (-(b * (E v + a * X v))) * (-(b * X v) * g v) ∂μ
      = -(b * ∫ v, Real.exp (-(b * (E v + a * X v))) * (g v * X v) ∂μ) := by
    rw [← integral_const_mul, ← integral_neg]
    congr 1
    funext v
    ring
  have e2 : ∫ v, Real.exp (-(b * (E v + a * X v))) * -(b * X v) ∂μ
      = -(b * ∫ v, Real.exp (-(b * (E v + a * X v))) * X v ∂μ) := by
    rw [← integral_const_mul, ← integral_neg]
    congr 1
    funext v
    ring
  rw [e1, e2]
  field_simp
  ring

/-- a map that keeps the measure and the energy keeps the means -/
theorem mean_comp (b : ℝ) (mE : Measurable E) (mg : Measurable g) (hΦ : MeasurePreserving Φ μ μ) (hE : ∀ v, E (Φ v) = E v) :
    mean μ b E (fun v => g (Φ v)) = mean μ b E g := by
  unfold mean
  congr 1
  have h := integral_map (μ := μ) (φ := Φ) hΦ.measurable.aemeasurable (f := fun v => Real.exp (-(b * E v)) * g v)
    (((mE.const_mul b).neg.exp).mul mg).aestronglyMeasurable
  rw [hΦ.map_eq] at h
  rw [h]
  simp only [hE]

theorem mean_congr (b : ℝ) (he : ∀ᵐ v ∂μ, g v = h v) : mean μ b E g = mean μ b E h := by
  unfold mean
  congr 1
  refine integral_congr_ae ?_
  filter_upwards [he] with v hv
  rw [hv]

theorem mean_add (b : ℝ) (mE : Measurable E) (hD : ∀ᵐ v ∂μ, |E v| ≤ D) (mg : Measurable g) (mh : Measurable h)
    (hM : ∀ᵐ v ∂μ, |g v| ≤ M) (hN : ∀ᵐ v ∂μ, |h v| ≤ N) : mean μ b E (fun v => g v + h v) = mean μ b E g + mean μ b E h := by
  unfold mean
  rw [← add_div, ← integral_add (integrable_mul b mE hD mg hM) (integrable_mul b mE hD mh hN)]
  congr 2
  funext v
  ring

theorem mean_smul (b k : ℝ) : mean μ b E (fun v => k * g v) = k * mean μ b E g := by
  unfold mean
  rw [← mul_div_assoc, ← integral_const_mul]
  congr 2
  funext v
  ring

theorem mean_const (b k : ℝ) (mE : Measurable E) (hD : ∀ᵐ v ∂μ, |E v| ≤ D) : mean μ b E (fun _ => k) = k := by
  unfold mean
  rw [integral_mul_const, mul_comm, mul_div_assoc, div_self (weight_pos b mE hD).ne', mul_one]

theorem mean_nonneg (b : ℝ) (h : ∀ v, 0 ≤ g v) : 0 ≤ mean μ b E g :=
  div_nonneg (integral_nonneg fun v => mul_nonneg (Real.exp_pos _).le (h v)) (integral_nonneg fun _ => (Real.exp_pos _).le)

theorem mean_sq (b : ℝ) (mE : Measurable E) (hD : ∀ᵐ v ∂μ, |E v| ≤ D) (mg : Measurable g) (mh : Measurable h)
    (hM : ∀ᵐ v ∂μ, |g v| ≤ M) (hN : ∀ᵐ v ∂μ, |h v| ≤ N) (r : ℝ) :
    0 ≤ mean μ b E (fun v => g v * g v) + 2 * r * mean μ b E (fun v => g v * h v) + r ^ 2 * mean μ b E (fun v => h v * h v) := by
  have b1 : ∀ᵐ v ∂μ, |g v * g v| ≤ M * M := by
    filter_upwards [hM] with v h1
    rw [abs_mul]
    exact mul_le_mul h1 h1 (abs_nonneg _) ((abs_nonneg _).trans h1)
  have b2 : ∀ᵐ v ∂μ, |2 * r * (g v * h v)| ≤ |2 * r| * (M * N) := by
    filter_upwards [hM, hN] with v h1 h2
    rw [abs_mul, abs_mul (g v)]
    exact mul_le_mul_of_nonneg_left (mul_le_mul h1 h2 (abs_nonneg _) ((abs_nonneg _).trans h1)) (abs_nonneg _)
  have b3 : ∀ᵐ v ∂μ, |r ^ 2 * (h v * h v)| ≤ |r ^ 2| * (N * N) := by
    filter_upwards [hN] with v h1
    rw [abs_mul, abs_mul (h v)]
    exact mul_le_mul_of_nonneg_left (mul_le_mul h1 h1 (abs_nonneg _) ((abs_nonneg _).trans h1)) (abs_nonneg _)
  have b4 : ∀ᵐ v ∂μ, |2 * r * (g v * h v) + r ^ 2 * (h v * h v)| ≤ |2 * r| * (M * N) + |r ^ 2| * (N * N) := by
    filter_upwards [b2, b3] with v h1 h2
    exact (abs_add_le _ _).trans (add_le_add h1 h2)
  have m2 : Measurable fun v => 2 * r * (g v * h v) := (mg.mul mh).const_mul _
  have m3 : Measurable fun v => r ^ 2 * (h v * h v) := (mh.mul mh).const_mul _
  have e := mean_add b mE hD (g := fun v => g v * g v) (h := fun v => 2 * r * (g v * h v) + r ^ 2 * (h v * h v)) (mg.mul mg) (m2.add m3) b1 b4
  have e2 := mean_add b mE hD m2 m3 b2 b3
  rw [← mean_smul, ← mean_smul, add_assoc, ← e2, ← e]
  refine mean_nonneg b fun v => ?_
  have := mul_self_nonneg (g v + r * h v)
  nlinarith

/-- covariance -/
noncomputable def cov (μ : Measure Ω) (b : ℝ) (E g h : Ω → ℝ) : ℝ :=
  mean μ b E (fun v => g v * h v) - mean μ b E g * mean μ b E h

theorem cov_centre (b : ℝ) (mE : Measurable E) (hD : ∀ᵐ v ∂μ, |E v| ≤ D) (mg : Measurable g) (mh : Measurable h)
    (hM : ∀ᵐ v ∂μ, |g v| ≤ M) (hN : ∀ᵐ v ∂μ, |h v| ≤ N) :
    cov μ b E g h = mean μ b E (fun v => (g v - mean μ b E g) * (h v - mean μ b E h)) := by
  set p := mean μ b E g with hp
  set q := mean μ b E h with hq
  have b1 : ∀ᵐ v ∂μ, |g v * h v| ≤ M * N := by
    filter_upwards [hM, hN] with v h1 h2
    rw [abs_mul]
    exact mul_le_mul h1 h2 (abs_nonneg _) ((abs_nonneg _).trans h1)
  have b2 : ∀ᵐ v ∂μ, |-q * g v| ≤ |-q| * M := by
    filter_upwards [hM] with v h1
    rw [abs_mul]
    gcongr
  have b3 : ∀ᵐ v ∂μ, |-p * h v| ≤ |-p| * N := by
    filter_upwards [hN] with v h1
    rw [abs_mul]
    gcongr
  have b4 : ∀ᵐ v ∂μ, |-p * h v + p * q| ≤ |-p| * N + |p * q| := by
    filter_upwards [b3] with v h1
    exact (abs_add_le _ _).trans (add_le_add h1 le_rfl)
  have b5 : ∀ᵐ v ∂μ, |-q * g v + (-p * h v + p * q)| ≤ |-q| * M + (|-p| * N + |p * q|) := by
    filter_upwards [b2, b4] with v h1 h2
    exact (abs_add_le _ _).trans (add_le_add h1 h2)
  have e3 := mean_add b mE hD (g := fun v => -p * h v) (h := fun _ => p * q) (mh.const_mul (-p)) (measurable_const (a := p * q)) b3 (.of_forall fun _ => le_rfl)
  have e2 := mean_add b mE hD (g := fun v => -q * g v) (h := fun v => -p * h v + p * q) (mg.const_mul (-q)) ((mh.const_mul (-p)).add measurable_const) b2 b4
  have e1 := mean_add b mE hD (g := fun v => g v * h v) (h := fun v => -q * g v + (-p * h v + p * q)) (mg.mul mh) ((mg.const_mul (-q)).add ((mh.const_mul (-p)).add measurable_const)) b1 b5
  have e0 : (fun v => (g v - p) * (h v - q)) = fun v => g v * h v + (-q * g v + (-p * h v + p * q)) := by
    funext v
    ring
  rw [e0, e1, e2, e3, mean_smul, mean_smul, mean_const b _ mE hD, ← hp, ← hq]
  unfold cov
  rw [← hp, ← hq]
  ring

theorem cov_self_nonneg (b : ℝ) (mE : Measurable E) (hD : ∀ᵐ v ∂μ, |E v| ≤ D) (mg : Measurable g) (hM : ∀ᵐ v ∂μ, |g v| ≤ M) :
    0 ≤ cov μ b E g g := by
  rw [cov_centre b mE hD mg mg hM hM]
  exact mean_nonneg b fun v => mul_self_nonneg _

theorem cov_self_pos (b : ℝ) (mE : Measurable E) (hD : ∀ᵐ v ∂μ, |E v| ≤ D) (mg : Measurable g) (hM : ∀ᵐ v ∂μ, |g v| ≤ M)
    (hne : ∀ k, ¬ ∀ᵐ v ∂μ, g v = k) : 0 < cov μ b E g g := by
  refine lt_of_le_of_ne (cov_self_nonneg b mE hD mg hM) fun h0 => ?_
  rw [cov_centre b mE hD mg mg hM hM] at h0
  set p := mean μ b E g
  have k1 : ∀ᵐ v ∂μ, |(g v - p) * (g v - p)| ≤ (M + |p|) * (M + |p|) := by
    filter_upwards [hM] with v h1
    have h2 : |g v - p| ≤ M + |p| := (abs_sub _ _).trans (add_le_add h1 le_rfl)
    rw [abs_mul]
    exact mul_le_mul h2 h2 (abs_nonneg _) ((abs_nonneg _).trans h2)
  have mm : Measurable fun v => (g v - p) * (g v - p) := (mg.sub_const p).mul (mg.sub_const p)
  have h1 := integrable_mul b mE hD mm k1
  unfold mean at h0
  have h2 : ∫ v, Real.exp (-(b * E v)) * ((g v - p) * (g v - p)) ∂μ = 0 := by
    rcases div_eq_zero_iff.1 h0.symm with h | h
    · exact h
    · exact absurd h (weight_pos b mE hD).ne'
  rw [integral_eq_zero_iff_of_nonneg (fun v => mul_nonneg (Real.exp_pos _).le (mul_self_nonneg _)) h1] at h2
  refine hne p ?_
  filter_upwards [h2] with v hv
  rcases mul_eq_zero.1 hv with h | h
  · exact absurd h (Real.exp_pos _).ne'
  · have := mul_self_eq_zero.1 h
    linarith

/-- correlations do not grow -/
theorem cov_decay (b : ℝ) (mE : Measurable E) (hD : ∀ᵐ v ∂μ, |E v| ≤ D) (mg : Measurable g) (hM : ∀ᵐ v ∂μ, |g v| ≤ M)
    (hΦ : MeasurePreserving Φ μ μ) (hE : ∀ v, E (Φ v) = E v) : |cov μ b E (fun v => g (Φ v)) g| ≤ cov μ b E g g := by
  have hM' : ∀ᵐ v ∂μ, |g (Φ v)| ≤ M := hΦ.quasiMeasurePreserving.ae hM
  have mΦ : Measurable fun v => g (Φ v) := mg.comp hΦ.measurable
  have e := mean_comp b mE mg hΦ hE
  rw [cov_centre b mE hD mΦ mg hM' hM, cov_centre b mE hD mg mg hM hM, e]
  set p := mean μ b E g
  have k1 : ∀ᵐ v ∂μ, |g v - p| ≤ M + |p| := by
    filter_upwards [hM] with v h1
    refine (abs_sub _ _).trans (add_le_add h1 le_rfl)
  have k2 : ∀ᵐ v ∂μ, |g (Φ v) - p| ≤ M + |p| := hΦ.quasiMeasurePreserving.ae k1
  have q : mean μ b E (fun v => (g (Φ v) - p) * (g (Φ v) - p)) = mean μ b E (fun v => (g v - p) * (g v - p)) :=
    mean_comp b mE ((mg.sub_const p).mul (mg.sub_const p)) hΦ hE
  have h1 := mean_sq b mE hD (mΦ.sub_const p) (mg.sub_const p) k2 k1 1
  have h2 := mean_sq b mE hD (mΦ.sub_const p) (mg.sub_const p) k2 k1 (-1)
  rw [q] at h1 h2
  rw [abs_le]
  constructor <;> linarith

/-- reciprocity: `R` undoes the map, up to `R` itself -/
theorem cov_recip (b : ℝ) (mE : Measurable E) (mg : Measurable g) (mh : Measurable h) (hΦ : MeasurePreserving Φ μ μ)
    (hE : ∀ v, E (Φ v) = E v) (hR : MeasurePreserving R μ μ) (hER : ∀ v, E (R v) = E v) (hinv : ∀ v, R (Φ (R (Φ v))) = v)
    (hg : ∀ v, g (R v) = -g v) (hh : ∀ v, h (R v) = -h v) :
    cov μ b E (fun v => g (Φ v)) h = cov μ b E (fun v => h (Φ v)) g := by
  unfold cov
  rw [mean_comp b mE mg hΦ hE, mean_comp b mE mh hΦ hE, mul_comm (mean μ b E g)]
  congr 1
  have h1 := mean_comp b mE (g := fun v => h (Φ v) * g v) ((mh.comp hΦ.measurable).mul mg) (hR.comp hΦ)
    (fun v => by rw [Function.comp_apply, hER, hE])
  rw [← h1]
  congr 1
  funext v
  have h2 := hh (Φ (R (Φ v)))
  rw [hinv] at h2
  rw [Function.comp_apply, hg]
  rw [h2]
  ring

end Verif.Response
