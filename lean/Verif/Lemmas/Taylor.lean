/-
Helper lemmas: second-order Taylor expansion of a smooth function, with a uniform bound of the remainder on
a ball.
-/
import Mathlib.Analysis.Calculus.MeanValue
import Mathlib.Analysis.Calculus.ContDiff.Basic
import Mathlib.Analysis.Calculus.FDeriv.Symmetric
import Mathlib.Analysis.Normed.Module.FiniteDimension

namespace Verif

section
variable {E : Type} [NormedAddCommGroup E] [NormedSpace ℝ E] [FiniteDimensional ℝ E]

theorem ball_bound {X : Type} [NormedAddCommGroup X] {g : E → X} (hg : Continuous g) (R : ℝ) :
    ∃ K, 0 ≤ K ∧ ∀ x, ‖x‖ ≤ R → ‖g x‖ ≤ K := by
  obtain ⟨K, hK⟩ := (isCompact_closedBall (0 : E) R).exists_bound_of_continuousOn hg.continuousOn
  refine ⟨max K 0, le_max_right _ _, fun x hx => (hK x ?_).trans (le_max_left _ _)⟩
  rwa [mem_closedBall_zero_iff]

theorem taylor1 {F : E → ℝ} (hF : ContDiff ℝ 2 F) (R : ℝ) : ∃ K, 0 ≤ K ∧ ∀ x y, ‖x‖ ≤ R → ‖y‖ ≤ R →
    |F y - F x - fderiv ℝ F x (y - x)| ≤ K * ‖y - x‖ ^ 2 := by
  have hG : ContDiff ℝ 1 (fderiv ℝ F) := hF.fderiv_right (by norm_num)
  obtain ⟨K, hK, hb⟩ := ball_bound (hG.continuous_fderiv (by norm_num)) R
  refine ⟨K, hK, fun x y0 hx hy0 => ?_⟩
  have cv : Convex ℝ (Metric.closedBall (0 : E) R ∩ Metric.closedBall x ‖y0 - x‖) :=
    (convex_closedBall _ _).inter (convex_closedBall _ _)
  have mx : x ∈ Metric.closedBall (0 : E) R ∩ Metric.closedBall x ‖y0 - x‖ :=
    ⟨by rwa [mem_closedBall_zero_iff], Metric.mem_closedBall_self (norm_nonneg _)⟩
  have my : y0 ∈ Metric.closedBall (0 : E) R ∩ Metric.closedBall x ‖y0 - x‖ :=
    ⟨by rwa [mem_closedBall_zero_iff], by rw [Metric.mem_closedBall, dist_eq_norm]⟩
  have lip : ∀ y ∈ Metric.closedBall (0 : E) R ∩ Metric.closedBall x ‖y0 - x‖,
      ‖fderiv ℝ F y - fderiv ℝ F x‖ ≤ K * ‖y0 - x‖ := by
    intro y hy
    have := Convex.norm_image_sub_le_of_norm_fderiv_le (s := Metric.closedBall (0 : E) R) (f := fderiv ℝ F) (C := K)
      (fun z _ => hG.differentiable (by norm_num) z) (fun z hz => hb z (by rwa [mem_closedBall_zero_iff] at hz))
      (convex_closedBall _ _) mx.1 hy.1
    refine this.trans (mul_le_mul_of_nonneg_left ?_ hK)
    have := hy.2
    rwa [Metric.mem_closedBall, dist_eq_norm] at this
  have hd : ∀ y ∈ Metric.closedBall (0 : E) R ∩ Metric.closedBall x ‖y0 - x‖,
      HasFDerivWithinAt (fun y => F y - fderiv ℝ F x (y - x)) (fderiv ℝ F y - fderiv ℝ F x)
        (Metric.closedBall (0 : E) R ∩ Metric.closedBall x ‖y0 - x‖) y := by
    intro y _
    have h1 := (hF.differentiable (by norm_num) y).hasFDerivAt
    have h2 := (fderiv ℝ F x).hasFDerivAt.comp y ((hasFDerivAt_id (𝕜 := ℝ) y).sub_const x)
    exact (h1.sub h2).hasFDerivWithinAt
  have := cv.norm_image_sub_le_of_norm_hasFDerivWithin_le hd lip mx my
  simp only [sub_self, map_zero, sub_zero, Real.norm_eq_abs] at this
  rw [show F y0 - F x - fderiv ℝ F x (y0 - x) = F y0 - fderiv ℝ F x (y0 - x) - F x by ring]
  refine this.trans (le_of_eq (by ring))

theorem taylor2 {F : E → ℝ} (hF : ContDiff ℝ 3 F) (R : ℝ) : ∃ K, 0 ≤ K ∧ ∀ x y, ‖x‖ ≤ R → ‖y‖ ≤ R →
    |F y - F x - fderiv ℝ F x (y - x) - fderiv ℝ (fderiv ℝ F) x (y - x) (y - x) / 2| ≤ K * ‖y - x‖ ^ 3 := by
  have hG : ContDiff ℝ 2 (fderiv ℝ F) := hF.fderiv_right (by norm_num)
  have hH : ContDiff ℝ 1 (fderiv ℝ (fderiv ℝ F)) := hG.fderiv_right (by norm_num)
  obtain ⟨K, hK, hb⟩ := ball_bound (hH.continuous_fderiv (by norm_num)) R
  refine ⟨K, hK, fun x y0 hx hy0 => ?_⟩
  obtain ⟨s, hs⟩ : ∃ s, s = Metric.closedBall (0 : E) R ∩ Metric.closedBall x ‖y0 - x‖ := ⟨_, rfl⟩
  have cv : Convex ℝ s := by rw [hs]; exact (convex_closedBall _ _).inter (convex_closedBall _ _)
  have mx : x ∈ s := by
    rw [hs]; exact ⟨by rwa [mem_closedBall_zero_iff], Metric.mem_closedBall_self (norm_nonneg _)⟩
  have my : y0 ∈ s := by
    rw [hs]; exact ⟨by rwa [mem_closedBall_zero_iff], by rw [Metric.mem_closedBall, dist_eq_norm]⟩
  have near : ∀ y ∈ s, ‖y - x‖ ≤ ‖y0 - x‖ := by
    intro y hy
    rw [hs] at hy
    have := hy.2
    rwa [Metric.mem_closedBall, dist_eq_norm] at this
  have lip : ∀ y ∈ s, ‖fderiv ℝ (fderiv ℝ F) y - fderiv ℝ (fderiv ℝ F) x‖ ≤ K * ‖y0 - x‖ := by
    intro y hy
    have hy' := hy
    rw [hs] at hy'
    have := Convex.norm_image_sub_le_of_norm_fderiv_le (s := Metric.closedBall (0 : E) R)
      (f := fderiv ℝ (fderiv ℝ F)) (C := K)
      (fun z _ => hH.differentiable (by norm_num) z) (fun z hz => hb z (by rwa [mem_closedBall_zero_iff] at hz))
      (convex_closedBall _ _) ((mem_closedBall_zero_iff).2 hx) hy'.1
    exact this.trans (mul_le_mul_of_nonneg_left (near y hy) hK)
  have step1 : ∀ y ∈ s, ‖fderiv ℝ F y - fderiv ℝ F x - fderiv ℝ (fderiv ℝ F) x (y - x)‖ ≤ K * ‖y0 - x‖ ^ 2 := by
    intro y hy
    have hd : ∀ y ∈ s, HasFDerivWithinAt (fun y => fderiv ℝ F y - fderiv ℝ (fderiv ℝ F) x (y - x))
        (fderiv ℝ (fderiv ℝ F) y - fderiv ℝ (fderiv ℝ F) x) s y := by
      intro y _
      have h1 := (hG.differentiable (by norm_num) y).hasFDerivAt
      have h2 := (fderiv ℝ (fderiv ℝ F) x).hasFDerivAt.comp y ((hasFDerivAt_id (𝕜 := ℝ) y).sub_const x)
      exact (h1.sub h2).hasFDerivWithinAt
    have := cv.norm_image_sub_le_of_norm_hasFDerivWithin_le hd lip mx hy
    simp only [sub_self, map_zero, sub_zero] at this
    rw [show fderiv ℝ F y - fderiv ℝ F x - fderiv ℝ (fderiv ℝ F) x (y - x)
      = fderiv ℝ F y - fderiv ℝ (fderiv ℝ F) x (y - x) - fderiv ℝ F x by abel]
    refine this.trans ?_
    rw [pow_two, ← mul_assoc]
    exact mul_le_mul_of_nonneg_left (near y hy) (by positivity)
  have sym : ∀ v w, fderiv ℝ (fderiv ℝ F) x v w = fderiv ℝ (fderiv ℝ F) x w v := by
    intro v w
    exact (hF.contDiffAt.isSymmSndFDerivAt (by simp; norm_num)).eq v w
  have hd : ∀ y ∈ s, HasFDerivWithinAt
      (fun y => F y - fderiv ℝ F x (y - x) - fderiv ℝ (fderiv ℝ F) x (y - x) (y - x) / 2)
      (fderiv ℝ F y - fderiv ℝ F x - fderiv ℝ (fderiv ℝ F) x (y - x)) s y := by
    intro y _
    have h1 := (hF.differentiable (by norm_num) y).hasFDerivAt
    have h2 := (fderiv ℝ F x).hasFDerivAt.comp y ((hasFDerivAt_id (𝕜 := ℝ) y).sub_const x)
    have h3 := (fderiv ℝ (fderiv ℝ F) x).hasFDerivAt.comp y ((hasFDerivAt_id (𝕜 := ℝ) y).sub_const x)
    have h4 := (h3.clm_apply ((hasFDerivAt_id (𝕜 := ℝ) y).sub_const x)).const_mul (1 / 2)
    refine HasFDerivAt.hasFDerivWithinAt (((h1.sub h2).sub h4).congr_fderiv ?_ |>.congr_of_eventuallyEq ?_)
    · ext v
      simp [sym]
      ring
    · filter_upwards with y
      simp
      ring
  have := cv.norm_image_sub_le_of_norm_hasFDerivWithin_le hd step1 mx my
  simp only [sub_self, map_zero, sub_zero, zero_div, Real.norm_eq_abs] at this
  rw [show F y0 - F x - fderiv ℝ F x (y0 - x) - fderiv ℝ (fderiv ℝ F) x (y0 - x) (y0 - x) / 2
    = F y0 - fderiv ℝ F x (y0 - x) - fderiv ℝ (fderiv ℝ F) x (y0 - x) (y0 - x) / 2 - F x by ring]
  refine this.trans (le_of_eq (by ring))

end

end Verif
