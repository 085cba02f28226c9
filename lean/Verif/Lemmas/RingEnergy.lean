/-
Helper lemmas: the transfer operator of the clean Heisenberg ring, its contraction, and the thermal energy of
long rings.
-/
import Verif.Lemmas.InitLaw
import Verif.Lemmas.Thermal
import Mathlib.Analysis.Calculus.ParametricIntegral

namespace Verif.Transfer

set_option linter.unusedSectionVars false

open Spec MeasureTheory Function Markov

/-! ### turns in a plane -/

/-- the turn of the plane of the orthonormal `d` and `p` with cosine `c` and sine `s` -/
noncomputable def planeTurn (d p : V3 ℝ) (c s : ℝ) (x : V3 ℝ) : V3 ℝ :=
  add x (add (smul ((c - 1) * dot d x - s * dot p x) d) (smul (s * dot d x + (c - 1) * dot p x) p))

section
variable {d p : V3 ℝ} (hd : dot d d = 1) (hp : dot p p = 1) (h : dot d p = 0) {c s : ℝ} (hcs : c * c + s * s = 1)
include hd hp h

theorem planeTurn_d (x : V3 ℝ) : dot d (planeTurn d p c s x) = c * dot d x - s * dot p x := by
  have : dot d (planeTurn d p c s x) = dot d x + (((c - 1) * dot d x - s * dot p x) * dot d d
      + (s * dot d x + (c - 1) * dot p x) * dot d p) := by
    simp only [planeTurn, dot, add, smul]; ring
  rw [this, hd, h]; ring

theorem planeTurn_p (x : V3 ℝ) : dot p (planeTurn d p c s x) = s * dot d x + c * dot p x := by
  have : dot p (planeTurn d p c s x) = dot p x + (((c - 1) * dot d x - s * dot p x) * dot d p
      + (s * dot d x + (c - 1) * dot p x) * dot p p) := by
    simp only [planeTurn, dot, add, smul]; ring
  rw [this, hp, h]; ring

include hcs

theorem planeTurn_orthogonal : Orthogonal (planeTurn d p c s) := by
  refine ⟨fun x y => ?_, fun r x => ?_, fun x => ?_⟩
  · ext <;> simp only [planeTurn, dot, add, smul] <;> ring
  · ext <;> simp only [planeTurn, dot, add, smul] <;> ring
  · unfold len
    congr 1
    have : dot (planeTurn d p c s x) (planeTurn d p c s x) = dot x x
        + 2 * ((c - 1) * dot d x - s * dot p x) * dot d x + 2 * (s * dot d x + (c - 1) * dot p x) * dot p x
        + ((c - 1) * dot d x - s * dot p x) ^ 2 * dot d d + (s * dot d x + (c - 1) * dot p x) ^ 2 * dot p p
        + 2 * ((c - 1) * dot d x - s * dot p x) * (s * dot d x + (c - 1) * dot p x) * dot d p := by
      simp only [planeTurn, dot, add, smul]; ring
    rw [this, hd, hp, h]
    linear_combination (dot d x ^ 2 + dot p x ^ 2) * hcs

theorem planeTurn_dist (x : V3 ℝ) : dot (sub x (planeTurn d p c s x)) (sub x (planeTurn d p c s x))
    = 2 * (1 - c) * (dot d x ^ 2 + dot p x ^ 2) := by
  have : dot (sub x (planeTurn d p c s x)) (sub x (planeTurn d p c s x)) =
        ((c - 1) * dot d x - s * dot p x) ^ 2 * dot d d + (s * dot d x + (c - 1) * dot p x) ^ 2 * dot p p
        + 2 * ((c - 1) * dot d x - s * dot p x) * (s * dot d x + (c - 1) * dot p x) * dot d p := by
      simp only [planeTurn, dot, add, smul, sub]; ring
  rw [this, hd, hp, h]
  linear_combination (dot d x ^ 2 + dot p x ^ 2) * hcs

end

/-- two unit vectors lie in a plane -/
theorem exists_plane {d e : V3 ℝ} (hd : dot d d = 1) (he : dot e e = 1) :
    ∃ p c s, dot p p = 1 ∧ dot d p = 0 ∧ c * c + s * s = 1 ∧ e = add (smul c d) (smul s p) := by
  set q := sub e (smul (dot d e) d) with hq
  have hdq : dot d q = 0 := by
    have : dot d q = dot d e - dot d e * dot d d := by simp only [hq, dot, sub, smul]; ring
    rw [this, hd]; ring
  have hqq : dot q q = 1 - dot d e * dot d e := by
    have : dot q q = dot e e - 2 * dot d e * dot d e + dot d e * dot d e * dot d d := by
      simp only [hq, dot, sub, smul]; ring
    rw [this, hd, he]; ring
  by_cases hz : q = zero
  · obtain ⟨p, hp, hdp⟩ := exists_perp hd
    refine ⟨p, dot d e, 0, hp, hdp, ?_, ?_⟩
    · have : dot q q = 0 := by rw [hz]; simp [dot, zero]
      rw [hqq] at this
      linarith
    · have e1 : e = add q (smul (dot d e) d) := by ext <;> simp only [hq, add, sub, smul] <;> ring
      conv_lhs => rw [e1, hz]
      ext <;> simp only [add, smul, zero] <;> ring
  · have hl := len_pos hz
    have hl2 := len_sq q
    refine ⟨smul (1 / len q) q, dot d e, len q, ?_, ?_, ?_, ?_⟩
    · have : dot (smul (1 / len q) q) (smul (1 / len q) q) = 1 / len q * (1 / len q) * dot q q := by
        simp only [dot, smul]; ring
      rw [this, ← hl2]
      field_simp
    · have : dot d (smul (1 / len q) q) = 1 / len q * dot d q := by simp only [dot, smul]; ring
      rw [this, hdq, mul_zero]
    · rw [hl2, hqq]; ring
    · have : smul (len q) (smul (1 / len q) q) = q := by
        ext <;> simp only [smul] <;> field_simp
      rw [this]
      ext <;> simp only [hq, add, sub, smul] <;> ring

/-! ### the kernel -/

/-- normalised weight of a bond -/
noncomputable def kern (b : ℝ) (d x : V3 ℝ) : ℝ := b / Real.sinh b * Real.exp (b * dot d x)

theorem kern_comm (b : ℝ) (d x : V3 ℝ) : kern b d x = kern b x d := by
  unfold kern; rw [dot_comm]

theorem meas_kern {α : Type} [MeasurableSpace α] {f g : α → V3 ℝ} (b : ℝ) (hf : Measurable f) (hg : Measurable g) :
    Measurable fun a => kern b (f a) (g a) :=
  ((meas_dot hf hg).const_mul b).exp.const_mul _

theorem unit_sq {x : V3 ℝ} (h : x ∈ Sph) : dot x x = 1 := by
  have : len x = 1 := h
  rw [← len_sq, this, one_mul]

theorem sq_unit {x : V3 ℝ} (h : dot x x = 1) : x ∈ Sph := by
  show len x = 1
  rw [len, h, Real.sqrt_one]

theorem dot_le_one {a x : V3 ℝ} (ha : dot a a = 1) (hx : dot x x = 1) : |dot a x| ≤ 1 := by
  have := abs_dot_le (a := a) hx
  rwa [len, ha, Real.sqrt_one] at this

section
variable {b : ℝ} (hb : 0 < b)
include hb

theorem norm_pos : 0 < b / Real.sinh b := div_pos hb (Real.sinh_pos_iff.2 hb)

theorem kern_pos (d x : V3 ℝ) : 0 < kern b d x := mul_pos (norm_pos hb) (Real.exp_pos _)

theorem kern_le {d x : V3 ℝ} (hd : dot d d = 1) (hx : dot x x = 1) : kern b d x ≤ b / Real.sinh b * Real.exp b := by
  refine mul_le_mul_of_nonneg_left (Real.exp_le_exp.2 ?_) (norm_pos hb).le
  have := (abs_le.1 (dot_le_one hd hx)).2
  nlinarith

/-- integrals against the kernel are means over the draws -/
theorem kern_int {d : V3 ℝ} (hd : dot d d = 1) {f : V3 ℝ → ℝ} (hf : Measurable f) {M : ℝ}
    (hM : ∀ x, dot x x = 1 → |f x| ≤ M) : Integrable (fun x => kern b d x * f x) sphereMeasure := by
  refine Integrable.of_bound ((meas_kern b measurable_const measurable_id).mul hf).aestronglyMeasurable
    (b / Real.sinh b * Real.exp b * M) ?_
  filter_upwards [sphere_ae] with x hx
  have hx := unit_sq hx
  rw [Real.norm_eq_abs, abs_mul, abs_of_pos (kern_pos hb d x)]
  exact mul_le_mul (kern_le hb hd hx) (hM x hx) (abs_nonneg _) ((kern_pos hb d x).le.trans (kern_le hb hd hx))

theorem hop_integral {d : V3 ℝ} (hd : dot d d = 1) {f : V3 ℝ → ℝ} (hf : Measurable f) {M : ℝ}
    (hM : ∀ x, dot x x = 1 → |f x| ≤ M) :
    ∫ t, f (hop b d t) ∂tripleMeasure = ∫ x, kern b d x * f x ∂sphereMeasure := by
  have i1 : Integrable (fun t => f (hop b d t)) tripleMeasure := by
    refine Integrable.of_bound (hf.comp (meas_hop' b d)).aestronglyMeasurable M ?_
    filter_upwards [hop_unit hb.ne' hd] with t ht
    exact hM _ ht
  have key : ∀ g : V3 ℝ → ℝ, Measurable g → ∫⁻ t, ENNReal.ofReal (g (hop b d t)) ∂tripleMeasure
      = ∫⁻ x, ENNReal.ofReal (kern b d x * g x) ∂sphereMeasure := by
    intro g hg
    rw [hop_law hb.ne' hd hg.ennreal_ofReal]
    refine lintegral_congr fun x => ?_
    rw [ENNReal.ofReal_mul (kern_pos hb d x).le]
    rfl
  rw [integral_eq_lintegral_pos_part_sub_lintegral_neg_part i1,
    integral_eq_lintegral_pos_part_sub_lintegral_neg_part (kern_int hb hd hf hM), key f hf]
  have := key (fun x => -f x) hf.neg
  simp only [mul_neg] at this
  rw [this]

theorem kern_one {d : V3 ℝ} (hd : dot d d = 1) : ∫ x, kern b d x ∂sphereMeasure = 1 := by
  have := hop_integral hb hd (f := fun _ => 1) measurable_const (M := 1) (by simp)
  simpa using this.symm

theorem kern_mean {d : V3 ℝ} (hd : dot d d = 1) (a : V3 ℝ) :
    ∫ x, kern b d x * dot a x ∂sphereMeasure = lang b * dot a d := by
  have := hop_integral hb hd (f := fun x => dot a x) (meas_dot measurable_const measurable_id) (M := len a)
    fun x hx => abs_dot_le hx
  rw [← this]
  exact hop_mean hb.ne' hd a

/-- the second moment of a component normal to the previous spin -/
theorem kern_perp {d p : V3 ℝ} (hd : dot d d = 1) (hp : dot p p = 1) (h : dot d p = 0) :
    ∫ x, kern b d x * dot p x ^ 2 ∂sphereMeasure = lang b / b := by
  set N := b / Real.sinh b with hN
  have N0 : 0 < N := norm_pos hb
  have md : Measurable fun x : V3 ℝ => dot d x := meas_dot measurable_const measurable_id
  have mp : Measurable fun x : V3 ℝ => dot p x := meas_dot measurable_const measurable_id
  let F : ℝ → V3 ℝ → ℝ := fun t x => N * Real.exp (b * (Real.cos t * dot d x - Real.sin t * dot p x))
    * (Real.sin t * dot d x + Real.cos t * dot p x)
  let F' : ℝ → V3 ℝ → ℝ := fun t x => N * (Real.exp (b * (Real.cos t * dot d x - Real.sin t * dot p x))
    * (b * (-Real.sin t * dot d x - Real.cos t * dot p x))) * (Real.sin t * dot d x + Real.cos t * dot p x)
    + N * Real.exp (b * (Real.cos t * dot d x - Real.sin t * dot p x)) * (Real.cos t * dot d x + -Real.sin t * dot p x)
  have mF : ∀ t, Measurable (F t) := fun t =>
    ((((md.const_mul _).sub (mp.const_mul _)).const_mul b).exp.const_mul N).mul ((md.const_mul _).add (mp.const_mul _))
  have mF' : ∀ t, Measurable (F' t) := fun t =>
    (((((md.const_mul _).sub (mp.const_mul _)).const_mul b).exp.mul
      (((md.const_mul _).sub (mp.const_mul _)).const_mul b)).const_mul N).mul ((md.const_mul _).add (mp.const_mul _)) |>.add
    (((((md.const_mul _).sub (mp.const_mul _)).const_mul b).exp.const_mul N).mul ((md.const_mul _).add (mp.const_mul _)))
  have hder : ∀ x t, HasDerivAt (fun t => F t x) (F' t x) t := by
    intro x t
    have c1 := (Real.hasDerivAt_cos t).mul_const (dot d x)
    have s1 := (Real.hasDerivAt_sin t).mul_const (dot p x)
    have c2 := (Real.hasDerivAt_cos t).mul_const (dot p x)
    have s2 := (Real.hasDerivAt_sin t).mul_const (dot d x)
    exact (((c1.sub s1).const_mul b).exp.const_mul N).mul (s2.add c2)
  have lin : ∀ (x : V3 ℝ), dot x x = 1 → ∀ a e : ℝ, |a| ≤ 1 → |e| ≤ 1 → |a * dot d x| ≤ 1 ∧ |e * dot p x| ≤ 1 := by
    intro x hx a e ha he
    have h1 := dot_le_one hd hx
    have h2 := dot_le_one hp hx
    rw [abs_mul, abs_mul]
    exact ⟨by nlinarith [abs_nonneg a, abs_nonneg (dot d x)], by nlinarith [abs_nonneg e, abs_nonneg (dot p x)]⟩
  have bexp : ∀ (x : V3 ℝ), dot x x = 1 → ∀ t,
      Real.exp (b * (Real.cos t * dot d x - Real.sin t * dot p x)) ≤ Real.exp (2 * b) := by
    intro x hx t
    obtain ⟨h1, h2⟩ := lin x hx _ _ (Real.abs_cos_le_one t) (Real.abs_sin_le_one t)
    refine Real.exp_le_exp.2 ?_
    have := abs_le.1 h1
    have := abs_le.1 h2
    nlinarith
  have hd0 := hasDerivAt_integral_of_dominated_loc_of_deriv_le (μ := sphereMeasure) (F := F) (x₀ := (0 : ℝ))
    (s := Set.univ) (bound := fun _ => N * (Real.exp (2 * b) * (b * 2)) * 2 + N * Real.exp (2 * b) * 2) (F' := F')
    Filter.univ_mem (Filter.Eventually.of_forall fun t => (mF t).aestronglyMeasurable)
    (by
      refine Integrable.of_bound (mF 0).aestronglyMeasurable (N * Real.exp (2 * b) * 2) ?_
      filter_upwards [sphere_ae] with x hx
      have hx := unit_sq hx
      obtain ⟨h1, h2⟩ := lin x hx _ _ (Real.abs_sin_le_one 0) (Real.abs_cos_le_one 0)
      rw [Real.norm_eq_abs, abs_mul, abs_mul, abs_of_pos N0, Real.abs_exp]
      refine mul_le_mul (mul_le_mul_of_nonneg_left (bexp x hx 0) N0.le) ?_ (abs_nonneg _) (by positivity)
      exact (abs_add_le _ _).trans (by linarith))
    (mF' 0).aestronglyMeasurable
    (by
      filter_upwards [sphere_ae] with x hx t _
      have hx := unit_sq hx
      obtain ⟨h1, h2⟩ := lin x hx _ _ (Real.abs_sin_le_one t) (Real.abs_cos_le_one t)
      obtain ⟨h3, h4⟩ := lin x hx _ _ (Real.abs_cos_le_one t) (Real.abs_sin_le_one t)
      have e := bexp x hx t
      have h5 : |-Real.sin t * dot d x - Real.cos t * dot p x| ≤ 2 := by
        rw [neg_mul]
        exact (abs_sub _ _).trans (by rw [abs_neg]; linarith)
      have h6 : |Real.cos t * dot d x + -Real.sin t * dot p x| ≤ 2 := by
        rw [neg_mul]
        exact (abs_add_le _ _).trans (by rw [abs_neg]; linarith)
      have h7 : |Real.sin t * dot d x + Real.cos t * dot p x| ≤ 2 := (abs_add_le _ _).trans (by linarith)
      rw [Real.norm_eq_abs]
      refine (abs_add_le _ _).trans (add_le_add ?_ ?_)
      · rw [abs_mul, abs_mul, abs_mul, abs_mul, abs_of_pos N0, Real.abs_exp, abs_of_pos hb]
        gcongr
      · rw [abs_mul, abs_mul, abs_of_pos N0, Real.abs_exp]
        gcongr)
    (integrable_const _) (Filter.Eventually.of_forall fun x t _ => hder x t)
  have hc : (fun t => ∫ x, F t x ∂sphereMeasure) = fun _ => ∫ x, kern b d x * dot p x ∂sphereMeasure := by
    funext t
    have ho := planeTurn_orthogonal hd hp h (c := Real.cos t) (s := Real.sin t)
      (by have := Real.sin_sq_add_cos_sq t; nlinarith)
    have hm : Measurable fun x => kern b d x * dot p x := (meas_kern b measurable_const measurable_id).mul mp
    have mpr : MeasurePreserving (planeTurn d p (Real.cos t) (Real.sin t)) sphereMeasure sphereMeasure :=
      ⟨ho.measurable, Measure.ext_of_lintegral _ fun f hf => by
        rw [lintegral_map hf ho.measurable, sphere_invariant ho hf]⟩
    have := integral_map (μ := sphereMeasure) mpr.measurable.aemeasurable (f := fun x => kern b d x * dot p x)
      hm.aestronglyMeasurable
    rw [mpr.map_eq] at this
    rw [this]
    refine integral_congr_ae (Filter.Eventually.of_forall fun x => ?_)
    simp only [F, kern, planeTurn_d hd hp h, planeTurn_p hd hp h]
    rfl
  have h2 := hd0.2
  rw [hc] at h2
  have h3 := h2.unique (hasDerivAt_const (0 : ℝ) _)
  have h4 : ∀ x, F' 0 x = kern b d x * dot d x - b * (kern b d x * dot p x ^ 2) := by
    intro x
    simp only [F', kern, Real.cos_zero, Real.sin_zero, ← hN, zero_mul, one_mul, sub_zero, neg_zero]
    ring
  simp only [h4] at h3
  have i1 := kern_int hb hd (f := fun x => dot d x) md (M := 1) fun x hx => dot_le_one hd hx
  have i2 := kern_int hb hd (f := fun x => dot p x ^ 2) (mp.pow_const 2) (M := 1) fun x hx => by
    rw [abs_pow]
    exact pow_le_one₀ (abs_nonneg _) (dot_le_one hp hx)
  rw [integral_sub i1 (i2.const_mul b), integral_const_mul, kern_mean hb hd, hd, mul_one] at h3
  rw [eq_div_iff hb.ne']
  linarith

omit hb in
theorem frame_sq {d p : V3 ℝ} (hd : dot d d = 1) (hp : dot p p = 1) (h : dot d p = 0) (x : V3 ℝ) :
    dot d x ^ 2 + dot p x ^ 2 + dot (cross d p) x ^ 2 = dot x x := by
  have : dot (cross d p) x ^ 2 = dot d d * dot p p * dot x x + 2 * dot d p * dot p x * dot d x
      - dot d d * dot p x ^ 2 - dot p p * dot d x ^ 2 - dot x x * dot d p ^ 2 := by
    simp only [dot, cross]; ring
  rw [this, hd, hp, h]; ring

/-- the rate of the contraction, squared -/
theorem plane_mean {d p : V3 ℝ} (hd : dot d d = 1) (hp : dot p p = 1) (h : dot d p = 0) :
    ∫ x, kern b d x * (dot d x ^ 2 + dot p x ^ 2) ∂sphereMeasure = 1 - lang b / b := by
  have hc : dot (cross d p) (cross d p) = 1 := by rw [lagrange, hp, hd, h]; norm_num
  have hdc : dot d (cross d p) = 0 := by rw [dot_comm]; exact cross_dot_left d p
  have i1 : Integrable (fun x => kern b d x) sphereMeasure := by
    simpa using kern_int hb hd (f := fun _ => 1) measurable_const (M := 1) (by simp)
  have i2 := kern_int hb hd (f := fun x => dot (cross d p) x ^ 2)
    ((meas_dot measurable_const measurable_id).pow_const 2) (M := 1) fun x hx => by
      rw [abs_pow]
      exact pow_le_one₀ (abs_nonneg _) (dot_le_one hc hx)
  have e : ∫ x, kern b d x * (dot d x ^ 2 + dot p x ^ 2) ∂sphereMeasure
      = ∫ x, (kern b d x - kern b d x * dot (cross d p) x ^ 2) ∂sphereMeasure := by
    refine integral_congr_ae ?_
    filter_upwards [sphere_ae] with x hx
    have := frame_sq hd hp h x
    rw [unit_sq hx] at this
    linear_combination kern b d x * this
  rw [e, integral_sub i1 i2, kern_one hb hd, kern_perp hb hd hc hdc]

theorem lang_le_half : lang b / b ≤ 1 / 2 := by
  have hd : dot (⟨1, 0, 0⟩ : V3 ℝ) ⟨1, 0, 0⟩ = 1 := by simp [dot]
  have hp : dot (⟨0, 1, 0⟩ : V3 ℝ) ⟨0, 1, 0⟩ = 1 := by simp [dot]
  have h : dot (⟨1, 0, 0⟩ : V3 ℝ) ⟨0, 1, 0⟩ = 0 := by simp [dot]
  have e := plane_mean hb hd hp h
  rw [← kern_perp hb hd hp h] at e ⊢
  have i1 := kern_int hb hd (f := fun x => dot (⟨0, 1, 0⟩ : V3 ℝ) x ^ 2)
    ((meas_dot measurable_const measurable_id).pow_const 2) (M := 1) fun x hx => by
      rw [abs_pow]
      exact pow_le_one₀ (abs_nonneg _) (dot_le_one hp hx)
  have i2 := kern_int hb hd (f := fun x => dot (⟨1, 0, 0⟩ : V3 ℝ) x ^ 2 + dot (⟨0, 1, 0⟩ : V3 ℝ) x ^ 2)
    (((meas_dot measurable_const measurable_id).pow_const 2).add
      ((meas_dot measurable_const measurable_id).pow_const 2)) (M := 2) fun x hx => by
      have h1 := pow_le_one₀ (n := 2) (abs_nonneg _) (dot_le_one hd hx)
      have h2 := pow_le_one₀ (n := 2) (abs_nonneg _) (dot_le_one hp hx)
      rw [sq_abs] at h1 h2
      rw [abs_of_nonneg (by positivity)]
      linarith
  have := integral_mono i1 i2 fun x => mul_le_mul_of_nonneg_left
    (by nlinarith [sq_nonneg (dot (⟨1, 0, 0⟩ : V3 ℝ) x)]) (kern_pos hb _ x).le
  linarith

theorem lang_pos : 0 < lang b := by
  have h : StrictMonoOn (fun x : ℝ => x * Real.cosh x - Real.sinh x) (Set.Ici 0) := by
    refine strictMonoOn_of_deriv_pos (convex_Ici 0) (by fun_prop) fun x hx => ?_
    rw [interior_Ici] at hx
    have h1 : HasDerivAt (fun x : ℝ => x * Real.cosh x - Real.sinh x) (1 * Real.cosh x + x * Real.sinh x - Real.cosh x) x :=
      ((hasDerivAt_id x).mul (Real.hasDerivAt_cosh x)).sub (Real.hasDerivAt_sinh x)
    rw [h1.deriv]
    have := mul_pos (show 0 < x from hx) (Real.sinh_pos_iff.2 hx)
    linarith
  have h2 := h (Set.mem_Ici.2 le_rfl) (Set.mem_Ici.2 hb.le) hb
  simp only [zero_mul, Real.sinh_zero, sub_zero] at h2
  have hs := Real.sinh_pos_iff.2 hb
  have : lang b = (b * Real.cosh b - Real.sinh b) / (b * Real.sinh b) := by
    unfold lang
    field_simp
  rw [this]
  positivity

theorem lang_le_one : lang b ≤ 1 := by
  have hd : dot (⟨1, 0, 0⟩ : V3 ℝ) ⟨1, 0, 0⟩ = 1 := by simp [dot]
  have e := kern_mean hb hd ⟨1, 0, 0⟩
  rw [hd, mul_one] at e
  rw [← e]
  refine le_of_le_of_eq ?_ (kern_one hb hd)
  have i1 := kern_int hb hd (f := fun x => dot (⟨1, 0, 0⟩ : V3 ℝ) x) (meas_dot measurable_const measurable_id) (M := 1)
    fun x hx => dot_le_one hd hx
  have i4 : Integrable (fun x => kern b ⟨1, 0, 0⟩ x) sphereMeasure := by
    simpa using kern_int hb hd (f := fun _ => 1) measurable_const (M := 1) (by simp)
  refine integral_mono_ae i1 i4 (sphere_ae.mono fun x hx => ?_)
  have := (abs_le.1 (dot_le_one hd (unit_sq hx))).2
  have h2 := kern_pos hb ⟨1, 0, 0⟩ x
  dsimp only
  nlinarith

/-- the rate of the contraction -/
noncomputable def rate (b : ℝ) : ℝ := Real.sqrt (1 - lang b / b)

theorem rate_sq : rate b * rate b = 1 - lang b / b := Real.mul_self_sqrt (by linarith [lang_le_half hb])

theorem rate_pos : 0 < rate b := Real.sqrt_pos.2 (by linarith [lang_le_half hb])

theorem rate_lt_one : rate b < 1 := by
  have := div_pos (lang_pos hb) hb
  rw [rate, Real.sqrt_lt' one_pos]
  linarith

/-! ### the transfer operator -/

/-- the mean of `f` at the next site -/
noncomputable def T (b : ℝ) (f : V3 ℝ → ℝ) (d : V3 ℝ) : ℝ := ∫ x, kern b d x * f x ∂sphereMeasure

/-- bounded by `M` and Lipschitz with constant `K` on the unit sphere -/
structure Lip (f : V3 ℝ → ℝ) (K M : ℝ) : Prop where
  meas : Measurable f
  bound : ∀ x, dot x x = 1 → |f x| ≤ M
  lip : ∀ x y, dot x x = 1 → dot y y = 1 → |f x - f y| ≤ K * len (sub x y)

omit hb in
theorem meas_T {f : V3 ℝ → ℝ} (hf : Measurable f) : Measurable (T b f) := by
  have h : Measurable fun q : V3 ℝ × V3 ℝ => kern b q.1 q.2 * f q.2 :=
    (meas_kern b measurable_fst measurable_snd).mul (hf.comp measurable_snd)
  exact (h.stronglyMeasurable.integral_prod_right (ν := sphereMeasure)).measurable

theorem T_bound {f : V3 ℝ → ℝ} {M : ℝ} (hM : ∀ x, dot x x = 1 → |f x| ≤ M) {d : V3 ℝ}
    (hd : dot d d = 1) : |T b f d| ≤ M := by
  unfold T
  have i1 : Integrable (fun x => kern b d x * M) sphereMeasure := by
    simpa using kern_int hb hd (f := fun _ => M) measurable_const (M := |M|) fun _ _ => le_rfl
  rw [← Real.norm_eq_abs]
  refine (norm_integral_le_of_norm_le i1 (sphere_ae.mono fun x hx => ?_)).trans ?_
  · rw [Real.norm_eq_abs, abs_mul, abs_of_pos (kern_pos hb d x)]
    exact mul_le_mul_of_nonneg_left (hM x (unit_sq hx)) (kern_pos hb d x).le
  · rw [integral_mul_const, kern_one hb hd, one_mul]

theorem T_lip {f : V3 ℝ → ℝ} {K M : ℝ} (hK : 0 ≤ K) (hf : Lip f K M) {d e : V3 ℝ} (hd : dot d d = 1)
    (he : dot e e = 1) : |T b f d - T b f e| ≤ rate b * K * len (sub d e) := by
  obtain ⟨p, c, s, hp, hdp, hcs, hE⟩ := exists_plane hd he
  set O := planeTurn d p c s with hO
  have ho : Orthogonal O := planeTurn_orthogonal hd hp hdp hcs
  have hOd : O d = e := by
    have h1 : dot p d = 0 := by rw [dot_comm]; exact hdp
    rw [hE, hO]
    unfold planeTurn
    rw [hd, h1]
    ext <;> simp only [add, smul] <;> ring
  have hu : ∀ x, dot x x = 1 → dot (O x) (O x) = 1 := fun x hx => by rw [ho.sq, hx]
  have mpr : MeasurePreserving O sphereMeasure sphereMeasure :=
    ⟨ho.measurable, Measure.ext_of_lintegral _ fun f hf => by
      rw [lintegral_map hf ho.measurable, sphere_invariant ho hf]⟩
  have e1 : T b f e = ∫ x, kern b d x * f (O x) ∂sphereMeasure := by
    have hm : Measurable fun x => kern b e x * f x := (meas_kern b measurable_const measurable_id).mul hf.meas
    have := integral_map (μ := sphereMeasure) mpr.measurable.aemeasurable (f := fun x => kern b e x * f x)
      hm.aestronglyMeasurable
    rw [mpr.map_eq] at this
    unfold T
    rw [this]
    refine integral_congr_ae (Filter.Eventually.of_forall fun x => ?_)
    show kern b e (O x) * f (O x) = _
    congr 1
    unfold kern
    rw [← hOd, ho.dot]
  have i1 := kern_int hb hd hf.meas hf.bound
  have i2 := kern_int hb hd (f := fun x => f (O x)) (hf.meas.comp ho.measurable) fun x hx => hf.bound _ (hu x hx)
  have r0 := rate_pos hb
  have r2 := rate_sq hb
  have i3 := kern_int hb hd (f := fun x => dot d x ^ 2 + dot p x ^ 2)
    (((meas_dot measurable_const measurable_id).pow_const 2).add
      ((meas_dot measurable_const measurable_id).pow_const 2)) (M := 2) fun x hx => by
      have h1 := pow_le_one₀ (n := 2) (abs_nonneg _) (dot_le_one hd hx)
      have h2 := pow_le_one₀ (n := 2) (abs_nonneg _) (dot_le_one hp hx)
      rw [sq_abs] at h1 h2
      rw [abs_of_nonneg (by positivity)]
      linarith
  have i4 : Integrable (fun x => kern b d x) sphereMeasure := by
    simpa using kern_int hb hd (f := fun _ => 1) measurable_const (M := 1) (by simp)
  have hlen : len (sub d e) = Real.sqrt (2 * (1 - c)) := by
    have := planeTurn_dist hd hp hdp hcs d
    have h1 : dot p d = 0 := by rw [dot_comm]; exact hdp
    rw [← hO, hOd, hd, h1] at this
    rw [len, this]
    congr 1
    ring
  rw [e1, T, ← integral_sub i1 i2]
  set A := K * len (sub d e) with hA
  have A0 : 0 ≤ A := mul_nonneg hK (len_nonneg _)
  have i5 : Integrable (fun x => A * ((1 / (2 * rate b)) * (kern b d x * (dot d x ^ 2 + dot p x ^ 2))
      + rate b / 2 * kern b d x)) sphereMeasure := ((i3.const_mul _).add (i4.const_mul _)).const_mul _
  rw [← Real.norm_eq_abs]
  refine (norm_integral_le_of_norm_le i5 (sphere_ae.mono fun x hx => ?_)).trans (le_of_eq ?_)
  · have hx := unit_sq hx
    have hk := kern_pos hb d x
    rw [← mul_sub, Real.norm_eq_abs, abs_mul, abs_of_pos hk]
    set q := dot d x ^ 2 + dot p x ^ 2 with hq
    have q0 : 0 ≤ q := by positivity
    have h1 : |f x - f (O x)| ≤ A * Real.sqrt q := by
      refine (hf.lip x (O x) hx (hu x hx)).trans (le_of_eq ?_)
      rw [hA, hlen, len, planeTurn_dist hd hp hdp hcs x, Real.sqrt_mul', mul_assoc]
      exact q0
    have h2 : Real.sqrt q ≤ 1 / (2 * rate b) * q + rate b / 2 := by
      have := Real.sq_sqrt q0
      have h3 := sq_nonneg (Real.sqrt q - rate b)
      have : 2 * rate b * Real.sqrt q ≤ q + rate b ^ 2 := by nlinarith
      have h4 : 1 / (2 * rate b) * q + rate b / 2 = (q + rate b ^ 2) / (2 * rate b) := by field_simp
      rw [h4, le_div_iff₀ (by positivity)]
      linarith
    calc kern b d x * |f x - f (O x)| ≤ kern b d x * (A * (1 / (2 * rate b) * q + rate b / 2)) :=
          mul_le_mul_of_nonneg_left (h1.trans (mul_le_mul_of_nonneg_left h2 A0)) hk.le
      _ = _ := by ring
  · rw [integral_const_mul, integral_add (i3.const_mul _) (i4.const_mul _), integral_const_mul, integral_const_mul,
      plane_mean hb hd hp hdp, kern_one hb hd, ← r2, hA]
    field_simp
    ring

theorem T_Lip {f : V3 ℝ → ℝ} {K M : ℝ} (hK : 0 ≤ K) (hf : Lip f K M) : Lip (T b f) (rate b * K) M :=
  ⟨meas_T hf.meas, fun _ hx => T_bound hb hf.bound hx, fun _ _ hx hy => T_lip hb hK hf hx hy⟩

theorem iter_Lip {f : V3 ℝ → ℝ} {K M : ℝ} (hK : 0 ≤ K) (hf : Lip f K M) (n : ℕ) :
    Lip ((T b)^[n] f) (rate b ^ n * K) M := by
  induction n with
  | zero => simpa using hf
  | succ n ih =>
    rw [iterate_succ_apply', pow_succ', mul_assoc]
    exact T_Lip hb (mul_nonneg (pow_nonneg (rate_pos hb).le _) hK) ih

/-- the uniform distribution is invariant -/
theorem T_mean {f : V3 ℝ → ℝ} {M : ℝ} (hf : Measurable f) (hM : ∀ x, dot x x = 1 → |f x| ≤ M) :
    ∫ d, T b f d ∂sphereMeasure = ∫ x, f x ∂sphereMeasure := by
  have hm : Measurable fun q : V3 ℝ × V3 ℝ => kern b q.1 q.2 * f q.2 :=
    (meas_kern b measurable_fst measurable_snd).mul (hf.comp measurable_snd)
  have hi : Integrable (fun q : V3 ℝ × V3 ℝ => kern b q.1 q.2 * f q.2) (sphereMeasure.prod sphereMeasure) := by
    refine Integrable.of_bound hm.aestronglyMeasurable (b / Real.sinh b * Real.exp b * M) ?_
    have h1 : ∀ᵐ q ∂(sphereMeasure.prod sphereMeasure), q.1 ∈ Sph := Measure.quasiMeasurePreserving_fst.ae sphere_ae
    have h2 : ∀ᵐ q ∂(sphereMeasure.prod sphereMeasure), q.2 ∈ Sph := Measure.quasiMeasurePreserving_snd.ae sphere_ae
    filter_upwards [h1, h2] with q q1 q2
    have q1 := unit_sq q1
    have q2 := unit_sq q2
    rw [Real.norm_eq_abs, abs_mul, abs_of_pos (kern_pos hb _ _)]
    exact mul_le_mul (kern_le hb q1 q2) (hM _ q2) (abs_nonneg _) ((kern_pos hb _ _).le.trans (kern_le hb q1 q2))
  unfold T
  rw [integral_integral_swap hi]
  refine integral_congr_ae ?_
  filter_upwards [sphere_ae] with x hx
  have : ∀ d, kern b d x * f x = f x * kern b x d := fun d => by rw [kern_comm, mul_comm]
  simp only [this]
  rw [integral_const_mul, kern_one hb (unit_sq hx), mul_one]

omit hb in
theorem len_sub_le {x y : V3 ℝ} (hx : dot x x = 1) (hy : dot y y = 1) : len (sub x y) ≤ 2 := by
  rw [len]
  refine Real.sqrt_le_iff.2 ⟨by norm_num, ?_⟩
  have h := (abs_le.1 (dot_le_one hx hy)).1
  have : dot (sub x y) (sub x y) = dot x x - 2 * dot x y + dot y y := by simp only [dot, sub]; ring
  rw [this, hx, hy]
  linarith

/-- convergence to the mean over the sphere -/
theorem iter_close {f : V3 ℝ → ℝ} {K M : ℝ} (hK : 0 ≤ K) (hf : Lip f K M) (n : ℕ) {d : V3 ℝ} (hd : dot d d = 1) :
    |(T b)^[n] f d - ∫ x, f x ∂sphereMeasure| ≤ 2 * K * rate b ^ n := by
  have hmean : ∀ n, ∫ x, (T b)^[n] f x ∂sphereMeasure = ∫ x, f x ∂sphereMeasure := by
    intro n
    induction n with
    | zero => rfl
    | succ n ih =>
      rw [← ih]
      simp only [iterate_succ_apply']
      exact T_mean hb (iter_Lip hb hK hf n).meas (iter_Lip hb hK hf n).bound
  have g := iter_Lip hb hK hf n
  have gi : Integrable ((T b)^[n] f) sphereMeasure :=
    Integrable.of_bound g.meas.aestronglyMeasurable M (sphere_ae.mono fun x hx => g.bound x (unit_sq hx))
  rw [← hmean n]
  have e : (T b)^[n] f d - ∫ x, (T b)^[n] f x ∂sphereMeasure = ∫ x, ((T b)^[n] f d - (T b)^[n] f x) ∂sphereMeasure := by
    rw [integral_sub (integrable_const _) gi]
    simp
  rw [e]
  rw [← Real.norm_eq_abs]
  refine (norm_integral_le_of_norm_le (integrable_const (2 * K * rate b ^ n)) (sphere_ae.mono fun x hx => ?_)).trans (by simp)
  have hx := unit_sq hx
  refine (g.lip d x hd hx).trans ?_
  have := len_sub_le hd hx
  have h0 : 0 ≤ rate b ^ n * K := mul_nonneg (pow_nonneg (rate_pos hb).le _) hK
  nlinarith

/-! ### open paths -/

omit hb in
/-- the weight of the path `d, v 0, v 1, ...` -/
noncomputable def pw (b : ℝ) : (n : ℕ) → V3 ℝ → (Fin n → V3 ℝ) → ℝ
  | 0, _, _ => 1
  | n + 1, d, v => kern b d (v 0) * pw b n (v 0) (fun i => v i.succ)

/-- the point number `k` of this path -/
def pt : (n k : ℕ) → V3 ℝ → (Fin n → V3 ℝ) → V3 ℝ
  | _, 0, d, _ => d
  | 0, _ + 1, d, _ => d
  | n + 1, k + 1, _, v => pt n k (v 0) (fun i => v i.succ)

omit hb in
theorem meas_tail {n : ℕ} : (Measurable fun q : V3 ℝ × (Fin (n + 1) → V3 ℝ) => q.2 0) ∧
    Measurable fun q : V3 ℝ × (Fin (n + 1) → V3 ℝ) => (q.2 0, fun i : Fin n => q.2 i.succ) := by
  have h0 : Measurable fun q : V3 ℝ × (Fin (n + 1) → V3 ℝ) => q.2 0 := (measurable_pi_apply 0).comp measurable_snd
  exact ⟨h0, h0.prodMk (measurable_pi_iff.2 fun i => (measurable_pi_apply i.succ).comp measurable_snd)⟩

omit hb in
theorem meas_pw (n : ℕ) : Measurable fun q : V3 ℝ × (Fin n → V3 ℝ) => pw b n q.1 q.2 := by
  induction n with
  | zero => exact measurable_const
  | succ n ih =>
    obtain ⟨h0, h1⟩ := meas_tail (n := n)
    have h4 : Measurable fun q : V3 ℝ × (Fin (n + 1) → V3 ℝ) => pw b n (q.2 0) (fun i => q.2 i.succ) := by
      have := Measurable.comp (g := fun q : V3 ℝ × (Fin n → V3 ℝ) => pw b n q.1 q.2) ih h1
      exact this
    exact (meas_kern b measurable_fst h0).mul h4

omit hb in
theorem meas_pt (n : ℕ) : ∀ k, Measurable fun q : V3 ℝ × (Fin n → V3 ℝ) => pt n k q.1 q.2 := by
  induction n with
  | zero =>
    intro k
    cases k <;> exact measurable_fst
  | succ n ih =>
    intro k
    cases k with
    | zero => exact measurable_fst
    | succ k =>
      have := Measurable.comp (g := fun q : V3 ℝ × (Fin n → V3 ℝ) => pt n k q.1 q.2) (ih k) (meas_tail (n := n)).2
      exact this

omit hb in
theorem pt_unit (n : ℕ) : ∀ (k : ℕ) {d : V3 ℝ}, dot d d = 1 → ∀ {v : Fin n → V3 ℝ}, (∀ i, dot (v i) (v i) = 1) →
    dot (pt n k d v) (pt n k d v) = 1 := by
  induction n with
  | zero =>
    intro k d hd _ _
    cases k <;> exact hd
  | succ n ih =>
    intro k d hd v hv
    cases k with
    | zero => exact hd
    | succ k => exact ih k (hv 0) fun i => hv i.succ

theorem pw_bound (n : ℕ) : ∀ {d : V3 ℝ}, dot d d = 1 → ∀ {v : Fin n → V3 ℝ}, (∀ i, dot (v i) (v i) = 1) →
    |pw b n d v| ≤ (b / Real.sinh b * Real.exp b) ^ n := by
  induction n with
  | zero => intro d _ _ _; simp [pw]
  | succ n ih =>
    intro d hd v hv
    rw [pw, abs_mul, pow_succ', abs_of_pos (kern_pos hb _ _)]
    exact mul_le_mul (kern_le hb hd (hv 0)) (ih (hv 0) fun i => hv i.succ) (abs_nonneg _)
      ((kern_pos hb _ _).le.trans (kern_le hb hd (hv 0)))

omit hb in
theorem units_ae (n : ℕ) : ∀ᵐ v ∂(Measure.pi fun _ : Fin n => sphereMeasure), ∀ i, dot (v i) (v i) = 1 :=
  (good_ae (L := n) sphere_ae).mono fun v hv i => unit_sq (hv i)

omit hb in
theorem meas_at {n : ℕ} {X : Type} [MeasurableSpace X] {F : V3 ℝ × (Fin n → V3 ℝ) → X} (hF : Measurable F) (d : V3 ℝ) :
    Measurable fun w : Fin n → V3 ℝ => F (d, w) := hF.comp (measurable_const.prodMk measurable_id)

theorem path_int {f g : V3 ℝ → ℝ} {M1 M2 : ℝ} (hf : Measurable f) (hg : Measurable g)
    (hM1 : ∀ x, dot x x = 1 → |f x| ≤ M1) (hM2 : ∀ x, dot x x = 1 → |g x| ≤ M2) (n k : ℕ) {d : V3 ℝ} (hd : dot d d = 1) :
    Measurable (fun w : Fin n → V3 ℝ => pw b n d w * f (pt n k d w) * g (pt n n d w)) ∧
    Integrable (fun w : Fin n → V3 ℝ => pw b n d w * f (pt n k d w) * g (pt n n d w))
      (Measure.pi fun _ => sphereMeasure) := by
  have m : Measurable (fun w : Fin n → V3 ℝ => pw b n d w * f (pt n k d w) * g (pt n n d w)) :=
    ((meas_at (meas_pw n) d).mul (hf.comp (meas_at (meas_pt n k) d))).mul (hg.comp (meas_at (meas_pt n n) d))
  refine ⟨m, Integrable.of_bound m.aestronglyMeasurable ((b / Real.sinh b * Real.exp b) ^ n * M1 * M2) ?_⟩
  filter_upwards [units_ae n] with v hv
  have h1 := hM1 _ (pt_unit n k hd hv)
  have h2 := hM2 _ (pt_unit n n hd hv)
  have h3 := pw_bound hb n hd hv
  have M10 : 0 ≤ M1 := (abs_nonneg _).trans h1
  have C0 : 0 ≤ (b / Real.sinh b * Real.exp b) ^ n := (abs_nonneg _).trans h3
  rw [Real.norm_eq_abs, abs_mul, abs_mul]
  gcongr

/-- the mean of a product of functions of two points of the path -/
theorem two_point {g : V3 ℝ → ℝ} {M2 : ℝ} (hg : Measurable g) (hM2 : ∀ x, dot x x = 1 → |g x| ≤ M2) (n : ℕ) :
    ∀ (k : ℕ), k ≤ n → ∀ {f : V3 ℝ → ℝ} {M1 : ℝ}, Measurable f → (∀ x, dot x x = 1 → |f x| ≤ M1) →
    ∀ {d : V3 ℝ}, dot d d = 1 →
    ∫ w, pw b n d w * f (pt n k d w) * g (pt n n d w) ∂(Measure.pi fun _ : Fin n => sphereMeasure)
      = (T b)^[k] (fun x => f x * (T b)^[n - k] g x) d := by
  induction n with
  | zero =>
    intro k hk f M1 hf hM1 d hd
    obtain rfl : k = 0 := by omega
    simp [pw, pt]
  | succ n ih =>
    intro k hk f M1 hf hM1 d hd
    obtain ⟨m, i⟩ := path_int hb hf hg hM1 hM2 (n + 1) k hd
    rw [integral_cons _ n m i]
    cases k with
    | zero =>
      have e : ∀ᵐ x ∂sphereMeasure, ∫ w, pw b (n + 1) d (Fin.cons x w) * f (pt (n + 1) 0 d (Fin.cons x w))
          * g (pt (n + 1) (n + 1) d (Fin.cons x w)) ∂(Measure.pi fun _ : Fin n => sphereMeasure)
          = f d * (kern b d x * (T b)^[n] g x) := by
        filter_upwards [sphere_ae] with x hx
        have := ih 0 (Nat.zero_le n) (f := fun _ => 1) (M1 := 1) measurable_const (by simp) (unit_sq hx)
        simp only [iterate_zero, id_eq, one_mul, mul_one, Nat.sub_zero] at this
        rw [← this, ← integral_const_mul, ← integral_const_mul]
        refine integral_congr_ae (Filter.Eventually.of_forall fun w => ?_)
        simp only [pw, pt, Fin.cons_zero, Fin.cons_succ]
        ring
      rw [integral_congr_ae e, integral_const_mul]
      simp only [iterate_zero, id_eq, Nat.sub_zero, iterate_succ_apply']
      rfl
    | succ k =>
      have e : ∀ᵐ x ∂sphereMeasure, ∫ w, pw b (n + 1) d (Fin.cons x w) * f (pt (n + 1) (k + 1) d (Fin.cons x w))
          * g (pt (n + 1) (n + 1) d (Fin.cons x w)) ∂(Measure.pi fun _ : Fin n => sphereMeasure)
          = kern b d x * (T b)^[k] (fun x => f x * (T b)^[n - k] g x) x := by
        filter_upwards [sphere_ae] with x hx
        rw [← ih k (by omega) hf hM1 (unit_sq hx), ← integral_const_mul]
        refine integral_congr_ae (Filter.Eventually.of_forall fun w => ?_)
        simp only [pw, pt, Fin.cons_zero, Fin.cons_succ]
        ring
      rw [integral_congr_ae e, iterate_succ_apply', Nat.succ_sub_succ]
      rfl

/-! ### rings -/

omit hb in
/-- minus the energy of the ring with unit couplings -/
noncomputable def ringSum {n : ℕ} (v : Fin (n + 1) → V3 ℝ) : ℝ := ∑ j, dot (v j) (v (j + 1))

omit hb in
theorem pt_cons (n : ℕ) : ∀ (k : ℕ) (hk : k < n + 1) (d : V3 ℝ) (w : Fin n → V3 ℝ),
    pt n k d w = (Fin.cons d w : Fin (n + 1) → V3 ℝ) ⟨k, hk⟩ := by
  induction n with
  | zero =>
    intro k hk d w
    obtain rfl : k = 0 := by omega
    rfl
  | succ n ih =>
    intro k hk d w
    cases k with
    | zero => rfl
    | succ k =>
      rw [pt, ih k (by omega)]
      have e : (Fin.cons (w 0) (fun i => w i.succ) : Fin (n + 1) → V3 ℝ) = w := by
        funext i
        refine Fin.cases rfl (fun j => rfl) i
      rw [e]
      rfl

omit hb in
theorem pw_exp (n : ℕ) : ∀ (d : V3 ℝ) (w : Fin n → V3 ℝ), pw b n d w = (b / Real.sinh b) ^ n
    * Real.exp (b * ∑ j : Fin n, dot ((Fin.cons d w : Fin (n + 1) → V3 ℝ) j.castSucc) (w j)) := by
  induction n with
  | zero => intro d w; simp [pw]
  | succ n ih =>
    intro d w
    rw [pw, ih, Fin.sum_univ_succ, mul_add, Real.exp_add, kern, pow_succ]
    have e : (Fin.cons (w 0) (fun i => w i.succ) : Fin (n + 1) → V3 ℝ) = w := by
      funext i
      refine Fin.cases rfl (fun j => rfl) i
    rw [e]
    have e2 : ∀ j : Fin n, (Fin.cons d w : Fin (n + 2) → V3 ℝ) j.succ.castSucc = w j.castSucc := fun j => rfl
    simp only [e2]
    show _ = (b / Real.sinh b) ^ n * (b / Real.sinh b) * (Real.exp (b * dot d (w 0)) * _)
    ring

omit hb in
theorem ring_cons {n : ℕ} (d : V3 ℝ) (w : Fin n → V3 ℝ) : ringSum (Fin.cons d w : Fin (n + 1) → V3 ℝ)
    = (∑ j : Fin n, dot ((Fin.cons d w : Fin (n + 1) → V3 ℝ) j.castSucc) (w j)) + dot (pt n n d w) d := by
  unfold ringSum
  rw [Fin.sum_univ_castSucc, pt_cons n n (Nat.lt_succ_self n)]
  congr 1
  · refine Finset.sum_congr rfl fun j _ => ?_
    rw [Fin.coeSucc_eq_succ]
    rfl
  · rw [Fin.last_add_one]
    rfl

theorem ring_weight {n : ℕ} (d : V3 ℝ) (w : Fin n → V3 ℝ) :
    (b / Real.sinh b) ^ (n + 1) * Real.exp (b * ringSum (Fin.cons d w : Fin (n + 1) → V3 ℝ))
      = pw b n d w * kern b (pt n n d w) d := by
  rw [ring_cons, pw_exp, kern, mul_add, Real.exp_add, pow_succ]
  ring

omit hb in
theorem meas_ringSum {n : ℕ} : Measurable fun v : Fin (n + 1) → V3 ℝ => ringSum v :=
  Finset.measurable_sum _ fun j _ => meas_dot (measurable_pi_apply j) (measurable_pi_apply (j + 1))

omit hb in
theorem ringSum_bound {n : ℕ} {v : Fin (n + 1) → V3 ℝ} (hv : ∀ i, dot (v i) (v i) = 1) : |ringSum v| ≤ n + 1 := by
  unfold ringSum
  refine (Finset.abs_sum_le_sum_abs _ _).trans ?_
  refine (Finset.sum_le_sum fun j _ => dot_le_one (hv j) (hv (j + 1))).trans ?_
  simp

theorem ring_int {n : ℕ} {f : (Fin (n + 1) → V3 ℝ) → ℝ} (hf : Measurable f) {M : ℝ}
    (hM : ∀ v, (∀ i, dot (v i) (v i) = 1) → |f v| ≤ M) :
    Integrable (fun v => Real.exp (b * ringSum v) * f v) (Measure.pi fun _ : Fin (n + 1) => sphereMeasure) := by
  refine Integrable.of_bound ((meas_ringSum.const_mul b).exp.mul hf).aestronglyMeasurable
    (Real.exp (b * (n + 1)) * M) ?_
  filter_upwards [units_ae (n + 1)] with v hv
  rw [Real.norm_eq_abs, abs_mul, Real.abs_exp]
  refine mul_le_mul (Real.exp_le_exp.2 ?_) (hM v hv) (abs_nonneg _) (Real.exp_pos _).le
  exact mul_le_mul_of_nonneg_left ((abs_le.1 (ringSum_bound hv)).2) hb.le

/-- relabelling the sites -/
theorem perm_integral {n : ℕ} (σ : Equiv.Perm (Fin n)) (f : (Fin n → V3 ℝ) → ℝ) :
    ∫ v, f (fun i => v (σ i)) ∂(Measure.pi fun _ : Fin n => sphereMeasure)
      = ∫ v, f v ∂(Measure.pi fun _ : Fin n => sphereMeasure) := by
  have mp := measurePreserving_piCongrLeft (fun _ : Fin n => sphereMeasure) σ.symm
  have := mp.integral_comp (MeasurableEquiv.measurableEmbedding _) f
  rw [← this]
  refine integral_congr_ae (Filter.Eventually.of_forall fun v => ?_)
  dsimp only
  congr 1
  funext i
  rw [MeasurableEquiv.coe_piCongrLeft]
  have := Equiv.piCongrLeft_apply_apply (fun _ : Fin n => V3 ℝ) σ.symm v (σ i)
  rw [σ.symm_apply_apply] at this
  exact this.symm

omit hb in
theorem ringSum_shift {n : ℕ} (k : Fin (n + 1)) (v : Fin (n + 1) → V3 ℝ) :
    ringSum (fun i => v (i + k)) = ringSum v := by
  unfold ringSum
  refine Fintype.sum_equiv (Equiv.addRight k) _ _ fun j => ?_
  show dot (v (j + k)) (v (j + 1 + k)) = dot (v (j + k)) (v (j + k + 1))
  rw [add_right_comm]

theorem ring_shift {n : ℕ} (i k : Fin (n + 1)) :
    ∫ v, Real.exp (b * ringSum v) * dot (v i) (v (i + k)) ∂(Measure.pi fun _ : Fin (n + 1) => sphereMeasure)
      = ∫ v, Real.exp (b * ringSum v) * dot (v 0) (v k) ∂(Measure.pi fun _ : Fin (n + 1) => sphereMeasure) := by
  rw [← perm_integral hb (Equiv.addRight i) fun v => Real.exp (b * ringSum v) * dot (v 0) (v k)]
  refine integral_congr_ae (Filter.Eventually.of_forall fun v => ?_)
  show _ = Real.exp (b * ringSum fun j => v (j + i)) * dot (v (0 + i)) (v (k + i))
  rw [ringSum_shift, zero_add, add_comm k i]

/-! ### iterates -/

omit hb in
theorem T_congr {f g : V3 ℝ → ℝ} (h : ∀ x, dot x x = 1 → f x = g x) : T b f = T b g := by
  funext d
  unfold T
  refine integral_congr_ae (sphere_ae.mono fun x hx => ?_)
  dsimp only
  rw [h x (unit_sq hx)]

theorem iter_bound {f : V3 ℝ → ℝ} {M : ℝ} (hf : Measurable f) (hM : ∀ x, dot x x = 1 → |f x| ≤ M) (k : ℕ) :
    Measurable ((T b)^[k] f) ∧ ∀ x, dot x x = 1 → |(T b)^[k] f x| ≤ M := by
  induction k with
  | zero => exact ⟨hf, hM⟩
  | succ k ih =>
    rw [iterate_succ_apply']
    exact ⟨meas_T ih.1, fun x hx => T_bound hb ih.2 hx⟩

theorem iter_sub {f g : V3 ℝ → ℝ} {M ε : ℝ} (hf : Measurable f) (hg : Measurable g) (hM : ∀ x, dot x x = 1 → |f x| ≤ M)
    (hM' : ∀ x, dot x x = 1 → |g x| ≤ M) (h : ∀ x, dot x x = 1 → |f x - g x| ≤ ε) (k : ℕ) :
    ∀ x, dot x x = 1 → |(T b)^[k] f x - (T b)^[k] g x| ≤ ε := by
  induction k with
  | zero => exact h
  | succ k ih =>
    intro x hx
    obtain ⟨m1, b1⟩ := iter_bound hb hf hM k
    obtain ⟨m2, b2⟩ := iter_bound hb hg hM' k
    rw [iterate_succ_apply', iterate_succ_apply']
    have e : T b ((T b)^[k] f) x - T b ((T b)^[k] g) x = T b (fun y => (T b)^[k] f y - (T b)^[k] g y) x := by
      generalize (T b)^[k] f = F at m1 b1 ⊢
      generalize (T b)^[k] g = G at m2 b2 ⊢
      unfold T
      rw [← integral_sub (kern_int hb hx m1 b1) (kern_int hb hx m2 b2)]
      simp only [mul_sub]
    rw [e]
    exact T_bound hb ih hx

theorem iter_dot (a : V3 ℝ) (k : ℕ) : ∀ x, dot x x = 1 → (T b)^[k] (fun x => dot a x) x = lang b ^ k * dot a x := by
  induction k with
  | zero => intro x _; simp
  | succ k ih =>
    intro x hx
    rw [iterate_succ_apply', T_congr ih]
    unfold T
    have e : ∀ y, kern b x y * (lang b ^ k * dot a y) = lang b ^ k * (kern b x y * dot a y) := fun y => by ring
    simp only [e]
    rw [integral_const_mul, kern_mean hb hx, pow_succ]
    ring

/-- a Lipschitz constant of the kernel -/
noncomputable def lipK (b : ℝ) : ℝ := b / Real.sinh b * Real.exp b * b

theorem lipK_pos : 0 < lipK b := mul_pos (mul_pos (norm_pos hb) (Real.exp_pos _)) hb

theorem kern_Lip {d : V3 ℝ} (hd : dot d d = 1) :
    Lip (fun x => kern b x d) (lipK b) (b / Real.sinh b * Real.exp b) := by
  refine ⟨meas_kern b measurable_id measurable_const, fun x hx => ?_, fun x y hx hy => ?_⟩
  · rw [abs_of_pos (kern_pos hb _ _)]
    exact kern_le hb hx hd
  · have key : ∀ u v : ℝ, |u| ≤ 1 → Real.exp (b * u) - Real.exp (b * v) ≤ Real.exp b * b * |u - v| := by
      intro u v hu
      have h1 : Real.exp (b * v) = Real.exp (b * u) * Real.exp (b * v - b * u) := by
        rw [← Real.exp_add]; congr 1; ring
      have h2 := Real.add_one_le_exp (b * v - b * u)
      have h3 : Real.exp (b * u) ≤ Real.exp b := Real.exp_le_exp.2 (by nlinarith [(abs_le.1 hu).2])
      have h4 := Real.exp_pos (b * u)
      have h5 : Real.exp (b * u) - Real.exp (b * v) ≤ Real.exp (b * u) * (b * |u - v|) := by
        rw [h1]
        have : b * (u - v) ≤ b * |u - v| := mul_le_mul_of_nonneg_left (le_abs_self _) hb.le
        nlinarith
      refine h5.trans ?_
      rw [mul_assoc]
      exact mul_le_mul_of_nonneg_right h3 (mul_nonneg hb.le (abs_nonneg _))
    have h1 : |dot x d - dot y d| ≤ len (sub x y) := by
      have : dot x d - dot y d = dot (sub x y) d := by simp only [dot, sub]; ring
      rw [this]
      exact abs_dot_le hd
    have h2 : |Real.exp (b * dot x d) - Real.exp (b * dot y d)| ≤ Real.exp b * b * |dot x d - dot y d| := by
      rw [abs_sub_le_iff]
      refine ⟨key _ _ (dot_le_one hx hd), ?_⟩
      rw [abs_sub_comm]
      exact key _ _ (dot_le_one hy hd)
    unfold kern lipK
    rw [← mul_sub, abs_mul, abs_of_pos (norm_pos hb)]
    have h3 := mul_le_mul_of_nonneg_left h1 (mul_nonneg (Real.exp_pos b).le hb.le)
    have h4 := mul_le_mul_of_nonneg_left (h2.trans h3) (norm_pos hb).le
    linarith

theorem ring_site {n : ℕ} {d : V3 ℝ} (hd : dot d d = 1) :
    |(T b)^[n] (fun x => kern b x d) d - 1| ≤ 2 * lipK b * rate b ^ n := by
  have := iter_close hb (lipK_pos hb).le (kern_Lip hb hd) n hd
  have e : ∫ x, kern b x d ∂sphereMeasure = 1 := by
    simp only [kern_comm b _ d]
    exact kern_one hb hd
  rwa [e] at this

theorem corr_site {n k : ℕ} {d : V3 ℝ} (hd : dot d d = 1) :
    |(T b)^[k] (fun x => dot d x * (T b)^[n - k] (fun x => kern b x d) x) d - lang b ^ k|
      ≤ 2 * lipK b * rate b ^ (n - k) := by
  have hm : Measurable fun x : V3 ℝ => dot d x := meas_dot measurable_const measurable_id
  have e : ∫ x, kern b x d ∂sphereMeasure = 1 := by
    simp only [kern_comm b _ d]
    exact kern_one hb hd
  obtain ⟨m1, b1⟩ := iter_bound hb (kern_Lip hb hd).meas (kern_Lip hb hd).bound (n - k)
  set C := b / Real.sinh b * Real.exp b with hC
  have C0 : 0 < C := mul_pos (norm_pos hb) (Real.exp_pos _)
  have h1 := iter_sub hb (f := fun x => dot d x * (T b)^[n - k] (fun x => kern b x d) x) (g := fun x => dot d x)
    (M := max C 1) (ε := 2 * lipK b * rate b ^ (n - k)) (hm.mul m1) hm
    (fun x hx => by
      rw [abs_mul]
      refine le_max_of_le_left ?_
      have := b1 x hx
      have := dot_le_one hd hx
      nlinarith [abs_nonneg (dot d x), abs_nonneg ((T b)^[n - k] (fun x => kern b x d) x)])
    (fun x hx => le_max_of_le_right (dot_le_one hd hx))
    (fun x hx => by
      have h2 := iter_close hb (lipK_pos hb).le (kern_Lip hb hd) (n - k) hx
      rw [e] at h2
      have h3 : dot d x * (T b)^[n - k] (fun x => kern b x d) x - dot d x
          = dot d x * ((T b)^[n - k] (fun x => kern b x d) x - 1) := by ring
      rw [h3, abs_mul]
      have := dot_le_one hd hx
      nlinarith [abs_nonneg (dot d x), abs_nonneg ((T b)^[n - k] (fun x => kern b x d) x - 1)]) k d hd
  rwa [iter_dot hb d k d hd, hd, mul_one] at h1

/-- correlations of two spins `k` sites apart in a ring of `n + 1` sites -/
theorem ring_corr {n : ℕ} (i : Fin (n + 1)) (k : Fin (n + 1)) :
    |(∫ v, Real.exp (b * ringSum v) * dot (v i) (v (i + k)) ∂(Measure.pi fun _ : Fin (n + 1) => sphereMeasure))
        / (∫ v, Real.exp (b * ringSum v) ∂(Measure.pi fun _ : Fin (n + 1) => sphereMeasure)) - lang b ^ (k : ℕ)|
      ≤ 8 * lipK b * rate b ^ (n - k) := by
  rw [ring_shift hb]
  set μ := Measure.pi fun _ : Fin (n + 1) => sphereMeasure with hμ
  set A := (b / Real.sinh b) ^ (n + 1) with hA
  have A0 : 0 < A := pow_pos (norm_pos hb) _
  -- one integral over the first spin
  have key : ∀ j : Fin (n + 1), ∀ g : V3 ℝ → V3 ℝ → ℝ, Measurable (fun q : V3 ℝ × V3 ℝ => g q.1 q.2) → (∀ d x, dot d d = 1 → dot x x = 1 → |g d x| ≤ 1) →
      ∀ c ε : ℝ, (∀ d, dot d d = 1 → |(T b)^[(j : ℕ)] (fun x => g d x * (T b)^[n - j] (fun x => kern b x d) x) d - c| ≤ ε) →
      |A * (∫ v, Real.exp (b * ringSum v) * g (v 0) (v j) ∂μ) - c| ≤ ε := by
    intro j g hg hg1 c ε hε
    have mg : Measurable fun v : Fin (n + 1) → V3 ℝ => g (v 0) (v j) := by
      have h : Measurable fun v : Fin (n + 1) → V3 ℝ => (v 0, v j) := (measurable_pi_apply 0).prodMk (measurable_pi_apply j)
      have := Measurable.comp (g := fun q : V3 ℝ × V3 ℝ => g q.1 q.2) hg h
      exact this
    have ig := ring_int hb mg (M := 1) fun v hv => hg1 _ _ (hv 0) (hv j)
    have mm : Measurable fun v : Fin (n + 1) → V3 ℝ => Real.exp (b * ringSum v) * g (v 0) (v j) :=
      (meas_ringSum.const_mul b).exp.mul mg
    have e1 : ∀ᵐ d ∂sphereMeasure, ∫ w, A * (Real.exp (b * ringSum (Fin.cons d w : Fin (n + 1) → V3 ℝ))
        * g ((Fin.cons d w : Fin (n + 1) → V3 ℝ) 0) ((Fin.cons d w : Fin (n + 1) → V3 ℝ) j))
        ∂(Measure.pi fun _ : Fin n => sphereMeasure)
        = (T b)^[(j : ℕ)] (fun x => g d x * (T b)^[n - j] (fun x => kern b x d) x) d := by
      filter_upwards [sphere_ae] with d hd
      have hd := unit_sq hd
      have := two_point hb (g := fun x => kern b x d) (kern_Lip hb hd).meas (kern_Lip hb hd).bound n j (by omega)
        (f := fun x => g d x) (M1 := 1)
        (Measurable.comp (g := fun q : V3 ℝ × V3 ℝ => g q.1 q.2) hg (measurable_const.prodMk measurable_id)) (fun x hx => hg1 d x hd hx) hd
      rw [← this]
      refine integral_congr_ae (Filter.Eventually.of_forall fun w => ?_)
      dsimp only
      rw [← mul_assoc, hA, ring_weight hb, pt_cons n j j.2, Fin.cons_zero]
      ring
    rw [← integral_const_mul, integral_cons _ n (mm.const_mul A) (ig.const_mul A), integral_congr_ae e1]
    have mi : Measurable fun d => ∫ w, A * (Real.exp (b * ringSum (Fin.cons d w : Fin (n + 1) → V3 ℝ))
        * g ((Fin.cons d w : Fin (n + 1) → V3 ℝ) 0) ((Fin.cons d w : Fin (n + 1) → V3 ℝ) j))
        ∂(Measure.pi fun _ : Fin n => sphereMeasure) := by
      have h : Measurable fun q : V3 ℝ × (Fin n → V3 ℝ) => A * (Real.exp (b * ringSum (Fin.cons q.1 q.2 : Fin (n + 1) → V3 ℝ))
        * g ((Fin.cons q.1 q.2 : Fin (n + 1) → V3 ℝ) 0) ((Fin.cons q.1 q.2 : Fin (n + 1) → V3 ℝ) j)) :=
        (mm.const_mul A).comp (meas_cons measurable_fst measurable_snd)
      exact (h.stronglyMeasurable.integral_prod_right (ν := Measure.pi fun _ : Fin n => sphereMeasure)).measurable
    have ii : Integrable (fun d => (T b)^[(j : ℕ)] (fun x => g d x * (T b)^[n - j] (fun x => kern b x d) x) d) sphereMeasure := by
      refine Integrable.of_bound (mi.aestronglyMeasurable.congr e1) (ε + |c|) ?_
      filter_upwards [sphere_ae] with d hd
      have := hε d (unit_sq hd)
      rw [Real.norm_eq_abs]
      have h2 := abs_sub_abs_le_abs_sub ((T b)^[(j : ℕ)] (fun x => g d x * (T b)^[n - j] (fun x => kern b x d) x) d) c
      linarith
    have e2 : (∫ d, (T b)^[(j : ℕ)] (fun x => g d x * (T b)^[n - j] (fun x => kern b x d) x) d ∂sphereMeasure) - c
        = ∫ d, ((T b)^[(j : ℕ)] (fun x => g d x * (T b)^[n - j] (fun x => kern b x d) x) d - c) ∂sphereMeasure := by
      rw [integral_sub ii (integrable_const _)]
      simp
    rw [e2, ← Real.norm_eq_abs]
    refine (norm_integral_le_of_norm_le (integrable_const ε) (sphere_ae.mono fun d hd => hε d (unit_sq hd))).trans ?_
    simp
  have r0 := rate_pos hb
  have r1 := rate_lt_one hb
  have K0 := lipK_pos hb
  have hk : (k : ℕ) ≤ n := by omega
  have hN := key k dot (meas_dot measurable_fst measurable_snd) (fun d x hd hx => dot_le_one hd hx) _ _
    fun d hd => corr_site hb hd
  have hZ := key 0 (fun _ _ => 1) measurable_const (by simp) 1 (2 * lipK b * rate b ^ n) fun d hd => by
    simpa using ring_site hb (n := n) hd
  simp only [mul_one] at hZ
  set N := ∫ v, Real.exp (b * ringSum v) * dot (v 0) (v k) ∂μ with hNdef
  set Z := ∫ v, Real.exp (b * ringSum v) ∂μ with hZdef
  have ie : Integrable (fun v => Real.exp (b * ringSum v)) μ := by
    simpa using ring_int hb (n := n) (f := fun _ => 1) measurable_const (M := 1) (by simp)
  have Zpos : 0 < Z := by
    rw [hZdef, integral_pos_iff_support_of_nonneg (fun v => (Real.exp_pos _).le) ie]
    have : support (fun v : Fin (n + 1) → V3 ℝ => Real.exp (b * ringSum v)) = Set.univ := by
      ext v
      simp [Real.exp_ne_zero]
    rw [this]
    simp [hμ]
  have hl0 := (lang_pos hb).le
  have hl1 : lang b ^ (k : ℕ) ≤ 1 := pow_le_one₀ hl0 (lang_le_one hb)
  have hl2 : 0 ≤ lang b ^ (k : ℕ) := pow_nonneg hl0 _
  have hpow : rate b ^ n ≤ rate b ^ (n - k) := pow_le_pow_of_le_one r0.le r1.le (Nat.sub_le _ _)
  set R := rate b ^ (n - (k : ℕ)) with hR
  have R0 : 0 < R := pow_pos r0 _
  have hNZ : |N| ≤ Z := by
    rw [hNdef, ← Real.norm_eq_abs]
    refine norm_integral_le_of_norm_le ie ?_
    filter_upwards [units_ae (n + 1)] with v hv
    rw [Real.norm_eq_abs, abs_mul, Real.abs_exp]
    have := dot_le_one (hv 0) (hv k)
    nlinarith [Real.exp_pos (b * ringSum v)]
  have hq : |N / Z| ≤ 1 := by
    rw [abs_div, abs_of_pos Zpos, div_le_one Zpos]
    exact hNZ
  by_cases hbig : 1 / 2 ≤ 2 * lipK b * rate b ^ n
  · have h1 : 2 ≤ 8 * lipK b * R := by nlinarith
    have := abs_le.1 hq
    rw [abs_le]
    constructor <;> linarith
  · push Not at hbig
    have h1 : 1 / 2 ≤ A * Z := by linarith [(abs_le.1 hZ).1]
    have h2 : |A * N - lang b ^ (k : ℕ) * (A * Z)| ≤ 4 * lipK b * R := by
      have e : A * N - lang b ^ (k : ℕ) * (A * Z) = (A * N - lang b ^ (k : ℕ)) - lang b ^ (k : ℕ) * (A * Z - 1) := by ring
      rw [e]
      refine (abs_sub _ _).trans ?_
      rw [abs_mul, abs_of_nonneg hl2]
      have h3 : lang b ^ (k : ℕ) * |A * Z - 1| ≤ 2 * lipK b * R := by
        calc lang b ^ (k : ℕ) * |A * Z - 1| ≤ 1 * (2 * lipK b * rate b ^ n) :=
              mul_le_mul hl1 hZ (abs_nonneg _) one_pos.le
          _ ≤ 2 * lipK b * R := by rw [one_mul]; exact mul_le_mul_of_nonneg_left hpow (by positivity)
      linarith
    have e3 : N / Z - lang b ^ (k : ℕ) = (A * N - lang b ^ (k : ℕ) * (A * Z)) / (A * Z) := by
      field_simp
    rw [e3, abs_div, abs_of_pos (mul_pos A0 Zpos), div_le_iff₀ (mul_pos A0 Zpos)]
    nlinarith [mul_pos K0 R0]

end

end Verif.Transfer
