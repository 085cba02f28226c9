/-
Helper lemmas: the distribution of random directions is the uniform distribution on the sphere, the only
one invariant under rotations: it is the direction of a point of space with a density depending only on
the distance from the origin.
-/
import Verif.Lemmas.Sampling
import Mathlib.Analysis.SpecialFunctions.PolarCoord
import Mathlib.MeasureTheory.Function.JacobianOneDim
import Mathlib.MeasureTheory.Integral.IntervalIntegral.Periodic
import Mathlib.MeasureTheory.Measure.Lebesgue.Basic
import Mathlib.LinearAlgebra.Matrix.Determinant.Basic

namespace Verif

set_option linter.unusedSectionVars false

open Spec MeasureTheory
open scoped ENNReal

/-! ### Changes of variables -/

/-- azimuth -/
theorem azimuth {h : ℝ → ℝ≥0∞} (hp : Function.Periodic h (2 * Real.pi)) :
    ∫⁻ θ in Set.Ioo (-Real.pi) Real.pi, h θ
      = ENNReal.ofReal (2 * Real.pi) * ∫⁻ u in Set.Ico (0 : ℝ) 1, h (2 * Real.pi * u) := by
  have hpi := Real.pi_pos
  have hT : 0 < 2 * Real.pi := by linarith
  have h1 : ∫⁻ θ in Set.Ioo (-Real.pi) Real.pi, h θ = ∫⁻ θ in Set.Ioc (-Real.pi) (-Real.pi + 2 * Real.pi), h θ := by
    rw [show -Real.pi + 2 * Real.pi = Real.pi by ring]
    exact setLIntegral_congr Ioo_ae_eq_Ioc
  have h2 : ∫⁻ θ in Set.Ioc (-Real.pi) (-Real.pi + 2 * Real.pi), h θ = ∫⁻ θ in Set.Ioc 0 (0 + 2 * Real.pi), h θ := by
    refine (isAddFundamentalDomain_Ioc hT _).setLIntegral_eq (isAddFundamentalDomain_Ioc hT _) h ?_
    rintro ⟨g, hg⟩ x
    obtain ⟨n, rfl⟩ := AddSubgroup.mem_zmultiples_iff.1 hg
    show h (n • (2 * Real.pi) + x) = h x
    rw [add_comm]
    exact hp.zsmul n x
  have h3 : (fun u : ℝ => 2 * Real.pi * u) '' Set.Ico 0 1 = Set.Ico 0 (2 * Real.pi) := by
    ext x
    simp only [Set.mem_image, Set.mem_Ico]
    constructor
    · rintro ⟨u, ⟨h0, h1⟩, rfl⟩
      constructor <;> nlinarith
    · rintro ⟨h0, h1⟩
      refine ⟨x / (2 * Real.pi), ⟨by positivity, by rwa [div_lt_one hT]⟩, by field_simp⟩
  have h4 := lintegral_image_eq_lintegral_abs_deriv_mul (s := Set.Ico (0 : ℝ) 1)
    (f := fun u : ℝ => 2 * Real.pi * u) (f' := fun _ => 2 * Real.pi) measurableSet_Ico
    (fun x _ => by simpa using ((hasDerivAt_id x).const_mul (2 * Real.pi)).hasDerivWithinAt)
    (fun x _ y _ hxy => mul_left_cancel₀ hT.ne' hxy) h
  rw [h3] at h4
  rw [h1, h2, zero_add, setLIntegral_congr Ico_ae_eq_Ioc.symm, h4, abs_of_pos hT,
    lintegral_const_mul' _ _ ENNReal.ofReal_ne_top]

/-- height -/
theorem height (h : ℝ → ℝ≥0∞) :
    ∫⁻ α in Set.Ioo (-Real.pi) Real.pi, ENNReal.ofReal (Real.sin α) * h ((1 - Real.cos α) / 2)
      = 2 * ∫⁻ u in Set.Ico (0 : ℝ) 1, h u := by
  have hpi := Real.pi_pos
  have h3 : (fun α : ℝ => (1 - Real.cos α) / 2) '' Set.Ioo 0 Real.pi = Set.Ioo 0 1 := by
    ext x
    simp only [Set.mem_image, Set.mem_Ioo]
    constructor
    · rintro ⟨α, ⟨h0, h1⟩, rfl⟩
      have hs := Real.sin_pos_of_pos_of_lt_pi h0 h1
      have := Real.sin_sq_add_cos_sq α
      constructor <;> nlinarith
    · rintro ⟨h0, h1⟩
      refine ⟨Real.arccos (1 - 2 * x), ⟨Real.arccos_pos.2 (by linarith), ?_⟩, ?_⟩
      · refine lt_of_le_of_ne (Real.arccos_le_pi _) fun hh => ?_
        rw [Real.arccos_eq_pi] at hh
        linarith
      · rw [Real.cos_arccos (by linarith) (by linarith)]
        ring
  have h4 := lintegral_image_eq_lintegral_abs_deriv_mul (s := Set.Ioo 0 Real.pi)
    (f := fun α : ℝ => (1 - Real.cos α) / 2) (f' := fun α => Real.sin α / 2) measurableSet_Ioo
    (fun x _ => by
      have := ((Real.hasDerivAt_cos x).const_sub 1).div_const 2
      simpa using this.hasDerivWithinAt)
    (fun x hx y hy hxy => Real.injOn_cos ⟨hx.1.le, hx.2.le⟩ ⟨hy.1.le, hy.2.le⟩ (by dsimp only at hxy; linarith)) h
  have h5 : ∫⁻ α in Set.Ioo (-Real.pi) Real.pi, ENNReal.ofReal (Real.sin α) * h ((1 - Real.cos α) / 2)
      = ∫⁻ α in Set.Ioo 0 Real.pi, ENNReal.ofReal (Real.sin α) * h ((1 - Real.cos α) / 2) := by
    have hsub : Set.Ioo 0 Real.pi ⊆ Set.Ioo (-Real.pi) Real.pi := Set.Ioo_subset_Ioo_left (by linarith)
    rw [← lintegral_indicator measurableSet_Ioo, ← lintegral_indicator measurableSet_Ioo]
    congr 1
    funext α
    by_cases hα : α ∈ Set.Ioo 0 Real.pi
    · rw [Set.indicator_of_mem hα, Set.indicator_of_mem (hsub hα)]
    · rw [Set.indicator_of_notMem hα]
      by_cases hβ : α ∈ Set.Ioo (-Real.pi) Real.pi
      · rw [Set.indicator_of_mem hβ]
        have : α ≤ 0 := by
          by_contra hc
          exact hα ⟨not_le.1 hc, hβ.2⟩
        rw [ENNReal.ofReal_of_nonpos (Real.sin_nonpos_of_nonpos_of_neg_pi_le this hβ.1.le), zero_mul]
      · rw [Set.indicator_of_notMem hβ]
  rw [h5, setLIntegral_congr Ioo_ae_eq_Ico.symm, ← h3, h4, ← lintegral_const_mul' _ _ (by simp)]
  refine setLIntegral_congr_fun measurableSet_Ioo fun α hα => ?_
  have hs := Real.sin_pos_of_pos_of_lt_pi hα.1 hα.2
  rw [abs_of_pos (by linarith), ← mul_assoc, ← ENNReal.ofReal_ofNat 2, ← ENNReal.ofReal_mul (by norm_num)]
  congr 2
  ring

/-- the vector with three given components -/
def ofFin (w : Fin 3 → ℝ) : V3 ℝ := ⟨w 0, w 1, w 2⟩

theorem measurable_ofFin : Measurable ofFin :=
  measurable_v3 (measurable_pi_apply 0) (measurable_pi_apply 1) (measurable_pi_apply 2)

theorem measurable_mk {α : Type} [MeasurableSpace α] {x y z : α → ℝ} (hx : Measurable x) (hy : Measurable y)
    (hz : Measurable z) : Measurable fun a => (⟨x a, y a, z a⟩ : V3 ℝ) := measurable_v3 hx hy hz

/-- the integral over space as an iterated integral -/
theorem space_iter {Φ : V3 ℝ → ℝ≥0∞} (hΦ : Measurable Φ) :
    ∫⁻ w, Φ (ofFin w) = ∫⁻ z : ℝ, ∫⁻ p : ℝ × ℝ, Φ ⟨p.1, p.2, z⟩ := by
  have m1 : Measurable fun q : ℝ × ℝ × ℝ => Φ ⟨q.2.1, q.2.2, q.1⟩ :=
    hΦ.comp (measurable_mk (measurable_fst.comp measurable_snd) (measurable_snd.comp measurable_snd) measurable_fst)
  have m2 : Measurable fun q : ℝ × (Fin 2 → ℝ) => Φ ⟨q.2 0, q.2 1, q.1⟩ :=
    hΦ.comp (measurable_mk ((measurable_pi_apply 0).comp measurable_snd)
      ((measurable_pi_apply 1).comp measurable_snd) measurable_fst)
  have e1 := (volume_preserving_piFinSuccAbove (fun _ : Fin 3 => ℝ) 2).lintegral_comp m2
  have e0 : (fun w : Fin 3 → ℝ => Φ (ofFin w)) = fun w =>
      Φ ⟨(MeasurableEquiv.piFinSuccAbove (fun _ : Fin 3 => ℝ) 2 w).2 0,
        (MeasurableEquiv.piFinSuccAbove (fun _ : Fin 3 => ℝ) 2 w).2 1,
        (MeasurableEquiv.piFinSuccAbove (fun _ : Fin 3 => ℝ) 2 w).1⟩ := by
    funext w
    rfl
  rw [e0, e1, Measure.volume_eq_prod, lintegral_prod _ m2.aemeasurable]
  refine lintegral_congr fun z => ?_
  have m3 : Measurable fun p : ℝ × ℝ => Φ ⟨p.1, p.2, z⟩ :=
    hΦ.comp (measurable_mk measurable_fst measurable_snd measurable_const)
  exact (volume_preserving_finTwoArrow ℝ).lintegral_comp m3

theorem polar {f : ℝ × ℝ → ℝ≥0∞} (hf : Measurable f) :
    ∫⁻ p, f p = ∫⁻ r in Set.Ioi (0 : ℝ), ∫⁻ θ in Set.Ioo (-Real.pi) Real.pi,
      ENNReal.ofReal r * f (r * Real.cos θ, r * Real.sin θ) := by
  rw [← lintegral_comp_polarCoord_symm]
  have ht : polarCoord.target = Set.Ioi (0 : ℝ) ×ˢ Set.Ioo (-Real.pi) Real.pi := rfl
  rw [ht, Measure.volume_eq_prod, ← Measure.prod_restrict, lintegral_prod]
  · rfl
  · have : Measurable fun p : ℝ × ℝ => ENNReal.ofReal p.1 • f (polarCoord.symm p) :=
      measurable_fst.ennreal_ofReal.smul (hf.comp continuous_polarCoord_symm.measurable)
    exact this.aemeasurable

/-! ### The direction of a point with a radial density -/

/-- density `1 / r²` in the unit ball -/
noncomputable def rad (r : ℝ) : ℝ≥0∞ :=
  (Set.Ioc (0 : ℝ) 1).indicator (fun r => (ENNReal.ofReal r * ENNReal.ofReal r)⁻¹) r

theorem measurable_rad : Measurable rad :=
  (measurable_id.ennreal_ofReal.mul measurable_id.ennreal_ofReal).inv.indicator measurableSet_Ioc

theorem rad_total : ∫⁻ r in Set.Ioi (0 : ℝ), ENNReal.ofReal r * ENNReal.ofReal r * rad r = 1 := by
  have h : ∀ r ∈ Set.Ioi (0 : ℝ), ENNReal.ofReal r * ENNReal.ofReal r * rad r
      = (Set.Ioc (0 : ℝ) 1).indicator (fun _ => 1) r := by
    intro r hr
    have hr : 0 < r := hr
    unfold rad
    by_cases h1 : r ∈ Set.Ioc (0 : ℝ) 1
    · rw [Set.indicator_of_mem h1, Set.indicator_of_mem h1]
      have h0 : ENNReal.ofReal r * ENNReal.ofReal r ≠ 0 :=
        mul_ne_zero (by simpa using hr) (by simpa using hr)
      exact ENNReal.mul_inv_cancel h0 (ENNReal.mul_ne_top ENNReal.ofReal_ne_top ENNReal.ofReal_ne_top)
    · rw [Set.indicator_of_notMem h1, Set.indicator_of_notMem h1, mul_zero]
  rw [setLIntegral_congr_fun measurableSet_Ioi h, lintegral_indicator_const measurableSet_Ioc,
    Measure.restrict_apply measurableSet_Ioc]
  rw [show Set.Ioc (0 : ℝ) 1 ∩ Set.Ioi 0 = Set.Ioc 0 1 from Set.inter_eq_left.2 fun x hx => hx.1]
  simp

/-- the radial density times a function of the direction -/
noncomputable def spread (f : V3 ℝ → ℝ≥0∞) (x : V3 ℝ) : ℝ≥0∞ := rad (len x) * f (smul (1 / len x) x)

theorem measurable_spread {f : V3 ℝ → ℝ≥0∞} (hf : Measurable f) : Measurable (spread f) := by
  have hi : Measurable fun x : V3 ℝ => 1 / len x := measurable_const.div measurable_len
  exact (measurable_rad.comp measurable_len).mul
    (hf.comp (measurable_mk (hi.mul measurable_x) (hi.mul measurable_y) (hi.mul measurable_z)))

theorem len_spherical {R α θ : ℝ} (hR : 0 < R) :
    len ⟨R * Real.sin α * Real.cos θ, R * Real.sin α * Real.sin θ, R * Real.cos α⟩ = R := by
  have h1 := Real.sin_sq_add_cos_sq α
  have h2 := Real.sin_sq_add_cos_sq θ
  unfold len dot
  rw [Real.sqrt_eq_iff_mul_self_eq_of_pos hR]
  have : R * Real.sin α * Real.cos θ * (R * Real.sin α * Real.cos θ)
      + R * Real.sin α * Real.sin θ * (R * Real.sin α * Real.sin θ) + R * Real.cos α * (R * Real.cos α)
      = R * R * (Real.sin α ^ 2 * (Real.sin θ ^ 2 + Real.cos θ ^ 2) + Real.cos α ^ 2) := by ring
  rw [this, h2, mul_one, h1, mul_one]

/-- one meridian half-plane -/
theorem meridian {f : V3 ℝ → ℝ≥0∞} (hf : Measurable f) (θ : ℝ) :
    ∫⁻ z : ℝ, ∫⁻ r in Set.Ioi (0 : ℝ), ENNReal.ofReal r * spread f ⟨r * Real.cos θ, r * Real.sin θ, z⟩
      = 2 * ∫⁻ u in Set.Ico (0 : ℝ) 1, f ⟨Real.sqrt (1 - (1 - 2 * u) ^ 2) * Real.cos θ,
          Real.sqrt (1 - (1 - 2 * u) ^ 2) * Real.sin θ, 1 - 2 * u⟩ := by
  have hs := measurable_spread hf
  have mG : Measurable fun p : ℝ × ℝ => ENNReal.ofReal p.2 * spread f ⟨p.2 * Real.cos θ, p.2 * Real.sin θ, p.1⟩ :=
    measurable_snd.ennreal_ofReal.mul (hs.comp (measurable_mk (measurable_snd.mul_const _)
      (measurable_snd.mul_const _) measurable_fst))
  have e1 : ∀ z : ℝ, ∫⁻ r in Set.Ioi (0 : ℝ), ENNReal.ofReal r * spread f ⟨r * Real.cos θ, r * Real.sin θ, z⟩
      = ∫⁻ r : ℝ, ENNReal.ofReal r * spread f ⟨r * Real.cos θ, r * Real.sin θ, z⟩ := by
    intro z
    rw [← lintegral_indicator measurableSet_Ioi]
    refine lintegral_congr fun r => ?_
    by_cases hr : r ∈ Set.Ioi (0 : ℝ)
    · rw [Set.indicator_of_mem hr]
    · rw [Set.indicator_of_notMem hr, ENNReal.ofReal_of_nonpos (not_lt.1 hr), zero_mul]
  simp only [e1]
  have e2 := lintegral_prod (μ := (volume : Measure ℝ)) (ν := (volume : Measure ℝ)) _ mG.aemeasurable
  dsimp only at e2
  rw [← e2, ← Measure.volume_eq_prod, polar mG]
  dsimp only
  -- for fixed radius
  have e3 : ∀ R ∈ Set.Ioi (0 : ℝ), ∫⁻ α in Set.Ioo (-Real.pi) Real.pi, ENNReal.ofReal R * (ENNReal.ofReal (R * Real.sin α)
        * spread f ⟨R * Real.sin α * Real.cos θ, R * Real.sin α * Real.sin θ, R * Real.cos α⟩)
      = ENNReal.ofReal R * ENNReal.ofReal R * rad R * (2 * ∫⁻ u in Set.Ico (0 : ℝ) 1,
          f ⟨Real.sqrt (1 - (1 - 2 * u) ^ 2) * Real.cos θ, Real.sqrt (1 - (1 - 2 * u) ^ 2) * Real.sin θ, 1 - 2 * u⟩) := by
    intro R hR
    have hR : 0 < R := hR
    rw [← height]
    have hk : ENNReal.ofReal R * ENNReal.ofReal R * rad R ≠ ⊤ := by
      unfold rad
      by_cases h1 : R ∈ Set.Ioc (0 : ℝ) 1
      · rw [Set.indicator_of_mem h1, ENNReal.mul_inv_cancel]
        · simp
        · exact mul_ne_zero (by simpa using hR) (by simpa using hR)
        · exact ENNReal.mul_ne_top ENNReal.ofReal_ne_top ENNReal.ofReal_ne_top
      · rw [Set.indicator_of_notMem h1, mul_zero]
        simp
    rw [← lintegral_const_mul' _ _ hk]
    refine setLIntegral_congr_fun measurableSet_Ioo fun α hα => ?_
    rw [ENNReal.ofReal_mul hR.le]
    by_cases hsin : Real.sin α ≤ 0
    · rw [ENNReal.ofReal_of_nonpos hsin]
      simp
    · have hsin := not_le.1 hsin
      unfold spread
      rw [len_spherical hR]
      have hsq : Real.sqrt (1 - (1 - 2 * ((1 - Real.cos α) / 2)) ^ 2) = Real.sin α := by
        rw [show 1 - (1 - 2 * ((1 - Real.cos α) / 2)) ^ 2 = Real.sin α ^ 2 by
          have := Real.sin_sq_add_cos_sq α
          nlinarith]
        exact Real.sqrt_sq hsin.le
      rw [hsq]
      have hdir : smul (1 / R) ⟨R * Real.sin α * Real.cos θ, R * Real.sin α * Real.sin θ, R * Real.cos α⟩
          = ⟨Real.sin α * Real.cos θ, Real.sin α * Real.sin θ, 1 - 2 * ((1 - Real.cos α) / 2)⟩ := by
        unfold smul
        ext <;> dsimp only <;> field_simp
        ring
      rw [hdir]
      ring
  rw [setLIntegral_congr_fun measurableSet_Ioi e3, lintegral_mul_const, rad_total, one_mul]
  exact (measurable_id.ennreal_ofReal.mul measurable_id.ennreal_ofReal).mul measurable_rad

/-- The random direction is the direction of a point of space with a radial density. -/
theorem sphere_space {f : V3 ℝ → ℝ≥0∞} (hf : Measurable f) :
    ∫⁻ w, spread f (ofFin w) = ENNReal.ofReal (2 * Real.pi) * (2 * ∫⁻ x, f x ∂sphereMeasure) := by
  have hs := measurable_spread hf
  rw [space_iter hs]
  have e1 : ∀ z : ℝ, ∫⁻ p : ℝ × ℝ, spread f ⟨p.1, p.2, z⟩ = ∫⁻ θ in Set.Ioo (-Real.pi) Real.pi,
      ∫⁻ r in Set.Ioi (0 : ℝ), ENNReal.ofReal r * spread f ⟨r * Real.cos θ, r * Real.sin θ, z⟩ := by
    intro z
    have m : Measurable fun p : ℝ × ℝ => spread f ⟨p.1, p.2, z⟩ :=
      hs.comp (measurable_mk measurable_fst measurable_snd measurable_const)
    rw [polar m, lintegral_lintegral_swap]
    have : Measurable fun q : ℝ × ℝ => ENNReal.ofReal q.1 * spread f ⟨q.1 * Real.cos q.2, q.1 * Real.sin q.2, z⟩ :=
      measurable_fst.ennreal_ofReal.mul (hs.comp (measurable_mk
        (measurable_fst.mul (Real.measurable_cos.comp measurable_snd))
        (measurable_fst.mul (Real.measurable_sin.comp measurable_snd)) measurable_const))
    exact this.aemeasurable
  simp only [e1]
  have m3 : Measurable fun q : (ℝ × ℝ) × ℝ => ENNReal.ofReal q.2
      * spread f ⟨q.2 * Real.cos q.1.2, q.2 * Real.sin q.1.2, q.1.1⟩ :=
    measurable_snd.ennreal_ofReal.mul (hs.comp (measurable_mk
      (measurable_snd.mul (Real.measurable_cos.comp (measurable_snd.comp measurable_fst)))
      (measurable_snd.mul (Real.measurable_sin.comp (measurable_snd.comp measurable_fst)))
      (measurable_fst.comp measurable_fst)))
  have m2 : Measurable fun q : ℝ × ℝ => ∫⁻ r in Set.Ioi (0 : ℝ), ENNReal.ofReal r
      * spread f ⟨r * Real.cos q.2, r * Real.sin q.2, q.1⟩ := m3.lintegral_prod_right'
  rw [lintegral_lintegral_swap (f := fun z θ => ∫⁻ r in Set.Ioi (0 : ℝ), ENNReal.ofReal r
      * spread f ⟨r * Real.cos θ, r * Real.sin θ, z⟩) m2.aemeasurable]
  simp only [meridian hf]
  rw [lintegral_const_mul' _ _ (by simp), azimuth, ← lintegral_sphere hf]
  · exact mul_left_comm _ _ _
  · intro θ
    simp only [Real.cos_add_two_pi, Real.sin_add_two_pi]

/-! ### Invariance under orthogonal maps -/

/-- matrix of a linear map of space -/
def matOf (O : V3 ℝ → V3 ℝ) : Matrix (Fin 3) (Fin 3) ℝ :=
  !![(O ⟨1, 0, 0⟩).x, (O ⟨0, 1, 0⟩).x, (O ⟨0, 0, 1⟩).x;
     (O ⟨1, 0, 0⟩).y, (O ⟨0, 1, 0⟩).y, (O ⟨0, 0, 1⟩).y;
     (O ⟨1, 0, 0⟩).z, (O ⟨0, 1, 0⟩).z, (O ⟨0, 0, 1⟩).z]

theorem Spec.Orthogonal.apply {O : V3 ℝ → V3 ℝ} (h : Orthogonal O) (v : V3 ℝ) :
    O v = Spec.add (Spec.add (Spec.smul v.x (O ⟨1, 0, 0⟩)) (Spec.smul v.y (O ⟨0, 1, 0⟩)))
      (Spec.smul v.z (O ⟨0, 0, 1⟩)) := by
  rw [← h.smul, ← h.smul, ← h.smul, ← h.add, ← h.add]
  congr 1
  ext <;> simp [Spec.add, Spec.smul]

theorem Spec.Orthogonal.sq {O : V3 ℝ → V3 ℝ} (h : Orthogonal O) (v : V3 ℝ) : dot (O v) (O v) = dot v v := by
  rw [← len_sq, ← len_sq, h.len]

theorem Spec.Orthogonal.dot {O : V3 ℝ → V3 ℝ} (h : Orthogonal O) (a b : V3 ℝ) : dot (O a) (O b) = dot a b := by
  have h1 := h.sq (Spec.add a b)
  have h2 := h.sq a
  have h3 := h.sq b
  rw [h.add] at h1
  simp only [Spec.dot, Spec.add] at *
  linarith

theorem Spec.Orthogonal.det {O : V3 ℝ → V3 ℝ} (h : Orthogonal O) : |(matOf O).det| = 1 := by
  have h1 : (matOf O).transpose * matOf O = 1 := by
    have a1 := h.dot ⟨1, 0, 0⟩ ⟨1, 0, 0⟩
    have a2 := h.dot ⟨1, 0, 0⟩ ⟨0, 1, 0⟩
    have a3 := h.dot ⟨1, 0, 0⟩ ⟨0, 0, 1⟩
    have a4 := h.dot ⟨0, 1, 0⟩ ⟨0, 1, 0⟩
    have a5 := h.dot ⟨0, 1, 0⟩ ⟨0, 0, 1⟩
    have a6 := h.dot ⟨0, 0, 1⟩ ⟨0, 0, 1⟩
    simp only [Spec.dot] at a1 a2 a3 a4 a5 a6
    ext i j
    fin_cases i <;> fin_cases j <;> simp [matOf, Matrix.mul_apply, Fin.sum_univ_three] <;> linarith
  have h2 := congrArg Matrix.det h1
  rw [Matrix.det_mul, Matrix.det_transpose, Matrix.det_one] at h2
  rcases mul_self_eq_one_iff.1 h2 with h4 | h4 <;> rw [h4] <;> simp

theorem Spec.Orthogonal.measurable {O : V3 ℝ → V3 ℝ} (h : Orthogonal O) : Measurable O := by
  rw [show O = _ from funext h.apply]
  unfold Spec.add Spec.smul
  exact measurable_mk
    (((measurable_x.mul_const _).add (measurable_y.mul_const _)).add (measurable_z.mul_const _))
    (((measurable_x.mul_const _).add (measurable_y.mul_const _)).add (measurable_z.mul_const _))
    (((measurable_x.mul_const _).add (measurable_y.mul_const _)).add (measurable_z.mul_const _))

theorem Spec.Orthogonal.ofFin {O : V3 ℝ → V3 ℝ} (h : Orthogonal O) (w : Fin 3 → ℝ) :
    O (ofFin w) = Verif.ofFin (Matrix.toLin' (matOf O) w) := by
  rw [h.apply]
  ext <;> simp [matOf, Verif.ofFin, Spec.add, Spec.smul, Matrix.mulVec, dotProduct, Fin.sum_univ_three] <;> ring

/-- The distribution of random directions is invariant under rotations and reflections. -/
theorem sphere_invariant {O : V3 ℝ → V3 ℝ} (h : Orthogonal O) {f : V3 ℝ → ℝ≥0∞} (hf : Measurable f) :
    ∫⁻ x, f (O x) ∂sphereMeasure = ∫⁻ x, f x ∂sphereMeasure := by
  have hO : Measurable fun x => f (O x) := hf.comp h.measurable
  have e1 := sphere_space hO
  have e2 := sphere_space hf
  have e3 : ∀ w, spread (fun x => f (O x)) (ofFin w) = spread f (ofFin (Matrix.toLin' (matOf O) w)) := by
    intro w
    rw [← h.ofFin]
    unfold spread
    rw [h.len]
    dsimp only
    rw [h.smul]
  have hdet : (matOf O).det ≠ 0 := by
    intro h0
    have := h.det
    rw [h0] at this
    simp at this
  have e4 : ∫⁻ w, spread f (ofFin (Matrix.toLin' (matOf O) w)) = ∫⁻ w, spread f (ofFin w) := by
    have m : Measurable fun w => spread f (ofFin w) := (measurable_spread hf).comp measurable_ofFin
    have mM : Measurable (Matrix.toLin' (matOf O)) := (LinearMap.continuous_of_finiteDimensional _).measurable
    rw [← lintegral_map (f := fun w => spread f (ofFin w)) m mM,
      Real.map_matrix_volume_pi_eq_smul_volume_pi hdet, abs_inv, h.det]
    simp
  simp only [e3] at e1
  rw [e4, e2] at e1
  have hpi : ENNReal.ofReal (2 * Real.pi) ≠ 0 := by
    have := Real.pi_pos
    simp only [ne_eq, ENNReal.ofReal_eq_zero, not_le]
    linarith
  have e5 := (ENNReal.mul_right_inj hpi ENNReal.ofReal_ne_top).1 e1
  exact ((ENNReal.mul_right_inj (by simp) (by simp)).1 e5).symm

end Verif
