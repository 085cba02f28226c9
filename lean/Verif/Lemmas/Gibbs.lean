/-
Helper lemmas: turning a spin leaves integrals over the spheres unchanged (integration by parts on the
sphere), and the generator of the Langevin dynamics has mean zero in the Boltzmann distribution.
-/
import Verif.Lemmas.Liouville
import Verif.Lemmas.LangevinEnergy
import Verif.Lemmas.Motion
import Verif.Lemmas.Taylor
import Verif.Spec.Thermostat
import Mathlib.Analysis.Calculus.ParametricIntegral
import Mathlib.Analysis.SpecialFunctions.ExpDeriv

namespace Verif

set_option linter.unusedSectionVars false

open Spec MeasureTheory Function

variable {L : ℕ}

theorem coords_toP (v : Fin L → V3 ℝ) : coords v = fun i => toP (v i) := rfl

theorem atSite_fld (v : Fin L → V3 ℝ) : atSite v = fld v := rfl

theorem norm_coords {v : Fin L → V3 ℝ} (hv : ∀ i, len (v i) = 1) : ‖coords v‖ ≤ 1 := by
  rw [pi_norm_le_iff_of_nonneg zero_le_one]
  intro i
  exact (norm_toP (v i)).trans (hv i).le

theorem meas_coords : Measurable fun v : Fin L → V3 ℝ => coords v :=
  measurable_pi_lambda _ fun i => measurable_xyz.comp (measurable_pi_apply i)

/-- displacement of one spin -/
def shift (i : Fin L) (w : V3 ℝ) : Fin L → ℝ × ℝ × ℝ := Pi.single i (toP w)

theorem norm_shift (i : Fin L) (w : V3 ℝ) : ‖shift i w‖ ≤ len w := by
  unfold shift
  rw [Pi.norm_single]
  exact norm_toP w

theorem shift_add (i : Fin L) (a b : V3 ℝ) : shift i (Spec.add a b) = shift i a + shift i b := by
  unfold shift
  rw [← Pi.single_add]
  rfl

theorem shift_sub (i : Fin L) (a b : V3 ℝ) : shift i (Spec.sub a b) = shift i a - shift i b := by
  unfold shift
  rw [← Pi.single_sub]
  rfl

theorem shift_smul (i : Fin L) (r : ℝ) (a : V3 ℝ) : shift i (Spec.smul r a) = r • shift i a := by
  unfold shift
  rw [← Pi.single_smul']
  rfl

theorem turned_zero (v : Fin L → V3 ℝ) (i : Fin L) (a : V3 ℝ) : turned v i a 0 = v := by
  unfold turned
  rw [precess_zero, update_eq_self]

theorem turned_self (v : Fin L → V3 ℝ) (i : Fin L) (a : V3 ℝ) (t : ℝ) : turned v i a t i = precess (v i) a t := by
  unfold turned
  rw [update_self]

theorem turned_len {v : Fin L → V3 ℝ} (hv : ∀ i, len (v i) = 1) (i : Fin L) (a : V3 ℝ) (t : ℝ) (k : Fin L) :
    len (turned v i a t k) = 1 := by
  unfold turned
  by_cases h : k = i
  · subst h
    rw [update_self, len_precess, hv]
  · rw [update_of_ne h, hv]

theorem coords_turned (v : Fin L → V3 ℝ) (i : Fin L) (a : V3 ℝ) (t : ℝ) :
    HasDerivAt (fun t => coords (turned v i a t)) (shift i (cross (precess (v i) a t) a)) t := by
  rw [hasDerivAt_pi]
  intro k
  unfold shift coords turned
  by_cases h : k = i
  · subst h
    simp only [update_self, Pi.single_eq_same]
    exact hasDeriv_toP (precess_hasDeriv (v k) a t)
  · simp only [update_of_ne h, Pi.single_eq_of_ne h]
    exact hasDerivAt_const _ _

theorem turn_hasDeriv {G : (Fin L → ℝ × ℝ × ℝ) → ℝ} (hG : Differentiable ℝ G) (v : Fin L → V3 ℝ) (i : Fin L)
    (a : V3 ℝ) (t : ℝ) : HasDerivAt (fun t => G (coords (turned v i a t)))
      (fderiv ℝ G (coords (turned v i a t)) (shift i (cross (turned v i a t i) a))) t := by
  rw [turned_self]
  exact (hG _).hasFDerivAt.comp_hasDerivAt t (coords_turned v i a t)

/-- derivative along the turn of spin `i` about `a` -/
noncomputable def lie (i : Fin L) (a : V3 ℝ) (G : (Fin L → ℝ × ℝ × ℝ) → ℝ) (x : Fin L → ℝ × ℝ × ℝ) : ℝ :=
  fderiv ℝ G x (shift i (cross (ofP (x i)) a))

theorem rate_eq {G : (Fin L → ℝ × ℝ × ℝ) → ℝ} (hG : Differentiable ℝ G) (v : Fin L → V3 ℝ) (i : Fin L) (a : V3 ℝ) :
    rateOf (fun v => G (coords v)) v i a = fderiv ℝ G (coords v) (shift i (cross (v i) a)) := by
  have := (turn_hasDeriv hG v i a 0).deriv
  rw [turned_zero] at this
  exact this

/-- the displacement of the turn as a linear function of the components -/
noncomputable def turnMap (i : Fin L) (a : V3 ℝ) : (Fin L → ℝ × ℝ × ℝ) →L[ℝ] (Fin L → ℝ × ℝ × ℝ) :=
  LinearMap.toContinuousLinearMap
    { toFun := fun x => shift i (cross (ofP (x i)) a)
      map_add' := fun x y => by
        rw [← shift_add]
        congr 1
        ext <;> simp only [cross, ofP, Spec.add, Pi.add_apply, Prod.fst_add, Prod.snd_add] <;> ring
      map_smul' := fun r x => by
        rw [RingHom.id_apply, ← shift_smul]
        congr 1
        ext <;> simp only [cross, ofP, Spec.smul, Pi.smul_apply, Prod.smul_fst, Prod.smul_snd, smul_eq_mul] <;> ring }

theorem turnMap_apply (i : Fin L) (a : V3 ℝ) (x : Fin L → ℝ × ℝ × ℝ) :
    turnMap i a x = shift i (cross (ofP (x i)) a) := rfl

theorem turnMap_shift (i : Fin L) (a w : V3 ℝ) : turnMap i a (shift i w) = shift i (cross w a) := by
  rw [turnMap_apply]
  unfold shift
  rw [Pi.single_eq_same]
  rfl

theorem lie_contDiff {G : (Fin L → ℝ × ℝ × ℝ) → ℝ} (hG : ContDiff ℝ 2 G) (i : Fin L) (a : V3 ℝ) :
    ContDiff ℝ 1 (lie i a G) := by
  have h1 : ContDiff ℝ 1 (fderiv ℝ G) := hG.fderiv_right (by norm_num)
  exact h1.clm_apply (turnMap i a).contDiff

theorem lie_fderiv {G : (Fin L → ℝ × ℝ × ℝ) → ℝ} (hG : ContDiff ℝ 2 G) (i : Fin L) (a w : V3 ℝ)
    (x : Fin L → ℝ × ℝ × ℝ) : fderiv ℝ (lie i a G) x (shift i w)
      = fderiv ℝ (fderiv ℝ G) x (shift i w) (shift i (cross (ofP (x i)) a)) + fderiv ℝ G x (shift i (cross w a)) := by
  have h1 : ContDiff ℝ 1 (fderiv ℝ G) := hG.fderiv_right (by norm_num)
  have h2 := ((h1.differentiable (by norm_num) x).hasFDerivAt).clm_apply ((turnMap i a).hasFDerivAt (x := x))
  have h3 : HasFDerivAt (lie i a G) _ x := h2
  rw [h3.fderiv]
  simp only [_root_.add_apply, ContinuousLinearMap.comp_apply, ContinuousLinearMap.flip_apply,
    turnMap_apply]
  rw [add_comm]
  congr 2
  unfold shift
  rw [Pi.single_eq_same]
  rfl

theorem second_eq {G : (Fin L → ℝ × ℝ × ℝ) → ℝ} (hG : ContDiff ℝ 2 G) (v : Fin L → V3 ℝ) (i : Fin L) (a : V3 ℝ) :
    iteratedDeriv 2 (fun t => G (coords (turned v i a t))) 0
      = fderiv ℝ (lie i a G) (coords v) (shift i (cross (v i) a)) := by
  have h1 : deriv (fun t => G (coords (turned v i a t))) = fun t => lie i a G (coords (turned v i a t)) := by
    funext t
    exact (turn_hasDeriv (hG.differentiable (by norm_num)) v i a t).deriv
  rw [iteratedDeriv_succ, iteratedDeriv_one, h1]
  have := (turn_hasDeriv ((lie_contDiff hG i a).differentiable (by norm_num)) v i a 0).deriv
  rw [turned_zero] at this
  exact this

/-! ### integration by parts -/

theorem turn_preserving (i : Fin L) {ax : (Fin L → V3 ℝ) → V3 ℝ} (hax : Measurable ax)
    (hi : ∀ v y, ax (update v i y) = ax v) (t : ℝ) :
    MeasurePreserving (fun v : Fin L → V3 ℝ => turned v i (ax v) t) (Measure.pi fun _ => sphereMeasure)
      (Measure.pi fun _ => sphereMeasure) :=
  site_preserving (σ := sphereMeasure) (g := fun v x => precess x (ax v) t) i
    (meas_precess measurable_snd (hax.comp measurable_fst) t) (fun v y x => by rw [hi])
    (fun v h hh => sphere_invariant (precess_orthogonal _ t) hh)

theorem unit_ae : ∀ᵐ v ∂(Measure.pi fun _ : Fin L => sphereMeasure), ∀ i, len (v i) = 1 :=
  Markov.good_ae (L := L) sphere_ae

/-- bounded measurable functions are integrable over the configurations -/
theorem config_integrable {g : (Fin L → V3 ℝ) → ℝ} (hg : Measurable g) {K : ℝ}
    (hK : ∀ v, (∀ i, len (v i) = 1) → |g v| ≤ K) : Integrable g (Measure.pi fun _ : Fin L => sphereMeasure) :=
  Integrable.of_bound hg.aestronglyMeasurable K (unit_ae.mono fun v hv => hK v hv)

theorem smooth_integrable {G : (Fin L → ℝ × ℝ × ℝ) → ℝ} (hG : Continuous G) :
    Integrable (fun v => G (coords v)) (Measure.pi fun _ : Fin L => sphereMeasure) := by
  obtain ⟨K, _, hK⟩ := ball_bound hG 1
  exact config_integrable (hG.measurable.comp meas_coords) fun v hv => hK _ (norm_coords hv)

theorem meas_shift {α : Type} [MeasurableSpace α] (i : Fin L) {w : α → V3 ℝ} (hw : Measurable w) :
    Measurable fun t => shift i (w t) := by
  refine measurable_pi_lambda _ fun k => ?_
  unfold shift
  by_cases h : k = i
  · subst h
    simp only [Pi.single_eq_same]
    exact measurable_xyz.comp hw
  · simp only [Pi.single_eq_of_ne h]
    exact measurable_const

theorem meas_apply {α : Type} [MeasurableSpace α] {A : α → (Fin L → ℝ × ℝ × ℝ) →L[ℝ] ℝ} {w : α → Fin L → ℝ × ℝ × ℝ}
    (hA : Measurable A) (hw : Measurable w) : Measurable fun t => A t (w t) := by
  have hc : Continuous fun p : ((Fin L → ℝ × ℝ × ℝ) →L[ℝ] ℝ) × (Fin L → ℝ × ℝ × ℝ) => p.1 p.2 :=
    isBoundedBilinearMap_apply.continuous
  exact hc.measurable.comp (hA.prodMk hw)

/-- The derivative along a turn about an axis that does not depend on the spin turned has mean zero. -/
theorem turn_mean {G : (Fin L → ℝ × ℝ × ℝ) → ℝ} (hG : ContDiff ℝ 1 G) (i : Fin L) {ax : (Fin L → V3 ℝ) → V3 ℝ}
    (hax : Measurable ax) (hi : ∀ v y, ax (update v i y) = ax v) {M : ℝ}
    (hM : ∀ v, (∀ i, len (v i) = 1) → len (ax v) ≤ M) :
    ∫ v, fderiv ℝ G (coords v) (shift i (cross (v i) (ax v))) ∂(Measure.pi fun _ : Fin L => sphereMeasure) = 0 := by
  obtain ⟨K, K0, hK⟩ := ball_bound (hG.continuous_fderiv (by norm_num)) 1
  have hm : Measurable fun v : Fin L → V3 ℝ => fderiv ℝ G (coords v) (shift i (cross (v i) (ax v))) :=
    meas_apply ((hG.continuous_fderiv (by norm_num)).measurable.comp meas_coords)
      (meas_shift i (meas_cross (measurable_pi_apply i) hax))
  have hd := hasDerivAt_integral_of_dominated_loc_of_deriv_le (μ := Measure.pi fun _ : Fin L => sphereMeasure)
    (F := fun t v => G (coords (turned v i (ax v) t))) (x₀ := (0 : ℝ)) (s := Set.univ) (bound := fun _ => K * M)
    (F' := fun t v => fderiv ℝ G (coords (turned v i (ax v) t)) (shift i (cross (turned v i (ax v) t i) (ax v))))
    Filter.univ_mem
    (Filter.Eventually.of_forall fun t => (hG.continuous.measurable.comp
      (meas_coords.comp (turn_preserving i hax hi t).measurable)).aestronglyMeasurable)
    (by simp only [turned_zero]; exact smooth_integrable hG.continuous)
    (by simp only [turned_zero]; exact hm.aestronglyMeasurable)
    (unit_ae.mono fun v hv t _ => by
      refine (ContinuousLinearMap.le_opNorm _ _).trans ?_
      have h1 := hK _ (norm_coords (turned_len hv i (ax v) t))
      have h2 : ‖shift i (cross (turned v i (ax v) t i) (ax v))‖ ≤ M := by
        refine (norm_shift _ _).trans ((len_cross_le _ _).trans ?_)
        rw [turned_len hv, one_mul]
        exact hM v hv
      exact mul_le_mul h1 h2 (norm_nonneg _) K0)
    (integrable_const _)
    (Filter.Eventually.of_forall fun v t _ => turn_hasDeriv (hG.differentiable (by norm_num)) v i (ax v) t)
  have hc : (fun t => ∫ v, G (coords (turned v i (ax v) t)) ∂(Measure.pi fun _ : Fin L => sphereMeasure))
      = fun _ => ∫ v, G (coords v) ∂(Measure.pi fun _ : Fin L => sphereMeasure) := by
    funext t
    have hp := turn_preserving i hax hi t
    have := integral_map (μ := Measure.pi fun _ : Fin L => sphereMeasure) hp.measurable.aemeasurable
      (f := fun v => G (coords v)) (hG.continuous.measurable.comp meas_coords).aestronglyMeasurable
    rw [hp.map_eq] at this
    exact this.symm
  have h2 := hd.2
  rw [hc] at h2
  have h3 := h2.unique (hasDerivAt_const (0 : ℝ) _)
  simp only [turned_zero] at h3
  exact h3

/-! ### the Boltzmann weight -/

section
variable {m : ℕ} {β γ : ℝ} {J B : ℕ → V3 ℝ}

/-- energy and weight as functions of the components -/
noncomputable def enP (m : ℕ) (J B : ℕ → V3 ℝ) (x : Fin L → ℝ × ℝ × ℝ) : ℝ :=
  openEnergy m (atSite fun i => ofP (x i)) J B
noncomputable def wtP (m : ℕ) (β : ℝ) (J B : ℕ → V3 ℝ) (x : Fin L → ℝ × ℝ × ℝ) : ℝ :=
  Real.exp (-(β * enP m J B x))

theorem wtP_coords (v : Fin L → V3 ℝ) : wtP m β J B (coords v) = openWeight m β J B v := rfl

theorem atSite_smooth (k : ℕ) {n : WithTop ℕ∞} : ContDiff ℝ n (fun x : Fin L → ℝ × ℝ × ℝ => (atSite (fun i => ofP (x i)) k).x) ∧
    ContDiff ℝ n (fun x : Fin L → ℝ × ℝ × ℝ => (atSite (fun i => ofP (x i)) k).y) ∧
    ContDiff ℝ n (fun x : Fin L → ℝ × ℝ × ℝ => (atSite (fun i => ofP (x i)) k).z) := by
  unfold atSite
  by_cases h : k < L
  · simp only [h, dite_true]
    have h1 : ContDiff ℝ n fun x : Fin L → ℝ × ℝ × ℝ => x ⟨k, h⟩ := contDiff_apply ℝ (ℝ × ℝ × ℝ) _
    exact ⟨contDiff_fst.comp h1, contDiff_fst.comp (contDiff_snd.comp h1), contDiff_snd.comp (contDiff_snd.comp h1)⟩
  · simp only [h, dite_false]
    exact ⟨contDiff_const, contDiff_const, contDiff_const⟩

theorem enP_smooth {n : WithTop ℕ∞} : ContDiff ℝ n (enP (L := L) m J B) := by
  unfold enP openEnergy
  refine ContDiff.add (ContDiff.sum fun k _ => ?_) (ContDiff.sum fun k _ => ?_)
  · obtain ⟨a1, a2, a3⟩ := atSite_smooth (L := L) k (n := n)
    obtain ⟨b1, b2, b3⟩ := atSite_smooth (L := L) (k + 1) (n := n)
    exact (((a1.mul (contDiff_const.mul b1)).add (a2.mul (contDiff_const.mul b2))).add
      (a3.mul (contDiff_const.mul b3))).neg
  · obtain ⟨a1, a2, a3⟩ := atSite_smooth (L := L) k (n := n)
    exact ((contDiff_const.mul a1).add (contDiff_const.mul a2)).add (contDiff_const.mul a3)

theorem wtP_smooth {n : WithTop ℕ∞} : ContDiff ℝ n (wtP (L := L) m β J B) :=
  ((contDiff_const.mul enP_smooth).neg).exp

theorem enP_fderiv (x : Fin L → ℝ × ℝ × ℝ) (i : Fin L) (hi : (i : ℕ) < m) (w : V3 ℝ) :
    fderiv ℝ (enP m J B) x (shift i w) = -dot w (openOmega m (atSite fun i => ofP (x i)) J B i) := by
  have h1 : HasDerivAt (fun t : ℝ => x + t • shift i w) (shift i w) 0 := by
    have := ((hasDerivAt_id (0 : ℝ)).smul_const (shift i w)).const_add x
    simpa using this
  have hx : x + (0 : ℝ) • shift i w = x := by rw [zero_smul, add_zero]
  have hfd : HasFDerivAt (enP m J B) (fderiv ℝ (enP m J B) x) (x + (0 : ℝ) • shift i w) := by
    rw [hx]
    exact (enP_smooth.differentiable (n := 1) (by norm_num) x).hasFDerivAt
  have h2 := hfd.comp_hasDerivAt (0 : ℝ) h1
  have h3 := openEnergy_deriv (m := m) (J := J) (S := fun t => atSite fun k => ofP ((x + t • shift i w) k))
    (B := fun _ => B) (S' := fun k => if k = (i : ℕ) then w else zero) (B' := fun _ => zero)
    (fun k _ => by
      unfold atSite
      by_cases h : k < L
      · simp only [h, dite_true]
        refine hasDeriv_ofP ?_
        have h4 := hasDerivAt_pi.1 h1 ⟨k, h⟩
        refine h4.congr_deriv ?_
        unfold shift
        by_cases e : k = (i : ℕ)
        · subst e
          simp
        · rw [Pi.single_eq_of_ne (by intro e'; exact e (by rw [← e']))]
          rw [if_neg e]
          rfl
      · simp only [h, dite_false]
        rw [if_neg (by have := i.2; omega)]
        exact hasDeriv3_const _ _)
    (fun k _ => hasDeriv3_const _ _)
  have h4 := h2.unique h3
  rw [h4]
  simp only [hx]
  rw [Finset.sum_eq_single (i : ℕ)]
  · simp only [if_true, dot, zero]
    ring
  · intro k _ hk
    simp only [if_neg hk, dot, zero]
    ring
  · intro h
    exact absurd (Finset.mem_range.2 hi) h

theorem wtP_fderiv (x : Fin L → ℝ × ℝ × ℝ) (i : Fin L) (hi : (i : ℕ) < m) (w : V3 ℝ) :
    fderiv ℝ (wtP m β J B) x (shift i w)
      = β * dot w (openOmega m (atSite fun i => ofP (x i)) J B i) * wtP m β J B x := by
  have h1 := (enP_smooth.differentiable (n := 1) (by norm_num) x : DifferentiableAt ℝ (enP m J B) x).hasFDerivAt
  have h2 := ((h1.const_mul β).neg).exp
  have h3 : HasFDerivAt (wtP m β J B) _ x := h2
  rw [h3.fderiv]
  simp only [_root_.smul_apply, _root_.neg_apply, smul_eq_mul, enP_fderiv x i hi, Pi.neg_apply]
  unfold wtP
  ring

theorem openOmega_other (v : Fin L → V3 ℝ) (i : Fin L) (y : V3 ℝ) :
    openOmega m (atSite (update v i y)) J B i = openOmega m (atSite v) J B i := by
  simp only [atSite_fld]
  unfold openOmega
  by_cases h0 : 0 < (i : ℕ)
  · rw [fld_update_ne v i y (by omega : (i : ℕ) - 1 ≠ i), fld_update_ne v i y (by omega : (i : ℕ) + 1 ≠ i)]
  · rw [if_neg h0, if_neg h0, fld_update_ne v i y (by omega : (i : ℕ) + 1 ≠ i)]

theorem meas_openOmega (i : ℕ) : Measurable fun v : Fin L → V3 ℝ => openOmega m (atSite v) J B i := by
  simp only [atSite_fld]
  unfold openOmega
  refine meas_sub (meas_add ?_ ?_) measurable_const
  · split
    · exact meas_had measurable_const (meas_fld _)
    · exact measurable_const
  · split
    · exact meas_had measurable_const (meas_fld _)
    · exact measurable_const

theorem atSite_len {v : Fin L → V3 ℝ} (hv : ∀ i, len (v i) = 1) (k : ℕ) : len (atSite v k) ≤ 1 := by
  unfold atSite
  split
  · exact (hv _).le
  · rw [len_zero]; exact zero_le_one

theorem openOmega_bound (i : ℕ) : ∃ M, ∀ v : Fin L → V3 ℝ, (∀ i, len (v i) = 1) →
    len (openOmega m (atSite v) J B i) ≤ M := by
  refine ⟨len (J (i - 1)) + len (J i) + len (B i), fun v hv => ?_⟩
  unfold openOmega
  refine (len_sub_le _ _).trans (add_le_add_left ((len_add_le _ _).trans (add_le_add ?_ ?_)) _)
  · split
    · exact (len_had_le _ _).trans (mul_le_of_le_one_right (len_nonneg _) (atSite_len hv _))
    · rw [len_zero]; exact len_nonneg _
  · split
    · exact (len_had_le _ _).trans (mul_le_of_le_one_right (len_nonneg _) (atSite_len hv _))
    · rw [len_zero]; exact len_nonneg _

theorem prod_fderiv {F G : (Fin L → ℝ × ℝ × ℝ) → ℝ} (hF : ContDiff ℝ 1 F) (hG : ContDiff ℝ 1 G)
    (x d : Fin L → ℝ × ℝ × ℝ) :
    fderiv ℝ (fun x => F x * G x) x d = fderiv ℝ F x d * G x + F x * fderiv ℝ G x d := by
  have h := ((hF.differentiable (by norm_num) x).hasFDerivAt.mul (hG.differentiable (by norm_num) x).hasFDerivAt)
  have h' : HasFDerivAt (fun x => F x * G x) _ x := h
  rw [h'.fderiv]
  simp only [_root_.add_apply, _root_.smul_apply, smul_eq_mul]
  ring

/-- turning about the local field changes nothing on average -/
theorem turn_omega_mean {F : (Fin L → ℝ × ℝ × ℝ) → ℝ} (hF : ContDiff ℝ 1 F) (i : Fin L) (hi : (i : ℕ) < m) :
    ∫ v, rateOf (fun v => F (coords v)) v i (openOmega m (atSite v) J B i) * openWeight m β J B v
      ∂(Measure.pi fun _ : Fin L => sphereMeasure) = 0 := by
  obtain ⟨M, hM⟩ := openOmega_bound (L := L) (m := m) (J := J) (B := B) i
  have h := turn_mean (hF.mul (wtP_smooth (m := m) (β := β) (J := J) (B := B))) i (meas_openOmega i)
    (fun v y => openOmega_other v i y) hM
  rw [← h]
  congr 1
  funext v
  rw [rate_eq (hF.differentiable (by norm_num)), prod_fderiv hF wtP_smooth, wtP_fderiv _ i hi, wtP_coords]
  have : dot (cross (v i) (openOmega m (atSite v) J B i)) (openOmega m (atSite fun k => ofP (coords v k)) J B i) = 0 :=
    work_zero _ _
  rw [this]
  ring

theorem ex_sum (S Ω : V3 ℝ) :
    Spec.add (Spec.add (Spec.smul (dot (cross S ⟨1, 0, 0⟩) Ω) (cross S ⟨1, 0, 0⟩))
      (Spec.smul (dot (cross S ⟨0, 1, 0⟩) Ω) (cross S ⟨0, 1, 0⟩)))
      (Spec.smul (dot (cross S ⟨0, 0, 1⟩) Ω) (cross S ⟨0, 0, 1⟩)) = Spec.smul (-1) (cross S (cross S Ω)) := by
  ext <;> simp only [Spec.add, Spec.smul, dot, cross] <;> ring

/-- damping and diffusion of an edge spin balance on average -/
theorem edge_mean {F : (Fin L → ℝ × ℝ × ℝ) → ℝ} (hF : ContDiff ℝ 2 F) (i : Fin L) (hi : (i : ℕ) < m) (hβ : β ≠ 0) :
    ∫ v, (γ / β * laplace (fun v => F (coords v)) v i
        - γ * rateOf (fun v => F (coords v)) v i (cross (v i) (openOmega m (atSite v) J B i))) * openWeight m β J B v
      ∂(Measure.pi fun _ : Fin L => sphereMeasure) = 0 := by
  have key : ∀ a : V3 ℝ, ∫ v, fderiv ℝ (fun x => lie i a F x * wtP m β J B x) (coords v) (shift i (cross (v i) a))
      ∂(Measure.pi fun _ : Fin L => sphereMeasure) = 0 := fun a =>
    turn_mean ((lie_contDiff hF i a).mul wtP_smooth) i (ax := fun _ => a) measurable_const (fun _ _ => rfl)
      (M := len a) fun _ _ => le_rfl
  have hint : ∀ a : V3 ℝ, Integrable (fun v => fderiv ℝ (fun x => lie i a F x * wtP m β J B x) (coords v)
      (shift i (cross (v i) a))) (Measure.pi fun _ : Fin L => sphereMeasure) := by
    intro a
    have hc : Continuous fun x : Fin L → ℝ × ℝ × ℝ => fderiv ℝ (fun x => lie i a F x * wtP m β J B x) x (turnMap i a x) :=
      (((lie_contDiff hF i a).mul (wtP_smooth (m := m) (β := β) (J := J) (B := B))).continuous_fderiv
        (by norm_num)).clm_apply (turnMap i a).continuous
    exact smooth_integrable hc
  have e : ∀ v : Fin L → V3 ℝ, (γ / β * laplace (fun v => F (coords v)) v i
        - γ * rateOf (fun v => F (coords v)) v i (cross (v i) (openOmega m (atSite v) J B i))) * openWeight m β J B v
      = γ / β * (fderiv ℝ (fun x => lie i ⟨1, 0, 0⟩ F x * wtP m β J B x) (coords v) (shift i (cross (v i) ⟨1, 0, 0⟩))
        + fderiv ℝ (fun x => lie i ⟨0, 1, 0⟩ F x * wtP m β J B x) (coords v) (shift i (cross (v i) ⟨0, 1, 0⟩))
        + fderiv ℝ (fun x => lie i ⟨0, 0, 1⟩ F x * wtP m β J B x) (coords v) (shift i (cross (v i) ⟨0, 0, 1⟩))) := by
    intro v
    unfold laplace
    rw [second_eq hF, second_eq hF, second_eq hF, rate_eq (hF.differentiable (by norm_num)),
      prod_fderiv (lie_contDiff hF i _) wtP_smooth, prod_fderiv (lie_contDiff hF i _) wtP_smooth,
      prod_fderiv (lie_contDiff hF i _) wtP_smooth, wtP_fderiv _ i hi, wtP_fderiv _ i hi, wtP_fderiv _ i hi, wtP_coords]
    have hs := congrArg (fun w => fderiv ℝ F (coords v) (shift i w)) (ex_sum (v i) (openOmega m (atSite v) J B i))
    simp only [shift_add, shift_smul, map_add, map_smul, smul_eq_mul] at hs
    have hl : ∀ a, lie i a F (coords v) = fderiv ℝ F (coords v) (shift i (cross (v i) a)) := fun a => rfl
    have ho : (openOmega m (atSite fun k => ofP (coords v k)) J B i) = openOmega m (atSite v) J B i := rfl
    rw [hl, hl, hl, ho]
    have hr : fderiv ℝ F (coords v) (shift i (cross (v i) (cross (v i) (openOmega m (atSite v) J B i))))
      = -(dot (cross (v i) ⟨1, 0, 0⟩) (openOmega m (atSite v) J B i) * fderiv ℝ F (coords v) (shift i (cross (v i) ⟨1, 0, 0⟩))
        + dot (cross (v i) ⟨0, 1, 0⟩) (openOmega m (atSite v) J B i) * fderiv ℝ F (coords v) (shift i (cross (v i) ⟨0, 1, 0⟩))
        + dot (cross (v i) ⟨0, 0, 1⟩) (openOmega m (atSite v) J B i) * fderiv ℝ F (coords v) (shift i (cross (v i) ⟨0, 0, 1⟩))) := by
      linarith
    rw [hr]
    field_simp
    ring
  simp only [e]
  have h12 : Integrable (fun v => fderiv ℝ (fun x => lie i ⟨1, 0, 0⟩ F x * wtP m β J B x) (coords v) (shift i (cross (v i) ⟨1, 0, 0⟩))
        + fderiv ℝ (fun x => lie i ⟨0, 1, 0⟩ F x * wtP m β J B x) (coords v) (shift i (cross (v i) ⟨0, 1, 0⟩)))
      (Measure.pi fun _ : Fin L => sphereMeasure) := (hint _).add (hint _)
  rw [integral_const_mul, integral_add h12 (hint _), integral_add (hint _) (hint _), key, key, key]
  ring

theorem rate_integrable {F : (Fin L → ℝ × ℝ × ℝ) → ℝ} (hF : ContDiff ℝ 1 F) (i : Fin L) {ax : (Fin L → V3 ℝ) → V3 ℝ}
    (hax : Measurable ax) {M : ℝ} (hM : ∀ v, (∀ i, len (v i) = 1) → len (ax v) ≤ M) :
    Measurable (fun v => rateOf (fun v => F (coords v)) v i (ax v)) ∧
      ∃ K, ∀ v, (∀ i, len (v i) = 1) → |rateOf (fun v => F (coords v)) v i (ax v)| ≤ K := by
  simp only [rate_eq (hF.differentiable (by norm_num))]
  obtain ⟨K, K0, hK⟩ := ball_bound (hF.continuous_fderiv (by norm_num)) 1
  refine ⟨meas_apply ((hF.continuous_fderiv (by norm_num)).measurable.comp meas_coords)
      (meas_shift i (meas_cross (measurable_pi_apply i) hax)), K * M, fun v hv => ?_⟩
  rw [← Real.norm_eq_abs]
  refine (ContinuousLinearMap.le_opNorm _ _).trans ?_
  refine mul_le_mul (hK _ (norm_coords hv)) ?_ (norm_nonneg _) K0
  refine (norm_shift _ _).trans ((len_cross_le _ _).trans ?_)
  rw [hv, one_mul]
  exact hM v hv

theorem laplace_cont {F : (Fin L → ℝ × ℝ × ℝ) → ℝ} (hF : ContDiff ℝ 2 F) (i : Fin L) :
    ∃ G : (Fin L → ℝ × ℝ × ℝ) → ℝ, Continuous G ∧ ∀ v, laplace (fun v => F (coords v)) v i = G (coords v) := by
  have hc : ∀ a, Continuous fun x : Fin L → ℝ × ℝ × ℝ => fderiv ℝ (lie i a F) x (turnMap i a x) := fun a =>
    ((lie_contDiff hF i a).continuous_fderiv (by norm_num)).clm_apply (turnMap i a).continuous
  refine ⟨_, ((hc ⟨1, 0, 0⟩).add (hc ⟨0, 1, 0⟩)).add (hc ⟨0, 0, 1⟩), fun v => ?_⟩
  unfold laplace
  rw [second_eq hF, second_eq hF, second_eq hF]
  rfl

theorem weight_facts : Measurable (fun v : Fin L → V3 ℝ => openWeight m β J B v) ∧
    ∃ K, 0 ≤ K ∧ ∀ v : Fin L → V3 ℝ, (∀ i, len (v i) = 1) → |openWeight m β J B v| ≤ K := by
  have hc : Continuous (wtP (L := L) m β J B) := (wtP_smooth (n := 1)).continuous
  obtain ⟨K, K0, hK⟩ := ball_bound hc 1
  simp only [← wtP_coords]
  refine ⟨hc.measurable.comp meas_coords, K, K0, fun v hv => ?_⟩
  rw [← Real.norm_eq_abs]
  exact hK _ (norm_coords hv)

/-- measurable and bounded on unit spins -/
def Nice (g : (Fin L → V3 ℝ) → ℝ) : Prop := Measurable g ∧ ∃ K, ∀ v, (∀ i, len (v i) = 1) → |g v| ≤ K

theorem Nice.integrable {g : (Fin L → V3 ℝ) → ℝ} (h : Nice g) :
    Integrable g (Measure.pi fun _ : Fin L => sphereMeasure) := config_integrable h.1 h.2.choose_spec

theorem Nice.add {g h : (Fin L → V3 ℝ) → ℝ} (hg : Nice g) (hh : Nice h) : Nice fun v => g v + h v := by
  obtain ⟨m1, K, h1⟩ := hg
  obtain ⟨m2, M, h2⟩ := hh
  exact ⟨m1.add m2, K + M, fun v hv => (abs_add_le _ _).trans (add_le_add (h1 v hv) (h2 v hv))⟩

theorem Nice.mul {g h : (Fin L → V3 ℝ) → ℝ} (hg : Nice g) (hh : Nice h) : Nice fun v => g v * h v := by
  obtain ⟨m1, K, h1⟩ := hg
  obtain ⟨m2, M, h2⟩ := hh
  refine ⟨m1.mul m2, K * M, fun v hv => ?_⟩
  rw [abs_mul]
  exact mul_le_mul (h1 v hv) (h2 v hv) (abs_nonneg _) ((abs_nonneg _).trans (h1 v hv))

theorem Nice.const (k : ℝ) : Nice fun _ : Fin L → V3 ℝ => k := ⟨measurable_const, |k|, fun _ _ => le_rfl⟩

theorem Nice.sub {g h : (Fin L → V3 ℝ) → ℝ} (hg : Nice g) (hh : Nice h) : Nice fun v => g v - h v := by
  have := hg.add ((Nice.const (-1)).mul hh)
  simpa [sub_eq_add_neg] using this

theorem Nice.smooth {G : (Fin L → ℝ × ℝ × ℝ) → ℝ} (hG : Continuous G) : Nice fun v : Fin L → V3 ℝ => G (coords v) := by
  obtain ⟨K, _, hK⟩ := ball_bound hG 1
  exact ⟨hG.measurable.comp meas_coords, K, fun v hv => hK _ (norm_coords hv)⟩

theorem Nice.sum {ι : Type} (s : Finset ι) {g : ι → (Fin L → V3 ℝ) → ℝ} (hg : ∀ i ∈ s, Nice (g i)) :
    Nice fun v => ∑ i ∈ s, g i v := by
  classical
  induction s using Finset.induction_on with
  | empty => simpa using Nice.const (L := L) 0
  | insert a s ha ih =>
    simp only [Finset.sum_insert ha]
    exact (hg a (Finset.mem_insert_self a s)).add (ih fun i hi => hg i (Finset.mem_insert_of_mem hi))

theorem rate_nice {F : (Fin L → ℝ × ℝ × ℝ) → ℝ} (hF : ContDiff ℝ 1 F) (i : Fin L) :
    Nice fun v => rateOf (fun v => F (coords v)) v i (openOmega m (atSite v) J B i) := by
  obtain ⟨M, hM⟩ := openOmega_bound (L := L) (m := m) (J := J) (B := B) i
  exact rate_integrable hF i (meas_openOmega i) hM

theorem edge_nice {F : (Fin L → ℝ × ℝ × ℝ) → ℝ} (hF : ContDiff ℝ 2 F) (i : Fin L) :
    Nice fun v => γ / β * laplace (fun v => F (coords v)) v i
        - γ * rateOf (fun v => F (coords v)) v i (cross (v i) (openOmega m (atSite v) J B i)) := by
  obtain ⟨M, hM⟩ := openOmega_bound (L := L) (m := m) (J := J) (B := B) i
  obtain ⟨G, hG, e⟩ := laplace_cont hF i
  have h1 : Nice fun v => laplace (fun v => F (coords v)) v i := by
    simp only [e]
    exact Nice.smooth hG
  have h2 : Nice fun v => rateOf (fun v => F (coords v)) v i (cross (v i) (openOmega m (atSite v) J B i)) :=
    rate_integrable (hF.of_le (by norm_num)) i (ax := fun v => cross (v i) (openOmega m (atSite v) J B i))
      (meas_cross (measurable_pi_apply i) (meas_openOmega i)) (M := M)
      (fun v hv => (len_cross_le _ _).trans (by rw [hv, one_mul]; exact hM v hv))
  exact ((Nice.const _).mul h1).sub ((Nice.const _).mul h2)

theorem generator_nice {F : (Fin L → ℝ × ℝ × ℝ) → ℝ} (hF : ContDiff ℝ 2 F) :
    Nice (generator (L := L) m γ β J B fun v => F (coords v)) := by
  unfold generator
  refine Nice.sum Finset.univ fun i _ => Nice.add ?_ ?_
  · by_cases h : (i : ℕ) < m
    · simp only [h, if_true]
      exact rate_nice (hF.of_le (by norm_num)) i
    · simp only [h, if_false]
      exact Nice.const 0
  · by_cases h : (i : ℕ) = 0 ∨ (i : ℕ) + 1 = m
    · simp only [h, if_true]
      exact edge_nice hF i
    · simp only [h, if_false]
      exact Nice.const 0

theorem weight_nice : Nice fun v : Fin L → V3 ℝ => openWeight m β J B v := by
  obtain ⟨h1, K, _, h2⟩ := weight_facts (L := L) (m := m) (β := β) (J := J) (B := B)
  exact ⟨h1, K, h2⟩

/-- The Boltzmann distribution is stationary for the generator. -/
theorem generator_mean {F : (Fin L → ℝ × ℝ × ℝ) → ℝ} (hF : ContDiff ℝ 2 F) (hm : 0 < m) (hβ : β ≠ 0) :
    openSum L m β J B (generator m γ β J B fun v => F (coords v)) = 0 := by
  have hW : Nice fun v : Fin L → V3 ℝ => openWeight m β J B v := by
    obtain ⟨h1, K, _, h2⟩ := weight_facts (L := L) (m := m) (β := β) (J := J) (B := B)
    exact ⟨h1, K, h2⟩
  have n1 : ∀ i : Fin L, Nice fun v : Fin L → V3 ℝ =>
      (if (i : ℕ) < m then rateOf (fun v => F (coords v)) v i (openOmega m (atSite v) J B i) else 0) * openWeight m β J B v := by
    intro i
    refine Nice.mul ?_ hW
    by_cases h : (i : ℕ) < m
    · simp only [h, if_true]
      exact rate_nice (hF.of_le (by norm_num)) i
    · simp only [h, if_false]
      exact Nice.const 0
  have n2 : ∀ i : Fin L, Nice fun v : Fin L → V3 ℝ =>
      (if (i : ℕ) = 0 ∨ (i : ℕ) + 1 = m then γ / β * laplace (fun v => F (coords v)) v i
        - γ * rateOf (fun v => F (coords v)) v i (cross (v i) (openOmega m (atSite v) J B i)) else 0)
        * openWeight m β J B v := by
    intro i
    refine Nice.mul ?_ hW
    by_cases h : (i : ℕ) = 0 ∨ (i : ℕ) + 1 = m
    · simp only [h, if_true]
      exact edge_nice hF i
    · simp only [h, if_false]
      exact Nice.const 0
  unfold openSum generator
  simp only [Finset.sum_mul, add_mul]
  rw [integral_finsetSum _ fun i _ => ((n1 i).add (n2 i)).integrable]
  refine Finset.sum_eq_zero fun i _ => ?_
  rw [integral_add (n1 i).integrable (n2 i).integrable]
  have e1 : ∫ v : Fin L → V3 ℝ, (if (i : ℕ) < m then rateOf (fun v => F (coords v)) v i (openOmega m (atSite v) J B i)
      else 0) * openWeight m β J B v ∂(Measure.pi fun _ : Fin L => sphereMeasure) = 0 := by
    by_cases h : (i : ℕ) < m
    · simp only [h, if_true]
      exact turn_omega_mean (hF.of_le (by norm_num)) i h
    · simp [h]
  have e2 : ∫ v : Fin L → V3 ℝ, (if (i : ℕ) = 0 ∨ (i : ℕ) + 1 = m then γ / β * laplace (fun v => F (coords v)) v i
        - γ * rateOf (fun v => F (coords v)) v i (cross (v i) (openOmega m (atSite v) J B i)) else 0)
        * openWeight m β J B v ∂(Measure.pi fun _ : Fin L => sphereMeasure) = 0 := by
    by_cases h : (i : ℕ) = 0 ∨ (i : ℕ) + 1 = m
    · simp only [h, if_true]
      exact edge_mean hF i (by omega) hβ
    · simp [h]
  rw [e1, e2, add_zero]

end

end Verif
