/-
Helper lemmas: the mean of an observable after one Langevin step with normally distributed noise.
-/
import Verif.Lemmas.Weak
import Mathlib.Probability.Moments.Variance
import Mathlib.Probability.Independence.Basic

namespace Verif

set_option linter.unusedSectionVars false

open Spec Function MeasureTheory ProbabilityTheory

/-! ### moments -/

instance : IsProbabilityMeasure normals := by
  unfold normals
  infer_instance

theorem normal_preserving (k : Fin 6) : MeasurePreserving (fun ζ : Fin 6 → ℝ => ζ k) normals (gaussianReal 0 1) :=
  measurePreserving_eval _ k

theorem normal_memLp (k : Fin 6) (p : ENNReal) (hp : p ≠ ⊤) : MemLp (fun ζ : Fin 6 → ℝ => ζ k) p normals :=
  (memLp_id_gaussianReal' (μ := 0) (v := 1) p hp).comp_measurePreserving (normal_preserving k)

theorem normal_integrable (k : Fin 6) : Integrable (fun ζ : Fin 6 → ℝ => ζ k) normals :=
  (normal_memLp k 1 (by simp)).integrable le_rfl

theorem normal_mean (k : Fin 6) : ∫ ζ, ζ k ∂normals = 0 := by
  have h := (normal_preserving k).map_eq
  have : ∫ x, x ∂(Measure.map (fun ζ : Fin 6 → ℝ => ζ k) normals) = ∫ ζ, ζ k ∂normals :=
    integral_map (normal_preserving k).measurable.aemeasurable measurable_id.aestronglyMeasurable
  rw [← this, h, integral_id_gaussianReal]

theorem normal_prod_integrable (k l : Fin 6) : Integrable (fun ζ : Fin 6 → ℝ => ζ k * ζ l) normals :=
  (normal_memLp k 2 (by simp)).integrable_mul (normal_memLp l 2 (by simp))

theorem normal_cov (k l : Fin 6) : ∫ ζ, ζ k * ζ l ∂normals = if k = l then 1 else 0 := by
  by_cases h : k = l
  · subst h
    rw [if_pos rfl]
    have e := (normal_preserving k).map_eq
    have : ∫ x, x * x ∂(Measure.map (fun ζ : Fin 6 → ℝ => ζ k) normals) = ∫ ζ, ζ k * ζ k ∂normals :=
      integral_map (normal_preserving k).measurable.aemeasurable (measurable_id.mul measurable_id).aestronglyMeasurable
    rw [← this, e]
    have hv := variance_id_gaussianReal (μ := 0) (v := 1)
    rw [variance_of_integral_eq_zero measurable_id.aemeasurable (integral_id_gaussianReal (μ := 0) (v := 1))] at hv
    simpa [sq] using hv
  · rw [if_neg h]
    have hi : iIndepFun (fun (i : Fin 6) (ζ : Fin 6 → ℝ) => ζ i) normals :=
      iIndepFun_pi (X := fun _ => id) fun i => measurable_id.aemeasurable
    have := (hi.indepFun h).integral_fun_mul_eq_mul_integral (normal_integrable k).aestronglyMeasurable
      (normal_integrable l).aestronglyMeasurable
    rw [this, normal_mean, zero_mul]

/-- a bound for all six numbers -/
noncomputable def size (ζ : Fin 6 → ℝ) : ℝ := 1 + ∑ k, |ζ k|

theorem size_pos (ζ : Fin 6 → ℝ) : 1 ≤ size ζ := by
  unfold size
  have : 0 ≤ ∑ k, |ζ k| := Finset.sum_nonneg fun _ _ => abs_nonneg _
  linarith

theorem meas_size : Measurable size :=
  measurable_const.add (Finset.measurable_sum _ fun k _ => (measurable_pi_apply k).abs)

theorem size_integrable : Integrable (fun ζ => size ζ ^ 3) normals := by
  have h : MemLp size ((3 : ℕ) : ENNReal) normals := by
    unfold size
    refine MemLp.add (f := fun _ => (1 : ℝ)) (memLp_const _) ?_
    refine memLp_finsetSum _ fun k _ => (normal_memLp k _ (by simp)).abs
  have := h.integrable_norm_pow (by norm_num)
  refine this.congr (Filter.Eventually.of_forall fun ζ => ?_)
  dsimp only
  rw [Real.norm_of_nonneg (by linarith [size_pos ζ])]

theorem noise_len (ζ : Fin 6 → ℝ) : len (noiseOf ζ).l ≤ size ζ ∧ len (noiseOf ζ).r ≤ size ζ := by
  have tri : ∀ a b c : ℝ, len ⟨a, b, c⟩ ≤ |a| + |b| + |c| := by
    intro a b c
    unfold len dot
    apply Real.sqrt_le_iff.2 ⟨by positivity, ?_⟩
    dsimp only
    nlinarith [sq_abs a, sq_abs b, sq_abs c, mul_nonneg (abs_nonneg a) (abs_nonneg b), mul_nonneg (abs_nonneg b) (abs_nonneg c),
      mul_nonneg (abs_nonneg a) (abs_nonneg c)]
  have e : size ζ = 1 + (|ζ 0| + |ζ 1| + |ζ 2| + |ζ 3| + |ζ 4| + |ζ 5|) := by
    unfold size
    rw [Fin.sum_univ_six]
  have := fun k => abs_nonneg (ζ k)
  constructor
  · refine (tri _ _ _).trans ?_
    rw [e]
    linarith [this 3, this 4, this 5]
  · refine (tri _ _ _).trans ?_
    rw [e]
    linarith [this 0, this 1, this 2]

/-- mean of a polynomial of second degree -/
theorem quad_mean (c0 : ℝ) (c1 : Fin 6 → ℝ) (c2 : Fin 6 → Fin 6 → ℝ) :
    Integrable (fun ζ : Fin 6 → ℝ => c0 + ∑ k, c1 k * ζ k + ∑ k, ∑ l, c2 k l * (ζ k * ζ l)) normals ∧
    ∫ ζ, (c0 + ∑ k, c1 k * ζ k + ∑ k, ∑ l, c2 k l * (ζ k * ζ l)) ∂normals = c0 + ∑ k, c2 k k := by
  have i0 : Integrable (fun _ : Fin 6 → ℝ => c0) normals := integrable_const _
  have i1 : Integrable (fun ζ : Fin 6 → ℝ => ∑ k, c1 k * ζ k) normals :=
    integrable_finsetSum _ fun k _ => (normal_integrable k).const_mul _
  have i2 : Integrable (fun ζ : Fin 6 → ℝ => ∑ k, ∑ l, c2 k l * (ζ k * ζ l)) normals :=
    integrable_finsetSum _ fun k _ => integrable_finsetSum _ fun l _ => (normal_prod_integrable k l).const_mul _
  have i01 : Integrable (fun ζ : Fin 6 → ℝ => c0 + ∑ k, c1 k * ζ k) normals := i0.add i1
  refine ⟨i01.add i2, ?_⟩
  rw [integral_add i01 i2, integral_add i0 i1, integral_const, probReal_univ, one_smul,
    integral_finsetSum _ fun k _ => (normal_integrable k).const_mul _,
    integral_finsetSum _ fun k _ => integrable_finsetSum _ fun l _ => (normal_prod_integrable k l).const_mul _]
  have z : ∑ k, ∫ ζ : Fin 6 → ℝ, c1 k * ζ k ∂normals = 0 :=
    Finset.sum_eq_zero fun k _ => by rw [integral_const_mul, normal_mean, mul_zero]
  rw [z, add_zero]
  congr 1
  refine Finset.sum_congr rfl fun k _ => ?_
  rw [integral_finsetSum _ fun l _ => (normal_prod_integrable k l).const_mul _]
  rw [Finset.sum_eq_single k]
  · rw [integral_const_mul, normal_cov, if_pos rfl, mul_one]
  · intro l _ hl
    rw [integral_const_mul, normal_cov, if_neg (Ne.symm hl), mul_zero]
  · intro h
    exact absurd (Finset.mem_univ k) h

/-! ### the kicks -/

section
variable {L : ℕ}

/-- axis of the `k`-th number -/
def axisOf (k : Fin 6) : V3 ℝ := ![⟨1, 0, 0⟩, ⟨0, 1, 0⟩, ⟨0, 0, 1⟩, ⟨1, 0, 0⟩, ⟨0, 1, 0⟩, ⟨0, 0, 1⟩] k

/-- site of the `k`-th number -/
def endOf (i j : Fin L) (k : Fin 6) : Fin L := ![i, i, i, j, j, j] k

def kickOf (v : Fin L → V3 ℝ) (i j : Fin L) (k : Fin 6) : Fin L → ℝ × ℝ × ℝ :=
  shift (endOf i j k) (cross (v (endOf i j k)) (axisOf k))

def curlOf (v : Fin L → V3 ℝ) (i j : Fin L) (k l : Fin 6) : Fin L → ℝ × ℝ × ℝ :=
  if ((k : ℕ) < 3 ↔ (l : ℕ) < 3) then shift (endOf i j k) (cross (cross (v (endOf i j k)) (axisOf k)) (axisOf l)) else 0

theorem kick_sum (v : Fin L → V3 ℝ) (i j : Fin L) (ζ : Fin 6 → ℝ) :
    shift i (cross (v i) (noiseOf ζ).l) + shift j (cross (v j) (noiseOf ζ).r) = ∑ k, ζ k • kickOf v i j k := by
  have e : ∀ (s : V3 ℝ) (a b c : ℝ), cross s ⟨a, b, c⟩ = Spec.add (Spec.add (smul a (cross s ⟨1, 0, 0⟩)) (smul b (cross s ⟨0, 1, 0⟩)))
      (smul c (cross s ⟨0, 0, 1⟩)) := by
    intro s a b c
    ext <;> simp only [cross, Spec.add, smul] <;> ring
  rw [Fin.sum_univ_six]
  unfold noiseOf
  dsimp only
  rw [e, e (v j)]
  simp only [shift_add, shift_smul]
  simp only [kickOf, endOf, axisOf, Matrix.cons_val]
  abel

theorem curl_sum (v : Fin L → V3 ℝ) (i j : Fin L) (ζ : Fin 6 → ℝ) :
    shift i (cross (cross (v i) (noiseOf ζ).l) (noiseOf ζ).l) + shift j (cross (cross (v j) (noiseOf ζ).r) (noiseOf ζ).r)
      = ∑ k, ∑ l, (ζ k * ζ l) • curlOf v i j k l := by
  have e : ∀ (s : V3 ℝ) (a b c : ℝ), cross (cross s ⟨a, b, c⟩) ⟨a, b, c⟩ =
      Spec.add (Spec.add
      (Spec.add (Spec.add (smul (a * a) (cross (cross s ⟨1, 0, 0⟩) ⟨1, 0, 0⟩)) (smul (a * b) (cross (cross s ⟨1, 0, 0⟩) ⟨0, 1, 0⟩)))
        (smul (a * c) (cross (cross s ⟨1, 0, 0⟩) ⟨0, 0, 1⟩)))
      (Spec.add (Spec.add (smul (b * a) (cross (cross s ⟨0, 1, 0⟩) ⟨1, 0, 0⟩)) (smul (b * b) (cross (cross s ⟨0, 1, 0⟩) ⟨0, 1, 0⟩)))
        (smul (b * c) (cross (cross s ⟨0, 1, 0⟩) ⟨0, 0, 1⟩))))
      (Spec.add (Spec.add (smul (c * a) (cross (cross s ⟨0, 0, 1⟩) ⟨1, 0, 0⟩)) (smul (c * b) (cross (cross s ⟨0, 0, 1⟩) ⟨0, 1, 0⟩)))
        (smul (c * c) (cross (cross s ⟨0, 0, 1⟩) ⟨0, 0, 1⟩))) := by
    intro s a b c
    ext <;> simp only [cross, Spec.add, smul] <;> ring
  simp only [Fin.sum_univ_six]
  unfold noiseOf
  dsimp only
  rw [e, e (v j)]
  simp only [shift_add, shift_smul]
  simp [curlOf, endOf, axisOf]
  abel

/-! ### measurability of a step -/

section
variable {α : Type} [MeasurableSpace α] {m : ℕ} {γ : ℝ} {J B : ℕ → V3 ℝ} {η S : α → ℕ → V3 ℝ}

theorem meas_langField (hη : ∀ i, Measurable fun t => η t i) (hS : ∀ i, Measurable fun t => S t i) (i : ℕ) :
    Measurable fun t => langField m γ J B (η t) (S t) i := by
  have hO : Measurable fun t => openOmega m (S t) J B i := by
    unfold openOmega
    refine meas_sub (meas_add ?_ ?_) measurable_const
    · split
      · exact meas_had measurable_const (hS _)
      · exact measurable_const
    · split
      · exact meas_had measurable_const (hS _)
      · exact measurable_const
  unfold langField
  split
  · exact meas_sub hO (meas_add (meas_smul measurable_const (meas_cross (hS i) hO)) (hη i))
  · exact hO

theorem meas_subStepG (hη : ∀ i, Measurable fun t => η t i) (hS : ∀ i, Measurable fun t => S t i) (par : ℕ) (dt : ℝ)
    (i : ℕ) : Measurable fun t => subStepG (langField m γ J B (η t)) m par dt (S t) i := by
  unfold subStepG
  split
  · exact meas_precess (hS i) (meas_langField hη hS i) dt
  · exact hS i

theorem meas_stepG (hη : ∀ i, Measurable fun t => η t i) (hS : ∀ i, Measurable fun t => S t i) (dt : ℝ) (i : ℕ) :
    Measurable fun t => stepG (langField m γ J B (η t)) m dt (S t) i := by
  unfold stepG
  exact meas_subStepG hη (fun i => meas_subStepG hη (fun i => meas_subStepG hη hS _ _ i) _ _ i) _ _ i

theorem meas_noiseField {ζ : α → Fin 6 → ℝ} (hζ : Measurable ζ) (β dt : ℝ) (i : ℕ) :
    Measurable fun t => noiseField m γ β dt (noiseOf (ζ t)) i := by
  unfold noiseField
  refine meas_smul measurable_const ?_
  have hk : ∀ k, Measurable fun t => ζ t k := fun k => (measurable_pi_apply k).comp hζ
  split
  · exact measurable_mk (hk 0) (hk 1) (hk 2)
  · split
    · exact measurable_mk (hk 3) (hk 4) (hk 5)
    · exact measurable_const

end

/-! ### mean of an observable after a step -/

theorem movedBy_add (m : ℕ) (d e : ℕ → V3 ℝ) :
    movedBy (L := L) m (fun i => Spec.add (d i) (e i)) = movedBy m d + movedBy m e := by
  funext i
  rw [Pi.add_apply]
  unfold movedBy
  split
  · rfl
  · rw [add_zero]

theorem edge_sum {m : ℕ} (h2 : 2 ≤ m) (hm : m ≤ L) (g : Fin L → ℝ) :
    ∑ i : Fin L, (if (i : ℕ) = 0 ∨ (i : ℕ) + 1 = m then g i else 0) = g ⟨0, by omega⟩ + g ⟨m - 1, by omega⟩ := by
  have e : ∀ i : Fin L, (if (i : ℕ) = 0 ∨ (i : ℕ) + 1 = m then g i else 0)
      = (if i = ⟨0, by omega⟩ then g i else 0) + if i = ⟨m - 1, by omega⟩ then g i else 0 := by
    intro i
    have a : i = ⟨0, by omega⟩ ↔ (i : ℕ) = 0 := by rw [Fin.ext_iff]
    have b : i = ⟨m - 1, by omega⟩ ↔ (i : ℕ) + 1 = m := by
      rw [Fin.ext_iff]
      dsimp only
      omega
    simp only [a, b]
    by_cases h0 : (i : ℕ) = 0
    · rw [if_pos (Or.inl h0), if_pos h0, if_neg (by omega), add_zero]
    · by_cases h1 : (i : ℕ) + 1 = m
      · rw [if_pos (Or.inr h1), if_neg h0, if_pos h1, zero_add]
      · rw [if_neg (by tauto), if_neg h0, if_neg h1, add_zero]
  simp only [e, Finset.sum_add_distrib, Finset.sum_ite_eq', Finset.mem_univ, if_true]

theorem movedBy_edge {m : ℕ} (h2 : 2 ≤ m) (hm : m ≤ L) {d : ℕ → V3 ℝ} (hd : ∀ i, ¬(i = 0 ∨ i + 1 = m) → d i = zero) :
    movedBy (L := L) m d = shift ⟨0, by omega⟩ (d 0) + shift ⟨m - 1, by omega⟩ (d (m - 1)) := by
  funext k
  rw [Pi.add_apply]
  unfold movedBy shift
  by_cases h0 : (k : ℕ) = 0
  · have hL : 0 < L := by omega
    have e : k = ⟨0, hL⟩ := Fin.ext h0
    subst e
    rw [if_pos (by dsimp only; omega), Pi.single_eq_same, Pi.single_eq_of_ne, add_zero]
    rw [Ne, Fin.ext_iff]
    dsimp only
    omega
  · by_cases h1 : (k : ℕ) + 1 = m
    · have hL : m - 1 < L := by omega
      have e : k = ⟨m - 1, hL⟩ := Fin.ext (by dsimp only; omega)
      subst e
      rw [if_pos (by dsimp only; omega), Pi.single_eq_same, Pi.single_eq_of_ne, zero_add]
      rw [Ne, Fin.ext_iff]
      dsimp only
      omega
    · rw [Pi.single_eq_of_ne (by rw [Ne, Fin.ext_iff]; exact h0),
        Pi.single_eq_of_ne (by rw [Ne, Fin.ext_iff]; dsimp only; omega), add_zero]
      split
      · rw [hd _ (by tauto)]; rfl
      · rfl

/-- the generator in terms of derivatives -/
theorem generator_eq {F : (Fin L → ℝ × ℝ × ℝ) → ℝ} (hF : ContDiff ℝ 2 F) {m : ℕ} (h2 : 2 ≤ m) (hm : m ≤ L) (γ β : ℝ)
    (J B : ℕ → V3 ℝ) (v : Fin L → V3 ℝ) :
    generator m γ β J B (fun v => F (coords v)) v
      = fderiv ℝ F (coords v) (movedBy m fun i => cross (atSite v i) (driftField m γ J B (atSite v) i))
        + γ / β * ∑ k, (fderiv ℝ F (coords v) (curlOf v ⟨0, by omega⟩ ⟨m - 1, by omega⟩ k k)
          + fderiv ℝ (fderiv ℝ F) (coords v) (kickOf v ⟨0, by omega⟩ ⟨m - 1, by omega⟩ k)
            (kickOf v ⟨0, by omega⟩ ⟨m - 1, by omega⟩ k)) := by
  have hd : Differentiable ℝ F := hF.differentiable (by norm_num)
  have lap : ∀ i : Fin L, laplace (fun v => F (coords v)) v i
      = (fderiv ℝ F (coords v) (shift i (cross (cross (v i) ⟨1, 0, 0⟩) ⟨1, 0, 0⟩))
        + fderiv ℝ (fderiv ℝ F) (coords v) (shift i (cross (v i) ⟨1, 0, 0⟩)) (shift i (cross (v i) ⟨1, 0, 0⟩)))
      + (fderiv ℝ F (coords v) (shift i (cross (cross (v i) ⟨0, 1, 0⟩) ⟨0, 1, 0⟩))
        + fderiv ℝ (fderiv ℝ F) (coords v) (shift i (cross (v i) ⟨0, 1, 0⟩)) (shift i (cross (v i) ⟨0, 1, 0⟩)))
      + (fderiv ℝ F (coords v) (shift i (cross (cross (v i) ⟨0, 0, 1⟩) ⟨0, 0, 1⟩))
        + fderiv ℝ (fderiv ℝ F) (coords v) (shift i (cross (v i) ⟨0, 0, 1⟩)) (shift i (cross (v i) ⟨0, 0, 1⟩))) := by
    intro i
    unfold laplace
    rw [second_eq hF, second_eq hF, second_eq hF, lie_fderiv hF, lie_fderiv hF, lie_fderiv hF]
    have e : ofP (coords v i) = v i := rfl
    rw [e]
    ring
  have s6 : ∑ k, (fderiv ℝ F (coords v) (curlOf v ⟨0, by omega⟩ ⟨m - 1, by omega⟩ k k)
          + fderiv ℝ (fderiv ℝ F) (coords v) (kickOf v ⟨0, by omega⟩ ⟨m - 1, by omega⟩ k)
            (kickOf v ⟨0, by omega⟩ ⟨m - 1, by omega⟩ k))
      = laplace (fun v => F (coords v)) v ⟨0, by omega⟩ + laplace (fun v => F (coords v)) v ⟨m - 1, by omega⟩ := by
    rw [Fin.sum_univ_six, lap, lap]
    simp only [curlOf, kickOf, endOf, axisOf, Matrix.cons_val, iff_self, if_true]
    ring
  rw [s6]
  have s1 : γ / β * (laplace (fun v => F (coords v)) v ⟨0, by omega⟩ + laplace (fun v => F (coords v)) v ⟨m - 1, by omega⟩)
      = ∑ i : Fin L, if (i : ℕ) = 0 ∨ (i : ℕ) + 1 = m then γ / β * laplace (fun v => F (coords v)) v i else 0 := by
    rw [edge_sum h2 hm, mul_add]
  rw [s1, movedBy_sum, map_sum, ← Finset.sum_add_distrib]
  unfold generator
  refine Finset.sum_congr rfl fun i _ => ?_
  have es : atSite v i = v i := by rw [atSite_fld]; exact fld_val v i
  rw [rate_eq hd, rate_eq hd, es]
  unfold driftField
  by_cases hi : (i : ℕ) < m
  · rw [if_pos hi, if_pos hi]
    by_cases he : (i : ℕ) = 0 ∨ (i : ℕ) + 1 = m
    · rw [if_pos he, if_pos he, if_pos he, es]
      rw [show cross (v i) (Spec.sub (openOmega m (atSite v) J B i) (smul γ (cross (v i) (openOmega m (atSite v) J B i))))
        = Spec.sub (cross (v i) (openOmega m (atSite v) J B i))
          (smul γ (cross (v i) (cross (v i) (openOmega m (atSite v) J B i)))) by
          ext <;> simp only [cross, Spec.sub, smul] <;> ring]
      rw [shift_sub, shift_smul, map_sub, map_smul, smul_eq_mul]
      ring
    · rw [if_neg he, if_neg he, if_neg he]
  · rw [if_neg hi, if_neg hi, if_neg (by omega), if_neg (by omega), map_zero]

/-- the second-order expansion as a polynomial of the random numbers -/
theorem expansion_eq {F : (Fin L → ℝ × ℝ × ℝ) → ℝ} {m : ℕ} (h2 : 2 ≤ m) (hm : m ≤ L) {γ : ℝ} {J B Y : ℕ → V3 ℝ}
    {a h dt σ : ℝ} (v : Fin L → V3 ℝ) (ζ : Fin 6 → ℝ) (hah : a * h = dt)
    (hY : ∀ i, smul h (Y i) = if i = 0 then smul σ (noiseOf ζ).l else if i + 1 = m then smul σ (noiseOf ζ).r else zero) :
    fderiv ℝ F (coords v) (movedBy m fun i => kickMove m γ J B Y a h (atSite v) i)
        + fderiv ℝ (fderiv ℝ F) (coords v) (movedBy m fun i => smul (-h) (cross (atSite v i) (Y i)))
          (movedBy m fun i => smul (-h) (cross (atSite v i) (Y i))) / 2
      = dt * fderiv ℝ F (coords v) (movedBy m fun i => cross (atSite v i) (driftField m γ J B (atSite v) i))
        + ∑ k, (-σ * fderiv ℝ F (coords v) (kickOf v ⟨0, by omega⟩ ⟨m - 1, by omega⟩ k)) * ζ k
        + ∑ k, ∑ l, (σ ^ 2 / 2 * (fderiv ℝ F (coords v) (curlOf v ⟨0, by omega⟩ ⟨m - 1, by omega⟩ k l)
          + fderiv ℝ (fderiv ℝ F) (coords v) (kickOf v ⟨0, by omega⟩ ⟨m - 1, by omega⟩ k)
            (kickOf v ⟨0, by omega⟩ ⟨m - 1, by omega⟩ l))) * (ζ k * ζ l) := by
  have e0 : atSite v 0 = v ⟨0, by omega⟩ := by rw [atSite_fld]; exact fld_val v ⟨0, by omega⟩
  have e1 : atSite v (m - 1) = v ⟨m - 1, by omega⟩ := by rw [atSite_fld]; exact fld_val v ⟨m - 1, by omega⟩
  have y0 : smul h (Y 0) = smul σ (noiseOf ζ).l := by rw [hY, if_pos rfl]
  have y1 : smul h (Y (m - 1)) = smul σ (noiseOf ζ).r := by rw [hY, if_neg (by omega), if_pos (by omega)]
  have yi : ∀ i, ¬(i = 0 ∨ i + 1 = m) → smul h (Y i) = zero := by
    intro i hi
    rw [hY, if_neg (fun e => hi (Or.inl e)), if_neg (fun e => hi (Or.inr e))]
  have kick1 : ∀ i, smul (-h) (cross (atSite v i) (Y i)) = smul (-1) (cross (atSite v i) (smul h (Y i))) := by
    intro i
    ext <;> simp only [smul, cross] <;> ring
  have curl1 : ∀ i, smul (h ^ 2 / 2) (cross (cross (atSite v i) (Y i)) (Y i))
      = smul (1 / 2) (cross (cross (atSite v i) (smul h (Y i))) (smul h (Y i))) := by
    intro i
    ext <;> simp only [smul, cross] <;> ring
  have hk : (movedBy m fun i => smul (-h) (cross (atSite v i) (Y i)) : Fin L → ℝ × ℝ × ℝ)
      = (-σ) • ∑ k, ζ k • kickOf v ⟨0, by omega⟩ ⟨m - 1, by omega⟩ k := by
    simp only [kick1]
    rw [movedBy_edge h2 hm, y0, y1, e0, e1, ← kick_sum]
    · rw [show ∀ s z : V3 ℝ, smul (-1) (cross s (smul σ z)) = smul (-σ) (cross s z) from
        fun s z => by ext <;> simp only [smul, cross] <;> ring]
      rw [show ∀ s z : V3 ℝ, smul (-1) (cross s (smul σ z)) = smul (-σ) (cross s z) from
        fun s z => by ext <;> simp only [smul, cross] <;> ring]
      rw [shift_smul, shift_smul, smul_add]
    · intro i hi
      rw [yi i hi]
      ext <;> simp [smul, cross, zero]
  have hc : (movedBy m fun i => smul (h ^ 2 / 2) (cross (cross (atSite v i) (Y i)) (Y i)) : Fin L → ℝ × ℝ × ℝ)
      = (σ ^ 2 / 2) • ∑ k, ∑ l, (ζ k * ζ l) • curlOf v ⟨0, by omega⟩ ⟨m - 1, by omega⟩ k l := by
    simp only [curl1]
    rw [movedBy_edge h2 hm, y0, y1, e0, e1, ← curl_sum]
    · rw [show ∀ s z : V3 ℝ, smul (1 / 2) (cross (cross s (smul σ z)) (smul σ z)) = smul (σ ^ 2 / 2) (cross (cross s z) z) from
        fun s z => by ext <;> simp only [smul, cross] <;> ring]
      rw [show ∀ s z : V3 ℝ, smul (1 / 2) (cross (cross s (smul σ z)) (smul σ z)) = smul (σ ^ 2 / 2) (cross (cross s z) z) from
        fun s z => by ext <;> simp only [smul, cross] <;> ring]
      rw [shift_smul, shift_smul, smul_add]
    · intro i hi
      rw [yi i hi]
      ext <;> simp [smul, cross, zero]
  have hdr : (movedBy m fun i => smul (a * h) (cross (atSite v i) (driftField m γ J B (atSite v) i)) : Fin L → ℝ × ℝ × ℝ)
      = dt • movedBy m fun i => cross (atSite v i) (driftField m γ J B (atSite v) i) := by
    rw [hah]
    funext k
    rw [Pi.smul_apply]
    unfold movedBy
    split
    · rfl
    · rw [smul_zero]
  have hmv : (movedBy m fun i => kickMove m γ J B Y a h (atSite v) i : Fin L → ℝ × ℝ × ℝ)
      = (-σ) • ∑ k, ζ k • kickOf v ⟨0, by omega⟩ ⟨m - 1, by omega⟩ k
        + (dt • movedBy m (fun i => cross (atSite v i) (driftField m γ J B (atSite v) i))
        + (σ ^ 2 / 2) • ∑ k, ∑ l, (ζ k * ζ l) • curlOf v ⟨0, by omega⟩ ⟨m - 1, by omega⟩ k l) := by
    unfold kickMove
    rw [movedBy_add, movedBy_add, hk, hdr, hc]
  rw [hmv, hk]
  simp only [map_add, map_smul, map_sum, smul_eq_mul, _root_.smul_apply, _root_.sum_apply, Finset.mul_sum, Finset.sum_div]
  have d2 : ∀ k l : Fin 6, σ ^ 2 / 2 * (fderiv ℝ F (coords v) (curlOf v ⟨0, by omega⟩ ⟨m - 1, by omega⟩ k l)
          + fderiv ℝ (fderiv ℝ F) (coords v) (kickOf v ⟨0, by omega⟩ ⟨m - 1, by omega⟩ k)
            (kickOf v ⟨0, by omega⟩ ⟨m - 1, by omega⟩ l)) * (ζ k * ζ l)
      = σ ^ 2 / 2 * (ζ k * ζ l * fderiv ℝ F (coords v) (curlOf v ⟨0, by omega⟩ ⟨m - 1, by omega⟩ k l))
        + -σ * (ζ l * (-σ * (ζ k * fderiv ℝ (fderiv ℝ F) (coords v) (kickOf v ⟨0, by omega⟩ ⟨m - 1, by omega⟩ k)
            (kickOf v ⟨0, by omega⟩ ⟨m - 1, by omega⟩ l)))) / 2 := by
    intro k l
    ring
  simp only [d2, Finset.sum_add_distrib]
  have d1 : ∀ k, -σ * fderiv ℝ F (coords v) (kickOf v ⟨0, by omega⟩ ⟨m - 1, by omega⟩ k) * ζ k
      = -σ * (ζ k * fderiv ℝ F (coords v) (kickOf v ⟨0, by omega⟩ ⟨m - 1, by omega⟩ k)) := by
    intro k
    ring
  simp only [d1]
  rw [Finset.sum_comm (f := fun k l => -σ * (ζ l * (-σ * (ζ k * fderiv ℝ (fderiv ℝ F) (coords v) (kickOf v ⟨0, by omega⟩ ⟨m - 1, by omega⟩ k)
            (kickOf v ⟨0, by omega⟩ ⟨m - 1, by omega⟩ l)))) / 2)]
  ring

/-- spins after a step with given random numbers -/
noncomputable def afterStep (m : ℕ) (γ β : ℝ) (J B : ℕ → V3 ℝ) (dt : ℝ) (v : Fin L → V3 ℝ) (ζ : Fin 6 → ℝ) : Fin L → V3 ℝ :=
  fun i => stepG (langField m γ J B (noiseField m γ β dt (noiseOf ζ))) m dt (atSite v) i

theorem meas_afterStep (m : ℕ) (γ β : ℝ) (J B : ℕ → V3 ℝ) (dt : ℝ) :
    Measurable fun p : (Fin L → V3 ℝ) × (Fin 6 → ℝ) => afterStep m γ β J B dt p.1 p.2 :=
  measurable_pi_lambda _ fun i => meas_stepG (fun k => meas_noiseField measurable_snd β dt k)
    (fun k => (meas_fld k).comp measurable_fst) dt i

theorem afterStep_len {m : ℕ} {γ β : ℝ} {J B : ℕ → V3 ℝ} {dt : ℝ} {v : Fin L → V3 ℝ} (hv : ∀ i, len (v i) = 1)
    (ζ : Fin 6 → ℝ) (i : Fin L) : len (afterStep m γ β J B dt v ζ i) = 1 := by
  unfold afterStep stepG
  rw [subStepG_len', subStepG_len', subStepG_len', atSite_fld, fld_val, hv]

/-- Mean of an observable after one step of the Langevin dynamics. -/
theorem weak_step {F : (Fin L → ℝ × ℝ × ℝ) → ℝ} (hF : ContDiff ℝ 3 F) {m : ℕ} (h2 : 2 ≤ m) (hm : m ≤ L) {γ β : ℝ}
    (hγ : 0 ≤ γ) (hβ : 0 < β) {K : ℝ} (hK : 0 ≤ K) :
    ∃ C, 0 ≤ C ∧ ∀ (J B : ℕ → V3 ℝ) (v : Fin L → V3 ℝ) (dt : ℝ), (∀ i, len (J i) ≤ K) → (∀ i, len (B i) ≤ K) →
      (∀ i, len (v i) = 1) → 0 < dt → dt ≤ 1 →
      |∫ ζ, F (coords (afterStep m γ β J B dt v ζ)) ∂normals - F (coords v)
        - dt * generator m γ β J B (fun v => F (coords v)) v| ≤ C * (dt * Real.sqrt dt) := by
  obtain ⟨C0, C00, hC0⟩ := weak_path hF m γ hK (Real.sqrt_nonneg (2 * γ / β))
  have hF2 : ContDiff ℝ 2 F := hF.of_le (by norm_num)
  obtain ⟨M0, M00, hM0⟩ := ball_bound hF.continuous 1
  have N0 : 0 ≤ ∫ ζ, size ζ ^ 3 ∂normals := integral_nonneg fun ζ => by
    have := size_pos ζ
    dsimp only [Pi.zero_apply]
    positivity
  refine ⟨C0 * ∫ ζ, size ζ ^ 3 ∂normals, mul_nonneg C00 N0, ?_⟩
  intro J B v dt hJ hB hv dt0 dt1
  obtain ⟨κ, hκ⟩ : ∃ κ, κ = Real.sqrt (2 * γ / β) := ⟨_, rfl⟩
  rw [← hκ] at hC0
  have κ0 : 0 ≤ κ := by rw [hκ]; exact Real.sqrt_nonneg _
  obtain ⟨u, hu⟩ : ∃ u, u = Real.sqrt dt := ⟨_, rfl⟩
  have u0 : 0 < u := by rw [hu]; exact Real.sqrt_pos.2 dt0
  have uu : u * u = dt := by rw [hu]; exact Real.mul_self_sqrt dt0.le
  have u1 : u ≤ 1 := by nlinarith
  obtain ⟨σ, hσ⟩ : ∃ σ, σ = Real.sqrt (2 * γ * dt / β) := ⟨_, rfl⟩
  have eσ : σ = κ * u := by
    rw [hσ, hκ, hu, ← Real.sqrt_mul (by positivity)]
    congr 1
    ring
  have sσ : σ ^ 2 / 2 = dt * (γ / β) := by
    rw [eσ, mul_pow, sq u, uu, hκ, Real.sq_sqrt (by positivity)]
    ring
  -- the polynomial
  obtain ⟨Q, hQ⟩ : ∃ Q : (Fin 6 → ℝ) → ℝ, Q = fun ζ => F (coords v)
      + dt * fderiv ℝ F (coords v) (movedBy m fun i => cross (atSite v i) (driftField m γ J B (atSite v) i))
      + ∑ k, (-σ * fderiv ℝ F (coords v) (kickOf v ⟨0, by omega⟩ ⟨m - 1, by omega⟩ k)) * ζ k
      + ∑ k, ∑ l, (σ ^ 2 / 2 * (fderiv ℝ F (coords v) (curlOf v ⟨0, by omega⟩ ⟨m - 1, by omega⟩ k l)
          + fderiv ℝ (fderiv ℝ F) (coords v) (kickOf v ⟨0, by omega⟩ ⟨m - 1, by omega⟩ k)
            (kickOf v ⟨0, by omega⟩ ⟨m - 1, by omega⟩ l))) * (ζ k * ζ l) := ⟨_, rfl⟩
  have q := quad_mean (F (coords v)
      + dt * fderiv ℝ F (coords v) (movedBy m fun i => cross (atSite v i) (driftField m γ J B (atSite v) i)))
      (fun k => -σ * fderiv ℝ F (coords v) (kickOf v ⟨0, by omega⟩ ⟨m - 1, by omega⟩ k))
      (fun k l => σ ^ 2 / 2 * (fderiv ℝ F (coords v) (curlOf v ⟨0, by omega⟩ ⟨m - 1, by omega⟩ k l)
          + fderiv ℝ (fderiv ℝ F) (coords v) (kickOf v ⟨0, by omega⟩ ⟨m - 1, by omega⟩ k)
            (kickOf v ⟨0, by omega⟩ ⟨m - 1, by omega⟩ l)))
  have Qi : Integrable Q normals := by rw [hQ]; exact q.1
  have Qm : ∫ ζ, Q ζ ∂normals = F (coords v) + dt * generator m γ β J B (fun v => F (coords v)) v := by
    rw [hQ]
    refine q.2.trans ?_
    rw [generator_eq hF2 h2 hm, ← Finset.mul_sum, sσ]
    ring
  have path : ∀ ζ, |F (coords (afterStep m γ β J B dt v ζ)) - Q ζ| ≤ C0 * (dt * u) * size ζ ^ 3 := by
    intro ζ
    obtain ⟨N, hN⟩ : ∃ N, N = size ζ := ⟨_, rfl⟩
    have N1 : 1 ≤ N := by rw [hN]; exact size_pos ζ
    have N0 : 0 < N := by linarith
    obtain ⟨Y, hY⟩ : ∃ Y : ℕ → V3 ℝ, Y = fun i => if i = 0 ∨ i + 1 = m then
      smul (u / N) (noiseField m γ β dt (noiseOf ζ) i) else zero := ⟨_, rfl⟩
    have sc : u / N * (σ / dt) = κ / N := by
      rw [eσ, ← uu]
      field_simp
    have Yi : ∀ i, Y i = smul (κ / N) (if i = 0 then (noiseOf ζ).l else if i + 1 = m then (noiseOf ζ).r else zero) := by
      intro i
      rw [hY]
      dsimp only
      unfold noiseField
      rw [← hσ, ← sc]
      by_cases hi : i = 0 ∨ i + 1 = m
      · rw [if_pos hi]
        ext <;> simp only [smul] <;> ring
      · rw [if_neg hi, if_neg (fun e => hi (Or.inl e)), if_neg (fun e => hi (Or.inr e))]
        ext <;> simp [smul, zero]
    have Yl : ∀ i, len (Y i) ≤ κ := by
      intro i
      rw [Yi, len_smul, abs_of_nonneg (by positivity)]
      have nl := noise_len ζ
      rw [← hN] at nl
      have : len (if i = 0 then (noiseOf ζ).l else if i + 1 = m then (noiseOf ζ).r else zero) ≤ N := by
        split
        · exact nl.1
        · split
          · exact nl.2
          · rw [len_zero]; exact N0.le
      refine (mul_le_mul_of_nonneg_left this (by positivity)).trans (le_of_eq ?_)
      field_simp
    have hah : u / N * (u * N) = dt := by rw [← uu]; field_simp
    have ale : u / N ≤ u := div_le_self u0.le N1
    have st : afterStep m γ β J B dt v ζ = fun i : Fin L => stepG (kickField m γ J B Y (u / N)) m (u * N) (atSite v) i := by
      unfold afterStep
      rw [← stepG_scale (by positivity) (by intro i; rw [hY]), hah]
    have w := hC0 J B Y v (u / N) (u * N) hJ hB Yl hv (by positivity) (ale.trans u1) (ale.trans (by nlinarith))
    rw [← st] at w
    have ex := expansion_eq (F := F) (γ := γ) (J := J) (B := B) (Y := Y) (σ := σ) h2 hm v ζ hah (by
      intro i
      rw [Yi]
      have e : ∀ z : V3 ℝ, smul (u * N) (smul (κ / N) z) = smul σ z := by
        intro z
        rw [eσ]
        ext <;> simp only [smul] <;> field_simp
      rw [e]
      split
      · rfl
      · split
        · rfl
        · ext <;> simp [smul, zero])
    rw [hQ, ← hN]
    dsimp only
    rw [show F (coords (afterStep m γ β J B dt v ζ)) - F (coords v)
        - fderiv ℝ F (coords v) (movedBy m fun i => kickMove m γ J B Y (u / N) (u * N) (atSite v) i)
        - fderiv ℝ (fderiv ℝ F) (coords v) (movedBy m fun i => smul (-(u * N)) (cross (atSite v i) (Y i)))
          (movedBy m fun i => smul (-(u * N)) (cross (atSite v i) (Y i))) / 2
      = F (coords (afterStep m γ β J B dt v ζ)) - F (coords v)
        - (fderiv ℝ F (coords v) (movedBy m fun i => kickMove m γ J B Y (u / N) (u * N) (atSite v) i)
        + fderiv ℝ (fderiv ℝ F) (coords v) (movedBy m fun i => smul (-(u * N)) (cross (atSite v i) (Y i)))
          (movedBy m fun i => smul (-(u * N)) (cross (atSite v i) (Y i))) / 2) by ring, ex] at w
    rw [show C0 * (u * N) ^ 3 = C0 * (dt * u) * N ^ 3 by rw [← uu]; ring] at w
    refine le_trans (le_of_eq ?_) w
    congr 1
    ring
  have Fi : Integrable (fun ζ => F (coords (afterStep m γ β J B dt v ζ))) normals := by
    refine Integrable.of_bound (C := M0) ?_ (Filter.Eventually.of_forall fun ζ => ?_)
    · exact (hF.continuous.measurable.comp (meas_coords.comp ((meas_afterStep m γ β J B dt).comp
        (measurable_const.prodMk measurable_id)))).aestronglyMeasurable
    · exact hM0 _ (norm_coords fun i => afterStep_len hv ζ i)
  have e : ∫ ζ, F (coords (afterStep m γ β J B dt v ζ)) ∂normals - F (coords v)
        - dt * generator m γ β J B (fun v => F (coords v)) v
      = ∫ ζ, (F (coords (afterStep m γ β J B dt v ζ)) - Q ζ) ∂normals := by
    rw [integral_sub Fi Qi, Qm]
    ring
  rw [e, ← hu]
  refine (abs_integral_le_integral_abs).trans ?_
  refine (integral_mono (Fi.sub Qi).abs (size_integrable.const_mul _) path).trans (le_of_eq ?_)
  rw [integral_const_mul]
  ring

end

end Verif
