/-
Helper lemmas: the variance of a function of independent random numbers that depends little on each of them.
-/
import Mathlib.MeasureTheory.Constructions.Pi
import Mathlib.MeasureTheory.Integral.Pi
import Mathlib.MeasureTheory.Integral.Prod
import Mathlib.Probability.Moments.Variance

set_option linter.unusedSectionVars false

namespace Verif.SelfAvg

open MeasureTheory Finset
open scoped ENNReal

section
variable {X : Type} [MeasurableSpace X] {μ : Measure X} [IsProbabilityMeasure μ]

/-- a bounded measurable function -/
theorem bdd_int {f : X → ℝ} {M : ℝ} (mf : Measurable f) (hM : ∀ x, |f x| ≤ M) : Integrable f μ :=
  Integrable.of_bound mf.aestronglyMeasurable M (.of_forall fun x => by rw [Real.norm_eq_abs]; exact hM x)

/-- no number is closer to a function in mean square than its mean -/
theorem sq_mean_le {f : X → ℝ} {M : ℝ} (mf : Measurable f) (hM : ∀ x, |f x| ≤ M) (k : ℝ) :
    ∫ x, (f x - ∫ y, f y ∂μ) ^ 2 ∂μ ≤ ∫ x, (f x - k) ^ 2 ∂μ := by
  set m := ∫ y, f y ∂μ with hm
  have i1 := bdd_int (μ := μ) mf hM
  have e : ∀ t : ℝ, ∫ x, (f x - t) ^ 2 ∂μ = (∫ x, f x ^ 2 ∂μ) - 2 * t * m + t ^ 2 := fun t => by
    have i2 : Integrable (fun x => f x ^ 2) μ := bdd_int (M := M ^ 2) (mf.pow_const 2) fun x => by
      rw [abs_pow]
      exact pow_le_pow_left₀ (abs_nonneg _) (hM x) 2
    have : (fun x => (f x - t) ^ 2) = fun x => f x ^ 2 - 2 * t * f x + t ^ 2 := by
      funext x
      ring
    have i3 : Integrable (fun x => 2 * t * f x) μ := i1.const_mul _
    have i4 : Integrable (fun x => f x ^ 2 - 2 * t * f x) μ := i2.sub i3
    rw [this, integral_add i4 (integrable_const _), integral_sub i2 i3, integral_const_mul, integral_const]
    simp [hm]
  rw [e, e]
  nlinarith [sq_nonneg (m - k)]

end

section
variable {ν : Measure ℝ} [IsProbabilityMeasure ν]

/-- one random number -/
theorem one_lip (h2 : Integrable (fun x : ℝ => (x - ∫ y, y ∂ν) ^ 2) ν) {f : ℝ → ℝ} {a M : ℝ} (a0 : 0 ≤ a)
    (hM : ∀ x, |f x| ≤ M) (h : ∀ x y, |f x - f y| ≤ a * |x - y|) :
    Measurable f ∧ ∫ x, (f x - ∫ y, f y ∂ν) ^ 2 ∂ν ≤ a ^ 2 * ∫ x, (x - ∫ y, y ∂ν) ^ 2 ∂ν := by
  have hl : LipschitzWith (Real.toNNReal a) f := LipschitzWith.of_dist_le_mul fun x y => by
    rw [Real.dist_eq, Real.dist_eq, Real.coe_toNNReal a a0]
    exact h x y
  have mf := hl.continuous.measurable
  refine ⟨mf, ?_⟩
  set m := ∫ y, y ∂ν
  refine (sq_mean_le mf hM (f m)).trans ?_
  rw [← integral_const_mul]
  refine integral_mono_of_nonneg (.of_forall fun x => sq_nonneg _) (h2.const_mul _) (.of_forall fun x => ?_)
  show (f x - f m) ^ 2 ≤ a ^ 2 * (x - m) ^ 2
  rw [← mul_pow, ← sq_abs (f x - f m), ← sq_abs (a * _), abs_mul, abs_of_nonneg a0]
  exact pow_le_pow_left₀ (abs_nonneg _) (h x m) 2

/-- functions of several random numbers that depend little on each are continuous -/
theorem lip_meas {N : ℕ} {f : (Fin N → ℝ) → ℝ} {a : Fin N → ℝ} (a0 : ∀ i, 0 ≤ a i)
    (h : ∀ x y, |f x - f y| ≤ ∑ i, a i * |x i - y i|) : Measurable f := by
  have hl : LipschitzWith (Real.toNNReal (∑ i, a i)) f := LipschitzWith.of_dist_le_mul fun x y => by
    rw [Real.dist_eq, Real.coe_toNNReal _ (sum_nonneg fun i _ => a0 i), sum_mul]
    refine (h x y).trans (sum_le_sum fun i _ => mul_le_mul_of_nonneg_left ?_ (a0 i))
    rw [← Real.dist_eq]
    exact dist_le_pi_dist x y i
  exact hl.continuous.measurable

theorem int_cons {N : ℕ} {f : (Fin (N + 1) → ℝ) → ℝ} {M : ℝ} (mf : Measurable f) (hM : ∀ x, |f x| ≤ M) :
    ∫ z, f z ∂(Measure.pi fun _ : Fin (N + 1) => ν) = ∫ x, ∫ y, f (Fin.cons x y) ∂(Measure.pi fun _ : Fin N => ν) ∂ν := by
  have mp := (measurePreserving_piFinSuccAbove (fun _ : Fin (N + 1) => ν) 0).symm
  have e : ∀ q : ℝ × (Fin N → ℝ), (MeasurableEquiv.piFinSuccAbove (fun _ : Fin (N + 1) => ℝ) 0).symm q = Fin.cons q.1 q.2 := fun q => by
    funext i
    refine Fin.cases ?_ (fun j => ?_) i
    · rfl
    · rfl
  rw [← mp.integral_comp (MeasurableEquiv.measurableEmbedding _)]
  rw [integral_prod]
  · simp only [e]
  · exact bdd_int (mf.comp mp.measurable) fun q => hM _

/-- several independent random numbers: the variance is at most the sum of the squares of the sensitivities, times the variance of
one random number -/
theorem many_lip (h2 : Integrable (fun x : ℝ => (x - ∫ y, y ∂ν) ^ 2) ν) {N : ℕ} {f : (Fin N → ℝ) → ℝ} {a : Fin N → ℝ} {M : ℝ}
    (a0 : ∀ i, 0 ≤ a i) (hM : ∀ x, |f x| ≤ M) (h : ∀ x y, |f x - f y| ≤ ∑ i, a i * |x i - y i|) :
    ∫ z, (f z - ∫ y, f y ∂(Measure.pi fun _ => ν)) ^ 2 ∂(Measure.pi fun _ => ν)
      ≤ (∑ i, a i ^ 2) * ∫ x, (x - ∫ y, y ∂ν) ^ 2 ∂ν := by
  induction N generalizing M with
  | zero =>
    have : ∀ z, f z = f Fin.elim0 := fun z => by rw [Subsingleton.elim z Fin.elim0]
    simp [this]
  | succ N ih =>
    set V := ∫ x, (x - ∫ y, y ∂ν) ^ 2 ∂ν with hV
    set π := Measure.pi fun _ : Fin N => ν with hπ
    have mf := lip_meas a0 h
    have M0 : 0 ≤ M := (abs_nonneg _).trans (hM 0)
    -- sections
    have hs : ∀ (x : ℝ) (y y' : Fin N → ℝ), |f (Fin.cons x y) - f (Fin.cons x y')| ≤ ∑ i, a i.succ * |y i - y' i| := fun x y y' => by
      refine (h _ _).trans (le_of_eq ?_)
      rw [Fin.sum_univ_succ]
      simp
    have h0 : ∀ (x x' : ℝ) (y : Fin N → ℝ), |f (Fin.cons x y) - f (Fin.cons x' y)| ≤ a 0 * |x - x'| := fun x x' y => by
      refine (h _ _).trans (le_of_eq ?_)
      rw [Fin.sum_univ_succ]
      simp
    have ms : ∀ x, Measurable fun y : Fin N → ℝ => f (Fin.cons x y) := fun x => lip_meas (fun i => a0 i.succ) (hs x)
    have is : ∀ x, Integrable (fun y : Fin N → ℝ => f (Fin.cons x y)) π := fun x => bdd_int (ms x) fun y => hM _
    set g : ℝ → ℝ := fun x => ∫ y, f (Fin.cons x y) ∂π with hg
    have hgM : ∀ x, |g x| ≤ M := fun x => by
      have := norm_integral_le_of_norm_le_const (μ := π) (f := fun y => f (Fin.cons x y)) (C := M)
        (.of_forall fun y => by rw [Real.norm_eq_abs]; exact hM _)
      simpa using this
    have hgl : ∀ x x', |g x - g x'| ≤ a 0 * |x - x'| := fun x x' => by
      rw [hg]
      dsimp only
      rw [← integral_sub (is x) (is x')]
      have := norm_integral_le_of_norm_le_const (μ := π) (f := fun y => f (Fin.cons x y) - f (Fin.cons x' y)) (C := a 0 * |x - x'|)
        (.of_forall fun y => by rw [Real.norm_eq_abs]; exact h0 x x' y)
      simpa using this
    obtain ⟨mg, h1⟩ := one_lip h2 (a0 0) hgM hgl
    have m1 : ∫ z, f z ∂(Measure.pi fun _ : Fin (N + 1) => ν) = ∫ x, g x ∂ν := int_cons mf hM
    set m := ∫ x, g x ∂ν with hm
    have hmM : |m| ≤ M := by
      have := norm_integral_le_of_norm_le_const (μ := ν) (f := g) (C := M) (.of_forall fun y => by rw [Real.norm_eq_abs]; exact hgM _)
      simpa using this
    rw [m1]
    have b2 : ∀ t s : ℝ, |t| ≤ M → |s| ≤ M → |(t - s) ^ 2| ≤ (2 * M) ^ 2 := fun t s ht hs => by
      rw [abs_pow]
      refine pow_le_pow_left₀ (abs_nonneg _) ((abs_sub _ _).trans ?_) 2
      linarith
    rw [int_cons (M := (2 * M) ^ 2) ((mf.sub_const m).pow_const 2) fun z => b2 _ _ (hM z) hmM]
    have inner : ∀ x, ∫ y, (f (Fin.cons x y) - m) ^ 2 ∂π = (∫ y, (f (Fin.cons x y) - g x) ^ 2 ∂π) + (g x - m) ^ 2 := fun x => by
      have e : (fun y => (f (Fin.cons x y) - m) ^ 2)
          = fun y => (f (Fin.cons x y) - g x) ^ 2 + (2 * (g x - m) * (f (Fin.cons x y) - g x) + (g x - m) ^ 2) := by
        funext y
        ring
      have i1 : Integrable (fun y => (f (Fin.cons x y) - g x) ^ 2) π :=
        bdd_int (M := (2 * M) ^ 2) (((ms x).sub_const _).pow_const 2) fun y => b2 _ _ (hM _) (hgM x)
      have i2 : Integrable (fun y => 2 * (g x - m) * (f (Fin.cons x y) - g x)) π := ((is x).sub (integrable_const _)).const_mul _
      have i3 : Integrable (fun y => 2 * (g x - m) * (f (Fin.cons x y) - g x) + (g x - m) ^ 2) π := i2.add (integrable_const _)
      rw [e, integral_add i1 i3, integral_add i2 (integrable_const _), integral_const_mul,
        integral_sub (is x) (integrable_const _)]
      simp [hg]
    have inner' : (fun x => ∫ y, (f (Fin.cons x y) - m) ^ 2 ∂π) = fun x => _ := funext inner
    rw [inner']
    have mi : ∀ x, ∫ y, (f (Fin.cons x y) - g x) ^ 2 ∂π ≤ (∑ i : Fin N, a i.succ ^ 2) * V := fun x =>
      ih (f := fun y => f (Fin.cons x y)) (fun i => a0 i.succ) (fun y => hM _) (hs x)
    have mj : Measurable fun x => ∫ y, (f (Fin.cons x y) - g x) ^ 2 ∂π := by
      have mc : Measurable fun q : ℝ × (Fin N → ℝ) => (Fin.cons q.1 q.2 : Fin (N + 1) → ℝ) := by
        refine measurable_pi_lambda _ fun i => ?_
        refine Fin.cases ?_ (fun j => ?_) i
        · exact measurable_fst
        · exact (measurable_pi_apply j).comp measurable_snd
      have : Measurable fun q : ℝ × (Fin N → ℝ) => (f (Fin.cons q.1 q.2) - g q.1) ^ 2 :=
        ((mf.comp mc).sub (mg.comp measurable_fst)).pow_const 2
      exact (this.stronglyMeasurable.integral_prod_right').measurable
    have ij : Integrable (fun x => ∫ y, (f (Fin.cons x y) - g x) ^ 2 ∂π) ν := bdd_int (M := (2 * M) ^ 2) mj fun x => by
      have := norm_integral_le_of_norm_le_const (μ := π) (f := fun y => (f (Fin.cons x y) - g x) ^ 2) (C := (2 * M) ^ 2)
        (.of_forall fun y => by rw [Real.norm_eq_abs]; exact b2 _ _ (hM _) (hgM x))
      simpa using this
    have ik : Integrable (fun x => (g x - m) ^ 2) ν :=
      bdd_int (M := (2 * M) ^ 2) ((mg.sub_const m).pow_const 2) fun x => b2 _ _ (hgM x) hmM
    rw [integral_add ij ik, Fin.sum_univ_succ, add_mul, add_comm]
    refine add_le_add h1 ?_
    have := integral_mono ij (integrable_const _) mi
    simpa using this

end

end Verif.SelfAvg
