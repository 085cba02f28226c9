/-
Helper lemmas: mean square of a sum of observations along a chain that forgets at a fixed rate in the mean square, started from
a law with a bounded density.
-/
import Verif.Lemmas.GapMetro
import Mathlib.Algebra.QuadraticDiscriminant

set_option linter.unusedSectionVars false

namespace Verif.GapMean

open MeasureTheory Function Finset
open Gap (Nice)

section
variable {Ω : Type} [MeasurableSpace Ω] {μ : Measure Ω} [IsProbabilityMeasure μ] {W : Ω → ℝ} {U : (Ω → ℝ) → Ω → ℝ} {ρ : ℝ}

/-- a Markov operator that keeps the law of density `W` and contracts functions of mean zero by `ρ` in the mean square -/
structure Mixes (μ : Measure Ω) (W : Ω → ℝ) (ρ : ℝ) (U : (Ω → ℝ) → Ω → ℝ) : Prop where
  nice : ∀ {f}, Nice f → Nice (U f)
  add : ∀ {f g}, Nice f → Nice g → U (fun x => f x + g x) = fun x => U f x + U g x
  const : ∀ m : ℝ, (U fun _ => m) = fun _ => m
  bound : ∀ {f} {M : ℝ}, Nice f → (∀ x, |f x| ≤ M) → ∀ x, |U f x| ≤ M
  mean : ∀ {f}, Nice f → ∫ x, W x * U f x ∂μ = ∫ x, W x * f x ∂μ
  decay : ∀ {f}, Nice f → ∫ x, W x * f x ∂μ = 0 → ∫ x, W x * (U f x * U f x) ∂μ ≤ ρ ^ 2 * ∫ x, W x * (f x * f x) ∂μ

variable (hW : Nice W) (W0 : ∀ x, 0 < W x) (W1 : ∫ x, W x ∂μ = 1) (H : Mixes μ W ρ U) (r0 : 0 ≤ ρ) (r1 : ρ < 1)

/-- root mean square -/
noncomputable def nrm (μ : Measure Ω) (W : Ω → ℝ) (f : Ω → ℝ) : ℝ := Real.sqrt (∫ x, W x * (f x * f x) ∂μ)

section
include W0

theorem sq_nonneg' (f : Ω → ℝ) : 0 ≤ ∫ x, W x * (f x * f x) ∂μ := integral_nonneg fun x => mul_nonneg (W0 x).le (mul_self_nonneg _)

theorem nrm_sq (f : Ω → ℝ) : nrm μ W f ^ 2 = ∫ x, W x * (f x * f x) ∂μ := Real.sq_sqrt (sq_nonneg' W0 f)

theorem nrm_le {f : Ω → ℝ} {a : ℝ} (ha : 0 ≤ a) (h : ∫ x, W x * (f x * f x) ∂μ ≤ a ^ 2) : nrm μ W f ≤ a := by
  rw [nrm, Real.sqrt_le_left ha]
  exact h

include hW

/-- Cauchy-Schwarz inequality -/
theorem cs {f g : Ω → ℝ} (hf : Nice f) (hg : Nice g) : |∫ x, W x * (f x * g x) ∂μ| ≤ nrm μ W f * nrm μ W g := by
  have h : ∀ t : ℝ, 0 ≤ (∫ x, W x * (g x * g x) ∂μ) * (t * t) + 2 * (∫ x, W x * (f x * g x) ∂μ) * t + ∫ x, W x * (f x * f x) ∂μ := fun t => by
    have h0 := sq_nonneg' (μ := μ) W0 fun x => f x + t * g x
    have e : ∀ x, W x * ((f x + t * g x) * (f x + t * g x))
        = (t * t) * (W x * (g x * g x)) + (2 * t) * (W x * (f x * g x)) + W x * (f x * f x) := fun x => by ring
    simp only [e] at h0
    rw [integral_add, integral_add, integral_const_mul, integral_const_mul] at h0
    · linarith
    · exact ((Nice.const _).mul (hW.mul (hg.mul hg))).int μ
    · exact ((Nice.const _).mul (hW.mul (hf.mul hg))).int μ
    · exact (((Nice.const _).mul (hW.mul (hg.mul hg))).add ((Nice.const _).mul (hW.mul (hf.mul hg)))).int μ
    · exact (hW.mul (hf.mul hf)).int μ
  have := discrim_le_zero h
  unfold discrim at this
  refine abs_le_of_sq_le_sq ?_ (mul_nonneg (Real.sqrt_nonneg _) (Real.sqrt_nonneg _))
  rw [mul_pow, nrm_sq W0, nrm_sq W0]
  linarith

theorem nrm_add {f g : Ω → ℝ} (hf : Nice f) (hg : Nice g) : nrm μ W (fun x => f x + g x) ≤ nrm μ W f + nrm μ W g := by
  refine nrm_le W0 (add_nonneg (Real.sqrt_nonneg _) (Real.sqrt_nonneg _)) ?_
  have e : ∀ x, W x * ((f x + g x) * (f x + g x)) = W x * (f x * f x) + 2 * (W x * (f x * g x)) + W x * (g x * g x) := fun x => by ring
  simp only [e]
  rw [integral_add, integral_add, integral_const_mul]
  · have h := (le_abs_self _).trans (cs (μ := μ) hW W0 hf hg)
    have h1 := nrm_sq (μ := μ) W0 f
    have h2 := nrm_sq (μ := μ) W0 g
    rw [← h1, ← h2]
    nlinarith
  · exact (hW.mul (hf.mul hf)).int μ
  · exact ((Nice.const _).mul (hW.mul (hf.mul hg))).int μ
  · exact ((hW.mul (hf.mul hf)).add ((Nice.const _).mul (hW.mul (hf.mul hg)))).int μ
  · exact (hW.mul (hg.mul hg)).int μ

theorem nrm_mul {f g : Ω → ℝ} {M : ℝ} (M0 : 0 ≤ M) (hf : Nice f) (hg : Nice g) (hM : ∀ x, |f x| ≤ M) :
    nrm μ W (fun x => f x * g x) ≤ M * nrm μ W g := by
  refine nrm_le W0 (mul_nonneg M0 (Real.sqrt_nonneg _)) ?_
  rw [mul_pow, nrm_sq W0, ← integral_const_mul]
  refine integral_mono ((hW.mul ((hf.mul hg).mul (hf.mul hg))).int μ) (((Nice.const _).mul (hW.mul (hg.mul hg))).int μ) fun x => ?_
  dsimp only
  have h1 : f x ^ 2 ≤ M ^ 2 := by
    rw [← sq_abs]
    exact pow_le_pow_left₀ (abs_nonneg _) (hM x) 2
  have h2 : 0 ≤ W x * (g x * g x) := mul_nonneg (W0 x).le (mul_self_nonneg _)
  calc W x * (f x * g x * (f x * g x)) = f x ^ 2 * (W x * (g x * g x)) := by ring
    _ ≤ _ := mul_le_mul_of_nonneg_right h1 h2

end

section iter
include H

theorem iter_nice {f : Ω → ℝ} (hf : Nice f) (n : ℕ) : Nice (U^[n] f) := by
  induction n with
  | zero => exact hf
  | succ n ih =>
    rw [iterate_succ_apply']
    exact H.nice ih

theorem iter_add {f g : Ω → ℝ} (hf : Nice f) (hg : Nice g) (n : ℕ) : U^[n] (fun x => f x + g x) = fun x => U^[n] f x + U^[n] g x := by
  induction n with
  | zero => rfl
  | succ n ih =>
    rw [iterate_succ_apply', iterate_succ_apply', iterate_succ_apply', ih, H.add (iter_nice H hf n) (iter_nice H hg n)]

theorem iter_const (m : ℝ) (n : ℕ) : (U^[n] fun _ => m) = fun _ => m := by
  induction n with
  | zero => rfl
  | succ n ih => rw [iterate_succ_apply', ih, H.const]

theorem iter_bound {f : Ω → ℝ} {M : ℝ} (hf : Nice f) (h : ∀ x, |f x| ≤ M) (n : ℕ) (x : Ω) : |U^[n] f x| ≤ M := by
  induction n generalizing x with
  | zero => exact h x
  | succ n ih =>
    rw [iterate_succ_apply']
    exact H.bound (iter_nice H hf n) ih x

theorem iter_mean {f : Ω → ℝ} (hf : Nice f) (n : ℕ) : ∫ x, W x * U^[n] f x ∂μ = ∫ x, W x * f x ∂μ := by
  induction n with
  | zero => rfl
  | succ n ih => rw [iterate_succ_apply', H.mean (iter_nice H hf n), ih]

include W0 r0

theorem iter_decay {f : Ω → ℝ} (hf : Nice f) (f0 : ∫ x, W x * f x ∂μ = 0) (n : ℕ) : nrm μ W (U^[n] f) ≤ ρ ^ n * nrm μ W f := by
  induction n with
  | zero => simp
  | succ n ih =>
    have h := H.decay (iter_nice H hf n) ((iter_mean H hf n).trans f0)
    rw [iterate_succ_apply']
    have h1 : nrm μ W (U (U^[n] f)) ≤ ρ * nrm μ W (U^[n] f) := by
      refine nrm_le W0 (mul_nonneg r0 (Real.sqrt_nonneg _)) ?_
      rw [mul_pow, nrm_sq W0]
      exact h
    calc _ ≤ _ := h1
      _ ≤ ρ * (ρ ^ n * nrm μ W f) := mul_le_mul_of_nonneg_left ih r0
      _ = _ := by ring

end iter

/-- mean of the sum of the next `k` observations -/
noncomputable def Am (U : (Ω → ℝ) → Ω → ℝ) (g : Ω → ℝ) (k : ℕ) (x : Ω) : ℝ := ∑ j ∈ range k, U^[j + 1] g x

noncomputable def Gm (U : (Ω → ℝ) → Ω → ℝ) (g : Ω → ℝ) (k : ℕ) (x : Ω) : ℝ := g x * (g x + 2 * Am U g k x)

/-- mean square of the sum of the next `n` observations -/
noncomputable def Nm (U : (Ω → ℝ) → Ω → ℝ) (g : Ω → ℝ) : ℕ → Ω → ℝ
  | 0 => fun _ => 0
  | n + 1 => U fun x => Gm U g n x + Nm U g n x

section sums
variable {g : Ω → ℝ} {M : ℝ} (hg : Nice g) (hM : ∀ x, |g x| ≤ M)
include H hg

theorem Am_nice (k : ℕ) : Nice (Am U g k) := Gap.Nice.sum fun j _ => iter_nice H hg (j + 1)

theorem Gm_nice (k : ℕ) : Nice (Gm U g k) := hg.mul (hg.add ((Nice.const 2).mul (Am_nice H hg k)))

theorem Nm_nice (n : ℕ) : Nice (Nm U g n) := by
  induction n with
  | zero => exact Nice.const 0
  | succ n ih => exact H.nice ((Gm_nice H hg n).add ih)

include hM

theorem Am_le (k : ℕ) (x : Ω) : |Am U g k x| ≤ k * M := by
  refine (abs_sum_le_sum_abs _ _).trans ((sum_le_sum fun j _ => iter_bound H hg hM (j + 1) x).trans (le_of_eq ?_))
  simp

theorem Gm_le {k n : ℕ} (hk : k < n) (x : Ω) : |Gm U g k x| ≤ 2 * M ^ 2 * n := by
  have M0 : 0 ≤ M := (abs_nonneg _).trans (hM x)
  have h1 := Am_le H hg hM k x
  have h2 : |g x + 2 * Am U g k x| ≤ M + 2 * (k * M) := by
    refine (abs_add_le _ _).trans (add_le_add (hM x) ?_)
    rw [abs_mul, abs_of_pos (by norm_num : (0 : ℝ) < 2)]
    linarith
  have hk' : (k : ℝ) + 1 ≤ n := by exact_mod_cast hk
  unfold Gm
  rw [abs_mul]
  calc |g x| * |g x + 2 * Am U g k x| ≤ M * (M + 2 * (k * M)) := mul_le_mul (hM x) h2 (abs_nonneg _) M0
    _ = M ^ 2 * (2 * k + 1) := by ring
    _ ≤ M ^ 2 * (2 * n) := mul_le_mul_of_nonneg_left (by linarith) (sq_nonneg M)
    _ = _ := by ring

omit hM
include hW W0 r0 r1

theorem geom_le (n : ℕ) : ∑ j ∈ range n, ρ ^ (j + 1) ≤ 1 / (1 - ρ) := by
  have h := mul_neg_geom_sum ρ n
  rw [le_div_iff₀ (by linarith)]
  have e : ∑ j ∈ range n, ρ ^ (j + 1) = ρ * ∑ j ∈ range n, ρ ^ j := by
    rw [mul_sum]
    exact sum_congr rfl fun j _ => by ring
  have h0 := pow_nonneg r0 n
  rw [e]
  nlinarith

theorem Am_nrm (g0 : ∫ x, W x * g x ∂μ = 0) (k : ℕ) : nrm μ W (Am U g k) ≤ nrm μ W g / (1 - ρ) := by
  have h : ∀ k, nrm μ W (Am U g k) ≤ ∑ j ∈ range k, ρ ^ (j + 1) * nrm μ W g := fun k => by
    induction k with
    | zero =>
      have e : Am U g 0 = fun _ => 0 := by
        funext x
        simp [Am]
      rw [e]
      simp [nrm]
    | succ k ih =>
      have e : Am U g (k + 1) = fun x => Am U g k x + U^[k + 1] g x := by
        funext x
        exact sum_range_succ _ _
      rw [e, sum_range_succ]
      exact (nrm_add hW W0 (Am_nice H hg k) (iter_nice H hg (k + 1))).trans (add_le_add ih (iter_decay W0 H r0 hg g0 (k + 1)))
  refine (h k).trans ?_
  rw [← sum_mul, div_eq_mul_one_div, mul_comm]
  exact mul_le_mul_of_nonneg_left (geom_le hW W0 H r0 r1 hg k) (Real.sqrt_nonneg _)

include hM

/-- size of the terms -/
theorem Gm_nrm (g0 : ∫ x, W x * g x ∂μ = 0) (M0 : 0 ≤ M) (k : ℕ) :
    nrm μ W (Gm U g k) ≤ M * (nrm μ W g * (3 / (1 - ρ))) ∧ ∫ x, W x * Gm U g k x ∂μ ≤ nrm μ W g ^ 2 * (3 / (1 - ρ)) := by
  have hA := Am_nrm hW W0 H r0 r1 hg g0 k
  have nA := Am_nice H hg k
  have n2 : Nice fun x => 2 * Am U g k x := (Nice.const 2).mul nA
  have g1 : 0 ≤ nrm μ W g := Real.sqrt_nonneg _
  have h2 : nrm μ W (fun x => 2 * Am U g k x) ≤ 2 * nrm μ W (Am U g k) :=
    nrm_mul hW W0 (by norm_num) (Nice.const 2) nA (fun x => by norm_num)
  have h1 : 1 ≤ 1 / (1 - ρ) := by
    rw [le_div_iff₀ (by linarith)]
    linarith
  have h3 : nrm μ W (fun x => g x + 2 * Am U g k x) ≤ nrm μ W g * (3 / (1 - ρ)) := by
    refine (nrm_add hW W0 hg n2).trans ?_
    rw [div_eq_mul_one_div] at hA
    rw [div_eq_mul_one_div]
    nlinarith
  refine ⟨(nrm_mul hW W0 M0 hg (hg.add n2) hM).trans (mul_le_mul_of_nonneg_left h3 M0), ?_⟩
  refine (le_abs_self _).trans ((cs hW W0 hg (hg.add n2)).trans ?_)
  rw [sq, mul_assoc]
  exact mul_le_mul_of_nonneg_left h3 g1

/-- mean square of the sum, started from the density `k` -/
theorem start_square (W1 : ∫ x, W x ∂μ = 1) (g0 : ∫ x, W x * g x ∂μ = 0) (M0 : 0 ≤ M) {k : Ω → ℝ} (nk : Nice k) (k0 : ∀ x, 0 ≤ k x)
    (k1 : ∫ x, k x ∂μ = 1) (nr : Nice fun x => k x / W x) {T : ℕ} (hT : nrm μ W (fun x => k x / W x) * ρ ^ T ≤ 1) (n : ℕ) :
    ∫ x, k x * Nm U g n x ∂μ
      ≤ n * (nrm μ W g ^ 2 * (3 / (1 - ρ))) + (T * (2 * M ^ 2 * n) + M * (nrm μ W g * (3 / (1 - ρ))) * (1 / (1 - ρ))) := by
  set σ := nrm μ W g with hσ
  set X := nrm μ W (fun x => k x / W x) with hX
  have X0 : 0 ≤ X := Real.sqrt_nonneg _
  have σ0 : 0 ≤ σ := Real.sqrt_nonneg _
  have q0 : 0 < 1 - ρ := by linarith
  set B := M * (σ * (3 / (1 - ρ))) with hB
  have B0 : 0 ≤ B := mul_nonneg M0 (mul_nonneg σ0 (div_nonneg (by norm_num) q0.le))
  -- two bounds for each term
  have rough : ∀ i m, m < n → ∫ x, k x * U^[i] (Gm U g m) x ∂μ ≤ 2 * M ^ 2 * n := fun i m hm => by
    have nG := iter_nice H (Gm_nice H hg m) i
    have h : ∫ x, k x * U^[i] (Gm U g m) x ∂μ ≤ ∫ x, (2 * M ^ 2 * n) * k x ∂μ :=
      integral_mono ((nk.mul nG).int μ) (((Nice.const _).mul nk).int μ) fun x => by
        dsimp only
        rw [mul_comm]
        exact mul_le_mul_of_nonneg_right ((le_abs_self _).trans (iter_bound H (Gm_nice H hg m) (Gm_le H hg hM hm) i x)) (k0 x)
    rwa [integral_const_mul, k1, mul_one] at h
  have fine : ∀ i m, ∫ x, k x * U^[i] (Gm U g m) x ∂μ ≤ σ ^ 2 * (3 / (1 - ρ)) + X * ρ ^ i * B := fun i m => by
    have nG := Gm_nice H hg m
    obtain ⟨b1, b2⟩ := Gm_nrm hW W0 H r0 r1 hg hM g0 M0 m
    set a := ∫ x, W x * Gm U g m x ∂μ with ha
    have nD : Nice fun x => Gm U g m x + -a := nG.add (Nice.const _)
    have d0 : ∫ x, W x * (Gm U g m x + -a) ∂μ = 0 := by
      simp only [mul_add]
      rw [integral_add ((hW.mul nG).int μ) ((hW.mul (Nice.const _)).int μ), integral_mul_const, W1]
      ring
    have dn : nrm μ W (fun x => Gm U g m x + -a) ≤ nrm μ W (Gm U g m) := by
      refine nrm_le W0 (Real.sqrt_nonneg _) ?_
      rw [nrm_sq W0]
      have e : ∀ x, W x * ((Gm U g m x + -a) * (Gm U g m x + -a))
          = W x * (Gm U g m x * Gm U g m x) + ((-2 * a) * (W x * Gm U g m x) + a ^ 2 * W x) := fun x => by ring
      simp only [e]
      rw [integral_add, integral_add, integral_const_mul, integral_const_mul, W1, ← ha]
      · nlinarith [sq_nonneg a]
      · exact ((Nice.const _).mul (hW.mul nG)).int μ
      · exact ((Nice.const _).mul hW).int μ
      · exact (hW.mul (nG.mul nG)).int μ
      · exact (((Nice.const _).mul (hW.mul nG)).add ((Nice.const _).mul hW)).int μ
    have e1 : U^[i] (Gm U g m) = fun x => U^[i] (fun x => Gm U g m x + -a) x + a := by
      have h := iter_add H nD (Nice.const a) i
      rw [iter_const H a i] at h
      rw [← h]
      congr 1
      funext x
      ring
    have nI := iter_nice H nD i
    have e2 : ∫ x, k x * U^[i] (Gm U g m) x ∂μ = a + ∫ x, W x * (k x / W x * U^[i] (fun x => Gm U g m x + -a) x) ∂μ := by
      rw [e1]
      simp only [mul_add]
      rw [integral_add ((nk.mul nI).int μ) ((nk.mul (Nice.const a)).int μ), integral_mul_const, k1, one_mul, add_comm]
      congr 1
      refine integral_congr_ae (Filter.Eventually.of_forall fun x => ?_)
      have := (W0 x).ne'
      dsimp only
      field_simp
    rw [e2]
    refine add_le_add b2 ((le_abs_self _).trans ((cs hW W0 nr nI).trans ?_))
    rw [mul_assoc]
    refine mul_le_mul_of_nonneg_left ((iter_decay W0 H r0 nD d0 i).trans ?_) X0
    exact mul_le_mul_of_nonneg_left (dn.trans b1) (pow_nonneg r0 i)
  set d : ℕ → ℝ := fun i => if i ≤ T then 2 * M ^ 2 * n else ρ ^ (i - T) * B with hd
  have term : ∀ i m, m < n → ∫ x, k x * U^[i] (Gm U g m) x ∂μ ≤ σ ^ 2 * (3 / (1 - ρ)) + d i := fun i m hm => by
    rw [hd]
    dsimp only
    split_ifs with hi
    · refine (rough i m hm).trans (le_add_of_nonneg_left (mul_nonneg (sq_nonneg _) (div_nonneg (by norm_num) q0.le)))
    · refine (fine i m).trans (add_le_add le_rfl (mul_le_mul_of_nonneg_right ?_ B0))
      have e : ρ ^ i = ρ ^ T * ρ ^ (i - T) := by
        rw [← pow_add]
        congr 1
        omega
      rw [e, ← mul_assoc]
      exact mul_le_of_le_one_left (pow_nonneg r0 _) hT
  have main : ∀ m, m ≤ n → ∀ j, ∫ x, k x * U^[j] (Nm U g m) x ∂μ
      ≤ ∑ i ∈ range m, (σ ^ 2 * (3 / (1 - ρ)) + d (j + i + 1)) := fun m => by
    induction m with
    | zero =>
      intro _ j
      have e : U^[j] (Nm U g 0) = fun _ => 0 := iter_const H 0 j
      rw [e]
      simp
    | succ m ih =>
      intro hm j
      have nG := Gm_nice H hg m
      have nN := Nm_nice H hg m
      have e : U^[j] (Nm U g (m + 1)) = fun x => U^[j + 1] (Gm U g m) x + U^[j + 1] (Nm U g m) x := by
        rw [← iter_add H nG nN (j + 1), iterate_succ_apply]
        rfl
      rw [e, sum_range_succ']
      simp only [mul_add]
      rw [integral_add ((nk.mul (iter_nice H nG _)).int μ) ((nk.mul (iter_nice H nN _)).int μ), add_comm]
      refine add_le_add ((ih (by omega) (j + 1)).trans (le_of_eq ?_)) (term (j + 1) m (by omega))
      refine sum_congr rfl fun i _ => ?_
      congr 2
      omega
  have h := main n le_rfl 0
  refine h.trans ?_
  rw [sum_add_distrib, sum_const, card_range, nsmul_eq_mul]
  refine add_le_add le_rfl ?_
  have d0 : ∀ i, 0 ≤ d i := fun i => by
    rw [hd]
    dsimp only
    split_ifs
    · positivity
    · exact mul_nonneg (pow_nonneg r0 _) B0
  calc ∑ i ∈ range n, d (0 + i + 1) ≤ ∑ i ∈ range (T + n), d (0 + i + 1) :=
        sum_le_sum_of_subset_of_nonneg (range_mono (by omega)) fun i _ _ => d0 _
    _ = ∑ i ∈ range T, d (0 + i + 1) + ∑ i ∈ range n, d (0 + (T + i) + 1) := sum_range_add _ _ _
    _ ≤ T * (2 * M ^ 2 * n) + B * (1 / (1 - ρ)) := by
      refine add_le_add (le_of_eq ?_) ?_
      · rw [sum_congr rfl (g := fun _ => 2 * M ^ 2 * n), sum_const, card_range, nsmul_eq_mul]
        intro i hi
        rw [mem_range] at hi
        rw [hd]
        dsimp only
        rw [if_pos (by omega)]
      · rw [sum_congr rfl (g := fun i => ρ ^ (i + 1) * B), ← sum_mul, mul_comm]
        · exact mul_le_mul_of_nonneg_left (geom_le hW W0 H r0 r1 hg n) B0
        · intro i _
          rw [hd]
          dsimp only
          rw [if_neg (by omega)]
          congr 2
          omega

end sums

end

end Verif.GapMean
