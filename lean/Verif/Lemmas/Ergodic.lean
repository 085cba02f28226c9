/-
Helper lemmas: the mean-square error of an average along a Markov chain.
-/
import Verif.Lemmas.InitLaw
import Verif.Spec.Sampling
import Verif.Model.Obs
import Mathlib.Algebra.Order.Field.GeomSum
import Mathlib.MeasureTheory.Integral.Bochner.Basic
import Mathlib.MeasureTheory.Integral.Prod

namespace Verif.Ergodic

set_option linter.unusedSectionVars false

open MeasureTheory Finset
open scoped ENNReal

section
variable {Y D : Type} [MeasurableSpace Y] [MeasurableSpace D]

/-- state after `n` steps -/
def run (step : Y → D → Y) : (n : ℕ) → Y → (Fin n → D) → Y
  | 0, y, _ => y
  | n + 1, y, w => run step n (step y (w 0)) fun i => w i.succ

/-- sum of `g` over the states after each of `n` steps -/
def total (step : Y → D → Y) (g : Y → ℝ) : (n : ℕ) → Y → (Fin n → D) → ℝ
  | 0, _, _ => 0
  | n + 1, y, w => g (step y (w 0)) + total step g n (step y (w 0)) fun i => w i.succ

/-- mean of `g` after one step -/
noncomputable def Q (ν : Measure D) (step : Y → D → Y) (g : Y → ℝ) (y : Y) : ℝ := ∫ d, g (step y d) ∂ν

variable {ν : Measure D} [IsProbabilityMeasure ν] {step : Y → D → Y}
  (hstep : Measurable fun p : Y × D => step p.1 p.2)

include hstep

theorem meas_head (n : ℕ) : Measurable fun p : Y × (Fin (n + 1) → D) => step p.1 (p.2 0) := by
  have h : Measurable fun p : Y × (Fin (n + 1) → D) => (p.1, p.2 0) :=
    measurable_fst.prodMk ((measurable_pi_apply 0).comp measurable_snd)
  have := Measurable.comp (g := fun p : Y × D => step p.1 p.2) hstep h
  exact this

theorem meas_next (n : ℕ) :
    Measurable fun p : Y × (Fin (n + 1) → D) => (step p.1 (p.2 0), fun i : Fin n => p.2 i.succ) :=
  (meas_head hstep n).prodMk (measurable_pi_iff.2 fun i => (measurable_pi_apply i.succ).comp measurable_snd)

theorem meas_run (n : ℕ) : Measurable fun p : Y × (Fin n → D) => run step n p.1 p.2 := by
  induction n with
  | zero => exact measurable_fst
  | succ n ih =>
    have := Measurable.comp (g := fun p : Y × (Fin n → D) => run step n p.1 p.2) ih (meas_next hstep n)
    exact this

theorem meas_total {g : Y → ℝ} (hg : Measurable g) (n : ℕ) :
    Measurable fun p : Y × (Fin n → D) => total step g n p.1 p.2 := by
  induction n with
  | zero => exact measurable_const
  | succ n ih =>
    have h1 := Measurable.comp (g := fun p : Y × (Fin n → D) => total step g n p.1 p.2) ih (meas_next hstep n)
    have h2 := hg.comp (meas_head hstep n)
    exact h2.add h1

omit hstep in
theorem total_le {g : Y → ℝ} {M : ℝ} (hM : ∀ y, |g y| ≤ M) (n : ℕ) (y : Y) (w : Fin n → D) :
    |total step g n y w| ≤ n * M := by
  induction n generalizing y with
  | zero => simp [total]
  | succ n ih =>
    have h := ih (step y (w 0)) fun i => w i.succ
    calc |total step g (n + 1) y w| ≤ _ := abs_add_le _ _
      _ ≤ M + n * M := add_le_add (hM _) h
      _ = _ := by push_cast; ring

theorem meas_step (y : Y) : Measurable (step y) := by
  have := Measurable.comp (g := fun p : Y × D => step p.1 p.2) hstep (measurable_const (a := y).prodMk measurable_id)
  exact this

theorem meas_Q {g : Y → ℝ} (hg : Measurable g) : Measurable (Q ν step g) := by
  have h : StronglyMeasurable fun p : Y × D => g (step p.1 p.2) := (hg.comp hstep).stronglyMeasurable
  exact (h.integral_prod_right (ν := ν)).measurable

omit hstep in
theorem int_bdd {α : Type} [MeasurableSpace α] {μ : Measure α} [IsFiniteMeasure μ] {g : α → ℝ} (hg : Measurable g)
    {M : ℝ} (hM : ∀ y, |g y| ≤ M) : Integrable g μ :=
  Integrable.of_bound hg.aestronglyMeasurable M (Filter.Eventually.of_forall fun a => by
    rw [Real.norm_eq_abs]; exact hM a)

omit hstep in
theorem Q_le {g : Y → ℝ} {M : ℝ} (hM : ∀ y, |g y| ≤ M) (y : Y) : |Q ν step g y| ≤ M := by
  unfold Q
  have h := norm_integral_le_of_norm_le_const (μ := ν) (f := fun d => g (step y d)) (C := M)
    (Filter.Eventually.of_forall fun d => by rw [Real.norm_eq_abs]; exact hM _)
  rw [Real.norm_eq_abs] at h
  simpa using h

theorem iter_props {g : Y → ℝ} (hg : Measurable g) {M : ℝ} (hM : ∀ y, |g y| ≤ M) (k : ℕ) :
    Measurable ((Q ν step)^[k] g) ∧ ∀ y, |(Q ν step)^[k] g y| ≤ M := by
  induction k with
  | zero => exact ⟨hg, hM⟩
  | succ k ih =>
    rw [Function.iterate_succ_apply']
    exact ⟨meas_Q hstep ih.1, Q_le ih.2⟩

/-- mean of the sum -/
theorem mean_total {g : Y → ℝ} (hg : Measurable g) {M : ℝ} (hM : ∀ y, |g y| ≤ M) (n : ℕ) (y : Y) :
    ∫ w, total step g n y w ∂(Measure.pi fun _ => ν) = ∑ k ∈ range n, (Q ν step)^[k + 1] g y := by
  induction n generalizing y with
  | zero => simp [total]
  | succ n ih =>
    have hm : Measurable fun w : Fin (n + 1) → D => total step g (n + 1) y w :=
      (meas_total hstep hg (n + 1)).comp (measurable_const.prodMk measurable_id)
    rw [integral_cons ν n hm (int_bdd hm fun w => total_le hM (n + 1) y w)]
    have hi : ∀ d, ∫ w, total step g (n + 1) y (Fin.cons d w) ∂(Measure.pi fun _ : Fin n => ν)
        = g (step y d) + ∑ k ∈ range n, (Q ν step)^[k + 1] g (step y d) := by
      intro d
      simp only [total, Fin.cons_zero, Fin.cons_succ]
      have hm' : Measurable fun w : Fin n → D => total step g n (step y d) w :=
        (meas_total hstep hg n).comp (measurable_const.prodMk measurable_id)
      rw [integral_add (integrable_const _) (int_bdd hm' fun w => total_le hM n _ w), ih]
      simp
    simp only [hi]
    have hk : ∀ k, Integrable (fun d => (Q ν step)^[k] g (step y d)) ν := fun k =>
      int_bdd ((iter_props hstep hg hM k).1.comp (meas_step hstep y)) fun d => (iter_props hstep hg hM k).2 _
    have hk0 : Integrable (fun d => g (step y d)) ν := hk 0
    rw [integral_add hk0 (integrable_finsetSum _ fun k _ => hk (k + 1)), integral_finsetSum _ fun k _ => hk (k + 1),
      sum_range_succ', add_comm]
    congr 1
    refine sum_congr rfl fun k _ => ?_
    rw [Function.iterate_succ_apply' _ (k + 1)]
    rfl

/-- mean square of the sum, for a function whose means decay -/
theorem mean_square {g : Y → ℝ} (hg : Measurable g) {M K : ℝ} (hM : ∀ y, |g y| ≤ M) (good : Y → Prop)
    (hgood : ∀ᵐ d ∂ν, ∀ y, good y → good (step y d))
    (hK : ∀ y, good y → ∀ n, |∑ k ∈ range n, (Q ν step)^[k + 1] g y| ≤ K) (n : ℕ) (y : Y) (hy : good y) :
    ∫ w, total step g n y w ^ 2 ∂(Measure.pi fun _ => ν) ≤ n * (M ^ 2 + 2 * M * K) := by
  have hM0 : 0 ≤ M := (abs_nonneg _).trans (hM y)
  induction n generalizing y with
  | zero => simp [total]
  | succ n ih =>
    have hb : ∀ (m : ℕ) (y : Y) (w : Fin m → D), |total step g m y w ^ 2| ≤ (m * M) ^ 2 := by
      intro m y w
      rw [abs_pow]
      exact pow_le_pow_left₀ (abs_nonneg _) (total_le hM m y w) 2
    have hm : ∀ (m : ℕ) (y : Y), Measurable fun w : Fin m → D => total step g m y w := fun m y =>
      (meas_total hstep hg m).comp (measurable_const.prodMk measurable_id)
    rw [integral_cons ν n ((hm (n + 1) y).pow_const 2) (int_bdd ((hm (n + 1) y).pow_const 2) (hb (n + 1) y))]
    have hi : ∀ᵐ d ∂ν, ∫ w, total step g (n + 1) y (Fin.cons d w) ^ 2 ∂(Measure.pi fun _ : Fin n => ν)
        ≤ ((n + 1 : ℕ) : ℝ) * (M ^ 2 + 2 * M * K) := by
      refine hgood.mono fun d hd => ?_
      have gy := hd y hy
      set y1 := step y d with hy1
      have e : ∀ w : Fin n → D, total step g (n + 1) y (Fin.cons d w) ^ 2
          = g y1 ^ 2 + (2 * g y1 * total step g n y1 w + total step g n y1 w ^ 2) := by
        intro w
        simp only [total, Fin.cons_zero, Fin.cons_succ]
        ring
      simp only [e]
      have i1 : Integrable (fun w => total step g n y1 w) (Measure.pi fun _ : Fin n => ν) :=
        int_bdd (hm n y1) fun w => total_le hM n y1 w
      have i2 : Integrable (fun w => total step g n y1 w ^ 2) (Measure.pi fun _ : Fin n => ν) :=
        int_bdd ((hm n y1).pow_const 2) (hb n y1)
      have i3 : Integrable (fun w => 2 * g y1 * total step g n y1 w) (Measure.pi fun _ : Fin n => ν) :=
        i1.const_mul _
      have i4 : Integrable (fun w => 2 * g y1 * total step g n y1 w + total step g n y1 w ^ 2)
          (Measure.pi fun _ : Fin n => ν) := i3.add i2
      rw [integral_add (integrable_const _) i4, integral_add i3 i2, integral_const_mul,
        mean_total hstep hg hM]
      have a1 := ih y1 gy
      have a2 := hK y1 gy n
      have a3 := hM y1
      have a4 : g y1 ^ 2 ≤ M ^ 2 := by
        rw [← sq_abs]
        exact pow_le_pow_left₀ (abs_nonneg _) a3 2
      have a5 : g y1 * ∑ k ∈ range n, (Q ν step)^[k + 1] g y1 ≤ M * K := by
        refine (le_abs_self _).trans ?_
        rw [abs_mul]
        exact mul_le_mul a3 a2 (abs_nonneg _) hM0
      simp only [integral_const, probReal_univ, one_smul]
      push_cast
      linarith
    refine (integral_mono_of_nonneg (Filter.Eventually.of_forall fun d => integral_nonneg fun w => sq_nonneg _)
      (integrable_const _) hi).trans ?_
    simp

end

/-! ### The Metropolis chain -/

section
open Spec Markov Function
variable {L : ℕ}

instance : IsProbabilityMeasure unitLaw := ⟨by simp [unitLaw]⟩

instance [NeZero L] : IsProbabilityMeasure (rawLaw L) := by
  have : IsProbabilityMeasure ((L : ℝ≥0∞)⁻¹ • (Measure.count : Measure (Fin L))) := by
    refine ⟨?_⟩
    have h0 : (L : ℝ≥0∞) ≠ 0 := by simp [NeZero.ne L]
    simp [ENNReal.inv_mul_cancel h0 (ENNReal.natCast_ne_top L)]
  unfold rawLaw
  infer_instance

instance [NeZero L] (per n : ℕ) : IsProbabilityMeasure (blockLaw L per n) := by
  unfold blockLaw
  infer_instance

open Classical in
/-- one update of the spins -/
noncomputable def move (β : ℝ) (E : (Fin L → V3 ℝ) → ℝ) (v : Fin L → V3 ℝ) (d : Raw L) : Fin L → V3 ℝ :=
  let v' := update v d.1 (spherePoint d.2.1 d.2.2.1)
  if E v' - E v < 0 ∨ d.2.2.2 < Real.exp (-(β * (E v' - E v))) then v' else v

theorem meas_upd : Measurable fun p : (Fin L → V3 ℝ) × Raw L => update p.1 p.2.1 (spherePoint p.2.2.1 p.2.2.2.1) := by
  refine measurable_pi_iff.2 fun j => ?_
  have hs : Measurable fun p : (Fin L → V3 ℝ) × Raw L => spherePoint p.2.2.1 p.2.2.2.1 := by
    have h : Measurable fun p : (Fin L → V3 ℝ) × Raw L => (p.2.2.1, p.2.2.2.1) := by fun_prop
    have := Measurable.comp (g := fun p : ℝ × ℝ => spherePoint p.1 p.2) measurable_spherePoint h
    exact this
  have hi : MeasurableSet {p : (Fin L → V3 ℝ) × Raw L | j = p.2.1} := by
    have h : Measurable fun p : (Fin L → V3 ℝ) × Raw L => p.2.1 := by fun_prop
    exact measurableSet_eq_fun measurable_const h
  have hv : Measurable fun p : (Fin L → V3 ℝ) × Raw L => p.1 j := (measurable_pi_apply j).comp measurable_fst
  simp only [update_apply]
  exact Measurable.ite hi hs hv

theorem meas_move {β : ℝ} {E : (Fin L → V3 ℝ) → ℝ} (hE : Measurable E) :
    Measurable fun p : (Fin L → V3 ℝ) × Raw L => move β E p.1 p.2 := by
  have hd : Measurable fun p : (Fin L → V3 ℝ) × Raw L =>
      E (update p.1 p.2.1 (spherePoint p.2.2.1 p.2.2.2.1)) - E p.1 :=
    (hE.comp meas_upd).sub (hE.comp measurable_fst)
  have hu : Measurable fun p : (Fin L → V3 ℝ) × Raw L => p.2.2.2.2 := by fun_prop
  refine Measurable.ite ?_ meas_upd measurable_fst
  exact (measurableSet_lt hd measurable_const).union
    (measurableSet_lt hu (Real.measurable_exp.comp (hd.const_mul β).neg))

/-- a decision averaged over the last number -/
theorem decision {β dE : ℝ} (hb : 0 ≤ β) (A B : ℝ≥0∞) [∀ u : ℝ, Decidable (dE < 0 ∨ u < Real.exp (-(β * dE)))] :
    ∫⁻ u, (if dE < 0 ∨ u < Real.exp (-(β * dE)) then A else B) ∂unitLaw
      = ENNReal.ofReal (min 1 (Real.exp (-(β * dE)))) * A
        + (1 - ENNReal.ofReal (min 1 (Real.exp (-(β * dE))))) * B := by
  have h := mean_decision (beta := β) (dE := dE) hb A B (fun c => if c.t = 0 then A else B)
    ⟨[], [], [], 1, Config.default, none⟩ ⟨[], [], [], 0, Config.default, none⟩ (by simp) (by simp)
  rw [← h]
  refine lintegral_congr fun u => ?_
  unfold metropolis
  by_cases hc : dE < 0 ∨ u < Real.exp (-(β * dE))
  · simp [hc]
  · simp [hc]

theorem lintegral_move {β : ℝ} (hb : 0 ≤ β) {E : (Fin L → V3 ℝ) → ℝ} (hE : Measurable E)
    {h : (Fin L → V3 ℝ) → ℝ≥0∞} (hh : Measurable h) (v : Fin L → V3 ℝ) :
    ∫⁻ d, h (move β E v d) ∂(rawLaw L) = Pm sphereMeasure β E h v := by
  have hm : Measurable fun d : Raw L => h (move β E v d) := by
    have := (meas_move (β := β) hE).comp (measurable_const (a := v).prodMk measurable_id)
    exact hh.comp this
  unfold rawLaw
  rw [lintegral_prod _ hm.aemeasurable, lintegral_smul_measure, lintegral_count, tsum_fintype]
  unfold Pm
  rw [div_eq_mul_inv, mul_comm, smul_eq_mul]
  congr 1
  refine Finset.sum_congr rfl fun i _ => ?_
  have hm1 : Measurable fun p : ℝ × ℝ × ℝ => h (move β E v (i, p)) :=
    hm.comp (measurable_const.prodMk measurable_id)
  rw [lintegral_prod _ hm1.aemeasurable]
  have hl := measurable_line (β := β) hE i hh v
  unfold Qs
  rw [← lintegral_sphere hl]
  refine lintegral_congr fun u1 => ?_
  have hm2 : Measurable fun p : ℝ × ℝ => h (move β E v (i, u1, p)) :=
    hm1.comp (measurable_const.prodMk measurable_id)
  rw [lintegral_prod _ hm2.aemeasurable]
  refine lintegral_congr fun u2 => ?_
  have e : ∀ u3 : ℝ, h (move β E v (i, u1, u2, u3)) = if E (update v i (spherePoint u1 u2)) - E v < 0 ∨
      u3 < Real.exp (-(β * (E (update v i (spherePoint u1 u2)) - E v))) then h (update v i (spherePoint u1 u2))
      else h v := by
    intro u3
    unfold move
    dsimp only
    split <;> rfl
  simp only [e]
  exact decision hb _ _

theorem lintegral_run {β : ℝ} (hb : 0 ≤ β) {E : (Fin L → V3 ℝ) → ℝ} (hE : Measurable E) [NeZero L] (n : ℕ)
    {h : (Fin L → V3 ℝ) → ℝ≥0∞} (hh : Measurable h) (v : Fin L → V3 ℝ) :
    ∫⁻ w, h (run (move β E) n v w) ∂(Measure.pi fun _ => rawLaw L) = (Pm sphereMeasure β E)^[n] h v := by
  induction n generalizing v with
  | zero => simp [run]
  | succ n ih =>
    have hm : Measurable fun w : Fin (n + 1) → Raw L => h (run (move β E) (n + 1) v w) :=
      hh.comp ((meas_run (meas_move hE) (n + 1)).comp (measurable_const.prodMk measurable_id))
    rw [lintegral_cons _ n hm, iterate_succ_apply']
    rw [← lintegral_move hb hE (measurable_iter hE hh n)]
    refine lintegral_congr fun d => ?_
    rw [← ih]
    rfl

/-- real means along the blocks -/
theorem Q_run {β : ℝ} (hb : 0 ≤ β) {E : (Fin L → V3 ℝ) → ℝ} (hE : Measurable E) [NeZero L] (per : ℕ)
    {f : (Fin L → V3 ℝ) → ℝ} (hf : Measurable f) (h0 : ∀ v, 0 ≤ f v) (h1 : ∀ v, f v ≤ 1) (k : ℕ) (v : Fin L → V3 ℝ) :
    (Q (Measure.pi fun _ => rawLaw L) (run (move β E) per))^[k] f v
      = ((Pm sphereMeasure β E)^[per * k] (fun v => ENNReal.ofReal (f v)) v).toReal := by
  have hr := meas_run (meas_move (β := β) hE) per
  induction k generalizing v with
  | zero => simp [h0]
  | succ k ih =>
    rw [iterate_succ_apply', show per * (k + 1) = per + per * k by ring, iterate_add_apply,
      ← lintegral_run hb hE per (measurable_iter hE hf.ennreal_ofReal _)]
    have hp := iter_props (ν := Measure.pi fun _ => rawLaw L) hr hf (M := 1)
      (fun v => abs_le.2 ⟨by linarith [h0 v], h1 v⟩) k
    have hm : Measurable fun w => (Q (Measure.pi fun _ => rawLaw L) (run (move β E) per))^[k] f (run (move β E) per v w) :=
      hp.1.comp (meas_step hr v)
    show ∫ w, (Q (Measure.pi fun _ => rawLaw L) (run (move β E) per))^[k] f (run (move β E) per v w)
      ∂(Measure.pi fun _ => rawLaw L) = _
    rw [integral_eq_lintegral_of_nonneg_ae (Filter.Eventually.of_forall fun w => by
      show (0 : ℝ) ≤ _
      rw [ih]; exact ENNReal.toReal_nonneg) hm.aestronglyMeasurable]
    congr 1
    refine lintegral_congr fun w => ?_
    rw [ih, ENNReal.ofReal_toReal]
    have hle : ∀ v, Good Set.univ v → ENNReal.ofReal (f v) ≤ 1 := fun v _ => by
      rw [← ENNReal.ofReal_one]; exact ENNReal.ofReal_le_ofReal (h1 v)
    have := iter_mono (σ := sphereMeasure) (β := β) (E := E) (U := Set.univ) (by simp) (g := fun _ => 1) hle (per * k)
      (run (move β E) per v w) (fun _ => trivial)
    rw [iter_const (NeZero.one_le)] at this
    exact ne_top_of_le_ne_top ENNReal.one_ne_top this

/-! ### Admissible draws -/

/-- the number that sets the height of the direction is in `[0, 1)` -/
def Fair (d : Raw L) : Prop := 0 ≤ d.2.2.1 ∧ d.2.2.1 < 1

theorem fair_ae [NeZero L] : ∀ᵐ d ∂(rawLaw L), Fair d := by
  have h : ∀ᵐ x ∂unitLaw, 0 ≤ x ∧ x < 1 := ae_restrict_mem measurableSet_Ico
  have hq : Measure.QuasiMeasurePreserving (fun d : Raw L => d.2.2.1) (rawLaw L) unitLaw := by
    unfold rawLaw
    have h1 := Measure.quasiMeasurePreserving_fst (μ := unitLaw) (ν := unitLaw)
    have h2 := Measure.quasiMeasurePreserving_snd (μ := unitLaw) (ν := unitLaw.prod unitLaw)
    have : IsProbabilityMeasure ((L : ℝ≥0∞)⁻¹ • (Measure.count : Measure (Fin L))) := by
      refine ⟨?_⟩
      have h0 : (L : ℝ≥0∞) ≠ 0 := by simp [NeZero.ne L]
      simp [ENNReal.inv_mul_cancel h0 (ENNReal.natCast_ne_top L)]
    have h3 := Measure.quasiMeasurePreserving_snd (μ := (L : ℝ≥0∞)⁻¹ • (Measure.count : Measure (Fin L)))
      (ν := unitLaw.prod (unitLaw.prod unitLaw))
    exact h1.comp (h2.comp h3)
  exact hq.ae h

theorem fair_block [NeZero L] (per : ℕ) : ∀ᵐ b ∂(Measure.pi fun _ : Fin per => rawLaw L), ∀ k, Fair (b k) := by
  rw [ae_all_iff]
  intro k
  exact (Measure.quasiMeasurePreserving_eval (fun _ : Fin per => rawLaw L) k).ae fair_ae

theorem fair_blocks [NeZero L] (per n : ℕ) : ∀ᵐ w ∂(blockLaw L per n), ∀ i k, Fair (w i k) := by
  rw [ae_all_iff]
  intro i
  exact (Measure.quasiMeasurePreserving_eval (fun _ : Fin n => Measure.pi fun _ : Fin per => rawLaw L) i).ae
    (fair_block per)

theorem move_good {β : ℝ} {E : (Fin L → V3 ℝ) → ℝ} {v : Fin L → V3 ℝ} (hv : Good Sph v) {d : Raw L} (hd : Fair d) :
    Good Sph (move β E v d) := by
  unfold move
  dsimp only
  split
  · exact good_update hv _ (sphere_unit hd.1 hd.2.le)
  · exact hv

theorem run_good {β : ℝ} {E : (Fin L → V3 ℝ) → ℝ} (n : ℕ) {v : Fin L → V3 ℝ} (hv : Good Sph v) {b : Fin n → Raw L}
    (hb : ∀ k, Fair (b k)) : Good Sph (run (move β E) n v b) := by
  induction n generalizing v with
  | zero => exact hv
  | succ n ih => exact ih (move_good hv (hb 0)) fun k => hb k.succ

/-- observations after each block -/
def vals {Y D : Type} (step : Y → D → Y) (f : Y → ℝ) : (n : ℕ) → Y → (Fin n → D) → List ℝ
  | 0, _, _ => []
  | n + 1, y, w => f (step y (w 0)) :: vals step f n (step y (w 0)) fun i => w i.succ

theorem vals_sum {Y D : Type} (step : Y → D → Y) (f : Y → ℝ) (n : ℕ) (y : Y) (w : Fin n → D) :
    (vals step f n y w).sum = total step f n y w := by
  induction n generalizing y with
  | zero => rfl
  | succ n ih => rw [vals, List.sum_cons, ih]; rfl

theorem vals_mean {Y D : Type} (step : Y → D → Y) (f : Y → ℝ) (n : ℕ) (y : Y) (w : Fin n → D) :
    meanOf (vals step f n y w) n = total step f n y w / n := by
  unfold meanOf
  rw [← vals_sum, fofInt_real]
  have : ∀ (l : List ℝ) (a : ℝ), l.foldl (fun acc x => acc + x) a = a + l.sum := by
    intro l
    induction l with
    | nil => simp
    | cons x l ih => intro a; rw [List.foldl_cons, ih, List.sum_cons]; ring
  rw [this]
  norm_num

theorem total_congr {β : ℝ} {E : (Fin L → V3 ℝ) → ℝ} {f g : (Fin L → V3 ℝ) → ℝ} (h : ∀ v, Good Sph v → f v = g v)
    {per : ℕ} (n : ℕ) {v : Fin L → V3 ℝ} (hv : Good Sph v) {w : Fin n → Fin per → Raw L} (hw : ∀ i k, Fair (w i k)) :
    total (run (move β E) per) f n v w = total (run (move β E) per) g n v w := by
  induction n generalizing v with
  | zero => rfl
  | succ n ih =>
    have h1 := run_good (β := β) (E := E) per hv (hw 0)
    unfold total
    rw [h _ h1, ih h1 fun i => hw i.succ]

/-! ### The error of an average -/

theorem geometric {ε : ℝ} (h0 : 0 < ε) (h1 : ε ≤ 1) {L per : ℕ} (hL : 1 ≤ L) (hp : 1 ≤ per) (n : ℕ) :
    ∑ k ∈ range n, (1 - ε) ^ (per * (k + 1) / L) ≤ L / ε := by
  have r0 : 0 ≤ 1 - ε := by linarith
  have r1 : 1 - ε ≤ 1 := by linarith
  have a1 : ∑ k ∈ range n, (1 - ε) ^ (per * (k + 1) / L) ≤ ∑ k ∈ range n, (1 - ε) ^ (k / L) := by
    refine sum_le_sum fun k _ => pow_le_pow_of_le_one r0 r1 (Nat.div_le_div_right ?_)
    nlinarith
  have a2 : ∑ k ∈ range n, (1 - ε) ^ (k / L) ≤ ∑ k ∈ range (n * L), (1 - ε) ^ (k / L) :=
    sum_le_sum_of_subset_of_nonneg (range_mono (Nat.le_mul_of_pos_right n hL)) fun k _ _ => pow_nonneg r0 _
  have a3 : ∀ q : ℕ, ∑ k ∈ range (q * L), (1 - ε) ^ (k / L) = L * ∑ j ∈ range q, (1 - ε) ^ j := by
    intro q
    induction q with
    | zero => simp
    | succ q ih =>
      rw [Nat.add_mul, one_mul, sum_range_add, ih, sum_range_succ, mul_add]
      congr 1
      rw [sum_congr rfl (g := fun _ => (1 - ε) ^ q), sum_const, card_range, nsmul_eq_mul]
      intro k hk
      congr 1
      rw [Nat.add_comm, Nat.add_mul_div_right _ _ (by omega), Nat.div_eq_of_lt (mem_range.1 hk), zero_add]
  have a4 : ε * ∑ j ∈ range n, (1 - ε) ^ j ≤ 1 := by
    have := mul_neg_geom_sum (1 - ε) n
    rw [show 1 - (1 - ε) = ε by ring] at this
    rw [this]
    linarith [pow_nonneg r0 n]
  rw [a3] at a2
  rw [le_div_iff₀ h0]
  have hL' : (0 : ℝ) ≤ L := by positivity
  calc _ ≤ (L * ∑ j ∈ range n, (1 - ε) ^ j) * ε := mul_le_mul_of_nonneg_right (a1.trans a2) h0.le
    _ = L * (ε * ∑ j ∈ range n, (1 - ε) ^ j) := by ring
    _ ≤ L * 1 := mul_le_mul_of_nonneg_left a4 hL'
    _ = L := mul_one _

/-- thermal mean of a function of the spins -/
noncomputable def avg (β : ℝ) (E f : (Fin L → V3 ℝ) → ℝ) : ℝ :=
  (∫ v, Real.exp (-(β * E v)) * f v ∂(Measure.pi fun _ => sphereMeasure)) /
    ∫ v, Real.exp (-(β * E v)) ∂(Measure.pi fun _ => sphereMeasure)

theorem avg_eq {β : ℝ} {E f : (Fin L → V3 ℝ) → ℝ} (hE : Measurable E) (hf : Measurable f) (h0 : ∀ v, 0 ≤ f v) :
    avg β E f = ((∫⁻ v, wt β E v * ENNReal.ofReal (f v) ∂(Measure.pi fun _ => sphereMeasure))
        / ∫⁻ v, wt β E v ∂(Measure.pi fun _ => sphereMeasure)).toReal := by
  have me : Measurable fun v => Real.exp (-(β * E v)) := Real.measurable_exp.comp (hE.const_mul β).neg
  unfold avg
  rw [ENNReal.toReal_div, integral_eq_lintegral_of_nonneg_ae, integral_eq_lintegral_of_nonneg_ae]
  · congr 2
    refine lintegral_congr fun v => ?_
    rw [ENNReal.ofReal_mul (Real.exp_pos _).le]
    rfl
  · exact Filter.Eventually.of_forall fun v => (Real.exp_pos _).le
  · exact me.aestronglyMeasurable
  · exact Filter.Eventually.of_forall fun v => mul_nonneg (Real.exp_pos _).le (h0 v)
  · exact (me.mul hf).aestronglyMeasurable

end

section
open Spec Markov Function
variable {L : ℕ}

theorem weight_int {β D : ℝ} (hb : 0 ≤ β) {E : (Fin L → V3 ℝ) → ℝ} (hE : Measurable E)
    (hD : ∀ v, Good Sph v → |E v| ≤ D) {f : (Fin L → V3 ℝ) → ℝ} (hf : Measurable f) {M : ℝ}
    (hM : ∀ v, Good Sph v → |f v| ≤ M) :
    Integrable (fun v => Real.exp (-(β * E v)) * f v) (Measure.pi fun _ : Fin L => sphereMeasure) := by
  have me : Measurable fun v => Real.exp (-(β * E v)) := Real.measurable_exp.comp (hE.const_mul β).neg
  refine Integrable.of_bound (me.mul hf).aestronglyMeasurable (Real.exp (β * D) * M)
    ((good_ae sphere_ae).mono fun v hv => ?_)
  rw [Real.norm_eq_abs, abs_mul, Real.abs_exp]
  refine mul_le_mul (Real.exp_le_exp.2 ?_) (hM v hv) (abs_nonneg _) (Real.exp_pos _).le
  have := mul_le_mul_of_nonneg_left (abs_le.1 (hD v hv)).1 hb
  linarith

theorem weight_pos {β D : ℝ} (hb : 0 ≤ β) {E : (Fin L → V3 ℝ) → ℝ} (hE : Measurable E)
    (hD : ∀ v, Good Sph v → |E v| ≤ D) :
    0 < ∫ v, Real.exp (-(β * E v)) ∂(Measure.pi fun _ : Fin L => sphereMeasure) := by
  have h := weight_int hb hE hD (f := fun _ => 1) measurable_const (M := 1) (fun _ _ => by simp)
  simp only [mul_one] at h
  rw [integral_pos_iff_support_of_nonneg (fun v => (Real.exp_pos _).le) h]
  have : support (fun v : Fin L → V3 ℝ => Real.exp (-(β * E v))) = Set.univ := by
    ext v
    simp [Real.exp_ne_zero]
  rw [this]
  simp

/-- the mean square of the error of an average over `n` observations is at most of order `1 / n` -/
theorem average_error [NeZero L] {B D : ℝ} {E : (Fin L → V3 ℝ) → ℝ} (hE : Measurable E)
    (hD : ∀ v, Good Sph v → |E v| ≤ D) : ∃ K : ℝ, 0 < K ∧ ∀ β : ℝ, 0 ≤ β → β ≤ B →
      ∀ (f : (Fin L → V3 ℝ) → ℝ) (M : ℝ), Measurable f →
      (∀ v, Good Sph v → |f v| ≤ M) → ∀ v, Good Sph v → ∀ per n : ℕ, 1 ≤ per → 1 ≤ n →
      ∫⁻ w, ENNReal.ofReal ((total (run (move β E) per) f n v w / n - avg β E f) ^ 2) ∂(blockLaw L per n)
        ≤ ENNReal.ofReal (K * M ^ 2 / n) := by
  have hL0 : (0 : ℝ) < L := by exact_mod_cast Nat.pos_of_neZero L
  set ε := (Real.exp (-(B * (2 * D))) / L) ^ L with hεd
  have e0 : 0 < ε := pow_pos (div_pos (Real.exp_pos _) hL0) L
  have hK : 0 < L / ε := div_pos hL0 e0
  refine ⟨4 * (1 + 2 * (L / ε)), by positivity, fun β hb hB f M hf hM v hv per n hper hn => ?_⟩
  obtain ⟨r0, r1, hr⟩ := converges_rate (σ := sphereMeasure) (NeZero.one_le (n := L)) sphere_ae hE hb hD
  have hD0 : 0 ≤ D := (abs_nonneg _).trans (hD v hv)
  have hle : ε ≤ (Real.exp (-(β * (2 * D))) / L) ^ L := by
    refine pow_le_pow_left₀ (div_nonneg (Real.exp_pos _).le hL0.le) (div_le_div_of_nonneg_right ?_ hL0.le) L
    refine Real.exp_le_exp.2 (neg_le_neg (mul_le_mul_of_nonneg_right hB (by linarith)))
  have e1 : ε ≤ 1 := hle.trans r1
  have hε : ∀ f : (Fin L → V3 ℝ) → ℝ≥0∞, Measurable f → (∀ v, Good Sph v → f v ≤ 1) → ∀ v, Good Sph v → ∀ n : ℕ,
      |((Pm sphereMeasure β E)^[n] f v).toReal - ((∫⁻ v, wt β E v * f v ∂(Measure.pi fun _ => sphereMeasure))
        / ∫⁻ v, wt β E v ∂(Measure.pi fun _ => sphereMeasure)).toReal| ≤ (1 - ε) ^ (n / L) :=
    fun f hf hf1 v hv n => (hr f hf hf1 v hv n).trans (pow_le_pow_left₀ (by linarith) (by linarith) _)
  clear hr
  have hM0 : 0 ≤ M := (abs_nonneg _).trans (hM v hv)
  have hn0 : (0 : ℝ) < n := by exact_mod_cast hn
  rcases hM0.eq_or_lt with rfl | hMp
  · -- a function that vanishes
    have z : ∀ v, Good Sph v → f v = 0 := fun v hv => abs_nonpos_iff.1 (hM v hv)
    have za : avg β E f = 0 := by
      unfold avg
      have : ∫ v, Real.exp (-(β * E v)) * f v ∂(Measure.pi fun _ : Fin L => sphereMeasure) = 0 := by
        refine integral_eq_zero_of_ae ((good_ae sphere_ae).mono fun v hv => ?_)
        show Real.exp (-(β * E v)) * f v = 0
        rw [z v hv, mul_zero]
      rw [this, zero_div]
    have zt : ∀ (n : ℕ) (v : Fin L → V3 ℝ) (w : Fin n → Fin per → Raw L),
        total (run (move β E) per) (fun _ => (0 : ℝ)) n v w = 0 := by
      intro n
      induction n with
      | zero => intro v w; rfl
      | succ n ih => intro v w; unfold total; rw [ih, add_zero]
    have : ∫⁻ w, ENNReal.ofReal ((total (run (move β E) per) f n v w / n - avg β E f) ^ 2) ∂(blockLaw L per n)
        = 0 := by
      rw [← lintegral_zero (μ := blockLaw L per n)]
      refine lintegral_congr_ae ((fair_blocks per n).mono fun w hw => ?_)
      dsimp only
      rw [total_congr z n hv hw, zt, za]
      simp
    rw [this]
    exact zero_le
  -- normalised observable
  set F : (Fin L → V3 ℝ) → ℝ := fun v => (max (-M) (min M (f v)) + M) / (2 * M) with hF
  have mF : Measurable F := ((measurable_const.max (measurable_const.min hf)).add measurable_const).div_const _
  have F0 : ∀ v, 0 ≤ F v := fun v => div_nonneg (by linarith [le_max_left (-M) (min M (f v))]) (by linarith)
  have F1 : ∀ v, F v ≤ 1 := fun v => by
    rw [hF]
    dsimp only
    rw [div_le_one (by linarith)]
    have : max (-M) (min M (f v)) ≤ M := max_le (by linarith) (min_le_left _ _)
    linarith
  have Ff : ∀ v, Good Sph v → F v = (f v + M) / (2 * M) := fun v hv => by
    have h := abs_le.1 (hM v hv)
    rw [hF]
    dsimp only
    rw [min_eq_right h.2, max_eq_right h.1]
  set m := avg β E F with hm
  have hmf : m = (avg β E f + M) / (2 * M) := by
    have hZ := weight_pos hb hE hD
    have i1 := weight_int hb hE hD hf hM
    have i2 := weight_int hb hE hD (f := fun _ => 1) measurable_const (M := 1) (fun _ _ => by simp)
    simp only [mul_one] at i2
    have : ∫ v, Real.exp (-(β * E v)) * F v ∂(Measure.pi fun _ : Fin L => sphereMeasure)
        = ∫ v, ((2 * M)⁻¹ * (Real.exp (-(β * E v)) * f v) + (1 / 2) * Real.exp (-(β * E v)))
          ∂(Measure.pi fun _ : Fin L => sphereMeasure) := by
      refine integral_congr_ae ((good_ae sphere_ae).mono fun v hv => ?_)
      dsimp only
      rw [Ff v hv]
      field_simp
    rw [hm]
    unfold avg
    rw [this, integral_add (i1.const_mul _) (i2.const_mul _), integral_const_mul, integral_const_mul]
    field_simp
  have hq : ∀ v, Good Sph v → ∀ k : ℕ,
      |(Q (Measure.pi fun _ => rawLaw L) (run (move β E) per))^[k] F v - m| ≤ (1 - ε) ^ (per * k / L) := by
    intro v hv k
    rw [Q_run hb hE per mF F0 F1, hm, avg_eq hE mF F0]
    refine hε _ mF.ennreal_ofReal (fun v _ => ?_) v hv _
    rw [← ENNReal.ofReal_one]
    exact ENNReal.ofReal_le_ofReal (F1 v)
  have hr := meas_run (meas_move (β := β) hE) per
  -- the deviation
  have mg : Measurable fun v => F v - m := mF.sub measurable_const
  have m01 : 0 ≤ m ∧ m ≤ 1 := by
    have hZ := weight_pos hb hE hD
    have i1 := weight_int hb hE hD mF (M := 1) fun v _ => abs_le.2 ⟨by linarith [F0 v], F1 v⟩
    have i2 := weight_int hb hE hD (f := fun _ => 1) measurable_const (M := 1) (fun _ _ => by simp)
    simp only [mul_one] at i2
    constructor
    · exact div_nonneg (integral_nonneg fun v => mul_nonneg (Real.exp_pos _).le (F0 v)) hZ.le
    · rw [hm]
      unfold avg
      rw [div_le_one hZ]
      exact integral_mono i1 i2 fun v => mul_le_of_le_one_right (Real.exp_pos _).le (F1 v)
  have g1 : ∀ v, |F v - m| ≤ 1 := fun v => abs_le.2 ⟨by linarith [F0 v, m01.2], by linarith [F1 v, m01.1]⟩
  have hqg : ∀ k v, (Q (Measure.pi fun _ => rawLaw L) (run (move β E) per))^[k] (fun v => F v - m) v
      = (Q (Measure.pi fun _ => rawLaw L) (run (move β E) per))^[k] F v - m := by
    intro k
    induction k with
    | zero => intro v; rfl
    | succ k ih =>
      intro v
      rw [iterate_succ_apply', iterate_succ_apply']
      have hp := iter_props (ν := Measure.pi fun _ => rawLaw L) hr mF (M := 1)
        (fun v => abs_le.2 ⟨by linarith [F0 v], F1 v⟩) k
      show ∫ d, _ ∂_ = (∫ d, _ ∂_) - m
      simp only [ih]
      have hi : Integrable (fun d => (Q (Measure.pi fun _ => rawLaw L) (run (move β E) per))^[k] F
          (run (move β E) per v d)) (Measure.pi fun _ => rawLaw L) :=
        int_bdd (hp.1.comp (meas_step hr v)) fun d => hp.2 _
      rw [integral_sub hi (integrable_const _)]
      simp
  have key := mean_square (ν := Measure.pi fun _ : Fin per => rawLaw L) hr mg (M := 1) (K := L / ε) g1 (Good Sph)
    ((fair_block per).mono fun b hb v hv => run_good per hv hb) (fun v hv n => by
      refine (abs_sum_le_sum_abs _ _).trans (le_trans (sum_le_sum fun k _ => ?_)
        (geometric e0 e1 (NeZero.one_le (n := L)) hper n))
      rw [hqg]
      exact hq v hv (k + 1)) n v hv
  have mt : Measurable fun w : Fin n → Fin per → Raw L => total (run (move β E) per) (fun v => F v - m) n v w :=
    (meas_total hr mg n).comp (measurable_const.prodMk measurable_id)
  have tot : ∀ᵐ w ∂(blockLaw L per n), ENNReal.ofReal ((total (run (move β E) per) f n v w / n - avg β E f) ^ 2)
      = ENNReal.ofReal (4 * M ^ 2 / n ^ 2) *
        ENNReal.ofReal (total (run (move β E) per) (fun v => F v - m) n v w ^ 2) := by
    refine (fair_blocks per n).mono fun w hw => ?_
    rw [← ENNReal.ofReal_mul (by positivity)]
    congr 1
    have lin : ∀ (n : ℕ) (v : Fin L → V3 ℝ) (w : Fin n → Fin per → Raw L),
        total (run (move β E) per) (fun v => (f v + M) / (2 * M) - m) n v w
          = (total (run (move β E) per) f n v w + n * M) / (2 * M) - n * m := by
      intro n
      induction n with
      | zero => intro v w; simp [total]
      | succ n ih =>
        intro v w
        unfold total
        rw [ih]
        push_cast
        field_simp
        ring
    rw [total_congr (f := fun v => F v - m) (g := fun v => (f v + M) / (2 * M) - m) (fun v hv => by rw [Ff v hv]) n hv hw, lin, hmf]
    field_simp
    ring
  rw [lintegral_congr_ae tot, lintegral_const_mul' _ _ ENNReal.ofReal_ne_top]
  have hint : ∫⁻ w, ENNReal.ofReal (total (run (move β E) per) (fun v => F v - m) n v w ^ 2) ∂(blockLaw L per n)
      = ENNReal.ofReal (∫ w, total (run (move β E) per) (fun v => F v - m) n v w ^ 2 ∂(blockLaw L per n)) := by
    rw [ofReal_integral_eq_lintegral_ofReal]
    · refine int_bdd (mt.pow_const 2) (M := ((n : ℝ) * 1) ^ 2) fun w => ?_
      rw [abs_pow]
      exact pow_le_pow_left₀ (abs_nonneg _) (total_le g1 n v w) 2
    · exact Filter.Eventually.of_forall fun w => sq_nonneg _
  rw [hint, ← ENNReal.ofReal_mul (by positivity)]
  apply ENNReal.ofReal_le_ofReal
  have key' : ∫ w, total (run (move β E) per) (fun v => F v - m) n v w ^ 2 ∂(blockLaw L per n)
      ≤ n * (1 + 2 * (L / ε)) := by
    refine key.trans (le_of_eq ?_)
    ring
  calc _ ≤ 4 * M ^ 2 / n ^ 2 * (n * (1 + 2 * (L / ε))) := mul_le_mul_of_nonneg_left key' (by positivity)
    _ = _ := by field_simp

end

/-! ### The sampling loop -/

section
open Spec Markov Function
variable {L s : ℕ} {c : SpinChain ℝ} {upd : SpinChain ℝ → Draw ℝ → R (SpinChain ℝ)} {E : SpinChain ℝ → ℝ}

/-- the draw of a site and three numbers -/
def toDraw (d : Raw L) : Draw ℝ := ⟨d.1, d.2.1, d.2.2.1, d.2.2.2⟩

theorem upd_move
    (hupd : ∀ (c : SpinChain ℝ) (i : ℕ) (u1 u2 u : ℝ), WF c L s → i < L → 0 ≤ u2 → u2 < 1 →
      upd c ⟨i, u1, u2, u⟩ = .ok (metropolis c.vars.beta
        (E (replace c i (spherePoint u1 u2)) - E c) u c (replace c i (spherePoint u1 u2))))
    (w : WF c L s) (v : Fin L → V3 ℝ) {d : Raw L} (hd : Fair d) :
    upd (withSpins c v) (toDraw d)
      = .ok (withSpins c (move c.vars.beta (fun v => E (withSpins c v)) v d)) := by
  unfold toDraw
  rw [hupd _ _ _ _ _ (withSpins_wf w v) d.1.2 hd.1 hd.2, replace_withSpins]
  congr 1
  unfold metropolis move
  dsimp only
  show (if _ ∨ d.2.2.2 < Real.exp (-(c.vars.beta * _)) then _ else _) = _
  split
  · exact if_pos ‹_›
  · exact if_neg ‹_›

theorem range_block
    (hupd : ∀ (c : SpinChain ℝ) (i : ℕ) (u1 u2 u : ℝ), WF c L s → i < L → 0 ≤ u2 → u2 < 1 →
      upd c ⟨i, u1, u2, u⟩ = .ok (metropolis c.vars.beta
        (E (replace c i (spherePoint u1 u2)) - E c) u c (replace c i (spherePoint u1 u2))))
    (w : WF c L s) (ds : ℕ → Draw ℝ) (per lo : ℕ) (b : Fin per → Raw L)
    (hds : ∀ k : Fin per, ds (lo + k) = toDraw (b k)) (hb : ∀ k, Fair (b k)) (v : Fin L → V3 ℝ) :
    (List.range' lo per).foldlM (fun c k => upd c (ds k)) (withSpins c v)
      = .ok (withSpins c (run (move c.vars.beta (fun v => E (withSpins c v))) per v b)) := by
  induction per generalizing lo v with
  | zero => rfl
  | succ n ih =>
    rw [List.range'_succ, List.foldlM_cons]
    have h0 : ds lo = toDraw (b 0) := by simpa using hds 0
    rw [h0, upd_move hupd w v (hb 0), ok_bind]
    refine ih (lo + 1) (fun k => b k.succ) (fun k => ?_) (fun k => hb k.succ) _
    rw [← hds k.succ, Fin.val_succ]
    congr 1
    omega

theorem range_loop {obs : SpinChain ℝ → R ℝ} {f : (Fin L → V3 ℝ) → ℝ} (hobs : ∀ v, obs (withSpins c v) = .ok (f v))
    (hupd : ∀ (c : SpinChain ℝ) (i : ℕ) (u1 u2 u : ℝ), WF c L s → i < L → 0 ≤ u2 → u2 < 1 →
      upd c ⟨i, u1, u2, u⟩ = .ok (metropolis c.vars.beta
        (E (replace c i (spherePoint u1 u2)) - E c) u c (replace c i (spherePoint u1 u2))))
    (w : WF c L s) (ds : ℕ → ℕ → Draw ℝ) (per n lo : ℕ) (b : Fin n → Fin per → Raw L)
    (hds : ∀ (i : Fin n) (k : Fin per), ds (lo + i) k = toDraw (b i k)) (hb : ∀ i k, Fair (b i k))
    (v : Fin L → V3 ℝ) (acc : List ℝ) :
    (List.range' lo n).foldlM (fun (st : SpinChain ℝ × List ℝ) i => do
        let c ← sweeps upd (ds i) per st.1
        let e ← obs c
        return (c, st.2 ++ [e])) (withSpins c v, acc)
      = .ok (withSpins c (run (run (move c.vars.beta (fun v => E (withSpins c v))) per) n v b),
        acc ++ vals (run (move c.vars.beta (fun v => E (withSpins c v))) per) f n v b) := by
  induction n generalizing lo v acc with
  | zero => simp [vals, run]; rfl
  | succ n ih =>
    rw [List.range'_succ, List.foldlM_cons]
    have hs : sweeps upd (ds lo) per (withSpins c v)
        = .ok (withSpins c (run (move c.vars.beta (fun v => E (withSpins c v))) per v (b 0))) := by
      unfold sweeps forRange
      exact range_block hupd w (ds lo) per 0 (b 0) (fun k => by simpa using hds 0 k) (hb 0) v
    dsimp only
    rw [hs, ok_bind, hobs, ok_bind]
    have := ih (lo + 1) (fun i => b i.succ) (fun i k => by
      rw [← hds i.succ k, Fin.val_succ]
      congr 1
      omega) (fun i => hb i.succ) (run (move c.vars.beta (fun v => E (withSpins c v))) per v (b 0))
      (acc ++ [f (run (move c.vars.beta (fun v => E (withSpins c v))) per v (b 0))])
    refine this.trans ?_
    simp [vals, run]

theorem loop_eq {obs : SpinChain ℝ → R ℝ} {f : (Fin L → V3 ℝ) → ℝ} (hobs : ∀ v, obs (withSpins c v) = .ok (f v))
    (hupd : ∀ (c : SpinChain ℝ) (i : ℕ) (u1 u2 u : ℝ), WF c L s → i < L → 0 ≤ u2 → u2 < 1 →
      upd c ⟨i, u1, u2, u⟩ = .ok (metropolis c.vars.beta
        (E (replace c i (spherePoint u1 u2)) - E c) u c (replace c i (spherePoint u1 u2))))
    (w : WF c L s) (per n : ℕ) (b : Fin n → Fin per → Raw L) (hb : ∀ i k, Fair (b i k)) (v : Fin L → V3 ℝ) :
    sampleLoop upd per n obs (blockDraws b) (withSpins c v)
      = .ok (withSpins c (run (run (move c.vars.beta (fun v => E (withSpins c v))) per) n v b),
        vals (run (move c.vars.beta (fun v => E (withSpins c v))) per) f n v b) := by
  unfold sampleLoop forRange
  have := range_loop hobs hupd w (blockDraws b) per n 0 b (fun i k => by
    unfold blockDraws
    rw [zero_add, dif_pos ⟨i.2, k.2⟩]
    rfl) hb v []
  rw [List.nil_append] at this
  exact this

end

end Verif.Ergodic
