/-
Helper lemmas: the Markov chain that proposes a new value at a random site and accepts it by the
Metropolis rule.  Stationary distribution and convergence.
-/
import Mathlib.MeasureTheory.Integral.Marginal
import Mathlib.MeasureTheory.Constructions.Pi
import Mathlib.Analysis.SpecialFunctions.Exp
import Mathlib.Analysis.SpecialFunctions.Exponential
import Mathlib.MeasureTheory.Function.SpecialFunctions.Basic

namespace Verif.Markov

set_option linter.unusedSectionVars false

open MeasureTheory Function Finset
open scoped ENNReal

section
variable {X : Type} [MeasurableSpace X] {L : ℕ}

/-- acceptance probability -/
noncomputable def acc (β : ℝ) (E : (Fin L → X) → ℝ) (v v' : Fin L → X) : ℝ≥0∞ :=
  ENNReal.ofReal (min 1 (Real.exp (-(β * (E v' - E v)))))

/-- Boltzmann weight -/
noncomputable def wt (β : ℝ) (E : (Fin L → X) → ℝ) (v : Fin L → X) : ℝ≥0∞ :=
  ENNReal.ofReal (Real.exp (-(β * E v)))

/-- one attempted move at site `i` -/
noncomputable def Qs (σ : Measure X) (β : ℝ) (E : (Fin L → X) → ℝ) (i : Fin L) (f : (Fin L → X) → ℝ≥0∞)
    (v : Fin L → X) : ℝ≥0∞ :=
  ∫⁻ x, (acc β E v (update v i x) * f (update v i x) + (1 - acc β E v (update v i x)) * f v) ∂σ

/-- one attempted move at a random site -/
noncomputable def Pm (σ : Measure X) (β : ℝ) (E : (Fin L → X) → ℝ) (f : (Fin L → X) → ℝ≥0∞)
    (v : Fin L → X) : ℝ≥0∞ :=
  (∑ i, Qs σ β E i f v) / L

variable {σ : Measure X} [IsProbabilityMeasure σ] {β : ℝ} {E : (Fin L → X) → ℝ}

theorem acc_le_one (v v' : Fin L → X) : acc β E v v' ≤ 1 := by
  unfold acc
  rw [← ENNReal.ofReal_one]
  exact ENNReal.ofReal_le_ofReal (min_le_left _ _)

theorem measurable_acc (hE : Measurable E) (i : Fin L) :
    Measurable fun p : (Fin L → X) × X => acc β E p.1 (update p.1 i p.2) := by
  unfold acc
  have h1 : Measurable fun p : (Fin L → X) × X => E (update p.1 i p.2) := hE.comp measurable_update'
  have h2 : Measurable fun p : (Fin L → X) × X => E p.1 := hE.comp measurable_fst
  exact (measurable_const.min (Real.measurable_exp.comp ((h1.sub h2).const_mul β).neg)).ennreal_ofReal

theorem measurable_wt (hE : Measurable E) : Measurable (wt β E) := by
  unfold wt
  exact (Real.measurable_exp.comp (hE.const_mul β).neg).ennreal_ofReal

theorem measurable_move (hE : Measurable E) (i : Fin L) {f : (Fin L → X) → ℝ≥0∞} (hf : Measurable f) :
    Measurable fun p : (Fin L → X) × X => acc β E p.1 (update p.1 i p.2) * f (update p.1 i p.2)
      + (1 - acc β E p.1 (update p.1 i p.2)) * f p.1 := by
  have ha := measurable_acc (β := β) hE i
  exact (ha.mul (hf.comp measurable_update')).add
    ((measurable_const.sub ha).mul (hf.comp measurable_fst))

theorem measurable_Qs (hE : Measurable E) (i : Fin L) {f : (Fin L → X) → ℝ≥0∞} (hf : Measurable f) :
    Measurable (Qs σ β E i f) :=
  (measurable_move hE i hf).lintegral_prod_right'

theorem measurable_Pm (hE : Measurable E) {f : (Fin L → X) → ℝ≥0∞} (hf : Measurable f) :
    Measurable (Pm σ β E f) :=
  (Finset.measurable_sum _ fun i _ => measurable_Qs hE i hf).div_const _

theorem measurable_iter (hE : Measurable E) {f : (Fin L → X) → ℝ≥0∞} (hf : Measurable f) (n : ℕ) :
    Measurable ((Pm σ β E)^[n] f) := by
  induction n with
  | zero => exact hf
  | succ n ih => rw [iterate_succ_apply']; exact measurable_Pm hE ih

/-! ### stationarity -/

theorem wt_acc (v v' : Fin L → X) : wt β E v * acc β E v v' = wt β E v' * acc β E v' v := by
  unfold wt acc
  rw [← ENNReal.ofReal_mul (Real.exp_pos _).le, ← ENNReal.ofReal_mul (Real.exp_pos _).le]
  congr 1
  rw [mul_min_of_nonneg _ _ (Real.exp_pos _).le, mul_min_of_nonneg _ _ (Real.exp_pos _).le,
    ← Real.exp_add, ← Real.exp_add, mul_one, mul_one, min_comm]
  congr 2 <;> ring

/-- detailed balance of one variable -/
theorem stationary_one {w f : X → ℝ≥0∞} {a : X → X → ℝ≥0∞} (hw : Measurable w) (hf : Measurable f)
    (ha : Measurable fun p : X × X => a p.1 p.2) (ha1 : ∀ y x, a y x ≤ 1) (hwt : ∀ y, w y ≠ ⊤)
    (hs : ∀ y x, w y * a y x = w x * a x y) :
    ∫⁻ y, w y * ∫⁻ x, (a y x * f x + (1 - a y x) * f y) ∂σ ∂σ = ∫⁻ y, w y * f y ∂σ := by
  have hay : ∀ y, Measurable (a y) := fun y => ha.comp (measurable_const.prodMk measurable_id)
  have e1 : ∀ y, w y * ∫⁻ x, (a y x * f x + (1 - a y x) * f y) ∂σ
      = ∫⁻ x, w y * a y x * f x ∂σ + ∫⁻ x, w y * (1 - a y x) * f y ∂σ := by
    intro y
    have hm : Measurable fun x => w y * a y x * f x := (measurable_const.mul (hay y)).mul hf
    rw [← lintegral_const_mul' _ _ (hwt y), ← lintegral_add_left hm]
    refine lintegral_congr fun x => ?_
    ring
  have h1 : Measurable fun p : X × X => w p.1 * a p.1 p.2 * f p.2 :=
    ((hw.comp measurable_fst).mul ha).mul (hf.comp measurable_snd)
  have h2 : Measurable fun p : X × X => w p.1 * a p.1 p.2 * f p.1 :=
    ((hw.comp measurable_fst).mul ha).mul (hf.comp measurable_fst)
  have e2 : ∫⁻ y, ∫⁻ x, w y * a y x * f x ∂σ ∂σ = ∫⁻ y, ∫⁻ x, w y * a y x * f y ∂σ ∂σ := by
    rw [lintegral_lintegral_swap h1.aemeasurable]
    refine lintegral_congr fun y => lintegral_congr fun x => ?_
    rw [hs]
  simp_rw [e1]
  rw [lintegral_add_left h1.lintegral_prod_right', e2, ← lintegral_add_left h2.lintegral_prod_right']
  refine lintegral_congr fun y => ?_
  have hm : Measurable fun x => w y * a y x * f y := (measurable_const.mul (hay y)).mul measurable_const
  dsimp only
  rw [← lintegral_add_left hm]
  have : ∀ x, w y * a y x * f y + w y * (1 - a y x) * f y = w y * f y := by
    intro x
    rw [← add_mul, ← mul_add, add_tsub_cancel_of_le (ha1 _ _), mul_one]
  simp_rw [this]
  rw [lintegral_const, measure_univ, mul_one]

theorem stationary_Qs (hE : Measurable E) (i : Fin L) {f : (Fin L → X) → ℝ≥0∞} (hf : Measurable f) :
    ∫⁻ v, wt β E v * Qs σ β E i f v ∂(Measure.pi fun _ => σ)
      = ∫⁻ v, wt β E v * f v ∂(Measure.pi fun _ => σ) := by
  refine lintegral_eq_of_lmarginal_eq {i} ((measurable_wt hE).mul (measurable_Qs hE i hf))
    ((measurable_wt hE).mul hf) ?_
  funext v
  rw [lmarginal_singleton, lmarginal_singleton]
  -- along the line of configurations that differ from `v` at `i`
  have hp1 : Measurable fun p : X × X => update v i p.1 := (measurable_update v).comp measurable_fst
  have hp2 : Measurable fun p : X × X => update v i p.2 := (measurable_update v).comp measurable_snd
  have hacc : Measurable fun p : X × X => acc β E (update v i p.1) (update v i p.2) := by
    unfold acc
    exact (measurable_const.min (Real.measurable_exp.comp
      (((hE.comp hp2).sub (hE.comp hp1)).const_mul β).neg)).ennreal_ofReal
  have key := stationary_one (σ := σ) (w := fun y => wt β E (update v i y)) (f := fun y => f (update v i y))
    (a := fun y x => acc β E (update v i y) (update v i x))
    ((measurable_wt hE).comp (measurable_update v)) (hf.comp (measurable_update v)) hacc
    (fun _ _ => acc_le_one _ _) (fun _ => ENNReal.ofReal_ne_top) (fun _ _ => wt_acc _ _)
  refine Eq.trans (lintegral_congr fun y => ?_) key
  unfold Qs
  simp only [update_idem]

theorem stationary_Pm (hL : 1 ≤ L) (hE : Measurable E) {f : (Fin L → X) → ℝ≥0∞} (hf : Measurable f) :
    ∫⁻ v, wt β E v * Pm σ β E f v ∂(Measure.pi fun _ => σ)
      = ∫⁻ v, wt β E v * f v ∂(Measure.pi fun _ => σ) := by
  have hL0 : (L : ℝ≥0∞) ≠ 0 := by simp; omega
  have hLt : (L : ℝ≥0∞) ≠ ⊤ := ENNReal.natCast_ne_top L
  have e : ∀ v, wt β E v * Pm σ β E f v = (∑ i, wt β E v * Qs σ β E i f v) * (L : ℝ≥0∞)⁻¹ := by
    intro v
    unfold Pm
    rw [div_eq_mul_inv, ← mul_assoc, Finset.mul_sum]
  simp_rw [e]
  have hm : ∀ i ∈ Finset.univ, Measurable fun v => wt β E v * Qs σ β E i f v :=
    fun i _ => (measurable_wt hE).mul (measurable_Qs hE i hf)
  rw [lintegral_mul_const' _ _ (by simpa using hL0), lintegral_finsetSum _ hm]
  simp_rw [stationary_Qs hE _ hf]
  rw [Finset.sum_const, Finset.card_univ, Fintype.card_fin, nsmul_eq_mul, mul_comm (L : ℝ≥0∞), mul_assoc,
    ENNReal.mul_inv_cancel hL0 hLt, mul_one]

theorem stationary_iter (hL : 1 ≤ L) (hE : Measurable E) {f : (Fin L → X) → ℝ≥0∞} (hf : Measurable f)
    (n : ℕ) : ∫⁻ v, wt β E v * (Pm σ β E)^[n] f v ∂(Measure.pi fun _ => σ)
      = ∫⁻ v, wt β E v * f v ∂(Measure.pi fun _ => σ) := by
  induction n with
  | zero => rfl
  | succ n ih =>
    rw [iterate_succ_apply']
    exact (stationary_Pm hL hE (measurable_iter hE hf n)).trans ih

/-! ### linearity and locality -/

theorem measurable_line (hE : Measurable E) (i : Fin L) {f : (Fin L → X) → ℝ≥0∞} (hf : Measurable f)
    (v : Fin L → X) : Measurable fun x => acc β E v (update v i x) * f (update v i x)
      + (1 - acc β E v (update v i x)) * f v := by
  have h1 : Measurable fun x => acc β E v (update v i x) := by
    unfold acc
    exact (measurable_const.min (Real.measurable_exp.comp
      (((hE.comp (measurable_update v)).sub measurable_const).const_mul β).neg)).ennreal_ofReal
  have h2 : Measurable fun x => f (update v i x) := hf.comp (measurable_update v)
  exact (h1.mul h2).add ((measurable_const.sub h1).mul measurable_const)

theorem Qs_add (hE : Measurable E) (i : Fin L) {f : (Fin L → X) → ℝ≥0∞} (hf : Measurable f)
    (g : (Fin L → X) → ℝ≥0∞) (v : Fin L → X) :
    Qs σ β E i (f + g) v = Qs σ β E i f v + Qs σ β E i g v := by
  have hm := measurable_line (β := β) hE i hf v
  unfold Qs
  rw [← lintegral_add_left hm]
  refine lintegral_congr fun x => ?_
  rw [Pi.add_apply, Pi.add_apply, mul_add, mul_add]
  exact add_add_add_comm _ _ _ _

theorem Pm_add (hE : Measurable E) {f : (Fin L → X) → ℝ≥0∞} (hf : Measurable f)
    (g : (Fin L → X) → ℝ≥0∞) : Pm σ β E (f + g) = Pm σ β E f + Pm σ β E g := by
  funext v
  unfold Pm
  simp only [Qs_add hE _ hf]
  rw [Pi.add_apply]
  rw [Finset.sum_add_distrib, ENNReal.add_div]

theorem iter_add (hE : Measurable E) {f : (Fin L → X) → ℝ≥0∞} (hf : Measurable f)
    (g : (Fin L → X) → ℝ≥0∞) (n : ℕ) :
    (Pm σ β E)^[n] (f + g) = (Pm σ β E)^[n] f + (Pm σ β E)^[n] g := by
  induction n with
  | zero => rfl
  | succ n ih =>
    simp only [iterate_succ_apply']
    rw [ih, Pm_add hE (measurable_iter hE hf n)]

theorem Pm_const (hL : 1 ≤ L) (k : ℝ≥0∞) : Pm σ β E (fun _ => k) = fun _ => k := by
  have hL0 : (L : ℝ≥0∞) ≠ 0 := by simp; omega
  have hLt : (L : ℝ≥0∞) ≠ ⊤ := ENNReal.natCast_ne_top L
  funext v
  unfold Pm
  have : ∀ i : Fin L, Qs σ β E i (fun _ => k) v = k := by
    intro i
    unfold Qs
    rw [show (fun x => acc β E v (update v i x) * k + (1 - acc β E v (update v i x)) * k) = fun _ => k from ?_]
    · rw [lintegral_const, measure_univ, mul_one]
    · funext x
      rw [← add_mul, add_tsub_cancel_of_le (acc_le_one _ _), one_mul]
  simp only [this]
  rw [Finset.sum_const, Finset.card_univ, Fintype.card_fin, nsmul_eq_mul, mul_comm,
    ENNReal.mul_div_cancel_right hL0 hLt]

theorem iter_const (hL : 1 ≤ L) (k : ℝ≥0∞) (n : ℕ) : (Pm σ β E)^[n] (fun _ => k) = fun _ => k := by
  induction n with
  | zero => rfl
  | succ n ih => rw [iterate_succ_apply', ih, Pm_const hL]

/-- all entries in `U` -/
def Good (U : Set X) (v : Fin L → X) : Prop := ∀ i, v i ∈ U

theorem good_update {U : Set X} {v : Fin L → X} (hv : Good U v) (i : Fin L) {x : X} (hx : x ∈ U) :
    Good U (update v i x) := by
  intro j
  by_cases h : j = i
  · subst h; rwa [update_self]
  · rw [update_of_ne h]; exact hv j

theorem Pm_mono {U : Set X} (hU : ∀ᵐ x ∂σ, x ∈ U) {f g : (Fin L → X) → ℝ≥0∞}
    (h : ∀ v, Good U v → f v ≤ g v) : ∀ v, Good U v → Pm σ β E f v ≤ Pm σ β E g v := by
  intro v hv
  unfold Pm
  refine ENNReal.div_le_div_right (Finset.sum_le_sum fun i _ => ?_) _
  unfold Qs
  refine lintegral_mono_ae (hU.mono fun x hx => ?_)
  have h1 := h _ (good_update hv i hx)
  have h2 := h v hv
  gcongr

theorem iter_mono {U : Set X} (hU : ∀ᵐ x ∂σ, x ∈ U) {f g : (Fin L → X) → ℝ≥0∞}
    (h : ∀ v, Good U v → f v ≤ g v) (n : ℕ) :
    ∀ v, Good U v → (Pm σ β E)^[n] f v ≤ (Pm σ β E)^[n] g v := by
  induction n with
  | zero => exact h
  | succ n ih => simp only [iterate_succ_apply']; exact Pm_mono hU ih

theorem iter_congr {U : Set X} (hU : ∀ᵐ x ∂σ, x ∈ U) {f g : (Fin L → X) → ℝ≥0∞}
    (h : ∀ v, Good U v → f v = g v) (n : ℕ) (v : Fin L → X) (hv : Good U v) :
    (Pm σ β E)^[n] f v = (Pm σ β E)^[n] g v :=
  le_antisymm (iter_mono hU (fun v hv => (h v hv).le) n v hv)
    (iter_mono hU (fun v hv => (h v hv).ge) n v hv)

theorem good_ae {U : Set X} (hU : ∀ᵐ x ∂σ, x ∈ U) : ∀ᵐ v ∂(Measure.pi fun _ : Fin L => σ), Good U v := by
  unfold Good
  rw [ae_all_iff]
  intro i
  exact (Measure.quasiMeasurePreserving_eval (fun _ : Fin L => σ) i).ae hU

/-! ### minorisation -/

theorem acc_ge {U : Set X} {D : ℝ} (hb : 0 ≤ β) (hD : ∀ v, Good U v → |E v| ≤ D) {v v' : Fin L → X}
    (hv : Good U v) (hv' : Good U v') : ENNReal.ofReal (Real.exp (-(β * (2 * D)))) ≤ acc β E v v' := by
  unfold acc
  apply ENNReal.ofReal_le_ofReal
  have h1 := abs_le.1 (hD v hv)
  have h2 := abs_le.1 (hD v' hv')
  have hD0 : 0 ≤ D := (abs_nonneg _).trans (hD v hv)
  refine le_min ?_ ?_
  · rw [← Real.exp_zero]
    exact Real.exp_le_exp.2 (by have := mul_nonneg hb hD0; linarith)
  · apply Real.exp_le_exp.2
    have : β * (E v' - E v) ≤ β * (2 * D) := mul_le_mul_of_nonneg_left (by linarith) hb
    linarith

theorem Pm_ge {U : Set X} (hU : ∀ᵐ x ∂σ, x ∈ U) {D : ℝ} (hb : 0 ≤ β) (hD : ∀ v, Good U v → |E v| ≤ D)
    (f : (Fin L → X) → ℝ≥0∞) (i : Fin L) (v : Fin L → X) (hv : Good U v) :
    ENNReal.ofReal (Real.exp (-(β * (2 * D)))) / L * ∫⁻ x, f (update v i x) ∂σ ≤ Pm σ β E f v := by
  unfold Pm
  rw [mul_comm, ← mul_div_assoc, mul_comm]
  refine ENNReal.div_le_div_right ?_ _
  refine le_trans ?_ (Finset.single_le_sum (f := fun i => Qs σ β E i f v) (fun _ _ => zero_le)
    (Finset.mem_univ i))
  unfold Qs
  rw [← lintegral_const_mul' _ _ ENNReal.ofReal_ne_top]
  refine lintegral_mono_ae (hU.mono fun x hx => ?_)
  refine le_trans ?_ (le_add_right le_rfl)
  exact mul_le_mul_left (acc_ge hb hD hv (good_update hv i hx)) _

theorem iter_ge {U : Set X} (hU : ∀ᵐ x ∂σ, x ∈ U) {D : ℝ} (hb : 0 ≤ β)
    (hD : ∀ v, Good U v → |E v| ≤ D) {f : (Fin L → X) → ℝ≥0∞} (hf : Measurable f) (k : ℕ) (hk : k ≤ L) :
    ∀ v, Good U v → (ENNReal.ofReal (Real.exp (-(β * (2 * D)))) / L) ^ k *
      lmarginal (fun _ => σ) (Finset.univ.filter fun i : Fin L => i.val < k) f v ≤ (Pm σ β E)^[k] f v := by
  induction k with
  | zero => intro v _; simp
  | succ k ih =>
    intro v hv
    have hkL : k < L := by omega
    rw [iterate_succ_apply']
    refine le_trans ?_ (Pm_ge hU hb hD _ ⟨k, hkL⟩ v hv)
    have hs : (Finset.univ.filter fun i : Fin L => i.val < k + 1)
        = insert ⟨k, hkL⟩ (Finset.univ.filter fun i : Fin L => i.val < k) := by
      ext i
      simp only [Finset.mem_filter, Finset.mem_univ, true_and, Finset.mem_insert, Fin.ext_iff]
      omega
    rw [hs, lmarginal_insert f hf (by simp), pow_succ', mul_assoc]
    refine mul_le_mul_right ?_ _
    rw [← lintegral_const_mul']
    · exact lintegral_mono_ae (hU.mono fun x hx => ih (by omega) _ (good_update hv _ hx))
    · exact ENNReal.pow_ne_top (ENNReal.div_ne_top ENNReal.ofReal_ne_top (by simp; omega))

theorem minor {U : Set X} (hU : ∀ᵐ x ∂σ, x ∈ U) {D : ℝ} (hb : 0 ≤ β)
    (hD : ∀ v, Good U v → |E v| ≤ D) {f : (Fin L → X) → ℝ≥0∞} (hf : Measurable f)
    (v : Fin L → X) (hv : Good U v) :
    (ENNReal.ofReal (Real.exp (-(β * (2 * D)))) / L) ^ L * ∫⁻ u, f u ∂(Measure.pi fun _ => σ)
      ≤ (Pm σ β E)^[L] f v := by
  have := iter_ge hU hb hD hf L le_rfl v hv
  rwa [show (Finset.univ.filter fun i : Fin L => i.val < L) = Finset.univ by ext i; simp,
    lmarginal_univ] at this

/-! ### contraction -/

/-- `L` moves shrink the range of a function by a fixed factor -/
theorem contract (hL : 1 ≤ L) {U : Set X} (hU : ∀ᵐ x ∂σ, x ∈ U) (hE : Measurable E) {ε : ℝ} (hε : 0 ≤ ε)
    (hε1 : ε ≤ 1) (hmin : ∀ f : (Fin L → X) → ℝ≥0∞, Measurable f → ∀ v, Good U v →
      ENNReal.ofReal ε * ∫⁻ u, f u ∂(Measure.pi fun _ => σ) ≤ (Pm σ β E)^[L] f v)
    {f : (Fin L → X) → ℝ≥0∞} (hf : Measurable f) {a b : ℝ} (ha : 0 ≤ a) (hab : a ≤ b)
    (h : ∀ v, Good U v → ENNReal.ofReal a ≤ f v ∧ f v ≤ ENNReal.ofReal b) :
    ∃ a' b' : ℝ, 0 ≤ a' ∧ a' ≤ b' ∧ b' - a' = (1 - ε) * (b - a) ∧
      ∀ v, Good U v → ENNReal.ofReal a' ≤ (Pm σ β E)^[L] f v ∧ (Pm σ β E)^[L] f v ≤ ENNReal.ofReal b' := by
  have hg : Measurable fun v => f v - ENNReal.ofReal a := hf.sub measurable_const
  have hh : Measurable fun v => ENNReal.ofReal b - f v := measurable_const.sub hf
  -- the mean over independent uniform entries
  have hν1 : ∫⁻ v, f v ∂(Measure.pi fun _ => σ)
      = ∫⁻ v, (f v - ENNReal.ofReal a) ∂(Measure.pi fun _ => σ) + ENNReal.ofReal a := by
    have : ∫⁻ v, f v ∂(Measure.pi fun _ => σ)
        = ∫⁻ v, ((f v - ENNReal.ofReal a) + ENNReal.ofReal a) ∂(Measure.pi fun _ => σ) :=
      lintegral_congr_ae ((good_ae hU).mono fun v hv => (tsub_add_cancel_of_le (h v hv).1).symm)
    rw [this, lintegral_add_left hg, lintegral_const, measure_univ, mul_one]
  have hν2 : ∫⁻ v, f v ∂(Measure.pi fun _ => σ)
      + ∫⁻ v, (ENNReal.ofReal b - f v) ∂(Measure.pi fun _ => σ) = ENNReal.ofReal b := by
    rw [← lintegral_add_left hf]
    have : ∫⁻ v, (f v + (ENNReal.ofReal b - f v)) ∂(Measure.pi fun _ => σ)
        = ∫⁻ _, ENNReal.ofReal b ∂(Measure.pi fun _ : Fin L => σ) :=
      lintegral_congr_ae ((good_ae hU).mono fun v hv => add_tsub_cancel_of_le (h v hv).2)
    rw [this, lintegral_const, measure_univ, mul_one]
  set F := ∫⁻ v, f v ∂(Measure.pi fun _ => σ) with hF
  set G := ∫⁻ v, (f v - ENNReal.ofReal a) ∂(Measure.pi fun _ => σ) with hG
  set H := ∫⁻ v, (ENNReal.ofReal b - f v) ∂(Measure.pi fun _ => σ) with hH
  have hFb : F ≤ ENNReal.ofReal b := by rw [← hν2]; exact le_self_add
  have hFt : F ≠ ⊤ := ne_top_of_le_ne_top ENNReal.ofReal_ne_top hFb
  obtain ⟨m, hm0, hm⟩ : ∃ m : ℝ, 0 ≤ m ∧ F = ENNReal.ofReal m :=
    ⟨F.toReal, ENNReal.toReal_nonneg, (ENNReal.ofReal_toReal hFt).symm⟩
  have hb0 : 0 ≤ b := ha.trans hab
  have hmb : m ≤ b := (ENNReal.ofReal_le_ofReal_iff hb0).1 (hm ▸ hFb)
  have ham : a ≤ m := by
    apply (ENNReal.ofReal_le_ofReal_iff hm0).1
    rw [← hm, hν1]
    exact le_add_self
  have hGe : G = ENNReal.ofReal (m - a) := by
    rw [ENNReal.ofReal_sub _ ha, ← hm, hν1, ENNReal.add_sub_cancel_right ENNReal.ofReal_ne_top]
  have hHe : H = ENNReal.ofReal (b - m) := by
    rw [ENNReal.ofReal_sub _ hm0, ← hν2, ← hm, ENNReal.add_sub_cancel_left hFt]
  have e1 : 0 ≤ ε * (m - a) := mul_nonneg hε (by linarith)
  have e2 : 0 ≤ ε * (b - m) := mul_nonneg hε (by linarith)
  refine ⟨a + ε * (m - a), b - ε * (b - m), by linarith, ?_, by ring, fun v hv => ⟨?_, ?_⟩⟩
  · have : 0 ≤ (1 - ε) * (b - a) := mul_nonneg (by linarith) (by linarith)
    linarith
  · have h1 : (Pm σ β E)^[L] f v = (Pm σ β E)^[L] (fun v => f v - ENNReal.ofReal a) v + ENNReal.ofReal a := by
      rw [iter_congr hU (g := (fun v => f v - ENNReal.ofReal a) + fun _ => ENNReal.ofReal a)
        (fun v hv => (tsub_add_cancel_of_le (h v hv).1).symm) L v hv, iter_add hE hg, Pi.add_apply,
        iter_const hL]
    have h2 := hmin _ hg v hv
    rw [h1, add_comm a, ENNReal.ofReal_add e1 ha, ENNReal.ofReal_mul hε, ← hGe]
    gcongr
  · have h1 : (Pm σ β E)^[L] f v + (Pm σ β E)^[L] (fun v => ENNReal.ofReal b - f v) v = ENNReal.ofReal b := by
      have := iter_congr (σ := σ) (β := β) (E := E) hU (f := f + fun v => ENNReal.ofReal b - f v)
        (g := fun _ => ENNReal.ofReal b)
        (fun v hv => add_tsub_cancel_of_le (h v hv).2) L v hv
      rwa [iter_add hE hf, Pi.add_apply, iter_const hL] at this
    have h2 := hmin _ hh v hv
    rw [ENNReal.ofReal_sub _ e2]
    refine ENNReal.le_sub_of_add_le_right ENNReal.ofReal_ne_top ?_
    rw [ENNReal.ofReal_mul hε, ← hHe, ← h1]
    gcongr

/-- geometric convergence of the range -/
theorem ranges (hL : 1 ≤ L) {U : Set X} (hU : ∀ᵐ x ∂σ, x ∈ U) (hE : Measurable E) {ε : ℝ} (hε : 0 ≤ ε)
    (hε1 : ε ≤ 1) (hmin : ∀ f : (Fin L → X) → ℝ≥0∞, Measurable f → ∀ v, Good U v →
      ENNReal.ofReal ε * ∫⁻ u, f u ∂(Measure.pi fun _ => σ) ≤ (Pm σ β E)^[L] f v)
    {f : (Fin L → X) → ℝ≥0∞} (hf : Measurable f) (hf1 : ∀ v, Good U v → f v ≤ 1) (q r : ℕ) :
    ∃ a b : ℝ, 0 ≤ a ∧ a ≤ b ∧ b - a = (1 - ε) ^ q ∧ ∀ v, Good U v →
      ENNReal.ofReal a ≤ (Pm σ β E)^[q * L + r] f v ∧ (Pm σ β E)^[q * L + r] f v ≤ ENNReal.ofReal b := by
  induction q with
  | zero =>
    refine ⟨0, 1, le_rfl, zero_le_one, by simp, fun v hv => ⟨by simp, ?_⟩⟩
    rw [zero_mul, zero_add, ENNReal.ofReal_one]
    have := iter_mono (σ := σ) (β := β) (E := E) hU (f := f) (g := fun _ => 1) hf1 r v hv
    rwa [iter_const hL] at this
  | succ q ih =>
    obtain ⟨a, b, h1, h2, h3, h4⟩ := ih
    obtain ⟨a', b', k1, k2, k3, k4⟩ := contract hL hU hE hε hε1 hmin (measurable_iter hE hf (q * L + r)) h1 h2 h4
    refine ⟨a', b', k1, k2, by rw [k3, h3, pow_succ]; ring, ?_⟩
    rw [show (q + 1) * L + r = L + (q * L + r) by ring, iterate_add_apply]
    exact k4

/-- convergence to the Boltzmann distribution, at a geometric rate that does not depend on the start -/
theorem converges_rate (hL : 1 ≤ L) {U : Set X} (hU : ∀ᵐ x ∂σ, x ∈ U) (hE : Measurable E) {D : ℝ} (hb : 0 ≤ β)
    (hD : ∀ v, Good U v → |E v| ≤ D) : 0 < (Real.exp (-(β * (2 * D))) / L) ^ L ∧
      (Real.exp (-(β * (2 * D))) / L) ^ L ≤ 1 ∧ ∀ f : (Fin L → X) → ℝ≥0∞, Measurable f →
      (∀ v, Good U v → f v ≤ 1) → ∀ v, Good U v → ∀ n : ℕ,
      |((Pm σ β E)^[n] f v).toReal - ((∫⁻ v, wt β E v * f v ∂(Measure.pi fun _ => σ))
        / ∫⁻ v, wt β E v ∂(Measure.pi fun _ => σ)).toReal| ≤ (1 - (Real.exp (-(β * (2 * D))) / L) ^ L) ^ (n / L) := by
  have hLr : (0 : ℝ) < L := by exact_mod_cast hL
  have hne : ∃ v : Fin L → X, Good U v := (good_ae (L := L) hU).exists
  obtain ⟨v0, hv0⟩ := hne
  have hD0 : 0 ≤ D := (abs_nonneg _).trans (hD v0 hv0)
  set δ := Real.exp (-(β * (2 * D))) with hδ
  have hδ0 : 0 < δ := Real.exp_pos _
  have hδ1 : δ ≤ 1 := by
    rw [hδ, ← Real.exp_zero]
    exact Real.exp_le_exp.2 (by have := mul_nonneg hb hD0; linarith)
  have hq0 : 0 < δ / L := div_pos hδ0 hLr
  have hq1 : δ / L ≤ 1 := by
    rw [div_le_one hLr]
    have : (1 : ℝ) ≤ L := by exact_mod_cast hL
    linarith
  have hmin : ∀ f : (Fin L → X) → ℝ≥0∞, Measurable f → ∀ v, Good U v →
      ENNReal.ofReal ((δ / L) ^ L) * ∫⁻ u, f u ∂(Measure.pi fun _ => σ) ≤ (Pm σ β E)^[L] f v := by
    intro f hf v hv
    have := minor hU hb hD hf v hv
    rwa [← hδ, ← ENNReal.ofReal_natCast L, ← ENNReal.ofReal_div_of_pos hLr, ← ENNReal.ofReal_pow hq0.le] at this
  refine ⟨pow_pos hq0 L, pow_le_one₀ hq0.le hq1, fun f hf hf1 v hv n => ?_⟩
  obtain ⟨a, b, h1, h2, h3, h4⟩ := ranges hL hU hE (pow_pos hq0 L).le (pow_le_one₀ hq0.le hq1) hmin hf hf1
    (n / L) (n % L)
  rw [Nat.mul_comm, Nat.div_add_mod] at h4
  have hb0 : 0 ≤ b := h1.trans h2
  -- the mean lies in the same range
  set Z := ∫⁻ v, wt β E v ∂(Measure.pi fun _ => σ) with hZ
  have hZ0 : Z ≠ 0 := by
    intro h0
    have h5 := (lintegral_eq_zero_iff (measurable_wt hE)).1 h0
    obtain ⟨v, hv⟩ := h5.exists
    have : wt β E v ≠ 0 := by
      unfold wt
      simp [Real.exp_pos]
    exact this hv
  have hZt : Z ≠ ⊤ := by
    have h6 : Z ≤ ∫⁻ _, ENNReal.ofReal (Real.exp (β * D)) ∂(Measure.pi fun _ : Fin L => σ) := by
      refine lintegral_mono_ae ((good_ae hU).mono fun v hv => ?_)
      unfold wt
      refine ENNReal.ofReal_le_ofReal (Real.exp_le_exp.2 ?_)
      have := mul_le_mul_of_nonneg_left (abs_le.1 (hD v hv)).1 hb
      linarith
    rw [lintegral_const, measure_univ, mul_one] at h6
    exact ne_top_of_le_ne_top ENNReal.ofReal_ne_top h6
  have hst := stationary_iter (σ := σ) (β := β) hL hE hf n
  have hlo : ENNReal.ofReal a * Z ≤ ∫⁻ v, wt β E v * f v ∂(Measure.pi fun _ => σ) := by
    rw [← hst, hZ, ← lintegral_const_mul' _ _ ENNReal.ofReal_ne_top]
    refine lintegral_mono_ae ((good_ae hU).mono fun v hv => ?_)
    rw [mul_comm]
    exact mul_le_mul_right (h4 v hv).1 _
  have hhi : ∫⁻ v, wt β E v * f v ∂(Measure.pi fun _ => σ) ≤ ENNReal.ofReal b * Z := by
    rw [← hst, hZ, ← lintegral_const_mul' _ _ ENNReal.ofReal_ne_top]
    refine lintegral_mono_ae ((good_ae hU).mono fun v hv => ?_)
    rw [mul_comm (ENNReal.ofReal b)]
    exact mul_le_mul_right (h4 v hv).2 _
  have m1 : a ≤ ((∫⁻ v, wt β E v * f v ∂(Measure.pi fun _ => σ)) / Z).toReal := by
    have : ENNReal.ofReal a ≤ (∫⁻ v, wt β E v * f v ∂(Measure.pi fun _ => σ)) / Z :=
      (ENNReal.le_div_iff_mul_le (Or.inl hZ0) (Or.inl hZt)).2 hlo
    refine (ENNReal.ofReal_le_iff_le_toReal ?_).1 this
    refine ENNReal.div_ne_top (ne_top_of_le_ne_top (ENNReal.mul_ne_top ENNReal.ofReal_ne_top hZt) hhi) hZ0
  have m2 : ((∫⁻ v, wt β E v * f v ∂(Measure.pi fun _ => σ)) / Z).toReal ≤ b :=
    ENNReal.toReal_le_of_le_ofReal hb0 ((ENNReal.div_le_iff hZ0 hZt).2 hhi)
  have p2 : ((Pm σ β E)^[n] f v).toReal ≤ b := ENNReal.toReal_le_of_le_ofReal hb0 (h4 v hv).2
  have p1 : a ≤ ((Pm σ β E)^[n] f v).toReal :=
    (ENNReal.ofReal_le_iff_le_toReal (ne_top_of_le_ne_top ENNReal.ofReal_ne_top (h4 v hv).2)).1 (h4 v hv).1
  rw [← h3]
  exact abs_le.2 ⟨by linarith, by linarith⟩

theorem converges (hL : 1 ≤ L) {U : Set X} (hU : ∀ᵐ x ∂σ, x ∈ U) (hE : Measurable E) {D : ℝ} (hb : 0 ≤ β)
    (hD : ∀ v, Good U v → |E v| ≤ D) : ∃ ε : ℝ, 0 < ε ∧ ε ≤ 1 ∧ ∀ f : (Fin L → X) → ℝ≥0∞, Measurable f →
      (∀ v, Good U v → f v ≤ 1) → ∀ v, Good U v → ∀ n : ℕ,
      |((Pm σ β E)^[n] f v).toReal - ((∫⁻ v, wt β E v * f v ∂(Measure.pi fun _ => σ))
        / ∫⁻ v, wt β E v ∂(Measure.pi fun _ => σ)).toReal| ≤ (1 - ε) ^ (n / L) :=
  ⟨_, converges_rate hL hU hE hb hD⟩

end

end Verif.Markov
