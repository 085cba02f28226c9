/-
C121: a drive cannot cool a thermal state (/repo/src/spinchain.rs `update`, `metropolis_update`, `mc_total_energy`).
-/
import Verif.Lemmas.SecondLaw
import Verif.Props.ThermalSymmetry
import Verif.Props.Recurrence

set_option linter.unusedSectionVars false

namespace Verif.Props

open Spec MeasureTheory
open scoped ENNReal

/-- an observable after `n` calls of `update` -/
noncomputable def afterRun (n : ℕ) (f : SpinChain ℝ → ℝ) (c : SpinChain ℝ) : ℝ :=
  match c.updates n with
  | .ok c' => f c'
  | .error _ => 0

section
variable {c : SpinChain ℝ} {L s : ℕ}

/-- what the updates do, for almost all spins -/
theorem after_ae (w : WF c L s) (hL : 4 ≤ L) (hJ : ∀ i < 2 * (L / 2), J c i ≠ zero) (n : ℕ) :
    ∀ᵐ v ∂(Measure.pi fun _ : Fin L => sphereMeasure), ∃ c', (withSpins c v).updates n = .ok c' ∧
      wholeEnergy L c' = wholeEnergy L (withSpins c (flow c L s n v)) := by
  filter_upwards [C86_generic c L s w hL hJ] with v hv
  obtain ⟨c', h1, h2⟩ := run_flow w (by omega) hv.1 (hv.2 n)
  obtain ⟨a1, a2, -⟩ := updates_frame h1
  refine ⟨c', h1, ?_⟩
  rw [whole_eq_ring (updates_wf (withSpins_wf w v) h1) (by omega), whole_ring w (by omega), h2, J_congr a1]
  congr 1
  funext i
  unfold H0
  rw [a2]
  rfl

theorem whole_bound (w : WF c L s) (hL : 2 ≤ L) : ∃ D, ∀ᵐ v ∂(Measure.pi fun _ : Fin L => sphereMeasure),
    |wholeEnergy L (withSpins c v)| ≤ D := by
  obtain ⟨D, hD⟩ := (whole_tame w hL).bound
  exact ⟨D, (Markov.good_ae (L := L) sphere_ae).mono fun v hv => hD v hv⟩

/-- C121, equality of work (Jarzynski): in a thermal state at inverse temperature `beta`, whatever the drive and the
number of updates, the mean of `exp (-beta (E' - E))` is one, `E` and `E'` being the energies before and after. -/
theorem C121_work (c : SpinChain ℝ) (L s n : ℕ) (w : WF c L s) (hL : 4 ≤ L) (hJ : ∀ i < 2 * (L / 2), J c i ≠ zero) :
    thermalMean c L (wholeEnergy L)
      (fun c1 => afterRun n (fun c' => Real.exp (-(c.vars.beta * (wholeEnergy L c' - wholeEnergy L c1)))) c1) = 1 := by
  have hE := (whole_tame w (by omega : 2 ≤ L)).meas
  obtain ⟨D, hD⟩ := whole_bound w (by omega : 2 ≤ L)
  have hp := SecondLaw.weight_pos c.vars.beta hE hD
  unfold thermalMean
  rw [div_eq_one_iff_eq hp.ne', ← SecondLaw.weight_map c.vars.beta hE (flow_preserving c L s n)]
  refine integral_congr_ae ?_
  filter_upwards [after_ae w hL hJ n] with v ⟨c', h1, h2⟩
  simp only [afterRun, h1, h2]
  rw [← Real.exp_add]
  congr 1
  ring

/-- C121, second law: in a thermal state at a positive inverse temperature the mean energy after any number of updates,
under any drive, is not below the mean energy before (at a negative one it is not above). -/
theorem C121_heating (c : SpinChain ℝ) (L s n : ℕ) (w : WF c L s) (hL : 4 ≤ L) (hJ : ∀ i < 2 * (L / 2), J c i ≠ zero) :
    0 ≤ c.vars.beta * (thermalMean c L (wholeEnergy L) (afterRun n (wholeEnergy L)) - thermalMean c L (wholeEnergy L) (wholeEnergy L)) := by
  have hE := (whole_tame w (by omega : 2 ≤ L)).meas
  obtain ⟨D, hD⟩ := whole_bound w (by omega : 2 ≤ L)
  have hp := SecondLaw.weight_pos c.vars.beta hE hD
  have h := SecondLaw.gain_nonneg c.vars.beta hE hD (flow_preserving c L s n)
  unfold thermalMean
  have e : ∫ v, Real.exp (-(c.vars.beta * wholeEnergy L (withSpins c v))) * afterRun n (wholeEnergy L) (withSpins c v)
        ∂(Measure.pi fun _ : Fin L => sphereMeasure)
      = ∫ v, Real.exp (-(c.vars.beta * wholeEnergy L (withSpins c v))) * wholeEnergy L (withSpins c (flow c L s n v))
        ∂(Measure.pi fun _ : Fin L => sphereMeasure) := by
    refine integral_congr_ae ?_
    filter_upwards [after_ae w hL hJ n] with v ⟨c', h1, h2⟩
    simp only [afterRun, h1, h2]
  rw [e, ← sub_div, ← mul_div_assoc]
  exact div_nonneg h hp.le

/-- C121, strictness: the mean energy stays the same only if almost no spins change their energy. -/
theorem C121_strict (c : SpinChain ℝ) (L s n : ℕ) (w : WF c L s) (hL : 4 ≤ L) (hJ : ∀ i < 2 * (L / 2), J c i ≠ zero)
    (hb : c.vars.beta ≠ 0)
    (h : thermalMean c L (wholeEnergy L) (afterRun n (wholeEnergy L)) = thermalMean c L (wholeEnergy L) (wholeEnergy L)) :
    ∀ᵐ v ∂(Measure.pi fun _ : Fin L => sphereMeasure), ∃ c', (withSpins c v).updates n = .ok c' ∧
      c'.mc_total_energy = (withSpins c v).mc_total_energy := by
  have hE := (whole_tame w (by omega : 2 ≤ L)).meas
  obtain ⟨D, hD⟩ := whole_bound w (by omega : 2 ≤ L)
  have hp := SecondLaw.weight_pos c.vars.beta hE hD
  unfold thermalMean at h
  rw [div_left_inj' hp.ne'] at h
  have e : ∫ v, Real.exp (-(c.vars.beta * wholeEnergy L (withSpins c v))) * afterRun n (wholeEnergy L) (withSpins c v)
        ∂(Measure.pi fun _ : Fin L => sphereMeasure)
      = ∫ v, Real.exp (-(c.vars.beta * wholeEnergy L (withSpins c v))) * wholeEnergy L (withSpins c (flow c L s n v))
        ∂(Measure.pi fun _ : Fin L => sphereMeasure) := by
    refine integral_congr_ae ?_
    filter_upwards [after_ae w hL hJ n] with v ⟨c', h1, h2⟩
    simp only [afterRun, h1, h2]
  rw [e] at h
  filter_upwards [after_ae w hL hJ n, SecondLaw.gain_zero hb hE hD (flow_preserving c L s n) h] with v ⟨c', h1, h2⟩ h3
  refine ⟨c', h1, ?_⟩
  have w' := updates_wf (withSpins_wf w v) h1
  rw [h3, whole_eq_ring w' (by omega), whole_eq_ring (withSpins_wf w v) (by omega)] at h2
  rw [mc_total_energy_eq w' (by omega), mc_total_energy_eq (withSpins_wf w v) (by omega), h2]

/-- C121, fluctuations: the probability that a run takes the energy `x` or more out of a thermal state is at most
`exp (-beta x)`. -/
theorem C121_fluctuations (c : SpinChain ℝ) (L s n : ℕ) (w : WF c L s) (hL : 4 ≤ L) (hJ : ∀ i < 2 * (L / 2), J c i ≠ zero)
    (hb : 0 ≤ c.vars.beta) (x : ℝ) :
    thermalMean c L (wholeEnergy L)
      (fun c1 => afterRun n (fun c' => if wholeEnergy L c' ≤ wholeEnergy L c1 - x then 1 else 0) c1)
      ≤ Real.exp (-(c.vars.beta * x)) := by
  have hE := (whole_tame w (by omega : 2 ≤ L)).meas
  obtain ⟨D, hD⟩ := whole_bound w (by omega : 2 ≤ L)
  have hp := SecondLaw.weight_pos c.vars.beta hE hD
  unfold thermalMean
  rw [div_le_iff₀ hp]
  refine le_trans (le_of_eq ?_) (SecondLaw.tail_le hb x hE hD (flow_preserving c L s n))
  refine integral_congr_ae ?_
  filter_upwards [after_ae w hL hJ n] with v ⟨c', h1, h2⟩
  simp only [afterRun, h1, h2]

/-! ### states found by the Monte-Carlo sampler -/

theorem mean_toReal {E g : SpinChain ℝ → ℝ} (hE : Measurable fun v : Fin L → V3 ℝ => E (withSpins c v))
    (hm : Measurable fun v : Fin L → V3 ℝ => g (withSpins c v)) (hg : ∀ v : Fin L → V3 ℝ, 0 ≤ g (withSpins c v)) :
    (boltzmannMean c L E fun c => ENNReal.ofReal (g c)).toReal = thermalMean c L E g := by
  have hw : Measurable fun v : Fin L → V3 ℝ => Real.exp (-(c.vars.beta * E (withSpins c v))) := (hE.const_mul _).neg.exp
  unfold boltzmannMean thermalMean boltzmannSum
  rw [ENNReal.toReal_div, integral_eq_lintegral_of_nonneg_ae (Filter.Eventually.of_forall fun v =>
      mul_nonneg (Real.exp_pos _).le (hg _)) (hw.mul hm).aestronglyMeasurable,
    integral_eq_lintegral_of_nonneg_ae (Filter.Eventually.of_forall fun v => (Real.exp_pos _).le) hw.aestronglyMeasurable]
  congr 2
  · refine lintegral_congr fun v => ?_
    rw [← ENNReal.ofReal_mul (Real.exp_pos _).le]
  · refine lintegral_congr fun v => ?_
    rw [mul_one]

theorem spins_withSpins (v : Fin L → V3 ℝ) : (fun i : Fin L => S (withSpins c v) i) = v := by
  funext i
  rw [S_fld, fld_val]

open Classical in
/-- `f` where the spins lie in `A`, and zero elsewhere -/
noncomputable def within (A : Set (Fin L → V3 ℝ)) (f : SpinChain ℝ → ℝ) (c : SpinChain ℝ) : ℝ :=
  if (fun i : Fin L => S c i) ∈ A then f c else 0

theorem within_meas {A : Set (Fin L → V3 ℝ)} (hA : MeasurableSet A) {f : SpinChain ℝ → ℝ} {g : (Fin L → V3 ℝ) → ℝ} (hg : Measurable g)
    (h : ∀ v ∈ A, f (withSpins c v) = g v) : Measurable fun v : Fin L → V3 ℝ => within A f (withSpins c v) := by
  have e : (fun v : Fin L → V3 ℝ => within A f (withSpins c v)) = A.indicator g := by
    funext v
    unfold within
    rw [spins_withSpins]
    by_cases hv : v ∈ A
    · rw [if_pos hv, Set.indicator_of_mem hv, h v hv]
    · rw [if_neg hv, Set.indicator_of_notMem hv]
  rw [e]
  exact hg.indicator hA

theorem expect_mul (upd : SpinChain ℝ → Draw ℝ → R (SpinChain ℝ)) (L : ℕ) (f : SpinChain ℝ → ℝ≥0∞) {r : ℝ≥0∞} (hr : r ≠ ⊤) (n : ℕ)
    (c : SpinChain ℝ) : expect upd L (fun c => r * f c) n c = r * expect upd L f n c := by
  induction n generalizing c with
  | zero => rfl
  | succ n ih =>
    simp only [expect]
    rw [← mul_div_assoc, Finset.mul_sum]
    congr 1
    refine Finset.sum_congr rfl fun i _ => ?_
    rw [← lintegral_const_mul' _ _ hr]
    refine lintegral_congr fun u1 => ?_
    rw [← lintegral_const_mul' _ _ hr]
    refine lintegral_congr fun u2 => ?_
    rw [← lintegral_const_mul' _ _ hr]
    refine lintegral_congr fun u3 => ?_
    split
    · exact ih _
    · rw [mul_zero]

/-- C121, for the states that `metropolis_update` leaves behind. There is a set `A` of spins for which every run is regular
and which `k` updates reach with probability one from almost all starts; the mean energy (counted from its lower bound
`-D`) after a run of `n` updates from these states is not below the mean energy before, and the probability that the run
takes out `x` or more is at most `exp (-beta x)`, up to errors that decrease geometrically with `k`. -/
theorem C121_sampled (c : SpinChain ℝ) (L s : ℕ) (w : WF c L s) (hL : 4 ≤ L) (hJ : ∀ i < 2 * (L / 2), J c i ≠ zero)
    (hb : 0 < c.vars.beta) :
    ∃ (ε D : ℝ) (A : Set (Fin L → V3 ℝ)), 0 < ε ∧ ε ≤ 1 ∧ 0 ≤ D ∧ MeasurableSet A ∧
      (∀ v : Fin L → V3 ℝ, (∀ i, len (v i) = 1) → |wholeEnergy L (withSpins c v)| ≤ D) ∧
      (∀ v ∈ A, (∀ i, len (v i) = 1) ∧ ∀ n, RegularRun (withSpins c v) L s n) ∧
      (∀ᵐ v ∂(Measure.pi fun _ : Fin L => sphereMeasure), ∀ k,
        expect (fun c d => c.metropolis_update d) L (fun c' => Aᶜ.indicator 1 fun i : Fin L => S c' i) k (withSpins c v) = 0) ∧
      ∀ v : Fin L → V3 ℝ, (∀ i, len (v i) = 1) → ∀ k n : ℕ,
        (expect (fun c d => c.metropolis_update d) L
            (fun c' => ENNReal.ofReal (within A (fun c1 => wholeEnergy L c1 + D) c')) k (withSpins c v)).toReal
          ≤ (expect (fun c d => c.metropolis_update d) L
            (fun c' => ENNReal.ofReal (within A (fun c1 => afterRun n (wholeEnergy L) c1 + D) c')) k (withSpins c v)).toReal
            + 2 * (2 * D + 1) * (1 - ε) ^ (k / L) ∧
        ∀ x : ℝ, (expect (fun c d => c.metropolis_update d) L
            (fun c' => ENNReal.ofReal (within A (fun c1 => if afterRun n (wholeEnergy L) c1 ≤ wholeEnergy L c1 - x then 1 else 0) c'))
              k (withSpins c v)).toReal
          ≤ Real.exp (-(c.vars.beta * x)) + (1 - ε) ^ (k / L) := by
  have hL2 : 2 ≤ L := by omega
  have hE := (whole_tame w hL2).meas
  obtain ⟨D0, hD0⟩ := (whole_tame w hL2).bound
  obtain ⟨ε, e0, e1, hconv⟩ := C89_converges c L s w hL2 hb.le
  obtain ⟨A, hA, hAP, hAae⟩ := C99_warm c L s w hL2 hb.le _ (C86_generic c L s w hL hJ)
  set D := max 0 D0
  have hD0' : 0 ≤ D := le_max_left _ _
  have hD : ∀ v : Fin L → V3 ℝ, (∀ i, len (v i) = 1) → |wholeEnergy L (withSpins c v)| ≤ D :=
    fun v hv => (hD0 v hv).trans (le_max_right _ _)
  have hunit := Markov.good_ae (L := L) sphere_ae
  have hDae : ∀ᵐ v ∂(Measure.pi fun _ : Fin L => sphereMeasure), |wholeEnergy L (withSpins c v)| ≤ D :=
    hunit.mono fun v hv => hD v hv
  refine ⟨ε, D, A, e0, e1, hD0', hA, hD, hAP, hAae, fun v hv k n => ?_⟩
  -- what the run does on `A`
  have hrun : ∀ v ∈ A, afterRun n (wholeEnergy L) (withSpins c v) = wholeEnergy L (withSpins c (flow c L s n v)) ∧
      |wholeEnergy L (withSpins c (flow c L s n v))| ≤ D := by
    intro v hv
    obtain ⟨c', h1, h2⟩ := run_flow w (by omega) (hAP v hv).1 ((hAP v hv).2 n)
    obtain ⟨a1, a2, -⟩ := updates_frame h1
    have hH : H0 c' = H0 c := by
      funext i
      unfold H0
      rw [a2]
      rfl
    have w' := updates_wf (withSpins_wf w v) h1
    have e : wholeEnergy L c' = wholeEnergy L (withSpins c (flow c L s n v)) := by
      rw [whole_eq_ring w' (by omega), whole_ring w (by omega), h2, J_congr a1, hH]
      rfl
    refine ⟨by simp only [afterRun, h1, e], hD _ fun i => ?_⟩
    obtain ⟨-, u1⟩ := updates_unit (withSpins_wf w v) (by omega) (unit_withSpins (hAP v hv).1) ((hAP v hv).2 n) h1
    have := unit_of w' u1 i.2
    rwa [h2, fld_val] at this
  have hAin : ∀ᵐ v ∂(Measure.pi fun _ : Fin L => sphereMeasure), v ∈ A := by
    filter_upwards [hAae] with v hv
    have h0 : Aᶜ.indicator 1 (fun i : Fin L => S (withSpins c v) i) = (0 : ℝ≥0∞) := hv 0
    rw [spins_withSpins] at h0
    by_contra hn
    rw [Set.indicator_of_mem hn] at h0
    exact one_ne_zero h0
  have hflow := (flow_preserving c L s n).measurable
  have hEf : Measurable fun v : Fin L → V3 ℝ => wholeEnergy L (withSpins c (flow c L s n v)) := hE.comp hflow
  have hr0 : 0 < 2 * D + 1 := by linarith
  -- an observable with values in [0, 1]
  have use : ∀ (f : SpinChain ℝ → ℝ) (g : (Fin L → V3 ℝ) → ℝ), Measurable g → (∀ v ∈ A, f (withSpins c v) = g v) →
      (∀ v ∈ A, 0 ≤ g v ∧ g v ≤ 1) →
      |(expect (fun c d => c.metropolis_update d) L (fun c' => ENNReal.ofReal (within A f c')) k (withSpins c v)).toReal
        - thermalMean c L (wholeEnergy L) (within A f)| ≤ (1 - ε) ^ (k / L) := by
    intro f g hg hfg h01
    have hm := within_meas (c := c) hA hg hfg
    have hbd : ∀ v : Fin L → V3 ℝ, 0 ≤ within A f (withSpins c v) ∧ within A f (withSpins c v) ≤ 1 := by
      intro v
      unfold within
      rw [spins_withSpins]
      split
      · rename_i h
        rw [hfg v h]
        exact h01 v h
      · simp
    have hcl : ∀ v : Fin L → V3 ℝ, min 1 (ENNReal.ofReal (within A f (withSpins c v))) = ENNReal.ofReal (within A f (withSpins c v)) := by
      intro v
      rw [min_eq_right]
      rw [← ENNReal.ofReal_one]
      exact ENNReal.ofReal_le_ofReal (hbd v).2
    have ho : Observable c L fun c' => ENNReal.ofReal (within A f c') := hm.ennreal_ofReal
    have ho' : Observable c L fun c' => min 1 (ENNReal.ofReal (within A f c')) := measurable_const.min hm.ennreal_ofReal
    have h := hconv _ ho' (fun c' => min_le_left _ _) v hv k
    rw [expect_eq (plain_upd (s := s) hL2) w hb.le hE ho' k] at h
    simp only [hcl, boltzmannMean, boltzmannSum] at h
    rw [← mean_toReal hE hm fun v => (hbd v).1, expect_eq (plain_upd (s := s) hL2) w hb.le hE ho k]
    exact h
  have hp := SecondLaw.weight_pos c.vars.beta hE hDae
  -- thermal means do not see the complement of `A`
  have inA : ∀ (f : SpinChain ℝ → ℝ) (g : (Fin L → V3 ℝ) → ℝ), (∀ v ∈ A, f (withSpins c v) = g v) →
      thermalMean c L (wholeEnergy L) (within A f)
        = (∫ v, Real.exp (-(c.vars.beta * wholeEnergy L (withSpins c v))) * g v ∂(Measure.pi fun _ : Fin L => sphereMeasure))
          / ∫ v, Real.exp (-(c.vars.beta * wholeEnergy L (withSpins c v))) ∂(Measure.pi fun _ : Fin L => sphereMeasure) := by
    intro f g hfg
    unfold thermalMean
    congr 1
    refine integral_congr_ae ?_
    filter_upwards [hAin] with v hv
    simp only [within]
    rw [spins_withSpins, if_pos hv, hfg v hv]
  refine ⟨?_, fun x => ?_⟩
  · -- mean energies
    have scale : ∀ (f : SpinChain ℝ → ℝ) (g : (Fin L → V3 ℝ) → ℝ), Measurable g → (∀ v ∈ A, f (withSpins c v) = g v) →
        (∀ v ∈ A, |g v| ≤ D) → Integrable (fun v => Real.exp (-(c.vars.beta * wholeEnergy L (withSpins c v))) * g v)
          (Measure.pi fun _ : Fin L => sphereMeasure) →
        |(expect (fun c d => c.metropolis_update d) L (fun c' => ENNReal.ofReal (within A (fun c1 => f c1 + D) c')) k
            (withSpins c v)).toReal
          - ((∫ v, Real.exp (-(c.vars.beta * wholeEnergy L (withSpins c v))) * g v ∂(Measure.pi fun _ : Fin L => sphereMeasure))
          / (∫ v, Real.exp (-(c.vars.beta * wholeEnergy L (withSpins c v))) ∂(Measure.pi fun _ : Fin L => sphereMeasure)) + D)|
        ≤ (2 * D + 1) * (1 - ε) ^ (k / L) := by
      intro f g hg hfg hbd hint
      have h := use (fun c1 => (f c1 + D) / (2 * D + 1)) (fun v => (g v + D) / (2 * D + 1)) ((hg.add_const D).div_const _)
        (fun v hv => by rw [hfg v hv]) (fun v hv => by
          have := abs_le.1 (hbd v hv)
          constructor
          · apply div_nonneg _ hr0.le
            linarith
          · rw [div_le_one hr0]
            linarith)
      rw [inA _ (fun v => (g v + D) / (2 * D + 1)) fun v hv => by rw [hfg v hv]] at h
      have e1 : (fun c' => ENNReal.ofReal (within A (fun c1 => f c1 + D) c'))
          = fun c' => ENNReal.ofReal (2 * D + 1) * ENNReal.ofReal (within A (fun c1 => (f c1 + D) / (2 * D + 1)) c') := by
        funext c'
        rw [← ENNReal.ofReal_mul hr0.le]
        congr 1
        unfold within
        split
        · field_simp
        · rw [mul_zero]
      have e2 : ∫ v, Real.exp (-(c.vars.beta * wholeEnergy L (withSpins c v))) * ((g v + D) / (2 * D + 1))
            ∂(Measure.pi fun _ : Fin L => sphereMeasure)
          = ((∫ v, Real.exp (-(c.vars.beta * wholeEnergy L (withSpins c v))) * g v ∂(Measure.pi fun _ : Fin L => sphereMeasure))
            + D * ∫ v, Real.exp (-(c.vars.beta * wholeEnergy L (withSpins c v))) ∂(Measure.pi fun _ : Fin L => sphereMeasure))
            / (2 * D + 1) := by
        rw [← integral_const_mul, ← integral_add hint ((SecondLaw.integrable_weight c.vars.beta hE hDae).const_mul D), ← integral_div]
        refine integral_congr_ae (Filter.Eventually.of_forall fun v => ?_)
        dsimp only
        ring
      rw [e1, expect_mul _ _ _ ENNReal.ofReal_ne_top, ENNReal.toReal_mul, ENNReal.toReal_ofReal hr0.le]
      rw [e2] at h
      set Z := ∫ v, Real.exp (-(c.vars.beta * wholeEnergy L (withSpins c v))) ∂(Measure.pi fun _ : Fin L => sphereMeasure)
      set I := ∫ v, Real.exp (-(c.vars.beta * wholeEnergy L (withSpins c v))) * g v ∂(Measure.pi fun _ : Fin L => sphereMeasure)
      set X := (expect (fun c d => c.metropolis_update d) L
        (fun c' => ENNReal.ofReal (within A (fun c1 => (f c1 + D) / (2 * D + 1)) c')) k (withSpins c v)).toReal
      have e3 : (2 * D + 1) * X - (I / Z + D) = (2 * D + 1) * (X - (I + D * Z) / (2 * D + 1) / Z) := by
        field_simp
      rw [e3, abs_mul, abs_of_pos hr0]
      exact mul_le_mul_of_nonneg_left h hr0.le
    have s1 := scale (wholeEnergy L) (fun v => wholeEnergy L (withSpins c v)) hE (fun _ _ => rfl) (fun v hv => hD v (hAP v hv).1)
      (SecondLaw.integrable_mul c.vars.beta hE hDae hE hDae)
    have s2 := scale (afterRun n (wholeEnergy L)) (fun v => wholeEnergy L (withSpins c (flow c L s n v))) hEf
      (fun v hv => (hrun v hv).1) (fun v hv => (hrun v hv).2)
      (SecondLaw.integrable_mul c.vars.beta hE hDae hEf (hAin.mono fun v hv => (hrun v hv).2))
    have s3 := SecondLaw.gain_nonneg c.vars.beta hE hDae (flow_preserving c L s n)
    have s4 := nonneg_of_mul_nonneg_right s3 hb
    have s5 := div_le_div_of_nonneg_right (sub_nonneg.1 s4) hp.le
    have s1' := (abs_le.1 s1).2
    have s2' := (abs_le.1 s2).1
    linarith
  · -- fluctuations
    have hm : Measurable fun v : Fin L → V3 ℝ =>
        if wholeEnergy L (withSpins c (flow c L s n v)) ≤ wholeEnergy L (withSpins c v) - x then (1 : ℝ) else 0 :=
      Measurable.ite (measurableSet_le hEf (hE.sub_const x)) measurable_const measurable_const
    have hfg : ∀ v ∈ A, (if afterRun n (wholeEnergy L) (withSpins c v) ≤ wholeEnergy L (withSpins c v) - x then (1 : ℝ) else 0)
        = if wholeEnergy L (withSpins c (flow c L s n v)) ≤ wholeEnergy L (withSpins c v) - x then (1 : ℝ) else 0 :=
      fun v hv => by rw [(hrun v hv).1]
    have h := use (fun c1 => if afterRun n (wholeEnergy L) c1 ≤ wholeEnergy L c1 - x then 1 else 0) _ hm hfg
      (fun v _ => by split <;> simp)
    rw [inA _ _ hfg] at h
    have t := SecondLaw.tail_le hb.le x hE hDae (flow_preserving c L s n)
    rw [← div_le_iff₀ hp] at t
    have := (abs_le.1 h).2
    linarith

end

/-- the driven demonstration chain -/
example : WF demo 4 2 ∧ 4 ≤ 4 ∧ (∀ i < 2 * (4 / 2), J demo i ≠ zero) ∧ 0 < demo.vars.beta ∧
    ∃ t, drive demo.vars t ≠ drive demo.vars 0 := by
  refine ⟨demo_wf, le_rfl, fun i hi h => ?_, by norm_num [demo, demoVars], ⟨5, fun h => ?_⟩⟩
  · have hz := congrArg V3.z h
    have : i = 0 ∨ i = 1 ∨ i = 2 ∨ i = 3 := by omega
    rcases this with rfl | rfl | rfl | rfl <;> norm_num [J, demo, zero] at hz
  · have hx := congrArg V3.x h
    have e : 2 * Real.pi * 5 / 10 = Real.pi := by ring
    simp [drive, demo, demoVars, e, Config.default] at hx
    norm_num at hx

end Verif.Props
