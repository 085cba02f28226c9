/-
Properties C97 and C98: temperature and energy balance of long runs with noisy, damped edges
(/repo/src/spinchain_langevin.rs `update`, called in a loop by `run_langevin`, /repo/src/main.rs).
-/
import Verif.Lemmas.LongRun
import Verif.Props.Thermostat

namespace Verif.Props

open Spec MeasureTheory

/-- C97, first part: for small time-steps and almost all initial spins, runs of any length almost surely
never meet a vanishing field, so every update succeeds. -/
theorem C97_regular (c : LangevinChain ℝ) (L s : ℕ) (w : WF c.toSpinChain L s) (hL : 2 ≤ L) (hγ : 0 < c.gamma)
    (hβ : 0 < c.vars.beta) (hJ : ∀ i, 0 < i → i + 1 < 2 * (L / 2) → J c.toSpinChain i ≠ zero) :
    ∃ δ, 0 < δ ∧ ∀ dt, 0 < dt → dt ≤ δ → ∀ᵐ v ∂(Measure.pi fun _ : Fin L => sphereMeasure), ∀ n,
      SurelyRegular L s n (langevinAt c dt v) := by
  obtain ⟨K, K0, hJK, hB⟩ := chain_bound c.toSpinChain s
  refine ⟨1 / (3 * K * c.gamma + 1), by positivity, fun dt h0 h1 => ?_⟩
  rw [le_div_iff₀ (by positivity)] at h1
  rw [ae_all_iff]
  exact fun n => surely_ae w hL hγ hβ hJ hJK hB h0 (by linarith) n c.t

/-- Chains of two or three sites have only edges that move, and then the same holds for all initial spins. -/
theorem C97_regular_short (c : LangevinChain ℝ) (L s : ℕ) (w : WF c.toSpinChain L s) (hL : L = 2 ∨ L = 3) (hγ : 0 < c.gamma)
    (hβ : 0 < c.vars.beta) :
    ∃ δ, 0 < δ ∧ ∀ dt, 0 < dt → dt ≤ δ → ∀ v : Fin L → V3 ℝ, (∀ i, len (v i) = 1) → ∀ n,
      SurelyRegular L s n (langevinAt c dt v) := by
  obtain ⟨K, K0, hJK, hB⟩ := chain_bound c.toSpinChain s
  have A0 : 0 ≤ K * (2 + 5 * |c.gamma|) := by have := abs_nonneg c.gamma; positivity
  refine ⟨1 / (K * (2 + 5 * |c.gamma|) + 1), by positivity, fun dt h0 h1 v hv n => ?_⟩
  rw [le_div_iff₀ (by positivity)] at h1
  exact surely_short w hL hγ hβ hJK hB h0 (by linarith) n c.t hv

/-- six sites, no drive: the drive field of the configuration does not depend on time -/
noncomputable def demo6s : LangevinChain ℝ :=
  { demo6 with
    vars := { demo6.vars with drive := .staticfield } }

theorem demo6s_wf : WF demo6s.toSpinChain 6 2 := by constructor <;> simp [demo6s, demo6, demo, demoVars]

theorem demo6s_static : ∀ t, drive demo6s.vars t = drive demo6s.vars 0 := fun _ => rfl

/-- The condition of the next theorems on the initial spins can be met, for all numbers of updates. -/
theorem demo6s_start : ∃ δ, 0 < δ ∧ ∀ dt, 0 < dt → dt ≤ δ → ∃ v : Fin 6 → V3 ℝ, (∀ i, len (v i) = 1) ∧ ∀ n,
    SurelyRegular 6 2 n (langevinAt demo6s dt v) := by
  obtain ⟨δ, d0, hδ⟩ := C97_regular demo6s 6 2 demo6s_wf (by norm_num) (by norm_num [demo6s, demo6])
    (by norm_num [demo6s, demo6, demoVars]) demo6_J
  refine ⟨δ, d0, fun dt h0 h1 => ?_⟩
  obtain ⟨v, h1, h2⟩ := ((unit_ae (L := 6)).and (hδ dt h0 h1)).exists
  exact ⟨v, h1, h2⟩

example : WF demo6s.toSpinChain 6 2 ∧ 2 ≤ 6 ∧ 0 < demo6s.gamma ∧ 0 < demo6s.vars.beta ∧
    (∀ i, 0 < i → i + 1 < 2 * (6 / 2) → J demo6s.toSpinChain i ≠ zero) :=
  ⟨demo6s_wf, by norm_num, by norm_num [demo6s, demo6], by norm_num [demo6s, demo6, demoVars], demo6_J⟩

/-- C97, second part: averaged over a run, the generator of the stochastic dynamics at the set
temperature applied to any smooth observable has mean zero, up to an error that vanishes for long runs
and small time-steps, whatever the initial spins and whatever the drive. -/
theorem C97_balance (c : LangevinChain ℝ) (L s : ℕ) (w : WF c.toSpinChain L s) (hL : 2 ≤ L) (hγ : 0 < c.gamma)
    (hβ : 0 < c.vars.beta) (F : (Fin L → ℝ × ℝ × ℝ) → ℝ) (hF : ContDiff ℝ 3 F) :
    ∃ C, 0 ≤ C ∧ ∀ (dt : ℝ) (v : Fin L → V3 ℝ) (n : ℕ), 0 < dt → dt ≤ 1 → (∀ i, len (v i) = 1) → 0 < n →
      SurelyRegular L s n (langevinAt c dt v) →
      |1 / n * ∑ k ∈ Finset.range n, meanRun L (generator (2 * (L / 2)) c.gamma c.vars.beta (J c.toSpinChain)
          (usedField c.toSpinChain s dt k) fun v => F (coords v)) k (langevinAt c dt v)|
        ≤ C * (1 / (n * dt) + Real.sqrt dt) := by
  obtain ⟨K, K0, hJ, hB⟩ := chain_bound c.toSpinChain s
  obtain ⟨C, C0, hC⟩ := long_run hF (m := 2 * (L / 2)) (by omega) (by omega) hγ.le hβ K0
  refine ⟨C, C0, fun dt v n h0 h1 hv hn hr => ?_⟩
  have e : ∀ k ∈ Finset.range n, meanRun L (generator (2 * (L / 2)) c.gamma c.vars.beta (J c.toSpinChain)
          (usedField c.toSpinChain s dt k) fun v => F (coords v)) k (langevinAt c dt v)
      = avg (2 * (L / 2)) c.gamma c.vars.beta (J c.toSpinChain) dt k (usedField c.toSpinChain s dt)
        (generator (2 * (L / 2)) c.gamma c.vars.beta (J c.toSpinChain)
          (usedField c.toSpinChain s dt k) fun v => F (coords v)) v := fun k hk =>
    meanRun_at w hL hv (surely_mono (Finset.mem_range.1 hk).le hr) _
  rw [Finset.sum_congr rfl e]
  have := hC (J c.toSpinChain) (usedField c.toSpinChain s dt) v dt n hJ (fun k i => hB _ i) hv h0 h1
  obtain ⟨Q, hQ⟩ : ∃ Q, Q = ∑ k ∈ Finset.range n, avg (2 * (L / 2)) c.gamma c.vars.beta (J c.toSpinChain) dt k
      (usedField c.toSpinChain s dt) (generator (2 * (L / 2)) c.gamma c.vars.beta (J c.toSpinChain)
        (usedField c.toSpinChain s dt k) fun v => F (coords v)) v := ⟨_, rfl⟩
  rw [← hQ] at this ⊢
  have n0 : (0 : ℝ) < n := by exact_mod_cast hn
  rw [abs_mul, abs_of_pos h0] at this
  rw [abs_mul, abs_of_pos (by positivity : (0 : ℝ) < 1 / n), show C * (1 / (n * dt) + Real.sqrt dt)
    = 1 / n * (C * (1 + n * (dt * Real.sqrt dt)) / dt) by field_simp]
  refine mul_le_mul_of_nonneg_left ?_ (by positivity)
  rw [le_div_iff₀ h0]
  linarith

example : WF demo6.toSpinChain 6 2 ∧ 2 ≤ 6 ∧ 0 < demo6.gamma ∧ 0 < demo6.vars.beta ∧ ContDiff ℝ 3 corr6 ∧
    ∃ δ, 0 < δ ∧ ∀ dt, 0 < dt → dt ≤ δ → ∃ v : Fin 6 → V3 ℝ, (∀ i, len (v i) = 1) ∧ ∀ n,
      SurelyRegular 6 2 n (langevinAt demo6 dt v) := by
  have g : 0 < demo6.gamma := by norm_num [demo6]
  have b : 0 < demo6.vars.beta := by norm_num [demo6, demoVars]
  refine ⟨demo6_wf, by norm_num, g, b, corr6_smooth, ?_⟩
  obtain ⟨δ, d0, hδ⟩ := C97_regular demo6 6 2 demo6_wf (by norm_num) g b demo6_J
  refine ⟨δ, d0, fun dt h0 h1 => ?_⟩
  obtain ⟨v, h1, h2⟩ := ((unit_ae (L := 6)).and (hδ dt h0 h1)).exists
  exact ⟨v, h1, h2⟩

/-- C98, first part (first law): along a run, the mean energy of the open chain changes by the mean work
done by the changing field, minus `gamma dt` times the excess of the squared torque on the edges over its
thermal value, summed over the updates.  The error is at most a constant times `dt^(3/2)` per update. -/
theorem C98_first_law (c : LangevinChain ℝ) (L s : ℕ) (w : WF c.toSpinChain L s) (hL : 2 ≤ L) (hγ : 0 < c.gamma)
    (hβ : 0 < c.vars.beta) :
    ∃ C, 0 ≤ C ∧ ∀ (dt : ℝ) (v : Fin L → V3 ℝ) (n : ℕ), 0 < dt → dt ≤ 1 → (∀ i, len (v i) = 1) →
      SurelyRegular L s n (langevinAt c dt v) →
      |meanRun L (fun v => openEnergy (2 * (L / 2)) (atSite v) (J c.toSpinChain) (usedField c.toSpinChain s dt n)) n (langevinAt c dt v)
        - openEnergy (2 * (L / 2)) (atSite v) (J c.toSpinChain) (usedField c.toSpinChain s dt 0)
        - ∑ k ∈ Finset.range n, meanRun L (fun v =>
            openEnergy (2 * (L / 2)) (atSite v) (J c.toSpinChain) (usedField c.toSpinChain s dt (k + 1))
            - openEnergy (2 * (L / 2)) (atSite v) (J c.toSpinChain) (usedField c.toSpinChain s dt k)) (k + 1) (langevinAt c dt v)
        + c.gamma * dt * ∑ k ∈ Finset.range n, meanRun L
            (torqueExcess (2 * (L / 2)) c.vars.beta (J c.toSpinChain) (usedField c.toSpinChain s dt k)) k (langevinAt c dt v)|
        ≤ n * (C * (dt * Real.sqrt dt)) := by
  obtain ⟨K, K0, hJ, hB⟩ := chain_bound c.toSpinChain s
  obtain ⟨C, C0, _, hC⟩ := first_law (L := L) (m := 2 * (L / 2)) (by omega) (by omega) hγ hβ K0 (J c.toSpinChain) hJ
  refine ⟨C, C0, fun dt v n h0 h1 hv hr => ?_⟩
  rw [meanRun_at w hL hv hr]
  rw [Finset.sum_congr rfl fun k hk => meanRun_at (n := k + 1) w hL hv (surely_mono (Finset.mem_range.1 hk) hr) _]
  rw [Finset.sum_congr rfl fun k hk => meanRun_at (n := k) w hL hv (surely_mono (Finset.mem_range.1 hk).le hr) _]
  exact hC (usedField c.toSpinChain s dt) v dt n (fun k i => hB _ i) hv h0 h1

/-- C98, second part: in a long run the mean power taken up from the drive equals the mean heat given to
the edges, `gamma` times the excess of the squared torque over its thermal value. -/
theorem C98_heat (c : LangevinChain ℝ) (L s : ℕ) (w : WF c.toSpinChain L s) (hL : 2 ≤ L) (hγ : 0 < c.gamma)
    (hβ : 0 < c.vars.beta) :
    ∃ C, 0 ≤ C ∧ ∀ (dt : ℝ) (v : Fin L → V3 ℝ) (n : ℕ), 0 < dt → dt ≤ 1 → (∀ i, len (v i) = 1) → 0 < n →
      SurelyRegular L s n (langevinAt c dt v) →
      |1 / (n * dt) * ∑ k ∈ Finset.range n, meanRun L (fun v =>
            openEnergy (2 * (L / 2)) (atSite v) (J c.toSpinChain) (usedField c.toSpinChain s dt (k + 1))
            - openEnergy (2 * (L / 2)) (atSite v) (J c.toSpinChain) (usedField c.toSpinChain s dt k)) (k + 1) (langevinAt c dt v)
        - c.gamma * (1 / n * ∑ k ∈ Finset.range n, meanRun L
            (torqueExcess (2 * (L / 2)) c.vars.beta (J c.toSpinChain) (usedField c.toSpinChain s dt k)) k (langevinAt c dt v))|
        ≤ C * (1 / (n * dt) + Real.sqrt dt) := by
  obtain ⟨K, K0, hJ, hB⟩ := chain_bound c.toSpinChain s
  obtain ⟨C, C0, hE, _⟩ := first_law (L := L) (m := 2 * (L / 2)) (by omega) (by omega) hγ hβ K0 (J c.toSpinChain) hJ
  obtain ⟨C', C0', hC⟩ := C98_first_law c L s w hL hγ hβ
  refine ⟨2 * C + C', by positivity, fun dt v n h0 h1 hv hn hr => ?_⟩
  have h := hC dt v n h0 h1 hv hr
  have e1 : |meanRun L (fun v => openEnergy (2 * (L / 2)) (atSite v) (J c.toSpinChain) (usedField c.toSpinChain s dt n)) n
      (langevinAt c dt v)| ≤ C := by
    rw [meanRun_at w hL hv hr]
    exact avg_bound (fun v hv => hE _ v (fun i => hB _ i) hv) n _ hv
  have e2 := hE (usedField c.toSpinChain s dt 0) v (fun i => hB _ i) hv
  obtain ⟨W, hW⟩ : ∃ W, W = ∑ k ∈ Finset.range n, meanRun L (fun v =>
      openEnergy (2 * (L / 2)) (atSite v) (J c.toSpinChain) (usedField c.toSpinChain s dt (k + 1))
      - openEnergy (2 * (L / 2)) (atSite v) (J c.toSpinChain) (usedField c.toSpinChain s dt k)) (k + 1) (langevinAt c dt v) := ⟨_, rfl⟩
  obtain ⟨T, hT⟩ : ∃ T, T = ∑ k ∈ Finset.range n, meanRun L
      (torqueExcess (2 * (L / 2)) c.vars.beta (J c.toSpinChain) (usedField c.toSpinChain s dt k)) k (langevinAt c dt v) := ⟨_, rfl⟩
  rw [← hW, ← hT] at h ⊢
  have n0 : (0 : ℝ) < n := by exact_mod_cast hn
  have s0 := Real.sqrt_nonneg dt
  have key : |W - c.gamma * dt * T| ≤ 2 * C + n * (C' * (dt * Real.sqrt dt)) := by
    rw [abs_le] at h e1 e2 ⊢
    constructor <;> linarith [h.1, h.2, e1.1, e1.2, e2.1, e2.2]
  rw [show 1 / (n * dt) * W - c.gamma * (1 / n * T) = 1 / (n * dt) * (W - c.gamma * dt * T) by field_simp, abs_mul,
    abs_of_pos (by positivity : (0 : ℝ) < 1 / (n * dt))]
  have p1 : 0 ≤ C' * (1 / (n * dt)) := by positivity
  have p2 : 0 ≤ 2 * C * Real.sqrt dt := by positivity
  calc 1 / (n * dt) * |W - c.gamma * dt * T| ≤ 1 / (n * dt) * (2 * C + n * (C' * (dt * Real.sqrt dt))) :=
        mul_le_mul_of_nonneg_left key (by positivity)
    _ = 2 * C * (1 / (n * dt)) + C' * Real.sqrt dt := by field_simp
    _ ≤ (2 * C + C') * (1 / (n * dt) + Real.sqrt dt) := by linarith

/-- the driven chain of six sites -/
example : WF demo6.toSpinChain 6 2 ∧ 2 ≤ 6 ∧ 0 < demo6.gamma ∧ 0 < demo6.vars.beta ∧
    ∃ δ, 0 < δ ∧ ∀ dt, 0 < dt → dt ≤ δ → ∃ v : Fin 6 → V3 ℝ, (∀ i, len (v i) = 1) ∧ ∀ n,
      SurelyRegular 6 2 n (langevinAt demo6 dt v) := by
  have g : 0 < demo6.gamma := by norm_num [demo6]
  have b : 0 < demo6.vars.beta := by norm_num [demo6, demoVars]
  refine ⟨demo6_wf, by norm_num, g, b, ?_⟩
  obtain ⟨δ, d0, hδ⟩ := C97_regular demo6 6 2 demo6_wf (by norm_num) g b demo6_J
  refine ⟨δ, d0, fun dt h0 h1 => ?_⟩
  obtain ⟨v, h1, h2⟩ := ((unit_ae (L := 6)).and (hδ dt h0 h1)).exists
  exact ⟨v, h1, h2⟩

/-- C97: if the drive does not depend on time, the mean squared torque on the edge spins, averaged over a
long run, is the thermal one at the set inverse temperature: `⟨|S × Ω|²⟩ = (2 / beta) ⟨S · Ω⟩`, whatever
the initial spins, up to an error that vanishes for long runs and small time-steps. -/
theorem C97_temperature (c : LangevinChain ℝ) (L s : ℕ) (w : WF c.toSpinChain L s) (hL : 2 ≤ L) (hγ : 0 < c.gamma)
    (hβ : 0 < c.vars.beta) (hs : ∀ t, drive c.vars t = drive c.vars 0) :
    ∃ C, 0 ≤ C ∧ ∀ (dt : ℝ) (v : Fin L → V3 ℝ) (n : ℕ), 0 < dt → dt ≤ 1 → (∀ i, len (v i) = 1) → 0 < n →
      SurelyRegular L s n (langevinAt c dt v) →
      |1 / n * ∑ k ∈ Finset.range n, meanRun L (torqueExcess (2 * (L / 2)) c.vars.beta (J c.toSpinChain) (B c.toSpinChain s 0))
          k (langevinAt c dt v)| ≤ C * (1 / (n * dt) + Real.sqrt dt) := by
  obtain ⟨C, C0, hC⟩ := C98_heat c L s w hL hγ hβ
  refine ⟨C / c.gamma, by positivity, fun dt v n h0 h1 hv hn hr => ?_⟩
  have h := hC dt v n h0 h1 hv hn hr
  have e : ∀ k, usedField c.toSpinChain s dt k = B c.toSpinChain s 0 := fun k => B_congr rfl (hs _)
  simp only [e, sub_self] at h
  have z : ∀ k ∈ Finset.range n, meanRun L (fun _ => (0 : ℝ)) (k + 1) (langevinAt c dt v) = 0 := by
    intro k hk
    rw [meanRun_at w hL hv (surely_mono (Finset.mem_range.1 hk) hr)]
    have := avg_smul (L := L) (m := 2 * (L / 2)) (γ := c.gamma) (β := c.vars.beta) (J := J c.toSpinChain) (dt := dt) 0 (fun _ => 0)
      (k + 1) (usedField c.toSpinChain s dt) v
    simpa using this
  rw [Finset.sum_congr rfl z, Finset.sum_const_zero, mul_zero, zero_sub, abs_neg, abs_mul, abs_of_pos hγ] at h
  rw [show C / c.gamma * (1 / (n * dt) + Real.sqrt dt) = C * (1 / (n * dt) + Real.sqrt dt) / c.gamma by ring, le_div_iff₀ hγ]
  linarith

/-- C97: this torque is a thermometer.  In the Boltzmann distribution at inverse temperature `β'` its excess
over the thermal value for `β` vanishes on average exactly if `β = β'`. -/
theorem C97_thermometer (c : LangevinChain ℝ) (L s : ℕ) (hL : 2 ≤ L) (hJ : J c.toSpinChain 0 ≠ zero) (t β β' : ℝ) (hβ : 0 < β)
    (hβ' : 0 < β') :
    openMean L (2 * (L / 2)) β' (J c.toSpinChain) (B c.toSpinChain s t)
      (torqueExcess (2 * (L / 2)) β (J c.toSpinChain) (B c.toSpinChain s t)) = 0 ↔ β = β' := by
  rw [← torque_thermal (L := L) (m := 2 * (L / 2)) (B := B c.toSpinChain s t) (by omega) (by omega) hβ.ne' hβ'.ne' hJ]
  unfold openMean
  rw [div_eq_zero_iff, or_iff_left]
  have hp : 0 < openSum L (2 * (L / 2)) β' (J c.toSpinChain) (B c.toSpinChain s t) fun _ => 1 := by
    unfold openSum
    simp only [one_mul]
    exact integral_exp_pos weight_nice.integrable
  exact hp.ne'

example : 2 ≤ 6 ∧ J demo6s.toSpinChain 0 ≠ zero := by
  refine ⟨by norm_num, fun h => ?_⟩
  have hy := congrArg V3.y h
  norm_num [J, demo6s, demo6, zero] at hy

example : WF demo6s.toSpinChain 6 2 ∧ 2 ≤ 6 ∧ 0 < demo6s.gamma ∧ 0 < demo6s.vars.beta ∧
    (∀ t, drive demo6s.vars t = drive demo6s.vars 0) ∧
    ∃ δ, 0 < δ ∧ ∀ dt, 0 < dt → dt ≤ δ → ∃ v : Fin 6 → V3 ℝ, (∀ i, len (v i) = 1) ∧ ∀ n,
      SurelyRegular 6 2 n (langevinAt demo6s dt v) :=
  ⟨demo6s_wf, by norm_num, by norm_num [demo6s, demo6], by norm_num [demo6s, demo6, demoVars], demo6s_static, demo6s_start⟩

end Verif.Props
