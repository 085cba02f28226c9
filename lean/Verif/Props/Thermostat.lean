/-
Property C96: the noisy, damped edges are a thermostat (/repo/src/spinchain_langevin.rs `update`).
-/
import Verif.Lemmas.Thermostat
import Verif.Props.Langevin

namespace Verif.Props

open Spec MeasureTheory

/-- six sites with damped edges, anisotropic couplings and a field on the first two sites that turns in time -/
noncomputable def demo6 : LangevinChain ℝ :=
  { demo with
    vars := { demoVars with hsize := 6 }
    j_couple := [⟨1, 1, 1 / 2⟩, ⟨9 / 10, 1, 1 / 2⟩, ⟨1, 11 / 10, 1 / 2⟩, ⟨1, 1, 3 / 5⟩, ⟨0, 1, 3 / 5⟩, ⟨1, 1, 1⟩]
    static_h := [⟨1 / 10, 0, 6 / 5⟩, ⟨1 / 10, 0, 6 / 5⟩, ⟨0, 0, 3 / 2⟩, ⟨0, 0, 3 / 2⟩, ⟨0, 1 / 5, 1⟩, ⟨0, 0, 0⟩]
    spins := [⟨⟨3 / 13, -4 / 13, 12 / 13⟩⟩, ⟨⟨2 / 3, 2 / 3, -1 / 3⟩⟩, ⟨⟨0, 3 / 5, 4 / 5⟩⟩, ⟨⟨1, 0, 0⟩⟩, ⟨⟨0, 1, 0⟩⟩, ⟨⟨0, 0, -1⟩⟩]
    gamma := 1 / 10 }

theorem demo6_wf : WF demo6.toSpinChain 6 2 := by constructor <;> simp [demo6, demo, demoVars]

theorem demo6_J : ∀ i, 0 < i → i + 1 < 2 * (6 / 2) → J demo6.toSpinChain i ≠ zero := by
  intro i h0 h1 h
  have hy := congrArg V3.y h
  have : i = 1 ∨ i = 2 ∨ i = 3 ∨ i = 4 := by omega
  rcases this with rfl | rfl | rfl | rfl <;> norm_num [J, demo6, zero] at hy

/-- the product of the `z` components of the first two spins, as a function of all components -/
noncomputable def corr6 (x : Fin 6 → ℝ × ℝ × ℝ) : ℝ := (x 0).2.2 * (x 1).2.2

theorem corr6_smooth {n : WithTop ℕ∞} : ContDiff ℝ n corr6 := by
  unfold corr6
  fun_prop

/-- C96, first part: to leading order in the time-step, the mean change of any smooth observable in one
update is `dt` times the generator of the stochastic Landau–Lifshitz dynamics with damping `gamma` and
diffusion constant `gamma / beta` on the two edge spins.  The error is uniform in the spins. -/
theorem C96_generator (c : LangevinChain ℝ) (L s : ℕ) (w : WF c.toSpinChain L s) (hL : 2 ≤ L) (hγ : 0 ≤ c.gamma)
    (hβ : 0 < c.vars.beta) (F : (Fin L → ℝ × ℝ × ℝ) → ℝ) (hF : ContDiff ℝ 3 F) :
    ∃ C, 0 ≤ C ∧ ∀ (dt : ℝ) (v : Fin L → V3 ℝ), 0 < dt → dt ≤ 1 → (∀ i, len (v i) = 1) →
      (∀ᵐ ζ ∂normals, RegularStepL (langevinAt c dt v) L s (noiseOf ζ)) →
      |meanAfter (langevinAt c dt v) L (fun v => F (coords v)) - F (coords v)
        - dt * generator (2 * (L / 2)) c.gamma c.vars.beta (J c.toSpinChain) (B c.toSpinChain s (c.t + dt))
          (fun v => F (coords v)) v| ≤ C * (dt * Real.sqrt dt) := by
  obtain ⟨K, K0, hJ, hB⟩ := chain_bound c.toSpinChain s
  obtain ⟨C, C0, hC⟩ := weak_step hF (m := 2 * (L / 2)) (by omega) (by omega) hγ hβ K0
  refine ⟨C, C0, fun dt v h0 h1 hv hr => ?_⟩
  rw [mean_at w hL hv hr]
  exact hC _ _ v dt hJ (hB _) hv h0 h1

/-- C96, second part: the Boltzmann distribution of the open chain at inverse temperature `beta` is
stationary for this dynamics. -/
theorem C96_stationary (c : LangevinChain ℝ) (L s : ℕ) (hL : 2 ≤ L) (hβ : 0 < c.vars.beta) (t : ℝ)
    (F : (Fin L → ℝ × ℝ × ℝ) → ℝ) (hF : ContDiff ℝ 2 F) :
    openMean L (2 * (L / 2)) c.vars.beta (J c.toSpinChain) (B c.toSpinChain s t)
      (generator (2 * (L / 2)) c.gamma c.vars.beta (J c.toSpinChain) (B c.toSpinChain s t) fun v => F (coords v)) = 0 := by
  unfold openMean
  rw [generator_mean hF (by omega) hβ.ne', zero_div]

/-- C96, third part: for small time-steps, almost surely no field vanishes in an update, whatever the
noise and for almost all spins. -/
theorem C96_regular (c : LangevinChain ℝ) (L s : ℕ) (hL : 2 ≤ L) (hγ : 0 < c.gamma) (hβ : 0 < c.vars.beta)
    (hJ : ∀ i, 0 < i → i + 1 < 2 * (L / 2) → J c.toSpinChain i ≠ zero) :
    ∃ δ, 0 < δ ∧ ∀ dt, 0 < dt → dt ≤ δ → ∀ᵐ v ∂(Measure.pi fun _ : Fin L => sphereMeasure), ∀ᵐ ζ ∂normals,
      RegularStepL (langevinAt c dt v) L s (noiseOf ζ) := by
  obtain ⟨K, K0, hJK, hB⟩ := chain_bound c.toSpinChain s
  refine ⟨1 / (3 * K * c.gamma + 1), by positivity, fun dt h0 h1 => ?_⟩
  refine langevin_ae hL hγ hβ hJ hJK hB h0 ?_
  rw [le_div_iff₀ (by positivity)] at h1
  linarith

/-- the chain of six sites and the correlation of the first two spins; the condition on the spins in the
first part holds for some (in fact almost all) spins when the time-step is small -/
example : WF demo6.toSpinChain 6 2 ∧ 2 ≤ 6 ∧ 0 < demo6.gamma ∧ 0 < demo6.vars.beta ∧ ContDiff ℝ 3 corr6 ∧
    ∃ δ, 0 < δ ∧ ∀ dt, 0 < dt → dt ≤ δ → ∃ v : Fin 6 → V3 ℝ, (∀ i, len (v i) = 1) ∧
      ∀ᵐ ζ ∂normals, RegularStepL (langevinAt demo6 dt v) 6 2 (noiseOf ζ) := by
  have g : 0 < demo6.gamma := by norm_num [demo6]
  have b : 0 < demo6.vars.beta := by norm_num [demo6, demoVars]
  refine ⟨demo6_wf, by norm_num, g, b, corr6_smooth, ?_⟩
  obtain ⟨δ, d0, hδ⟩ := C96_regular demo6 6 2 (by norm_num) g b demo6_J
  refine ⟨δ, d0, fun dt h0 h1 => ?_⟩
  obtain ⟨v, h1, h2⟩ := ((unit_ae (L := 6)).and (hδ dt h0 h1)).exists
  exact ⟨v, h1, h2⟩

/-- C96: if the spins are distributed by the Boltzmann distribution of the open chain at the inverse
temperature `beta` of the configuration, then one update changes the mean of any smooth observable by at
most a constant times `dt^(3/2)`: without any error of first order in the time-step, the edges hold the
temperature that was set. -/
theorem C96_thermostat (c : LangevinChain ℝ) (L s : ℕ) (w : WF c.toSpinChain L s) (hL : 2 ≤ L)
    (hγ : 0 < c.gamma) (hβ : 0 < c.vars.beta) (hJ : ∀ i, 0 < i → i + 1 < 2 * (L / 2) → J c.toSpinChain i ≠ zero)
    (F : (Fin L → ℝ × ℝ × ℝ) → ℝ) (hF : ContDiff ℝ 3 F) :
    ∃ C δ, 0 ≤ C ∧ 0 < δ ∧ ∀ dt, 0 < dt → dt ≤ δ →
      |openMean L (2 * (L / 2)) c.vars.beta (J c.toSpinChain) (B c.toSpinChain s (c.t + dt))
          (fun v => meanAfter (langevinAt c dt v) L fun v => F (coords v))
        - openMean L (2 * (L / 2)) c.vars.beta (J c.toSpinChain) (B c.toSpinChain s (c.t + dt)) fun v => F (coords v)|
        ≤ C * (dt * Real.sqrt dt) := by
  obtain ⟨C, C0, hC⟩ := C96_generator c L s w (by omega) hγ.le hβ F hF
  obtain ⟨δ, d0, hδ⟩ := C96_regular c L s hL hγ hβ hJ
  refine ⟨C, min δ 1, C0, lt_min d0 one_pos, fun dt h0 h1 => ?_⟩
  have hr := hδ dt h0 (h1.trans (min_le_left _ _))
  have h1' : dt ≤ 1 := h1.trans (min_le_right _ _)
  have hst := C96_stationary c L s (by omega) hβ (c.t + dt) F (hF.of_le (by norm_num))
  obtain ⟨Bt, hBt⟩ : ∃ Bt, Bt = B c.toSpinChain s (c.t + dt) := ⟨_, rfl⟩
  obtain ⟨m, hm⟩ : ∃ m, m = 2 * (L / 2) := ⟨_, rfl⟩
  -- observables of the spins
  have nF : Nice fun v : Fin L → V3 ℝ => F (coords v) := Nice.smooth hF.continuous
  have nG : Nice (generator (L := L) m c.gamma c.vars.beta (J c.toSpinChain) Bt fun v => F (coords v)) :=
    generator_nice (hF.of_le (by norm_num))
  have nA : Nice fun v : Fin L → V3 ℝ => ∫ ζ, F (coords (afterStep m c.gamma c.vars.beta (J c.toSpinChain) Bt dt v ζ)) ∂normals := by
    obtain ⟨M, M0, hM⟩ := ball_bound hF.continuous (1 : ℝ)
    constructor
    · have hs : StronglyMeasurable fun p : (Fin L → V3 ℝ) × (Fin 6 → ℝ) =>
          F (coords (afterStep m c.gamma c.vars.beta (J c.toSpinChain) Bt dt p.1 p.2)) :=
        (hF.continuous.measurable.comp (meas_coords.comp (meas_afterStep m _ _ _ _ dt))).stronglyMeasurable
      exact hs.integral_prod_right.measurable
    · refine ⟨M, fun v hv => ?_⟩
      rw [← Real.norm_eq_abs]
      refine (norm_integral_le_of_norm_le_const (Filter.Eventually.of_forall fun ζ =>
        hM _ (norm_coords fun i => afterStep_len hv ζ i))).trans ?_
      rw [probReal_univ, mul_one]
  have nW := weight_nice (L := L) (m := m) (β := c.vars.beta) (J := J c.toSpinChain) (B := Bt)
  have e1 : openSum L m c.vars.beta (J c.toSpinChain) Bt (fun v => meanAfter (langevinAt c dt v) L fun v => F (coords v))
      = openSum L m c.vars.beta (J c.toSpinChain) Bt fun v => ∫ ζ, F (coords (afterStep m c.gamma c.vars.beta
        (J c.toSpinChain) Bt dt v ζ)) ∂normals := by
    unfold openSum
    refine integral_congr_ae ?_
    filter_upwards [hr, unit_ae (L := L)] with v h1 h2
    rw [mean_at w (by omega) h2 h1, hBt, hm]
  have e2 : openSum L m c.vars.beta (J c.toSpinChain) Bt (fun v => ∫ ζ, F (coords (afterStep m c.gamma c.vars.beta
        (J c.toSpinChain) Bt dt v ζ)) ∂normals) - openSum L m c.vars.beta (J c.toSpinChain) Bt (fun v => F (coords v))
        - dt * openSum L m c.vars.beta (J c.toSpinChain) Bt (generator m c.gamma c.vars.beta (J c.toSpinChain) Bt fun v => F (coords v))
      = openSum L m c.vars.beta (J c.toSpinChain) Bt fun v => ∫ ζ, F (coords (afterStep m c.gamma c.vars.beta
        (J c.toSpinChain) Bt dt v ζ)) ∂normals - F (coords v)
        - dt * generator m c.gamma c.vars.beta (J c.toSpinChain) Bt (fun v => F (coords v)) v := by
    unfold openSum
    rw [← integral_sub (nA.mul nW).integrable (nF.mul nW).integrable, ← integral_const_mul,
      ← integral_sub ((nA.mul nW).sub (nF.mul nW)).integrable ((Nice.const dt).mul (nG.mul nW)).integrable]
    refine integral_congr_ae (Filter.Eventually.of_forall fun v => ?_)
    dsimp only
    ring
  have z : openSum L m c.vars.beta (J c.toSpinChain) Bt (generator m c.gamma c.vars.beta (J c.toSpinChain) Bt fun v => F (coords v)) = 0 :=
    generator_mean (hF.of_le (by norm_num)) (by omega) hβ.ne'
  have W0 : 0 ≤ openSum L m c.vars.beta (J c.toSpinChain) Bt fun _ => 1 :=
    integral_nonneg fun v => mul_nonneg zero_le_one (Real.exp_nonneg _)
  have bound : |openSum L m c.vars.beta (J c.toSpinChain) Bt fun v => ∫ ζ, F (coords (afterStep m c.gamma c.vars.beta
        (J c.toSpinChain) Bt dt v ζ)) ∂normals - F (coords v)
        - dt * generator m c.gamma c.vars.beta (J c.toSpinChain) Bt (fun v => F (coords v)) v|
      ≤ C * (dt * Real.sqrt dt) * openSum L m c.vars.beta (J c.toSpinChain) Bt fun _ => 1 := by
    unfold openSum
    refine abs_integral_le_integral_abs.trans ?_
    rw [← integral_const_mul]
    refine integral_mono_ae ((((nA.sub nF).sub ((Nice.const dt).mul nG)).mul nW).integrable.abs)
      ((Nice.const _).mul ((Nice.const 1).mul nW)).integrable ?_
    filter_upwards [hr, unit_ae (L := L)] with v a1 a2
    have := hC dt v h0 h1' a2 a1
    rw [mean_at w (by omega) a2 a1, ← hBt, ← hm] at this
    have wp : 0 ≤ openWeight m c.vars.beta (J c.toSpinChain) Bt v := Real.exp_nonneg _
    rw [abs_mul, abs_of_nonneg wp, one_mul]
    exact mul_le_mul_of_nonneg_right this wp
  rw [← e2, z, mul_zero, sub_zero] at bound
  rw [← hBt, ← hm]
  unfold openMean
  rw [e1, ← sub_div, abs_div, abs_of_nonneg W0]
  rcases W0.eq_or_lt with h | h
  · rw [← h, div_zero]
    positivity
  · rwa [div_le_iff₀ h]

example : WF demo6.toSpinChain 6 2 ∧ 2 ≤ 6 ∧ 0 < demo6.gamma ∧ 0 < demo6.vars.beta ∧
    (∀ i, 0 < i → i + 1 < 2 * (6 / 2) → J demo6.toSpinChain i ≠ zero) ∧ ContDiff ℝ 3 corr6 :=
  ⟨demo6_wf, by norm_num, by norm_num [demo6], by norm_num [demo6, demoVars], demo6_J, corr6_smooth⟩

end Verif.Props
