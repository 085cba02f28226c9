/-
Properties C88 and C89: the Metropolis samplers as Markov chains (/repo/src/spinchain.rs
`metropolis_update`, `metropolis_update_maglab`, `metropolis_update_rot_magnus`, and
/repo/src/spinchain_langevin.rs `metropolis_update`).
-/
import Verif.Lemmas.Sampling
import Verif.Props.Langevin

namespace Verif.Props

open Spec
open Finset hiding expect
open MeasureTheory
open scoped ENNReal

/-- energy of the whole chain, `hsize` times the reported `mc_total_energy` -/
noncomputable def wholeEnergy (L : ℕ) (c : SpinChain ℝ) : ℝ :=
  L * match c.mc_total_energy with | .ok e => e | .error _ => 0

/-- the energy sampled by the laboratory-frame sampler -/
noncomputable def labEnergy (L : ℕ) (c : SpinChain ℝ) : ℝ :=
  maglabE L (2 * Real.pi / c.vars.tau) 0 0 (S c) (J c)

/-- the energy sampled by the rotating-frame sampler: every correction once -/
noncomputable def frameEnergy (L s : ℕ) (c : SpinChain ℝ) : ℝ :=
  rotE L s (2 * Real.pi / c.vars.tau) 1 1 (S c) (J c)

theorem lab_tame (c : SpinChain ℝ) (L : ℕ) : Tame fun v : Fin L → V3 ℝ => labEnergy L (withSpins c v) :=
  tame_maglab c (J c) L (2 * Real.pi / c.vars.tau) 0 0

theorem frame_tame (c : SpinChain ℝ) (L s : ℕ) : Tame fun v : Fin L → V3 ℝ => frameEnergy L s (withSpins c v) :=
  tame_rot c (J c) L s (2 * Real.pi / c.vars.tau) 1 1

theorem plain_upd {L s : ℕ} (hL : 2 ≤ L) (c : SpinChain ℝ) (i : ℕ) (u1 u2 u : ℝ) (w : WF c L s) (hi : i < L)
    (h2 : 0 ≤ u2) (h2' : u2 < 1) :
    c.metropolis_update ⟨i, u1, u2, u⟩ = .ok (metropolis c.vars.beta
      (wholeEnergy L (replace c i (spherePoint u1 u2)) - wholeEnergy L c) u c
      (replace c i (spherePoint u1 u2))) := by
  have hL' : (L : ℝ) ≠ 0 := by positivity
  rw [plain_form w hL _ h2 h2'.le]
  unfold wholeEnergy
  rw [mc_total_energy_eq w (by omega), mc_total_energy_eq (replace_wf w _ _) (by omega), J_replace, H0_replace]
  dsimp only
  rw [Nat.mod_eq_of_lt hi]
  congr 2
  field_simp

theorem whole_tame {c : SpinChain ℝ} {L s : ℕ} (w : WF c L s) (hL : 2 ≤ L) :
    Tame fun v : Fin L → V3 ℝ => wholeEnergy L (withSpins c v) := by
  have h := tame_ring (L := L) c (J c) (H0 c) L
  have e : ∀ v : Fin L → V3 ℝ, wholeEnergy L (withSpins c v) = ringEnergy L (S (withSpins c v)) (J c) (H0 c) := by
    intro v
    have hL' : (L : ℝ) ≠ 0 := by positivity
    unfold wholeEnergy
    rw [mc_total_energy_eq (withSpins_wf w v) (by omega)]
    show (L : ℝ) * (ringEnergy L (S (withSpins c v)) (J c) (H0 c) / L) = _
    field_simp
  simpa only [e] using h

theorem maglab_upd {L s : ℕ} (hL : 2 ≤ L) (c : SpinChain ℝ) (i : ℕ) (u1 u2 u : ℝ) (w : WF c L s) (hi : i < L)
    (h2 : 0 ≤ u2) (h2' : u2 < 1) :
    c.metropolis_update_maglab ⟨i, u1, u2, u⟩ = .ok (metropolis c.vars.beta
      (labEnergy L (replace c i (spherePoint u1 u2))
        - labEnergy L c) u c
      (replace c i (spherePoint u1 u2))) := by
  have := maglab_form w hL ⟨i, u1, u2, u⟩ h2 h2'.le
  simp only [Nat.mod_eq_of_lt hi] at this
  exact this

theorem rot_upd {L s : ℕ} (hL : 3 ≤ L) (c : SpinChain ℝ) (i : ℕ) (u1 u2 u : ℝ) (w : WF c L s) (hi : i < L)
    (h2 : 0 ≤ u2) (h2' : u2 < 1) :
    c.metropolis_update_rot_magnus ⟨i, u1, u2, u⟩ = .ok (metropolis c.vars.beta
      (frameEnergy L s (replace c i (spherePoint u1 u2))
        - frameEnergy L s c) u c
      (replace c i (spherePoint u1 u2))) := by
  have := rot_form w hL ⟨i, u1, u2, u⟩ h2 h2'.le
  simp only [Nat.mod_eq_of_lt hi] at this
  exact this

/-- the energy sampled by the Langevin chain: the ring without static fields (compare C48) -/
noncomputable def bareEnergy (L : ℕ) (c : SpinChain ℝ) : ℝ := ringEnergy L (S c) (J c) fun _ => zero

/-- `metropolis_update` of a Langevin chain with damping `gamma` -/
noncomputable def langevinUpd (gamma : ℝ) (c : SpinChain ℝ) (d : Draw ℝ) : R (SpinChain ℝ) := do
  let c' ← LangevinChain.metropolis_update ⟨c, gamma⟩ d
  return c'.toSpinChain

theorem langevin_upd (gamma : ℝ) {L s : ℕ} (hL : 2 ≤ L) (c : SpinChain ℝ) (i : ℕ) (u1 u2 u : ℝ) (w : WF c L s)
    (hi : i < L) (h2 : 0 ≤ u2) (h2' : u2 < 1) :
    langevinUpd gamma c ⟨i, u1, u2, u⟩ = .ok (metropolis c.vars.beta
      (bareEnergy L (replace c i (spherePoint u1 u2)) - bareEnergy L c) u c
      (replace c i (spherePoint u1 u2))) := by
  unfold langevinUpd
  have := langevin_form ⟨c, gamma⟩ L s ⟨i, u1, u2, u⟩ w hL h2 h2'.le
  simp only [Nat.mod_eq_of_lt hi] at this
  rw [this]
  rfl

theorem bare_tame (c : SpinChain ℝ) (L : ℕ) : Tame fun v : Fin L → V3 ℝ => bareEnergy L (withSpins c v) :=
  tame_ring (L := L) c (J c) (fun _ => zero) L

/-! ### C88: the Boltzmann distribution is stationary -/

/-- C88: if the spins have the Boltzmann distribution of the reported energy, they still have it after any
number of `metropolis_update` calls: the mean of every observable is unchanged. -/
theorem C88_stationary (c : SpinChain ℝ) (L s : ℕ) (w : WF c L s) (hL : 2 ≤ L) (hb : 0 ≤ c.vars.beta)
    (f : SpinChain ℝ → ℝ≥0∞) (hf : Observable c L f) (n : ℕ) :
    boltzmannSum c L (wholeEnergy L) (expect (fun c d => c.metropolis_update d) L f n)
      = boltzmannSum c L (wholeEnergy L) f :=
  boltzmann_stationary (plain_upd hL) w (by omega) hb (whole_tame w hL).meas hf n

/-- The same for the laboratory-frame sampler, with the energy it samples (no corrections, compare C38). -/
theorem C88_maglab (c : SpinChain ℝ) (L s : ℕ) (w : WF c L s) (hL : 2 ≤ L) (hb : 0 ≤ c.vars.beta)
    (f : SpinChain ℝ → ℝ≥0∞) (hf : Observable c L f) (n : ℕ) :
    boltzmannSum c L (labEnergy L)
        (expect (fun c d => c.metropolis_update_maglab d) L f n)
      = boltzmannSum c L (labEnergy L) f :=
  boltzmann_stationary (maglab_upd hL) w (by omega) hb (lab_tame c L).meas hf n

/-- The same for the rotating-frame sampler, with the energy it samples (each correction once, compare
C39). -/
theorem C88_rot (c : SpinChain ℝ) (L s : ℕ) (w : WF c L s) (hL : 3 ≤ L) (hb : 0 ≤ c.vars.beta)
    (f : SpinChain ℝ → ℝ≥0∞) (hf : Observable c L f) (n : ℕ) :
    boltzmannSum c L (frameEnergy L s)
        (expect (fun c d => c.metropolis_update_rot_magnus d) L f n)
      = boltzmannSum c L (frameEnergy L s) f :=
  boltzmann_stationary (rot_upd hL) w (by omega) hb (frame_tame c L s).meas hf n

/-- The same for the sampler of the Langevin chain, with the energy it samples (no static fields, compare
C48). -/
theorem C88_langevin (gamma : ℝ) (c : SpinChain ℝ) (L s : ℕ) (w : WF c L s) (hL : 2 ≤ L) (hb : 0 ≤ c.vars.beta)
    (f : SpinChain ℝ → ℝ≥0∞) (hf : Observable c L f) (n : ℕ) :
    boltzmannSum c L (bareEnergy L) (expect (langevinUpd gamma) L f n) = boltzmannSum c L (bareEnergy L) f :=
  boltzmann_stationary (langevin_upd gamma hL) w (by omega) hb (bare_tame c L).meas hf n

/-- Runs never panic and averages are averages: the constant one has mean one. -/
theorem C88_total (c : SpinChain ℝ) (L s : ℕ) (w : WF c L s) (hL : 2 ≤ L) (hb : 0 ≤ c.vars.beta) (n : ℕ) :
    expect (fun c d => c.metropolis_update d) L (fun _ => 1) n c = 1 := by
  have h := expect_eq (f := fun _ => 1) (plain_upd (s := s) hL) w hb (whole_tame w hL).meas
    (show Measurable fun _ : Fin L → V3 ℝ => (1 : ℝ≥0∞) from measurable_const) n (fun i => S c i)
  rw [withSpins_self w] at h
  rw [h, Markov.iter_const (by omega)]

/-! ### C89: convergence to the Boltzmann distribution -/

/-- C89: from any unit spins, the distribution after `n` calls of `metropolis_update` approaches the
Boltzmann distribution of the reported energy geometrically in the number of sweeps, uniformly over the
starting spins and the observables (in total variation). -/
theorem C89_converges (c : SpinChain ℝ) (L s : ℕ) (w : WF c L s) (hL : 2 ≤ L) (hb : 0 ≤ c.vars.beta) :
    ∃ ε : ℝ, 0 < ε ∧ ε ≤ 1 ∧ ∀ f : SpinChain ℝ → ℝ≥0∞, Observable c L f → (∀ c, f c ≤ 1) →
      ∀ v : Fin L → V3 ℝ, (∀ i, len (v i) = 1) → ∀ n : ℕ,
      |(expect (fun c d => c.metropolis_update d) L f n (withSpins c v)).toReal
        - (boltzmannMean c L (wholeEnergy L) f).toReal| ≤ (1 - ε) ^ (n / L) := by
  obtain ⟨D, hD⟩ := (whole_tame w hL).bound
  exact boltzmann_converges (plain_upd hL) w (by omega) hb (whole_tame w hL).meas hD

/-- C89 for the rotating-frame sampler and the energy it samples. -/
theorem C89_rot (c : SpinChain ℝ) (L s : ℕ) (w : WF c L s) (hL : 3 ≤ L) (hb : 0 ≤ c.vars.beta) :
    ∃ ε : ℝ, 0 < ε ∧ ε ≤ 1 ∧ ∀ f : SpinChain ℝ → ℝ≥0∞, Observable c L f → (∀ c, f c ≤ 1) →
      ∀ v : Fin L → V3 ℝ, (∀ i, len (v i) = 1) → ∀ n : ℕ,
      |(expect (fun c d => c.metropolis_update_rot_magnus d) L f n (withSpins c v)).toReal
        - (boltzmannMean c L (frameEnergy L s) f).toReal|
          ≤ (1 - ε) ^ (n / L) := by
  have t := frame_tame c L s
  obtain ⟨D, hD⟩ := t.bound
  exact boltzmann_converges (rot_upd hL) w (by omega) hb t.meas hD

/-- C89 for the laboratory-frame sampler and the energy it samples. -/
theorem C89_maglab (c : SpinChain ℝ) (L s : ℕ) (w : WF c L s) (hL : 2 ≤ L) (hb : 0 ≤ c.vars.beta) :
    ∃ ε : ℝ, 0 < ε ∧ ε ≤ 1 ∧ ∀ f : SpinChain ℝ → ℝ≥0∞, Observable c L f → (∀ c, f c ≤ 1) →
      ∀ v : Fin L → V3 ℝ, (∀ i, len (v i) = 1) → ∀ n : ℕ,
      |(expect (fun c d => c.metropolis_update_maglab d) L f n (withSpins c v)).toReal
        - (boltzmannMean c L (labEnergy L) f).toReal|
          ≤ (1 - ε) ^ (n / L) := by
  have t := lab_tame c L
  obtain ⟨D, hD⟩ := t.bound
  exact boltzmann_converges (maglab_upd hL) w (by omega) hb t.meas hD

/-- C89 for the sampler of the Langevin chain and the energy it samples. -/
theorem C89_langevin (gamma : ℝ) (c : SpinChain ℝ) (L s : ℕ) (w : WF c L s) (hL : 2 ≤ L) (hb : 0 ≤ c.vars.beta) :
    ∃ ε : ℝ, 0 < ε ∧ ε ≤ 1 ∧ ∀ f : SpinChain ℝ → ℝ≥0∞, Observable c L f → (∀ c, f c ≤ 1) →
      ∀ v : Fin L → V3 ℝ, (∀ i, len (v i) = 1) → ∀ n : ℕ,
      |(expect (langevinUpd gamma) L f n (withSpins c v)).toReal - (boltzmannMean c L (bareEnergy L) f).toReal|
        ≤ (1 - ε) ^ (n / L) := by
  have t := bare_tame c L
  obtain ⟨D, hD⟩ := t.bound
  exact boltzmann_converges (langevin_upd gamma hL) w (by omega) hb t.meas hD

/-- The start may be any chain with unit spins: it is of the form used above. -/
theorem C89_start (c : SpinChain ℝ) (L s : ℕ) (w : WF c L s) (hu : ∀ x ∈ c.spins, IsUnit3 x) :
    ∃ v : Fin L → V3 ℝ, (∀ i, len (v i) = 1) ∧ withSpins c v = c :=
  ⟨fun i => S c i, fun i => unit_of w hu i.2, withSpins_self w⟩

/-- an observable: probability that the first spin points up -/
example : Observable demo 4 (fun c => if 0 < (S c 0).z then 1 else 0) ∧ WF demo 4 2 ∧ 0 ≤ demo.vars.beta ∧
    (∀ c : SpinChain ℝ, (if 0 < (S c 0).z then (1 : ℝ≥0∞) else 0) ≤ 1) ∧ ∀ x ∈ demo.spins, IsUnit3 x := by
  refine ⟨?_, demo_wf, by norm_num [demo, demoVars], fun c => by split <;> simp, demo_unit⟩
  exact Measurable.ite (measurableSet_lt measurable_const (tame_S demo 0).2.2.meas) measurable_const measurable_const

end Verif.Props
