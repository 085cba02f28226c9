/-
Helper lemmas: the mean of an observable over one Langevin update of the program.
-/
import Verif.Lemmas.EdgeNull
import Verif.Lemmas.Order3
import Verif.Lemmas.Sampling

namespace Verif

set_option linter.unusedSectionVars false

open Spec Function MeasureTheory ProbabilityTheory

/-! ### bounds for couplings and fields -/

theorem chain_bound (c : SpinChain ℝ) (s : ℕ) : ∃ K, 0 ≤ K ∧ (∀ i, len (J c i) ≤ K) ∧ ∀ t i, len (B c s t i) ≤ K := by
  obtain ⟨D, D0, hD⟩ := drive_bound c.vars
  obtain ⟨K1, j0, hj⟩ := getD_bound c.j_couple
  obtain ⟨K2, h0, hh⟩ := getD_bound c.static_h
  refine ⟨K1 + (K2 + D), by positivity, fun i => (hj i).trans (by linarith), fun t i => ?_⟩
  have h2 : len (H0 c i) ≤ K2 := hh i
  unfold B
  split
  · refine (len_add_le _ _).trans ?_
    linarith [(hD t).1]
  · linarith

section
variable {c : LangevinChain ℝ} {L s : ℕ}

theorem langevinAt_wf (w : WF c.toSpinChain L s) (dt : ℝ) (v : Fin L → V3 ℝ) : WF (langevinAt c dt v).toSpinChain L s :=
  ⟨w.hsize, w.ssize, w.L_lt, w.s_lt, by simp [langevinAt], w.j, w.h, w.hs⟩

theorem S_langevinAt (c : LangevinChain ℝ) (dt : ℝ) (v : Fin L → V3 ℝ) : S (langevinAt c dt v).toSpinChain = atSite v := by
  funext i
  unfold S langevinAt atSite
  by_cases h : i < L
  · simp [h]
  · simp [h]

theorem langOm_at (c : LangevinChain ℝ) (dt : ℝ) (v : Fin L → V3 ℝ) (s : ℕ) (ζ : Fin 6 → ℝ) :
    langOm (langevinAt c dt v) L s (noiseOf ζ) = langField (2 * (L / 2)) c.gamma (J c.toSpinChain)
      (B c.toSpinChain s (c.t + dt)) (noiseField (2 * (L / 2)) c.gamma c.vars.beta dt (noiseOf ζ)) := rfl

theorem regular_at (c : LangevinChain ℝ) (dt : ℝ) (v : Fin L → V3 ℝ) (s : ℕ) (ζ : Fin 6 → ℝ) :
    RegularStepL (langevinAt c dt v) L s (noiseOf ζ)
      ↔ RegularG (langField (2 * (L / 2)) c.gamma (J c.toSpinChain) (B c.toSpinChain s (c.t + dt))
        (noiseField (2 * (L / 2)) c.gamma c.vars.beta dt (noiseOf ζ))) (2 * (L / 2)) dt (fld v) := by
  unfold RegularStepL
  rw [langOm_at, S_langevinAt, atSite_fld]
  exact Iff.rfl

/-- for small time-steps almost no spins and noise lead to a vanishing field -/
theorem langevin_ae (hL : 2 ≤ L) (hγ : 0 < c.gamma) (hβ : 0 < c.vars.beta)
    (hJ : ∀ i, 0 < i → i + 1 < 2 * (L / 2) → J c.toSpinChain i ≠ zero) {K : ℝ} (hJK : ∀ i, len (J c.toSpinChain i) ≤ K)
    (hBK : ∀ t i, len (B c.toSpinChain s t i) ≤ K) {dt : ℝ} (h0 : 0 < dt) (hd : 3 * K * c.gamma * dt < 1) :
    ∀ᵐ v ∂(Measure.pi fun _ : Fin L => sphereMeasure), ∀ᵐ ζ ∂normals, RegularStepL (langevinAt c dt v) L s (noiseOf ζ) := by
  have h := step_regular (L := L) (m := 2 * (L / 2)) (β := c.vars.beta) hγ hβ h0 hJK (hBK (c.t + dt)) hd (by omega)
    (by omega) (by omega) hJ
  have h' := Measure.ae_ae_of_ae_prod (Measure.measurePreserving_swap.quasiMeasurePreserving.ae h)
  filter_upwards [h'] with v hv
  filter_upwards [hv] with ζ hζ
  exact (regular_at c dt v s ζ).2 hζ

theorem mean_at (w : WF c.toSpinChain L s) (hL : 2 ≤ L) {dt : ℝ} {v : Fin L → V3 ℝ} (hv : ∀ i, len (v i) = 1)
    (hr : ∀ᵐ ζ ∂normals, RegularStepL (langevinAt c dt v) L s (noiseOf ζ)) (f : (Fin L → V3 ℝ) → ℝ) :
    meanAfter (langevinAt c dt v) L f = ∫ ζ, f (afterStep (2 * (L / 2)) c.gamma c.vars.beta (J c.toSpinChain)
      (B c.toSpinChain s (c.t + dt)) dt v ζ) ∂normals := by
  unfold meanAfter
  refine integral_congr_ae ?_
  filter_upwards [hr] with ζ hζ
  have hu : ∀ x ∈ (langevinAt c dt v).spins, IsUnit3 x := by
    intro x hx
    obtain ⟨i, rfl⟩ := List.mem_ofFn.1 hx
    exact hv i
  obtain ⟨c', h1, _, h2⟩ := l_update_spec (langevinAt_wf w dt v) hL hu hζ
  rw [h1]
  dsimp only
  rw [h2, langOm_at, S_langevinAt]
  rfl

end

end Verif
