/-
Property C92: Monte-Carlo estimates are consistent (/repo/src/obs.rs, the sampling loops, lines 3-99, with
the samplers of /repo/src/spinchain.rs).
-/
import Verif.Lemmas.Ergodic
import Verif.Props.Markov
import Verif.Props.Obs
import Verif.Props.Demo

namespace Verif.Props

open Spec
open Finset hiding expect
open MeasureTheory Ergodic
open scoped ENNReal

/-- For inverse temperatures up to any bound there is a constant `K` such that the average of an observable
of size `M` over `n` samples of the sampling loop, with any number `per ≥ 1` of updates before each and from
any unit spins, differs from the thermal mean of the observable, for the energy `E`, by `√(K M² / n)` in root
mean square over independent uniform draws.  With probability one the loop does not panic. -/
def MeanSquare (upd : SpinChain ℝ → Draw ℝ → R (SpinChain ℝ)) (E : SpinChain ℝ → ℝ) (c : SpinChain ℝ) (L : ℕ) :
    Prop :=
  ∀ bmax : ℝ, ∃ K : ℝ, 0 < K ∧ ∀ beta : ℝ, 0 ≤ beta → beta ≤ bmax →
    ∀ (f : SpinChain ℝ → ℝ) (obs : SpinChain ℝ → R ℝ) (M : ℝ),
    (∀ v : Fin L → V3 ℝ, obs (withSpins (atBeta c beta) v) = .ok (f (withSpins (atBeta c beta) v))) →
    Measurable (fun v : Fin L → V3 ℝ => f (withSpins (atBeta c beta) v)) →
    (∀ v : Fin L → V3 ℝ, (∀ i, len (v i) = 1) → |f (withSpins (atBeta c beta) v)| ≤ M) →
    ∀ v : Fin L → V3 ℝ, (∀ i, len (v i) = 1) → ∀ per n : ℕ, 1 ≤ per → 1 ≤ n →
    ∃ est : (Fin n → Fin per → Raw L) → ℝ, Measurable est ∧
      (∀ᵐ w ∂(blockLaw L per n), ∃ c' xs,
        sampleLoop upd per n obs (blockDraws w) (withSpins (atBeta c beta) v) = .ok (c', xs) ∧ meanOf xs n = est w) ∧
      ∫⁻ w, ENNReal.ofReal ((est w - thermalMean (atBeta c beta) L E f) ^ 2) ∂(blockLaw L per n)
        ≤ ENNReal.ofReal (K * M ^ 2 / n)

theorem meanSquare_of {upd : SpinChain ℝ → Draw ℝ → R (SpinChain ℝ)} {E : SpinChain ℝ → ℝ} {c : SpinChain ℝ}
    {L s : ℕ} (hupd : ∀ (c : SpinChain ℝ) (i : ℕ) (u1 u2 u : ℝ), WF c L s → i < L → 0 ≤ u2 → u2 < 1 →
      upd c ⟨i, u1, u2, u⟩ = .ok (metropolis c.vars.beta
        (E (replace c i (spherePoint u1 u2)) - E c) u c (replace c i (spherePoint u1 u2))))
    (w : WF c L s) (hL : 1 ≤ L) (tE : Tame fun v : Fin L → V3 ℝ => E (withSpins c v))
    (hE : ∀ beta (v : Fin L → V3 ℝ), E (withSpins (atBeta c beta) v) = E (withSpins c v)) : MeanSquare upd E c L := by
  intro bmax
  have : NeZero L := ⟨by omega⟩
  obtain ⟨D, hD⟩ := tE.bound
  obtain ⟨K, hK, h⟩ := average_error (B := bmax) tE.meas hD
  refine ⟨K, hK, fun beta h0 h1 f obs M hobs hf hM v hv per n hper hn => ?_⟩
  have wb : WF (atBeta c beta) L s := ⟨w.hsize, w.ssize, w.L_lt, w.s_lt, w.spins, w.j, w.h, w.hs⟩
  have key := h beta h0 h1 _ M hf hM v hv per n hper hn
  have hEe : (fun v : Fin L → V3 ℝ => E (withSpins (atBeta c beta) v)) = fun v => E (withSpins c v) := funext (hE beta)
  refine ⟨fun b => total (run (move beta fun v => E (withSpins c v)) per)
    (fun v => f (withSpins (atBeta c beta) v)) n v b / n, ?_, ?_, ?_⟩
  · exact ((meas_total (meas_run (meas_move tE.meas) per) hf n).comp
      (measurable_const.prodMk measurable_id)).div_const _
  · refine (fair_blocks per n).mono fun b hb => ⟨_, _, loop_eq hobs hupd wb per n b hb v, ?_⟩
    rw [vals_mean]
    show total (run (move beta fun v => E (withSpins (atBeta c beta) v)) per) _ n v b / n = _
    rw [hEe]
  · have hm : thermalMean (atBeta c beta) L E f
        = avg (L := L) beta (fun v => E (withSpins c v)) fun v => f (withSpins (atBeta c beta) v) := by
      unfold thermalMean avg
      simp only [hE]
      rfl
    rw [hm]
    exact key

/-- C92: estimates with `metropolis_update` converge to thermal means of the reported energy. -/
theorem C92_mean_square (c : SpinChain ℝ) (L s : ℕ) (w : WF c L s) (hL : 2 ≤ L) :
    MeanSquare (fun c d => c.metropolis_update d) (wholeEnergy L) c L :=
  meanSquare_of (plain_upd hL) w (by omega) (whole_tame w hL) fun _ _ => rfl

/-- The same for the laboratory-frame sampler, with the energy it samples (no corrections, compare C38). -/
theorem C92_maglab (c : SpinChain ℝ) (L s : ℕ) (w : WF c L s) (hL : 2 ≤ L) :
    MeanSquare (fun c d => c.metropolis_update_maglab d) (labEnergy L) c L :=
  meanSquare_of (maglab_upd hL) w (by omega) (lab_tame c L) fun _ _ => rfl

/-- The same for the rotating-frame sampler, with the energy it samples (each correction once, compare C39). -/
theorem C92_rot (c : SpinChain ℝ) (L s : ℕ) (w : WF c L s) (hL : 3 ≤ L) :
    MeanSquare (fun c d => c.metropolis_update_rot_magnus d) (frameEnergy L s) c L :=
  meanSquare_of (rot_upd hL) w (by omega) (frame_tame c L s) fun _ _ => rfl

/-- From the mean square to probabilities: the average is off by `δ` or more, or the loop panics, with
probability at most `K M² / (n δ²)`. -/
theorem C92_probability (upd : SpinChain ℝ → Draw ℝ → R (SpinChain ℝ)) (E : SpinChain ℝ → ℝ) (c : SpinChain ℝ)
    (L : ℕ) (h : MeanSquare upd E c L) (bmax : ℝ) :
    ∃ K : ℝ, 0 < K ∧ ∀ beta : ℝ, 0 ≤ beta → beta ≤ bmax →
    ∀ (f : SpinChain ℝ → ℝ) (obs : SpinChain ℝ → R ℝ) (M : ℝ),
    (∀ v : Fin L → V3 ℝ, obs (withSpins (atBeta c beta) v) = .ok (f (withSpins (atBeta c beta) v))) →
    Measurable (fun v : Fin L → V3 ℝ => f (withSpins (atBeta c beta) v)) →
    (∀ v : Fin L → V3 ℝ, (∀ i, len (v i) = 1) → |f (withSpins (atBeta c beta) v)| ≤ M) →
    ∀ v : Fin L → V3 ℝ, (∀ i, len (v i) = 1) → ∀ per n : ℕ, 1 ≤ per → 1 ≤ n → ∀ δ : ℝ, 0 < δ →
    blockLaw L per n {w | ¬ ∃ c' xs,
        sampleLoop upd per n obs (blockDraws w) (withSpins (atBeta c beta) v) = .ok (c', xs) ∧
          |meanOf xs n - thermalMean (atBeta c beta) L E f| < δ}
      ≤ ENNReal.ofReal (K * M ^ 2 / (n * δ ^ 2)) := by
  obtain ⟨K, hK, h⟩ := h bmax
  refine ⟨K, hK, fun beta h0 h1 f obs M hobs hf hM v hv per n hper hn δ hδ => ?_⟩
  obtain ⟨est, m, hae, hms⟩ := h beta h0 h1 f obs M hobs hf hM v hv per n hper hn
  set μ := thermalMean (atBeta c beta) L E f
  have hn0 : (0 : ℝ) < n := by exact_mod_cast hn
  calc _ ≤ blockLaw L per n {w | ENNReal.ofReal (δ ^ 2) ≤ ENNReal.ofReal ((est w - μ) ^ 2)} := by
        refine measure_mono_ae (hae.mono fun w hw hbad => ?_)
        show ENNReal.ofReal (δ ^ 2) ≤ ENNReal.ofReal ((est w - μ) ^ 2)
        obtain ⟨c', xs, e1, e2⟩ := hw
        apply ENNReal.ofReal_le_ofReal
        by_contra hc
        refine hbad ⟨c', xs, e1, ?_⟩
        rw [e2]
        exact abs_lt_of_sq_lt_sq (not_le.1 hc) hδ.le
    _ ≤ (∫⁻ w, ENNReal.ofReal ((est w - μ) ^ 2) ∂(blockLaw L per n)) / ENNReal.ofReal (δ ^ 2) := by
        refine meas_ge_le_lintegral_div ?_ ?_ ENNReal.ofReal_ne_top
        · exact ((m.sub measurable_const).pow_const 2).ennreal_ofReal.aemeasurable
        · simp [hδ.ne']
    _ ≤ ENNReal.ofReal (K * M ^ 2 / n) / ENNReal.ofReal (δ ^ 2) := ENNReal.div_le_div_right hms _
    _ = _ := by
        rw [← ENNReal.ofReal_div_of_pos (by positivity)]
        congr 1
        field_simp

/-- The hypotheses are met: the reported energy of the chain of four spins is an observable as required, at every
temperature. -/
example : MeanSquare (fun c d => c.metropolis_update d) (wholeEnergy 4) demo 4 ∧ ∀ beta : ℝ,
    ∃ (f : SpinChain ℝ → ℝ) (M : ℝ),
    (∀ v : Fin 4 → V3 ℝ, (withSpins (atBeta demo beta) v).mc_total_energy = .ok (f (withSpins (atBeta demo beta) v))) ∧
    Measurable (fun v : Fin 4 → V3 ℝ => f (withSpins (atBeta demo beta) v)) ∧
    (∀ v : Fin 4 → V3 ℝ, (∀ i, len (v i) = 1) → |f (withSpins (atBeta demo beta) v)| ≤ M) := by
  refine ⟨C92_mean_square demo 4 2 demo_wf (by norm_num), fun beta => ?_⟩
  have w : WF (atBeta demo beta) 4 2 := ⟨demo_wf.hsize, demo_wf.ssize, demo_wf.L_lt, demo_wf.s_lt, demo_wf.spins,
    demo_wf.j, demo_wf.h, demo_wf.hs⟩
  have t := (whole_tame w (by norm_num)).div 4
  obtain ⟨M, hM⟩ := t.bound
  refine ⟨fun c => wholeEnergy 4 c / 4, M, fun v => ?_, t.meas, hM⟩
  have e := mc_total_energy_eq (withSpins_wf w v) (by norm_num)
  show _ = Except.ok (wholeEnergy 4 (withSpins (atBeta demo beta) v) / 4)
  unfold wholeEnergy
  rw [e]
  dsimp only
  rw [mul_div_assoc]
  congr 1
  push_cast
  ring

end Verif.Props
