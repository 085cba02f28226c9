/-
C136: how many trajectories the energy estimate needs (/repo/src/obs.rs `trajectory_mean_e`).
-/
import Verif.Spec.TrajMean
import Verif.Props.HistMean
import Verif.Props.Trajectories

set_option linter.unusedSectionVars false

namespace Verif.Props

open Spec MeasureTheory Finset Function
open scoped ENNReal

section
variable {conf : Config ℝ} {c : SpinChain ℝ} {L s : ℕ}

/-- the quantities of a histogram after a regular run -/
theorem run_quantity (w : WF c L s) (hL : 2 ≤ L) {q : Fin L → V3 ℝ} (hq : ∀ i, len (q i) = 1)
    {n : ℕ} (hr : RegularRun (withSpins c q) L s n) {k : ℕ} (k1 : 1 ≤ k) (k4 : k ≤ 4) :
    (∀ i, len (flow c L s n q i) = 1) ∧
    afterRun n (histQuantity s k) (withSpins c q)
      = (logCols L s (withSpins { c with t := c.t + n * c.vars.dt } (flow c L s n q))).getD (histPlace k) 0 := by
  obtain ⟨c', h1, h2⟩ := run_flow w hL hq hr
  obtain ⟨a1, a2, a3, -, -⟩ := updates_frame h1
  have ht := C25_time _ _ n h1
  have w' := updates_wf (withSpins_wf w q) h1
  obtain ⟨-, u1⟩ := updates_unit (withSpins_wf w q) hL (unit_withSpins hq) hr h1
  refine ⟨fun i => ?_, ?_⟩
  · have := unit_of w' u1 i.2
    rwa [h2, fld_val] at this
  · unfold afterRun
    rw [h1]
    dsimp only
    rw [hist_place (L := L) k1 k4]
    congr 1
    refine logCols_congr ?_ a1 a2 a3 ht
    rw [h2, S_fld]

/-- the energy of the subsystem after a run as an observable of the spins after the warm-up -/
theorem run_energy_bounded (w : WF c L s) (hL : 2 ≤ L) (hs : 2 ≤ s) (hsL : s ≤ L) {K D : ℝ}
    (hK : ∀ i < L, len (J c i) + len (H0 c i) ≤ K) (hD : ∀ t, len (drive c.vars t) ≤ D) {A : Set (Fin L → V3 ℝ)} (hA : MeasurableSet A)
    (hAP : ∀ q ∈ A, (∀ i, len (q i) = 1) ∧ ∀ n, RegularRun (withSpins c q) L s n) (n : ℕ) :
    BoundedBy c L (K + D) (within A (afterRun n (histQuantity s 4))) := by
  have b := log_bounded (s := s) (k := 2) { c with t := c.t + n * c.vars.dt } hs hsL hK (hD _) (by norm_num) (by norm_num)
  constructor
  · refine within_meas hA (b.meas.comp (flow_preserving c L s n).measurable) fun q hq => ?_
    exact (run_quantity w hL (hAP q hq).1 ((hAP q hq).2 n) (by norm_num) (by norm_num)).2
  · intro q _
    unfold within
    rw [spins_withSpins]
    split_ifs with h
    · obtain ⟨r1, r2⟩ := run_quantity w hL (hAP q h).1 ((hAP q h).2 n) (k := 4) (by norm_num) (by norm_num)
      rw [r2]
      exact b.bound _ r1
    · rw [abs_zero]
      have h0 := b.bound (fun _ => ⟨1, 0, 0⟩) (fun _ => by norm_num [len, dot])
      exact (abs_nonneg _).trans h0

/-- one worker: the mean of the energies it sends, as a function of its draws -/
theorem traj_one {p : ℕ} (hp : p = warmup) (v : ValidConf conf L s) (hb : 0 < conf.beta) (hs : 2 ≤ s) (hsL : s ≤ L) (hL : 4 ≤ L)
    (hdt : 0 < conf.dt) {P : ℕ} (hP : 1 ≤ P) (hP' : 1000 * P < 2 ^ 64) (htau : conf.tau = P * conf.dt)
    {u0 zj zh : ℕ → ℝ} (hc : SpinChain.new conf 0 u0 zj zh = .ok c) (hJ : ∀ i < 2 * (L / 2), J c i ≠ zero)
    {K D : ℝ} (hK : ∀ i < L, len (J c i) + len (H0 c i) ≤ K) (hD : ∀ t, len (drive conf t) ≤ D) :
    ∃ X : WarmRaw L p → ℝ,
      (∀ᵐ r ∂(warmLaw L p), ∃ c' last sent, SpinChain.new conf 0 (drawsOf r.1) zj zh = .ok c' ∧
        trajJob conf c' (warmDraws r.2) = .ok (last, sent) ∧ sent.length = 900 ∧ sent.sum = 900 * X r) ∧
      Measurable X ∧ (∀ᵐ r ∂(warmLaw L p), |X r| ≤ K + D) ∧
        |(∫ r, X r ∂(warmLaw L p)) - (∑ k ∈ Ico 100 1000, thermalMean c L (wholeEnergy L) (afterRun (k * P + 1) (histQuantity s 4))) / 900|
          ≤ (K + D) * warmBias conf.beta K L p := by
  have hL2 : 2 ≤ L := by omega
  have pl : IsProbabilityMeasure (warmLaw L p) := by
    have : NeZero L := ⟨by omega⟩
    unfold warmLaw
    infer_instance
  obtain ⟨w, ht, hv⟩ := new_facts v hc
  obtain ⟨A, hA, hAP, hAq, hAr⟩ := warm_ae v hb hc hL2 p (C86_generic c L s w hL hJ)
  have hr := warm_run v hb hc hL2 p
  have b := fun n => run_energy_bounded w hL2 hs hsL hK (by rw [hv]; exact hD) hA hAP n
  set Y : ℕ → WarmRaw L p → ℝ := fun n r => within A (afterRun n (histQuantity s 4)) (withSpins c (warmSpins c conf.beta r)) with hY
  have mY : ∀ n, Measurable (Y n) := fun n => (b n).meas.comp (warm_meas w hL2 conf.beta p)
  have bY : ∀ᵐ r ∂(warmLaw L p), ∀ n, |Y n r| ≤ K + D := hr.mono fun r h n => (b n).bound _ h.1
  have nine : ((Ico 100 1000).card : ℝ) = 900 := by
    rw [Nat.card_Ico]
    norm_num
  refine ⟨fun r => (∑ k ∈ Ico 100 1000, Y (k * P + 1) r) / 900, ?_, ?_, ?_, ?_⟩
  · filter_upwards [hAr, hr] with r r1 r2
    obtain ⟨r3, r4, r5⟩ := r2
    obtain ⟨c1, c0, chain, e, h1, h2, h3, h4, h5, -, h6⟩ :=
      C65_samples conf v (by omega) hsL hdt P hP hP' htau 0 (drawsOf r.1) zj zh (warmDraws r.2)
    rw [r4] at h1
    cases h1
    rw [← hp, r5] at h2
    cases h2
    refine ⟨_, _, _, r4, h6, by rw [List.length_map, List.length_range'], ?_⟩
    have val : ∀ n, e n = Y n r := fun n => by
      rw [hY]
      show _ = within A _ _
      unfold within
      rw [spins_withSpins, if_pos r1]
      have u := updates_course' h3 h4 n
      unfold afterRun
      rw [u]
      dsimp only
      have w' := updates_wf (withSpins_wf w _) u
      have := h5 n
      rw [system_energy_eq w' (by omega) hsL] at this
      exact (Except.ok.inj this).symm
    simp only [val]
    rw [mul_div_cancel₀ _ (by norm_num : (900 : ℝ) ≠ 0), Finset.sum_eq_multiset_sum]
    rfl
  · exact (Finset.measurable_sum _ fun k _ => mY _).div_const _
  · filter_upwards [bY] with r h
    rw [abs_div, abs_of_pos (by norm_num : (0 : ℝ) < 900), div_le_iff₀ (by norm_num)]
    refine (abs_sum_le_sum_abs _ _).trans ((Finset.sum_le_sum fun k _ => h (k * P + 1)).trans (le_of_eq ?_))
    rw [sum_const, nsmul_eq_mul, nine, mul_comm]
  · have int : ∀ n, Integrable (Y n) (warmLaw L p) := fun n =>
      Integrable.of_bound (mY n).aestronglyMeasurable (K + D) (bY.mono fun r h => by rw [Real.norm_eq_abs]; exact h n)
    rw [integral_div, integral_finsetSum _ fun k _ => int _, ← sub_div, ← Finset.sum_sub_distrib, abs_div,
      abs_of_pos (by norm_num : (0 : ℝ) < 900), div_le_iff₀ (by norm_num)]
    refine (abs_sum_le_sum_abs _ _).trans ?_
    have each : ∀ n, |(∫ r, Y n r ∂(warmLaw L p)) - thermalMean c L (wholeEnergy L) (afterRun n (histQuantity s 4))|
        ≤ (K + D) * warmBias conf.beta K L p := fun n => by
      have e : thermalMean c L (wholeEnergy L) (afterRun n (histQuantity s 4))
          = thermalMean c L (wholeEnergy L) (within A (afterRun n (histQuantity s 4))) := by
        unfold thermalMean
        congr 1
        refine integral_congr_ae (hAq.mono fun q hq => ?_)
        dsimp only
        unfold within
        rw [spins_withSpins, if_pos hq]
      rw [e]
      exact warm_mean v hb hc hL2 hK p (b n)
    refine (Finset.sum_le_sum fun k _ => each (k * P + 1)).trans (le_of_eq ?_)
    rw [sum_const, nsmul_eq_mul, nine, mul_comm]

/-- C136 with a name for the number of updates before a run -/
theorem traj_close {p : ℕ} (hp : p = warmup) (v : ValidConf conf L s) (hb : 0 < conf.beta) (hs : 2 ≤ s) (hsL : s ≤ L) (hL : 4 ≤ L)
    (hdt : 0 < conf.dt) {P : ℕ} (hP : 1 ≤ P) (hP' : 1000 * P < 2 ^ 64) (htau : conf.tau = P * conf.dt) {m : ℕ} (hm : 1 ≤ m)
    {u0 zj zh : ℕ → ℕ → ℝ} {c : ℕ → SpinChain ℝ} (hc : ∀ r < m, SpinChain.new conf 0 (u0 r) (zj r) (zh r) = .ok (c r))
    (hJ : ∀ r < m, ∀ i < 2 * (L / 2), J (c r) i ≠ zero)
    {K D : ℝ} (hK : ∀ r < m, ∀ i < L, len (J (c r) i) + len (H0 (c r) i) ≤ K) (hD : ∀ t, len (drive conf t) ≤ D) {δ : ℝ} (hδ : 0 ≤ δ) :
    runsLaw L p m {w | ¬ ∃ sent, SamplesOf conf zj zh w sent ∧ ∀ received : List ℝ, received.Perm sent.flatten → received.length = 900 * m ∧
        |trajMean received - (∑ r : Fin m, (∑ k ∈ Ico 100 1000,
          thermalMean (c r) L (wholeEnergy L) (afterRun (k * P + 1) (histQuantity s 4))) / 900) / m|
          < (δ + warmBias conf.beta K L p) * (K + D)}
      ≤ ENNReal.ofReal (2 * Real.exp (-(m * δ ^ 2 / 2))) := by
  have m0 : (0 : ℝ) < m := by exact_mod_cast hm
  have pl : IsProbabilityMeasure (warmLaw L p) := by
    have : NeZero L := ⟨by omega⟩
    unfold warmLaw
    infer_instance
  have KD : 0 < K + D := by
    have h1 := hJ 0 (by omega) 0 (by omega)
    have h2 := hK 0 (by omega) 0 (by omega)
    have h3 : 0 < len (J (c 0) 0) := len_pos h1
    have h4 : 0 ≤ len (H0 (c 0) 0) := len_nonneg _
    have h5 := hD 0
    have h6 := len_nonneg (drive conf 0)
    linarith
  have each := fun r : Fin m => traj_one hp v hb hs hsL hL hdt hP hP' htau (hc r r.2) (hJ r r.2) (hK r r.2) hD
  choose X aX mX bX cX using each
  have all : ∀ᵐ w ∂(runsLaw L p m), ∀ r : Fin m, ∃ c' last sent, SpinChain.new conf 0 (drawsOf (w r).1) (zj r) (zh r) = .ok c' ∧
        trajJob conf c' (warmDraws (w r).2) = .ok (last, sent) ∧ sent.length = 900 ∧ sent.sum = 900 * X r (w r) := by
    rw [ae_all_iff]
    intro r
    exact (Measure.quasiMeasurePreserving_eval (fun _ : Fin m => warmLaw L p) r).ae (aX r)
  refine le_trans (measure_mono_ae ?_) (hoeffding hm mX KD bX hδ)
  filter_upwards [all] with w hw hnw
  by_contra hnot
  refine (show ¬ _ from hnw) ?_
  choose c' last sent s1 s2 s3 s4 using hw
  have len_eq : ((List.ofFn sent).map List.length).sum = 900 * m := by
    rw [List.map_ofFn, List.sum_ofFn]
    simp only [comp_apply, s3, sum_const, card_univ, Fintype.card_fin, smul_eq_mul]
    ring
  refine ⟨List.ofFn sent, ⟨by simp, fun r h => ⟨c' r, last r, s1 r, ?_⟩⟩, fun received hperm => ⟨?_, ?_⟩⟩
  · rw [Fin.getElem_fin, List.getElem_ofFn]
    exact s2 r
  · rw [hperm.length_eq, List.length_flatten, len_eq]
  · rw [C65_mean _ _ hperm, len_eq, List.map_ofFn, List.sum_ofFn]
    simp only [comp_apply, s4]
    rw [← Finset.mul_sum]
    push_cast
    rw [mul_div_mul_left _ _ (by norm_num : (900 : ℝ) ≠ 0)]
    have lt : |(∑ r, X r (w r)) / m - (∑ r, ∫ ω, X r ω ∂(warmLaw L p)) / m| < δ * (K + D) := not_le.1 hnot
    have bias : |(∑ r, ∫ ω, X r ω ∂(warmLaw L p)) / m - (∑ r : Fin m, (∑ k ∈ Ico 100 1000,
          thermalMean (c r) L (wholeEnergy L) (afterRun (k * P + 1) (histQuantity s 4))) / 900) / m| ≤ (K + D) * warmBias conf.beta K L p := by
      rw [← sub_div, ← Finset.sum_sub_distrib, abs_div, abs_of_pos m0, div_le_iff₀ m0]
      refine (abs_sum_le_sum_abs _ _).trans ((Finset.sum_le_sum fun r _ => cX r).trans (le_of_eq ?_))
      simp only [sum_const, card_univ, Fintype.card_fin, nsmul_eq_mul]
      ring
    have := abs_sub_le ((∑ r, X r (w r)) / m) ((∑ r, ∫ ω, X r ω ∂(warmLaw L p)) / m) ((∑ r : Fin m, (∑ k ∈ Ico 100 1000,
          thermalMean (c r) L (wholeEnergy L) (afterRun (k * P + 1) (histQuantity s 4))) / 900) / m)
    nlinarith

/-- C136: the number that `trajectory_mean_e` returns for `m` runs is, up to `δ` times the size of the energy and what is left of the start,
the exact mean over the thermal state and over the 900 sampled times, except with probability `2 exp (-m δ² / 2)`; in whatever order the
energies arrive. -/
theorem C136_energy (conf : Config ℝ) (L s : ℕ) (v : ValidConf conf L s) (hb : 0 < conf.beta) (hs : 2 ≤ s) (hsL : s ≤ L) (hL : 4 ≤ L)
    (hdt : 0 < conf.dt) (P : ℕ) (hP : 1 ≤ P) (hP' : 1000 * P < 2 ^ 64) (htau : conf.tau = P * conf.dt) (m : ℕ) (hm : 1 ≤ m)
    (u0 zj zh : ℕ → ℕ → ℝ) (c : ℕ → SpinChain ℝ) (hc : ∀ r < m, SpinChain.new conf 0 (u0 r) (zj r) (zh r) = .ok (c r))
    (hJ : ∀ r < m, ∀ i < 2 * (L / 2), J (c r) i ≠ zero)
    (K D : ℝ) (hK : ∀ r < m, ∀ i < L, len (J (c r) i) + len (H0 (c r) i) ≤ K) (hD : ∀ t, len (drive conf t) ≤ D) (δ : ℝ) (hδ : 0 ≤ δ) :
    runsLaw L warmup m {w | ¬ ∃ sent, SamplesOf conf zj zh w sent ∧ ∀ received : List ℝ, received.Perm sent.flatten →
        received.length = 900 * m ∧
        |trajMean received - (∑ r : Fin m, (∑ k ∈ Ico 100 1000,
          thermalMean (c r) L (wholeEnergy L) (afterRun (k * P + 1) (histQuantity s 4))) / 900) / m|
          < (δ + warmBias conf.beta K L warmup) * (K + D)}
      ≤ ENNReal.ofReal (2 * Real.exp (-(m * δ ^ 2 / 2))) :=
  traj_close rfl v hb hs hsL hL hdt hP hP' htau hm hc hJ hK hD hδ

theorem traj_runs {p : ℕ} (hp : p = warmup) (v : ValidConf conf L s) (hb : 0 < conf.beta) (hj : conf.jvar = 0) (hv : conf.hvar = 0)
    (hs : 2 ≤ s) (hsL : s ≤ L) (hL : 4 ≤ L)
    (hdt : 0 < conf.dt) {P : ℕ} (hP : 1 ≤ P) (hP' : 1000 * P < 2 ^ 64) (htau : conf.tau = P * conf.dt) {m : ℕ} (hm : 1 ≤ m)
    {zj zh : ℕ → ℕ → ℝ} {u0 z0 z0' : ℕ → ℝ} (hc : SpinChain.new conf 0 u0 z0 z0' = .ok c) (hJ : ∀ i < 2 * (L / 2), J c i ≠ zero)
    {K D : ℝ} (hK : ∀ i < L, len (J c i) + len (H0 c i) ≤ K) (hD : ∀ t, len (drive conf t) ≤ D) {δ ε : ℝ} (hδ : 0 < δ) (hε : 0 < ε)
    (hbias : warmBias conf.beta K L p ≤ δ) (hruns : 2 * Real.log (2 / ε) / δ ^ 2 ≤ m) :
    runsLaw L p m {w | ¬ ∃ sent, SamplesOf conf zj zh w sent ∧ ∀ received : List ℝ, received.Perm sent.flatten →
        received.length = 900 * m ∧
        |trajMean received - (∑ k ∈ Ico 100 1000, thermalMean c L (wholeEnergy L) (afterRun (k * P + 1) (histQuantity s 4))) / 900|
          < 2 * δ * (K + D)}
      ≤ ENNReal.ofReal ε := by
  have m0 : (0 : ℝ) < m := by exact_mod_cast hm
  have key := traj_close hp v hb hs hsL hL hdt hP hP' htau hm (u0 := fun _ => u0) (zj := zj) (zh := zh) (c := fun _ => c)
    (fun r _ => by rw [new_calm v hj hv u0 (zj r) z0 (zh r) z0']; exact hc) (fun _ _ => hJ) (fun _ _ => hK) hD hδ.le
  have KD : 0 ≤ K + D := by
    have h2 := hK 0 (by omega)
    have h3 := len_nonneg (J c 0)
    have h4 := len_nonneg (H0 c 0)
    have h5 := hD 0
    have h6 := len_nonneg (drive conf 0)
    linarith
  refine (measure_mono fun w hw => ?_).trans (key.trans (ENNReal.ofReal_le_ofReal ?_))
  · rintro ⟨sent, a1, a2⟩
    refine (show ¬ _ from hw) ⟨sent, a1, fun received hr => ?_⟩
    obtain ⟨b1, b2⟩ := a2 received hr
    refine ⟨b1, ?_⟩
    simp only [sum_const, card_univ, Fintype.card_fin, nsmul_eq_mul] at b2
    rw [mul_div_cancel_left₀ _ m0.ne'] at b2
    exact b2.trans_le (by nlinarith)
  · rw [div_le_iff₀ (by positivity)] at hruns
    have h1 : Real.exp (-(m * δ ^ 2 / 2)) ≤ Real.exp (-Real.log (2 / ε)) := Real.exp_le_exp.2 (by linarith)
    rw [Real.exp_neg (Real.log _), Real.exp_log (by positivity)] at h1
    refine (mul_le_mul_of_nonneg_left h1 (by positivity)).trans (le_of_eq ?_)
    field_simp

/-- C136: without disorder, so many runs give the energy to the accuracy `2 δ` of its size with probability `1 - ε`. -/
theorem C136_runs (conf : Config ℝ) (L s : ℕ) (v : ValidConf conf L s) (hb : 0 < conf.beta) (hj : conf.jvar = 0) (hv : conf.hvar = 0)
    (hs : 2 ≤ s) (hsL : s ≤ L) (hL : 4 ≤ L)
    (hdt : 0 < conf.dt) (P : ℕ) (hP : 1 ≤ P) (hP' : 1000 * P < 2 ^ 64) (htau : conf.tau = P * conf.dt) (m : ℕ) (hm : 1 ≤ m)
    (zj zh : ℕ → ℕ → ℝ) (u0 z0 z0' : ℕ → ℝ) (c : SpinChain ℝ) (hc : SpinChain.new conf 0 u0 z0 z0' = .ok c)
    (hJ : ∀ i < 2 * (L / 2), J c i ≠ zero)
    (K D : ℝ) (hK : ∀ i < L, len (J c i) + len (H0 c i) ≤ K) (hD : ∀ t, len (drive conf t) ≤ D) (δ ε : ℝ) (hδ : 0 < δ) (hε : 0 < ε)
    (hbias : warmBias conf.beta K L warmup ≤ δ) (hruns : 2 * Real.log (2 / ε) / δ ^ 2 ≤ m) :
    runsLaw L warmup m {w | ¬ ∃ sent, SamplesOf conf zj zh w sent ∧ ∀ received : List ℝ, received.Perm sent.flatten →
        received.length = 900 * m ∧
        |trajMean received - (∑ k ∈ Ico 100 1000, thermalMean c L (wholeEnergy L) (afterRun (k * P + 1) (histQuantity s 4))) / 900|
          < 2 * δ * (K + D)}
      ≤ ENNReal.ofReal ε :=
  traj_runs rfl v hb hj hv hs hsL hL hdt hP hP' htau hm hc hJ hK hD hδ hε hbias hruns

/-- non-vacuity: the default configuration without disorder, at a high temperature; 5000 runs give the energy to a
tenth of its size, with probability 99/100 -/
example : ∃ (conf : Config ℝ) (c : SpinChain ℝ), ValidConf conf 512 8 ∧ 0 < conf.beta ∧ conf.jvar = 0 ∧ conf.hvar = 0 ∧ 0 < conf.dt ∧
    conf.tau = (500 : ℕ) * conf.dt ∧ 1000 * 500 < 2 ^ 64 ∧
    SpinChain.new conf 0 (fun _ => 0) (fun _ => 0) (fun _ => 0) = .ok c ∧ (∀ i < 2 * (512 / 2), J c i ≠ zero) ∧
    (∀ k < 512, len (J c k) + len (H0 c k) ≤ 2) ∧ (∀ t, len (drive conf t) ≤ 1) ∧ warmBias conf.beta 2 512 warmup ≤ 1 / 20 ∧
    2 * Real.log (2 / (1 / 100)) / (1 / 20) ^ 2 ≤ (5000 : ℕ) := by
  let conf : Config ℝ := { (Config.default : Config ℝ) with
    beta := 1 / 1000
    jvar := 0 }
  have v : ValidConf conf 512 8 := by constructor <;> first | rfl | norm_num
  obtain ⟨sp, hsp, -⟩ := newSpins_ok conf.beta (fun _ => (0 : ℝ)) 512
  have hc := new_eq v.hsize v.L_lt (show conf.hfield = 0.0 :: 0.0 :: 0.0 :: [] from rfl) (show conf.hs = 0.0 :: 0.0 :: 0.0 :: [] from rfl)
    v.jvar v.hvar 0 (fun _ => 0) (fun _ => 0) (fun _ => 0) hsp
  have i1 : ∀ k < 512, ((List.range 512).map (coupF conf.lambda conf.jvar (fun _ => (0 : ℝ))))[k]? = some (coupF conf.lambda conf.jvar (fun _ => (0 : ℝ)) k) := by
    intro k hk
    rw [List.getElem?_map, List.getElem?_range hk, Option.map_some]
  have i2 : ∀ k < 512, ((List.range 512).map (fieldN (0.0 : ℝ) 0.0 0.0 0.0 0.0 0.0 conf.hvar conf.ssize (fun _ => (0 : ℝ))))[k]?
      = some (fieldN (0.0 : ℝ) 0.0 0.0 0.0 0.0 0.0 conf.hvar conf.ssize (fun _ => (0 : ℝ)) k) := by
    intro k hk
    rw [List.getElem?_map, List.getElem?_range hk, Option.map_some]
  refine ⟨conf, _, v, by norm_num [conf], rfl, by norm_num [conf, Config.default], by norm_num [conf, Config.default], by norm_num [conf, Config.default], by norm_num, hc,
    fun i hi => ?_, fun k hk => ?_, fun t => ?_, bias_small rfl, ?_⟩
  · unfold J
    dsimp only
    rw [i1 i (by omega)]
    intro h
    have := congrArg V3.x h
    norm_num [coupF, conf, Config.default, zero] at this
  · have e1 : len (coupF conf.lambda conf.jvar (fun _ => (0 : ℝ)) k) ≤ 2 := by
      unfold len
      rw [Real.sqrt_le_left (by norm_num)]
      norm_num [coupF, dot, conf, Config.default]
    have e2 : len (fieldN (0.0 : ℝ) 0.0 0.0 0.0 0.0 0.0 conf.hvar conf.ssize (fun _ => (0 : ℝ)) k) = 0 := by
      unfold len
      rw [Real.sqrt_eq_zero']
      unfold fieldN
      split_ifs <;> norm_num [dot, conf, Config.default]
    unfold J H0
    dsimp only
    rw [i1 k hk, i2 k hk]
    show len (coupF conf.lambda conf.jvar (fun _ => (0 : ℝ)) k) + len (fieldN (0.0 : ℝ) 0.0 0.0 0.0 0.0 0.0 conf.hvar conf.ssize (fun _ => (0 : ℝ)) k) ≤ 2
    rw [e2]
    linarith
  · show len ⟨Real.cos _, Real.sin _, 0⟩ ≤ 1
    unfold len dot
    rw [Real.sqrt_le_left (by norm_num)]
    dsimp only
    nlinarith [Real.sin_sq_add_cos_sq (2 * Real.pi * t / conf.tau)]
  · have : Real.log (2 / (1 / 100)) ≤ 6 := by
      rw [Real.log_le_iff_le_exp (by norm_num), show (6 : ℝ) = (6 : ℕ) * 1 by norm_num, Real.exp_nat_mul]
      have := pow_le_pow_left₀ (by norm_num) Real.exp_one_gt_d9.le 6
      norm_num at this ⊢
      linarith
    rw [div_le_iff₀ (by norm_num)]
    push_cast
    linarith

end

end Verif.Props
