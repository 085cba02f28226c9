/-
Helper lemmas for C134: Hoeffding's inequality for independent runs, and the law of the spins after the warm-up.
-/
import Verif.Spec.RunMean
import Verif.Props.McRun
import Verif.Props.Recurrence
import Mathlib.Probability.Moments.SubGaussian
import Mathlib.Probability.Independence.Basic

set_option linter.unusedSectionVars false

namespace Verif.Props

open Spec MeasureTheory Finset Function
open Verif.Ergodic (run move Fair)
open scoped ENNReal

/-- Hoeffding's inequality for the mean of independent numbers of size at most `C` -/
theorem hoeffding_above {Ω : Type} [MeasurableSpace Ω] {μ : Measure Ω} [IsProbabilityMeasure μ] {m : ℕ} (hm : 1 ≤ m)
    {X : Fin m → Ω → ℝ} (mX : ∀ r, Measurable (X r)) {C : ℝ} (C0 : 0 < C) (hX : ∀ r, ∀ᵐ ω ∂μ, |X r ω| ≤ C) {ε : ℝ} (hε : 0 ≤ ε) :
    (Measure.pi fun _ : Fin m => μ).real {w | ε * C ≤ (∑ r, X r (w r)) / m - (∑ r, ∫ ω, X r ω ∂μ) / m}
      ≤ Real.exp (-(m * ε ^ 2 / 2)) := by
  have m0 : (0 : ℝ) < m := by exact_mod_cast hm
  have ev := fun r : Fin m => measurePreserving_eval (fun _ : Fin m => μ) r
  have sub : ∀ r : Fin m, ProbabilityTheory.HasSubgaussianMGF (fun w : Fin m → Ω => X r (w r) - ∫ ω, X r ω ∂μ)
      ((‖C - -C‖₊ / 2) ^ 2) (Measure.pi fun _ : Fin m => μ) := fun r => by
    have h := ProbabilityTheory.hasSubgaussianMGF_of_mem_Icc (μ := Measure.pi fun _ : Fin m => μ) (X := fun w => X r (w r))
      (a := -C) (b := C) ((mX r).comp (ev r).measurable).aemeasurable
      ((ev r).quasiMeasurePreserving.ae ((hX r).mono fun ω h => abs_le.1 h))
    have e : ∫ w, X r (w r) ∂(Measure.pi fun _ : Fin m => μ) = ∫ ω, X r ω ∂μ := by
      have q := integral_map (μ := Measure.pi fun _ : Fin m => μ) (f := X r) (ev r).measurable.aemeasurable (mX r).aestronglyMeasurable
      rw [(ev r).map_eq] at q
      exact q.symm
    rw [e] at h
    exact h
  have ind : ProbabilityTheory.iIndepFun (fun (r : Fin m) (w : Fin m → Ω) => X r (w r) - ∫ ω, X r ω ∂μ) (Measure.pi fun _ : Fin m => μ) :=
    ProbabilityTheory.iIndepFun_pi (X := fun r ω => X r ω - ∫ ω, X r ω ∂μ) fun r => ((mX r).sub_const _).aemeasurable
  have h := ProbabilityTheory.HasSubgaussianMGF.measure_sum_ge_le_of_iIndepFun ind (s := Finset.univ) (fun r _ => sub r)
    (ε := m * (ε * C)) (by positivity)
  have e1 : {w : Fin m → Ω | ε * C ≤ (∑ r, X r (w r)) / m - (∑ r, ∫ ω, X r ω ∂μ) / m}
      = {w | m * (ε * C) ≤ ∑ r, (X r (w r) - ∫ ω, X r ω ∂μ)} := by
    ext w
    rw [Set.mem_ofPred_eq, Set.mem_ofPred_eq, Finset.sum_sub_distrib, ← sub_div, le_div_iff₀ m0, mul_comm]
  rw [e1]
  refine h.trans (le_of_eq ?_)
  congr 1
  rw [Finset.sum_const, Finset.card_univ, Fintype.card_fin]
  push_cast
  rw [show C - -C = 2 * C by ring, Real.norm_eq_abs, abs_of_pos (by positivity)]
  simp only [nsmul_eq_mul]
  push_cast
  field_simp

theorem hoeffding {Ω : Type} [MeasurableSpace Ω] {μ : Measure Ω} [IsProbabilityMeasure μ] {m : ℕ} (hm : 1 ≤ m)
    {X : Fin m → Ω → ℝ} (mX : ∀ r, Measurable (X r)) {C : ℝ} (C0 : 0 < C) (hX : ∀ r, ∀ᵐ ω ∂μ, |X r ω| ≤ C) {ε : ℝ} (hε : 0 ≤ ε) :
    (Measure.pi fun _ : Fin m => μ) {w | ε * C ≤ |(∑ r, X r (w r)) / m - (∑ r, ∫ ω, X r ω ∂μ) / m|}
      ≤ ENNReal.ofReal (2 * Real.exp (-(m * ε ^ 2 / 2))) := by
  have h1 := hoeffding_above hm mX C0 hX hε
  have h2 := hoeffding_above hm (X := fun r ω => -X r ω) (fun r => (mX r).neg) C0 (fun r => by simpa only [abs_neg] using hX r) hε
  rw [← ENNReal.ofReal_toReal (measure_ne_top _ _)]
  refine ENNReal.ofReal_le_ofReal ?_
  change (Measure.pi fun _ : Fin m => μ).real _ ≤ _
  rw [two_mul]
  refine le_trans ?_ (add_le_add h1 h2)
  refine le_trans (measureReal_mono ?_) (measureReal_union_le _ _)
  intro w hw
  rw [Set.mem_ofPred_eq, le_abs] at hw
  rcases hw with h | h
  · exact Or.inl h
  · refine Or.inr ?_
    rw [Set.mem_ofPred_eq]
    simp only [integral_neg, Finset.sum_neg_distrib, neg_div]
    linarith

section
variable {conf : Config ℝ} {c : SpinChain ℝ} {L s : ℕ}

theorem path_len_ae {b : ℝ} (hb : b ≠ 0) (L : ℕ) : ∀ᵐ x ∂(Measure.pi fun _ : Fin L => tripleMeasure), ∀ i, len (path b L startDir x i) = 1 :=
  (path_unit hb L startDir_unit).mono fun y hy i => by rw [len, hy i, Real.sqrt_one]

/-- the spins after the warm-up -/
noncomputable def warmSpins (c : SpinChain ℝ) (β : ℝ) {L per : ℕ} (r : WarmRaw L per) : Fin L → V3 ℝ :=
  run (move β fun q => wholeEnergy L (withSpins c q)) per (path β L startDir r.1) r.2

theorem warm_meas (w : WF c L s) (hL : 2 ≤ L) (β : ℝ) (per : ℕ) : Measurable (warmSpins c β (L := L) (per := per)) := by
  have m1 := Ergodic.meas_run (Ergodic.meas_move (β := β) (whole_tame w hL).meas) per
  have m2 : Measurable fun r : WarmRaw L per => (path β L startDir r.1, r.2) :=
    ((meas_path' β L startDir).comp measurable_fst).prodMk measurable_snd
  have := Measurable.comp (g := fun p : (Fin L → V3 ℝ) × (Fin per → Raw L) =>
    run (move β fun q => wholeEnergy L (withSpins c q)) per p.1 p.2) m1 m2
  exact this

/-- what the program does with the numbers of a run, up to the end of the warm-up -/
theorem warm_run (v : ValidConf conf L s) (hb : 0 < conf.beta) {num : ℕ} {u0 zj zh : ℕ → ℝ}
    (hc : SpinChain.new conf num u0 zj zh = .ok c) (hL : 2 ≤ L) (per : ℕ) :
    ∀ᵐ r ∂(warmLaw L per), (∀ i, len (warmSpins c conf.beta r i) = 1) ∧
      SpinChain.new conf num (drawsOf r.1) zj zh = .ok (withSpins c (path conf.beta L startDir r.1)) ∧
      sweeps SpinChain.metropolis_update (warmDraws r.2) per (withSpins c (path conf.beta L startDir r.1))
        = .ok (withSpins c (warmSpins c conf.beta r)) := by
  have : NeZero L := ⟨by omega⟩
  obtain ⟨w, -, hv⟩ := new_facts v hc
  have g1 := (Measure.quasiMeasurePreserving_fst (μ := Measure.pi fun _ : Fin L => tripleMeasure)
    (ν := Measure.pi fun _ : Fin per => rawLaw L)).ae (new_same v hb.ne' hc)
  have g2 := (Measure.quasiMeasurePreserving_snd (μ := Measure.pi fun _ : Fin L => tripleMeasure)
    (ν := Measure.pi fun _ : Fin per => rawLaw L)).ae (Ergodic.fair_block (L := L) per)
  have g3 := (Measure.quasiMeasurePreserving_fst (μ := Measure.pi fun _ : Fin L => tripleMeasure)
    (ν := Measure.pi fun _ : Fin per => rawLaw L)).ae (path_len_ae hb.ne' L)
  unfold warmLaw
  filter_upwards [g1, g2, g3] with r e1 e2 e3
  refine ⟨Ergodic.run_good per e3 e2, e1, ?_⟩
  unfold sweeps forRange warmSpins
  rw [← hv]
  exact Ergodic.range_block (plain_upd hL) w (warmDraws r.2) per 0 r.2 (fun k => by
    unfold warmDraws
    rw [zero_add, dif_pos k.2]
    rfl) e2 _

/-- what holds for almost all spins holds after the warm-up -/
theorem warm_ae (v : ValidConf conf L s) (hb : 0 < conf.beta) {num : ℕ} {u0 zj zh : ℕ → ℝ}
    (hc : SpinChain.new conf num u0 zj zh = .ok c) (hL : 2 ≤ L) (per : ℕ) {P : (Fin L → V3 ℝ) → Prop}
    (hP : ∀ᵐ q ∂(Measure.pi fun _ : Fin L => sphereMeasure), P q) :
    ∃ A : Set (Fin L → V3 ℝ), MeasurableSet A ∧ (∀ q ∈ A, P q) ∧ (∀ᵐ q ∂(Measure.pi fun _ : Fin L => sphereMeasure), q ∈ A) ∧
      ∀ᵐ r ∂(warmLaw L per), warmSpins c conf.beta r ∈ A := by
  have : NeZero L := ⟨by omega⟩
  obtain ⟨w, -, hv⟩ := new_facts v hc
  have hb' : 0 ≤ c.vars.beta := by rw [hv]; exact hb.le
  have hE := (whole_tame w hL).meas
  obtain ⟨A, hA, hAP, hAae⟩ := C99_warm c L s w hL hb' P hP
  refine ⟨A, hA, hAP, ?_, ?_⟩
  · filter_upwards [hAae] with q hq
    have h0 : Aᶜ.indicator 1 (fun i : Fin L => S (withSpins c q) i) = (0 : ℝ≥0∞) := hq 0
    rw [spins_withSpins] at h0
    by_contra hn
    rw [Set.indicator_of_mem hn] at h0
    exact one_ne_zero h0
  · set h : (Fin L → V3 ℝ) → ℝ≥0∞ := Aᶜ.indicator 1 with hh
    have mh : Measurable h := measurable_one.indicator hA.compl
    have hobs : Observable c L fun c' => Aᶜ.indicator 1 fun i : Fin L => S c' i := by
      unfold Observable
      simp only [spins_withSpins]
      exact mh
    have mz : Measurable fun r : WarmRaw L per => h (warmSpins c conf.beta r) := mh.comp (warm_meas w hL conf.beta per)
    have z : ∫⁻ r, h (warmSpins c conf.beta r) ∂(warmLaw L per) = 0 := by
      unfold warmLaw
      rw [lintegral_prod _ mz.aemeasurable]
      have e : ∀ x : Fin L → ℝ × ℝ × ℝ, ∫⁻ y, h (warmSpins c conf.beta (x, y)) ∂(Measure.pi fun _ : Fin per => rawLaw L)
          = (Markov.Pm sphereMeasure conf.beta fun q => wholeEnergy L (withSpins c q))^[per] h (path conf.beta L startDir x) :=
        fun x => Ergodic.lintegral_run hb.le hE per mh (path conf.beta L startDir x)
      simp only [e]
      rw [path_law hb.ne' L startDir_unit (Markov.measurable_iter hE mh per), lintegral_eq_zero_iff' (by
        refine AEMeasurable.mul ?_ (Markov.measurable_iter hE mh per).aemeasurable
        exact ((meas_pathWeight conf.beta L).comp (measurable_const.prodMk measurable_id)).aemeasurable)]
      filter_upwards [hAae] with q hq
      have h1 := hq per
      rw [expect_eq (plain_upd (s := s) hL) w hb' hE hobs per] at h1
      simp only [spins_withSpins] at h1
      rw [hv] at h1
      rw [h1, mul_zero]
      rfl
    rw [lintegral_eq_zero_iff mz] at z
    filter_upwards [z] with r hr
    by_contra hn
    have : h (warmSpins c conf.beta r) = 1 := Set.indicator_of_mem hn _
    rw [this] at hr
    exact one_ne_zero hr

/-- mean of an observable over the warm-up -/
theorem warm_mean (v : ValidConf conf L s) (hb : 0 < conf.beta) {num : ℕ} {u0 zj zh : ℕ → ℝ}
    (hc : SpinChain.new conf num u0 zj zh = .ok c) (hL : 2 ≤ L) {K : ℝ} (hK : ∀ i < L, len (J c i) + len (H0 c i) ≤ K) (per : ℕ)
    {f : SpinChain ℝ → ℝ} {C : ℝ} (hf : BoundedBy c L C f) :
    |(∫ r, f (withSpins c (warmSpins c conf.beta r)) ∂(warmLaw L per)) - thermalMean c L (wholeEnergy L) f|
      ≤ C * warmBias conf.beta K L per := by
  have : NeZero L := ⟨by omega⟩
  obtain ⟨w, -, hv⟩ := new_facts v hc
  have hb' : 0 ≤ c.vars.beta := by rw [hv]; exact hb.le
  have K0 := K_nonneg hL hK
  have hE := (whole_tame w hL).meas
  have ha : atBeta c conf.beta = c := by unfold atBeta; rw [← hv]
  have key := C126_new conf L s v hb.ne' num u0 zj zh c hc hL conf.beta hb.le K hK f C (by rw [ha]; exact hf) per
  rw [ha, abs_of_pos hb] at key
  have e : newMean conf num zj zh L (fun x => expectReal (fun c d => c.metropolis_update d) L f per (atBeta x conf.beta))
      = ∫ r, f (withSpins c (warmSpins c conf.beta r)) ∂(warmLaw L per) := by
    have e1 : ∫ r, f (withSpins c (warmSpins c conf.beta r)) ∂(warmLaw L per) = ∫ r, cut c C f (warmSpins c conf.beta r) ∂(warmLaw L per) :=
      integral_congr_ae ((warm_run v hb hc hL per).mono fun r hr => (cut_eq hf hr.1).symm)
    have nc := cut_nice hf
    obtain ⟨M, hM⟩ := nc.bdd
    have mc : Measurable fun r : WarmRaw L per => cut c C f (warmSpins c conf.beta r) := nc.meas.comp (warm_meas w hL conf.beta per)
    rw [e1]
    unfold newMean warmLaw
    rw [integral_prod _ (Ergodic.int_bdd mc fun r => hM _)]
    refine integral_congr_ae ?_
    filter_upwards [new_same v hb.ne' hc, path_len_ae hb.ne' L] with x h1 h2
    rw [h1]
    dsimp only
    have h3 : atBeta (withSpins c (path conf.beta L startDir x)) conf.beta = withSpins c (path conf.beta L startDir x) := by
      unfold atBeta withSpins
      rw [← hv]
    rw [h3, (expectReal_eq w hL hb' hK hf per).2 _ h2]
    refine (block_real hb.le hE (wgt_nice hL K0) (wgt_pos hL K0) (fun q hq => ?_) per nc h2).symm
    have := ring_weight w hL hK hq
    rw [hv] at this
    exact this
  rw [e] at key
  refine key.trans (le_of_eq ?_)
  unfold warmBias
  ring

end

end Verif.Props
