/-
C127: how many samples an estimate needs.
-/
import Verif.Lemmas.GapMean
import Verif.Spec.GapMean
import Verif.Props.Gap
import Verif.Props.Ergodic

set_option linter.unusedSectionVars false

namespace Verif.Props

open Spec MeasureTheory Finset Function
open Verif.Markov (Good Pm)
open Verif.Ergodic (run total move Fair)
open scoped ENNReal

section
variable {c : SpinChain ℝ} {L s : ℕ} {W : (Fin L → V3 ℝ) → ℝ} {E : (Fin L → V3 ℝ) → ℝ} {β : ℝ}

/-- a block of updates acting on real functions -/
theorem block_real [NeZero L] (hb : 0 ≤ β) (hE : Measurable E) (hW : Gap.Nice W) (W0 : ∀ v, 0 < W v)
    (hWE : ∀ v : Fin L → V3 ℝ, (∀ i, len (v i) = 1) → W v = Real.exp (-(β * E v)))
    (per : ℕ) {u : (Fin L → V3 ℝ) → ℝ} (hu : Gap.Nice u) {v : Fin L → V3 ℝ} (hv : ∀ i, len (v i) = 1) :
    Ergodic.Q (Measure.pi fun _ => rawLaw L) (run (move β E) per) u v = (Gap.P sphereMeasure W)^[per] u v := by
  have hr := Ergodic.meas_run (Ergodic.meas_move (β := β) hE) per
  obtain ⟨M, hM⟩ := hu.bdd
  have hm : Measurable fun w => u (run (move β E) per v w) := hu.meas.comp (Ergodic.meas_step hr v)
  unfold Ergodic.Q
  rw [integral_eq_lintegral_pos_part_sub_lintegral_neg_part (Ergodic.int_bdd hm fun w => hM _)]
  have e1 := Ergodic.lintegral_run hb hE per hu.meas.ennreal_ofReal v
  have e2 := Ergodic.lintegral_run hb hE per hu.meas.neg.ennreal_ofReal v
  obtain ⟨_, p2, p3⟩ := pm_real (NeZero.pos L) hW W0 hWE (pos_nice hu) (fun v => le_max_right _ _)
    (F := fun v => ENNReal.ofReal (u v)) (fun v _ => by
      rcases le_total 0 (u v) with h | h
      · rw [max_eq_left h]
      · rw [max_eq_right h, ENNReal.ofReal_of_nonpos h, ENNReal.ofReal_zero]) per
  obtain ⟨_, q2, q3⟩ := pm_real (NeZero.pos L) hW W0 hWE (pos_nice (neg_nice hu)) (fun v => le_max_right _ _)
    (F := fun v => ENNReal.ofReal (-u v)) (fun v _ => by
      rcases le_total 0 (-u v) with h | h
      · rw [max_eq_left h]
      · rw [max_eq_right h, ENNReal.ofReal_of_nonpos h, ENNReal.ofReal_zero]) per
  have e2' : ∫⁻ w, ENNReal.ofReal (-u (run (move β E) per v w)) ∂(Measure.pi fun _ => rawLaw L)
      = (Pm sphereMeasure β E)^[per] (fun v => ENNReal.ofReal (-u v)) v := e2
  rw [e1, e2', p3 v hv, q3 v hv, ENNReal.toReal_ofReal (p2 v), ENNReal.toReal_ofReal (q2 v)]
  have h := (iter_sub hW W0 (pos_nice hu) (pos_nice (neg_nice hu)) per).2.2
  have e : (fun v => max (u v) 0 - max (-u v) 0) = u := by
    funext v
    rcases le_total 0 (u v) with h | h
    · rw [max_eq_left h, max_eq_right (by linarith), sub_zero]
    · rw [max_eq_right h, max_eq_left (by linarith)]
      ring
  rw [e] at h
  exact (congrFun h v).symm

theorem block_good [NeZero L] (per : ℕ) {v : Fin L → V3 ℝ} (hv : ∀ i, len (v i) = 1) :
    ∀ᵐ d ∂(Measure.pi fun _ : Fin per => rawLaw L), ∀ i, len (run (move β E) per v d i) = 1 :=
  (Ergodic.fair_block per).mono fun _ hd => Ergodic.run_good per hv hd

variable {U : ((Fin L → V3 ℝ) → ℝ) → (Fin L → V3 ℝ) → ℝ} {μ : Measure (Fin L → V3 ℝ)} [IsProbabilityMeasure μ] {V : (Fin L → V3 ℝ) → ℝ} {ρ : ℝ}

/-- several blocks -/
theorem blocks_real [NeZero L] (per : ℕ) (H : GapMean.Mixes μ V ρ U)
    (hU : ∀ u, Gap.Nice u → ∀ v : Fin L → V3 ℝ, (∀ i, len (v i) = 1) →
      Ergodic.Q (Measure.pi fun _ => rawLaw L) (run (move β E) per) u v = U u v)
    {u : (Fin L → V3 ℝ) → ℝ} (hu : Gap.Nice u) (k : ℕ) {v : Fin L → V3 ℝ} (hv : ∀ i, len (v i) = 1) :
    (Ergodic.Q (Measure.pi fun _ => rawLaw L) (run (move β E) per))^[k] u v = U^[k] u v := by
  induction k generalizing v with
  | zero => rfl
  | succ k ih =>
    rw [iterate_succ_apply', iterate_succ_apply', ← hU _ (GapMean.iter_nice H hu k) v hv]
    exact integral_congr_ae ((block_good per hv).mono fun d hd => ih hd)

/-- mean square of the sum of the observations -/
theorem square_real [NeZero L] (hE : Measurable E) (per : ℕ) (H : GapMean.Mixes μ V ρ U)
    (hU : ∀ u, Gap.Nice u → ∀ v : Fin L → V3 ℝ, (∀ i, len (v i) = 1) →
      Ergodic.Q (Measure.pi fun _ => rawLaw L) (run (move β E) per) u v = U u v)
    {g : (Fin L → V3 ℝ) → ℝ} (hg : Gap.Nice g) (n : ℕ) {v : Fin L → V3 ℝ} (hv : ∀ i, len (v i) = 1) :
    ∫ w, total (run (move β E) per) g n v w ^ 2 ∂(blockLaw L per n) = GapMean.Nm U g n v := by
  have hstep := Ergodic.meas_run (Ergodic.meas_move (β := β) hE) per
  obtain ⟨M, hM⟩ := hg.bdd
  unfold blockLaw
  induction n generalizing v with
  | zero => simp [total, GapMean.Nm]
  | succ n ih =>
    have hb : ∀ (m : ℕ) (y : Fin L → V3 ℝ) (w : Fin m → Fin per → Raw L), |total (run (move β E) per) g m y w ^ 2| ≤ (m * M) ^ 2 := by
      intro m y w
      rw [abs_pow]
      exact pow_le_pow_left₀ (abs_nonneg _) (Ergodic.total_le hM m y w) 2
    have hm : ∀ (m : ℕ) (y : Fin L → V3 ℝ), Measurable fun w : Fin m → Fin per → Raw L => total (run (move β E) per) g m y w := fun m y =>
      (Ergodic.meas_total hstep hg.meas m).comp (measurable_const.prodMk measurable_id)
    rw [integral_cons _ n ((hm (n + 1) v).pow_const 2) (Ergodic.int_bdd ((hm (n + 1) v).pow_const 2) (hb (n + 1) v))]
    have nn : Gap.Nice fun x => GapMean.Gm U g n x + GapMean.Nm U g n x := (GapMean.Gm_nice H hg n).add (GapMean.Nm_nice H hg n)
    have hi : ∀ᵐ d ∂(Measure.pi fun _ : Fin per => rawLaw L),
        ∫ w, total (run (move β E) per) g (n + 1) v (Fin.cons d w) ^ 2 ∂(Measure.pi fun _ : Fin n => Measure.pi fun _ : Fin per => rawLaw L)
        = GapMean.Gm U g n (run (move β E) per v d) + GapMean.Nm U g n (run (move β E) per v d) := by
      refine (block_good (β := β) (E := E) per hv).mono fun d hd => ?_
      set y1 := run (move β E) per v d with hy1
      have e : ∀ w : Fin n → Fin per → Raw L, total (run (move β E) per) g (n + 1) v (Fin.cons d w) ^ 2
          = g y1 ^ 2 + (2 * g y1 * total (run (move β E) per) g n y1 w + total (run (move β E) per) g n y1 w ^ 2) := by
        intro w
        simp only [total, Fin.cons_zero, Fin.cons_succ]
        ring
      simp only [e]
      have i1 : Integrable (fun w => total (run (move β E) per) g n y1 w) (Measure.pi fun _ : Fin n => Measure.pi fun _ : Fin per => rawLaw L) :=
        Ergodic.int_bdd (hm n y1) fun w => Ergodic.total_le hM n y1 w
      have i2 : Integrable (fun w => total (run (move β E) per) g n y1 w ^ 2) (Measure.pi fun _ : Fin n => Measure.pi fun _ : Fin per => rawLaw L) :=
        Ergodic.int_bdd ((hm n y1).pow_const 2) (hb n y1)
      have i3 : Integrable (fun w => 2 * g y1 * total (run (move β E) per) g n y1 w) (Measure.pi fun _ : Fin n => Measure.pi fun _ : Fin per => rawLaw L) :=
        i1.const_mul _
      have i4 : Integrable (fun w => 2 * g y1 * total (run (move β E) per) g n y1 w + total (run (move β E) per) g n y1 w ^ 2)
          (Measure.pi fun _ : Fin n => Measure.pi fun _ : Fin per => rawLaw L) := i3.add i2
      rw [integral_add (integrable_const _) i4, integral_add i3 i2, integral_const_mul, Ergodic.mean_total hstep hg.meas hM, ih hd]
      have ea : ∑ k ∈ range n, (Ergodic.Q (Measure.pi fun _ => rawLaw L) (run (move β E) per))^[k + 1] g y1 = GapMean.Am U g n y1 :=
        sum_congr rfl fun k _ => blocks_real per H hU hg (k + 1) hd
      rw [ea]
      simp only [integral_const, probReal_univ, one_smul]
      unfold GapMean.Gm
      ring
    rw [integral_congr_ae hi]
    exact hU _ nn v hv

/-- the sampler does not enlarge bounds -/
theorem P_bound (hL : 0 < L) (W0 : ∀ v, 0 < W v) {f : (Fin L → V3 ℝ) → ℝ} {M : ℝ} (h : ∀ v, |f v| ≤ M)
    (v : Fin L → V3 ℝ) : |Gap.P sphereMeasure W f v| ≤ M := by
  have L0 : (0 : ℝ) < L := by exact_mod_cast hL
  have q : ∀ i, |Gap.Q sphereMeasure W i f v| ≤ M := fun i => by
    unfold Gap.Q
    rw [← Real.norm_eq_abs]
    refine (norm_integral_le_of_norm_le_const (C := M) (Filter.Eventually.of_forall fun x => ?_)).trans (by simp)
    have a0 := Gap.ac_nonneg W0 v (update v i x)
    have a1 := Gap.ac_le W0 v (update v i x)
    rw [Real.norm_eq_abs]
    refine (abs_add_le _ _).trans ?_
    rw [abs_mul, abs_mul, abs_of_nonneg a0, abs_of_nonneg (sub_nonneg.2 a1)]
    nlinarith [h v, h (update v i x)]
  unfold Gap.P
  rw [abs_div, abs_of_pos L0, div_le_iff₀ L0]
  refine (abs_sum_le_sum_abs _ _).trans ((sum_le_sum fun i _ => q i).trans (le_of_eq ?_))
  simp [mul_comm]

/-- blocks of updates mix -/
theorem block_mixes (hL : 2 ≤ L) {K : ℝ} (K0 : 0 ≤ K) (per : ℕ) :
    GapMean.Mixes (Measure.pi fun _ : Fin L => sphereMeasure)
      (fun v => wgt c hL K v / ∫ u, wgt c hL K u ∂(Measure.pi fun _ : Fin L => sphereMeasure))
      ((1 - mixRate c.vars.beta K L) ^ per) ((Gap.P sphereMeasure (wgt c hL K))^[per]) := by
  have nW := wgt_nice (c := c) hL K0
  have W0 := wgt_pos (c := c) hL K0
  have Zp := wgt_int_pos (c := c) hL K0
  set W := wgt c hL K with hW
  set π : Measure (Fin L → V3 ℝ) := Measure.pi fun _ => sphereMeasure with hπ
  set Z := ∫ u, W u ∂π with hZ
  have it : ∀ {f}, Gap.Nice f → ∀ n, Gap.Nice ((Gap.P sphereMeasure W)^[n] f) := fun hf n => (iter_sub nW W0 hf hf n).1
  have ew : ∀ F : (Fin L → V3 ℝ) → ℝ, ∫ x, W x / Z * F x ∂π = (∫ x, W x * F x ∂π) / Z := fun F => by
    rw [← integral_div]
    refine integral_congr_ae (Filter.Eventually.of_forall fun x => ?_)
    dsimp only
    ring
  refine ⟨fun hf => it hf per, ?_, fun m => iter_const' (by omega) m per, ?_, ?_, ?_⟩
  · intro f g hf hg
    have h : ∀ n, (Gap.P sphereMeasure W)^[n] (fun x => f x + g x)
        = fun x => (Gap.P sphereMeasure W)^[n] f x + (Gap.P sphereMeasure W)^[n] g x := fun n => by
      induction n with
      | zero => rfl
      | succ n ih =>
        rw [iterate_succ_apply', iterate_succ_apply', iterate_succ_apply', ih]
        have h := Gap.P_lin (σ := sphereMeasure) nW W0 (it hf n) (it hg n) 1
        simpa only [one_mul] using h
    exact h per
  · intro f M hf h x
    have : ∀ n x, |(Gap.P sphereMeasure W)^[n] f x| ≤ M := fun n => by
      induction n with
      | zero => exact h
      | succ n ih =>
        intro x
        rw [iterate_succ_apply']
        exact P_bound (by omega) W0 ih x
    exact this per x
  · intro f hf
    rw [ew, ew]
    congr 1
    have : ∀ n, ∫ x, W x * (Gap.P sphereMeasure W)^[n] f x ∂π = ∫ x, W x * f x ∂π := fun n => by
      induction n with
      | zero => rfl
      | succ n ih =>
        rw [iterate_succ_apply', ← ih]
        exact Gap.P_mean nW W0 (by omega) (it hf n)
    exact this per
  · intro f hf f0
    rw [ew] at f0 ⊢
    rw [ew (fun x => f x * f x)]
    have f0' : ∫ x, W x * f x ∂π = 0 := by
      rcases div_eq_zero_iff.1 f0 with h | h
      · exact h
      · exact absurd h Zp.ne'
    have h := (Gap.P_iter (σ := sphereMeasure) nW W0 (by omega) (mixRate_le c.vars.beta K0 hL)
      (fun g hg g0 => wgt_gap hL K0 g hg g0) hf f0' per).2.2
    rw [← mul_div_assoc]
    exact div_le_div_of_nonneg_right h Zp.le

/-- mean square error of an estimate, for any number of blocks after which the start is forgotten -/
theorem estimate_square {conf : Config ℝ} (v : ValidConf conf L s) (hb0 : conf.beta ≠ 0) {u0 zj zh : ℕ → ℝ}
    (hc : SpinChain.new conf 0 u0 zj zh = .ok c) (hL : 2 ≤ L) {b : ℝ} (hb : 0 ≤ b) {K : ℝ}
    (hK : ∀ i < L, len (J c i) + len (H0 c i) ≤ K) {obs : SpinChain ℝ → R ℝ} {f : SpinChain ℝ → ℝ} {C : ℝ}
    (hobs : ∀ q : Fin L → V3 ℝ, obs (withSpins (atBeta c b) q) = .ok (f (withSpins (atBeta c b) q)))
    (hf : BoundedBy (atBeta c b) L C f) {per n : ℕ} (hper : 1 ≤ per) (hn : 1 ≤ n) {T : ℕ}
    (hT : Real.exp ((|conf.beta| / 2 + b * K) * L) * ((1 - mixRate b K L) ^ per) ^ T ≤ 1) :
    AEMeasurable (fun r => errSq (thermalMean (atBeta c b) L (wholeEnergy L) f)
        (estimate SpinChain.metropolis_update per n obs conf b (estRand zj zh r))) (estLaw L per n) ∧
    squareError SpinChain.metropolis_update L per n obs conf b zj zh (thermalMean (atBeta c b) L (wholeEnergy L) f)
      ≤ ENNReal.ofReal (C ^ 2 / n * (3 / (1 - (1 - mixRate b K L) ^ per) + 8 * T + 6 / (1 - (1 - mixRate b K L) ^ per) ^ 2 / n)) := by
  have w : WF c L s := by
    obtain ⟨c', h1, h2⟩ := C11_new_wf' conf 0 u0 zj zh L s v.hsize v.L_lt v.ssize v.s_lt v.hfield v.hs v.jvar v.hvar
    rw [hc] at h1
    cases h1
    exact h2
  have : NeZero L := ⟨by omega⟩
  have wb : WF (atBeta c b) L s := ⟨w.hsize, w.ssize, w.L_lt, w.s_lt, w.spins, w.j, w.h, w.hs⟩
  have K0 := K_nonneg hL hK
  have hn0 : (0 : ℝ) < n := by exact_mod_cast hn
  have C0 := hf.nonneg
  set a := thermalMean (atBeta c b) L (wholeEnergy L) f with ha
  have ha' : |a| ≤ C := thermal_mean_abs wb hL hf
  set Ev : (Fin L → V3 ℝ) → ℝ := fun q => wholeEnergy L (withSpins (atBeta c b) q) with hEv
  have tE : Measurable Ev := (whole_tame wb hL).meas
  set F : (Fin L → V3 ℝ) → ℝ := fun q => f (withSpins (atBeta c b) q) with hF
  set g : (Fin L → V3 ℝ) → ℝ := fun q => cut (atBeta c b) C f q - a with hg
  obtain ⟨ng, g0, gn⟩ := dev_facts wb hL hK hf
  have nW := wgt_nice (c := atBeta c b) hL K0
  have W0 := wgt_pos (c := atBeta c b) hL K0
  have Zp := wgt_int_pos (c := atBeta c b) hL K0
  have Wb := wgt_bounds (c := atBeta c b) hL K0
  have eb : (atBeta c b).vars.beta = b := rfl
  rw [eb, abs_of_nonneg hb] at Wb
  have hWE : ∀ q : Fin L → V3 ℝ, (∀ i, len (q i) = 1) → wgt (atBeta c b) hL K q = Real.exp (-(b * Ev q)) :=
    fun q hq => ring_weight wb hL hK hq
  have H := block_mixes (c := atBeta c b) hL K0 per
  rw [eb] at H
  have hU := fun u hu q hq => block_real (L := L) hb tE nW W0 hWE per (u := u) hu (v := q) hq
  have cv : thermalCov (atBeta c b) L (wholeEnergy L) f f ≤ C ^ 2 := by
    have q := thermal_mean_abs wb hL (bounded_mul hf hf)
    unfold thermalCov
    nlinarith [(abs_le.1 q).2, mul_self_nonneg a]
  set W := wgt (atBeta c b) hL K with hW
  set π : Measure (Fin L → V3 ℝ) := Measure.pi fun _ => sphereMeasure with hπ
  set Z := ∫ u, W u ∂π with hZ
  set U := (Gap.P sphereMeasure W)^[per] with hUdef
  set ρ := (1 - mixRate b K L) ^ per with hρ
  have m0 := mixRate_pos b K hL
  have m1 := mixRate_le b K0 hL
  have r0 : 0 ≤ ρ := pow_nonneg (by linarith) _
  have r1 : ρ < 1 := pow_lt_one₀ (by linarith) (by linarith) (by omega)
  set V : (Fin L → V3 ℝ) → ℝ := fun q => W q / Z with hV
  have nV : Gap.Nice V := by
    have := (Gap.Nice.const (1 / Z)).mul nW
    refine ⟨nW.meas.div_const Z, ?_⟩
    obtain ⟨B, hB⟩ := this.bdd
    exact ⟨B, fun q => by
      have e : V q = 1 / Z * W q := by rw [hV]; ring
      rw [e]
      exact hB q⟩
  have V0 : ∀ q, 0 < V q := fun q => div_pos (W0 q) Zp
  have V1 : ∫ q, V q ∂π = 1 := by
    rw [hV, integral_div, ← hZ, div_self Zp.ne']
  have gV : ∫ q, V q * g q ∂π = 0 := by
    have e : ∀ q, V q * g q = W q * g q / Z := fun q => by rw [hV]; ring
    simp only [e]
    rw [integral_div, g0, zero_div]
  have σ1 : GapMean.nrm π V g ≤ C := by
    refine GapMean.nrm_le V0 C0 ?_
    have e : ∀ q, V q * (g q * g q) = W q * (g q * g q) / Z := fun q => by rw [hV]; ring
    simp only [e]
    rw [integral_div, div_le_iff₀ Zp]
    refine (le_of_eq gn).trans ?_
    rw [mul_comm]
    exact mul_le_mul_of_nonneg_right cv Zp.le
  have gM : ∀ q, |g q| ≤ 2 * C := fun q => by
    have h1 : |cut (atBeta c b) C f q| ≤ C := by
      rw [abs_le]
      exact ⟨le_max_left _ _, max_le (by linarith) (min_le_left _ _)⟩
    calc |g q| ≤ |cut (atBeta c b) C f q| + |a| := abs_sub _ _
      _ ≤ _ := by linarith
  set A := |conf.beta| * L with hA
  set x := b * K * L with hx
  set k : (Fin L → V3 ℝ) → ℝ := fun q => clip 0 (Real.exp A) (newDensity conf.beta L q) with hk
  have ek : ∀ q : Fin L → V3 ℝ, (∀ i, len (q i) = 1) → newDensity conf.beta L q = k q := fun q hq =>
    (clip_eq (newDensity_nonneg hb0 q) (newDensity_le hb0 hq)).symm
  have kb : ∀ q, 0 ≤ k q ∧ k q ≤ Real.exp A := fun q => ⟨le_max_left _ _, max_le (Real.exp_pos _).le (min_le_left _ _)⟩
  have nk : Gap.Nice k := ⟨measurable_const.max (measurable_const.min (newDensity_meas hb0)), Real.exp A, fun q => by
    rw [abs_of_nonneg (kb q).1]
    exact (kb q).2⟩
  have k1 : ∫ q, k q ∂π = 1 := by
    rw [← newDensity_one (L := L) hb0]
    exact integral_congr_ae (units_ae.mono fun q hq => (ek q hq).symm)
  have Zle : Z ≤ Real.exp x := by
    have : Z ≤ ∫ _v, Real.exp x ∂π := integral_mono (nW.int π) ((Gap.Nice.const _).int π) fun v => (Wb v).2
    simpa using this
  have rb : ∀ q, k q / V q ≤ Real.exp (A + 2 * x) := fun q => by
    rw [div_le_iff₀ (V0 q)]
    have q1 : 1 ≤ Real.exp (2 * x) * V q := by
      rw [hV]
      dsimp only
      rw [← mul_div_assoc, le_div_iff₀ Zp, one_mul]
      refine Zle.trans ?_
      have := mul_le_mul_of_nonneg_left (Wb q).1 (Real.exp_pos (2 * x)).le
      rw [← Real.exp_add] at this
      refine le_trans (le_of_eq ?_) this
      congr 1
      ring
    calc k q ≤ Real.exp A := (kb q).2
      _ ≤ Real.exp A * (Real.exp (2 * x) * V q) := le_mul_of_one_le_right (Real.exp_pos A).le q1
      _ = _ := by rw [Real.exp_add]; ring
  have nr : Gap.Nice fun q => k q / V q := ⟨nk.meas.div nV.meas, Real.exp (A + 2 * x), fun q => by
    rw [abs_of_nonneg (div_nonneg (kb q).1 (V0 q).le)]
    exact rb q⟩
  have hX : GapMean.nrm π V (fun q => k q / V q) ≤ Real.exp ((|conf.beta| / 2 + b * K) * L) := by
    refine GapMean.nrm_le V0 (Real.exp_pos _).le ?_
    have q : ∀ q, V q * (k q / V q * (k q / V q)) = k q / V q * k q := fun q => by
      have := (V0 q).ne'
      field_simp
    simp only [q]
    calc ∫ q, k q / V q * k q ∂π ≤ ∫ q, Real.exp (A + 2 * x) * k q ∂π :=
        integral_mono ((nr.mul nk).int π) (((Gap.Nice.const _).mul nk).int π) fun q => mul_le_mul_of_nonneg_right (rb q) (kb q).1
      _ = Real.exp (A + 2 * x) := by rw [integral_const_mul, k1, mul_one]
      _ = _ := by
        rw [← Real.exp_nat_mul]
        congr 1
        rw [hA, hx]
        push_cast
        ring
  have main := GapMean.start_square nV V0 H r0 r1 ng gM V1 gV (by positivity) nk (fun q => (kb q).1) k1 nr
    ((mul_le_mul_of_nonneg_right hX (pow_nonneg r0 T)).trans hT) n
  have nN : Gap.Nice (GapMean.Nm U g n) := GapMean.Nm_nice H ng n
  -- the code
  set G : EstRaw L per n → ℝ := fun r => (total (run (move b Ev) per) g n (path conf.beta L startDir r.1) r.2 / n) ^ 2 with hG
  have mG : Measurable G := by
    have m1 := Ergodic.meas_total (Ergodic.meas_run (Ergodic.meas_move (β := b) tE) per) ng.meas n
    have m2 : Measurable fun r : EstRaw L per n => (path conf.beta L startDir r.1, r.2) :=
      ((meas_path' conf.beta L startDir).comp measurable_fst).prodMk measurable_snd
    have := Measurable.comp (g := fun p : (Fin L → V3 ℝ) × (Fin n → Fin per → Raw L) =>
      total (run (move b Ev) per) g n p.1 p.2) m1 m2
    exact (this.div_const _).pow_const 2
  have pu : ∀ᵐ y ∂(Measure.pi fun _ : Fin L => tripleMeasure), ∀ i, len (path conf.beta L startDir y i) = 1 :=
    (path_unit hb0 L startDir_unit).mono fun y hy i => by rw [len, hy i, Real.sqrt_one]
  have code : ∀ᵐ r ∂(estLaw L per n), errSq a (estimate SpinChain.metropolis_update per n obs conf b (estRand zj zh r)) = ENNReal.ofReal (G r) := by
    have g1 := (Measure.quasiMeasurePreserving_fst (μ := Measure.pi fun _ : Fin L => tripleMeasure)
      (ν := blockLaw L per n)).ae (new_same v hb0 hc)
    have g2 := (Measure.quasiMeasurePreserving_snd (μ := Measure.pi fun _ : Fin L => tripleMeasure)
      (ν := blockLaw L per n)).ae (Ergodic.fair_blocks (L := L) per n)
    have g3 := (Measure.quasiMeasurePreserving_fst (μ := Measure.pi fun _ : Fin L => tripleMeasure)
      (ν := blockLaw L per n)).ae pu
    filter_upwards [g1, g2, g3] with r e1 e2 e3
    have e4 : estimate SpinChain.metropolis_update per n obs conf b (estRand zj zh r)
        = .ok (total (run (move b Ev) per) F n (path conf.beta L startDir r.1) r.2 / n) := by
      unfold estimate estRand
      dsimp only
      rw [e1]
      have := Ergodic.loop_eq hobs (plain_upd hL) wb per n r.2 e2 (path conf.beta L startDir r.1)
      show (do
        let st ← sampleLoop SpinChain.metropolis_update per n obs (blockDraws r.2) (withSpins (atBeta c b) (path conf.beta L startDir r.1))
        return meanOf st.2 n : R ℝ) = _
      rw [this]
      show Except.ok (meanOf _ n) = _
      rw [Ergodic.vals_mean]
      rfl
    rw [e4, hG]
    unfold errSq
    dsimp only
    congr 2
    have e5 : total (run (move b Ev) per) F n (path conf.beta L startDir r.1) r.2
        = total (run (move b Ev) per) (fun q => g q + a) n (path conf.beta L startDir r.1) r.2 :=
      Ergodic.total_congr (fun q hq => by
        rw [hg, hF]
        dsimp only
        rw [cut_eq hf hq]
        ring) n e3 e2
    have e6 : ∀ (m : ℕ) (y : Fin L → V3 ℝ) (w : Fin m → Fin per → Raw L),
        total (run (move b Ev) per) (fun q => g q + a) m y w = total (run (move b Ev) per) g m y w + m * a := by
      intro m
      induction m with
      | zero =>
        intro y w
        simp [total]
      | succ m ih =>
        intro y w
        simp only [total, ih]
        push_cast
        ring
    rw [e5, e6]
    field_simp
    ring
  refine ⟨⟨_, mG.ennreal_ofReal, code⟩, ?_⟩
  unfold squareError
  rw [lintegral_congr_ae code]
  unfold estLaw
  rw [lintegral_prod _ mG.ennreal_ofReal.aemeasurable]
  have inner : ∀ᵐ y ∂(Measure.pi fun _ : Fin L => tripleMeasure), ∫⁻ w, ENNReal.ofReal (G (y, w)) ∂(blockLaw L per n)
      = ENNReal.ofReal (GapMean.Nm U g n (path conf.beta L startDir y) / (n : ℝ) ^ 2) := by
    refine pu.mono fun y hy => ?_
    have mw : Measurable fun w => G (y, w) := mG.comp (measurable_const.prodMk measurable_id)
    have bw : ∀ w, |G (y, w)| ≤ (n * (2 * C) / n) ^ 2 := fun w => by
      rw [hG]
      dsimp only
      rw [abs_pow, abs_div, abs_of_pos hn0]
      exact pow_le_pow_left₀ (by positivity) (div_le_div_of_nonneg_right (Ergodic.total_le gM n _ w) hn0.le) 2
    rw [← ofReal_integral_eq_lintegral_ofReal (Ergodic.int_bdd mw bw) (Filter.Eventually.of_forall fun w => sq_nonneg _)]
    congr 1
    rw [← square_real tE per H hU ng n hy, ← integral_div]
    refine integral_congr_ae (Filter.Eventually.of_forall fun w => ?_)
    rw [hG]
    dsimp only
    rw [div_pow]
  rw [lintegral_congr_ae inner]
  have mN : Measurable fun q => ENNReal.ofReal (GapMean.Nm U g n q / (n : ℝ) ^ 2) := (nN.meas.div_const _).ennreal_ofReal
  refine (le_of_eq (path_law hb0 L startDir_unit mN)).trans ?_
  have N0 : ∀ q : Fin L → V3 ℝ, (∀ i, len (q i) = 1) → 0 ≤ GapMean.Nm U g n q := fun q hq => by
    rw [← square_real tE per H hU ng n hq]
    exact integral_nonneg fun w => sq_nonneg _
  have e7 : ∫⁻ q, pathWeight conf.beta L startDir q * ENNReal.ofReal (GapMean.Nm U g n q / (n : ℝ) ^ 2) ∂π
      = ∫⁻ q, ENNReal.ofReal (k q * (GapMean.Nm U g n q) / (n : ℝ) ^ 2) ∂π :=
    lintegral_congr_ae (units_ae.mono fun q hq => by
      dsimp only
      rw [← newDensity_pw hb0, ek q hq, ← ENNReal.ofReal_mul (kb q).1, mul_div_assoc])
  refine (le_of_eq e7).trans ?_
  rw [← ofReal_integral_eq_lintegral_ofReal]
  · refine ENNReal.ofReal_le_ofReal ?_
    rw [integral_div, div_le_iff₀ (by positivity)]
    refine main.trans ?_
    have σ0 : 0 ≤ GapMean.nrm π V g := Real.sqrt_nonneg _
    have q0 : 0 < 1 - ρ := by linarith
    set t := 1 / (1 - ρ) with ht
    have t0 : 0 < t := by positivity
    have e3 : 3 / (1 - ρ) = 3 * t := by rw [ht]; ring
    have e6 : 6 / (1 - ρ) ^ 2 = 6 * t ^ 2 := by rw [ht]; field_simp
    rw [e3, e6]
    have eR : C ^ 2 / n * (3 * t + 8 * T + 6 * t ^ 2 / n) * (n : ℝ) ^ 2 = C ^ 2 * (3 * t * n + 8 * T * n + 6 * t ^ 2) := by
      field_simp
    rw [eR]
    have s2 : GapMean.nrm π V g ^ 2 ≤ C ^ 2 := pow_le_pow_left₀ σ0 σ1 2
    have p1 : n * (GapMean.nrm π V g ^ 2 * (3 * t)) ≤ n * (C ^ 2 * (3 * t)) := by gcongr
    have p2 : 2 * C * (GapMean.nrm π V g * (3 * t)) * t ≤ 2 * C * (C * (3 * t)) * t := by gcongr
    nlinarith
  · have := (nk.mul nN).int π
    exact this.div_const _
  · exact units_ae.mono fun q hq => div_nonneg (mul_nonneg (kb q).1 (N0 q hq)) (by positivity)

theorem samplesWorth_ge {b K : ℝ} (K0 : 0 ≤ K) (hL : 2 ≤ L) {per : ℕ} (hper : 1 ≤ per) :
    1 ≤ samplesWorth b K L per ∧ 1 / (1 - (1 - mixRate b K L) ^ per) ≤ samplesWorth b K L per ∧
    1 / (mixRate b K L * per) = samplesWorth b K L per - 1 ∧ (1 - mixRate b K L) ^ per ≤ Real.exp (-(mixRate b K L * per)) := by
  have L0 : (0 : ℝ) < L := by exact_mod_cast (by omega : 0 < L)
  have p0 : (0 : ℝ) < per := by exact_mod_cast hper
  have m0 := mixRate_pos b K hL
  have m1 := mixRate_le b K0 hL
  have hp : (1 - mixRate b K L) ^ per ≤ Real.exp (-(mixRate b K L * per)) := by
    have q : 1 - mixRate b K L ≤ Real.exp (-mixRate b K L) := by
      have := Real.add_one_le_exp (-mixRate b K L)
      linarith
    refine (pow_le_pow_left₀ (by linarith) q per).trans (le_of_eq ?_)
    rw [← Real.exp_nat_mul]
    congr 1
    ring
  have e : 1 / (mixRate b K L * per) = samplesWorth b K L per - 1 := by
    unfold mixRate samplesWorth
    rw [Real.exp_neg]
    have := (Real.exp_pos (26 * (|b| * K))).ne'
    field_simp
    ring
  set y := mixRate b K L * per with hy
  have y0 : 0 < y := mul_pos m0 p0
  have w1 : 0 < 1 / y := by positivity
  refine ⟨by linarith, ?_, e, hp⟩
  have e' : samplesWorth b K L per = 1 + 1 / y := by linarith
  have hq : Real.exp (-y) ≤ 1 / (1 + y) := by
    rw [Real.exp_neg, ← one_div]
    refine one_div_le_one_div_of_le (by linarith) ?_
    have := Real.add_one_le_exp y
    linarith
  have h1 : y / (1 + y) ≤ 1 - (1 - mixRate b K L) ^ per := by
    have : y / (1 + y) = 1 - 1 / (1 + y) := by
      field_simp
      ring
    rw [this]
    linarith
  rw [e']
  refine (one_div_le_one_div_of_le (by positivity) h1).trans (le_of_eq ?_)
  field_simp
  ring

/-- C127: mean square error of `n` samples `per` updates apart, started from a chain as `SpinChain::new` makes it. -/
theorem C127_mean_square (conf : Config ℝ) (L s : ℕ) (v : ValidConf conf L s) (hb0 : conf.beta ≠ 0) (u0 zj zh : ℕ → ℝ) (c : SpinChain ℝ)
    (hc : SpinChain.new conf 0 u0 zj zh = .ok c) (hL : 2 ≤ L) (b : ℝ) (hb : 0 ≤ b) (K : ℝ)
    (hK : ∀ i < L, len (J c i) + len (H0 c i) ≤ K) (obs : SpinChain ℝ → R ℝ) (f : SpinChain ℝ → ℝ) (C : ℝ)
    (hobs : ∀ q : Fin L → V3 ℝ, obs (withSpins (atBeta c b) q) = .ok (f (withSpins (atBeta c b) q)))
    (hf : BoundedBy (atBeta c b) L C f) (per n : ℕ) (hper : 1 ≤ per) (hn : 1 ≤ n) :
    AEMeasurable (fun r => errSq (thermalMean (atBeta c b) L (wholeEnergy L) f)
        (estimate SpinChain.metropolis_update per n obs conf b (estRand zj zh r))) (estLaw L per n) ∧
    squareError SpinChain.metropolis_update L per n obs conf b zj zh (thermalMean (atBeta c b) L (wholeEnergy L) f)
      ≤ ENNReal.ofReal (C ^ 2 * samplesWorth b K L per / n *
        (11 + 8 * ((|conf.beta| / 2 + b * K) * L) + 6 * samplesWorth b K L per / n)) := by
  have K0 := K_nonneg hL hK
  obtain ⟨w0, w1, w2, w3⟩ := samplesWorth_ge (b := b) K0 hL hper
  have p0 : (0 : ℝ) < per := by exact_mod_cast hper
  have n0 : (0 : ℝ) < n := by exact_mod_cast hn
  have m0 := mixRate_pos b K hL
  have m1 := mixRate_le b K0 hL
  set Λ := (|conf.beta| / 2 + b * K) * L with hΛ
  have Λ0 : 0 ≤ Λ := mul_nonneg (add_nonneg (by positivity) (mul_nonneg hb K0)) (Nat.cast_nonneg _)
  set N := samplesWorth b K L per with hN
  set y := mixRate b K L * per with hy
  have y0 : 0 < y := mul_pos m0 p0
  set ρ := (1 - mixRate b K L) ^ per with hρ
  have r1 : ρ < 1 := pow_lt_one₀ (by linarith) (by linarith) (by omega)
  have r0 : 0 ≤ ρ := pow_nonneg (by linarith) _
  have hT : Real.exp Λ * ρ ^ ⌈Λ / y⌉₊ ≤ 1 := by
    have h1 := pow_le_pow_left₀ r0 w3 ⌈Λ / y⌉₊
    rw [← Real.exp_nat_mul] at h1
    have h2 := mul_le_mul_of_nonneg_left h1 (Real.exp_pos Λ).le
    rw [← Real.exp_add] at h2
    refine h2.trans ?_
    rw [Real.exp_le_one_iff]
    have h3 := Nat.le_ceil (Λ / y)
    rw [div_le_iff₀ y0] at h3
    linarith
  obtain ⟨meas, main⟩ := estimate_square v hb0 hc hL hb hK hobs hf hper hn hT
  refine ⟨meas, main.trans (ENNReal.ofReal_le_ofReal ?_)⟩
  have t1 : (⌈Λ / y⌉₊ : ℝ) ≤ 1 + Λ * N := by
    have h3 := (Nat.ceil_lt_add_one (div_nonneg Λ0 y0.le)).le
    have e : Λ / y = Λ * (N - 1) := by rw [← w2]; ring
    linarith
  set t := 1 / (1 - ρ) with ht
  have t0 : 0 < t := one_div_pos.2 (by linarith)
  have q0 : 1 - ρ ≠ 0 := by linarith
  have e3 : 3 / (1 - ρ) = 3 * t := by rw [ht]; ring
  have e6 : 6 / (1 - ρ) ^ 2 = 6 * t ^ 2 := by rw [ht]; field_simp
  rw [e3, e6]
  have p2 : 6 * t ^ 2 / n ≤ 6 * N ^ 2 / n := by gcongr
  calc C ^ 2 / n * (3 * t + 8 * (⌈Λ / y⌉₊ : ℝ) + 6 * t ^ 2 / n) ≤ C ^ 2 / n * (3 * N + 8 * (N + Λ * N) + 6 * N ^ 2 / n) := by
        gcongr
        linarith
    _ = _ := by
        field_simp
        ring

/-- C127: a number of samples that suffices. -/
theorem C127_samples (conf : Config ℝ) (L s : ℕ) (v : ValidConf conf L s) (hb0 : conf.beta ≠ 0) (u0 zj zh : ℕ → ℝ) (c : SpinChain ℝ)
    (hc : SpinChain.new conf 0 u0 zj zh = .ok c) (hL : 2 ≤ L) (b : ℝ) (hb : 0 ≤ b) (K : ℝ)
    (hK : ∀ i < L, len (J c i) + len (H0 c i) ≤ K) (obs : SpinChain ℝ → R ℝ) (f : SpinChain ℝ → ℝ) (C : ℝ)
    (hobs : ∀ q : Fin L → V3 ℝ, obs (withSpins (atBeta c b) q) = .ok (f (withSpins (atBeta c b) q)))
    (hf : BoundedBy (atBeta c b) L C f) (per n : ℕ) (hper : 1 ≤ per) (hn : 1 ≤ n) (δ p : ℝ) (hδ : 0 < δ) (hp : 0 < p) (hp1 : p ≤ 1)
    (hδC : δ ≤ C)
    (hs : C ^ 2 * samplesWorth b K L per * (17 + 8 * ((|conf.beta| / 2 + b * K) * L)) / (p * δ ^ 2) ≤ n) :
    estLaw L per n {r | ¬ ∃ e, estimate SpinChain.metropolis_update per n obs conf b (estRand zj zh r) = .ok e ∧
        |e - thermalMean (atBeta c b) L (wholeEnergy L) f| < δ} ≤ ENNReal.ofReal p := by
  obtain ⟨meas, h⟩ := C127_mean_square conf L s v hb0 u0 zj zh c hc hL b hb K hK obs f C hobs hf per n hper hn
  have K0 := K_nonneg hL hK
  have n0 : (0 : ℝ) < n := by exact_mod_cast hn
  obtain ⟨w0, -⟩ := samplesWorth_ge (b := b) K0 hL hper
  set Λ := (|conf.beta| / 2 + b * K) * L with hΛ
  have Λ0 : 0 ≤ Λ := mul_nonneg (add_nonneg (by positivity) (mul_nonneg hb K0)) (Nat.cast_nonneg _)
  set N := samplesWorth b K L per with hN
  set m := thermalMean (atBeta c b) L (wholeEnergy L) f with hm
  have d2 : 0 < δ ^ 2 := by positivity
  have pd : p * δ ^ 2 ≤ C ^ 2 := by
    have : δ ^ 2 ≤ C ^ 2 := pow_le_pow_left₀ hδ.le hδC 2
    nlinarith
  have hs' : C ^ 2 * N * (17 + 8 * Λ) ≤ n * (p * δ ^ 2) := (div_le_iff₀ (by positivity)).1 hs
  have C2 : 0 < C ^ 2 := by
    have : 0 < C := hδ.trans_le hδC
    positivity
  have Nn : N ≤ n := by
    have h1 : C ^ 2 * N * 1 ≤ C ^ 2 * N * (17 + 8 * Λ) := mul_le_mul_of_nonneg_left (by linarith) (by positivity)
    have h2 : n * (p * δ ^ 2) ≤ n * C ^ 2 := mul_le_mul_of_nonneg_left pd n0.le
    have h3 : C ^ 2 * N ≤ C ^ 2 * n := by linarith
    exact le_of_mul_le_mul_left h3 C2
  have bound : C ^ 2 * N / n * (11 + 8 * Λ + 6 * N / n) ≤ p * δ ^ 2 := by
    have h1 : 6 * N / n ≤ 6 := by
      rw [div_le_iff₀ n0]
      linarith
    calc _ ≤ C ^ 2 * N / n * (17 + 8 * Λ) := mul_le_mul_of_nonneg_left (by linarith) (by positivity)
      _ = C ^ 2 * N * (17 + 8 * Λ) / n := by ring
      _ ≤ _ := by
        rw [div_le_iff₀ n0]
        linarith
  have h' := h.trans (ENNReal.ofReal_le_ofReal bound)
  set X : EstRaw L per n → ℝ≥0∞ := fun r => errSq m (estimate SpinChain.metropolis_update per n obs conf b (estRand zj zh r)) with hX
  have hsub : {r | ¬ ∃ e, estimate SpinChain.metropolis_update per n obs conf b (estRand zj zh r) = .ok e ∧ |e - m| < δ}
      ⊆ {r | ENNReal.ofReal (δ ^ 2) ≤ X r} := by
    intro r hr
    have hr : ¬ ∃ e, estimate SpinChain.metropolis_update per n obs conf b (estRand zj zh r) = .ok e ∧ |e - m| < δ := hr
    show ENNReal.ofReal (δ ^ 2) ≤ errSq m (estimate SpinChain.metropolis_update per n obs conf b (estRand zj zh r))
    cases he : estimate SpinChain.metropolis_update per n obs conf b (estRand zj zh r) with
    | error _ => exact le_top
    | ok e =>
      refine ENNReal.ofReal_le_ofReal ?_
      rw [← sq_abs (e - m)]
      refine pow_le_pow_left₀ hδ.le ?_ 2
      by_contra hlt
      exact hr ⟨e, he, not_le.1 hlt⟩
  refine (measure_mono hsub).trans ?_
  have cheb := mul_meas_ge_le_lintegral₀ (μ := estLaw L per n) (f := X) meas (ENNReal.ofReal (δ ^ 2))
  have h3 := cheb.trans h'
  rw [mul_comm p, ENNReal.ofReal_mul d2.le] at h3
  exact (ENNReal.mul_le_mul_iff_right (by simp [hδ.ne']) ENNReal.ofReal_ne_top).1 h3

/-- the energy per site is at most the strength of couplings and fields -/
theorem density_bounded (w : WF c L s) (hL : 2 ≤ L) {K : ℝ} (hK : ∀ i < L, len (J c i) + len (H0 c i) ≤ K) :
    BoundedBy c L K fun x => wholeEnergy L x / L := by
  have L0 : (0 : ℝ) < L := by exact_mod_cast (by omega : 0 < L)
  refine ⟨(whole_tame w hL).meas.div_const _, fun q hq => ?_⟩
  have hu : ∀ i < L, len (S (withSpins c q) i) = 1 := fun i hi => by
    rw [S_withSpins, dif_pos hi]
    exact hq _
  rw [whole_eq_ring (withSpins_wf w q) (by omega), abs_div, abs_of_pos L0, div_le_iff₀ L0]
  unfold ringEnergy
  have e : K * (L : ℝ) = ∑ _i ∈ range L, K := by simp [mul_comm]
  rw [e]
  refine (abs_sum_le_sum_abs _ _).trans (sum_le_sum fun i hi => ?_)
  have hi := mem_range.1 hi
  refine le_trans ?_ (hK i hi)
  have h1 := abs_dot_le_len (S (withSpins c q) i) (had (J (withSpins c q) i) (S (withSpins c q) ((i + 1) % L)))
  have h2 := abs_dot_le_len (H0 (withSpins c q) i) (S (withSpins c q) i)
  have h3 := len_had_le (J (withSpins c q) i) (S (withSpins c q) ((i + 1) % L))
  rw [hu _ (Nat.mod_lt _ (by omega))] at h3
  rw [hu i hi] at h1 h2
  refine (abs_add_le _ _).trans ?_
  rw [abs_neg]
  have e1 : len (J (withSpins c q) i) = len (J c i) := rfl
  have e2 : len (H0 (withSpins c q) i) = len (H0 c i) := rfl
  rw [e1] at h3
  rw [e2] at h2
  linarith

/-- C127: the estimate `estim_e2` of the energy per site (and `estim_eh`, the same loop), with any number of samples. -/
theorem C127_energy (conf : Config ℝ) (L s : ℕ) (v : ValidConf conf L s) (hb0 : conf.beta ≠ 0) (u0 zj zh : ℕ → ℝ) (c : SpinChain ℝ)
    (hc : SpinChain.new conf 0 u0 zj zh = .ok c) (hL : 2 ≤ L) (b : ℝ) (hb : 0 ≤ b) (K : ℝ)
    (hK : ∀ i < L, len (J c i) + len (H0 c i) ≤ K) (per n : ℕ) (hper : 1 ≤ per) (hn : 1 ≤ n) :
    (∀ r, estim_e2 conf b r = estimate SpinChain.metropolis_update 1000 1000 SpinChain.mc_total_energy conf b r) ∧
    squareError SpinChain.metropolis_update L per n SpinChain.mc_total_energy conf b zj zh
        (thermalMean (atBeta c b) L (wholeEnergy L) (fun x => wholeEnergy L x / L))
      ≤ ENNReal.ofReal (K ^ 2 * samplesWorth b K L per / n *
        (11 + 8 * ((|conf.beta| / 2 + b * K) * L) + 6 * samplesWorth b K L per / n)) := by
  have w : WF c L s := by
    obtain ⟨c', h1, h2⟩ := C11_new_wf' conf 0 u0 zj zh L s v.hsize v.L_lt v.ssize v.s_lt v.hfield v.hs v.jvar v.hvar
    rw [hc] at h1
    cases h1
    exact h2
  have wb : WF (atBeta c b) L s := ⟨w.hsize, w.ssize, w.L_lt, w.s_lt, w.spins, w.j, w.h, w.hs⟩
  have hL0 : (L : ℝ) ≠ 0 := by positivity
  refine ⟨fun r => rfl, (C127_mean_square conf L s v hb0 u0 zj zh c hc hL b hb K hK _ _ K (fun q => ?_)
    (density_bounded wb hL hK) per n hper hn).2⟩
  unfold wholeEnergy
  rw [mc_total_energy_eq (withSpins_wf wb q) (by omega), mul_div_cancel_left₀ _ hL0]

/-- non-vacuity: a chain made from the default configuration, at the inverse temperature one half -/
example : ∃ (zj zh u0 : ℕ → ℝ) (c : SpinChain ℝ) (K : ℝ), ValidConf (Config.default : Config ℝ) 512 8 ∧
    (Config.default : Config ℝ).beta ≠ 0 ∧ SpinChain.new Config.default 0 u0 zj zh = .ok c ∧
    (∀ i < 512, len (J c i) + len (H0 c i) ≤ K) ∧ BoundedBy (atBeta c (1 / 2)) 512 1 (fun x => (S x 2).z) ∧
    (∀ q : Fin 512 → V3 ℝ, (fun x : SpinChain ℝ => (.ok (S x 2).z : R ℝ)) (withSpins (atBeta c (1 / 2)) q)
      = .ok ((fun x => (S x 2).z) (withSpins (atBeta c (1 / 2)) q))) := by
  have v : ValidConf (Config.default : Config ℝ) 512 8 :=
    ⟨rfl, rfl, by norm_num, by norm_num, by norm_num, by decide, by decide, rfl, rfl⟩
  obtain ⟨c, h, _⟩ := C11_new_wf' (Config.default : Config ℝ) 0 (fun _ => 0) (fun _ => 0) (fun _ => 0) 512 8 v.hsize v.L_lt v.ssize v.s_lt
    v.hfield v.hs v.jvar v.hvar
  exact ⟨_, _, _, c, ∑ i ∈ range 512, (len (J c i) + len (H0 c i)), v, by simp [Config.default]; norm_num, h,
    fun i hi => single_le_sum (f := fun i => len (J c i) + len (H0 c i))
      (fun j _ => add_nonneg (Real.sqrt_nonneg _) (Real.sqrt_nonneg _)) (mem_range.2 hi), spinz_bounded _ (by norm_num), fun _ => rfl⟩

end

end Verif.Props
