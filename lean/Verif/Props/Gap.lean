/-
C126: the Metropolis sampler forgets at a rate of a constant over the number of sites, at every temperature and for every
choice of couplings and fields.
-/
import Verif.Lemmas.GapRing
import Verif.Lemmas.GapMetro
import Verif.Spec.Gap
import Verif.Props.Cluster
import Verif.Lemmas.Search

set_option linter.unusedSectionVars false

namespace Verif.Props

open Spec MeasureTheory Finset Function
open Verif.Markov (Good Pm Qs acc)
open scoped ENNReal

section
variable {c : SpinChain ℝ} {L s : ℕ}

instance : Nonempty (V3 ℝ) := ⟨⟨0, 0, 0⟩⟩

theorem turned_zero (hL : 0 < L) (u : Fin L → V3 ℝ) : turned hL 0 u = u := by
  funext i
  unfold turned
  congr 1
  rw [Equiv.symm_apply_eq]
  refine Fin.ext ?_
  rw [turn_val, zero_add, Nat.mod_eq_of_lt i.2]

/-- weights of configurations of unit spins -/
theorem ring_weight (w : WF c L s) (hL : 2 ≤ L) {K : ℝ} (hK : ∀ i < L, len (J c i) + len (H0 c i) ≤ K) {u : Fin L → V3 ℝ}
    (hu : ∀ i, len (u i) = 1) :
    Cluster.ring (kern c L 0 K) (by omega) u = Real.exp (-(c.vars.beta * wholeEnergy L (withSpins c u))) := by
  have h := weight_turned w hL 0 hK hu
  rw [turned_zero] at h
  exact h.symm

variable {W : (Fin L → V3 ℝ) → ℝ} {E : (Fin L → V3 ℝ) → ℝ} {β : ℝ}

/-- the sampler acting on real functions -/
theorem pm_real (hL : 0 < L) (hW : Gap.Nice W) (W0 : ∀ v, 0 < W v) (hWE : ∀ v : Fin L → V3 ℝ, (∀ i, len (v i) = 1) → W v = Real.exp (-(β * E v)))
    {F : (Fin L → V3 ℝ) → ℝ≥0∞} {g : (Fin L → V3 ℝ) → ℝ} (hg : Gap.Nice g) (g0 : ∀ v, 0 ≤ g v)
    (hF : ∀ v : Fin L → V3 ℝ, (∀ i, len (v i) = 1) → F v = ENNReal.ofReal (g v)) (n : ℕ) :
    Gap.Nice ((Gap.P sphereMeasure W)^[n] g) ∧ (∀ v, 0 ≤ (Gap.P sphereMeasure W)^[n] g v) ∧
    ∀ v : Fin L → V3 ℝ, (∀ i, len (v i) = 1) → (Pm sphereMeasure β E)^[n] F v = ENNReal.ofReal ((Gap.P sphereMeasure W)^[n] g v) := by
  induction n with
  | zero => exact ⟨hg, g0, hF⟩
  | succ n ih =>
    obtain ⟨h1, h2, h3⟩ := ih
    rw [iterate_succ_apply', iterate_succ_apply']
    generalize (Gap.P sphereMeasure W)^[n] g = g' at h1 h2 h3
    generalize (Pm sphereMeasure β E)^[n] F = F' at h3
    have nn : ∀ i v x, 0 ≤ Gap.ac W v (update v i x) * g' (update v i x) + (1 - Gap.ac W v (update v i x)) * g' v := fun i v x =>
      add_nonneg (mul_nonneg (Gap.ac_nonneg W0 _ _) (h2 _)) (mul_nonneg (sub_nonneg.2 (Gap.ac_le W0 _ _)) (h2 _))
    have qn : ∀ i v, 0 ≤ Gap.Q sphereMeasure W i g' v := fun i v => integral_nonneg fun x => nn i v x
    refine ⟨Gap.P_nice hW W0 h1, fun v => div_nonneg (Finset.sum_nonneg fun i _ => qn i v) (Nat.cast_nonneg _), fun v hv => ?_⟩
    unfold Pm Gap.P
    rw [ENNReal.ofReal_div_of_pos]
    · rw [ENNReal.ofReal_natCast, ENNReal.ofReal_sum_of_nonneg fun i _ => qn i v]
      congr 1
      refine Finset.sum_congr rfl fun i _ => ?_
      have n1 := (Gap.ac_nice hW W0 i).comp (u := fun x => (v, x)) (measurable_const.prodMk measurable_id)
      have n2 : Gap.Nice fun x => Gap.ac W v (update v i x) * g' (update v i x) + (1 - Gap.ac W v (update v i x)) * g' v :=
        (n1.mul (h1.slice v i)).add (((Gap.Nice.const 1).sub n1).mul (Gap.Nice.const _))
      unfold Qs Gap.Q
      rw [ofReal_integral_eq_lintegral_ofReal (n2.int sphereMeasure) (Filter.Eventually.of_forall (nn i v))]
      refine lintegral_congr_ae ?_
      filter_upwards [sphere_ae] with x hx
      have hv' : ∀ j, len (update v i x j) = 1 := fun j => by
        by_cases e : j = i
        · rw [e, update_self]
          exact hx
        · rw [update_of_ne e]
          exact hv j
      have ea : acc β E v (update v i x) = ENNReal.ofReal (Gap.ac W v (update v i x)) := by
        unfold acc Gap.ac
        rw [hWE v hv, hWE _ hv', ← Real.exp_sub]
        congr 3
        ring
      rw [ea, h3 v hv, h3 _ hv', ENNReal.ofReal_add (mul_nonneg (Gap.ac_nonneg W0 _ _) (h2 _))
        (mul_nonneg (sub_nonneg.2 (Gap.ac_le W0 _ _)) (h2 _)), ENNReal.ofReal_mul (Gap.ac_nonneg W0 _ _),
        ENNReal.ofReal_mul (sub_nonneg.2 (Gap.ac_le W0 _ _)), ENNReal.ofReal_sub _ (Gap.ac_nonneg W0 _ _), ENNReal.ofReal_one]
    · exact_mod_cast hL

theorem iter_sub (hW : Gap.Nice W) (W0 : ∀ v, 0 < W v) {f g : (Fin L → V3 ℝ) → ℝ} (hf : Gap.Nice f) (hg : Gap.Nice g) (n : ℕ) :
    Gap.Nice ((Gap.P sphereMeasure W)^[n] f) ∧ Gap.Nice ((Gap.P sphereMeasure W)^[n] g) ∧
    (Gap.P sphereMeasure W)^[n] (fun v => f v - g v) = fun v => (Gap.P sphereMeasure W)^[n] f v - (Gap.P sphereMeasure W)^[n] g v := by
  induction n with
  | zero => exact ⟨hf, hg, rfl⟩
  | succ n ih =>
    obtain ⟨h1, h2, h3⟩ := ih
    rw [iterate_succ_apply', iterate_succ_apply', iterate_succ_apply', h3]
    refine ⟨Gap.P_nice hW W0 h1, Gap.P_nice hW W0 h2, ?_⟩
    have h := Gap.P_lin (σ := sphereMeasure) hW W0 h1 h2 (-1)
    have e : (fun v => (Gap.P sphereMeasure W)^[n] f v - (Gap.P sphereMeasure W)^[n] g v)
        = fun v => (Gap.P sphereMeasure W)^[n] f v + -1 * (Gap.P sphereMeasure W)^[n] g v := by
      funext v
      ring
    rw [e, h]
    funext v
    ring

/-- an observable, cut off off the unit sphere -/
noncomputable def cut (c : SpinChain ℝ) {L : ℕ} (C : ℝ) (f : SpinChain ℝ → ℝ) (v : Fin L → V3 ℝ) : ℝ := clip (-C) C (f (withSpins c v))

theorem cut_nice {C : ℝ} {f : SpinChain ℝ → ℝ} (hf : BoundedBy c L C f) : Gap.Nice (cut c (L := L) C f) :=
  ⟨measurable_const.max (measurable_const.min hf.meas), C, fun v => by
    have := hf.nonneg
    rw [abs_le]
    exact ⟨le_max_left _ _, max_le (by linarith) (min_le_left _ _)⟩⟩

theorem cut_eq {C : ℝ} {f : SpinChain ℝ → ℝ} (hf : BoundedBy c L C f) {v : Fin L → V3 ℝ} (hv : ∀ i, len (v i) = 1) :
    cut c C f v = f (withSpins c v) := by
  have := abs_le.1 (hf.bound v hv)
  exact clip_eq this.1 this.2

theorem pos_nice {g : (Fin L → V3 ℝ) → ℝ} (hg : Gap.Nice g) : Gap.Nice fun v => max (g v) 0 := by
  obtain ⟨C, hC⟩ := hg.bdd
  refine ⟨hg.meas.max measurable_const, C, fun v => ?_⟩
  rw [abs_of_nonneg (le_max_right _ _)]
  exact max_le ((le_abs_self _).trans (hC v)) ((abs_nonneg _).trans (hC v))

theorem neg_nice {g : (Fin L → V3 ℝ) → ℝ} (hg : Gap.Nice g) : Gap.Nice fun v => -g v := by
  simpa only [neg_one_mul] using (Gap.Nice.const (-1)).mul hg

/-- the weight of the ring -/
noncomputable def wgt (c : SpinChain ℝ) {L : ℕ} (hL : 2 ≤ L) (K : ℝ) : (Fin L → V3 ℝ) → ℝ := Cluster.ring (kern c L 0 K) (by omega)

theorem wgt_nice (hL : 2 ≤ L) {K : ℝ} (K0 : 0 ≤ K) : Gap.Nice (wgt c hL K) := Gap.ring_nice (kern_kernels c L 0 K0) _

theorem wgt_pos (hL : 2 ≤ L) {K : ℝ} (K0 : 0 ≤ K) (v : Fin L → V3 ℝ) : 0 < wgt c hL K v := Gap.ring_pos' (kern_kernels c L 0 K0) _ v

theorem expectReal_eq (w : WF c L s) (hL : 2 ≤ L) (hb : 0 ≤ c.vars.beta) {K : ℝ} (hK : ∀ i < L, len (J c i) + len (H0 c i) ≤ K)
    {C : ℝ} {f : SpinChain ℝ → ℝ} (hf : BoundedBy c L C f) (n : ℕ) :
    (Measurable fun v : Fin L → V3 ℝ => expectReal (fun c d => c.metropolis_update d) L f n (withSpins c v)) ∧
    ∀ v : Fin L → V3 ℝ, (∀ i, len (v i) = 1) → expectReal (fun c d => c.metropolis_update d) L f n (withSpins c v)
      = (Gap.P sphereMeasure (wgt c hL K))^[n] (cut c C f) v := by
  have K0 := K_nonneg hL hK
  have hE := (whole_tame w hL).meas
  have m1 : Observable c L fun x => ENNReal.ofReal (f x) := hf.meas.ennreal_ofReal
  have m2 : Observable c L fun x => ENNReal.ofReal (-f x) := hf.meas.neg.ennreal_ofReal
  have e1 := fun v => expect_eq (plain_upd hL) w hb hE m1 n v
  have e2 := fun v => expect_eq (plain_upd hL) w hb hE m2 n v
  have nc := cut_nice hf
  have hWE : ∀ v : Fin L → V3 ℝ, (∀ i, len (v i) = 1) →
      wgt c hL K v = Real.exp (-(c.vars.beta * wholeEnergy L (withSpins c v))) := fun v hv => ring_weight w hL hK hv
  obtain ⟨_, p2, p3⟩ := pm_real (by omega) (wgt_nice hL K0) (wgt_pos hL K0) hWE (pos_nice nc) (fun v => le_max_right _ _)
    (F := fun v => ENNReal.ofReal (f (withSpins c v))) (fun v hv => by
      rw [cut_eq hf hv]
      rcases le_total 0 (f (withSpins c v)) with h | h
      · rw [max_eq_left h]
      · rw [max_eq_right h, ENNReal.ofReal_of_nonpos h, ENNReal.ofReal_zero]) n
  obtain ⟨_, q2, q3⟩ := pm_real (by omega) (wgt_nice hL K0) (wgt_pos hL K0) hWE (pos_nice (neg_nice nc)) (fun v => le_max_right _ _)
    (F := fun v => ENNReal.ofReal (-f (withSpins c v))) (fun v hv => by
      rw [cut_eq hf hv]
      rcases le_total 0 (-f (withSpins c v)) with h | h
      · rw [max_eq_left h]
      · rw [max_eq_right h, ENNReal.ofReal_of_nonpos h, ENNReal.ofReal_zero]) n
  refine ⟨?_, fun v hv => ?_⟩
  · unfold expectReal
    simp only [e1, e2]
    exact (Markov.measurable_iter hE m1 n).ennreal_toReal.sub (Markov.measurable_iter hE m2 n).ennreal_toReal
  · unfold expectReal
    rw [e1, e2, p3 v hv, q3 v hv, ENNReal.toReal_ofReal (p2 v), ENNReal.toReal_ofReal (q2 v)]
    have h := (iter_sub (wgt_nice (c := c) hL K0) (wgt_pos hL K0) (pos_nice nc) (pos_nice (neg_nice nc)) n).2.2
    have e : (fun v => max (cut c C f v) 0 - max (-cut c C f v) 0) = cut c (L := L) C f := by
      funext v
      rcases le_total 0 (cut c C f v) with h | h
      · rw [max_eq_left h, max_eq_right (by linarith), sub_zero]
      · rw [max_eq_right h, max_eq_left (by linarith)]
        ring
    rw [e] at h
    exact (congrFun h v).symm

theorem thermal_wgt (w : WF c L s) (hL : 2 ≤ L) {K : ℝ} (hK : ∀ i < L, len (J c i) + len (H0 c i) ≤ K) {F : SpinChain ℝ → ℝ}
    {G : (Fin L → V3 ℝ) → ℝ} (mF : Measurable fun v : Fin L → V3 ℝ => F (withSpins c v))
    (h : ∀ u : Fin L → V3 ℝ, (∀ i, len (u i) = 1) → F (withSpins c u) = G u) :
    thermalMean c L (wholeEnergy L) F = (∫ u, wgt c hL K u * G u ∂(Measure.pi fun _ => sphereMeasure))
      / ∫ u, wgt c hL K u ∂(Measure.pi fun _ => sphereMeasure) := by
  unfold thermalMean
  rw [weight_int w hL 0 hK mF (G := G) fun u hu => by rw [turned_zero]; exact h u hu, weight_norm w hL 0 hK]
  rfl

/-- the gap of the sampler -/
theorem wgt_gap (hL : 2 ≤ L) {K : ℝ} (K0 : 0 ≤ K) (f : (Fin L → V3 ℝ) → ℝ) (hf : Gap.Nice f)
    (f0 : ∫ v, wgt c hL K v * f v ∂(Measure.pi fun _ => sphereMeasure) = 0) :
    mixRate c.vars.beta K L * Gap.ip sphereMeasure (wgt c hL K) f f
      ≤ Gap.ip sphereMeasure (wgt c hL K) f f - Gap.ip sphereMeasure (wgt c hL K) f (Gap.P sphereMeasure (wgt c hL K) f) := by
  have H := kern_kernels c L 0 K0
  have hL0 : 0 < L := by omega
  have bK := mul_nonneg (abs_nonneg c.vars.beta) K0
  set t := |c.vars.beta| * K with ht
  have h := Gap.gap_of (σ := sphereMeasure) (wgt_nice (c := c) hL K0) (wgt_pos hL K0) hL0
    (C := 384 * (Real.exp t / Real.exp (-t)) ^ 11) (r := (Real.exp (-t) / Real.exp t) ^ 2) (by positivity) (by positivity)
    (fun v i x => Gap.ring_update H hL0 v i x)
    (pow_le_one₀ (by positivity) ((div_le_one (Real.exp_pos _)).2 (by rw [Real.exp_le_exp]; linarith)))
    (fun f hf f0 => Gap.ring_poincare H hL0 hf f0) f hf f0
  have e : mixRate c.vars.beta K L = (Real.exp (-t) / Real.exp t) ^ 2 / (2 * (384 * (Real.exp t / Real.exp (-t)) ^ 11) * L) := by
    unfold mixRate
    rw [← ht, ← Real.exp_sub, ← Real.exp_sub, ← Real.exp_nat_mul, ← Real.exp_nat_mul]
    have e1 : Real.exp (-(26 * t)) = Real.exp (((2 : ℕ) : ℝ) * (-t - t)) / Real.exp (((11 : ℕ) : ℝ) * (t - -t)) := by
      rw [← Real.exp_sub]
      congr 1
      push_cast
      ring
    rw [e1, div_div]
    congr 1
    ring
  rw [e]
  exact h

theorem mixRate_pos (b K : ℝ) {L : ℕ} (hL : 2 ≤ L) : 0 < mixRate b K L := by
  have : (0 : ℝ) < L := by exact_mod_cast (by omega : 0 < L)
  unfold mixRate
  positivity

theorem mixRate_le (b : ℝ) {K : ℝ} (K0 : 0 ≤ K) {L : ℕ} (hL : 2 ≤ L) : mixRate b K L ≤ 1 := by
  have L1 : (1 : ℝ) ≤ L := by exact_mod_cast (by omega : 1 ≤ L)
  unfold mixRate
  rw [div_le_one (by positivity)]
  have : Real.exp (-(26 * (|b| * K))) ≤ 1 := by
    rw [Real.exp_le_one_iff]
    have := mul_nonneg (abs_nonneg b) K0
    linarith
  linarith

theorem wgt_int_pos (hL : 2 ≤ L) {K : ℝ} (K0 : 0 ≤ K) : 0 < ∫ u, wgt c hL K u ∂(Measure.pi fun _ : Fin L => sphereMeasure) :=
  ring_pos (by omega) K0

theorem iter_const' (hL : 0 < L) (m : ℝ) (n : ℕ) : (Gap.P sphereMeasure W)^[n] (fun _ : Fin L → V3 ℝ => m) = fun _ => m := by
  induction n with
  | zero => rfl
  | succ n ih =>
    rw [iterate_succ_apply', ih]
    have L0 : (L : ℝ) ≠ 0 := by exact_mod_cast hL.ne'
    funext v
    unfold Gap.P Gap.Q
    have e : ∀ a : ℝ, a * m + (1 - a) * m = m := fun a => by ring
    simp only [e, integral_const, probReal_univ, one_smul, Finset.sum_const, Finset.card_univ, Fintype.card_fin, nsmul_eq_mul]
    field_simp

/-- deviations from the thermal mean -/
theorem dev_facts (w : WF c L s) (hL : 2 ≤ L) {K : ℝ} (hK : ∀ i < L, len (J c i) + len (H0 c i) ≤ K)
    {C : ℝ} {f : SpinChain ℝ → ℝ} (hf : BoundedBy c L C f) :
    (Gap.Nice fun v => cut c (L := L) C f v - thermalMean c L (wholeEnergy L) f) ∧
    ∫ u, wgt c hL K u * (cut c C f u - thermalMean c L (wholeEnergy L) f) ∂(Measure.pi fun _ => sphereMeasure) = 0 ∧
    Gap.ip sphereMeasure (wgt c hL K) (fun v => cut c C f v - thermalMean c L (wholeEnergy L) f)
        (fun v => cut c C f v - thermalMean c L (wholeEnergy L) f)
      = (∫ u, wgt c hL K u ∂(Measure.pi fun _ : Fin L => sphereMeasure)) * thermalCov c L (wholeEnergy L) f f := by
  have K0 := K_nonneg hL hK
  have nW := wgt_nice (c := c) hL K0
  have W0 := wgt_pos (c := c) hL K0
  have Zp := wgt_int_pos (c := c) hL K0
  set W := wgt c hL K with hW
  set π : Measure (Fin L → V3 ℝ) := Measure.pi fun _ => sphereMeasure with hπ
  set Z := ∫ u, W u ∂π with hZ
  set m := thermalMean c L (wholeEnergy L) f with hm
  have nc := cut_nice hf
  have em : ∫ u, W u * cut c C f u ∂π = Z * m := by
    rw [hm, thermal_wgt w hL hK hf.meas (G := cut c C f) fun u hu => (cut_eq hf hu).symm]
    exact (mul_div_cancel₀ _ Zp.ne').symm
  have n0 : Gap.Nice fun v => cut c (L := L) C f v - m := nc.sub (Gap.Nice.const m)
  have f0 : ∫ u, W u * (cut c C f u - m) ∂π = 0 := by
    simp only [mul_sub]
    rw [integral_sub ((nW.mul nc).int π) ((nW.mul (Gap.Nice.const m)).int π), em, integral_mul_const]
    ring
  have ecov : Gap.ip sphereMeasure W (fun v => cut c C f v - m) (fun v => cut c C f v - m) = Z * thermalCov c L (wholeEnergy L) f f := by
    have e2 : thermalMean c L (wholeEnergy L) (fun x => f x * f x) = (∫ u, W u * (cut c C f u * cut c C f u) ∂π) / Z :=
      thermal_wgt w hL hK (hf.meas.mul hf.meas) fun u hu => by rw [cut_eq hf hu]
    unfold thermalCov Gap.ip
    rw [e2, ← hm]
    have e3 : ∀ u : Fin L → V3 ℝ, W u * ((cut c C f u - m) * (cut c C f u - m))
        = (W u * (cut c C f u * cut c C f u) - 2 * m * (W u * cut c C f u)) + m ^ 2 * W u := fun u => by ring
    simp only [e3]
    rw [integral_add, integral_sub, integral_const_mul, integral_const_mul, ← hπ, em, ← hZ]
    · field_simp
      ring
    · exact (nW.mul (nc.mul nc)).int _
    · exact ((Gap.Nice.const _).mul (nW.mul nc)).int _
    · exact ((nW.mul (nc.mul nc)).sub ((Gap.Nice.const _).mul (nW.mul nc))).int _
    · exact ((Gap.Nice.const _).mul nW).int _
  exact ⟨n0, f0, ecov⟩

/-- the sampler contracts deviations from the thermal mean -/
theorem wgt_forgets (w : WF c L s) (hL : 2 ≤ L) (hb : 0 ≤ c.vars.beta) {K : ℝ} (hK : ∀ i < L, len (J c i) + len (H0 c i) ≤ K)
    {C : ℝ} {f : SpinChain ℝ → ℝ} (hf : BoundedBy c L C f) (n : ℕ) :
    ∃ g : (Fin L → V3 ℝ) → ℝ, Gap.Nice g ∧ ∫ u, wgt c hL K u * g u ∂(Measure.pi fun _ => sphereMeasure) = 0 ∧
      (∀ v : Fin L → V3 ℝ, (∀ i, len (v i) = 1) →
        expectReal (fun c d => c.metropolis_update d) L f n (withSpins c v) - thermalMean c L (wholeEnergy L) f = g v) ∧
      Gap.ip sphereMeasure (wgt c hL K) g g ≤ ((1 - mixRate c.vars.beta K L) ^ n) ^ 2 *
        ((∫ u, wgt c hL K u ∂(Measure.pi fun _ : Fin L => sphereMeasure)) * thermalCov c L (wholeEnergy L) f f) := by
  have K0 := K_nonneg hL hK
  have nW := wgt_nice (c := c) hL K0
  have W0 := wgt_pos (c := c) hL K0
  have Zp := wgt_int_pos (c := c) hL K0
  set W := wgt c hL K with hW
  set π : Measure (Fin L → V3 ℝ) := Measure.pi fun _ => sphereMeasure with hπ
  set Z := ∫ u, W u ∂π with hZ
  set m := thermalMean c L (wholeEnergy L) f with hm
  have nc := cut_nice hf
  have n0 : Gap.Nice fun v => cut c (L := L) C f v - m := nc.sub (Gap.Nice.const m)
  obtain ⟨_, f0, ecov⟩ := dev_facts w hL hK hf
  have h := Gap.P_iter (σ := sphereMeasure) nW W0 (by omega) (mixRate_le c.vars.beta K0 hL)
    (fun g hg g0 => wgt_gap hL K0 g hg g0) n0 f0 n
  refine ⟨_, h.1, h.2.1, fun v hv => ?_, ?_⟩
  · rw [(expectReal_eq w hL hb hK hf n).2 v hv, (iter_sub nW W0 nc (Gap.Nice.const m) n).2.2, iter_const' (by omega)]
  · rw [← ecov]
    exact h.2.2

/-- C126: the mean, over thermal starts, of the squared deviation of the mean after `n` `metropolis_update`s from the thermal
mean is at most `(1 - mixRate)^(2 n)` times the thermal variance. -/
theorem C126_forgets (c : SpinChain ℝ) (L s : ℕ) (w : WF c L s) (hL : 2 ≤ L) (hb : 0 ≤ c.vars.beta) (K : ℝ)
    (hK : ∀ i < L, len (J c i) + len (H0 c i) ≤ K) (f : SpinChain ℝ → ℝ) (C : ℝ) (hf : BoundedBy c L C f) (n : ℕ) :
    thermalMean c L (wholeEnergy L) (fun x =>
        (expectReal (fun c d => c.metropolis_update d) L f n x - thermalMean c L (wholeEnergy L) f) ^ 2)
      ≤ (1 - mixRate c.vars.beta K L) ^ (2 * n) * thermalCov c L (wholeEnergy L) f f := by
  obtain ⟨g, h1, _, h3, h4⟩ := wgt_forgets w hL hb hK hf n
  have K0 := K_nonneg hL hK
  have Zp := wgt_int_pos (c := c) hL K0
  rw [thermal_wgt w hL hK (G := fun u => g u * g u) (((expectReal_eq w hL hb hK hf n).1.sub_const _).pow_const 2)
    fun u hu => by rw [h3 u hu, sq], div_le_iff₀ Zp]
  refine h4.trans (le_of_eq ?_)
  rw [← pow_mul, mul_comm n 2]
  ring

/-- C126, autocorrelations in the thermal state: what `n` updates leave of the covariance of two quantities. -/
theorem C126_autocorrelation (c : SpinChain ℝ) (L s : ℕ) (w : WF c L s) (hL : 2 ≤ L) (hb : 0 ≤ c.vars.beta) (K : ℝ)
    (hK : ∀ i < L, len (J c i) + len (H0 c i) ≤ K) (f g : SpinChain ℝ → ℝ) (C C' : ℝ) (hf : BoundedBy c L C f)
    (hg : BoundedBy c L C' g) (n : ℕ) :
    |thermalCov c L (wholeEnergy L) g (expectReal (fun c d => c.metropolis_update d) L f n)|
      ≤ (1 - mixRate c.vars.beta K L) ^ n *
        (Real.sqrt (thermalCov c L (wholeEnergy L) g g) * Real.sqrt (thermalCov c L (wholeEnergy L) f f)) := by
  have K0 := K_nonneg hL hK
  have nW := wgt_nice (c := c) hL K0
  have W0 := wgt_pos (c := c) hL K0
  have Zp := wgt_int_pos (c := c) hL K0
  obtain ⟨d, nd, d0, de, dn⟩ := wgt_forgets w hL hb hK hf n
  obtain ⟨ng, g0, gn⟩ := dev_facts w hL hK hg
  have nc := cut_nice hg
  have e := expectReal_eq w hL hb hK hf n
  set F := expectReal (fun c d => c.metropolis_update d) L f n with hF
  set m := thermalMean c L (wholeEnergy L) f with hm
  set W := wgt c hL K with hW
  set π : Measure (Fin L → V3 ℝ) := Measure.pi fun _ => sphereMeasure with hπ
  set Z := ∫ u, W u ∂π with hZ
  have dF : ∀ u : Fin L → V3 ℝ, (∀ i, len (u i) = 1) → F (withSpins c u) = d u + m := fun u hu => by rw [← de u hu]; ring
  have e1 : thermalMean c L (wholeEnergy L) (fun x => g x * F x) = (∫ u, W u * (cut c C' g u * (d u + m)) ∂π) / Z :=
    thermal_wgt w hL hK (hg.meas.mul e.1) fun u hu => by rw [cut_eq hg hu, dF u hu]
  have e2 : thermalMean c L (wholeEnergy L) F = (∫ u, W u * (d u + m) ∂π) / Z := thermal_wgt w hL hK e.1 dF
  have e3 : thermalMean c L (wholeEnergy L) g = (∫ u, W u * cut c C' g u ∂π) / Z :=
    thermal_wgt w hL hK hg.meas fun u hu => (cut_eq hg hu).symm
  set mg := thermalMean c L (wholeEnergy L) g with hmg
  have i2 : ∫ u, W u * (d u + m) ∂π = Z * m := by
    simp only [mul_add]
    rw [integral_add ((nW.mul nd).int π) ((nW.mul (Gap.Nice.const m)).int π), d0, integral_mul_const, zero_add]
  have i1 : ∫ u, W u * (cut c C' g u * (d u + m)) ∂π = Gap.ip sphereMeasure W (fun v => cut c C' g v - mg) d + Z * mg * m := by
    have q : ∀ u, W u * (cut c C' g u * (d u + m)) = (W u * ((cut c C' g u - mg) * d u) + mg * (W u * d u)) + m * (W u * cut c C' g u) :=
      fun u => by ring
    simp only [q]
    rw [integral_add, integral_add, integral_const_mul, integral_const_mul, d0, e3]
    · unfold Gap.ip
      rw [mul_div_cancel₀ _ Zp.ne']
      ring
    · exact (nW.mul (ng.mul nd)).int π
    · exact ((Gap.Nice.const mg).mul (nW.mul nd)).int π
    · exact ((nW.mul (ng.mul nd)).add ((Gap.Nice.const mg).mul (nW.mul nd))).int π
    · exact ((Gap.Nice.const m).mul (nW.mul nc)).int π
  have ec : thermalCov c L (wholeEnergy L) g F = Gap.ip sphereMeasure W (fun v => cut c C' g v - mg) d / Z := by
    unfold thermalCov
    rw [e1, e2, i1, i2, ← hmg]
    field_simp
    ring
  have cs := Gap.ip_cs (σ := sphereMeasure) nW W0 ng nd
  have r0 : 0 ≤ 1 - mixRate c.vars.beta K L := sub_nonneg.2 (mixRate_le _ K0 hL)
  rw [gn] at cs
  have vg : 0 ≤ thermalCov c L (wholeEnergy L) g g := by
    have h : 0 ≤ Z * thermalCov c L (wholeEnergy L) g g := gn ▸ integral_nonneg fun v => mul_nonneg (W0 v).le (mul_self_nonneg _)
    exact nonneg_of_mul_nonneg_right h Zp
  have vf : 0 ≤ thermalCov c L (wholeEnergy L) f f := by
    obtain ⟨_, _, fn⟩ := dev_facts w hL hK hf
    have h : 0 ≤ Z * thermalCov c L (wholeEnergy L) f f := fn ▸ integral_nonneg fun v => mul_nonneg (W0 v).le (mul_self_nonneg _)
    exact nonneg_of_mul_nonneg_right h Zp
  rw [ec, abs_div, abs_of_pos Zp, div_le_iff₀ Zp]
  refine abs_le_of_sq_le_sq ?_ (by positivity)
  refine cs.trans ((mul_le_mul_of_nonneg_left dn (mul_nonneg Zp.le vg)).trans (le_of_eq ?_))
  rw [mul_pow, mul_pow, mul_pow, Real.sq_sqrt vg, Real.sq_sqrt vf]
  ring

theorem len_one_sq {x : V3 ℝ} (h : len x = 1) : dot x x = 1 := by
  rw [← len_sq, h, one_mul]

/-- bounds on the weight -/
theorem wgt_bounds (hL : 2 ≤ L) {K : ℝ} (K0 : 0 ≤ K) (v : Fin L → V3 ℝ) :
    Real.exp (-(|c.vars.beta| * K * L)) ≤ wgt c hL K v ∧ wgt c hL K v ≤ Real.exp (|c.vars.beta| * K * L) := by
  have H := kern_kernels c L 0 K0
  unfold wgt Cluster.ring
  constructor
  · have e : Real.exp (-(|c.vars.beta| * K * L)) = ∏ _j ∈ range L, Real.exp (-(|c.vars.beta| * K)) := by
      rw [prod_const, card_range, ← Real.exp_nat_mul]
      congr 1
      ring
    rw [e]
    exact prod_le_prod (fun _ _ => (Real.exp_pos _).le) fun j _ => H.lo j _ _
  · have e : Real.exp (|c.vars.beta| * K * L) = ∏ _j ∈ range L, Real.exp (|c.vars.beta| * K) := by
      rw [prod_const, card_range, ← Real.exp_nat_mul]
      congr 1
      ring
    rw [e]
    exact prod_le_prod (fun _ _ => H.pos.le.trans (H.lo _ _ _)) fun j _ => H.hi j _ _

/-- C126, any start: started from spins with density at most `exp A` with respect to independent uniform spins, the mean after `n`
updates is as close as this to the thermal mean. -/
theorem C126_start (c : SpinChain ℝ) (L s : ℕ) (w : WF c L s) (hL : 2 ≤ L) (hb : 0 ≤ c.vars.beta) (K : ℝ)
    (hK : ∀ i < L, len (J c i) + len (H0 c i) ≤ K) (f : SpinChain ℝ → ℝ) (C : ℝ) (hf : BoundedBy c L C f)
    (h : (Fin L → V3 ℝ) → ℝ) (A : ℝ) (mh : Measurable h) (h0 : ∀ v : Fin L → V3 ℝ, (∀ i, len (v i) = 1) → 0 ≤ h v ∧ h v ≤ Real.exp A)
    (h1 : ∫ v, h v ∂(Measure.pi fun _ => sphereMeasure) = 1) (n : ℕ) :
    |(∫ v, h v * expectReal (fun c d => c.metropolis_update d) L f n (withSpins c v) ∂(Measure.pi fun _ => sphereMeasure))
        - thermalMean c L (wholeEnergy L) f|
      ≤ C * Real.exp (A / 2 + c.vars.beta * K * L) * (1 - mixRate c.vars.beta K L) ^ n := by
  have K0 := K_nonneg hL hK
  have nW := wgt_nice (c := c) hL K0
  have W0 := wgt_pos (c := c) hL K0
  have Zp := wgt_int_pos (c := c) hL K0
  have Wb := wgt_bounds (c := c) hL K0
  rw [abs_of_nonneg hb] at Wb
  obtain ⟨d, nd, d0, de, dn⟩ := wgt_forgets w hL hb hK hf n
  have e := expectReal_eq w hL hb hK hf n
  have C0 := hf.nonneg
  have r0 : 0 ≤ 1 - mixRate c.vars.beta K L := sub_nonneg.2 (mixRate_le _ K0 hL)
  have cv : thermalCov c L (wholeEnergy L) f f ≤ C ^ 2 := by
    have q := thermal_mean_abs w hL (bounded_mul hf hf)
    unfold thermalCov
    nlinarith [(abs_le.1 q).2, mul_self_nonneg (thermalMean c L (wholeEnergy L) f)]
  set F := expectReal (fun c d => c.metropolis_update d) L f n with hF
  set m := thermalMean c L (wholeEnergy L) f with hm
  set W := wgt c hL K with hW
  set π : Measure (Fin L → V3 ℝ) := Measure.pi fun _ => sphereMeasure with hπ
  set Z := ∫ u, W u ∂π with hZ
  set x := c.vars.beta * K * L with hx
  set k : (Fin L → V3 ℝ) → ℝ := fun v => clip 0 (Real.exp A) (h v) with hk
  have ek : ∀ v : Fin L → V3 ℝ, (∀ i, len (v i) = 1) → h v = k v := fun v hv => (clip_eq (h0 v hv).1 (h0 v hv).2).symm
  have kb : ∀ v, 0 ≤ k v ∧ k v ≤ Real.exp A := fun v => ⟨le_max_left _ _, max_le (Real.exp_pos _).le (min_le_left _ _)⟩
  have nk : Gap.Nice k := ⟨measurable_const.max (measurable_const.min mh), Real.exp A, fun v => by
    rw [abs_of_nonneg (kb v).1]
    exact (kb v).2⟩
  have k1 : ∫ v, k v ∂π = 1 := by
    rw [← h1]
    exact integral_congr_ae (units_ae.mono fun v hv => (ek v hv).symm)
  have nr : Gap.Nice fun v => k v / W v := ⟨nk.meas.div nW.meas, Real.exp (A + x), fun v => by
    rw [abs_of_nonneg (div_nonneg (kb v).1 (W0 v).le), div_le_iff₀ (W0 v), Real.exp_add]
    have q : 1 ≤ Real.exp x * W v := by
      have := mul_le_mul_of_nonneg_left (Wb v).1 (Real.exp_pos x).le
      rwa [← Real.exp_add, add_neg_cancel, Real.exp_zero] at this
    calc k v ≤ Real.exp A := (kb v).2
      _ ≤ Real.exp A * (Real.exp x * W v) := le_mul_of_one_le_right (Real.exp_pos A).le q
      _ = _ := by ring⟩
  have rb : ∀ v, k v / W v ≤ Real.exp (A + x) := fun v => by
    rw [div_le_iff₀ (W0 v), Real.exp_add]
    have q : 1 ≤ Real.exp x * W v := by
      have := mul_le_mul_of_nonneg_left (Wb v).1 (Real.exp_pos x).le
      rwa [← Real.exp_add, add_neg_cancel, Real.exp_zero] at this
    calc k v ≤ Real.exp A := (kb v).2
      _ ≤ Real.exp A * (Real.exp x * W v) := le_mul_of_one_le_right (Real.exp_pos A).le q
      _ = _ := by ring
  have i1 : (∫ v, h v * F (withSpins c v) ∂π) - m = Gap.ip sphereMeasure W (fun v => k v / W v) d := by
    have q : ∫ v, h v * F (withSpins c v) ∂π = ∫ v, (k v * d v + m * k v) ∂π :=
      integral_congr_ae (units_ae.mono fun v hv => by
        have : F (withSpins c v) = d v + m := by rw [← de v hv]; ring
        dsimp only
        rw [this, ek v hv]
        ring)
    rw [q, integral_add ((nk.mul nd).int π) (((Gap.Nice.const m).mul nk).int π), integral_const_mul, k1, mul_one, add_sub_cancel_right]
    unfold Gap.ip
    refine integral_congr_ae (Filter.Eventually.of_forall fun v => ?_)
    have := (W0 v).ne'
    dsimp only
    field_simp
  have i2 : Gap.ip sphereMeasure W (fun v => k v / W v) (fun v => k v / W v) ≤ Real.exp (A + x) := by
    have q : ∀ v, W v * (k v / W v * (k v / W v)) = k v / W v * k v := fun v => by
      have := (W0 v).ne'
      field_simp
    unfold Gap.ip
    simp only [q]
    calc ∫ v, k v / W v * k v ∂π ≤ ∫ v, Real.exp (A + x) * k v ∂π :=
        integral_mono ((nr.mul nk).int π) (((Gap.Nice.const _).mul nk).int π) fun v => mul_le_mul_of_nonneg_right (rb v) (kb v).1
      _ = _ := by rw [integral_const_mul, k1, mul_one]
  have Zle : Z ≤ Real.exp x := by
    have : Z ≤ ∫ _v, Real.exp x ∂π := integral_mono (nW.int π) ((Gap.Nice.const _).int π) fun v => (Wb v).2
    simpa using this
  have cs := Gap.ip_cs (σ := sphereMeasure) nW W0 nr nd
  rw [i1]
  have dp : 0 ≤ Gap.ip sphereMeasure W d d := integral_nonneg fun v => mul_nonneg (W0 v).le (mul_self_nonneg _)
  have dn' : Gap.ip sphereMeasure W d d ≤ ((1 - mixRate c.vars.beta K L) ^ n) ^ 2 * (Real.exp x * C ^ 2) := by
    refine dn.trans (mul_le_mul_of_nonneg_left ?_ (by positivity))
    exact (mul_le_mul_of_nonneg_left cv Zp.le).trans (mul_le_mul_of_nonneg_right Zle (by positivity))
  refine abs_le_of_sq_le_sq ?_ (by positivity)
  refine cs.trans ((mul_le_mul i2 dn' dp (Real.exp_pos _).le).trans (le_of_eq ?_))
  have e2 : Real.exp (A / 2 + x) ^ 2 = Real.exp (A + x) * Real.exp x := by
    rw [← Real.exp_nat_mul, ← Real.exp_add]
    congr 1
    push_cast
    ring
  rw [mul_pow, mul_pow, e2]
  ring

/-- C126, independent uniform spins as the start. -/
theorem C126_uniform (c : SpinChain ℝ) (L s : ℕ) (w : WF c L s) (hL : 2 ≤ L) (hb : 0 ≤ c.vars.beta) (K : ℝ)
    (hK : ∀ i < L, len (J c i) + len (H0 c i) ≤ K) (f : SpinChain ℝ → ℝ) (C : ℝ) (hf : BoundedBy c L C f) (n : ℕ) :
    |(∫ v : Fin L → V3 ℝ, expectReal (fun c d => c.metropolis_update d) L f n (withSpins c v) ∂(Measure.pi fun _ => sphereMeasure))
        - thermalMean c L (wholeEnergy L) f|
      ≤ C * Real.exp (c.vars.beta * K * L) * (1 - mixRate c.vars.beta K L) ^ n := by
  have h := C126_start c L s w hL hb K hK f C hf (fun _ => 1) 0 measurable_const (fun v _ => by simp) (by simp) n
  simpa only [one_mul, zero_div, zero_add] using h

/-- new chains with the same couplings and fields differ in their spins only -/
theorem new_same {conf : Config ℝ} (v : ValidConf conf L s) (hb : conf.beta ≠ 0) {num : ℕ} {u0 zj zh : ℕ → ℝ}
    (hc : SpinChain.new conf num u0 zj zh = .ok c) :
    ∀ᵐ w ∂(Measure.pi fun _ : Fin L => tripleMeasure),
      SpinChain.new conf num (drawsOf w) zj zh = .ok (withSpins c (path conf.beta L startDir w)) := by
  filter_upwards [nonDegenerate_ae hb L, unitDraws_ae L] with w hn hu
  obtain ⟨c', hc', hs⟩ := C11_new_unit conf num (drawsOf w) zj zh L v.hsize v.L_lt v.hfield v.hs hb hu hn
  obtain ⟨sp, hsp, hlen⟩ := newSpins_ok conf.beta u0 L
  obtain ⟨sp', hsp', hlen'⟩ := newSpins_ok conf.beta (drawsOf w) L
  obtain ⟨f0, f1, f2, fr, hf⟩ := three_le v.hfield
  obtain ⟨h0, h1, h2, hr, hh⟩ := three_le v.hs
  have a := new_eq v.hsize v.L_lt hf hh v.jvar v.hvar num u0 zj zh hsp
  have b := new_eq v.hsize v.L_lt hf hh v.jvar v.hvar num (drawsOf w) zj zh hsp'
  rw [hc] at a
  rw [hc'] at b
  have hl : c'.spins.length = L := by
    cases b
    exact hlen'
  have hp : path conf.beta L startDir w = fun i : Fin L => S c' i := by
    funext i
    rw [(hs i i.2).1, (walk_path conf.beta w i i.2).2]
  have e3 : ∀ q : Fin L → V3 ℝ, withSpins c q = withSpins c' q := by
    intro q
    cases a
    cases b
    rfl
  rw [hc', hp, e3, Search.withSpins_self hl]

/-- density of the spins of a new chain -/
noncomputable def newDensity (b : ℝ) (L : ℕ) (v : Fin L → V3 ℝ) : ℝ :=
  (b / Real.sinh b) ^ L * Real.exp (-(b * hungEnergy startDir v))

theorem newDensity_pw {b : ℝ} (hb : b ≠ 0) (v : Fin L → V3 ℝ) : ENNReal.ofReal (newDensity b L v) = pathWeight b L startDir v :=
  (pathWeight_eq hb L startDir v).symm

theorem ratio_pos {b : ℝ} (hb : b ≠ 0) : 0 < b / Real.sinh b := by
  rcases lt_or_gt_of_ne hb with h | h
  · exact div_pos_of_neg_of_neg h (Real.sinh_neg_iff.2 h)
  · exact div_pos h (Real.sinh_pos_iff.2 h)

theorem newDensity_nonneg {b : ℝ} (hb : b ≠ 0) (v : Fin L → V3 ℝ) : 0 ≤ newDensity b L v :=
  mul_nonneg (pow_nonneg (ratio_pos hb).le _) (Real.exp_pos _).le

theorem newDensity_meas {b : ℝ} (hb : b ≠ 0) : Measurable (newDensity b L) := by
  have h : newDensity b L = fun v => (pathWeight b L startDir v).toReal := by
    funext v
    rw [← newDensity_pw hb, ENNReal.toReal_ofReal (newDensity_nonneg hb v)]
  rw [h]
  exact ((meas_pathWeight b L).comp (measurable_const.prodMk measurable_id)).ennreal_toReal

theorem newDensity_one {b : ℝ} (hb : b ≠ 0) : ∫ v, newDensity b L v ∂(Measure.pi fun _ => sphereMeasure) = 1 := by
  have h := path_law hb L startDir_unit (f := fun _ => 1) measurable_const
  rw [lintegral_const, measure_univ, mul_one] at h
  rw [integral_eq_lintegral_of_nonneg_ae (Filter.Eventually.of_forall (newDensity_nonneg hb)) (newDensity_meas hb).aestronglyMeasurable]
  simp only [newDensity_pw hb]
  simp only [mul_one] at h
  rw [← h, ENNReal.toReal_one]

theorem newDensity_le {b : ℝ} (hb : b ≠ 0) {v : Fin L → V3 ℝ} (hv : ∀ i, len (v i) = 1) :
    newDensity b L v ≤ Real.exp (|b| * L) := by
  have r1 : b / Real.sinh b ≤ 1 := by
    rcases lt_or_gt_of_ne hb with h | h
    · rw [div_le_one_of_neg (Real.sinh_neg_iff.2 h)]
      exact (Real.sinh_lt_self_iff.2 h).le
    · rw [div_le_one (Real.sinh_pos_iff.2 h)]
      exact (Real.self_lt_sinh_iff.2 h).le
  have hd : ∀ i : Fin L, |dot (before startDir v i) (v i)| ≤ 1 := fun i => by
    have u1 : dot (v i) (v i) = 1 := len_one_sq (hv i)
    have u2 : dot (before startDir v i) (before startDir v i) = 1 := by
      unfold before
      split_ifs
      · exact startDir_unit
      · exact len_one_sq (hv _)
    have h := abs_dot_le_len (before startDir v i) (v i)
    rw [len, len, u1, u2, Real.sqrt_one, one_mul] at h
    exact h
  have hE : |hungEnergy startDir v| ≤ L := by
    unfold hungEnergy
    rw [abs_neg]
    refine (abs_sum_le_sum_abs _ _).trans ((sum_le_sum fun i _ => hd i).trans (le_of_eq ?_))
    simp
  unfold newDensity
  refine (mul_le_of_le_one_left (Real.exp_pos _).le (pow_le_one₀ (ratio_pos hb).le r1)).trans (Real.exp_le_exp.2 ?_)
  refine (neg_le_abs _).trans ?_
  rw [abs_mul]
  exact mul_le_mul_of_nonneg_left hE (abs_nonneg b)

/-- means over new chains -/
theorem newMean_eq {conf : Config ℝ} (v : ValidConf conf L s) (hb : conf.beta ≠ 0) {num : ℕ} {u0 zj zh : ℕ → ℝ}
    (hc : SpinChain.new conf num u0 zj zh = .ok c) {g : SpinChain ℝ → ℝ} (mg : Measurable fun u : Fin L → V3 ℝ => g (withSpins c u)) :
    newMean conf num zj zh L g = ∫ u, newDensity conf.beta L u * g (withSpins c u) ∂(Measure.pi fun _ => sphereMeasure) := by
  have mp := meas_path' conf.beta L startDir
  have e1 : newMean conf num zj zh L g = ∫ w, g (withSpins c (path conf.beta L startDir w)) ∂(Measure.pi fun _ => tripleMeasure) := by
    unfold newMean
    refine integral_congr_ae ((new_same v hb hc).mono fun w hw => ?_)
    dsimp only
    rw [hw]
  have e2 : (Measure.pi fun _ : Fin L => tripleMeasure).map (path conf.beta L startDir)
      = (Measure.pi fun _ : Fin L => sphereMeasure).withDensity fun u => ENNReal.ofReal (newDensity conf.beta L u) := by
    refine Measure.ext fun A hA => ?_
    have h := path_law hb L startDir_unit (f := A.indicator fun _ => 1) (measurable_const.indicator hA)
    rw [Measure.map_apply mp hA, withDensity_apply _ hA, ← lintegral_indicator hA, ← lintegral_indicator_one (mp hA)]
    refine Eq.trans ?_ (h.trans ?_)
    · rfl
    · refine lintegral_congr fun u => ?_
      by_cases hu : u ∈ A
      · rw [Set.indicator_of_mem hu, Set.indicator_of_mem hu, mul_one, newDensity_pw hb]
      · rw [Set.indicator_of_notMem hu, Set.indicator_of_notMem hu, mul_zero]
  rw [e1, ← integral_map (f := fun u => g (withSpins c u)) mp.aemeasurable mg.aestronglyMeasurable, e2,
    integral_withDensity_eq_integral_toReal_smul (newDensity_meas hb).ennreal_ofReal (Filter.Eventually.of_forall fun _ => ENNReal.ofReal_lt_top)]
  refine integral_congr_ae (Filter.Eventually.of_forall fun u => ?_)
  dsimp only
  rw [ENNReal.toReal_ofReal (newDensity_nonneg hb u), smul_eq_mul]

/-- C126, the start the program makes: a chain from `SpinChain::new`, whose couplings and fields are those of `c`, run at inverse
temperature `b`. -/
theorem C126_new (conf : Config ℝ) (L s : ℕ) (v : ValidConf conf L s) (hb0 : conf.beta ≠ 0) (num : ℕ) (u0 zj zh : ℕ → ℝ) (c : SpinChain ℝ)
    (hc : SpinChain.new conf num u0 zj zh = .ok c) (hL : 2 ≤ L) (b : ℝ) (hb : 0 ≤ b) (K : ℝ)
    (hK : ∀ i < L, len (J c i) + len (H0 c i) ≤ K) (f : SpinChain ℝ → ℝ) (C : ℝ) (hf : BoundedBy (atBeta c b) L C f) (n : ℕ) :
    |newMean conf num zj zh L (fun x => expectReal (fun c d => c.metropolis_update d) L f n (atBeta x b))
        - thermalMean (atBeta c b) L (wholeEnergy L) f|
      ≤ C * Real.exp ((|conf.beta| / 2 + b * K) * L) * (1 - mixRate b K L) ^ n := by
  have w : WF c L s := by
    obtain ⟨c', h1, h2⟩ := C11_new_wf' conf num u0 zj zh L s v.hsize v.L_lt v.ssize v.s_lt v.hfield v.hs v.jvar v.hvar
    rw [hc] at h1
    cases h1
    exact h2
  have wb : WF (atBeta c b) L s := ⟨w.hsize, w.ssize, w.L_lt, w.s_lt, w.spins, w.j, w.h, w.hs⟩
  have m := (expectReal_eq wb hL hb hK hf n).1
  rw [newMean_eq v hb0 hc m]
  have h := C126_start (atBeta c b) L s wb hL hb K hK f C hf (newDensity conf.beta L) (|conf.beta| * L) (newDensity_meas hb0)
    (fun v hv => ⟨newDensity_nonneg hb0 v, newDensity_le hb0 hv⟩) (newDensity_one hb0) n
  have e : |conf.beta| * L / 2 + (atBeta c b).vars.beta * K * L = (|conf.beta| / 2 + b * K) * L := by
    show |conf.beta| * L / 2 + b * K * L = _
    ring
  rw [e] at h
  exact h

/-- C126: a number of updates that suffices, of the order of the square of the number of sites. -/
theorem C126_updates (conf : Config ℝ) (L s : ℕ) (v : ValidConf conf L s) (hb0 : conf.beta ≠ 0) (num : ℕ) (u0 zj zh : ℕ → ℝ) (c : SpinChain ℝ)
    (hc : SpinChain.new conf num u0 zj zh = .ok c) (hL : 2 ≤ L) (b : ℝ) (hb : 0 ≤ b) (K : ℝ)
    (hK : ∀ i < L, len (J c i) + len (H0 c i) ≤ K) (f : SpinChain ℝ → ℝ) (C : ℝ) (hf : BoundedBy (atBeta c b) L C f) (δ : ℝ) (hδ : 0 < δ)
    (n : ℕ) (hn : 768 * Real.exp (26 * (b * K)) * L * ((|conf.beta| / 2 + b * K) * L + Real.log (1 / δ)) ≤ n) :
    |newMean conf num zj zh L (fun x => expectReal (fun c d => c.metropolis_update d) L f n (atBeta x b))
        - thermalMean (atBeta c b) L (wholeEnergy L) f| ≤ C * δ := by
  have h := C126_new conf L s v hb0 num u0 zj zh c hc hL b hb K hK f C hf n
  have C0 := hf.nonneg
  have K0 := K_nonneg hL hK
  have L0 : (0 : ℝ) < L := by exact_mod_cast (by omega : 0 < L)
  refine h.trans ?_
  rw [mul_assoc]
  refine mul_le_mul_of_nonneg_left ?_ C0
  have r1 := mixRate_le b K0 hL
  have hp : (1 - mixRate b K L) ^ n ≤ Real.exp (-(mixRate b K L * n)) := by
    have q : 1 - mixRate b K L ≤ Real.exp (-mixRate b K L) := by
      have := Real.add_one_le_exp (-mixRate b K L)
      linarith
    refine (pow_le_pow_left₀ (by linarith) q n).trans (le_of_eq ?_)
    rw [← Real.exp_nat_mul]
    congr 1
    ring
  have hm : (|conf.beta| / 2 + b * K) * L + Real.log (1 / δ) ≤ mixRate b K L * n := by
    have q := mul_le_mul_of_nonneg_left hn (mixRate_pos b K hL).le
    refine le_trans (le_of_eq ?_) q
    unfold mixRate
    rw [abs_of_nonneg hb, Real.exp_neg]
    have := (Real.exp_pos (26 * (b * K))).ne'
    field_simp
  refine (mul_le_mul_of_nonneg_left hp (Real.exp_pos _).le).trans ?_
  rw [← Real.exp_add, ← Real.le_log_iff_exp_le hδ]
  rw [one_div, Real.log_inv] at hm
  linarith

/-- non-vacuity: the height of a spin in the demonstration chain -/
example : WF demo 4 2 ∧ 2 ≤ 4 ∧ 0 ≤ demo.vars.beta ∧ (∀ i < 4, len (J demo i) + len (H0 demo i) ≤ 4) ∧
    BoundedBy demo 4 1 (fun x => (S x 2).z) ∧ 0 < mixRate demo.vars.beta 4 4 :=
  ⟨demo_wf, by norm_num, by simp [demo, demoVars], demo_strength, spinz_bounded demo (by norm_num), mixRate_pos _ _ (by norm_num)⟩

/-- non-vacuity: a chain made from the default configuration, at the inverse temperature one half -/
example : ∃ (zj zh u0 : ℕ → ℝ) (c : SpinChain ℝ) (K : ℝ), ValidConf (Config.default : Config ℝ) 512 8 ∧
    (Config.default : Config ℝ).beta ≠ 0 ∧ SpinChain.new Config.default 0 u0 zj zh = .ok c ∧
    (∀ i < 512, len (J c i) + len (H0 c i) ≤ K) ∧ BoundedBy (atBeta c (1 / 2)) 512 1 (fun x => (S x 2).z) := by
  have v : ValidConf (Config.default : Config ℝ) 512 8 :=
    ⟨rfl, rfl, by norm_num, by norm_num, by norm_num, by decide, by decide, rfl, rfl⟩
  obtain ⟨c, h, _⟩ := C11_new_wf' (Config.default : Config ℝ) 0 (fun _ => 0) (fun _ => 0) (fun _ => 0) 512 8 v.hsize v.L_lt v.ssize v.s_lt
    v.hfield v.hs v.jvar v.hvar
  exact ⟨_, _, _, c, ∑ i ∈ range 512, (len (J c i) + len (H0 c i)), v, by simp [Config.default]; norm_num, h,
    fun i hi => single_le_sum (f := fun i => len (J c i) + len (H0 c i))
      (fun j _ => add_nonneg (Real.sqrt_nonneg _) (Real.sqrt_nonneg _)) (mem_range.2 hi), spinz_bounded _ (by norm_num)⟩

end

end Verif.Props
