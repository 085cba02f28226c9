/-
Helper lemmas: chains between two chains, and covariances of the energy with a term at one site.
-/
import Verif.Spec.Quench
import Verif.Props.Cluster
import Mathlib.Analysis.Calculus.MeanValue

set_option linter.unusedSectionVars false

namespace Verif.Quench

open Spec MeasureTheory Props
open Finset hiding expect

section
variable {c c' : SpinChain ℝ} {L s : ℕ}

/-- the couplings and fields `a` of the way from `c` to `c'` -/
noncomputable def mixJ (c c' : SpinChain ℝ) (a : ℝ) (i : ℕ) : V3 ℝ := Spec.add (J c i) (smul a (sub (J c' i) (J c i)))
noncomputable def mixH (c c' : SpinChain ℝ) (a : ℝ) (i : ℕ) : V3 ℝ := Spec.add (H0 c i) (smul a (sub (H0 c' i) (H0 c i)))

/-- the chain `a` of the way from `c` to `c'` -/
noncomputable def mix (c c' : SpinChain ℝ) (L : ℕ) (a : ℝ) : SpinChain ℝ :=
  { c with
    j_couple := List.ofFn fun i : Fin L => mixJ c c' a i
    static_h := List.ofFn fun i : Fin L => mixH c c' a i }

/-- the chain whose couplings and fields are the differences -/
noncomputable def gap (c c' : SpinChain ℝ) (L : ℕ) : SpinChain ℝ :=
  { c with
    j_couple := List.ofFn fun i : Fin L => sub (J c' i) (J c i)
    static_h := List.ofFn fun i : Fin L => sub (H0 c' i) (H0 c i) }

theorem mix_wf (w : WF c L s) (a : ℝ) : WF (mix c c' L a) L s :=
  ⟨w.hsize, w.ssize, w.L_lt, w.s_lt, w.spins, by simp [mix], by simp [mix], w.hs⟩

theorem mix_J (a : ℝ) {i : ℕ} (hi : i < L) : J (mix c c' L a) i = mixJ c c' a i := by simp [J, mix, hi]
theorem mix_H (a : ℝ) {i : ℕ} (hi : i < L) : H0 (mix c c' L a) i = mixH c c' a i := by simp [H0, mix, hi]
theorem gap_J {i : ℕ} (hi : i < L) : J (gap c c' L) i = sub (J c' i) (J c i) := by simp [J, gap, hi]
theorem gap_H {i : ℕ} (hi : i < L) : H0 (gap c c' L) i = sub (H0 c' i) (H0 c i) := by simp [H0, gap, hi]

theorem len_way (x y : V3 ℝ) {a : ℝ} (h0 : 0 ≤ a) (h1 : a ≤ 1) : len (Spec.add x (smul a (sub y x))) ≤ (1 - a) * len x + a * len y := by
  have e : Spec.add x (smul a (sub y x)) = Spec.add (smul (1 - a) x) (smul a y) := by
    ext <;> simp only [Spec.add, smul, sub] <;> ring
  rw [e]
  refine (len_add_le _ _).trans ?_
  rw [len_smul, len_smul, abs_of_nonneg h0, abs_of_nonneg (by linarith : 0 ≤ 1 - a)]

theorem mix_bound {K : ℝ} (hK : ∀ i < L, len (J c i) + len (H0 c i) ≤ K) (hK' : ∀ i < L, len (J c' i) + len (H0 c' i) ≤ K) {a : ℝ}
    (h0 : 0 ≤ a) (h1 : a ≤ 1) (i : ℕ) (hi : i < L) : len (J (mix c c' L a) i) + len (H0 (mix c c' L a) i) ≤ K := by
  rw [mix_J a hi, mix_H a hi]
  have g1 := len_way (J c i) (J c' i) h0 h1
  have g2 := len_way (H0 c i) (H0 c' i) h0 h1
  have g3 := mul_le_mul_of_nonneg_left (hK i hi) (by linarith : 0 ≤ 1 - a)
  have g4 := mul_le_mul_of_nonneg_left (hK' i hi) h0
  unfold mixJ mixH
  linarith

/-- energy of the differences -/
noncomputable def diff (c c' : SpinChain ℝ) (L : ℕ) (v : Fin L → V3 ℝ) : ℝ := ∑ i ∈ range L, energyTerm (gap c c' L) L i (withSpins c v)

theorem diff_ring (v : Fin L → V3 ℝ) : diff c c' L v = ringEnergy L (fld v) (J (gap c c' L)) (H0 (gap c c' L)) := by
  unfold diff ringEnergy
  refine sum_congr rfl fun i _ => ?_
  unfold energyTerm
  rw [S_fld]
  rfl

theorem whole_mix (w : WF c L s) (hL : 2 ≤ L) (a : ℝ) (v : Fin L → V3 ℝ) :
    wholeEnergy L (withSpins (mix c c' L a) v) = ringEnergy L (fld v) (J c) (H0 c) + a * diff c c' L v := by
  rw [whole_ring (mix_wf w a) hL, diff_ring]
  unfold ringEnergy
  rw [mul_sum, ← sum_add_distrib]
  refine sum_congr rfl fun i hi => ?_
  have hi := mem_range.1 hi
  rw [mix_J a hi, mix_H a hi, gap_J hi, gap_H hi]
  simp only [mixJ, mixH, dot, had, smul, sub, Spec.add]
  ring

theorem diff_term_reads (c c' : SpinChain ℝ) {i : ℕ} (hi : i < L) : ReadsBlock L i 2 (energyTerm (gap c c' L) L i) :=
  energyTerm_reads _ L hi

theorem diff_term_bounded (x : SpinChain ℝ) {i : ℕ} (hi : i < L) : BoundedBy x L (change c c' i) (energyTerm (gap c c' L) L i) := by
  have hj : (i + 1) % L < L := Nat.mod_lt _ (by omega)
  have e : ∀ v : Fin L → V3 ℝ, energyTerm (gap c c' L) L i (withSpins x v)
      = bondAt (gap c c' L) i (v ⟨i, hi⟩) (v ⟨(i + 1) % L, hj⟩) := fun v => by
    unfold energyTerm
    rw [S_fld]
    unfold fld
    rw [dif_pos hi, dif_pos hj]
  constructor
  · simp only [e]
    have ma : ∀ k : Fin L, Measurable fun v : Fin L → V3 ℝ => v k := fun k => measurable_pi_apply k
    exact (bondAt_meas _ i).comp ((ma _).prodMk (ma _))
  · intro v hv
    rw [e]
    exact bondAt_bound (by rw [gap_J hi, gap_H hi]; rfl) (hv _) (hv _)

/-- covariance of an observable of one site and its right neighbour with the terms of a sum -/
theorem cov_line (w : WF c L s) (hL : 2 ≤ L) {K : ℝ} (hK : ∀ i < L, len (J c i) + len (H0 c i) ≤ K) {C C' : ℝ} (C0 : 0 ≤ C)
    {f : ℕ → SpinChain ℝ → ℝ} {g : SpinChain ℝ → ℝ} (hf : ∀ i < L, BoundedBy c L C (f i)) (rf : ∀ i < L, ReadsBlock L i 2 (f i)) {i : ℕ}
    (hg : BoundedBy c L C' g) (rg : ReadsBlock L i 2 g) :
    |∑ j ∈ range L, thermalCov c L (wholeEnergy L) (f j) g| ≤ perSite c.vars.beta K * (C * C') := by
  have K0 := K_nonneg hL hK
  have C0 : 0 ≤ C * C' := mul_nonneg C0 hg.nonneg
  have triv : ∀ m, |thermalCov c L (wholeEnergy L) (f ((i + m) % L)) g| ≤ 2 * (C * C') := fun m =>
    thermal_cov_abs w hL (hf _ (Nat.mod_lt _ (by omega))) hg
  have A0 := Real.exp_pos (4 * (|c.vars.beta| * K))
  have B0 := Real.exp_pos (6 * (|c.vars.beta| * K))
  rw [sum_turn (by omega : 0 < L) i]
  refine (Finset.abs_sum_le_sum_abs _ _).trans ?_
  rcases Nat.lt_or_ge L 3 with h3 | h3
  · obtain rfl : L = 2 := by omega
    rw [Finset.sum_range_succ, Finset.sum_range_succ, Finset.sum_range_zero]
    have h1 := triv 0
    have h2 := triv 1
    have h4 : 6 * (C * C') ≤ perSite c.vars.beta K * (C * C') := by
      refine mul_le_mul_of_nonneg_right ?_ C0
      unfold perSite
      nlinarith
    linarith
  · obtain ⟨l, hl⟩ : ∃ l, l + 3 = L := ⟨L - 3, by omega⟩
    have h5 : ∑ m ∈ range L, |thermalCov c L (wholeEnergy L) (f ((i + m) % L)) g| =
        ∑ m ∈ range l, |thermalCov c L (wholeEnergy L) (f ((i + (m + 2)) % L)) g| +
          |thermalCov c L (wholeEnergy L) (f ((i + (l + 2)) % L)) g| + |thermalCov c L (wholeEnergy L) (f ((i + 1) % L)) g|
            + |thermalCov c L (wholeEnergy L) (f ((i + 0) % L)) g| := by
      have : ∀ g : ℕ → ℝ, ∑ m ∈ range L, g m = ∑ m ∈ range l, g (m + 2) + g (l + 2) + g 1 + g 0 := fun g => by
        rw [← hl, Finset.sum_range_succ', Finset.sum_range_succ', Finset.sum_range_succ]
      exact this fun m => |thermalCov c L (wholeEnergy L) (f ((i + m) % L)) g|
    rw [h5]
    have off : ∀ m < l, |thermalCov c L (wholeEnergy L) (f ((i + (m + 2)) % L)) g| ≤ (influence c.vars.beta K m +
        (1 + Real.exp (4 * (|c.vars.beta| * K))) * influence c.vars.beta K (l - 1 - m)) * (C * C') := fun m hm => by
      have hj : (i + (m + 2)) % L < L := Nat.mod_lt _ (by omega)
      have rf' : ReadsBlock L (i + 2 + m) 2 (f ((i + (m + 2)) % L)) := fun x x' h => rf _ hj x x' fun j hj => by
        have := h j hj
        rw [Nat.mod_add_mod]
        rwa [show i + (m + 2) + j = i + 2 + m + j by ring]
      rw [thermal_cov_comm, mul_comm C C']
      rw [mul_comm C C'] at C0
      refine (C124_correlations c L s w hL K hK i 2 m 2 (l - 1 - m) (by omega) (by omega) (by omega) _ _ C' C hg (hf _ hj)
        rg rf').trans (mul_le_mul_of_nonneg_right ?_ C0)
      have h1 : influence c.vars.beta K m ≤ Real.exp (4 * (|c.vars.beta| * K)) := by
        have := influence_anti c.vars.beta K0 (Nat.zero_le m)
        simpa [influence] using this
      have h2 := mul_le_mul_of_nonneg_right h1 (influence_nonneg c.vars.beta K0 (l - 1 - m))
      linarith
    have h6 : ∑ m ∈ range l, |thermalCov c L (wholeEnergy L) (f ((i + (m + 2)) % L)) g| ≤
        (2 + Real.exp (4 * (|c.vars.beta| * K))) * Real.exp (6 * (|c.vars.beta| * K)) * (C * C') := by
      refine (Finset.sum_le_sum fun m hm => off m (mem_range.1 hm)).trans ?_
      rw [← Finset.sum_mul, Finset.sum_add_distrib, ← Finset.mul_sum,
        Finset.sum_range_reflect (fun m => influence c.vars.beta K m) l]
      refine mul_le_mul_of_nonneg_right ?_ C0
      have := influence_sum c.vars.beta K0 l
      nlinarith [mul_le_mul_of_nonneg_left this A0.le]
    have h7 := triv 0
    have h8 := triv 1
    have h9 := triv (l + 2)
    unfold perSite
    nlinarith

theorem BoundedBy_mono {C C' : ℝ} {f : SpinChain ℝ → ℝ} (h : BoundedBy c L C f) (hC : C ≤ C') : BoundedBy c L C' f :=
  ⟨h.meas, fun v hv => (h.bound v hv).trans hC⟩

/-- the energy and the energy of the differences -/
theorem cov_diff (w : WF c L s) (hL : 2 ≤ L) {K : ℝ} (hK : ∀ i < L, len (J c i) + len (H0 c i) ≤ K)
    (hK' : ∀ i < L, len (J c' i) + len (H0 c' i) ≤ K) {a : ℝ} (h0 : 0 ≤ a) (h1 : a ≤ 1) :
    |thermalCov (mix c c' L a) L (wholeEnergy L) (wholeEnergy L) fun x => ∑ i ∈ range L, energyTerm (gap c c' L) L i x|
      ≤ perSite c.vars.beta K * K * ∑ i ∈ range L, change c c' i := by
  set m := mix c c' L a with hm
  have wm := mix_wf (c' := c') w a
  have bm := mix_bound hK hK' h0 h1
  have K0 := K_nonneg hL hK
  set D := ∑ i ∈ range L, change c c' i with hD
  have ch0 : ∀ i, 0 ≤ change c c' i := fun i => add_nonneg (len_nonneg _) (len_nonneg _)
  have chD : ∀ i < L, change c c' i ≤ D := fun i hi => single_le_sum (fun j _ => ch0 j) (mem_range.2 hi)
  have bE : ∀ i < L, BoundedBy m L K (energyTerm m L i) := fun i hi => energyTerm_bounded bm hi
  have bX : ∀ i < L, BoundedBy m L D (energyTerm (gap c c' L) L i) := fun i hi => BoundedBy_mono (diff_term_bounded m hi) (chD i hi)
  rw [thermal_cov_congr (c := m) (f' := fun x => ∑ i ∈ range L, energyTerm m L i x)
    (g' := fun x => ∑ i ∈ range L, energyTerm (gap c c' L) L i x) (whole_terms wm hL) fun _ => rfl]
  rw [thermal_cov_comm, thermal_cov_sum wm hL L bX (bounded_sum L bE)]
  refine (abs_sum_le_sum_abs _ _).trans ?_
  rw [hD, mul_sum]
  refine sum_le_sum fun i hi => ?_
  have hi := mem_range.1 hi
  rw [thermal_cov_comm, thermal_cov_sum wm hL L bE (bX i hi)]
  have := cov_line wm hL bm K0 bE (fun j hj => energyTerm_reads m L hj) (diff_term_bounded m hi) (diff_term_reads c c' hi)
  refine this.trans (le_of_eq ?_)
  rw [mul_assoc]
  rfl

theorem diff_tame (c c' : SpinChain ℝ) (L : ℕ) : Tame (diff c c' L) := by
  have := ring_tame (J (gap c c' L)) (H0 (gap c c' L)) L
  simpa only [← diff_ring] using this

theorem thermal_mix (w : WF c L s) (hL : 2 ≤ L) (a : ℝ) (g : SpinChain ℝ → ℝ) :
    thermalMean (mix c c' L a) L (wholeEnergy L) g
      = Response.mean (Measure.pi fun _ : Fin L => sphereMeasure) c.vars.beta
        (fun v => ringEnergy L (fld v) (J c) (H0 c) + a * diff c c' L v) fun v => g (withSpins (mix c c' L a) v) := by
  unfold thermalMean Response.mean
  simp only [whole_mix w hL]
  rfl

theorem diff_sum (x : SpinChain ℝ) (v : Fin L → V3 ℝ) :
    ∑ i ∈ range L, energyTerm (gap c c' L) L i (withSpins x v) = diff c c' L v := by
  unfold diff
  refine sum_congr rfl fun i _ => ?_
  unfold energyTerm
  rw [S_fld, S_fld]

/-- how the mean energy changes on the way -/
theorem path_deriv (w : WF c L s) (hL : 2 ≤ L) (a : ℝ) :
    HasDerivAt (fun a => thermalMean (mix c c' L a) L (wholeEnergy L) (wholeEnergy L))
      (thermalMean (mix c c' L a) L (wholeEnergy L) (fun x => ∑ i ∈ range L, energyTerm (gap c c' L) L i x)
        - c.vars.beta * thermalCov (mix c c' L a) L (wholeEnergy L) (wholeEnergy L)
          fun x => ∑ i ∈ range L, energyTerm (gap c c' L) L i x) a := by
  have tE := ring_tame (J c) (H0 c) L
  have tX := diff_tame c c' L
  obtain ⟨D, hD⟩ := tE.bound
  obtain ⟨DX, hX⟩ := tX.bound
  have hD : ∀ᵐ v ∂(Measure.pi fun _ : Fin L => sphereMeasure), |ringEnergy L (fld v) (J c) (H0 c)| ≤ D := units_ae.mono fun v hv => hD v hv
  have hX : ∀ᵐ v ∂(Measure.pi fun _ : Fin L => sphereMeasure), |diff c c' L v| ≤ DX := units_ae.mono fun v hv => hX v hv
  have d1 := Response.mean_deriv c.vars.beta tE.meas tX.meas tE.meas hD hX hD a
  have d2 := Response.mean_deriv c.vars.beta tE.meas tX.meas tX.meas hD hX hX a
  have mT : ∀ a : ℝ, Measurable fun v : Fin L → V3 ℝ => ringEnergy L (fld v) (J c) (H0 c) + a * diff c c' L v :=
    fun a => tE.meas.add (tX.meas.const_mul a)
  have bT := Response.tilt_bound hD hX
  have split : ∀ (a : ℝ) (h : (Fin L → V3 ℝ) → ℝ) (M : ℝ), Measurable h →
      (∀ᵐ v ∂(Measure.pi fun _ : Fin L => sphereMeasure), |h v| ≤ M) →
      Response.mean (Measure.pi fun _ : Fin L => sphereMeasure) c.vars.beta
        (fun v => ringEnergy L (fld v) (J c) (H0 c) + a * diff c c' L v)
        (fun v => (ringEnergy L (fld v) (J c) (H0 c) + a * diff c c' L v) * h v)
      = Response.mean (Measure.pi fun _ : Fin L => sphereMeasure) c.vars.beta
        (fun v => ringEnergy L (fld v) (J c) (H0 c) + a * diff c c' L v) (fun v => ringEnergy L (fld v) (J c) (H0 c) * h v)
      + a * Response.mean (Measure.pi fun _ : Fin L => sphereMeasure) c.vars.beta
        (fun v => ringEnergy L (fld v) (J c) (H0 c) + a * diff c c' L v) (fun v => diff c c' L v * h v) := by
    intro a h M mh hM
    have m1 : Measurable fun v => ringEnergy L (fld v) (J c) (H0 c) * h v := tE.meas.mul mh
    have m2 : Measurable fun v => a * (diff c c' L v * h v) := (tX.meas.mul mh).const_mul a
    rw [← Response.mean_smul, ← Response.mean_add (M := D * M) (N := |a| * (DX * M)) _ (mT a) (bT a) m1 m2]
    · refine Response.mean_congr _ (.of_forall fun v => ?_)
      ring
    · filter_upwards [hD, hM] with v h1 h2
      exact Cluster.mul_abs h1 h2
    · filter_upwards [hX, hM] with v h1 h2
      rw [abs_mul]
      exact mul_le_mul_of_nonneg_left (Cluster.mul_abs h1 h2) (abs_nonneg a)
  have e : ∀ a, thermalMean (mix c c' L a) L (wholeEnergy L) (wholeEnergy L)
      = Response.mean (Measure.pi fun _ : Fin L => sphereMeasure) c.vars.beta
        (fun v => ringEnergy L (fld v) (J c) (H0 c) + a * diff c c' L v) (fun v => ringEnergy L (fld v) (J c) (H0 c))
      + a * Response.mean (Measure.pi fun _ : Fin L => sphereMeasure) c.vars.beta
        (fun v => ringEnergy L (fld v) (J c) (H0 c) + a * diff c c' L v) (fun v => diff c c' L v) := fun a => by
    have := split a (fun _ => 1) 1 measurable_const (.of_forall fun _ => by simp)
    simp only [mul_one] at this
    rw [thermal_mix w hL, ← this]
    simp only [whole_mix w hL]
  have d3 := d1.add ((hasDerivAt_id a).mul d2)
  have f1 : (fun a => thermalMean (mix c c' L a) L (wholeEnergy L) (wholeEnergy L)) = _ := funext e
  rw [f1]
  refine HasDerivAt.congr_deriv d3 ?_
  unfold thermalCov
  rw [e a, thermal_mix w hL, thermal_mix w hL]
  have s2 := split a (diff c c' L) DX tX.meas hX
  simp only [whole_mix w hL, diff_sum]
  rw [s2]
  simp only [id]
  ring

end

end Verif.Quench
