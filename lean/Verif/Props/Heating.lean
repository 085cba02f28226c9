/-
C121, continued: when a drive heats a thermal state, and by how much at most (/repo/src/spinchain.rs `update`).
-/
import Verif.Props.SecondLaw
import Verif.Props.LightCone
import Verif.Props.FastDrive
import Mathlib.Analysis.Real.Pi.Bounds

set_option linter.unusedSectionVars false

namespace Verif.Props

open Spec MeasureTheory LightCone Filter Topology

section
variable {c : SpinChain ℝ} {L s : ℕ}

/-- spins from drawn numbers -/
noncomputable def pointSpins (p : Fin L → ℝ × ℝ) : Fin L → V3 ℝ := fun i => spherePoint (p i).1 (p i).2

theorem pointSpins_cont (k : ℕ) : (Continuous fun p : Fin L → ℝ × ℝ => (fld (pointSpins p) k).x) ∧
    (Continuous fun p : Fin L → ℝ × ℝ => (fld (pointSpins p) k).y) ∧ Continuous fun p : Fin L → ℝ × ℝ => (fld (pointSpins p) k).z := by
  unfold fld pointSpins
  by_cases h : k < L
  · simp only [h, dite_true]
    unfold spherePoint
    refine ⟨?_, ?_, ?_⟩ <;> fun_prop
  · simp only [h, dite_false]
    exact ⟨continuous_const, continuous_const, continuous_const⟩

theorem pointSpins_unit {p : Fin L → ℝ × ℝ} (hp : ∀ i, p i ∈ Set.Icc (0 : ℝ) 1 ×ˢ Set.Icc (0 : ℝ) 1) (i : Fin L) :
    len (pointSpins p i) = 1 := sphere_unit (hp i).2.1 (hp i).2.2

theorem near_weight {P : (Fin L → V3 ℝ) → Prop} (mP : MeasurableSet {v | P v}) {p : Fin L → ℝ × ℝ}
    (hp : ∀ i, p i ∈ Set.Icc (0 : ℝ) 1 ×ˢ Set.Icc (0 : ℝ) 1) (h : ∀ᶠ q in 𝓝 p, P (pointSpins q)) :
    0 < (Measure.pi fun _ : Fin L => sphereMeasure) {v | P v} := by
  have msp : Measurable fun q : ℝ × ℝ => spherePoint q.1 q.2 := measurable_spherePoint
  have mp : MeasurePreserving (fun (q : Fin L → ℝ × ℝ) i => spherePoint (q i).1 (q i).2)
      (Measure.pi fun _ => (volume.restrict (Set.Ico (0 : ℝ) 1)).prod (volume.restrict (Set.Ico (0 : ℝ) 1)))
      (Measure.pi fun _ => sphereMeasure) :=
    measurePreserving_pi _ _ (f := fun _ (q : ℝ × ℝ) => spherePoint q.1 q.2) fun _ => ⟨msp, rfl⟩
  rw [← mp.measure_preimage mP.nullMeasurableSet, Measure.prod_restrict, ← Measure.restrict_pi_pi,
    Measure.restrict_apply (mp.measurable mP)]
  obtain ⟨O, hO1, hO2, hO3⟩ := mem_nhds_iff.1 h
  have cl : p ∈ closure (Set.univ.pi fun _ : Fin L => Set.Ioo (0 : ℝ) 1 ×ˢ Set.Ioo (0 : ℝ) 1) := by
    rw [closure_pi_set]
    simp only [closure_prod_eq, closure_Ioo zero_ne_one]
    exact fun i _ => hp i
  obtain ⟨q, hq1, hq2⟩ := mem_closure_iff.1 cl _ hO2 hO3
  have ho : IsOpen (O ∩ Set.univ.pi fun _ : Fin L => Set.Ioo (0 : ℝ) 1 ×ˢ Set.Ioo (0 : ℝ) 1) :=
    hO2.inter (isOpen_set_pi Set.finite_univ fun _ _ => isOpen_Ioo.prod isOpen_Ioo)
  refine (ho.measure_pos _ ⟨q, hq1, hq2⟩).trans_le (measure_mono ?_)
  refine Set.inter_subset_inter (fun _ hx => hO1 hx) (Set.pi_mono fun _ _ => ?_)
  exact Set.prod_mono Set.Ioo_subset_Ico_self Set.Ioo_subset_Ico_self

/-- the run depends continuously on the drawn numbers -/
theorem flow_cont (hL : 2 ≤ L) (he : L % 2 = 0) (h0 : 0 ≤ c.vars.dt) (n : ℕ) {p0 : Fin L → ℝ × ℝ}
    (hp : ∀ i, p0 i ∈ Set.Icc (0 : ℝ) 1 ×ˢ Set.Icc (0 : ℝ) 1) (k : ℕ) (hk : k < L) :
    Tendsto (fun p : Fin L → ℝ × ℝ => len (sub (fld (flow c L s n (pointSpins p)) k) (fld (flow c L s n (pointSpins p0)) k)))
      (𝓝 p0) (𝓝 0) := by
  have em : 2 * (L / 2) = L := by omega
  have z : ∀ x : V3 ℝ, len (sub x x) = 0 := fun x => by simp [len, dot, sub]
  set K := ∑ i ∈ Finset.range L, len (J c i)
  have hJ : ∀ k, len (around L (J c) k) ≤ K := fun k =>
    Finset.single_le_sum (f := fun i => len (J c i)) (fun i _ => len_nonneg _) (Finset.mem_range.2 (by have := idx_lt hL k; omega))
  set E : (Fin L → ℝ × ℝ) → ℝ := fun p => ∑ i ∈ Finset.range L, len (sub (fld (pointSpins p) i) (fld (pointSpins p0) i))
  have hE : Tendsto E (𝓝 p0) (𝓝 0) := by
    have cE : Continuous E := by
      refine continuous_finsetSum _ fun i _ => ?_
      obtain ⟨a1, a2, a3⟩ := pointSpins_cont (L := L) i
      unfold len dot sub
      fun_prop
    have := cE.tendsto p0
    simpa only [E, z, Finset.sum_const_zero] using this
  have hE2 := hE.mul_const (Real.exp (4 * K * Real.exp 0 * (n * c.vars.dt)))
  rw [zero_mul] at hE2
  refine squeeze_zero (fun _ => len_nonneg _) (fun p => ?_) hE2
  have h := flow_spread (c := c) (c2 := c) (s := s) (s2 := s) (v := pointSpins p) (v2 := pointSpins p0) (a := 0) (K := K) (G := 0)
    (d := fun _ => 0) (W := E p) hL hL rfl h0 (pointSpins_unit hp)
    (fun u => ⟨le_rfl, le_rfl, fun _ => by simp, hJ, fun k => by rw [z, z, z]; simp⟩)
    (Finset.sum_nonneg fun _ _ => len_nonneg _) (fun k => by
      rw [zero_mul, neg_zero, Real.exp_zero, mul_one]
      exact Finset.single_le_sum (f := fun i => len (sub (fld (pointSpins p) i) (fld (pointSpins p0) i))) (fun i _ => len_nonneg _)
        (Finset.mem_range.2 (by have := idx_lt hL k; omega))) n k
  rw [around_nat (by omega), around_nat (by omega)] at h
  refine h.trans (le_of_eq ?_)
  simp

/-- so does the energy at its end -/
theorem energy_cont (hL : 2 ≤ L) (he : L % 2 = 0) (h0 : 0 ≤ c.vars.dt) (n : ℕ) {p0 : Fin L → ℝ × ℝ}
    (hp : ∀ i, p0 i ∈ Set.Icc (0 : ℝ) 1 ×ˢ Set.Icc (0 : ℝ) 1) (J' B' : ℕ → V3 ℝ) :
    Tendsto (fun p : Fin L → ℝ × ℝ => ringEnergy L (fld (flow c L s n (pointSpins p))) J' B') (𝓝 p0)
      (𝓝 (ringEnergy L (fld (flow c L s n (pointSpins p0))) J' B')) := by
  have key : ∀ k < L, Tendsto (fun p : Fin L → ℝ × ℝ => (fld (flow c L s n (pointSpins p)) k).x) (𝓝 p0)
        (𝓝 (fld (flow c L s n (pointSpins p0)) k).x) ∧
      Tendsto (fun p : Fin L → ℝ × ℝ => (fld (flow c L s n (pointSpins p)) k).y) (𝓝 p0)
        (𝓝 (fld (flow c L s n (pointSpins p0)) k).y) ∧
      Tendsto (fun p : Fin L → ℝ × ℝ => (fld (flow c L s n (pointSpins p)) k).z) (𝓝 p0)
        (𝓝 (fld (flow c L s n (pointSpins p0)) k).z) := by
    intro k hk
    have h := flow_cont (s := s) hL he h0 n hp k hk
    refine ⟨?_, ?_, ?_⟩ <;> rw [tendsto_iff_dist_tendsto_zero] <;>
      refine squeeze_zero (fun _ => dist_nonneg) (fun p => ?_) h <;> rw [Real.dist_eq]
    · exact (abs_le_len (sub (fld (flow c L s n (pointSpins p)) k) (fld (flow c L s n (pointSpins p0)) k))).1
    · exact (abs_le_len (sub (fld (flow c L s n (pointSpins p)) k) (fld (flow c L s n (pointSpins p0)) k))).2.1
    · exact (abs_le_len (sub (fld (flow c L s n (pointSpins p)) k) (fld (flow c L s n (pointSpins p0)) k))).2.2
  unfold ringEnergy dot had
  refine tendsto_finsetSum _ fun i hi => ?_
  have hi := Finset.mem_range.1 hi
  obtain ⟨a1, a2, a3⟩ := key i hi
  obtain ⟨b1, b2, b3⟩ := key ((i + 1) % L) (Nat.mod_lt _ (by omega))
  exact (((a1.mul (tendsto_const_nhds.mul b1)).add (a2.mul (tendsto_const_nhds.mul b2))).add
    (a3.mul (tendsto_const_nhds.mul b3))).neg.add
    (((tendsto_const_nhds.mul a1).add (tendsto_const_nhds.mul a2)).add (tendsto_const_nhds.mul a3))

end

/-- C121, when it heats: if there is a single state of unit spins whose energy is changed by the run, then the mean energy
of the thermal state rises. -/
theorem C121_heats (c : SpinChain ℝ) (L s n : ℕ) (w : WF c L s) (hL : 4 ≤ L) (he : L % 2 = 0)
    (hJ : ∀ i < 2 * (L / 2), J c i ≠ zero) (hb : 0 < c.vars.beta) (h0 : 0 ≤ c.vars.dt)
    (v : Fin L → V3 ℝ) (hv : ∀ i, len (v i) = 1) (hr : RegularRun (withSpins c v) L s n) (c' : SpinChain ℝ)
    (h : (withSpins c v).updates n = .ok c') (hne : c'.mc_total_energy ≠ (withSpins c v).mc_total_energy) :
    thermalMean c L (wholeEnergy L) (wholeEnergy L) < thermalMean c L (wholeEnergy L) (afterRun n (wholeEnergy L)) := by
  have h1 := nonneg_of_mul_nonneg_right (C121_heating c L s n w hL hJ) hb
  refine lt_of_le_of_ne (sub_nonneg.1 h1) fun heq => ?_
  have h2 := C121_strict c L s n w hL hJ hb.ne' heq.symm
  have hE : Measurable fun v : Fin L → V3 ℝ => wholeEnergy L (withSpins c v) := (whole_tame w (by omega : 2 ≤ L)).meas
  have hEf : Measurable fun v : Fin L → V3 ℝ => wholeEnergy L (withSpins c (flow c L s n v)) :=
    hE.comp (flow_preserving c L s n).measurable
  have h3 : ∀ᵐ v ∂(Measure.pi fun _ : Fin L => sphereMeasure),
      wholeEnergy L (withSpins c (flow c L s n v)) = wholeEnergy L (withSpins c v) := by
    filter_upwards [h2, after_ae w hL hJ n] with v ⟨c1, a1, a2⟩ ⟨c2, b1, b2⟩
    rw [a1] at b1
    cases b1
    rw [← b2]
    unfold wholeEnergy
    rw [a2]
  obtain ⟨c1, k1, k2⟩ := run_flow w (by omega : 2 ≤ L) hv hr
  rw [h] at k1
  cases k1
  have wne : wholeEnergy L (withSpins c (flow c L s n v)) ≠ wholeEnergy L (withSpins c v) := by
    intro hc
    apply hne
    have w1 := updates_wf (withSpins_wf w v) h
    obtain ⟨a1, a2, -⟩ := updates_frame h
    have eH : H0 c' = H0 c := by funext i; unfold H0; rw [a2]; rfl
    rw [whole_ring w (by omega), whole_ring w (by omega)] at hc
    rw [mc_total_energy_eq w1 (by omega), mc_total_energy_eq (withSpins_wf w v) (by omega), k2, J_congr a1, eH, S_fld]
    show Except.ok (ringEnergy L _ (J c) (H0 c) / _) = Except.ok (ringEnergy L _ (J c) (H0 c) / _)
    rw [hc]
  obtain ⟨p, hp, rfl⟩ := config_point v hv
  have hpos := near_weight (P := fun v => wholeEnergy L (withSpins c (flow c L s n v)) ≠ wholeEnergy L (withSpins c v))
    (measurableSet_eq_fun hEf hE).compl hp (by
      have t1 := energy_cont (s := s) (c := c) (by omega : 2 ≤ L) he h0 n hp (J c) (H0 c)
      have t2 := energy_cont (s := s) (c := c) (by omega : 2 ≤ L) he h0 0 hp (J c) (H0 c)
      simp only [← whole_ring w (by omega : 2 ≤ L)] at t1 t2
      have t3 := (t1.sub t2).eventually_ne (sub_ne_zero.2 wne)
      filter_upwards [t3] with q hq
      exact sub_ne_zero.1 hq)
  exact hpos.ne' (ae_iff.1 h3)

/-- C121, slow heating by fast drives: the energy that a thermal state takes up from an oscillating drive of period `tau`
within the time `t = n dt` is between zero and `L (K tau (1 + t) + K' dt^2)`, where `K` does not depend on the period, the
temperature, the time-step or the duration. -/
theorem C121_slow (c0 : SpinChain ℝ) (L s : ℕ) (hL : 4 ≤ L) (he : L % 2 = 0) (hs : s ≤ L) (ho : Oscillating c0.vars)
    (hJ : ∀ i < 2 * (L / 2), J c0 i ≠ zero) :
    ∃ K, 0 ≤ K ∧ ∀ tau T, 0 < tau → ∃ K', 0 ≤ K' ∧ ∀ (c : SpinChain ℝ) (n : ℕ) (beta : ℝ), WF c L s → SameUpToPeriod c0 c →
      c.vars.tau = tau → 0 < c.vars.dt → n * c.vars.dt ≤ T → 0 < beta →
      0 ≤ thermalMean (atBeta c beta) L (wholeEnergy L) (afterRun n (wholeEnergy L))
        - thermalMean (atBeta c beta) L (wholeEnergy L) (wholeEnergy L) ∧
      thermalMean (atBeta c beta) L (wholeEnergy L) (afterRun n (wholeEnergy L))
        - thermalMean (atBeta c beta) L (wholeEnergy L) (wholeEnergy L)
        ≤ L * (K * tau * (1 + n * c.vars.dt) + K' * c.vars.dt ^ 2) := by
  obtain ⟨K, hK, h⟩ := C120_program c0 L s (by omega) he hs ho
  refine ⟨K, hK, fun tau T htau => ?_⟩
  obtain ⟨K', hK', h'⟩ := h tau T htau
  refine ⟨K', hK', fun c n beta w hc hct hdt hn hb => ?_⟩
  have hJc : J c = J c0 := J_congr hc.j
  have wb : WF (atBeta c beta) L s := ⟨w.hsize, w.ssize, w.L_lt, w.s_lt, w.spins, w.j, w.h, w.hs⟩
  have hJb : ∀ i < 2 * (L / 2), J (atBeta c beta) i ≠ zero := fun i hi => by
    show J c i ≠ zero
    rw [hJc]
    exact hJ i hi
  have hL0 : (0 : ℝ) < L := by exact_mod_cast (by omega : 0 < L)
  refine ⟨nonneg_of_mul_nonneg_right (C121_heating (atBeta c beta) L s n wb hL hJb) hb, ?_⟩
  set M := K * tau * (1 + n * c.vars.dt) + K' * c.vars.dt ^ 2
  have fl : ∀ m, flow (atBeta c beta) L s m = flow c L s m := by
    intro m
    induction m with
    | zero => rfl
    | succ m ih =>
      funext v
      show stepFin _ _ _ _ (flow (atBeta c beta) L s m v) = stepFin _ _ _ _ (flow c L s m v)
      rw [ih]
      rfl
  have wh : ∀ v : Fin L → V3 ℝ, wholeEnergy L (withSpins (atBeta c beta) v) = wholeEnergy L (withSpins c v) := fun v => by
    rw [whole_ring wb (by omega), whole_ring w (by omega)]
    rfl
  -- the energy taken up from each state
  have pw : ∀ᵐ v ∂(Measure.pi fun _ : Fin L => sphereMeasure),
      wholeEnergy L (withSpins c (flow c L s n v)) ≤ wholeEnergy L (withSpins c v) + L * M := by
    filter_upwards [C86_generic c L s w hL (fun i hi => by rw [hJc]; exact hJ i hi)] with v hv
    obtain ⟨c', h1, h2⟩ := run_flow w (by omega) hv.1 (hv.2 n)
    obtain ⟨a1, a2, -⟩ := updates_frame h1
    have eH : H0 c' = H0 c := by funext i; unfold H0; rw [a2]; rfl
    have w1 := updates_wf (withSpins_wf w v) h1
    have m1 := mc_total_energy_eq (withSpins_wf w v) (by omega : 1 ≤ L)
    have m2 := mc_total_energy_eq w1 (by omega : 1 ≤ L)
    have hb := (h' (withSpins c v) c' n _ _ (withSpins_wf w v) ⟨hc.j, hc.h, hc.v⟩ hct (unit_withSpins hv.1) hdt hn (hv.2 n) h1
      m1 m2).1
    rw [h2, S_fld, J_congr a1, eH, ← sub_div, abs_div, abs_of_pos hL0, div_le_iff₀ hL0] at hb
    have hb := (abs_le.1 hb).2
    rw [whole_ring w (by omega), whole_ring w (by omega)]
    change ringEnergy L _ (J c) (H0 c) - ringEnergy L _ (J c) (H0 c) ≤ M * L at hb
    linarith
  have hE : Measurable fun v : Fin L → V3 ℝ => wholeEnergy L (withSpins (atBeta c beta) v) := (whole_tame wb (by omega : 2 ≤ L)).meas
  obtain ⟨D, hD⟩ := whole_bound wb (by omega : 2 ≤ L)
  have hp := SecondLaw.weight_pos (atBeta c beta).vars.beta hE hD
  have i0 := SecondLaw.integrable_weight (atBeta c beta).vars.beta hE hD
  have i1 := SecondLaw.integrable_mul (atBeta c beta).vars.beta hE hD hE hD
  have i2 := SecondLaw.integrable_mul (atBeta c beta).vars.beta hE hD (f := fun v => wholeEnergy L (withSpins (atBeta c beta) (flow (atBeta c beta) L s n v)))
    (hE.comp (flow_preserving (atBeta c beta) L s n).measurable) (SecondLaw.bound_comp (flow_preserving (atBeta c beta) L s n) hD)
  unfold thermalMean
  rw [← sub_div, div_le_iff₀ hp, ← integral_const_mul, sub_le_iff_le_add', ← integral_add i1 (i0.const_mul _)]
  have e : ∫ v, Real.exp (-((atBeta c beta).vars.beta * wholeEnergy L (withSpins (atBeta c beta) v)))
        * afterRun n (wholeEnergy L) (withSpins (atBeta c beta) v) ∂(Measure.pi fun _ : Fin L => sphereMeasure)
      = ∫ v, Real.exp (-((atBeta c beta).vars.beta * wholeEnergy L (withSpins (atBeta c beta) v)))
        * wholeEnergy L (withSpins (atBeta c beta) (flow (atBeta c beta) L s n v)) ∂(Measure.pi fun _ : Fin L => sphereMeasure) := by
    refine integral_congr_ae ?_
    filter_upwards [after_ae wb hL hJb n] with v ⟨c', h1, h2⟩
    simp only [afterRun, h1, h2]
  rw [e]
  refine integral_mono_ae i2 (i1.add (i0.const_mul _)) ?_
  filter_upwards [pw] with v hv
  have hv' := mul_le_mul_of_nonneg_left hv (Real.exp_pos (-((atBeta c beta).vars.beta * wholeEnergy L (withSpins (atBeta c beta) v)))).le
  rw [wh (flow _ L s n v), fl, wh v] at *
  linarith

/-! ### a driven chain that heats -/

/-- Four sites with couplings and fields along z, one of them driven. -/
noncomputable def demoIsing : SpinChain ℝ where
  j_couple := [⟨0, 0, 1 / 4⟩, ⟨0, 0, 1 / 4⟩, ⟨0, 0, 1 / 4⟩, ⟨0, 0, 1 / 4⟩]
  static_h := [⟨0, 0, 1⟩, ⟨0, 0, 1⟩, ⟨0, 0, 1⟩, ⟨0, 0, 1⟩]
  spins := [⟨⟨0, 0, 1⟩⟩, ⟨⟨0, 0, 1⟩⟩, ⟨⟨0, 0, 1⟩⟩, ⟨⟨0, 0, 1⟩⟩]
  t := 0
  vars := { demoVars with ssize := 1 }
  file := none

theorem demoIsing_wf : WF demoIsing 4 1 := by
  constructor <;> simp [demoIsing, demoVars]

theorem precess_up (w t : ℝ) : precess ⟨0, 0, 1⟩ ⟨0, 0, w⟩ t = ⟨0, 0, 1⟩ := precess_parallel (by simp [cross, zero]) t

theorem precess_z (Ω : V3 ℝ) (t : ℝ) : (precess ⟨0, 0, 1⟩ Ω t).z
    = 1 - (1 - Real.cos (len Ω * t)) * (1 - (Ω.z / len Ω) ^ 2) := by
  unfold precess
  simp only [Spec.sub, Spec.add, smul, cross, dot]
  ring

/-- The mean energy of this chain rises with its first update. -/
theorem C121_rises : thermalMean demoIsing 4 (wholeEnergy 4) (wholeEnergy 4)
    < thermalMean demoIsing 4 (wholeEnergy 4) (afterRun 1 (wholeEnergy 4)) := by
  have hu : ∀ i : Fin 4, len ((fun _ => ⟨0, 0, 1⟩ : Fin 4 → V3 ℝ) i) = 1 := fun _ => by simp [len, dot]
  have hr : RegularRun (withSpins demoIsing (fun _ : Fin 4 => ⟨0, 0, 1⟩)) 4 1 1 := by
    refine regularRun_of_dominant (withSpins_wf demoIsing_wf _) (by norm_num) (unit_withSpins hu) ?_ 1
    intro t i hi
    have : i = 0 ∨ i = 1 ∨ i = 2 ∨ i = 3 := by omega
    rcases this with rfl | rfl | rfl | rfl <;>
      norm_num [J, B, H0, withSpins, demoIsing, demoVars, left, drive, Spec.add, zero, Config.default, abs_of_pos]
  obtain ⟨c', h1, h2⟩ := run_flow demoIsing_wf (by norm_num) hu hr
  refine C121_heats demoIsing 4 1 1 demoIsing_wf le_rfl rfl (fun i hi hz => ?_) (by norm_num [demoIsing, demoVars])
    (by norm_num [demoIsing, demoVars]) _ hu hr c' h1 ?_
  · have hz := congrArg V3.z hz
    have : i = 0 ∨ i = 1 ∨ i = 2 ∨ i = 3 := by omega
    rcases this with rfl | rfl | rfl | rfl <;> norm_num [J, demoIsing, zero] at hz
  · have h3 : S c' = step 4 (J demoIsing) (B demoIsing 1 (1 / 100)) (1 / 50) (fld fun _ : Fin 4 => ⟨0, 0, 1⟩) := by
      rw [h2]
      show fld (stepFin _ _ _ _ _) = _
      rw [fld_stepFin (by norm_num)]
      norm_num [demoIsing, demoVars, flow]
    set Ω : V3 ℝ := ⟨-(drive demoVars (1 / 100)).x, -(drive demoVars (1 / 100)).y, -(1 / 2)⟩ with hΩ
    have o0 : ∀ X : ℕ → V3 ℝ, X 1 = ⟨0, 0, 1⟩ → X 3 = ⟨0, 0, 1⟩ → omega 4 X (J demoIsing) (B demoIsing 1 (1 / 100)) 0 = Ω := by
      intro X x1 x3
      have : drive demoIsing.vars (1 / 100) = drive demoVars (1 / 100) := rfl
      have hz : (drive demoVars (1 / 100)).z = 0 := rfl
      simp only [omega, left, right, B, H0, this]
      norm_num [x1, x3, J, demoIsing, Spec.sub, Spec.add, had, hΩ, hz]
    have o1 : ∀ X : ℕ → V3 ℝ, X 2 = ⟨0, 0, 1⟩ →
        omega 4 X (J demoIsing) (B demoIsing 1 (1 / 100)) 1 = ⟨0, 0, (X 0).z / 4 - 3 / 4⟩ := by
      intro X x2
      simp only [omega, left, right, B, H0]
      norm_num [x2, J, demoIsing, Spec.sub, Spec.add, had]
      ring
    have o2 : ∀ X : ℕ → V3 ℝ, X 1 = ⟨0, 0, 1⟩ → X 3 = ⟨0, 0, 1⟩ →
        omega 4 X (J demoIsing) (B demoIsing 1 (1 / 100)) 2 = ⟨0, 0, -(1 / 2)⟩ := by
      intro X x1 x3
      simp only [omega, left, right, B, H0]
      norm_num [x1, x3, J, demoIsing, Spec.sub, Spec.add, had]
    have o3 : ∀ X : ℕ → V3 ℝ, X 2 = ⟨0, 0, 1⟩ →
        omega 4 X (J demoIsing) (B demoIsing 1 (1 / 100)) 3 = ⟨0, 0, (X 0).z / 4 - 3 / 4⟩ := by
      intro X x2
      simp only [omega, left, right, B, H0]
      norm_num [x2, J, demoIsing, Spec.sub, Spec.add, had]
      ring
    set X0 : ℕ → V3 ℝ := fld fun _ : Fin 4 => ⟨0, 0, 1⟩ with hX0
    have x0 : ∀ i < 4, X0 i = ⟨0, 0, 1⟩ := fun i hi => by rw [hX0]; unfold fld; rw [dif_pos hi]
    -- the driven site turns, the others stay
    have even : ∀ X : ℕ → V3 ℝ, ∀ h : ℝ, X 1 = ⟨0, 0, 1⟩ → X 2 = ⟨0, 0, 1⟩ → X 3 = ⟨0, 0, 1⟩ →
        subStep 4 0 (J demoIsing) (B demoIsing 1 (1 / 100)) h X 0 = precess (X 0) Ω h ∧
        ∀ i, 1 ≤ i → i < 4 → subStep 4 0 (J demoIsing) (B demoIsing 1 (1 / 100)) h X i = ⟨0, 0, 1⟩ := by
      intro X h x1 x2 x3
      refine ⟨?_, fun i i1 i2 => ?_⟩
      · simp only [subStep]
        rw [if_pos (by norm_num), o0 X x1 x3]
      · have : i = 1 ∨ i = 2 ∨ i = 3 := by omega
        rcases this with rfl | rfl | rfl <;> simp only [subStep]
        · rw [if_neg (by norm_num), x1]
        · rw [if_pos (by norm_num), o2 X x1 x3, x2, precess_up]
        · rw [if_neg (by norm_num), x3]
    have odd : ∀ X : ℕ → V3 ℝ, ∀ h : ℝ, X 1 = ⟨0, 0, 1⟩ → X 2 = ⟨0, 0, 1⟩ → X 3 = ⟨0, 0, 1⟩ →
        subStep 4 1 (J demoIsing) (B demoIsing 1 (1 / 100)) h X 0 = X 0 ∧
        ∀ i, 1 ≤ i → i < 4 → subStep 4 1 (J demoIsing) (B demoIsing 1 (1 / 100)) h X i = ⟨0, 0, 1⟩ := by
      intro X h x1 x2 x3
      refine ⟨?_, fun i i1 i2 => ?_⟩
      · simp only [subStep]
        rw [if_neg (by norm_num)]
      · have : i = 1 ∨ i = 2 ∨ i = 3 := by omega
        rcases this with rfl | rfl | rfl <;> simp only [subStep]
        · rw [if_pos (by norm_num), o1 X x2, x1, precess_up]
        · rw [if_neg (by norm_num), x2]
        · rw [if_pos (by norm_num), o3 X x2, x3, precess_up]
    have e1 := even X0 (1 / 50 / 2) (x0 1 (by norm_num)) (x0 2 (by norm_num)) (x0 3 (by norm_num))
    have e2 := odd _ (1 / 50) (e1.2 1 (by norm_num) (by norm_num)) (e1.2 2 (by norm_num) (by norm_num)) (e1.2 3 (by norm_num) (by norm_num))
    have e3 := even _ (1 / 50 / 2) (e2.2 1 (by norm_num) (by norm_num)) (e2.2 2 (by norm_num) (by norm_num))
      (e2.2 3 (by norm_num) (by norm_num))
    have s0 : S c' 0 = precess ⟨0, 0, 1⟩ Ω (1 / 50) := by
      rw [h3]
      unfold step
      rw [e3.1, e2.1, e1.1, x0 0 (by norm_num), precess_precess]
      norm_num
    have si : ∀ i, 1 ≤ i → i < 4 → S c' i = ⟨0, 0, 1⟩ := fun i i1 i2 => by rw [h3]; exact e3.2 i i1 i2
    have w1 := updates_wf (withSpins_wf demoIsing_wf _) h1
    obtain ⟨a1, a2, -⟩ := updates_frame h1
    have eH : H0 c' = H0 demoIsing := by funext i; unfold H0; rw [a2]; rfl
    rw [mc_total_energy_eq w1 (by norm_num), mc_total_energy_eq (withSpins_wf demoIsing_wf _) (by norm_num), S_fld, J_congr a1, eH]
    show Except.ok (ringEnergy 4 (S c') (J demoIsing) (H0 demoIsing) / (4 : ℕ)) ≠
      Except.ok (ringEnergy 4 X0 (J demoIsing) (H0 demoIsing) / (4 : ℕ))
    intro hc
    have hc := Except.ok.inj hc
    have hl : len Ω ^ 2 = 5 / 4 := by
      rw [sq, len_sq, hΩ]
      have := Real.sin_sq_add_cos_sq (2 * Real.pi * (1 / 100) / demoVars.tau)
      have hd : drive demoVars (1 / 100) = ⟨Real.cos (2 * Real.pi * (1 / 100) / demoVars.tau),
        Real.sin (2 * Real.pi * (1 / 100) / demoVars.tau), 0⟩ := rfl
      rw [hd]
      simp only [dot]
      nlinarith
    have hlp : 0 < len Ω := by
      rcases (len_nonneg Ω).eq_or_lt with h | h
      · rw [← h] at hl; norm_num at hl
      · exact h
    have hz : (S c' 0).z = 1 - (1 - Real.cos (len Ω * (1 / 50))) * (4 / 5) := by
      rw [s0, precess_z, div_pow, hl]
      norm_num [hΩ]
    have hcos : Real.cos (len Ω * (1 / 50)) < 1 := by
      have h3 := Real.pi_gt_three
      have h2 : len Ω < 2 := by nlinarith
      have := Real.cos_lt_cos_of_nonneg_of_le_pi le_rfl (by linarith : len Ω * (1 / 50) ≤ Real.pi) (mul_pos hlp (by norm_num))
      rwa [Real.cos_zero] at this
    rw [div_left_inj' (by norm_num)] at hc
    simp only [ringEnergy, Finset.sum_range_succ, Finset.sum_range_zero] at hc
    norm_num [si 1 le_rfl (by norm_num), si 2 (by norm_num) (by norm_num), si 3 (by norm_num) (by norm_num), x0, dot, had, J, H0,
      demoIsing] at hc
    linarith

example : WF demo 4 2 ∧ Oscillating demo.vars ∧ ∀ i < 2 * (4 / 2), J demo i ≠ zero := by
  refine ⟨demo_wf, Or.inl rfl, fun i hi h => ?_⟩
  have hz := congrArg V3.z h
  have : i = 0 ∨ i = 1 ∨ i = 2 ∨ i = 3 := by omega
  rcases this with rfl | rfl | rfl | rfl <;> norm_num [J, demo, zero] at hz

end Verif.Props
