/-
C123: what a response run measures (/repo/src/obs.rs `run_sim_response`, /repo/src/spinchain.rs `update`,
`update_no_field`, `metropolis_update`).
-/
import Verif.Spec.Response
import Verif.Lemmas.Response
import Verif.Props.SecondLaw
import Verif.Props.RunModes
import Mathlib.Analysis.Calculus.Deriv.MeanValue

set_option linter.unusedSectionVars false

namespace Verif.Props

open Spec MeasureTheory Response

/-- without static fields -/
noncomputable def fieldOff (c : SpinChain ℝ) : SpinChain ℝ := { c with static_h := c.static_h.map fun _ => zero }

section
variable {c : SpinChain ℝ} {L s : ℕ}

theorem fieldOff_wf (w : WF c L s) : WF (fieldOff c) L s :=
  ⟨w.hsize, w.ssize, w.L_lt, w.s_lt, w.spins, w.j, by simp [fieldOff, w.h], w.hs⟩

theorem inField_wf (w : WF c L s) (a : ℝ) : WF (inField c a) L s :=
  ⟨w.hsize, w.ssize, w.L_lt, w.s_lt, w.spins, w.j, by simp [inField, w.h], w.hs⟩

theorem fieldOff_inField (a : ℝ) : fieldOff (inField c a) = fieldOff c := by
  simp [fieldOff, inField, Function.comp_def]

theorem H0_off (i : ℕ) : H0 (fieldOff c) i = zero := by
  unfold H0 fieldOff
  simp only [List.getElem?_map]
  cases c.static_h[i]? <;> rfl

theorem H0_inField (a : ℝ) (i : ℕ) : H0 (inField c a) i = smul a (H0 c i) := by
  unfold H0 inField
  simp only [List.getElem?_map]
  cases c.static_h[i]? with
  | none => ext <;> simp [smul, zero]
  | some x => rfl

/-- before time zero a pass is an update -/
theorem passes_before (c : SpinChain ℝ) (m k : ℕ) (hm : ∀ i < m, c.t + i * c.vars.dt < 0) :
    passes (m + k) c = (c.updates m).bind (passes k) := by
  induction m generalizing c with
  | zero => rw [zero_add]; rfl
  | succ m ih =>
    have h0 : c.t < 0 := by simpa using hm 0 (by omega)
    have hc : responseUpdate c = c.update := by
      unfold responseUpdate
      rw [if_pos]
      norm_num [flt, FOps.flt, h0]
    rw [show m + 1 + k = (m + k) + 1 by omega]
    show (responseUpdate c).bind (fun c' => passes (m + k) c') = (c.update.bind fun c' => c'.updates m).bind (passes k)
    rw [hc]
    rcases hu : c.update with e | c1
    · rfl
    · have h1 : c.updates 1 = .ok c1 := by rw [updates_one, hu]
      obtain ⟨-, -, a3, -⟩ := updates_frame h1
      have ht := C25_time _ _ 1 h1
      show passes (m + k) c1 = (c1.updates m).bind (passes k)
      refine ih c1 fun i hi => ?_
      rw [ht, a3]
      have := hm (i + 1) (by omega)
      push_cast at this ⊢
      linarith

/-- from time zero on a pass is an update without static fields -/
theorem passes_after (c : SpinChain ℝ) (n : ℕ) (h0 : 0 ≤ c.t) (hdt : 0 ≤ c.vars.dt) :
    passes n c = ((fieldOff c).updates n).map fun c' => { c' with static_h := c.static_h } := by
  induction n generalizing c with
  | zero => rfl
  | succ n ih =>
    have hc : responseUpdate c = c.update_no_field := by
      unfold responseUpdate
      rw [if_neg]
      norm_num [flt, FOps.flt]
      exact h0
    show (responseUpdate c).bind (fun c' => passes n c')
      = ((fieldOff c).update.bind fun c' => c'.updates n).map fun c' => { c' with static_h := c.static_h }
    rw [hc, C31_no_static_field]
    show (((fieldOff c).update).map _).bind _ = _
    rcases hu : (fieldOff c).update with e | c1
    · rfl
    · have h1 : (fieldOff c).updates 1 = .ok c1 := by rw [updates_one, hu]
      obtain ⟨-, a2, a3, -⟩ := updates_frame h1
      have ht := C25_time _ _ 1 h1
      show passes n { c1 with static_h := c.static_h } = (c1.updates n).map fun c' => { c' with static_h := c.static_h }
      rw [ih { c1 with static_h := c.static_h }]
      · have : fieldOff { c1 with static_h := c.static_h } = c1 := by
          show ({ c1 with static_h := c.static_h.map fun _ => zero } : SpinChain ℝ) = c1
          have a2' : c1.static_h = c.static_h.map fun _ => zero := a2
          rw [← a2']
        rw [this]
      · show 0 ≤ c1.t
        rw [ht]
        show 0 ≤ c.t + (1 : ℕ) * c.vars.dt
        push_cast
        linarith
      · show 0 ≤ c1.vars.dt
        rw [a3]
        exact hdt

theorem afterPasses_ae (w : WF c L s) (hL : 4 ≤ L) (hJ : ∀ i < 2 * (L / 2), J c i ≠ zero) (h0 : 0 ≤ c.t) (hdt : 0 ≤ c.vars.dt)
    (n : ℕ) (f : (Fin L → V3 ℝ) → ℝ) : ∀ᵐ v ∂(Measure.pi fun _ : Fin L => sphereMeasure),
      afterPasses L n f (withSpins c v) = f (flow (fieldOff c) L s n v) := by
  filter_upwards [C86_generic (fieldOff c) L s (fieldOff_wf w) hL hJ] with v hv
  obtain ⟨c', h1, h2⟩ := run_flow (fieldOff_wf w) (by omega) hv.1 (hv.2 n)
  unfold afterPasses
  rw [passes_after (withSpins c v) n h0 hdt]
  have : fieldOff (withSpins c v) = withSpins (fieldOff c) v := rfl
  rw [this, h1]
  show f (fun i => S c' i) = _
  congr 1
  funext i
  rw [h2, fld_val]

/-- energy of the couplings alone -/
noncomputable def bondEnergy (c : SpinChain ℝ) (L : ℕ) (v : Fin L → V3 ℝ) : ℝ := ringEnergy L (fld v) (J c) fun _ => zero

theorem coupled_eq (c : SpinChain ℝ) (v : Fin L → V3 ℝ) : coupled c L v = ∑ i ∈ Finset.range L, dot (H0 c i) (fld v i) := by
  unfold coupled
  rw [← Fin.sum_univ_eq_sum_range (fun i => dot (H0 c i) (fld v i)) L]
  refine Finset.sum_congr rfl fun i _ => ?_
  rw [fld_val]

theorem whole_tilt (w : WF c L s) (hL : 2 ≤ L) (a : ℝ) (v : Fin L → V3 ℝ) :
    wholeEnergy L (withSpins (inField c a) v) = bondEnergy c L v + a * coupled c L v := by
  rw [whole_ring (inField_wf w a) hL, coupled_eq]
  unfold bondEnergy ringEnergy
  rw [Finset.mul_sum, ← Finset.sum_add_distrib]
  refine Finset.sum_congr rfl fun i _ => ?_
  rw [H0_inField]
  show -dot (fld v i) (had (J c i) _) + _ = _
  simp only [dot, smul, zero]
  ring

theorem bond_tame (c : SpinChain ℝ) (L : ℕ) : Tame (bondEnergy c L) := ring_tame _ _ _

theorem coupled_tame (c : SpinChain ℝ) (L : ℕ) : Tame (coupled c L) := by
  have h := (ring_tame (fun _ => zero) (H0 c) L)
  have : (fun v : Fin L → V3 ℝ => ringEnergy L (fld v) (fun _ => zero) (H0 c)) = coupled c L := by
    funext v
    rw [coupled_eq]
    unfold ringEnergy
    refine Finset.sum_congr rfl fun i _ => ?_
    simp [dot, had, zero]
  rwa [this] at h

theorem tame_ae {g : (Fin L → V3 ℝ) → ℝ} (h : Tame g) : ∃ D, ∀ᵐ v ∂(Measure.pi fun _ : Fin L => sphereMeasure), |g v| ≤ D := by
  obtain ⟨D, hD⟩ := h.bound
  exact ⟨D, (Markov.good_ae (L := L) sphere_ae).mono fun v hv => hD v hv⟩

theorem thermal_tilt (w : WF c L s) (hL : 2 ≤ L) (a : ℝ) (g : SpinChain ℝ → ℝ) :
    thermalMean (inField c a) L (wholeEnergy L) g
      = mean (Measure.pi fun _ : Fin L => sphereMeasure) c.vars.beta (fun v => bondEnergy c L v + a * coupled c L v)
        fun v => g (withSpins (inField c a) v) := by
  unfold thermalMean mean
  simp only [whole_tilt w hL]
  rfl

end

/-- an undriven chain two time-steps before time zero -/
noncomputable def demoRest : SpinChain ℝ :=
  { demo with
    t := -(2 * demo.vars.dt)
    vars := { demoVars with drive := .none } }

theorem demoRest_wf : WF demoRest 4 2 := by
  constructor <;> simp [demoRest, demo, demoVars]

theorem demo_bonds : ∀ i < 4, J demo i ≠ zero := by
  intro i hi h
  have hz := congrArg V3.z h
  have : i = 0 ∨ i = 1 ∨ i = 2 ∨ i = 3 := by omega
  rcases this with rfl | rfl | rfl | rfl <;> norm_num [J, demo, zero] at hz

/-- C123, waiting: without a drive, the passes at negative times leave the thermal state as it is: the mean of an
observable after `m + k` passes, the first `m` of them at negative times, is its mean after `k` passes from time zero on. -/
theorem C123_waiting (c : SpinChain ℝ) (L s m k : ℕ) (w : WF c L s) (hL : 4 ≤ L) (he : L % 2 = 0)
    (hJ : ∀ i < L, J c i ≠ zero) (hd : c.vars.drive = .none) (hdt : 0 ≤ c.vars.dt) (hm : ∀ i < m, c.t + i * c.vars.dt < 0)
    (h0 : k = 0 ∨ 0 ≤ c.t + m * c.vars.dt) (f : (Fin L → V3 ℝ) → ℝ) (mf : Measurable f) :
    thermalMean c L (wholeEnergy L) (afterPasses L (m + k) f)
      = thermalMean { c with t := c.t + m * c.vars.dt } L (wholeEnergy L) (afterPasses L k f) := by
  have em : 2 * (L / 2) = L := by omega
  set d : SpinChain ℝ := { c with t := c.t + m * c.vars.dt } with hdd
  have wd : WF d L s := ⟨w.hsize, w.ssize, w.L_lt, w.s_lt, w.spins, w.j, w.h, w.hs⟩
  have hE : ∀ v : Fin L → V3 ℝ, wholeEnergy L (withSpins c v) = ringEnergy L (fld v) (J c) (H0 c) := whole_ring w (by omega)
  have hEd : ∀ v : Fin L → V3 ℝ, wholeEnergy L (withSpins d v) = ringEnergy L (fld v) (J c) (H0 c) := whole_ring wd (by omega)
  set g : (Fin L → V3 ℝ) → ℝ := fun v => f (flow (fieldOff d) L s k v)
  have mg : Measurable g := mf.comp (flow_preserving (fieldOff d) L s k).measurable
  have hg : ∀ᵐ v ∂(Measure.pi fun _ : Fin L => sphereMeasure), afterPasses L k f (withSpins d v) = g v := by
    rcases h0 with rfl | h0
    · refine .of_forall fun v => ?_
      show f (fun i => S (withSpins d v) i) = f v
      rw [spins_withSpins]
    · exact afterPasses_ae wd hL (fun i hi => hJ i (by omega)) h0 hdt k f
  have hΦ := flow_preserving c L s m
  have hfl : ∀ᵐ v ∂(Measure.pi fun _ : Fin L => sphereMeasure), afterPasses L (m + k) f (withSpins c v) = g (flow c L s m v) := by
    filter_upwards [C86_generic c L s w hL (fun i hi => hJ i (by omega)), hΦ.quasiMeasurePreserving.ae hg] with v hv h2
    rw [← h2]
    unfold afterPasses
    rw [passes_before (withSpins c v) m k hm, run_chain w (by omega) hv.1 (hv.2 m)]
    rfl
  have cons : ∀ n, ∀ v : Fin L → V3 ℝ, ringEnergy L (fld (flow c L s n v)) (J c) (H0 c) = ringEnergy L (fld v) (J c) (H0 c) := by
    intro n v
    induction n with
    | zero => rfl
    | succ n ih =>
      rw [← ih]
      show ringEnergy L (fld (stepFin (2 * (L / 2)) (J c) (B c s _) c.vars.dt (flow c L s n v))) _ _ = _
      rw [fld_stepFin (by omega), B_none hd]
      have := ringEnergy_step (l := L / 2) (by omega) (J c) (H0 c) (fld (flow c L s n v)) c.vars.dt
      rwa [em] at this ⊢
  have a1 : thermalMean c L (wholeEnergy L) (afterPasses L (m + k) f)
      = mean (Measure.pi fun _ : Fin L => sphereMeasure) c.vars.beta (fun v => ringEnergy L (fld v) (J c) (H0 c))
        fun v => afterPasses L (m + k) f (withSpins c v) := by
    unfold thermalMean mean
    simp only [hE]
  have a2 : thermalMean d L (wholeEnergy L) (afterPasses L k f)
      = mean (Measure.pi fun _ : Fin L => sphereMeasure) c.vars.beta (fun v => ringEnergy L (fld v) (J c) (H0 c))
        fun v => afterPasses L k f (withSpins d v) := by
    unfold thermalMean mean
    simp only [hEd]
    rfl
  rw [a1, a2, Response.mean_congr _ hg, Response.mean_congr _ hfl]
  exact Response.mean_comp _ (ring_tame (J c) (H0 c) L).meas mg hΦ (cons m)

/-- the undriven chain two time-steps before time zero; z-component of the first spin -/
example : WF demoRest 4 2 ∧ (∀ i < 4, J demoRest i ≠ zero) ∧ demoRest.vars.drive = .none ∧ 0 ≤ demoRest.vars.dt ∧
    (∀ i < 2, demoRest.t + (i : ℕ) * demoRest.vars.dt < 0) ∧ 0 ≤ demoRest.t + (2 : ℕ) * demoRest.vars.dt ∧
    Measurable fun v : Fin 4 → V3 ℝ => (v 0).z := by
  refine ⟨demoRest_wf, demo_bonds, rfl, by norm_num [demoRest, demoVars], fun i hi => ?_, ?_,
    measurable_z.comp (measurable_pi_apply 0)⟩
  · have : i = 0 ∨ i = 1 := by omega
    rcases this with rfl | rfl <;> norm_num [demoRest, demo, demoVars]
  · norm_num [demoRest, demo, demoVars]

/-- C123, fluctuations and response: whatever the drive, the number of passes after time zero and the observable, the
rate of change of the observable's mean with the strength `a` of the static fields in which the spins were sampled is
`-beta` times its covariance with the energy the spins had in these fields. -/
theorem C123_response (c : SpinChain ℝ) (L s n : ℕ) (w : WF c L s) (hL : 4 ≤ L) (hJ : ∀ i < 2 * (L / 2), J c i ≠ zero)
    (h0 : 0 ≤ c.t) (hdt : 0 ≤ c.vars.dt) (f : (Fin L → V3 ℝ) → ℝ) (mf : Measurable f) (M : ℝ)
    (hM : ∀ v, (∀ i, len (v i) = 1) → |f v| ≤ M) (a : ℝ) :
    HasDerivAt (fun a => thermalMean (inField c a) L (wholeEnergy L) (afterPasses L n f))
      (-(c.vars.beta * (thermalMean (inField c a) L (wholeEnergy L)
            (fun x => afterPasses L n f x * coupled c L fun i => S x i)
        - thermalMean (inField c a) L (wholeEnergy L) (afterPasses L n f)
          * thermalMean (inField c a) L (wholeEnergy L) (fun x => coupled c L fun i => S x i)))) a := by
  have hF := flow_preserving (fieldOff c) L s n
  have mg : Measurable fun v => f (flow (fieldOff c) L s n v) := mf.comp hF.measurable
  have hg : ∀ᵐ v ∂(Measure.pi fun _ : Fin L => sphereMeasure), |f (flow (fieldOff c) L s n v)| ≤ M :=
    hF.quasiMeasurePreserving.ae ((Markov.good_ae (L := L) sphere_ae).mono fun v hv => hM v hv)
  obtain ⟨D, hD⟩ := tame_ae (bond_tame c L)
  obtain ⟨DX, hX⟩ := tame_ae (coupled_tame c L)
  have hae : ∀ a, ∀ᵐ v ∂(Measure.pi fun _ : Fin L => sphereMeasure),
      afterPasses L n f (withSpins (inField c a) v) = f (flow (fieldOff c) L s n v) := by
    intro a
    have := afterPasses_ae (inField_wf w a) hL hJ h0 hdt n f
    rwa [fieldOff_inField] at this
  have key := Response.mean_deriv c.vars.beta (bond_tame c L).meas (coupled_tame c L).meas mg hD hX hg a
  have e1 : ∀ a, thermalMean (inField c a) L (wholeEnergy L) (afterPasses L n f)
      = mean (Measure.pi fun _ : Fin L => sphereMeasure) c.vars.beta (fun v => bondEnergy c L v + a * coupled c L v)
        fun v => f (flow (fieldOff c) L s n v) := fun a => by
    rw [thermal_tilt w (by omega), Response.mean_congr _ (hae a)]
  have e2 : thermalMean (inField c a) L (wholeEnergy L) (fun x => afterPasses L n f x * coupled c L fun i => S x i)
      = mean (Measure.pi fun _ : Fin L => sphereMeasure) c.vars.beta (fun v => bondEnergy c L v + a * coupled c L v)
        fun v => f (flow (fieldOff c) L s n v) * coupled c L v := by
    rw [thermal_tilt w (by omega)]
    refine Response.mean_congr _ ?_
    filter_upwards [hae a] with v hv
    rw [hv, spins_withSpins]
  have e3 : thermalMean (inField c a) L (wholeEnergy L) (fun x => coupled c L fun i => S x i)
      = mean (Measure.pi fun _ : Fin L => sphereMeasure) c.vars.beta (fun v => bondEnergy c L v + a * coupled c L v)
        (coupled c L) := by
    rw [thermal_tilt w (by omega)]
    congr 1
    funext v
    rw [spins_withSpins]
  rw [e1 a, e2, e3]
  simp only [e1]
  exact key

/-- the driven demonstration chain; z-component of the first spin -/
example : WF demo 4 2 ∧ (∀ i < 2 * (4 / 2), J demo i ≠ zero) ∧ 0 ≤ demo.t ∧ 0 ≤ demo.vars.dt ∧
    ∀ v : Fin 4 → V3 ℝ, (∀ i, len (v i) = 1) → |(v 0).z| ≤ 1 :=
  ⟨demo_wf, demo_bonds, by norm_num [demo], by norm_num [demo, demoVars], fun v hv => by
    rw [← hv 0]; exact (abs_le_len (v 0)).2.2⟩

/-- C123, a whole run: the same for runs without a drive that begin at a negative time, whose first `m` passes are at
negative times. -/
theorem C123_run (c : SpinChain ℝ) (L s m k : ℕ) (w : WF c L s) (hL : 4 ≤ L) (he : L % 2 = 0)
    (hJ : ∀ i < L, J c i ≠ zero) (hd : c.vars.drive = .none) (hdt : 0 ≤ c.vars.dt) (hm : ∀ i < m, c.t + i * c.vars.dt < 0)
    (h0 : 0 ≤ c.t + m * c.vars.dt) (f : (Fin L → V3 ℝ) → ℝ) (mf : Measurable f) (M : ℝ)
    (hM : ∀ v, (∀ i, len (v i) = 1) → |f v| ≤ M) (d : SpinChain ℝ) (hdd : d = { c with t := c.t + m * c.vars.dt }) (a : ℝ) :
    HasDerivAt (fun a => thermalMean (inField c a) L (wholeEnergy L) (afterPasses L (m + k) f))
      (-(c.vars.beta * (thermalMean (inField d a) L (wholeEnergy L)
            (fun x => afterPasses L k f x * coupled c L fun i => S x i)
        - thermalMean (inField d a) L (wholeEnergy L) (afterPasses L k f)
          * thermalMean (inField d a) L (wholeEnergy L) (fun x => coupled c L fun i => S x i)))) a := by
  subst hdd
  have e : ∀ a, thermalMean (inField c a) L (wholeEnergy L) (afterPasses L (m + k) f)
      = thermalMean (inField { c with t := c.t + m * c.vars.dt } a) L (wholeEnergy L) (afterPasses L k f) := fun a =>
    C123_waiting (inField c a) L s m k (inField_wf w a) hL he hJ hd hdt hm (.inr h0) f mf
  simp only [e]
  exact C123_response { c with t := c.t + m * c.vars.dt } L s k
    ⟨w.hsize, w.ssize, w.L_lt, w.s_lt, w.spins, w.j, w.h, w.hs⟩ hL (fun i hi => hJ i (by omega)) h0 hdt f mf M hM a

section
variable {c : SpinChain ℝ} {L s : ℕ}

theorem coupled_not_const (hL : 3 ≤ L) (hne : ∃ i < L, H0 c i ≠ zero) (k : ℝ) :
    ¬ ∀ᵐ v ∂(Measure.pi fun _ : Fin L => sphereMeasure), coupled c L v = k := by
  obtain ⟨i, h1, h2⟩ := hne
  have h := Thermal.not_constant (L := L) hL (J := fun _ => zero) (B := H0 c) ⟨i, h1, .inr h2⟩ k
  intro hk
  apply h
  filter_upwards [hk] with v hv
  rw [← hv, coupled_eq]
  unfold ringEnergy
  refine Finset.sum_congr rfl fun i _ => ?_
  simp [dot, had, zero]

end

/-- C123, in equilibrium: for `beta > 0` the energy of the spins in the static fields falls strictly when these fields
are made stronger, if there is any field. -/
theorem C123_static (c : SpinChain ℝ) (L s : ℕ) (w : WF c L s) (hL : 3 ≤ L) (hb : 0 < c.vars.beta)
    (hne : ∃ i < L, H0 c i ≠ zero) :
    StrictAnti fun a => thermalMean (inField c a) L (wholeEnergy L) fun x => coupled c L fun i => S x i := by
  obtain ⟨D, hD⟩ := tame_ae (bond_tame c L)
  obtain ⟨DX, hX⟩ := tame_ae (coupled_tame c L)
  have e : ∀ a, thermalMean (inField c a) L (wholeEnergy L) (fun x => coupled c L fun i => S x i)
      = mean (Measure.pi fun _ : Fin L => sphereMeasure) c.vars.beta (fun v => bondEnergy c L v + a * coupled c L v)
        (coupled c L) := fun a => by
    rw [thermal_tilt w (by omega)]
    congr 1
    funext v
    rw [spins_withSpins]
  simp only [e]
  refine strictAnti_of_hasDerivAt_neg (fun a => Response.mean_deriv c.vars.beta (bond_tame c L).meas (coupled_tame c L).meas
    (coupled_tame c L).meas hD hX hX a) fun a => ?_
  have mT : Measurable fun v => bondEnergy c L v + a * coupled c L v :=
    (bond_tame c L).meas.add ((coupled_tame c L).meas.const_mul a)
  have := cov_self_pos c.vars.beta mT (tilt_bound hD hX a) (coupled_tame c L).meas hX (coupled_not_const hL hne)
  exact neg_neg_of_pos (mul_pos hb this)

section
variable {c : SpinChain ℝ} {L s : ℕ}

theorem bond_flow (hL : 2 ≤ L) (he : L % 2 = 0) (hd : c.vars.drive = .none) (n : ℕ) (v : Fin L → V3 ℝ) :
    bondEnergy c L (flow (fieldOff c) L s n v) = bondEnergy c L v := by
  have em : 2 * (L / 2) = L := by omega
  have hz : H0 (fieldOff c) = fun _ => zero := funext H0_off
  induction n with
  | zero => rfl
  | succ n ih =>
    rw [← ih]
    show ringEnergy L (fld (stepFin (2 * (L / 2)) (J c) (B (fieldOff c) s _) c.vars.dt (flow (fieldOff c) L s n v))) _ _ = _
    rw [fld_stepFin (by omega), B_none (c := fieldOff c) hd, hz]
    have := ringEnergy_step (l := L / 2) (by omega) (J c) (fun _ => zero) (fld (flow (fieldOff c) L s n v)) c.vars.dt
    rwa [em] at this ⊢

/-- the response at vanishing field -/
theorem response_zero (w : WF c L s) (hL : 4 ≤ L) (hJ : ∀ i < 2 * (L / 2), J c i ≠ zero) (h0 : 0 ≤ c.t)
    (hdt : 0 ≤ c.vars.dt) (n : ℕ) {f : (Fin L → V3 ℝ) → ℝ} (hf : Tame f) :
    deriv (fun a => thermalMean (inField c a) L (wholeEnergy L) (afterPasses L n f)) 0
      = -(c.vars.beta * cov (Measure.pi fun _ : Fin L => sphereMeasure) c.vars.beta (bondEnergy c L)
        (fun v => f (flow (fieldOff c) L s n v)) (coupled c L)) := by
  have hF := flow_preserving (fieldOff c) L s n
  have mg : Measurable fun v => f (flow (fieldOff c) L s n v) := hf.meas.comp hF.measurable
  obtain ⟨M, hM⟩ := tame_ae hf
  obtain ⟨D, hD⟩ := tame_ae (bond_tame c L)
  obtain ⟨DX, hX⟩ := tame_ae (coupled_tame c L)
  have e1 : ∀ a, thermalMean (inField c a) L (wholeEnergy L) (afterPasses L n f)
      = mean (Measure.pi fun _ : Fin L => sphereMeasure) c.vars.beta (fun v => bondEnergy c L v + a * coupled c L v)
        fun v => f (flow (fieldOff c) L s n v) := fun a => by
    have := afterPasses_ae (inField_wf w a) hL hJ h0 hdt n f
    rw [fieldOff_inField] at this
    rw [thermal_tilt w (by omega), Response.mean_congr _ this]
  have key := (Response.mean_deriv c.vars.beta (bond_tame c L).meas (coupled_tame c L).meas mg hD hX
    (hF.quasiMeasurePreserving.ae hM) 0).deriv
  simp only [e1]
  rw [key]
  simp only [zero_mul, add_zero]
  rfl

end

/-- the demonstration chain has fields and a positive inverse temperature -/
example : WF demo 4 2 ∧ 0 < demo.vars.beta ∧ ∃ i < 4, H0 demo i ≠ zero :=
  ⟨demo_wf, by norm_num [demo, demoVars, Config.default], 0, by norm_num, fun h => by
    have := congrArg V3.z h; norm_num [H0, demo, zero] at this⟩

/-- C123, relaxation: without a drive, the response of the energy in the static fields at any time after these fields are
switched off is not larger than what it was in the beginning. -/
theorem C123_decay (c : SpinChain ℝ) (L s n : ℕ) (w : WF c L s) (hL : 4 ≤ L) (he : L % 2 = 0)
    (hJ : ∀ i < L, J c i ≠ zero) (hd : c.vars.drive = .none) (h0 : 0 ≤ c.t) (hdt : 0 ≤ c.vars.dt) :
    |deriv (fun a => thermalMean (inField c a) L (wholeEnergy L) (afterPasses L n (coupled c L))) 0|
      ≤ |deriv (fun a => thermalMean (inField c a) L (wholeEnergy L) fun x => coupled c L fun i => S x i) 0| := by
  have h1 := response_zero w hL (fun i hi => hJ i (by omega)) h0 hdt n (coupled_tame c L)
  have h2 := response_zero w hL (fun i hi => hJ i (by omega)) h0 hdt 0 (coupled_tame c L)
  have e : (fun a => thermalMean (inField c a) L (wholeEnergy L) fun x => coupled c L fun i => S x i)
      = fun a => thermalMean (inField c a) L (wholeEnergy L) (afterPasses L 0 (coupled c L)) := rfl
  rw [e, h1, h2, abs_neg, abs_neg, abs_mul, abs_mul]
  refine mul_le_mul_of_nonneg_left ?_ (abs_nonneg _)
  obtain ⟨D, hD⟩ := tame_ae (bond_tame c L)
  obtain ⟨DX, hX⟩ := tame_ae (coupled_tame c L)
  refine (cov_decay c.vars.beta (bond_tame c L).meas hD (coupled_tame c L).meas hX (flow_preserving (fieldOff c) L s n)
    (bond_flow (by omega) he hd n)).trans (le_of_eq ?_)
  exact (abs_of_nonneg (cov_self_nonneg c.vars.beta (bond_tame c L).meas hD (coupled_tame c L).meas hX)).symm

section
variable {c : SpinChain ℝ} {L s : ℕ}

theorem precess_back (v Ω : V3 ℝ) (t : ℝ) : precess (smul (-1) v) (smul (-1) Ω) t = smul (-1) (precess v Ω (-t)) := by
  rw [precess_neg]
  unfold precess
  have hl : len (smul (-1) Ω) = len Ω := by
    unfold len dot smul
    congr 1
    ring
  rw [hl]
  ext <;> simp only [Spec.sub, Spec.add, smul, cross, dot] <;> ring

theorem omega_back (m : ℕ) (J S : ℕ → V3 ℝ) (i : ℕ) :
    omega m (fun k => smul (-1) (S k)) J (fun _ => zero) i = smul (-1) (omega m S J (fun _ => zero) i) := by
  ext <;> simp only [omega, Spec.sub, Spec.add, had, smul, zero] <;> ring

theorem subStep_back (m par : ℕ) (J S : ℕ → V3 ℝ) (dt : ℝ) :
    subStep m par J (fun _ => zero) dt (fun k => smul (-1) (S k))
      = fun k => smul (-1) (subStep m par J (fun _ => zero) (-dt) S k) := by
  funext i
  unfold subStep
  split_ifs
  · rw [omega_back, precess_back]
  · rfl

theorem step_back (m : ℕ) (J S : ℕ → V3 ℝ) (dt : ℝ) :
    step m J (fun _ => zero) dt (fun k => smul (-1) (S k)) = fun k => smul (-1) (step m J (fun _ => zero) (-dt) S k) := by
  unfold step
  rw [subStep_back, subStep_back, subStep_back, neg_div]

/-- all spins reversed -/
noncomputable def reversed (v : Fin L → V3 ℝ) : Fin L → V3 ℝ := fun i => smul (-1) (v i)

theorem fld_reversed (v : Fin L → V3 ℝ) : fld (reversed v) = fun k => smul (-1) (fld v k) := by
  funext k
  unfold fld reversed
  split_ifs
  · rfl
  · ext <;> simp [smul, zero]

theorem reversed_reversed (v : Fin L → V3 ℝ) : reversed (reversed v) = v := by
  funext i
  ext <;> simp [reversed, smul]

theorem reversed_pres (L : ℕ) : MeasurePreserving (reversed (L := L)) (Measure.pi fun _ => sphereMeasure)
    (Measure.pi fun _ => sphereMeasure) := by
  have hO : Orthogonal (smul (-1)) :=
    ⟨fun a b => by ext <;> simp only [Spec.add, smul] <;> ring, fun r a => by ext <;> simp only [smul] <;> ring, fun a => by
      unfold len dot smul
      congr 1
      ring⟩
  refine measurePreserving_pi _ _ (f := fun _ => smul (-1)) fun _ => ⟨hO.measurable, ?_⟩
  refine Measure.ext_of_lintegral _ fun f hf => ?_
  rw [lintegral_map hf hO.measurable, sphere_invariant hO hf]

theorem stepFin_back (J : ℕ → V3 ℝ) (dt : ℝ) (v : Fin L → V3 ℝ) :
    reversed (stepFin (2 * (L / 2)) J (fun _ => zero) dt (reversed (stepFin (2 * (L / 2)) J (fun _ => zero) dt v))) = v := by
  funext i
  show smul (-1) (step (2 * (L / 2)) J (fun _ => zero) dt (fld (reversed _)) i) = _
  rw [fld_reversed, step_back, fld_stepFin (by omega), step_inv]
  show smul (-1) (smul (-1) (fld v i)) = _
  rw [fld_val]
  ext <;> simp [smul]

theorem flow_iter (hd : c.vars.drive = .none) (n : ℕ) :
    flow (fieldOff c) L s n = (stepFin (2 * (L / 2)) (J c) (fun _ => zero) c.vars.dt)^[n] := by
  have hz : H0 (fieldOff c) = fun _ => zero := funext H0_off
  induction n with
  | zero => rfl
  | succ n ih =>
    rw [Function.iterate_succ', ← ih]
    funext v
    show stepFin (2 * (L / 2)) (J c) (B (fieldOff c) s _) c.vars.dt _ = _
    rw [B_none (c := fieldOff c) hd, hz]
    rfl

theorem flow_back (hd : c.vars.drive = .none) (n : ℕ) (v : Fin L → V3 ℝ) :
    reversed (flow (fieldOff c) L s n (reversed (flow (fieldOff c) L s n v))) = v := by
  rw [flow_iter hd]
  induction n generalizing v with
  | zero => exact reversed_reversed v
  | succ n ih =>
    rw [Function.iterate_succ_apply' _ n v, Function.iterate_succ_apply]
    set g := stepFin (L := L) (2 * (L / 2)) (J c) (fun _ => zero) c.vars.dt
    have h := stepFin_back (J c) c.vars.dt (g^[n] v)
    have h2 : g (reversed (g (g^[n] v))) = reversed (g^[n] v) := by
      rw [← reversed_reversed (g (reversed (g (g^[n] v)))), h]
    rw [h2]
    exact ih v

theorem coupled_reversed (c : SpinChain ℝ) (v : Fin L → V3 ℝ) : coupled c L (reversed v) = -coupled c L v := by
  unfold coupled
  rw [← Finset.sum_neg_distrib]
  refine Finset.sum_congr rfl fun i _ => ?_
  simp only [reversed, dot, smul]
  ring

theorem bond_reversed (c : SpinChain ℝ) (v : Fin L → V3 ℝ) : bondEnergy c L (reversed v) = bondEnergy c L v := by
  unfold bondEnergy
  rw [fld_reversed]
  unfold ringEnergy
  refine Finset.sum_congr rfl fun i _ => ?_
  simp only [dot, smul, had, zero]
  ring

end

/-- C123, reciprocity: without a drive, the response of the energy in the fields of `c2` to the fields of `c`, at any
time after the fields are switched off, is that of the energy in the fields of `c` to the fields of `c2`. -/
theorem C123_reciprocal (c c2 : SpinChain ℝ) (L s n : ℕ) (w : WF c L s) (w2 : WF c2 L s) (hL : 4 ≤ L) (he : L % 2 = 0)
    (hJ : ∀ i < L, J c i ≠ zero) (hd : c.vars.drive = .none) (h0 : 0 ≤ c.t) (hdt : 0 ≤ c.vars.dt)
    (e1 : c2.j_couple = c.j_couple) (e2 : c2.vars = c.vars) (e3 : c2.t = c.t) :
    deriv (fun a => thermalMean (inField c a) L (wholeEnergy L) (afterPasses L n (coupled c2 L))) 0
      = deriv (fun a => thermalMean (inField c2 a) L (wholeEnergy L) (afterPasses L n (coupled c L))) 0 := by
  have eJ : J c2 = J c := J_congr e1
  have eb : bondEnergy c2 L = bondEnergy c L := by
    unfold bondEnergy
    rw [eJ]
  have ef : flow (fieldOff c2) L s n = flow (fieldOff c) L s n := by
    rw [flow_iter hd, flow_iter (by rw [e2]; exact hd), eJ, e2]
  rw [response_zero w hL (fun i hi => hJ i (by omega)) h0 hdt n (coupled_tame c2 L),
    response_zero w2 hL (fun i hi => by rw [eJ]; exact hJ i (by omega)) (by rw [e3]; exact h0) (by rw [e2]; exact hdt) n
      (coupled_tame c L), e2, eb, ef]
  congr 2
  exact cov_recip c.vars.beta (bond_tame c L).meas (coupled_tame c2 L).meas (coupled_tame c L).meas
    (flow_preserving (fieldOff c) L s n) (bond_flow (by omega) he hd n) (reversed_pres L) (bond_reversed c)
    (flow_back hd n) (coupled_reversed c2) (coupled_reversed c)

/-- the undriven chain at time zero, and the same chain with the fields of an other axis -/
example : ∃ c c2 : SpinChain ℝ, WF c 4 2 ∧ WF c2 4 2 ∧ (∀ i < 4, J c i ≠ zero) ∧ c.vars.drive = .none ∧ 0 ≤ c.t ∧
    0 ≤ c.vars.dt ∧ c2.j_couple = c.j_couple ∧ c2.vars = c.vars ∧ c2.t = c.t ∧ H0 c2 1 ≠ H0 c 1 := by
  refine ⟨{ demoRest with t := 0 }, { demoRest with
    t := 0
    static_h := List.replicate 4 ⟨0, 1, 0⟩ }, ?_, ?_, demo_bonds, rfl, le_rfl, by norm_num [demoRest, demoVars], rfl, rfl, rfl,
    fun h => ?_⟩
  · constructor <;> simp [demoRest, demo, demoVars]
  · constructor <;> simp [demoRest, demo, demoVars]
  · have := congrArg V3.y h
    norm_num [H0, demoRest, demo] at this

end Verif.Props
