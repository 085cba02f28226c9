/-
C129: heat capacity per site, and accuracy of the temperature found by the search (/repo/src/obs.rs, `find_beta` and its variants,
lines 102-200).
-/
import Verif.Lemmas.HeatCap
import Verif.Props.Adaptive
import Verif.Spec.HeatCap
import Mathlib.Analysis.Calculus.MeanValue

set_option linter.unusedSectionVars false

namespace Verif.Props

open Spec MeasureTheory Finset Function
open Verif.HeatCap (wt cm dv)

section
variable {L : ℕ} {J B : ℕ → V3 ℝ}

/-- unit vectors are kept, everything else becomes the third axis -/
noncomputable def toUnit (x : V3 ℝ) : V3 ℝ := if len x = 1 then x else ⟨0, 0, 1⟩

theorem toUnit_len (x : V3 ℝ) : len (toUnit x) = 1 := by
  unfold toUnit
  split_ifs with h
  · exact h
  · simp [len, dot]

theorem toUnit_eq {x : V3 ℝ} (h : len x = 1) : toUnit x = x := if_pos h

theorem toUnit_meas : Measurable toUnit :=
  Measurable.ite (measurable_len (measurableSet_singleton 1)) measurable_id measurable_const

/-- energy of the directions -/
noncomputable def unitEnergy (L : ℕ) (J B : ℕ → V3 ℝ) (v : Fin L → V3 ℝ) : ℝ := ringEnergy L (fld fun i => toUnit (v i)) J B

theorem unit_meas' : Measurable fun (v : Fin L → V3 ℝ) (i : Fin L) => toUnit (v i) :=
  measurable_pi_lambda _ fun i => toUnit_meas.comp (measurable_pi_apply i)

theorem unitEnergy_nice (J B : ℕ → V3 ℝ) : Gap.Nice (unitEnergy L J B) := by
  have t := ring_tame J B L
  obtain ⟨D, hD⟩ := t.bound
  exact ⟨t.meas.comp unit_meas', D, fun v => hD _ fun i => toUnit_len (v i)⟩

theorem unit_update (v : Fin L → V3 ℝ) (i : Fin L) (x : V3 ℝ) :
    (fld fun k => toUnit (update v i x k)) = update (fld fun k => toUnit (v k)) i (toUnit x) := by
  rw [← Thermal.fld_update]
  congr 1
  funext k
  by_cases h : k = i
  · rw [h, update_self, update_self]
  · rw [update_of_ne h, update_of_ne h]

/-- local field of the directions -/
noncomputable def unitField (L : ℕ) (J B : ℕ → V3 ℝ) (v : Fin L → V3 ℝ) (i : ℕ) : V3 ℝ := omega L (fld fun k => toUnit (v k)) J B i

theorem unit_replace (hL : 2 ≤ L) (v : Fin L → V3 ℝ) (i : Fin L) (x : V3 ℝ) :
    unitEnergy L J B (update v i x) - unitEnergy L J B v = -dot (unitField L J B v i) (Spec.sub (toUnit x) (toUnit (v i))) := by
  have h := ringEnergy_replace hL i.2 (fld fun k => toUnit (v k)) J B (toUnit x)
  rw [fld_val] at h
  unfold unitEnergy unitField
  rw [unit_update]
  exact h

theorem left_bound (hL : 2 ≤ L) (i : ℕ) : left L i < L := left_lt (by omega)

theorem fld_unit_len (v : Fin L → V3 ℝ) {k : ℕ} (hk : k < L) : len (fld (fun k => toUnit (v k)) k) = 1 := by
  rw [fld, dif_pos hk]
  exact toUnit_len _

theorem unitField_len (hL : 2 ≤ L) {K : ℝ} (hK : ∀ i < L, len (J i) + len (B i) ≤ K) (v : Fin L → V3 ℝ) (i : Fin L) :
    len (unitField L J B v i) ≤ 2 * K := by
  have hl := left_bound hL i
  have hr : right L i < L := right_lt' (by omega)
  unfold unitField omega
  refine (len_sub_le _ _).trans ?_
  have h1 := len_add_le (had (J (left L i)) (fld (fun k => toUnit (v k)) (left L i))) (had (J i) (fld (fun k => toUnit (v k)) (right L i)))
  have h2 := len_had_le (J (left L i)) (fld (fun k => toUnit (v k)) (left L i))
  have h3 := len_had_le (J i) (fld (fun k => toUnit (v k)) (right L i))
  rw [fld_unit_len v hl] at h2
  rw [fld_unit_len v hr] at h3
  have h4 := hK _ hl
  have h5 := hK i i.2
  have h6 := len_nonneg (B (left L i))
  linarith

theorem unit_change (hL : 2 ≤ L) {K : ℝ} (hK : ∀ i < L, len (J i) + len (B i) ≤ K) (i : Fin L) (v : Fin L → V3 ℝ) (x : V3 ℝ) :
    |unitEnergy L J B (update v i x) - unitEnergy L J B v| ≤ 4 * K := by
  rw [unit_replace hL, abs_neg]
  have h1 := abs_dot_le_len (unitField L J B v i) (Spec.sub (toUnit x) (toUnit (v i)))
  have h2 := len_sub_le (toUnit x) (toUnit (v i))
  rw [toUnit_len, toUnit_len] at h2
  have h3 := unitField_len hL hK v i
  have h4 := len_nonneg (unitField L J B v i)
  have h5 := len_nonneg (Spec.sub (toUnit x) (toUnit (v i)))
  calc _ ≤ _ := h1
    _ ≤ (2 * K) * 2 := mul_le_mul h3 (by linarith) h5 (by linarith)
    _ = 4 * K := by ring

/-- the field at a site of odd number is that of sites of even number -/
theorem odd_neighbours {i : ℕ} (hi : i % 2 = 1) (hiL : i < L) : left L i = i - 1 ∧ right L i % 2 = 0 := by
  constructor
  · unfold left
    exact left_pos (by omega) hiL
  · unfold right
    by_cases h : i + 1 = L
    · rw [right_last h]
    · rw [right_lt (by omega)]
      omega

theorem unit_apart (hL : 2 ≤ L) {i j : Fin L} (hi : (i : ℕ) % 2 = 1) (hj : (j : ℕ) % 2 = 1) (hij : i ≠ j) (v : Fin L → V3 ℝ) (x y : V3 ℝ) :
    unitEnergy L J B (update (update v i x) j y) - unitEnergy L J B (update v i x)
      = unitEnergy L J B (update v j y) - unitEnergy L J B v := by
  rw [unit_replace hL, unit_replace hL, update_of_ne (Ne.symm hij)]
  congr 2
  obtain ⟨h1, h2⟩ := odd_neighbours hj j.2
  unfold unitField omega
  rw [unit_update, update_of_ne (by rw [h1]; omega), update_of_ne (by omega)]

/-- squared length of the local field, over three -/
noncomputable def fieldSq (L : ℕ) (J B : ℕ → V3 ℝ) (i : Fin L) (v : Fin L → V3 ℝ) : ℝ := len (unitField L J B v i) ^ 2 / 3

theorem fieldSq_nice (hL : 2 ≤ L) {K : ℝ} (hK : ∀ i < L, len (J i) + len (B i) ≤ K) (i : Fin L) : Gap.Nice (fieldSq L J B i) := by
  have m1 : Measurable fun v : Fin L → V3 ℝ => unitField L J B v i := by
    have hl := left_bound hL i
    have hr : right L i < L := right_lt' (by omega)
    have e : ∀ v : Fin L → V3 ℝ, unitField L J B v i
        = Spec.sub (Spec.add (had (J (left L i)) (toUnit (v ⟨left L i, hl⟩))) (had (J i) (toUnit (v ⟨right L i, hr⟩)))) (B i) := fun v => by
      unfold unitField omega
      rw [fld, dif_pos hl, fld, dif_pos hr]
    simp only [e]
    have a1 : Measurable fun v : Fin L → V3 ℝ => toUnit (v ⟨left L i, hl⟩) := toUnit_meas.comp (measurable_pi_apply _)
    have a2 : Measurable fun v : Fin L → V3 ℝ => toUnit (v ⟨right L i, hr⟩) := toUnit_meas.comp (measurable_pi_apply _)
    refine measurable_v3 ?_ ?_ ?_
    · exact (((measurable_x.comp a1).const_mul _).add ((measurable_x.comp a2).const_mul _)).sub_const _
    · exact (((measurable_y.comp a1).const_mul _).add ((measurable_y.comp a2).const_mul _)).sub_const _
    · exact (((measurable_z.comp a1).const_mul _).add ((measurable_z.comp a2).const_mul _)).sub_const _
  refine ⟨((measurable_len.comp m1).pow_const 2).div_const 3, (2 * K) ^ 2 / 3, fun v => ?_⟩
  have h1 := unitField_len hL hK v i
  have h2 := len_nonneg (unitField L J B v i)
  unfold fieldSq
  rw [abs_of_nonneg (by positivity)]
  gcongr

/-- fluctuations due to the spin at an odd site -/
theorem site_fluct (hL : 3 ≤ L) {K : ℝ} (hK : ∀ i < L, len (J i) + len (B i) ≤ K) (β : ℝ) (i : Fin L) (hi : (i : ℕ) % 2 = 1) :
    Real.exp (-(8 * (|β| * K))) * (len (J (i - 1 : ℕ)) ^ 2 / 9) * ∫ v, wt β (unitEnergy L J B) v ∂(Measure.pi fun _ => sphereMeasure)
      ≤ Gap.ip sphereMeasure (wt β (unitEnergy L J B)) (dv sphereMeasure β (unitEnergy L J B) i) (dv sphereMeasure β (unitEnergy L J B) i) := by
  have hL2 : 2 ≤ L := by omega
  have nE := unitEnergy_nice (L := L) J B
  have nq := fieldSq_nice hL2 hK i
  have h1 := HeatCap.dv_ge (β := β) (σ := sphereMeasure) nE (i := i) (unit_change hL2 hK i) nq fun v m => by
    have e : ∫ x, (unitEnergy L J B (update v i x) - m) ^ 2 ∂sphereMeasure
        = ∫ x, ((unitEnergy L J B v + dot (unitField L J B v i) (toUnit (v i)) - m) - dot (unitField L J B v i) x) ^ 2 ∂sphereMeasure := by
      refine integral_congr_ae ?_
      filter_upwards [sphere_ae] with x hx
      have h := unit_replace (J := J) (B := B) hL2 v i x
      rw [toUnit_eq hx] at h
      have h' : unitEnergy L J B (update v i x)
          = unitEnergy L J B v + dot (unitField L J B v i) (toUnit (v i)) - dot (unitField L J B v i) x := by
        have h2 : dot (unitField L J B v i) (Spec.sub x (toUnit (v i)))
            = dot (unitField L J B v i) x - dot (unitField L J B v i) (toUnit (v i)) := by
          simp only [dot, Spec.sub]
          ring
        linarith
      simp only [h']
      ring
    rw [e]
    exact HeatCap.dot_var _ _
  obtain ⟨hl, hr⟩ := odd_neighbours hi i.2
  have hlt : (i : ℕ) - 1 < L := by omega
  have hne : right L i ≠ (i : ℕ) - 1 := by
    unfold right
    by_cases h : (i : ℕ) + 1 = L
    · rw [right_last h]
      omega
    · rw [right_lt (by omega)]
      omega
  have h2 := HeatCap.avg_ge (β := β) (σ := sphereMeasure) nE (i := ⟨i - 1, hlt⟩) (κ := len (J (i - 1 : ℕ)) ^ 2 / 9)
    (unit_change hL2 hK ⟨i - 1, hlt⟩) nq (fun v => by unfold fieldSq; positivity) fun v => by
      have e : ∫ x, fieldSq L J B i (update v ⟨i - 1, hlt⟩ x) ∂sphereMeasure = (∫ x, len (Spec.add (had (J (i - 1 : ℕ)) x)
          (Spec.sub (had (J i) (fld (fun k => toUnit (v k)) (right L i))) (B i))) ^ 2 ∂sphereMeasure) / 3 := by
        rw [← integral_div]
        refine integral_congr_ae ?_
        filter_upwards [sphere_ae] with x hx
        have e1 : unitField L J B (update v ⟨i - 1, hlt⟩ x) i = Spec.add (had (J (i - 1 : ℕ)) x)
            (Spec.sub (had (J i) (fld (fun k => toUnit (v k)) (right L i))) (B i)) := by
          unfold unitField omega
          rw [unit_update, hl, update_self, update_of_ne hne, toUnit_eq hx]
          ext <;> simp only [Spec.add, Spec.sub] <;> ring
        simp only [fieldSq, e1]
      rw [e]
      have := HeatCap.had_var (J (i - 1 : ℕ)) (Spec.sub (had (J i) (fld (fun k => toUnit (v k)) (right L i))) (B i))
      linarith
  refine le_trans ?_ h1
  have e8 : Real.exp (-(8 * (|β| * K))) = Real.exp (-(|β| * (4 * K))) * Real.exp (-(|β| * (4 * K))) := by
    rw [← Real.exp_add]
    congr 1
    ring
  rw [e8]
  calc _ = Real.exp (-(|β| * (4 * K))) * (Real.exp (-(|β| * (4 * K))) * (len (J (i - 1 : ℕ)) ^ 2 / 9)
        * ∫ v, wt β (unitEnergy L J B) v ∂(Measure.pi fun _ => sphereMeasure)) := by ring
    _ ≤ _ := mul_le_mul_of_nonneg_left h2 (Real.exp_pos _).le

/-- sites of odd number -/
def oddSites (L : ℕ) : Finset (Fin L) := (univ : Finset (Fin (L / 2))).map
  ⟨fun k : Fin (L / 2) => (⟨2 * k + 1, by omega⟩ : Fin L), fun a b h => by
    have := congrArg Fin.val h
    simp only at this
    exact Fin.ext (by omega)⟩

theorem odd_of_mem {i : Fin L} (h : i ∈ oddSites L) : (i : ℕ) % 2 = 1 := by
  obtain ⟨k, -, rfl⟩ := mem_map.1 h
  show (2 * (k : ℕ) + 1) % 2 = 1
  omega

theorem energy_fluct (hL : 3 ≤ L) {K j0 : ℝ} (hK : ∀ i < L, len (J i) + len (B i) ≤ K) (hj0 : 0 ≤ j0) (hj : ∀ i < L, j0 ≤ len (J i)) (β m : ℝ) :
    L * (Real.exp (-(8 * (|β| * K))) * j0 ^ 2 / 27) * ∫ v, wt β (unitEnergy L J B) v ∂(Measure.pi fun _ => sphereMeasure)
      ≤ Gap.ip sphereMeasure (wt β (unitEnergy L J B)) (fun v => unitEnergy L J B v - m) (fun v => unitEnergy L J B v - m) := by
  have nE := unitEnergy_nice (L := L) J B
  refine le_trans ?_ (HeatCap.bessel (β := β) (σ := sphereMeasure) nE (oddSites L) m
    fun i hi j hj hij v x y => unit_apart (by omega) (odd_of_mem hi) (odd_of_mem hj) hij v x y)
  set Z := ∫ v, wt β (unitEnergy L J B) v ∂(Measure.pi fun _ : Fin L => sphereMeasure) with hZ
  have Z0 : 0 ≤ Z := integral_nonneg fun v => (HeatCap.wt_pos v).le
  have h1 : ∑ _i ∈ oddSites L, Real.exp (-(8 * (|β| * K))) * (j0 ^ 2 / 9) * Z
      ≤ ∑ i ∈ oddSites L, Gap.ip sphereMeasure (wt β (unitEnergy L J B)) (dv sphereMeasure β (unitEnergy L J B) i)
        (dv sphereMeasure β (unitEnergy L J B) i) := by
    refine sum_le_sum fun i hi => le_trans ?_ (site_fluct hL hK β i (odd_of_mem hi))
    have := hj (i - 1 : ℕ) (by omega)
    gcongr
  refine le_trans ?_ h1
  rw [sum_const, oddSites, card_map, card_univ, Fintype.card_fin, nsmul_eq_mul]
  have h2 : (L : ℝ) / 3 ≤ (L / 2 : ℕ) := by
    rw [div_le_iff₀ (by norm_num)]
    exact_mod_cast (by omega : L ≤ L / 2 * 3)
  have h3 : 0 ≤ Real.exp (-(8 * (|β| * K))) * (j0 ^ 2 / 9) * Z := by positivity
  calc _ = (L : ℝ) / 3 * (Real.exp (-(8 * (|β| * K))) * (j0 ^ 2 / 9) * Z) := by ring
    _ ≤ _ := mul_le_mul_of_nonneg_right h2 h3

end

section
variable {c : SpinChain ℝ} {L s : ℕ}

theorem at_wf (w : WF c L s) (b : ℝ) : WF (atBeta c b) L s := ⟨w.hsize, w.ssize, w.L_lt, w.s_lt, w.spins, w.j, w.h, w.hs⟩

/-- C129: the fluctuations of the energy grow in proportion to the length: the variance per site lies between two positive numbers that
do not depend on it. -/
theorem C129_heat_capacity (c : SpinChain ℝ) (L s : ℕ) (w : WF c L s) (hL : 3 ≤ L) (K j0 : ℝ)
    (hK : ∀ i < L, len (J c i) + len (H0 c i) ≤ K) (hj0 : 0 ≤ j0) (hj : ∀ i < L, j0 ≤ len (J c i)) :
    L * heatLow c.vars.beta K j0 ≤ thermalCov c L (wholeEnergy L) (wholeEnergy L) (wholeEnergy L) ∧
    thermalCov c L (wholeEnergy L) (wholeEnergy L) (wholeEnergy L) ≤ L * (perSite c.vars.beta K * K ^ 2) := by
  have hL2 : 2 ≤ L := by omega
  refine ⟨?_, C124_energy c L s w hL2 K hK⟩
  obtain ⟨D, hD⟩ := whole_ae w hL2
  have mE := (whole_tame w hL2).meas
  rw [thermal_cov_eq, Response.cov_centre _ mE hD mE mE hD hD]
  set m := Response.mean (Measure.pi fun _ : Fin L => sphereMeasure) c.vars.beta (fun v => wholeEnergy L (withSpins c v))
    (fun v => wholeEnergy L (withSpins c v)) with hm
  have ae : ∀ᵐ v ∂(Measure.pi fun _ : Fin L => sphereMeasure), wholeEnergy L (withSpins c v) = unitEnergy L (J c) (H0 c) v := by
    filter_upwards [units_ae] with v hv
    rw [whole_ring w hL2, unitEnergy]
    congr 2
    funext i
    rw [toUnit_eq (hv i)]
  have h := energy_fluct hL hK hj0 hj c.vars.beta m
  have e1 : ∫ v, Real.exp (-(c.vars.beta * wholeEnergy L (withSpins c v))) ∂(Measure.pi fun _ : Fin L => sphereMeasure)
      = ∫ v, wt c.vars.beta (unitEnergy L (J c) (H0 c)) v ∂(Measure.pi fun _ : Fin L => sphereMeasure) :=
    integral_congr_ae (ae.mono fun v hv => by simp only [hv, wt])
  have e2 : ∫ v, Real.exp (-(c.vars.beta * wholeEnergy L (withSpins c v))) * ((wholeEnergy L (withSpins c v) - m)
        * (wholeEnergy L (withSpins c v) - m)) ∂(Measure.pi fun _ : Fin L => sphereMeasure)
      = Gap.ip sphereMeasure (wt c.vars.beta (unitEnergy L (J c) (H0 c))) (fun v => unitEnergy L (J c) (H0 c) v - m)
        (fun v => unitEnergy L (J c) (H0 c) v - m) :=
    integral_congr_ae (ae.mono fun v hv => by simp only [hv, wt])
  have Zp := SecondLaw.weight_pos c.vars.beta mE hD
  unfold Response.mean
  rw [e2, le_div_iff₀ Zp, e1]
  exact h

/-- C129: the energy per site falls with the inverse temperature at a rate equal to its variance times the number of sites, which is
the variance of the energy per site of length. -/
theorem C129_derivative (c : SpinChain ℝ) (L s : ℕ) (w : WF c L s) (hL : 2 ≤ L) (b : ℝ) :
    HasDerivAt (energyAt c L) (-(thermalCov (atBeta c b) L (wholeEnergy L) (wholeEnergy L) (wholeEnergy L) / L)) b := by
  have mr := (ring_tame (J c) (H0 c) L).meas
  obtain ⟨D, hD⟩ := ring_bound (J c) (H0 c) L
  have h := Response.mean_deriv (μ := Measure.pi fun _ : Fin L => sphereMeasure) (E := fun _ => 0) 1 measurable_const mr mr (D := 0)
    (.of_forall fun _ => by simp) hD hD b
  have e : energyAt c L = fun a => Response.mean (Measure.pi fun _ : Fin L => sphereMeasure) 1
      (fun v => 0 + a * ringEnergy L (fld v) (J c) (H0 c)) (fun v => ringEnergy L (fld v) (J c) (H0 c)) / L := by
    funext a
    rw [energyAt_eq w hL]
    unfold Thermal.U Response.mean
    simp only [zero_add, one_mul]
  have e2 : ∀ F : SpinChain ℝ → ℝ, ∀ G : (Fin L → V3 ℝ) → ℝ, (∀ v, F (withSpins (atBeta c b) v) = G v) →
      thermalMean (atBeta c b) L (wholeEnergy L) F = Response.mean (Measure.pi fun _ : Fin L => sphereMeasure) 1
        (fun v => 0 + b * ringEnergy L (fld v) (J c) (H0 c)) G := fun F G hF => by
    have e3 : ∀ v : Fin L → V3 ℝ, wholeEnergy L (withSpins (atBeta c b) v) = ringEnergy L (fld v) (J c) (H0 c) :=
      fun v => whole_ring (at_wf w b) hL v
    unfold thermalMean Response.mean
    simp only [zero_add, one_mul, e3, hF]
    rfl
  rw [e]
  refine (h.div_const (L : ℝ)).congr_deriv ?_
  have e4 := e2 (wholeEnergy L) (fun v => ringEnergy L (fld v) (J c) (H0 c)) fun v => whole_ring (at_wf w b) hL v
  have e5 := e2 (fun x => wholeEnergy L x * wholeEnergy L x)
    (fun v => ringEnergy L (fld v) (J c) (H0 c) * ringEnergy L (fld v) (J c) (H0 c)) fun v => by
      have := whole_ring (at_wf w b) hL v
      simp only [this]
      rfl
  unfold thermalCov
  rw [e4, e5]
  ring

theorem heatLow_anti {b b' K : ℝ} (h : |b| ≤ b') (K0 : 0 ≤ K) (j0 : ℝ) : heatLow b' K j0 ≤ heatLow b K j0 := by
  unfold heatLow
  rw [abs_of_nonneg ((abs_nonneg b).trans h)]
  gcongr

theorem perSite_mono {b b' K : ℝ} (h : |b| ≤ b') (K0 : 0 ≤ K) : perSite b K ≤ perSite b' K := by
  unfold perSite
  rw [abs_of_nonneg ((abs_nonneg b).trans h)]
  gcongr

/-- C129: between two inverse temperatures the energy per site changes by at least and at most a fixed multiple of their difference,
whatever the length. -/
theorem C129_slope (c : SpinChain ℝ) (L s : ℕ) (w : WF c L s) (hL : 3 ≤ L) (K j0 : ℝ)
    (hK : ∀ i < L, len (J c i) + len (H0 c i) ≤ K) (hj0 : 0 ≤ j0) (hj : ∀ i < L, j0 ≤ len (J c i)) (bm b1 b2 : ℝ)
    (h1 : -bm ≤ b1) (h12 : b1 ≤ b2) (h2 : b2 ≤ bm) :
    heatLow bm K j0 * (b2 - b1) ≤ energyAt c L b1 - energyAt c L b2 ∧
    energyAt c L b1 - energyAt c L b2 ≤ perSite bm K * K ^ 2 * (b2 - b1) := by
  have hL2 : 2 ≤ L := by omega
  have K0 := K_nonneg hL2 hK
  have L0 : (0 : ℝ) < L := by exact_mod_cast (by omega : 0 < L)
  have hd := C129_derivative c L s w hL2
  have key : ∀ b ∈ Set.Icc (-bm) bm, heatLow bm K j0 ≤ thermalCov (atBeta c b) L (wholeEnergy L) (wholeEnergy L) (wholeEnergy L) / L ∧
      thermalCov (atBeta c b) L (wholeEnergy L) (wholeEnergy L) (wholeEnergy L) / L ≤ perSite bm K * K ^ 2 := fun b hb => by
    obtain ⟨g1, g2⟩ := C129_heat_capacity (atBeta c b) L s (at_wf w b) hL K j0 hK hj0 hj
    have hb' : |b| ≤ bm := abs_le.2 hb
    have m1 := heatLow_anti hb' K0 j0
    have m2 := perSite_mono hb' K0
    have g1' : L * heatLow b K j0 ≤ _ := g1
    have g2' : _ ≤ L * (perSite b K * K ^ 2) := g2
    rw [le_div_iff₀ L0, div_le_iff₀ L0]
    constructor
    · refine le_trans ?_ g1'
      rw [mul_comm]
      gcongr
    · refine g2'.trans ?_
      rw [mul_comm]
      gcongr
  rcases eq_or_lt_of_le h12 with rfl | hlt
  · simp
  obtain ⟨x, hx, he⟩ := exists_hasDerivAt_eq_slope (energyAt c L) _ hlt
    (fun b _ => (hd b).continuousAt.continuousWithinAt) fun b _ => hd b
  obtain ⟨k1, k2⟩ := key x ⟨h1.trans hx.1.le, hx.2.le.trans h2⟩
  rw [eq_div_iff (by linarith)] at he
  have d0 : 0 ≤ b2 - b1 := by linarith
  constructor
  · have := mul_le_mul_of_nonneg_right k1 d0
    linarith
  · have := mul_le_mul_of_nonneg_right k2 d0
    linarith

theorem heatLow_pos (b K : ℝ) {j0 : ℝ} (h : 0 < j0) : 0 < heatLow b K j0 := by
  unfold heatLow
  positivity

/-- couplings of a new chain without disorder -/
theorem clean_len {conf : Config ℝ} (v : ValidConf conf L s) (hj : conf.jvar = 0)
    {u0 zj0 zh0 : ℕ → ℝ} (hc : SpinChain.new conf 0 u0 zj0 zh0 = .ok c) (i : ℕ) (hi : i < L) : 1 ≤ len (J c i) := by
  obtain ⟨f0, f1, f2, fr, hf⟩ := three_le v.hfield
  obtain ⟨h0, h1, h2, hr, hh⟩ := three_le v.hs
  obtain ⟨sp, hsp, -⟩ := newSpins_ok conf.beta u0 L
  have a := new_eq v.hsize v.L_lt hf hh v.jvar v.hvar 0 u0 zj0 zh0 hsp
  rw [hc] at a
  cases a
  unfold len
  rw [Real.one_le_sqrt]
  simp [J, coupF, hj, hi, dot]
  nlinarith [mul_self_nonneg conf.lambda]

/-- C129: a search for the energy per site of the inverse temperature `bs` finds `bs` up to `η` and half the width of the last bracket. -/
theorem C129_search (conf : Config ℝ) (L s : ℕ) (v : ValidConf conf L s) (hL : 3 ≤ L) (hj : conf.jvar = 0) (hv : conf.hvar = 0)
    (hb0 : conf.beta ≠ 0) (u0 zj0 zh0 : ℕ → ℝ) (c : SpinChain ℝ) (hc : SpinChain.new conf 0 u0 zj0 zh0 = .ok c) (K : ℝ)
    (hK : ∀ i < L, len (J c i) + len (H0 c i) ≤ K) (per n : ℕ) (hper : 1 ≤ per) (hn : 1 ≤ n) (η p : ℝ) (hη : 0 < η) (hη5 : η ≤ 5)
    (hp : 0 < p) (hp1 : p ≤ 1)
    (hs : 16 * K ^ 2 * samplesWorth 5 K L per * (17 + 8 * ((|conf.beta| / 2 + 5 * K) * L)) / (p * (heatLow 5 K 1 * η) ^ 2) ≤ n)
    (l0 : ℝ) (hl : l0 = 0.01 ∨ l0 = 0.0001) (bs : ℝ) (hbs : bs ∈ Set.Icc l0 5) (zj zh : ℕ → ℕ → ℝ) :
    searchLaw L per n {r | ¬ ∃ b, bisect l0 5 (energyAt c L bs) (fun k beta =>
        estimate SpinChain.metropolis_update per n SpinChain.mc_total_energy conf beta (searchRand zj zh r k)) 13 = .ok (some b) ∧
        |b.mid - bs| ≤ 0.0005 + η} ≤ ENNReal.ofReal p := by
  have w := new_wf v hc
  have hL2 := v.L_two
  have hJ := clean_len v hj hc
  have κ0 := heatLow_pos 5 K one_pos
  have K1 : 1 ≤ K := by
    have := hJ 0 (by omega)
    have := hK 0 (by omega)
    have := len_nonneg (H0 c 0)
    linarith
  have l01 : 0 ≤ l0 ∧ l0 ≤ 5 := by rcases hl with rfl | rfl <;> norm_num
  have slope := C129_slope c L s w hL K 1 hK zero_le_one hJ 5
  have hκ : heatLow 5 K 1 ≤ 1 / 27 := by
    unfold heatLow
    have : Real.exp (-(8 * (|5| * K))) ≤ 1 := by
      rw [Real.exp_le_one_iff]
      have : 0 ≤ |(5 : ℝ)| * K := by positivity
      linarith
    rw [one_pow, mul_one]
    exact div_le_div_of_nonneg_right this (by norm_num)
  have dK : heatLow 5 K 1 * η ≤ K := by nlinarith
  have d0 : 0 < heatLow 5 K 1 * η := by positivity
  have e1 := (slope l0 bs (by linarith) hbs.1 hbs.2).1
  have e2 := (slope bs 5 (by linarith [hbs.1]) hbs.2 le_rfl).1
  have q1 : 0 ≤ heatLow 5 K 1 * (bs - l0) := mul_nonneg κ0.le (by linarith [hbs.1])
  have q2 : 0 ≤ heatLow 5 K 1 * (5 - bs) := mul_nonneg κ0.le (by linarith [hbs.2])
  refine le_trans (measure_mono fun r hr => ?_) (C128_search conf L s v hj hv hb0 u0 zj0 zh0 c hc K hK per n hper hn
    (heatLow 5 K 1 * η) p d0 dK hp hp1 hs l0 hl (energyAt c L bs) (by linarith) (by linarith) zj zh)
  rintro ⟨b, h1, beta, hb, h2, h3⟩
  refine hr ⟨b, h1, ?_⟩
  have h4 : heatLow 5 K 1 * |beta - bs| ≤ heatLow 5 K 1 * η := by
    refine le_trans ?_ h3
    rcases le_total beta bs with h | h
    · have := (slope beta bs (by linarith [hb.1]) h hbs.2).1
      rw [abs_of_nonpos (by linarith)]
      refine le_trans (le_of_eq (by ring)) (this.trans (le_abs_self _))
    · have := (slope bs beta (by linarith [hbs.1]) h hb.2).1
      rw [abs_of_nonneg (by linarith)]
      refine this.trans ?_
      rw [abs_sub_comm]
      exact le_abs_self _
  have h5 := le_of_mul_le_mul_left h4 κ0
  have h6 : |b.mid - bs| ≤ |beta - b.mid| + |beta - bs| := by
    rw [abs_sub_comm beta b.mid]
    calc |b.mid - bs| = |(b.mid - beta) + (beta - bs)| := by ring_nf
      _ ≤ _ := abs_add_le _ _
  linarith

/-- non-vacuity: the chain of four spins used throughout, and the default configuration without disorder and with inverse temperature
one, searched with enough samples -/
example : (∃ K j0 : ℝ, 0 < j0 ∧ WF demo 4 2 ∧ (∀ i < 4, len (J demo i) + len (H0 demo i) ≤ K) ∧ (∀ i < 4, j0 ≤ len (J demo i)) ∧
      0 < heatLow demo.vars.beta K j0) ∧
    ∃ (conf : Config ℝ), ValidConf conf 512 8 ∧ conf.jvar = 0 ∧ conf.hvar = 0 ∧ conf.beta ≠ 0 ∧
    ∀ u0 zj0 zh0 : ℕ → ℝ, ∃ c K, SpinChain.new conf 0 u0 zj0 zh0 = .ok c ∧ (∀ i < 512, len (J c i) + len (H0 c i) ≤ K) ∧
      ∃ n : ℕ, 1 ≤ n ∧ 16 * K ^ 2 * samplesWorth 5 K 512 1000 * (17 + 8 * ((|conf.beta| / 2 + 5 * K) * (512 : ℕ)))
        / (1 / 100 * (heatLow 5 K 1 * (1 / 10)) ^ 2) ≤ n := by
  constructor
  · refine ⟨∑ i ∈ range 4, (len (J demo i) + len (H0 demo i)), 1 / 2, by norm_num, demo_wf,
      fun i hi => single_le_sum (f := fun i => len (J demo i) + len (H0 demo i))
        (fun j _ => add_nonneg (Real.sqrt_nonneg _) (Real.sqrt_nonneg _)) (mem_range.2 hi), fun i hi => ?_, heatLow_pos _ _ (by norm_num)⟩
    refine Real.le_sqrt_of_sq_le ?_
    interval_cases i <;> norm_num [J, demo, dot]
  · let conf : Config ℝ := { (Config.default : Config ℝ) with
      beta := 1
      jvar := 0
      hvar := 0 }
    have v : ValidConf conf 512 8 := by constructor <;> first | rfl | norm_num
    refine ⟨conf, v, rfl, rfl, one_ne_zero, fun u0 zj0 zh0 => ?_⟩
    obtain ⟨c, h, w⟩ := C11_new_wf' conf 0 u0 zj0 zh0 512 8 v.hsize v.L_lt v.ssize v.s_lt v.hfield v.hs v.jvar v.hvar
    set K := ∑ i ∈ range 512, (len (J c i) + len (H0 c i)) with hK
    obtain ⟨n, hn⟩ := exists_nat_ge (16 * K ^ 2 * samplesWorth 5 K 512 1000 * (17 + 8 * ((|conf.beta| / 2 + 5 * K)
      * (512 : ℕ))) / (1 / 100 * (heatLow 5 K 1 * (1 / 10)) ^ 2))
    refine ⟨c, K, h, fun i hi => single_le_sum (f := fun i => len (J c i) + len (H0 c i))
        (fun j _ => add_nonneg (Real.sqrt_nonneg _) (Real.sqrt_nonneg _)) (mem_range.2 hi), n + 1, by omega, hn.trans (by push_cast; linarith)⟩

end

end Verif.Props
