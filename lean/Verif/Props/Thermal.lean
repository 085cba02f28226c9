/-
Property C93: energy density and inverse temperature determine one another (/repo/src/obs.rs, `find_beta` and
its variants, lines 102-200, which look for the inverse temperature of a given energy density).
-/
import Verif.Lemmas.Thermal
import Verif.Props.Ergodic
import Verif.Props.Metropolis
import Verif.Props.Demo

namespace Verif.Props

open Spec
open Finset hiding expect
open MeasureTheory Ergodic Thermal Markov

/-- mean of the reported energy density (`mc_total_energy`) in thermal equilibrium -/
noncomputable def energyAt (c : SpinChain ℝ) (L : ℕ) (beta : ℝ) : ℝ :=
  thermalMean (atBeta c beta) L (wholeEnergy L) fun c => wholeEnergy L c / L

theorem whole_ring {c : SpinChain ℝ} {L s : ℕ} (w : WF c L s) (hL : 2 ≤ L) (v : Fin L → V3 ℝ) :
    wholeEnergy L (withSpins c v) = ringEnergy L (fld v) (J c) (H0 c) := by
  have hL' : (L : ℝ) ≠ 0 := by positivity
  unfold wholeEnergy
  rw [mc_total_energy_eq (withSpins_wf w v) (by omega)]
  show (L : ℝ) * (ringEnergy L (S (withSpins c v)) (J c) (H0 c) / L) = _
  rw [S_fld]
  field_simp

theorem energyAt_eq {c : SpinChain ℝ} {L s : ℕ} (w : WF c L s) (hL : 2 ≤ L) (beta : ℝ) :
    energyAt c L beta = U (Measure.pi fun _ : Fin L => sphereMeasure) (fun v => ringEnergy L (fld v) (J c) (H0 c)) beta / L := by
  have e : ∀ v : Fin L → V3 ℝ, wholeEnergy L (withSpins (atBeta c beta) v) = ringEnergy L (fld v) (J c) (H0 c) :=
    fun v => whole_ring (c := atBeta c beta) ⟨w.hsize, w.ssize, w.L_lt, w.s_lt, w.spins, w.j, w.h, w.hs⟩ hL v
  unfold energyAt thermalMean U
  simp only [e, ← mul_div_assoc]
  rw [integral_div, div_right_comm]
  rfl

theorem ring_tame (J B : ℕ → V3 ℝ) (L : ℕ) : Tame fun v : Fin L → V3 ℝ => ringEnergy L (fld v) J B := by
  have := tame_ring (L := L) chain0 J B L
  simpa only [S_fld] using this

theorem ring_bound (J B : ℕ → V3 ℝ) (L : ℕ) : ∃ D, ∀ᵐ v ∂(Measure.pi fun _ : Fin L => sphereMeasure),
    |ringEnergy L (fld v) J B| ≤ D := by
  obtain ⟨D, hD⟩ := (ring_tame J B L).bound
  exact ⟨D, (good_ae sphere_ae).mono fun v hv => hD v hv⟩

/-- C93: the thermal energy density is a strictly decreasing continuous function of the inverse temperature,
provided some coupling or some field is not zero. -/
theorem C93_decreasing (c : SpinChain ℝ) (L s : ℕ) (w : WF c L s) (hL : 3 ≤ L)
    (hne : ∃ i < L, J c i ≠ zero ∨ H0 c i ≠ zero) : StrictAnti (energyAt c L) ∧ Continuous (energyAt c L) := by
  have hL0 : (0 : ℝ) < L := by exact_mod_cast (by omega : 0 < L)
  obtain ⟨D, hD⟩ := ring_bound (J c) (H0 c) L
  have m := (ring_tame (J c) (H0 c) L).meas
  rw [show energyAt c L = fun b => _ from funext (energyAt_eq w (by omega))]
  refine ⟨fun b1 b2 h => ?_, (U_cont m hD).div_const _⟩
  exact div_lt_div_of_pos_right (U_lt m hD (not_constant hL hne) h) hL0

/-- At infinite temperature the energy density is zero. -/
theorem C93_hot (c : SpinChain ℝ) (L s : ℕ) (w : WF c L s) (hL : 2 ≤ L) : energyAt c L 0 = 0 := by
  rw [energyAt_eq w hL]
  unfold U
  simp [ring_mean hL]

/-- every configuration of unit spins comes from numbers in the closed unit square -/
theorem config_point {L : ℕ} (v : Fin L → V3 ℝ) (hv : ∀ i, len (v i) = 1) :
    ∃ p : Fin L → ℝ × ℝ, (∀ i, p i ∈ Set.Icc (0 : ℝ) 1 ×ˢ Set.Icc (0 : ℝ) 1) ∧
      (fun i => spherePoint (p i).1 (p i).2) = v := by
  have : ∀ i, ∃ q : ℝ × ℝ, q ∈ Set.Icc (0 : ℝ) 1 ×ˢ Set.Icc (0 : ℝ) 1 ∧ spherePoint q.1 q.2 = v i := by
    intro i
    by_cases h : v i = ⟨0, 0, -1⟩
    · refine ⟨(0, 1), ⟨⟨le_rfl, zero_le_one⟩, ⟨zero_le_one, le_rfl⟩⟩, ?_⟩
      rw [h]
      norm_num [spherePoint]
    · obtain ⟨u1, u2, h1, h2, h3, h4, h5⟩ := C37_onto (v i) (hv i) h
      exact ⟨(u1, u2), ⟨⟨h1, h2.le⟩, ⟨h3, h4.le⟩⟩, h5⟩
  choose p hp using this
  exact ⟨p, fun i => (hp i).1, funext fun i => (hp i).2⟩

/-- At low temperature the energy density comes down to that of any configuration of unit spins, and it never
falls below a lower bound of theirs: its limit is the ground-state energy. -/
theorem C93_cold (c : SpinChain ℝ) (L s : ℕ) (w : WF c L s) (hL : 2 ≤ L) :
    (∀ v : Fin L → V3 ℝ, (∀ i, len (v i) = 1) → ∀ ε : ℝ, 0 < ε →
      ∀ᶠ b in Filter.atTop, energyAt c L b ≤ wholeEnergy L (withSpins c v) / L + ε) ∧
    ∀ m : ℝ, (∀ v : Fin L → V3 ℝ, (∀ i, len (v i) = 1) → m ≤ wholeEnergy L (withSpins c v) / L) →
      ∀ b, m ≤ energyAt c L b := by
  have hL0 : (0 : ℝ) < L := by exact_mod_cast (by omega : 0 < L)
  obtain ⟨D, hD⟩ := ring_bound (J c) (H0 c) L
  have mr := (ring_tame (J c) (H0 c) L).meas
  refine ⟨fun v hv ε hε => ?_, fun m hm b => ?_⟩
  · obtain ⟨p, hp, rfl⟩ := config_point v hv
    have := U_low mr hD (fun a ha => energy_weight (J c) (H0 c) hp ha) (mul_pos hε hL0)
    filter_upwards [this] with b hb
    rw [energyAt_eq w hL, whole_ring w hL, div_add' _ _ _ hL0.ne']
    exact div_le_div_of_nonneg_right hb hL0.le
  · rw [energyAt_eq w hL, le_div_iff₀ hL0]
    refine U_ge mr hD ((good_ae sphere_ae).mono fun v hv => ?_) b
    have := hm v hv
    rwa [whole_ring w hL, le_div_iff₀ hL0] at this

/-- An energy density is that of exactly one positive inverse temperature if and only if it is negative and
some configuration of unit spins has a lower one. -/
theorem C93_temperature (c : SpinChain ℝ) (L s : ℕ) (w : WF c L s) (hL : 3 ≤ L)
    (hne : ∃ i < L, J c i ≠ zero ∨ H0 c i ≠ zero) (e : ℝ) :
    (∃! b, 0 < b ∧ energyAt c L b = e) ↔
      e < 0 ∧ ∃ v : Fin L → V3 ℝ, (∀ i, len (v i) = 1) ∧ wholeEnergy L (withSpins c v) / L < e := by
  obtain ⟨anti, cont⟩ := C93_decreasing c L s w hL hne
  obtain ⟨cold, ge⟩ := C93_cold c L s w (by omega)
  have hot := C93_hot c L s w (by omega)
  constructor
  · rintro ⟨b, ⟨h0, hb⟩, -⟩
    refine ⟨by rw [← hb, ← hot]; exact anti h0, ?_⟩
    by_contra hc
    push Not at hc
    have h1 := ge e hc (b + 1)
    have h2 := anti (show b < b + 1 by linarith)
    linarith
  · rintro ⟨he, v, hv, hve⟩
    obtain ⟨b1, hb1, hb2⟩ := ((cold v hv (e - wholeEnergy L (withSpins c v) / L) (by linarith)).and
      (Filter.eventually_ge_atTop 0)).exists
    have hb1 : energyAt c L b1 ≤ e := by linarith
    obtain ⟨b, hb, hbe⟩ := intermediate_value_Icc' hb2 cont.continuousOn (show e ∈ Set.Icc _ _ from
      ⟨hb1, by rw [hot]; exact he.le⟩)
    have hbe : energyAt c L b = e := hbe
    refine ⟨b, ⟨lt_of_le_of_ne hb.1 fun h => ?_, hbe⟩, fun b' hb' => anti.injective (hb'.2.trans hbe.symm)⟩
    rw [← h, hot] at hbe
    linarith

/-- With exact estimates the searches return the inverse temperature of every energy density that belongs to
one between 0.01 and 5, up to 0.0005. -/
theorem C93_search (c : SpinChain ℝ) (L s : ℕ) (w : WF c L s) (hL : 3 ≤ L)
    (hne : ∃ i < L, J c i ≠ zero ∨ H0 c i ≠ zero) (e : ℝ) (h1 : energyAt c L 5 ≤ e) (h2 : e ≤ energyAt c L 0.01)
    (est : ℕ → ℝ → R ℝ) (hest : ∀ k, ∀ b ∈ Set.Icc (0.01 : ℝ) 5, est k b = .ok (energyAt c L b)) :
    ∃! bs, energyAt c L bs = e ∧
      ∃ b, bisect 0.01 5 e est 13 = .ok (some b) ∧ |b.mid - bs| ≤ 0.0005 := by
  obtain ⟨anti, cont⟩ := C93_decreasing c L s w hL hne
  obtain ⟨bs, hb, rfl⟩ := intermediate_value_Icc' (show (0.01 : ℝ) ≤ 5 by norm_num) cont.continuousOn
    (show e ∈ Set.Icc _ _ from ⟨h1, h2⟩)
  refine ⟨bs, ⟨rfl, ?_⟩, fun b' hb' => anti.injective hb'.1⟩
  exact C50_accurate 0.01 (Or.inl rfl) _ (anti.strictAntiOn _) bs hb est hest

/-- The hypotheses are met by the chain of four spins used throughout; its energy density at the inverse
temperature 1 is negative. -/
example : WF demo 4 2 ∧ (∃ i < 4, J demo i ≠ zero ∨ H0 demo i ≠ zero) ∧ energyAt demo 4 1 < 0 := by
  have hne : ∃ i < 4, J demo i ≠ zero ∨ H0 demo i ≠ zero := by
    refine ⟨0, by norm_num, Or.inl fun h => ?_⟩
    have := congrArg V3.x h
    norm_num [J, demo, zero] at this
  refine ⟨demo_wf, hne, ?_⟩
  have := (C93_decreasing demo 4 2 demo_wf (by norm_num) hne).1 (show (0 : ℝ) < 1 by norm_num)
  rwa [C93_hot demo 4 2 demo_wf (by norm_num)] at this

end Verif.Props
