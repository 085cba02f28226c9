/-
Property C102: what the boundary terms measure
(/repo/src/spinchain.rs `boundary_term`, /repo/src/spinchain_langevin.rs `boundary_term`).
-/
import Verif.Lemmas.Boundary
import Verif.Props.LongRun

namespace Verif.Props

open Spec MeasureTheory

/-- C102, `SpinChain::boundary_term`: with the spins of the subsystem in thermal equilibrium at inverse
temperature `β'` (as an open chain in the static field), the mean of the boundary term is `β' / beta - 1`
times the mean squared torque on the two edge spins. -/
theorem C102_thermal (c : SpinChain ℝ) (L s : ℕ) (w : WF c L s) (h2 : 2 ≤ s) (hs : s ≤ L) (hβ : 0 < c.vars.beta)
    (β' : ℝ) (hβ' : 0 < β') :
    (∀ v : Fin L → V3 ℝ, ∃ b, (withSpins c v).boundary_term = .ok b) ∧
    openMean L s β' (J c) (H0 c) (fun v => orZero (withSpins c v).boundary_term)
      = (β' / c.vars.beta - 1) * openMean L s β' (J c) (H0 c) (edgeTorque s (J c) (H0 c)) := by
  refine ⟨fun v => ⟨_, boundary_eq w h2 hs v⟩, ?_⟩
  have e : openSum L s β' (J c) (H0 c) (fun v => orZero (withSpins c v).boundary_term)
      = -openSum L s β' (J c) (H0 c) (torqueExcess s c.vars.beta (J c) (H0 c)) := by
    unfold openSum
    rw [← integral_neg]
    refine integral_congr_ae (Filter.Eventually.of_forall fun v => ?_)
    dsimp only
    rw [boundary_eq w h2 hs v]
    simp only [orZero]
    ring
  unfold openMean
  rw [e, openSum_torque h2 hβ.ne' hβ'.ne']
  ring

/-- Hence energy flows from hot to cold: in equilibrium at inverse temperature `β'` the mean boundary term
is positive if the baths are hotter (`beta < β'`), negative if they are colder and zero if and only if the
temperatures agree. -/
theorem C102_direction (c : SpinChain ℝ) (L s : ℕ) (w : WF c L s) (h2 : 2 ≤ s) (hs : s ≤ L) (hβ : 0 < c.vars.beta)
    (hJ : J c 0 ≠ zero) (β' : ℝ) (hβ' : 0 < β') :
    (0 < openMean L s β' (J c) (H0 c) (fun v => orZero (withSpins c v).boundary_term) ↔ c.vars.beta < β') ∧
    (openMean L s β' (J c) (H0 c) (fun v => orZero (withSpins c v).boundary_term) < 0 ↔ β' < c.vars.beta) ∧
    (openMean L s β' (J c) (H0 c) (fun v => orZero (withSpins c v).boundary_term) = 0 ↔ β' = c.vars.beta) := by
  rw [(C102_thermal c L s w h2 hs hβ β' hβ').2]
  have hp : 0 < openMean L s β' (J c) (H0 c) (edgeTorque s (J c) (H0 c)) :=
    div_pos (openSum_edge_pos h2 hs hJ) openSum_one_pos
  refine ⟨?_, ?_, ?_⟩
  · rw [mul_pos_iff_of_pos_right hp, sub_pos, one_lt_div hβ]
  · rw [mul_neg_iff]
    constructor
    · rintro (⟨_, h⟩ | ⟨h, _⟩)
      · exact absurd hp h.not_gt
      · rwa [sub_neg, div_lt_one hβ] at h
    · intro h
      exact Or.inr ⟨by rwa [sub_neg, div_lt_one hβ], hp⟩
  · rw [mul_eq_zero, or_iff_left hp.ne', sub_eq_zero, div_eq_one_iff_eq hβ.ne']

/-- the chain of six sites with a subsystem of two -/
example : WF demo6.toSpinChain 6 2 ∧ 2 ≤ 2 ∧ 2 ≤ 6 ∧ 0 < demo6.toSpinChain.vars.beta ∧ J demo6.toSpinChain 0 ≠ zero := by
  refine ⟨demo6_wf, le_rfl, by norm_num, by norm_num [demo6, demoVars], fun h => ?_⟩
  have hy := congrArg V3.y h
  norm_num [J, demo6, zero] at hy

/-- C102, `SpinChainLangevin::boundary_term`: along runs of `update` with normally distributed noise the mean
energy of the open chain after `n` updates is the initial energy plus `dt` times the sum of the mean boundary
terms before each update, up to a constant times `dt^(3/2)` per update.  (The chain is driven as a whole and
has no static field at its ends; otherwise the code's boundary term leaves out part of the field, see
`C68_boundary_partial`.) -/
theorem C102_energy (c : LangevinChain ℝ) (L : ℕ) (w : WF c.toSpinChain L L) (hL : 2 ≤ L) (heven : L % 2 = 0)
    (hγ : 0 < c.gamma) (hβ : 0 < c.vars.beta) (hl : H0 c.toSpinChain 0 = zero) (hr : H0 c.toSpinChain (L - 1) = zero) :
    ∃ C, 0 ≤ C ∧ ∀ (dt : ℝ) (v : Fin L → V3 ℝ) (n : ℕ), 0 < dt → dt ≤ 1 → (∀ i, len (v i) = 1) →
      SurelyRegular L L n (langevinAt c dt v) →
      |meanChain (energyNow L) n (langevinAt c dt v) - energyNow L (langevinAt c dt v)
        - dt * ∑ k ∈ Finset.range n, meanChain (fun c => orZero c.boundary_term) k (langevinAt c dt v)|
        ≤ n * (C * (dt * Real.sqrt dt)) := by
  have em : 2 * (L / 2) = L := by omega
  obtain ⟨C, C0, _, hC⟩ := energy_run (c := c) hL hγ hβ
  refine ⟨C, C0, fun dt v n h0 h1 hv hreg => ?_⟩
  have hE : ∀ (t : ℝ) (u : Fin L → V3 ℝ), energyNow L (langevinAt { c with t := t } dt u)
      = openEnergy L (atSite u) (J c.toSpinChain) (B c.toSpinChain L t) := by
    intro t u
    unfold energyNow
    rw [S_langevinAt]
    rfl
  have hb : ∀ (t : ℝ) (u : Fin L → V3 ℝ), orZero (langevinAt { c with t := t } dt u).boundary_term = rateNow c L t u := by
    intro t u
    rw [l_boundary_eq w hL hl hr t dt u]
    rfl
  have h := hC dt v n hv h0 h1
  rw [meanChain_at w hL hv hreg, Finset.sum_congr rfl fun k hk =>
    meanChain_at (n := k) w hL hv (surely_mono (Finset.mem_range.1 hk).le hreg) _]
  simp only [hE, hb, em]
  exact h

/-- Hence the mean logged boundary term, averaged over a long run, vanishes: whatever the drive, the initial
spins and the temperature, up to an error that vanishes for long runs and small time-steps. -/
theorem C102_average (c : LangevinChain ℝ) (L : ℕ) (w : WF c.toSpinChain L L) (hL : 2 ≤ L) (heven : L % 2 = 0)
    (hγ : 0 < c.gamma) (hβ : 0 < c.vars.beta) (hl : H0 c.toSpinChain 0 = zero) (hr : H0 c.toSpinChain (L - 1) = zero) :
    ∃ C, 0 ≤ C ∧ ∀ (dt : ℝ) (v : Fin L → V3 ℝ) (n : ℕ), 0 < dt → dt ≤ 1 → (∀ i, len (v i) = 1) → 0 < n →
      SurelyRegular L L n (langevinAt c dt v) →
      |1 / n * ∑ k ∈ Finset.range n, meanChain (fun c => orZero c.boundary_term) k (langevinAt c dt v)|
        ≤ C * (1 / (n * dt) + Real.sqrt dt) := by
  obtain ⟨C, C0, hC⟩ := C102_energy c L w hL heven hγ hβ hl hr
  obtain ⟨D, D0, hD, _⟩ := energy_run (c := c) hL hγ hβ
  refine ⟨2 * D + C, by positivity, fun dt v n h0 h1 hv hn hreg => ?_⟩
  have h := hC dt v n h0 h1 hv hreg
  have hE : ∀ (t : ℝ) (u : Fin L → V3 ℝ), energyNow L (langevinAt { c with t := t } dt u)
      = openEnergy L (atSite u) (J c.toSpinChain) (B c.toSpinChain L t) := by
    intro t u
    unfold energyNow
    rw [S_langevinAt]
    rfl
  have e1 : |meanChain (energyNow L) n (langevinAt c dt v)| ≤ D := by
    rw [meanChain_at w hL hv hreg]
    simp only [hE]
    exact avg_bound (fun v hv => hD _ v hv) n _ hv
  have e2 : |energyNow L (langevinAt c dt v)| ≤ D := by
    have := hE c.t v
    rw [this]
    exact hD _ v hv
  obtain ⟨T, hT⟩ : ∃ T, T = ∑ k ∈ Finset.range n, meanChain (fun c => orZero c.boundary_term) k (langevinAt c dt v) := ⟨_, rfl⟩
  rw [← hT] at h ⊢
  have n0 : (0 : ℝ) < n := by exact_mod_cast hn
  have s0 := Real.sqrt_nonneg dt
  have key : |dt * T| ≤ 2 * D + n * (C * (dt * Real.sqrt dt)) := by
    rw [abs_le] at h e1 e2 ⊢
    constructor <;> linarith [h.1, h.2, e1.1, e1.2, e2.1, e2.2]
  rw [show 1 / n * T = 1 / (n * dt) * (dt * T) by field_simp, abs_mul, abs_of_pos (by positivity : (0 : ℝ) < 1 / (n * dt))]
  have p1 : 0 ≤ C * (1 / (n * dt)) := by positivity
  have p2 : 0 ≤ 2 * D * Real.sqrt dt := by positivity
  calc 1 / (n * dt) * |dt * T| ≤ 1 / (n * dt) * (2 * D + n * (C * (dt * Real.sqrt dt))) :=
        mul_le_mul_of_nonneg_left key (by positivity)
    _ = 2 * D * (1 / (n * dt)) + C * Real.sqrt dt := by field_simp
    _ ≤ (2 * D + C) * (1 / (n * dt) + Real.sqrt dt) := by linarith

/-- six sites, driven as a whole by a rotating field, no static field at the ends -/
noncomputable def demo6w : LangevinChain ℝ :=
  { demo6 with
    vars := { demo6.vars with ssize := 6 }
    static_h := [zero, ⟨0, 0, 1⟩, ⟨1, 0, 0⟩, ⟨0, 0, 1⟩, ⟨0, 1, 0⟩, zero] }

theorem demo6w_wf : WF demo6w.toSpinChain 6 6 := by constructor <;> simp [demo6w, demo6, demo, demoVars]

example : WF demo6w.toSpinChain 6 6 ∧ 0 < demo6w.gamma ∧ 0 < demo6w.vars.beta ∧ H0 demo6w.toSpinChain 0 = zero ∧
    H0 demo6w.toSpinChain 5 = zero ∧ (∃ t, drive demo6w.vars t ≠ drive demo6w.vars 0) ∧
    ∃ δ, 0 < δ ∧ ∀ dt, 0 < dt → dt ≤ δ → ∃ v : Fin 6 → V3 ℝ, (∀ i, len (v i) = 1) ∧ ∀ n,
      SurelyRegular 6 6 n (langevinAt demo6w dt v) := by
  have g : 0 < demo6w.gamma := by norm_num [demo6w, demo6]
  have b : 0 < demo6w.vars.beta := by norm_num [demo6w, demo6, demoVars]
  refine ⟨demo6w_wf, g, b, rfl, rfl, ⟨demo6w.vars.tau / 2, fun h => ?_⟩, ?_⟩
  · have hx := congrArg V3.x h
    have ht : demo6w.vars.tau ≠ 0 := by norm_num [demo6w, demo6, demo, demoVars, Config.default]
    have e : 2 * Real.pi * (demo6w.vars.tau / 2) / demo6w.vars.tau = Real.pi := by field_simp
    have hd : demo6w.vars.drive = .xyplane := rfl
    unfold drive at hx
    rw [hd] at hx
    simp only [e, Real.cos_pi] at hx
    norm_num at hx
  · obtain ⟨δ, d0, hδ⟩ := C97_regular demo6w 6 6 demo6w_wf (by norm_num) g b demo6_J
    refine ⟨δ, d0, fun dt h0 h1 => ?_⟩
    obtain ⟨v, h1, h2⟩ := ((unit_ae (L := 6)).and (hδ dt h0 h1)).exists
    exact ⟨v, h1, h2⟩

end Verif.Props
