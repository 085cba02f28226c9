/-
Property C86: the dynamics preserves the uniform distribution of the spins and generically meets no
vanishing field (/repo/src/spinchain.rs `update`); property C37 continued: proposed directions are
uniformly distributed (/repo/src/spinchain.rs `metropolis_update`).
-/
import Verif.Lemmas.Liouville
import Verif.Props.Markov
import Verif.Props.Dynamics

namespace Verif.Props

open Spec MeasureTheory
open scoped ENNReal

/-! ### C37: the distribution of proposals is invariant under rotations -/

/-- C37: for uniform draws, the direction proposed by the samplers is as likely to lie in a region of
the sphere as in the region rotated (or reflected) in any way. -/
theorem C37_uniform (O : V3 ℝ → V3 ℝ) (hO : Orthogonal O) (A : Set (V3 ℝ)) (hA : MeasurableSet A) :
    volume {p : ℝ × ℝ | p.1 ∈ Set.Ico 0 1 ∧ p.2 ∈ Set.Ico 0 1 ∧ O (SpinChain.proposal p.1 p.2).dir ∈ A}
      = volume {p : ℝ × ℝ | p.1 ∈ Set.Ico 0 1 ∧ p.2 ∈ Set.Ico 0 1 ∧ (SpinChain.proposal p.1 p.2).dir ∈ A} := by
  have key : ∀ A : Set (V3 ℝ), MeasurableSet A →
      volume {p : ℝ × ℝ | p.1 ∈ Set.Ico 0 1 ∧ p.2 ∈ Set.Ico 0 1 ∧ (SpinChain.proposal p.1 p.2).dir ∈ A}
        = sphereMeasure A := by
    intro A hA
    unfold sphereMeasure
    rw [Measure.map_apply measurable_spherePoint hA, Measure.prod_restrict, ← Measure.volume_eq_prod,
      Measure.restrict_apply (measurable_spherePoint hA)]
    congr 1
    ext p
    constructor
    · rintro ⟨h1, h2, h3⟩
      rw [proposal_eq h2.1 h2.2.le] at h3
      exact ⟨h3, h1, h2⟩
    · rintro ⟨h3, h1, h2⟩
      refine ⟨h1, h2, ?_⟩
      rw [proposal_eq h2.1 h2.2.le]
      exact h3
  have hpre : MeasurableSet (O ⁻¹' A) := hO.measurable hA
  rw [key A hA]
  refine (key (O ⁻¹' A) hpre).trans ?_
  rw [← lintegral_indicator_one hpre, ← lintegral_indicator_one hA]
  exact sphere_invariant hO (measurable_one.indicator hA)

/-- the upper hemisphere, and the reflection to the lower one -/
example : Orthogonal (fun v => ⟨v.x, v.y, -v.z⟩) ∧ MeasurableSet {v : V3 ℝ | 0 < v.z} :=
  ⟨⟨fun a b => by ext <;> simp [Spec.add]; ring, fun r a => by ext <;> simp [Spec.smul],
    fun a => by unfold len dot; congr 1; ring⟩, measurableSet_lt measurable_const measurable_z⟩

/-! ### C86: conservation of phase-space volume -/

/-- exact composition of the time-steps on configurations -/
noncomputable def flow (c : SpinChain ℝ) (L s : ℕ) : ℕ → (Fin L → V3 ℝ) → (Fin L → V3 ℝ)
  | 0 => id
  | n + 1 => fun v => stepFin (2 * (L / 2)) (J c) (B c s (c.t + n * c.vars.dt + c.vars.dt / 2)) c.vars.dt
      (flow c L s n v)

theorem flow_preserving (c : SpinChain ℝ) (L s n : ℕ) :
    MeasurePreserving (flow c L s n) (Measure.pi fun _ => sphereMeasure) (Measure.pi fun _ => sphereMeasure) := by
  induction n with
  | zero => exact MeasurePreserving.id _
  | succ n ih => exact (stepFin_preserving (L / 2) (by omega) _ _ _).comp ih

theorem unit_withSpins {c : SpinChain ℝ} {L : ℕ} {v : Fin L → V3 ℝ} (hv : ∀ i, len (v i) = 1) :
    ∀ x ∈ (withSpins c v).spins, IsUnit3 x := by
  intro x hx
  obtain ⟨i, rfl⟩ := List.mem_ofFn.1 hx
  exact hv i

/-- one more step of a run -/
theorem flow_step {c c1 : SpinChain ℝ} {L s n : ℕ} (w : WF c L s) (hL : 2 ≤ L) {v : Fin L → V3 ℝ}
    (hv : ∀ i, len (v i) = 1) (hr : RegularRun (withSpins c v) L s n)
    (h1 : (withSpins c v).updates n = .ok c1) (h2 : S c1 = fld (flow c L s n v)) :
    (RegularStep c1 L s ↔ Regular (2 * (L / 2)) (J c) (B c s (c.t + n * c.vars.dt + c.vars.dt / 2)) c.vars.dt
      (fld (flow c L s n v))) ∧
    (RegularStep c1 L s → ∃ c2, (withSpins c v).updates (n + 1) = .ok c2 ∧ S c2 = fld (flow c L s (n + 1) v)) := by
  obtain ⟨w1, u1⟩ := updates_unit (withSpins_wf w v) hL (unit_withSpins hv) hr h1
  obtain ⟨a1, a2, a3, _, _, _⟩ := updates_frame h1
  have ht := C25_time _ _ n h1
  have hJ : J c1 = J c := J_congr a1
  have hB : ∀ t, B c1 s t = B c s t := fun t => B_congr a2 (by rw [a3])
  have hd : c1.vars.dt = c.vars.dt := by rw [a3]; rfl
  have ht' : c1.t = c.t + n * c.vars.dt := ht
  refine ⟨?_, fun hreg => ?_⟩
  · unfold RegularStep
    rw [hJ, hB, hd, ht', h2]
  · obtain ⟨c2, e1, _, e2⟩ := update_spec w1 hL u1 hreg
    refine ⟨c2, updates_succ'.2 ⟨c1, h1, e1⟩, ?_⟩
    rw [e2, hJ, hB, hd, ht', h2]
    exact (fld_stepFin (by omega) _ _ _ _).symm

/-- a regular run follows the composition of the steps -/
theorem run_flow {c : SpinChain ℝ} {L s n : ℕ} (w : WF c L s) (hL : 2 ≤ L) {v : Fin L → V3 ℝ}
    (hv : ∀ i, len (v i) = 1) (hr : RegularRun (withSpins c v) L s n) :
    ∃ c', (withSpins c v).updates n = .ok c' ∧ S c' = fld (flow c L s n v) := by
  induction n with
  | zero => exact ⟨_, rfl, S_fld c v⟩
  | succ n ih =>
    have hr' : RegularRun (withSpins c v) L s n := fun k hk => hr k (by omega)
    obtain ⟨c1, h1, h2⟩ := ih hr'
    exact (flow_step w hL hv hr' h1 h2).2 (hr n (by omega) c1 h1)

theorem flow_regular {c : SpinChain ℝ} {L s n : ℕ} (w : WF c L s) (hL : 2 ≤ L) {v : Fin L → V3 ℝ}
    (hv : ∀ i, len (v i) = 1)
    (hr : ∀ k : ℕ, Regular (2 * (L / 2)) (J c) (B c s (c.t + k * c.vars.dt + c.vars.dt / 2)) c.vars.dt
      (fld (flow c L s k v))) : RegularRun (withSpins c v) L s n := by
  induction n with
  | zero => intro k hk; omega
  | succ n ih =>
    intro k hk c' hc'
    by_cases hkn : k < n
    · exact ih k hkn c' hc'
    · have : k = n := by omega
      subst this
      obtain ⟨c1, h1, h2⟩ := run_flow w hL hv ih
      rw [hc'] at h1
      cases h1
      exact (flow_step w hL hv ih hc' h2).1.2 (hr k)

/-- C86, first part: on a ring of at least four moving sites with non-zero couplings, almost all starting
spins never meet a vanishing local field, so their updates never produce NaN (compare C04). -/
theorem C86_generic (c : SpinChain ℝ) (L s : ℕ) (w : WF c L s) (hL : 4 ≤ L)
    (hJ : ∀ i < 2 * (L / 2), J c i ≠ zero) :
    ∀ᵐ v ∂(Measure.pi fun _ : Fin L => sphereMeasure), (∀ i, len (v i) = 1) ∧
      ∀ n, RegularRun (withSpins c v) L s n := by
  have h1 : ∀ᵐ v ∂(Measure.pi fun _ : Fin L => sphereMeasure), ∀ k : ℕ,
      Regular (2 * (L / 2)) (J c) (B c s (c.t + k * c.vars.dt + c.vars.dt / 2)) c.vars.dt (fld (flow c L s k v)) := by
    rw [ae_all_iff]
    intro k
    exact (flow_preserving c L s k).quasiMeasurePreserving.ae
      (regular_ae (by omega) (by omega) hJ c.vars.dt)
  filter_upwards [h1, Markov.good_ae (L := L) sphere_ae] with v a1 a2
  exact ⟨a2, fun n => flow_regular w (by omega) a2 a1⟩

/-- C86, second part (Liouville's theorem for the integrator): if the spins are independent and uniform
on the sphere, they still are after any number of updates, as long as almost no starting spins meet a
vanishing field. -/
theorem C86_volume (c : SpinChain ℝ) (L s n : ℕ) (w : WF c L s) (hL : 2 ≤ L)
    (hr : ∀ᵐ v ∂(Measure.pi fun _ : Fin L => sphereMeasure), RegularRun (withSpins c v) L s n)
    (f : (Fin L → V3 ℝ) → ℝ≥0∞) (hf : Measurable f) :
    ∫⁻ v, (match (withSpins c v).updates n with
        | .ok c' => f fun i => S c' i
        | .error _ => 0) ∂(Measure.pi fun _ : Fin L => sphereMeasure)
      = ∫⁻ v, f v ∂(Measure.pi fun _ : Fin L => sphereMeasure) := by
  rw [← (flow_preserving c L s n).lintegral_comp hf]
  refine lintegral_congr_ae ?_
  filter_upwards [hr, Markov.good_ae (L := L) sphere_ae] with v a1 a2
  obtain ⟨c', h1, h2⟩ := run_flow w hL a2 a1
  rw [h1]
  dsimp only
  congr 1
  funext i
  rw [h2, fld_val]

/-- C86: both parts together. -/
theorem C86_liouville (c : SpinChain ℝ) (L s n : ℕ) (w : WF c L s) (hL : 4 ≤ L)
    (hJ : ∀ i < 2 * (L / 2), J c i ≠ zero) (f : (Fin L → V3 ℝ) → ℝ≥0∞) (hf : Measurable f) :
    ∫⁻ v, (match (withSpins c v).updates n with
        | .ok c' => f fun i => S c' i
        | .error _ => 0) ∂(Measure.pi fun _ : Fin L => sphereMeasure)
      = ∫⁻ v, f v ∂(Measure.pi fun _ : Fin L => sphereMeasure) :=
  C86_volume c L s n w (by omega) ((C86_generic c L s w hL hJ).mono fun _ h => h.2 n) f hf

/-- the driven demonstration chain, and the probability that the first spin points up -/
example : WF demo 4 2 ∧ 4 ≤ 4 ∧ (∀ i < 2 * (4 / 2), J demo i ≠ zero) ∧
    Measurable fun v : Fin 4 → V3 ℝ => if 0 < (v 0).z then (1 : ℝ≥0∞) else 0 := by
  refine ⟨demo_wf, le_rfl, fun i hi h => ?_, ?_⟩
  · have hz := congrArg V3.z h
    have : i = 0 ∨ i = 1 ∨ i = 2 ∨ i = 3 := by omega
    rcases this with rfl | rfl | rfl | rfl <;> norm_num [J, demo, zero] at hz
  · exact Measurable.ite (measurableSet_lt measurable_const (measurable_z.comp (measurable_pi_apply 0)))
      measurable_const measurable_const

end Verif.Props
