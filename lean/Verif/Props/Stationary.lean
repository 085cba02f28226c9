/-
Property C107: every Metropolis sampler settles in one state (/repo/src/spinchain.rs
`metropolis_update_magnus`, `metropolis_update_mag_full`, `metropolis_update`, `metropolis_update_maglab`,
`metropolis_update_rot_magnus`, and /repo/src/spinchain_langevin.rs `metropolis_update`).
-/
import Verif.Lemmas.Stationary
import Verif.Props.Markov

namespace Verif.Props

open Spec Markov Function
open Finset hiding expect
open MeasureTheory
open scoped ENNReal

/-! ### The energy differences are bounded -/

section
variable {L : ℕ}

/-- closes goals `Tame` of polynomials in the spin components -/
macro "tame" c:term : tactic =>
  `(tactic| repeat' (first
    | exact (tame_S $c _).1
    | exact (tame_S $c _).2.1
    | exact (tame_S $c _).2.2
    | exact Tame.const _
    | apply Tame.add
    | apply Tame.sub
    | apply Tame.neg
    | apply Tame.mul
    | apply Tame.div
    | apply Tame.sq))

theorem tame_magnus (c : SpinChain ℝ) (J : ℕ → V3 ℝ) (n : ℕ) (tau : ℝ) (i k : ℕ) (a b d : Bool) :
    Tame fun v : Fin L → V3 ℝ => SpinChain.magnusDe tau (nb n (S (withSpins c v)) J i) a b d
      ⟨S (withSpins c v) k⟩ := by
  cases a <;> cases b <;> cases d <;>
  · simp only [SpinChain.magnusDe, SpinChain.magnusBracket, nb, for3, V3.get_zero, V3.get_one, V3.get_two,
      Bool.false_eq_true, if_false, if_true]
    tame c

theorem tame_magFull (c : SpinChain ℝ) (J : ℕ → V3 ℝ) (n : ℕ) (om : ℝ) (i k : ℕ) (a : Bool) :
    Tame fun v : Fin L → V3 ℝ => SpinChain.magFullDe om (nb n (S (withSpins c v)) J i) a
      ⟨S (withSpins c v) k⟩ := by
  cases a <;>
  · simp only [SpinChain.magFullDe, SpinChain.magFullEi, SpinChain.magFullEi0, SpinChain.magFullEi1,
      SpinChain.magFullEi2, SpinChain.magFullDe0, SpinChain.magFullDe1, SpinChain.magFullDe2, nb, for3,
      V3.get_zero, V3.get_one, V3.get_two, Bool.false_eq_true, if_false, if_true]
    tame c

end

section
variable {L : ℕ}

theorem meas_snoc : Measurable fun p : (Fin L → V3 ℝ) × V3 ℝ => (Fin.snoc p.1 p.2 : Fin (L + 1) → V3 ℝ) := by
  refine measurable_pi_iff.2 fun i => ?_
  refine Fin.lastCases ?_ (fun i => ?_) i
  · simp only [Fin.snoc_last]
    exact measurable_snd
  · simp only [Fin.snoc_castSucc]
    exact (measurable_pi_apply i).comp measurable_fst

theorem good_snoc {v : Fin L → V3 ℝ} (hv : Good Sph v) {x : V3 ℝ} (hx : x ∈ Sph) :
    Good Sph (Fin.snoc v x : Fin (L + 1) → V3 ℝ) := by
  intro i
  refine Fin.lastCases ?_ (fun i => ?_) i
  · rw [Fin.snoc_last]; exact hx
  · rw [Fin.snoc_castSucc]; exact hv i

theorem S_snoc (c : SpinChain ℝ) (v : Fin L → V3 ℝ) (x : V3 ℝ) {k : ℕ} (hk : k < L) :
    S (withSpins c (Fin.snoc v x : Fin (L + 1) → V3 ℝ)) k = S (withSpins c v) k := by
  rw [S_withSpins, S_withSpins, dif_pos (by omega), dif_pos hk]
  exact Fin.snoc_castSucc (α := fun _ => V3 ℝ) x v ⟨k, hk⟩

theorem S_snoc_last (c : SpinChain ℝ) (v : Fin L → V3 ℝ) (x : V3 ℝ) :
    S (withSpins c (Fin.snoc v x : Fin (L + 1) → V3 ℝ)) L = x := by
  rw [S_withSpins, dif_pos (by omega)]
  exact Fin.snoc_last (α := fun _ => V3 ℝ) x v

theorem nb_snoc (c : SpinChain ℝ) (J : ℕ → V3 ℝ) (v : Fin L → V3 ℝ) (x : V3 ℝ) (i : Fin L) :
    nb L (S (withSpins c (Fin.snoc v x : Fin (L + 1) → V3 ℝ))) J i = nb L (S (withSpins c v)) J i := by
  have hL : 1 ≤ L := by have := i.2; omega
  unfold nb
  rw [S_snoc c v x i.2, S_snoc c v x (left_lt hL), S_snoc c v x (right_lt' hL),
    S_snoc c v x (left_lt hL), S_snoc c v x (right_lt' hL)]

/-- a function of the spins and of a proposed direction -/
theorem pair_tame {g : (Fin (L + 1) → V3 ℝ) → ℝ} (hg : Tame g) :
    (Measurable fun p : (Fin L → V3 ℝ) × V3 ℝ => g (Fin.snoc p.1 p.2)) ∧
    ∃ D, ∀ v : Fin L → V3 ℝ, Good Sph v → ∀ x ∈ Sph, |g (Fin.snoc v x)| ≤ D := by
  obtain ⟨m, D, hD⟩ := hg
  exact ⟨m.comp meas_snoc, D, fun v hv x hx => hD _ (good_snoc hv hx)⟩

theorem settles_of {c : SpinChain ℝ} {upd : SpinChain ℝ → Draw ℝ → R (SpinChain ℝ)} (hL : 1 ≤ L)
    (hb : 0 ≤ c.vars.beta) {dE : (Fin L → V3 ℝ) → Fin L → V3 ℝ → ℝ}
    (hupd : ∀ (v : Fin L → V3 ℝ) (i : Fin L) (u1 u2 u : ℝ), 0 ≤ u2 → u2 < 1 →
      upd (withSpins c v) ⟨i, u1, u2, u⟩ = .ok (metropolis c.vars.beta (dE v i (spherePoint u1 u2)) u (withSpins c v)
        (withSpins c (update v i (spherePoint u1 u2)))))
    (h : ∀ i, (Measurable fun p : (Fin L → V3 ℝ) × V3 ℝ => dE p.1 i p.2) ∧
      ∃ D, ∀ v : Fin L → V3 ℝ, Good Sph v → ∀ x ∈ Sph, |dE v i x| ≤ D) : Settles upd c L := by
  choose m D hD using h
  refine Settle.settles hupd m hL hb (B := ∑ i, |D i|) (fun v hv i x hx => ?_)
    (Finset.sum_nonneg fun i _ => abs_nonneg _)
  calc dE v i x ≤ |D i| := (le_abs_self _).trans ((hD i v hv x hx).trans (le_abs_self _))
    _ ≤ _ := Finset.single_le_sum (f := fun i => |D i|) (fun _ _ => abs_nonneg _) (Finset.mem_univ i)

/-- samplers that decide by the difference of an energy -/
theorem settles_energy {c : SpinChain ℝ} {s : ℕ} {upd : SpinChain ℝ → Draw ℝ → R (SpinChain ℝ)}
    {E : SpinChain ℝ → ℝ} (hL : 1 ≤ L) (hb : 0 ≤ c.vars.beta) (w : WF c L s)
    (hupd : ∀ (c : SpinChain ℝ) (i : ℕ) (u1 u2 u : ℝ), WF c L s → i < L → 0 ≤ u2 → u2 < 1 →
      upd c ⟨i, u1, u2, u⟩ = .ok (metropolis c.vars.beta
        (E (replace c i (spherePoint u1 u2)) - E c) u c (replace c i (spherePoint u1 u2))))
    (tE : Tame fun v : Fin L → V3 ℝ => E (withSpins c v)) : Settles upd c L := by
  obtain ⟨m, D, hD⟩ := tE
  refine settles_of hL hb (dE := fun v i x => E (withSpins c (update v i x)) - E (withSpins c v))
    (fun v i u1 u2 u h2 h2' => ?_) fun i => ⟨?_, 2 * D, fun v hv x hx => ?_⟩
  · rw [hupd _ _ _ _ _ (withSpins_wf w v) i.2 h2 h2', replace_withSpins]
    rfl
  · exact (m.comp measurable_update').sub (m.comp measurable_fst)
  · have h1 := abs_le.1 (hD _ (good_update hv i hx))
    have h2 := abs_le.1 (hD _ hv)
    exact abs_le.2 ⟨by linarith, by linarith⟩

end

/-! ### C107: one stationary state -/

/-- C107: `metropolis_update_magnus`, which satisfies no detailed balance (C67), has exactly one stationary
distribution, approached geometrically from every start; averages over its runs converge to the means of that
distribution. -/
theorem C107_magnus (c : SpinChain ℝ) (L s : ℕ) (w : WF c L s) (hL : 2 ≤ L) (hb : 0 ≤ c.vars.beta) :
    Settles (fun c d => c.metropolis_update_magnus d) c L := by
  refine settles_of (by omega) hb (dE := fun v i x => SpinChain.magnusDe c.vars.tau
    (nb L (S (withSpins c v)) (J c) i) (decide (i.val < s)) (decide (i.val = 0))
    (decide (i.val = asUsize (c.vars.ssize - 1))) ⟨x⟩) (fun v i u1 u2 u h2 h2' => ?_) fun i => ?_
  · have w' := withSpins_wf w v
    have hi : i.val % L < L := Nat.mod_lt _ (by omega)
    rw [← replace_withSpins]
    unfold SpinChain.metropolis_update_magnus
    simp only [hsize_nat w', ssize_nat w', genRange_ok (by omega : 1 ≤ L), ok_bind,
      nbhd_eq w' (by omega) hi, idx_h w' hi, proposal_eq h2 h2'.le]
    rw [finish_eq w' hi]
    simp only [Nat.mod_eq_of_lt i.2]
    rfl
  · have := pair_tame (tame_magnus (L := L + 1) c (J c) L c.vars.tau i L (decide (i.val < s)) (decide (i.val = 0))
      (decide (i.val = asUsize (c.vars.ssize - 1))))
    simpa only [nb_snoc, S_snoc_last] using this

example : WF demo 4 2 ∧ 0 ≤ demo.vars.beta := ⟨demo_wf, by norm_num [demo, demoVars]⟩

/-- The same for `metropolis_update_mag_full`. -/
theorem C107_mag_full (c : SpinChain ℝ) (L s : ℕ) (w : WF c L s) (hL : 2 ≤ L) (hb : 0 ≤ c.vars.beta) :
    Settles (fun c d => c.metropolis_update_mag_full d) c L := by
  refine settles_of (by omega) hb (dE := fun v i x => SpinChain.magFullDe (2 * Real.pi / c.vars.tau)
    (nb L (S (withSpins c v)) (J c) i) (decide (i.val < s)) ⟨x⟩) (fun v i u1 u2 u h2 h2' => ?_) fun i => ?_
  · have w' := withSpins_wf w v
    have hi : i.val % L < L := Nat.mod_lt _ (by omega)
    rw [← replace_withSpins]
    unfold SpinChain.metropolis_update_mag_full
    simp only [hsize_nat w', ssize_nat w', genRange_ok (by omega : 1 ≤ L), ok_bind,
      nbhd_eq w' (by omega) hi, idx_h w' hi, proposal_eq h2 h2'.le, om_real]
    rw [finish_eq w' hi]
    simp only [Nat.mod_eq_of_lt i.2]
    rfl
  · have := pair_tame (tame_magFull (L := L + 1) c (J c) L (2 * Real.pi / c.vars.tau) i L (decide (i.val < s)))
    simpa only [nb_snoc, S_snoc_last] using this

theorem lintegral_boltzmann {c : SpinChain ℝ} {L : ℕ} {E : SpinChain ℝ → ℝ}
    (hE : Measurable fun v : Fin L → V3 ℝ => E (withSpins c v)) {f : SpinChain ℝ → ℝ≥0∞} (hf : Observable c L f) :
    ∫⁻ v, f (withSpins c v) ∂(boltzmannMeasure c L E) = boltzmannMean c L E f := by
  have hw : Measurable fun v : Fin L → V3 ℝ => ENNReal.ofReal (Real.exp (-(c.vars.beta * E (withSpins c v)))) :=
    (Real.measurable_exp.comp (hE.const_mul _).neg).ennreal_ofReal
  unfold boltzmannMeasure boltzmannMean
  rw [lintegral_smul_measure, lintegral_withDensity_eq_lintegral_mul _ hw hf, div_eq_mul_inv, smul_eq_mul, mul_comm]
  rfl

theorem boltzmann_norm {c : SpinChain ℝ} {L : ℕ} {E : SpinChain ℝ → ℝ} (hb : 0 ≤ c.vars.beta)
    (tE : Tame fun v : Fin L → V3 ℝ => E (withSpins c v)) :
    boltzmannSum c L E (fun _ => 1) ≠ 0 ∧ boltzmannSum c L E (fun _ => 1) ≠ ⊤ := by
  obtain ⟨m, D, hD⟩ := tE
  have hZ : ∀ f : SpinChain ℝ → ℝ≥0∞, boltzmannSum c L E f = ∫⁻ v, wt c.vars.beta (fun v : Fin L → V3 ℝ => E (withSpins c v)) v
      * f (withSpins c v) ∂(Measure.pi fun _ => sphereMeasure) := fun f => rfl
  have hZ0 : boltzmannSum c L E (fun _ => 1) ≠ 0 := by
    rw [hZ]
    simp only [mul_one]
    intro h0
    have h5 := (lintegral_eq_zero_iff (measurable_wt m)).1 h0
    obtain ⟨v, hv⟩ := h5.exists
    have : wt c.vars.beta (fun v : Fin L → V3 ℝ => E (withSpins c v)) v ≠ 0 := by
      unfold wt
      simp [Real.exp_pos]
    exact this hv
  have hZt : boltzmannSum c L E (fun _ => 1) ≠ ⊤ := by
    rw [hZ]
    simp only [mul_one]
    have h6 : ∫⁻ v, wt c.vars.beta (fun v : Fin L → V3 ℝ => E (withSpins c v)) v ∂(Measure.pi fun _ => sphereMeasure)
        ≤ ∫⁻ _, ENNReal.ofReal (Real.exp (c.vars.beta * D)) ∂(Measure.pi fun _ : Fin L => sphereMeasure) := by
      refine lintegral_mono_ae ((good_ae sphere_ae).mono fun v hv => ?_)
      unfold wt
      refine ENNReal.ofReal_le_ofReal (Real.exp_le_exp.2 ?_)
      have := mul_le_mul_of_nonneg_left (abs_le.1 (hD v hv)).1 hb
      linarith
    rw [lintegral_const, measure_univ, mul_one] at h6
    exact ne_top_of_le_ne_top ENNReal.ofReal_ne_top h6
  exact ⟨hZ0, hZt⟩

theorem boltzmann_prob {c : SpinChain ℝ} {L : ℕ} {E : SpinChain ℝ → ℝ} (hb : 0 ≤ c.vars.beta)
    (tE : Tame fun v : Fin L → V3 ℝ => E (withSpins c v)) :
    IsProbabilityMeasure (boltzmannMeasure c L E) ∧ ∀ᵐ v ∂(boltzmannMeasure c L E), ∀ i, len (v i) = 1 := by
  obtain ⟨hZ0, hZt⟩ := boltzmann_norm hb tE
  obtain ⟨m, D, hD⟩ := tE
  constructor
  · refine ⟨?_⟩
    have := lintegral_boltzmann (c := c) (L := L) m (f := fun _ => 1) measurable_const
    rw [lintegral_one] at this
    rw [this]
    exact ENNReal.div_self hZ0 hZt
  · have h1 : ∀ᵐ v ∂(Measure.pi fun _ : Fin L => sphereMeasure), Good Sph v := good_ae sphere_ae
    unfold boltzmannMeasure
    refine Measure.ae_smul_measure ?_ _
    exact (withDensity_absolutelyContinuous _ _).ae_le h1

/-- a sampler that settles and leaves the Boltzmann distribution unchanged has no other stationary state -/
theorem boltzmann_unique {c : SpinChain ℝ} {L : ℕ} {E : SpinChain ℝ → ℝ}
    {upd : SpinChain ℝ → Draw ℝ → R (SpinChain ℝ)} (hb : 0 ≤ c.vars.beta)
    (tE : Tame fun v : Fin L → V3 ℝ => E (withSpins c v)) (hs : Settles upd c L)
    (hmeas : ∀ f, Observable c L f → Observable c L (expect upd L f 1))
    (hst : ∀ f, Observable c L f → boltzmannSum c L E (expect upd L f 1) = boltzmannSum c L E f)
    (π : Measure (Fin L → V3 ℝ)) : Stationary upd c L π ↔ π = boltzmannMeasure c L E := by
  obtain ⟨π0, _, hu, _⟩ := hs
  obtain ⟨hp, hunit⟩ := boltzmann_prob hb tE
  have hB : Stationary upd c L (boltzmannMeasure c L E) := by
    refine ⟨hp, hunit, fun f hf => ?_⟩
    rw [lintegral_boltzmann tE.meas hf, lintegral_boltzmann tE.meas (hmeas f hf)]
    unfold boltzmannMean
    rw [hst f hf]
  constructor
  · intro h
    rw [hu π h, hu _ hB]
  · rintro rfl
    exact hB

theorem energy_unique {c : SpinChain ℝ} {L s : ℕ} {upd : SpinChain ℝ → Draw ℝ → R (SpinChain ℝ)}
    {E : SpinChain ℝ → ℝ} (hL : 1 ≤ L) (hb : 0 ≤ c.vars.beta) (w : WF c L s)
    (hupd : ∀ (c : SpinChain ℝ) (i : ℕ) (u1 u2 u : ℝ), WF c L s → i < L → 0 ≤ u2 → u2 < 1 →
      upd c ⟨i, u1, u2, u⟩ = .ok (metropolis c.vars.beta
        (E (replace c i (spherePoint u1 u2)) - E c) u c (replace c i (spherePoint u1 u2))))
    (tE : Tame fun v : Fin L → V3 ℝ => E (withSpins c v)) (π : Measure (Fin L → V3 ℝ)) :
    Stationary upd c L π ↔ π = boltzmannMeasure c L E := by
  refine boltzmann_unique hb tE (settles_energy hL hb w hupd tE) (fun f hf => ?_)
    (fun f hf => boltzmann_stationary hupd w hL hb tE.meas hf 1) π
  unfold Observable
  simp only [expect_eq hupd w hb tE.meas hf 1]
  exact measurable_iter tE.meas hf 1

/-- The Boltzmann distribution of the reported energy is the only stationary distribution of
`metropolis_update`. -/
theorem C107_unique (c : SpinChain ℝ) (L s : ℕ) (w : WF c L s) (hL : 2 ≤ L) (hb : 0 ≤ c.vars.beta)
    (π : Measure (Fin L → V3 ℝ)) :
    Stationary (fun c d => c.metropolis_update d) c L π ↔ π = boltzmannMeasure c L (wholeEnergy L) :=
  energy_unique (by omega) hb w (plain_upd hL) (whole_tame w hL) π

/-- The same for the laboratory-frame sampler, with the energy it samples (no corrections, compare C38). -/
theorem C107_maglab (c : SpinChain ℝ) (L s : ℕ) (w : WF c L s) (hL : 2 ≤ L) (hb : 0 ≤ c.vars.beta)
    (π : Measure (Fin L → V3 ℝ)) :
    Stationary (fun c d => c.metropolis_update_maglab d) c L π ↔ π = boltzmannMeasure c L (labEnergy L) :=
  energy_unique (by omega) hb w (maglab_upd hL) (lab_tame c L) π

/-- The same for the rotating-frame sampler, with the energy it samples (each correction once, compare C39). -/
theorem C107_rot (c : SpinChain ℝ) (L s : ℕ) (w : WF c L s) (hL : 3 ≤ L) (hb : 0 ≤ c.vars.beta)
    (π : Measure (Fin L → V3 ℝ)) :
    Stationary (fun c d => c.metropolis_update_rot_magnus d) c L π ↔ π = boltzmannMeasure c L (frameEnergy L s) :=
  energy_unique (by omega) hb w (rot_upd hL) (frame_tame c L s) π

/-- The same for the sampler of the Langevin chain, with the energy it samples (no static fields, compare
C48). -/
theorem C107_langevin (gamma : ℝ) (c : SpinChain ℝ) (L s : ℕ) (w : WF c L s) (hL : 2 ≤ L) (hb : 0 ≤ c.vars.beta)
    (π : Measure (Fin L → V3 ℝ)) :
    Stationary (langevinUpd gamma) c L π ↔ π = boltzmannMeasure c L (bareEnergy L) :=
  energy_unique (by omega) hb w (langevin_upd gamma hL) (bare_tame c L) π

/-- a stationary distribution exists, so the equivalences are not empty; the energy is not constant -/
example : Stationary (fun c d => c.metropolis_update d) demo 4 (boltzmannMeasure demo 4 (wholeEnergy 4)) :=
  (C107_unique demo 4 2 demo_wf (by norm_num) (by norm_num [demo, demoVars]) _).2 rfl

/-- estimates are made of bounded observables that the program computes: the height of the first spin -/
example : (∀ v : Fin 4 → V3 ℝ, (fun c : SpinChain ℝ => (.ok (S c 0).z : R ℝ)) (withSpins demo v)
      = .ok ((fun c => (S c 0).z) (withSpins demo v))) ∧
    Measurable (fun v : Fin 4 → V3 ℝ => (S (withSpins demo v) 0).z) :=
  ⟨fun _ => rfl, (tame_S demo 0).2.2.meas⟩

end Verif.Props
