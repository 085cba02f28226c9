/-
Properties C34–C41 and C67: the Metropolis updates of /repo/src/spinchain.rs.
-/
import Verif.Lemmas.Balance
import Verif.Props.Demo
import Mathlib.Analysis.SpecialFunctions.Complex.Arg

namespace Verif.Props

open Spec Finset MeasureTheory

/-! ### C34: frame and unit length over arbitrary histories of the five samplers -/

/-- which of the five update functions is called -/
inductive Sampler
  | plain | maglab | rot | magnus | magFull

section anyF
variable {F : Type} [Add F] [Sub F] [Mul F] [Div F] [Neg F] [OfScientific F] [FOps F]

/-- one call -/
def Sampler.run (k : Sampler) (c : SpinChain F) (d : Draw F) : R (SpinChain F) :=
  match k with
  | .plain => c.metropolis_update d
  | .maglab => c.metropolis_update_maglab d
  | .rot => c.metropolis_update_rot_magnus d
  | .magnus => c.metropolis_update_magnus d
  | .magFull => c.metropolis_update_mag_full d

/-- a sequence of calls -/
def sample (l : List (Sampler × Draw F)) (c : SpinChain F) : R (SpinChain F) :=
  l.foldlM (fun c p => p.1.run c p.2) c

theorem run_cases {k : Sampler} {c c' : SpinChain F} {d : Draw F} (h : k.run c d = .ok c') :
    c' = c ∨ ∃ i < c.spins.length,
      c' = { c with spins := c.spins.set i (SpinChain.proposal d.u1 d.u2) } := by
  have fin : ∀ {i : ℕ} {de : F},
      c.finish i (SpinChain.proposal d.u1 d.u2) de d.u3 = .ok c' →
      c' = c ∨ ∃ i < c.spins.length,
        c' = { c with spins := c.spins.set i (SpinChain.proposal d.u1 d.u2) } := by
    intro i de h
    rcases finish_frame h with h | ⟨h1, h2⟩
    · exact Or.inl h
    · exact Or.inr ⟨i, h1, h2⟩
  cases k
  · obtain ⟨_, _, h⟩ := bind_eq_ok h
    obtain ⟨_, _, h⟩ := bind_eq_ok h
    exact fin h
  · obtain ⟨_, _, h⟩ := bind_eq_ok h
    obtain ⟨_, _, h⟩ := bind_eq_ok h
    exact fin h
  all_goals
    obtain ⟨_, _, h⟩ := bind_eq_ok h
    obtain ⟨_, _, h⟩ := bind_eq_ok h
    obtain ⟨_, _, h⟩ := bind_eq_ok h
    exact fin h

/-- At most one spin changes per call, and nothing else does. -/
theorem C34_one_spin (k : Sampler) (c c' : SpinChain F) (d : Draw F) (h : k.run c d = .ok c') :
    (∃ i : ℕ, ∀ j : ℕ, j ≠ i → c'.spins[j]? = c.spins[j]?) ∧ c'.spins.length = c.spins.length ∧
      c'.j_couple = c.j_couple ∧ c'.static_h = c.static_h ∧ c'.t = c.t ∧ c'.vars = c.vars ∧
      c'.file = c.file := by
  rcases run_cases h with rfl | ⟨i, _, rfl⟩
  · exact ⟨⟨0, fun _ _ => rfl⟩, rfl, rfl, rfl, rfl, rfl, rfl⟩
  · exact ⟨⟨i, fun j hj => List.getElem?_set_ne (fun h => hj h.symm)⟩, by simp,
      rfl, rfl, rfl, rfl, rfl⟩

theorem C34_frame (l : List (Sampler × Draw F)) (c c' : SpinChain F) (h : sample l c = .ok c') :
    c'.spins.length = c.spins.length ∧ c'.j_couple = c.j_couple ∧ c'.static_h = c.static_h ∧
      c'.t = c.t ∧ c'.vars = c.vars ∧ c'.file = c.file := by
  induction l generalizing c with
  | nil => cases h; exact ⟨rfl, rfl, rfl, rfl, rfl, rfl⟩
  | cons p l ih =>
    unfold sample at h
    rw [List.foldlM_cons] at h
    obtain ⟨c1, h1, h2⟩ := bind_eq_ok h
    obtain ⟨a1, a2, a3, a4, a5, a6⟩ := ih c1 h2
    obtain ⟨_, b1, b2, b3, b4, b5, b6⟩ := C34_one_spin p.1 c c1 p.2 h1
    exact ⟨a1.trans b1, a2.trans b2, a3.trans b3, a4.trans b4, a5.trans b5, a6.trans b6⟩

/-- No sampler ever panics on a well-formed chain of at least two spins. -/
theorem C34_total (l : List (Sampler × Draw F)) (c : SpinChain F) (L s : ℕ) (w : WF c L s)
    (hL : 2 ≤ L) : ∃ c', sample l c = .ok c' := by
  have step : ∀ (k : Sampler) (c : SpinChain F) (d : Draw F), WF c L s → ∃ c', k.run c d = .ok c' := by
    intro k c d w
    have hi : d.site % L < L := Nat.mod_lt _ (by omega)
    have hsp : d.site % L < c.spins.length := by rw [w.spins]; exact hi
    obtain ⟨n1, hn1⟩ := nbhd1_ok w hi
    obtain ⟨n, hn⟩ := nbhd_ok w hL hi
    have hh : idx c.static_h (d.site % L) = .ok (c.static_h[d.site % L]'(by rw [w.h]; exact hi)) :=
      idx_ok _
    cases k
    · show ∃ c', c.metropolis_update d = .ok c'
      unfold SpinChain.metropolis_update
      simp only [hsize_natF w, genRange_ok (by omega : 1 ≤ L), ok_bind, hn1]
      exact ⟨_, finish_ok hsp _ _ _⟩
    · show ∃ c', c.metropolis_update_maglab d = .ok c'
      unfold SpinChain.metropolis_update_maglab
      simp only [hsize_natF w, genRange_ok (by omega : 1 ≤ L), ok_bind, hn1]
      exact ⟨_, finish_ok hsp _ _ _⟩
    · show ∃ c', c.metropolis_update_rot_magnus d = .ok c'
      unfold SpinChain.metropolis_update_rot_magnus
      simp only [hsize_natF w, genRange_ok (by omega : 1 ≤ L), ok_bind, hn, hh]
      exact ⟨_, finish_ok hsp _ _ _⟩
    · show ∃ c', c.metropolis_update_magnus d = .ok c'
      unfold SpinChain.metropolis_update_magnus
      simp only [hsize_natF w, genRange_ok (by omega : 1 ≤ L), ok_bind, hn, hh]
      exact ⟨_, finish_ok hsp _ _ _⟩
    · show ∃ c', c.metropolis_update_mag_full d = .ok c'
      unfold SpinChain.metropolis_update_mag_full
      simp only [hsize_natF w, genRange_ok (by omega : 1 ≤ L), ok_bind, hn, hh]
      exact ⟨_, finish_ok hsp _ _ _⟩
  induction l generalizing c with
  | nil => exact ⟨c, rfl⟩
  | cons p l ih =>
    obtain ⟨c1, h1⟩ := step p.1 c p.2 w
    obtain ⟨_, b1, b2, b3, _, b5, _⟩ := C34_one_spin p.1 c c1 p.2 h1
    obtain ⟨c', h'⟩ := ih c1 ⟨by rw [b5, w.hsize], by rw [b5, w.ssize], w.L_lt, w.s_lt,
      by rw [b1, w.spins], by rw [b2, w.j], by rw [b3, w.h], by rw [b5]; exact w.hs⟩
    refine ⟨c', ?_⟩
    unfold sample
    rw [List.foldlM_cons, h1, ok_bind]
    exact h'

end anyF

theorem C34_unit (l : List (Sampler × Draw ℝ)) (c c' : SpinChain ℝ)
    (hu : ∀ x ∈ c.spins, IsUnit3 x) (h : sample l c = .ok c') : ∀ x ∈ c'.spins, IsUnit3 x := by
  induction l generalizing c with
  | nil => cases h; exact hu
  | cons p l ih =>
    unfold sample at h
    rw [List.foldlM_cons] at h
    obtain ⟨c1, h1, h2⟩ := bind_eq_ok h
    refine ih c1 ?_ h2
    rcases run_cases h1 with rfl | ⟨i, _, rfl⟩
    · exact hu
    · intro x hx
      rcases List.mem_or_eq_of_mem_set hx with hx | rfl
      · exact hu x hx
      · exact proposal_unit _ _

example : WF demo 4 2 ∧ 2 ≤ 4 ∧ ∀ x ∈ demo.spins, IsUnit3 x := ⟨demo_wf, by norm_num, demo_unit⟩

/-! ### C35: `metropolis_update` decides by the change of `hsize * mc_total_energy` -/

theorem plain_form {c : SpinChain ℝ} {L s : ℕ} (w : WF c L s) (hL : 2 ≤ L) (d : Draw ℝ)
    (h2 : 0 ≤ d.u2) (h2' : d.u2 ≤ 1) :
    c.metropolis_update d = .ok (metropolis c.vars.beta
      (ringEnergy L (S (replace c (d.site % L) (spherePoint d.u1 d.u2))) (J c) (H0 c)
        - ringEnergy L (S c) (J c) (H0 c)) d.u3 c
      (replace c (d.site % L) (spherePoint d.u1 d.u2))) := by
  have hi : d.site % L < L := Nat.mod_lt _ (by omega)
  unfold SpinChain.metropolis_update
  simp only [hsize_nat w, genRange_ok (by omega : 1 ≤ L), ok_bind, nbhd1_eq w hi,
    proposal_eq h2 h2', metroDe_eq (S c) (J c) (H0 c) hL hi, S_replace w hi]
  exact finish_eq w hi _ _ _

theorem C35_energy_difference (c : SpinChain ℝ) (L s : ℕ) (d : Draw ℝ) (w : WF c L s)
    (hL : 2 ≤ L) (hd : ValidDraw d) : ∃ e e',
    c.mc_total_energy = .ok e ∧
    (replace c (d.site % L) (spherePoint d.u1 d.u2)).mc_total_energy = .ok e' ∧
    c.metropolis_update d = .ok (metropolis c.vars.beta (L * (e' - e)) d.u3 c
      (replace c (d.site % L) (spherePoint d.u1 d.u2))) := by
  refine ⟨_, _, mc_total_energy_eq w (by omega), mc_total_energy_eq (replace_wf w _ _) (by omega), ?_⟩
  have hL0 : (L : ℝ) ≠ 0 := by positivity
  rw [plain_form w hL d hd.u2.1 hd.u2.2.le]
  congr 2
  rw [J_replace, H0_replace]
  field_simp

example : WF demo 4 2 ∧ 2 ≤ 4 ∧ ValidDraw ⟨3, 1 / 3, 1 / 5, 1 / 2⟩ :=
  ⟨demo_wf, by norm_num, by constructor <;> norm_num⟩

/-! ### C36: acceptance probability and detailed balance -/

theorem C36_acceptance_probability (c : SpinChain ℝ) (L s i : ℕ) (u1 u2 : ℝ) (w : WF c L s)
    (hL : 2 ≤ L) (hb : 0 ≤ c.vars.beta) (hi : i < L) (h2 : 0 ≤ u2) (h2' : u2 < 1)
    (hv : spherePoint u1 u2 ≠ S c i) : ∃ e e',
    c.mc_total_energy = .ok e ∧ (replace c i (spherePoint u1 u2)).mc_total_energy = .ok e' ∧
    volume {u : ℝ | 0 ≤ u ∧ u < 1 ∧
      c.metropolis_update ⟨i, u1, u2, u⟩ = .ok (replace c i (spherePoint u1 u2))}
      = ENNReal.ofReal (min 1 (Real.exp (-(c.vars.beta * (L * (e' - e)))))) := by
  refine ⟨_, _, mc_total_energy_eq w (by omega), mc_total_energy_eq (replace_wf w _ _) (by omega), ?_⟩
  have hL0 : (L : ℝ) ≠ 0 := by positivity
  refine acceptProb_eq (upd := fun c d => c.metropolis_update d) w hb hi hv fun u => ?_
  rw [plain_form w hL _ h2 h2'.le]
  dsimp only
  rw [Nat.mod_eq_of_lt hi]
  congr 2
  rw [J_replace, H0_replace]
  field_simp

/-- Detailed balance with the Boltzmann weight of `hsize * mc_total_energy`. -/
theorem C36_detailed_balance (L s : ℕ) (hL : 2 ≤ L) :
    DetailedBalance (fun c d => c.metropolis_update d) L s
      (fun c => Real.exp (-(c.vars.beta *
        (L * match c.mc_total_energy with | .ok e => e | .error _ => 0)))) := by
  apply balance_of_energy
  intro c i u1 u2 u w hi h2 h2'
  have hL0 : (L : ℝ) ≠ 0 := by positivity
  rw [plain_form w hL _ h2 h2'.le]
  dsimp only
  rw [Nat.mod_eq_of_lt hi, mc_total_energy_eq w (by omega),
    mc_total_energy_eq (replace_wf w _ _) (by omega), J_replace, H0_replace]
  congr 2
  field_simp

example : WF demo 4 2 ∧ 0 ≤ demo.vars.beta ∧ 3 < 4 ∧ S demo 3 = spherePoint 0 (1 / 2) ∧
    spherePoint 0 0 ≠ S demo 3 := by
  refine ⟨demo_wf, by norm_num [demo, demoVars], by norm_num, ?_, ?_⟩
  · norm_num [S, demo, spherePoint]
  · intro h
    have := congrArg V3.z h
    norm_num [S, demo, spherePoint] at this

/-! ### C37: proposals are uniform on the sphere -/

theorem C37_proposal (c c' : SpinChain ℝ) (d : Draw ℝ) (hd : ValidDraw d) (k : Sampler)
    (h : k.run c d = .ok c') (hc : c' ≠ c) :
    ∃ i, c' = replace c i (spherePoint d.u1 d.u2) ∧ len (spherePoint d.u1 d.u2) = 1 := by
  rcases run_cases h with rfl | ⟨i, _, rfl⟩
  · exact absurd rfl hc
  · refine ⟨i, ?_, sphere_unit hd.u2.1 hd.u2.2.le⟩
    rw [proposal_eq hd.u2.1 hd.u2.2.le]
    rfl

/-- The parametrisation has constant area element `4 π`, the area of the sphere. -/
theorem C37_area_preserving (u1 u2 : ℝ) (h : 0 < u2) (h' : u2 < 1) : ∃ a b : V3 ℝ,
    HasDeriv3 (fun u => spherePoint u u2) a u1 ∧ HasDeriv3 (fun u => spherePoint u1 u) b u2 ∧
      len (cross a b) = 4 * Real.pi := by
  have hp : 0 < 1 - (1 - 2 * u2) ^ 2 := by nlinarith
  have hr := Real.sqrt_pos.2 hp
  have hr2 := Real.mul_self_sqrt hp.le
  have hth : HasDerivAt (fun u => 2 * Real.pi * u) (2 * Real.pi) u1 := by
    simpa using (hasDerivAt_id' u1).const_mul (2 * Real.pi)
  have hz : HasDerivAt (fun u : ℝ => 1 - 2 * u) (-2) u2 := by
    simpa using ((hasDerivAt_id' u2).const_mul 2).const_sub 1
  have hq : HasDerivAt (fun u : ℝ => 1 - (1 - 2 * u) ^ 2) (4 * (1 - 2 * u2)) u2 := by
    refine ((hz.pow 2).const_sub 1).congr_deriv ?_
    simp; ring
  have hsq := hq.sqrt hp.ne'
  refine ⟨⟨Real.sqrt (1 - (1 - 2 * u2) ^ 2) * (-Real.sin (2 * Real.pi * u1) * (2 * Real.pi)),
      Real.sqrt (1 - (1 - 2 * u2) ^ 2) * (Real.cos (2 * Real.pi * u1) * (2 * Real.pi)), 0⟩,
    ⟨4 * (1 - 2 * u2) / (2 * Real.sqrt (1 - (1 - 2 * u2) ^ 2)) * Real.cos (2 * Real.pi * u1),
      4 * (1 - 2 * u2) / (2 * Real.sqrt (1 - (1 - 2 * u2) ^ 2)) * Real.sin (2 * Real.pi * u1), -2⟩,
    ⟨hth.cos.const_mul _, hth.sin.const_mul _, hasDerivAt_const _ _⟩,
    ⟨hsq.mul_const _, hsq.mul_const _, hz⟩, ?_⟩
  have hs := Real.sin_sq_add_cos_sq (2 * Real.pi * u1)
  unfold len
  rw [show dot _ _ = (4 * Real.pi) ^ 2 from ?_, Real.sqrt_sq (by positivity)]
  unfold dot cross
  simp only
  generalize Real.sqrt (1 - (1 - 2 * u2) ^ 2) = r at *
  generalize Real.sin (2 * Real.pi * u1) = sn at *
  generalize Real.cos (2 * Real.pi * u1) = cs at *
  have hcs : cs ^ 2 = 1 - sn ^ 2 := by linarith
  have e1 : 4 * (1 - 2 * u2) / (2 * r) * r = 2 * (1 - 2 * u2) := by field_simp; ring
  generalize 4 * (1 - 2 * u2) / (2 * r) = q at *
  have hz' : r * (-sn * (2 * Real.pi)) * (q * sn) - r * (cs * (2 * Real.pi)) * (q * cs)
      = -(2 * Real.pi) * (2 * (1 - 2 * u2)) := by
    rw [← e1]; linear_combination (-(2 * Real.pi) * (q * r)) * hs
  rw [hz']
  linear_combination 16 * Real.pi ^ 2 * (r * r) * hs + 16 * Real.pi ^ 2 * hr2

/-- Every direction except the south pole is proposed by exactly some pair of numbers in `[0,1)`. -/
theorem C37_onto (v : V3 ℝ) (hv : len v = 1) (hs : v ≠ ⟨0, 0, -1⟩) :
    ∃ u1 u2, 0 ≤ u1 ∧ u1 < 1 ∧ 0 ≤ u2 ∧ u2 < 1 ∧ spherePoint u1 u2 = v := by
  have hd : dot v v = 1 := by
    have := len_sq v; rw [hv] at this; linarith
  unfold dot at hd
  have hz1 : v.z ≤ 1 := by nlinarith [sq_nonneg v.x, sq_nonneg v.y]
  have hz2 : -1 ≤ v.z := by nlinarith [sq_nonneg v.x, sq_nonneg v.y]
  have hz3 : v.z ≠ -1 := by
    intro h
    rw [h] at hd
    have hx : v.x = 0 := by nlinarith [sq_nonneg v.x, sq_nonneg v.y]
    have hy : v.y = 0 := by nlinarith [sq_nonneg v.x, sq_nonneg v.y]
    exact hs (by ext <;> assumption)
  have hz4 : -1 < v.z := lt_of_le_of_ne hz2 (Ne.symm hz3)
  set w : ℂ := ⟨v.x, v.y⟩ with hw
  have hnw : ‖w‖ = Real.sqrt (1 - v.z ^ 2) := by
    rw [Complex.norm_def, Complex.normSq_mk]
    congr 1
    linarith
  have hcos : ‖w‖ * Real.cos w.arg = v.x := Complex.norm_mul_cos_arg w
  have hsin : ‖w‖ * Real.sin w.arg = v.y := Complex.norm_mul_sin_arg w
  have hpi := Real.pi_pos
  have h1 := Complex.neg_pi_lt_arg w
  have h2 := Complex.arg_le_pi w
  by_cases ha : 0 ≤ w.arg
  · refine ⟨w.arg / (2 * Real.pi), (1 - v.z) / 2, by positivity, ?_, by linarith, by linarith, ?_⟩
    · rw [div_lt_one (by positivity)]; linarith
    · unfold spherePoint
      rw [show 2 * Real.pi * (w.arg / (2 * Real.pi)) = w.arg by field_simp,
        show 1 - 2 * ((1 - v.z) / 2) = v.z by ring, ← hnw, hcos, hsin]
  · refine ⟨w.arg / (2 * Real.pi) + 1, (1 - v.z) / 2, ?_, ?_, by linarith, by linarith, ?_⟩
    · have : -1 ≤ w.arg / (2 * Real.pi) := by
        rw [le_div_iff₀ (by positivity)]; linarith
      linarith
    · have : w.arg / (2 * Real.pi) < 0 := div_neg_of_neg_of_pos (not_le.1 ha) (by positivity)
      linarith
    · unfold spherePoint
      rw [show 2 * Real.pi * (w.arg / (2 * Real.pi) + 1) = w.arg + 2 * Real.pi by field_simp,
        Real.cos_add_two_pi, Real.sin_add_two_pi,
        show 1 - 2 * ((1 - v.z) / 2) = v.z by ring, ← hnw, hcos, hsin]

example : ValidDraw ⟨3, 1 / 3, 1 / 5, 1 / 2⟩ := by constructor <;> norm_num

/-! ### C38: `metropolis_update_maglab` against `mc_system_energy_maglab` -/

theorem maglab_form {c : SpinChain ℝ} {L s : ℕ} (w : WF c L s) (hL : 2 ≤ L) (d : Draw ℝ)
    (h2 : 0 ≤ d.u2) (h2' : d.u2 ≤ 1) :
    c.metropolis_update_maglab d = .ok (metropolis c.vars.beta
      (maglabE L (2 * Real.pi / c.vars.tau) 0 0 (S (replace c (d.site % L) (spherePoint d.u1 d.u2)))
        (J c) - maglabE L (2 * Real.pi / c.vars.tau) 0 0 (S c) (J c)) d.u3 c
      (replace c (d.site % L) (spherePoint d.u1 d.u2))) := by
  have hi : d.site % L < L := Nat.mod_lt _ (by omega)
  unfold SpinChain.metropolis_update_maglab
  simp only [hsize_nat w, genRange_ok (by omega : 1 ≤ L), ok_bind, nbhd1_eq w hi,
    proposal_eq h2 h2', maglabDe_eq (S c) (J c) (H0 c) hL hi, S_replace w hi, om_real]
  exact finish_eq w hi _ _ _

/-- Full claim: without the hypothesis `hiso`.  Missing: couplings with different `x` and `y`
components, where the claim is false (`C38_negation`). -/
theorem C38_maglab_energy_partial (c : SpinChain ℝ) (L s : ℕ) (d : Draw ℝ) (w : WF c L s)
    (hL : 2 ≤ L) (hd : ValidDraw d) (hiso : ∀ i, (J c i).x = (J c i).y) : ∃ e e',
    c.mc_system_energy_maglab = .ok e ∧
    (replace c (d.site % L) (spherePoint d.u1 d.u2)).mc_system_energy_maglab = .ok e' ∧
    c.metropolis_update_maglab d = .ok (metropolis c.vars.beta (L * (e' - e)) d.u3 c
      (replace c (d.site % L) (spherePoint d.u1 d.u2))) := by
  refine ⟨_, _, mc_system_energy_maglab_eq w hL,
    mc_system_energy_maglab_eq (replace_wf w _ _) hL, ?_⟩
  have hL0 : (L : ℝ) ≠ 0 := by positivity
  have hcorr : ∀ (S : ℕ → V3 ℝ) kb kt, corr L kb kt S (J c) = 0 := by
    intro S kb kt
    have h0 : ∀ i, aniso (J c i) = 0 := fun i => by unfold aniso; rw [hiso i]; ring
    unfold corr bondCorr tripCorr
    simp [h0]
  rw [maglab_form w hL d hd.u2.1 hd.u2.2.le]
  congr 2
  rw [J_replace]
  unfold maglabE
  rw [hcorr, hcorr, hcorr, hcorr]
  show _ = _ * (_ / _ - _ / _)
  simp only [zero_div, sub_zero]
  rw [show (replace c (d.site % L) (spherePoint d.u1 d.u2)).vars = c.vars from rfl]
  field_simp

/-- What the two functions compute for all couplings: the sampler leaves out the corrections that the
energy includes (two-spin corrections twice, three-spin corrections three times). -/
theorem C38_actual (c : SpinChain ℝ) (L s : ℕ) (d : Draw ℝ) (w : WF c L s) (hL : 2 ≤ L)
    (hd : ValidDraw d) :
    c.mc_system_energy_maglab
        = .ok (maglabE L (2 * Real.pi / c.vars.tau) 2 3 (S c) (J c) / L) ∧
    c.metropolis_update_maglab d = .ok (metropolis c.vars.beta
      (maglabE L (2 * Real.pi / c.vars.tau) 0 0 (S (replace c (d.site % L) (spherePoint d.u1 d.u2)))
        (J c) - maglabE L (2 * Real.pi / c.vars.tau) 0 0 (S c) (J c)) d.u3 c
      (replace c (d.site % L) (spherePoint d.u1 d.u2))) :=
  ⟨mc_system_energy_maglab_eq w hL, maglab_form w hL d hd.u2.1 hd.u2.2.le⟩

/-- three spins, only `y` couplings, of strength 4; first spin along `z`, the others along `x` -/
noncomputable def aniso3 : SpinChain ℝ where
  j_couple := [⟨0, 4, 0⟩, ⟨0, 4, 0⟩, ⟨0, 4, 0⟩]
  static_h := [zero, zero, zero]
  spins := [⟨⟨0, 0, 1⟩⟩, ⟨⟨1, 0, 0⟩⟩, ⟨⟨1, 0, 0⟩⟩]
  t := 0
  vars := { demoVars with hsize := 3, ssize := 1, beta := 1, tau := 2 * Real.pi }
  file := none

theorem aniso3_wf : WF aniso3 3 1 := by constructor <;> simp [aniso3, demoVars]

theorem x_point : spherePoint 0 (1 / 2) = ⟨1, 0, 0⟩ := by norm_num [spherePoint]
theorem z_point : spherePoint 0 0 = ⟨0, 0, 1⟩ := by norm_num [spherePoint]

theorem two_pi_tau : 2 * Real.pi / aniso3.vars.tau = 1 := by
  show 2 * Real.pi / (2 * Real.pi) = 1
  have := Real.pi_pos
  field_simp

/-- two Metropolis decisions at different positive energies disagree at a suitable number -/
theorem metropolis_differ {beta a b : ℝ} (hb : 0 < beta) (ha : 0 < a) (hab : a < b)
    {c c' : SpinChain ℝ} (hc : c' ≠ c) :
    metropolis beta a (Real.exp (-(beta * b))) c c'
      ≠ metropolis beta b (Real.exp (-(beta * b))) c c' := by
  unfold metropolis
  rw [if_pos, if_neg]
  · exact hc
  · simp only [not_or, not_lt]
    exact ⟨by linarith, le_rfl⟩
  · right
    rw [Real.exp_lt_exp]
    have := mul_lt_mul_of_pos_left hab hb
    linarith

theorem exp_draw {b : ℝ} (hb : 0 < b) (site : ℕ) {u1 u2 : ℝ} (h1 : 0 ≤ u1 ∧ u1 < 1)
    (h2 : 0 ≤ u2 ∧ u2 < 1) : ValidDraw ⟨site, u1, u2, Real.exp (-(1 * b))⟩ :=
  ⟨h1, h2, (Real.exp_pos _).le, by
    show Real.exp (-(1 * b)) < 1
    rw [Real.exp_lt_one_iff]; linarith⟩

theorem C38_negation : ∃ (c : SpinChain ℝ) (d : Draw ℝ) (e e' : ℝ), WF c 3 1 ∧ ValidDraw d ∧
    (∀ x ∈ c.spins, IsUnit3 x) ∧
    c.mc_system_energy_maglab = .ok e ∧
    (replace c (d.site % 3) (spherePoint d.u1 d.u2)).mc_system_energy_maglab = .ok e' ∧
    c.metropolis_update_maglab d ≠ .ok (metropolis c.vars.beta (3 * (e' - e)) d.u3 c
      (replace c (d.site % 3) (spherePoint d.u1 d.u2))) := by
  have w := aniso3_wf
  have hE : ∀ kb kt, maglabE 3 1 kb kt (S (replace aniso3 0 ⟨1, 0, 0⟩)) (J aniso3)
      - maglabE 3 1 kb kt (S aniso3) (J aniso3) = 1 / 2 + 2 * kb + 2 * kt := by
    intro kb kt
    rw [S_replace w (by norm_num)]
    norm_num [maglabE, ringEnergy, corr, bondCorr, tripCorr, sum_range_succ, S, J, aniso3, dot, had,
      left, right, aniso, Function.update]
    ring
  refine ⟨aniso3, ⟨0, 0, 1 / 2, Real.exp (-(1 * (21 / 2)))⟩, _, _, w,
    exp_draw (by norm_num) 0 (by norm_num) (by norm_num), ?_,
    mc_system_energy_maglab_eq w (by norm_num),
    mc_system_energy_maglab_eq (replace_wf w _ _) (by norm_num), ?_⟩
  · intro x hx
    simp only [aniso3, List.mem_cons, List.not_mem_nil, or_false, or_self] at hx
    rw [unit_iff]
    rcases hx with rfl | rfl <;> norm_num [dot]
  · rw [maglab_form w (by norm_num) _ (by norm_num) (by norm_num)]
    simp only [Nat.zero_mod, x_point]
    rw [show (replace aniso3 0 ⟨1, 0, 0⟩).vars = aniso3.vars from rfl, two_pi_tau, J_replace]
    have e1 := hE 0 0
    have e2 := hE 2 3
    rw [e1, show ((3 : ℕ) : ℝ) = 3 by norm_num,
      show (3 : ℝ) * (maglabE 3 1 2 3 (S (replace aniso3 0 ⟨1, 0, 0⟩)) (J aniso3) / 3
        - maglabE 3 1 2 3 (S aniso3) (J aniso3) / 3) = 21 / 2 by linarith]
    intro h
    refine metropolis_differ (beta := 1) (a := 1 / 2 + 2 * 0 + 2 * 0) (b := 21 / 2) (by norm_num)
      (by norm_num) (by norm_num) (replace_ne w (by norm_num) ?_) (Except.ok.inj h)
    intro h
    have := congrArg V3.x h
    norm_num [S, aniso3] at this

example : ∃ c : SpinChain ℝ, WF c 4 2 ∧ ∀ i, (J c i).x = (J c i).y := by
  refine ⟨{ demo with j_couple := List.replicate 4 ⟨1, 1, 1 / 2⟩ }, ?_, ?_⟩
  · constructor <;> simp [demo, demoVars]
  · intro i
    unfold J
    by_cases h : i < 4
    · simp only [List.getElem?_replicate, h, if_true]; rfl
    · simp only [List.getElem?_replicate, h, if_false]; rfl

/-! ### C39: `metropolis_update_rot_magnus` against `mc_system_energy_rot` -/

theorem rot_form {c : SpinChain ℝ} {L s : ℕ} (w : WF c L s) (hL : 3 ≤ L) (d : Draw ℝ)
    (h2 : 0 ≤ d.u2) (h2' : d.u2 ≤ 1) :
    c.metropolis_update_rot_magnus d = .ok (metropolis c.vars.beta
      (rotE L s (2 * Real.pi / c.vars.tau) 1 1 (S (replace c (d.site % L) (spherePoint d.u1 d.u2)))
        (J c) - rotE L s (2 * Real.pi / c.vars.tau) 1 1 (S c) (J c)) d.u3 c
      (replace c (d.site % L) (spherePoint d.u1 d.u2))) := by
  have hi : d.site % L < L := Nat.mod_lt _ (by omega)
  unfold SpinChain.metropolis_update_rot_magnus
  simp only [hsize_nat w, ssize_nat w, genRange_ok (by omega : 1 ≤ L), ok_bind,
    nbhd_eq w (by omega) hi, idx_h w hi,
    proposal_eq h2 h2', rotDe_eq (S c) (J c) hL hi, S_replace w hi, om_real]
  exact finish_eq w hi _ _ _

/-- Full claim: without the hypothesis `hiso`.  Missing: couplings with different `x` and `y`
components, where the claim is false (`C39_negation`). -/
theorem C39_rot_energy_partial (c : SpinChain ℝ) (L s : ℕ) (d : Draw ℝ) (w : WF c L s)
    (hL : 3 ≤ L) (hs : s ≤ L) (hd : ValidDraw d) (hiso : ∀ i, (J c i).x = (J c i).y) : ∃ e e',
    c.mc_system_energy_rot = .ok e ∧
    (replace c (d.site % L) (spherePoint d.u1 d.u2)).mc_system_energy_rot = .ok e' ∧
    c.metropolis_update_rot_magnus d = .ok (metropolis c.vars.beta (L * (e' - e)) d.u3 c
      (replace c (d.site % L) (spherePoint d.u1 d.u2))) := by
  refine ⟨_, _, mc_system_energy_rot_eq w (by omega) hs,
    mc_system_energy_rot_eq (replace_wf w _ _) (by omega) hs, ?_⟩
  have hL0 : (L : ℝ) ≠ 0 := by positivity
  have hcorr : ∀ (S : ℕ → V3 ℝ) kb kt, corr L kb kt S (J c) = 0 := by
    intro S kb kt
    have h0 : ∀ i, aniso (J c i) = 0 := fun i => by unfold aniso; rw [hiso i]; ring
    unfold corr bondCorr tripCorr
    simp [h0]
  rw [rot_form w hL d hd.u2.1 hd.u2.2.le]
  congr 2
  rw [J_replace]
  unfold rotE
  rw [hcorr, hcorr, hcorr, hcorr]
  show _ = _ * (_ / _ - _ / _)
  simp only [zero_div, sub_zero]
  rw [show (replace c (d.site % L) (spherePoint d.u1 d.u2)).vars = c.vars from rfl]
  field_simp

/-- What the two functions compute for all couplings: the sampler counts every correction once, the
energy counts two-spin corrections twice and three-spin corrections three times. -/
theorem C39_actual (c : SpinChain ℝ) (L s : ℕ) (d : Draw ℝ) (w : WF c L s) (hL : 3 ≤ L)
    (hs : s ≤ L) (hd : ValidDraw d) :
    c.mc_system_energy_rot
        = .ok (rotE L s (2 * Real.pi / c.vars.tau) 2 3 (S c) (J c) / L) ∧
    c.metropolis_update_rot_magnus d = .ok (metropolis c.vars.beta
      (rotE L s (2 * Real.pi / c.vars.tau) 1 1 (S (replace c (d.site % L) (spherePoint d.u1 d.u2)))
        (J c) - rotE L s (2 * Real.pi / c.vars.tau) 1 1 (S c) (J c)) d.u3 c
      (replace c (d.site % L) (spherePoint d.u1 d.u2))) :=
  ⟨mc_system_energy_rot_eq w (by omega) hs, rot_form w hL d hd.u2.1 hd.u2.2.le⟩

theorem C39_negation : ∃ (c : SpinChain ℝ) (d : Draw ℝ) (e e' : ℝ), WF c 3 1 ∧ ValidDraw d ∧
    (∀ x ∈ c.spins, IsUnit3 x) ∧
    c.mc_system_energy_rot = .ok e ∧
    (replace c (d.site % 3) (spherePoint d.u1 d.u2)).mc_system_energy_rot = .ok e' ∧
    c.metropolis_update_rot_magnus d ≠ .ok (metropolis c.vars.beta (3 * (e' - e)) d.u3 c
      (replace c (d.site % 3) (spherePoint d.u1 d.u2))) := by
  have w := aniso3_wf
  have hE : ∀ kb kt, rotE 3 1 1 kb kt (S (replace aniso3 0 ⟨1, 0, 0⟩)) (J aniso3)
      - rotE 3 1 1 kb kt (S aniso3) (J aniso3) = -2 + 2 * kb + 2 * kt := by
    intro kb kt
    rw [S_replace w (by norm_num)]
    norm_num [rotE, rotJ, ringEnergy, corr, bondCorr, tripCorr, sum_range_succ, S, J, aniso3, dot,
      had, left, right, aniso, Function.update]
    ring
  refine ⟨aniso3, ⟨0, 0, 1 / 2, Real.exp (-(1 * 8))⟩, _, _, w,
    exp_draw (by norm_num) 0 (by norm_num) (by norm_num), ?_,
    mc_system_energy_rot_eq w (by norm_num) (by norm_num),
    mc_system_energy_rot_eq (replace_wf w _ _) (by norm_num) (by norm_num), ?_⟩
  · intro x hx
    simp only [aniso3, List.mem_cons, List.not_mem_nil, or_false, or_self] at hx
    rw [unit_iff]
    rcases hx with rfl | rfl <;> norm_num [dot]
  · rw [rot_form w (by norm_num) _ (by norm_num) (by norm_num)]
    simp only [Nat.zero_mod, x_point]
    rw [show (replace aniso3 0 ⟨1, 0, 0⟩).vars = aniso3.vars from rfl, two_pi_tau, J_replace]
    have e1 := hE 1 1
    have e2 := hE 2 3
    rw [e1, show ((3 : ℕ) : ℝ) = 3 by norm_num,
      show (3 : ℝ) * (rotE 3 1 1 2 3 (S (replace aniso3 0 ⟨1, 0, 0⟩)) (J aniso3) / 3
        - rotE 3 1 1 2 3 (S aniso3) (J aniso3) / 3) = 8 by linarith]
    intro h
    refine metropolis_differ (beta := 1) (a := -2 + 2 * 1 + 2 * 1) (b := 8) (by norm_num)
      (by norm_num) (by norm_num) (replace_ne w (by norm_num) ?_) (Except.ok.inj h)
    intro h
    have := congrArg V3.x h
    norm_num [S, aniso3] at this

/-! ### C40: `metropolis_update_magnus` -/

/-- Full claim: `magnusE .. 1`, the first-order Magnus energy.  Proved: the energy *without* its `S^z`
term, for sites of the subsystem. -/
theorem C40_magnus_energy_partial (c : SpinChain ℝ) (L s : ℕ) (d : Draw ℝ) (w : WF c L s)
    (hL : 3 ≤ L) (hs : s < L) (hi : d.site % L < s) (hd : ValidDraw d) :
    c.metropolis_update_magnus d = .ok (metropolis c.vars.beta
      (magnusE L s c.vars.tau 0 (S (replace c (d.site % L) (spherePoint d.u1 d.u2))) (J c)
        - magnusE L s c.vars.tau 0 (S c) (J c)) d.u3 c
      (replace c (d.site % L) (spherePoint d.u1 d.u2))) := by
  have hiL : d.site % L < L := by omega
  have hss : asUsize (c.vars.ssize - 1) = s - 1 := by
    rw [w.ssize, show (s : ℤ) - 1 = ((s - 1 : ℕ) : ℤ) by omega, asUsize_nat]
    have := w.s_lt
    omega
  unfold SpinChain.metropolis_update_magnus
  simp only [hsize_nat w, ssize_nat w, hss, genRange_ok (by omega : 1 ≤ L), ok_bind,
    nbhd_eq w (by omega) hiL, idx_h w hiL,
    proposal_eq hd.u2.1 hd.u2.2.le, hi, decide_true,
    magnusDe_in (S c) (J c) hL hs hi, S_replace w hiL]
  exact finish_eq w hiL _ _ _

/-- Sites outside the subsystem are moved by the bare couplings alone, even those next to the
subsystem, which enter the Magnus energy. -/
theorem C40_outside (c : SpinChain ℝ) (L s : ℕ) (d : Draw ℝ) (w : WF c L s)
    (hL : 2 ≤ L) (hi : s ≤ d.site % L) (hd : ValidDraw d) :
    c.metropolis_update_magnus d = .ok (metropolis c.vars.beta
      (ringEnergy L (S (replace c (d.site % L) (spherePoint d.u1 d.u2))) (J c) (fun _ => zero)
        - ringEnergy L (S c) (J c) (fun _ => zero)) d.u3 c
      (replace c (d.site % L) (spherePoint d.u1 d.u2))) := by
  have hiL : d.site % L < L := Nat.mod_lt _ (by omega)
  unfold SpinChain.metropolis_update_magnus
  simp only [hsize_nat w, ssize_nat w, genRange_ok (by omega : 1 ≤ L), ok_bind,
    nbhd_eq w (by omega) hiL, idx_h w hiL,
    proposal_eq hd.u2.1 hd.u2.2.le, not_lt.2 hi, decide_false,
    magnusDe_out (S c) (J c) hL hiL, S_replace w hiL]
  exact finish_eq w hiL _ _ _

/-- three spins with equal couplings, two along `x` -/
noncomputable def mag3 : SpinChain ℝ where
  j_couple := [⟨1, 1, 1⟩, ⟨1, 1, 1⟩, ⟨1, 1, 1⟩]
  static_h := [zero, zero, zero]
  spins := [⟨⟨1, 0, 0⟩⟩, ⟨⟨1, 0, 0⟩⟩, ⟨⟨1, 0, 0⟩⟩]
  t := 0
  vars := { demoVars with hsize := 3, ssize := 1, beta := 1, tau := Real.pi }
  file := none

theorem mag3_wf : WF mag3 3 1 := by constructor <;> simp [mag3, demoVars]

theorem C40_negation : ∃ (c : SpinChain ℝ) (d : Draw ℝ), WF c 3 1 ∧ ValidDraw d ∧
    (∀ x ∈ c.spins, IsUnit3 x) ∧
    c.metropolis_update_magnus d ≠ .ok (metropolis c.vars.beta
      (magnusE 3 1 c.vars.tau 1 (S (replace c (d.site % 3) (spherePoint d.u1 d.u2))) (J c)
        - magnusE 3 1 c.vars.tau 1 (S c) (J c)) d.u3 c
      (replace c (d.site % 3) (spherePoint d.u1 d.u2))) := by
  have w := mag3_wf
  have hpi := Real.pi_pos.ne'
  have hE : ∀ k, magnusE 3 1 Real.pi k (S (replace mag3 0 ⟨0, 0, 1⟩)) (J mag3)
      - magnusE 3 1 Real.pi k (S mag3) (J mag3) = 6 - k := by
    intro k
    rw [S_replace w (by norm_num)]
    norm_num [magnusE, magTerm, ringEnergy, sum_range_succ, S, J, mag3, dot, had, zero,
      left, right, Function.update, div_self hpi]
    ring
  have hd : ValidDraw ⟨0, 0, 0, Real.exp (-(1 * 6))⟩ :=
    exp_draw (by norm_num) 0 (by norm_num) (by norm_num)
  refine ⟨mag3, ⟨0, 0, 0, Real.exp (-(1 * 6))⟩, w, hd, ?_, ?_⟩
  · intro x hx
    simp only [mag3, List.mem_cons, List.not_mem_nil, or_false, or_self] at hx
    rw [unit_iff]
    subst hx; norm_num [dot]
  · rw [C40_magnus_energy_partial mag3 3 1 _ w (by norm_num) (by norm_num) (by norm_num) hd]
    simp only [Nat.zero_mod, z_point]
    rw [show mag3.vars.tau = Real.pi from rfl, hE 0, hE 1]
    intro h
    refine (metropolis_differ (beta := 1) (a := 6 - 1) (b := 6 - 0) (by norm_num) (by norm_num)
      (by norm_num) (replace_ne w (i := 0) (v := ⟨0, 0, 1⟩) (by norm_num) ?_)).symm ?_
    · intro h
      have := congrArg V3.x h
      norm_num [S, mag3] at this
    · have := Except.ok.inj h
      simp only [sub_zero] at this ⊢
      exact this

example : WF demo 4 2 ∧ 3 ≤ 4 ∧ 2 < 4 ∧ 1 % 4 < 2 ∧ ValidDraw ⟨1, 1 / 3, 1 / 5, 1 / 2⟩ :=
  ⟨demo_wf, by norm_num, by norm_num, by norm_num, by constructor <;> norm_num⟩

/-! ### C41: `metropolis_update_mag_full` -/

/-- The energy in which the sampler moves site `i`, as a function of the whole configuration. -/
noncomputable def magFullSiteE (om : ℝ) (L s i : ℕ) (S J : ℕ → V3 ℝ) : ℝ :=
  SpinChain.magFullEi om (nb L S J i) (decide (i < s))

theorem magFull_same (om : ℝ) (n : Nbhd ℝ) (b : Bool) (v : V3 ℝ) :
    SpinChain.magFullDe om n b ⟨v⟩
      = SpinChain.magFullEi om { n with s_j := ⟨v⟩ } b - SpinChain.magFullEi om n b := by
  have h0 : SpinChain.magFullDe0 n ⟨v⟩ = SpinChain.magFullEi0 { n with s_j := ⟨v⟩ } := by
    simp only [SpinChain.magFullDe0, SpinChain.magFullEi0, for3]; ring
  have h1 : SpinChain.magFullDe1 n ⟨v⟩ = SpinChain.magFullEi1 { n with s_j := ⟨v⟩ } := rfl
  have h2 : SpinChain.magFullDe2 n ⟨v⟩ = SpinChain.magFullEi2 { n with s_j := ⟨v⟩ } := rfl
  simp only [SpinChain.magFullDe, SpinChain.magFullEi, h0, h1, h2]
  ring

theorem magFull_form {c : SpinChain ℝ} {L s : ℕ} (w : WF c L s) (hL : 3 ≤ L) (d : Draw ℝ)
    (h2 : 0 ≤ d.u2) (h2' : d.u2 ≤ 1) :
    c.metropolis_update_mag_full d = .ok (metropolis c.vars.beta
      (magFullSiteE (2 * Real.pi / c.vars.tau) L s (d.site % L)
          (S (replace c (d.site % L) (spherePoint d.u1 d.u2))) (J c)
        - magFullSiteE (2 * Real.pi / c.vars.tau) L s (d.site % L) (S c) (J c)) d.u3 c
      (replace c (d.site % L) (spherePoint d.u1 d.u2))) := by
  have hi : d.site % L < L := Nat.mod_lt _ (by omega)
  have hn : ∀ v, ({ nb L (S c) (J c) (d.site % L) with s_j := ⟨v⟩ } : Nbhd ℝ)
      = nb L (Function.update (S c) (d.site % L) v) (J c) (d.site % L) := by
    intro v
    unfold nb
    rw [Function.update_self, Function.update_of_ne (left_ne (by omega) hi),
      Function.update_of_ne (right_ne (by omega) hi),
      Function.update_of_ne (left_left_ne hL hi), Function.update_of_ne (right_right_ne hL hi)]
  unfold SpinChain.metropolis_update_mag_full
  simp only [hsize_nat w, ssize_nat w, genRange_ok (by omega : 1 ≤ L), ok_bind,
    nbhd_eq w (by omega) hi, idx_h w hi, om_real,
    proposal_eq h2 h2', magFull_same, hn, S_replace w hi]
  exact finish_eq w hi _ _ _

/-- For every site there is one function `E i` of the configuration such that the sampler decides by
its change.  In particular a move and its reverse have opposite energy differences and the trivial
move has energy difference zero. -/
theorem C41_one_function (L s : ℕ) (hL : 3 ≤ L) : ∃ E : ℕ → SpinChain ℝ → ℝ,
    ∀ (c : SpinChain ℝ) (d : Draw ℝ), WF c L s → ValidDraw d →
      c.metropolis_update_mag_full d = .ok (metropolis c.vars.beta
        (E (d.site % L) (replace c (d.site % L) (spherePoint d.u1 d.u2)) - E (d.site % L) c) d.u3 c
        (replace c (d.site % L) (spherePoint d.u1 d.u2))) :=
  ⟨fun i c => magFullSiteE (2 * Real.pi / c.vars.tau) L s i (S c) (J c),
    fun _ d w hd => magFull_form w hL d hd.u2.1 hd.u2.2.le⟩

/-- the energy difference of a move and that of the way back, as seen by the acceptance decisions -/
theorem C41_antisymmetric (L s i : ℕ) (hL : 3 ≤ L) (c : SpinChain ℝ) (w : WF c L s) (hi : i < L)
    (u1 u2 w1 w2 : ℝ) (h2 : 0 ≤ u2) (h2' : u2 < 1) (hw : 0 ≤ w2) (hw' : w2 < 1)
    (hS : S c i = spherePoint w1 w2) : ∃ dE : ℝ,
    (∀ u, c.metropolis_update_mag_full ⟨i, u1, u2, u⟩
      = .ok (metropolis c.vars.beta dE u c (replace c i (spherePoint u1 u2)))) ∧
    (∀ u, (replace c i (spherePoint u1 u2)).metropolis_update_mag_full ⟨i, w1, w2, u⟩
      = .ok (metropolis c.vars.beta (-dE) u (replace c i (spherePoint u1 u2)) c)) ∧
    (S c i = spherePoint u1 u2 → dE = 0) := by
  have hback : replace (replace c i (spherePoint u1 u2)) i (spherePoint w1 w2) = c := by
    rw [← hS, replace_back w hi]
  refine ⟨magFullSiteE (2 * Real.pi / c.vars.tau) L s i (S (replace c i (spherePoint u1 u2))) (J c)
      - magFullSiteE (2 * Real.pi / c.vars.tau) L s i (S c) (J c),
    fun u => ?_, fun u => ?_, fun h => ?_⟩
  · rw [magFull_form w hL _ h2 h2'.le]
    simp only [Nat.mod_eq_of_lt hi]
  · rw [magFull_form (replace_wf w _ _) hL _ hw hw'.le]
    simp only [Nat.mod_eq_of_lt hi, hback, J_replace]
    rw [show (replace c i (spherePoint u1 u2)).vars = c.vars from rfl]
    congr 2
    ring
  · rw [S_replace w hi, ← h, Function.update_eq_self, sub_self]

example : WF demo 4 2 ∧ 3 < 4 ∧ S demo 3 = spherePoint 0 (1 / 2) :=
  ⟨demo_wf, by norm_num, by norm_num [S, demo, spherePoint]⟩

/-! ### C67: detailed balance with respect to some weight

Full claim: all five samplers.  True for three of them; false for `metropolis_update_magnus` (sites
next to the subsystem) and for `metropolis_update_mag_full` (even with all sites driven). -/

theorem C67_balanced_partial (L s : ℕ) (hL : 3 ≤ L) :
    (∃ W : SpinChain ℝ → ℝ, (∀ c, 0 < W c) ∧ DetailedBalance Sampler.plain.run L s W) ∧
    (∃ W : SpinChain ℝ → ℝ, (∀ c, 0 < W c) ∧ DetailedBalance Sampler.maglab.run L s W) ∧
    (∃ W : SpinChain ℝ → ℝ, (∀ c, 0 < W c) ∧ DetailedBalance Sampler.rot.run L s W) := by
  refine ⟨⟨_, fun c => Real.exp_pos _, balance_of_energy
      (fun c => ringEnergy L (S c) (J c) (H0 c)) ?_⟩,
    ⟨_, fun c => Real.exp_pos _, balance_of_energy
      (fun c => maglabE L (2 * Real.pi / c.vars.tau) 0 0 (S c) (J c)) ?_⟩,
    ⟨_, fun c => Real.exp_pos _, balance_of_energy
      (fun c => rotE L s (2 * Real.pi / c.vars.tau) 1 1 (S c) (J c)) ?_⟩⟩
  · intro c i u1 u2 u w hi h2 h2'
    have := plain_form w (by omega) ⟨i, u1, u2, u⟩ h2 h2'.le
    simp only [Nat.mod_eq_of_lt hi] at this
    exact this
  · intro c i u1 u2 u w hi h2 h2'
    have := maglab_form w (by omega) ⟨i, u1, u2, u⟩ h2 h2'.le
    simp only [Nat.mod_eq_of_lt hi] at this
    exact this
  · intro c i u1 u2 u w hi h2 h2'
    have := rot_form w hL ⟨i, u1, u2, u⟩ h2 h2'.le
    simp only [Nat.mod_eq_of_lt hi] at this
    exact this

/-- four spins along `z`, the first two driven -/
noncomputable def mag4 : SpinChain ℝ where
  j_couple := List.replicate 4 ⟨1, 1, 0⟩
  static_h := List.replicate 4 zero
  spins := List.replicate 4 ⟨⟨0, 0, 1⟩⟩
  t := 0
  vars := { demoVars with hsize := 4, ssize := 2, beta := 1, tau := Real.pi }
  file := none

theorem mag4_wf : WF mag4 4 2 := by constructor <;> simp [mag4, demoVars]

theorem C67_negation_magnus :
    ¬ ∃ W : SpinChain ℝ → ℝ, (∀ c, 0 < W c) ∧ DetailedBalance Sampler.magnus.run 4 2 W := by
  rintro ⟨W, hW, hdb⟩
  have w := mag4_wf
  have hpi := Real.pi_pos.ne'
  have key := square_sum hW hdb
    (fun i c => if i < 2 then magnusE 4 2 c.vars.tau 0 (S c) (J c)
      else ringEnergy 4 (S c) (J c) fun _ => zero)
    (by
      intro c i u1 u2 u w hi h2 h2'
      show c.metropolis_update_magnus ⟨i, u1, u2, u⟩ = _
      have hi' := Nat.mod_eq_of_lt hi
      have hss : 1 ≤ 2 → asUsize (c.vars.ssize - 1) = 2 - 1 := by
        intro _
        rw [w.ssize, show ((2 : ℕ) : ℤ) - 1 = ((2 - 1 : ℕ) : ℤ) by norm_num,
          asUsize_nat (by norm_num)]
      unfold SpinChain.metropolis_update_magnus
      simp only [hsize_nat w, ssize_nat w, hss (by norm_num), genRange_ok (by norm_num : 1 ≤ 4),
        ok_bind, hi', nbhd_eq w (by norm_num) hi, idx_h w hi, proposal_eq h2 h2'.le]
      by_cases h : i < 2
      · simp only [h, decide_true, if_true]
        rw [magnusDe_in (S c) (J c) (by norm_num) (by norm_num) h, ← S_replace w hi]
        exact finish_eq w hi _ _ _
      · simp only [h, decide_false, if_false]
        rw [magnusDe_out (S c) (J c) (by norm_num) hi, ← S_replace w hi]
        exact finish_eq w hi _ _ _)
    w (by norm_num [mag4]) (a := 1) (b := 2) (by norm_num) (by norm_num) (by norm_num)
    (u1 := 0) (u2 := 1 / 2) (w1 := 0) (w2 := 0) (by norm_num) (by norm_num) (by norm_num)
    (by norm_num) (by rw [z_point]; norm_num [S, mag4]) (by rw [z_point]; norm_num [S, mag4])
    (by rw [x_point, z_point]; intro h; have := congrArg V3.x h; norm_num at this)
  rw [x_point] at key
  norm_num [magnusE, magTerm, ringEnergy, sum_range_succ, S, J, mag4, replace, dot, had, zero,
    left, right, div_self hpi] at key

/-- six spins, all driven, with `x` couplings only -/
noncomputable def mag6 : SpinChain ℝ where
  j_couple := List.replicate 6 ⟨1, 0, 0⟩
  static_h := List.replicate 6 zero
  spins := [⟨⟨0, 0, 1⟩⟩, ⟨⟨0, 0, 1⟩⟩, ⟨⟨0, 0, 1⟩⟩, ⟨⟨1, 0, 0⟩⟩, ⟨⟨0, 0, 1⟩⟩, ⟨⟨0, 0, 1⟩⟩]
  t := 0
  vars := { demoVars with hsize := 6, ssize := 6, beta := 1, tau := 2 * Real.pi }
  file := none

theorem mag6_wf : WF mag6 6 6 := by constructor <;> simp [mag6, demoVars]

theorem C67_negation_mag_full :
    ¬ ∃ W : SpinChain ℝ → ℝ, (∀ c, 0 < W c) ∧ DetailedBalance Sampler.magFull.run 6 6 W := by
  rintro ⟨W, hW, hdb⟩
  have w := mag6_wf
  have hpi := Real.pi_pos.ne'
  have hom : 2 * Real.pi / mag6.vars.tau = 1 := by
    show 2 * Real.pi / (2 * Real.pi) = 1
    field_simp
  have key := square_sum hW hdb
    (fun i c => magFullSiteE (2 * Real.pi / c.vars.tau) 6 6 i (S c) (J c))
    (by
      intro c i u1 u2 u w hi h2 h2'
      have := magFull_form w (by norm_num) ⟨i, u1, u2, u⟩ h2 h2'.le
      simp only [Nat.mod_eq_of_lt hi] at this
      exact this)
    w (by norm_num [mag6]) (a := 2) (b := 0) (by norm_num) (by norm_num) (by norm_num)
    (u1 := 0) (u2 := 1 / 2) (w1 := 0) (w2 := 0) (by norm_num) (by norm_num) (by norm_num)
    (by norm_num) (by rw [z_point]; norm_num [S, mag6]) (by rw [z_point]; norm_num [S, mag6])
    (by rw [x_point, z_point]; intro h; have := congrArg V3.x h; norm_num at this)
  rw [x_point] at key
  simp only [show ∀ i v, (replace mag6 i v).vars = mag6.vars from fun _ _ => rfl,
    show ∀ i v k v', (replace (replace mag6 i v) k v').vars = mag6.vars from fun _ _ _ _ => rfl,
    hom] at key
  norm_num [magFullSiteE, SpinChain.magFullEi, SpinChain.magFullEi0, SpinChain.magFullEi1,
    SpinChain.magFullEi2, nb, for3, S, J, mag6, replace, left, right] at key

end Verif.Props
