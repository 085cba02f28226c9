/-
C120: a fast drive, and the Magnus energies (/repo/src/spinchain.rs `update`, `mc_total_energy`,
`metropolis_update_magnus`, `metropolis_update_mag_full`, `metropolis_update_maglab`).
-/
import Verif.Lemmas.FastDrive
import Verif.Props.Metropolis

set_option linter.unusedSectionVars false

namespace Verif.Props

open Spec Finset

/-! ### exact motions -/

/-- C120, effective energy: along an exact motion the effective energy changes by at most `K τ² (1 + t)` in the time `t`,
the constant being the same for all periods and all initial spins. -/
theorem C120_effective (c0 : SpinChain ℝ) (L s : ℕ) (hs : s ≤ L) (ho : Oscillating c0.vars) :
    ∃ K, 0 ≤ K ∧ ∀ (c : SpinChain ℝ) (X : ℝ → ℕ → V3 ℝ) (a b t : ℝ), SameUpToPeriod c0 c → 0 < c.vars.tau →
      (∀ i < L, len (X a i) = 1) → Motion c L s X a b → a ≤ t → t ≤ b →
      |effectiveE L s (2 * Real.pi / c.vars.tau) (ell c0.vars) t (X t) (J c) (H0 c)
        - effectiveE L s (2 * Real.pi / c.vars.tau) (ell c0.vars) a (X a) (J c) (H0 c)|
      ≤ K * c.vars.tau ^ 2 * (1 + (t - a)) := by
  obtain ⟨K, hK, h⟩ := slow_average (c0 := c0) (L := L) (s := s)
    ((slow_free hs).1.add ((Slow.const (ell c0.vars ^ 2 / 2)).mul (slow_mag hs).1))
    (((Slow.const (-ell c0.vars)).mul (slow_free hs).2.1).sub ((Slow.const (ell c0.vars / 2)).mul (slow_mag hs).2.1))
    ((Slow.const (1 / 2)).mul (((Slow.const (ell c0.vars ^ 2)).mul (slow_turn hs ey).2.1).sub (slow_turn hs ex).1))
    ((Slow.const (ell c0.vars / 2)).mul ((slow_turn hs ey).1.add (slow_turn hs ex).2.1))
  refine ⟨K / (2 * Real.pi), by have := Real.pi_pos; positivity, fun c X a b t hc ht hu hX h1 h2 => ?_⟩
  have hm : DrivenMotion c0 L s c X a b := ⟨hc, ho, ht, hu, hX⟩
  rw [same_J' hc, same_H0' hc]
  have := h c X a b _ (fun u => effectiveE L s (2 * Real.pi / c.vars.tau) (ell c0.vars) u (X u) (J c0) (H0 c0)) hm
    (by have := Real.pi_pos; positivity) (fun u u1 u2 => hm.deriv_effective hs u1 u2) t h1 h2
  refine this.trans (le_of_eq ?_)
  have := Real.pi_pos.ne'
  have := ht.ne'
  field_simp

/-- C120, no heating: along an exact motion the energy in the static fields changes by at most `K τ (1 + t)` in the time
`t`, the constant being the same for all periods and all initial spins. -/
theorem C120_fast (c0 : SpinChain ℝ) (L s : ℕ) (hs : s ≤ L) (ho : Oscillating c0.vars) :
    ∃ K, 0 ≤ K ∧ ∀ (c : SpinChain ℝ) (X : ℝ → ℕ → V3 ℝ) (a b t : ℝ), SameUpToPeriod c0 c → 0 < c.vars.tau →
      (∀ i < L, len (X a i) = 1) → Motion c L s X a b → a ≤ t → t ≤ b →
      |ringEnergy L (X t) (J c) (H0 c) - ringEnergy L (X a) (J c) (H0 c)| ≤ K * c.vars.tau * (1 + (t - a)) := by
  obtain ⟨K, hK, h⟩ := slow_average (c0 := c0) (L := L) (s := s)
    ((Slow.const (-ell c0.vars)).mul (slow_torque hs).2.1) ((Slow.const (-1)).mul (slow_torque hs).1)
    (Slow.const 0) (Slow.const 0)
  refine ⟨K, hK, fun c X a b t hc ht hu hX h1 h2 => ?_⟩
  have hm : DrivenMotion c0 L s c X a b := ⟨hc, ho, ht, hu, hX⟩
  rw [same_J' hc, same_H0' hc]
  have := h c X a b 1 (fun u => ringEnergy L (X u) (J c0) (H0 c0)) hm zero_le_one
    (fun u u1 u2 => (hm.deriv_energy hs u1 u2).congr_deriv (by ring)) t h1 h2
  rwa [mul_one] at this

/-- At whole periods the effective energy is the first-order Magnus energy: with `ω = 2π/τ` and no static fields,
`-Σ S J S - e/(2ω) Σ_driven (S^z - 2 y·((J S) × S))`. -/
theorem effectiveE_whole {L s : ℕ} (tau e : ℝ) (n : ℤ) (ht : tau ≠ 0) (S J : ℕ → V3 ℝ) :
    effectiveE L s (2 * Real.pi / tau) e (n * tau) S J (fun _ => zero)
      = ringEnergy L S J (fun _ => zero)
        - e * tau / (4 * Real.pi) * ∑ i ∈ range s, ((S i).z - 2 * magTerm L S J i) := by
  have e1 : 2 * Real.pi / tau * (n * tau) = n * (2 * Real.pi) := by field_simp
  have e2 : Real.sin (n * (2 * Real.pi)) = 0 := by
    have := Real.sin_int_mul_pi (n * 2)
    push_cast at this
    rwa [mul_assoc] at this
  have e3 : (drivenTorque L s S J (fun _ => zero)).y = -∑ i ∈ range s, magTerm L S J i := by
    simp only [drivenTorque]
    rw [← sum_neg_distrib]
    refine sum_congr rfl fun i _ => ?_
    simp only [magTerm, cross, omega, Spec.add, Spec.sub, had, zero]
    ring
  unfold effectiveE
  rw [e1, e2, Real.cos_int_mul_two_pi, e3, sum_sub_distrib, ← mul_sum]
  have := Real.pi_pos.ne'
  field_simp
  ring

/-! ### the program -/

section
variable {L s : ℕ}

/-- a function of unit spins that is bounded and Lipschitz -/
def Lips (L : ℕ) (G : (ℕ → V3 ℝ) → ℝ) : Prop :=
  ∃ K, ∀ (S S' : ℕ → V3 ℝ) (δ : ℝ), (∀ i < L, len (S i) = 1) → (∀ i < L, len (S' i) = 1) → 0 ≤ δ →
    (∀ i < L, len (sub (S i) (S' i)) ≤ δ) → |G S| ≤ K ∧ |G S'| ≤ K ∧ |G S - G S'| ≤ K * δ

variable {G G' : (ℕ → V3 ℝ) → ℝ}

theorem Lips.const (r : ℝ) : Lips L fun _ => r :=
  ⟨|r|, fun _ _ δ _ _ hδ _ => ⟨le_rfl, le_rfl, by rw [sub_self, abs_zero]; positivity⟩⟩

theorem Lips.add (h : Lips L G) (h' : Lips L G') : Lips L fun S => G S + G' S := by
  obtain ⟨K, h⟩ := h
  obtain ⟨K', h'⟩ := h'
  refine ⟨K + K', fun S S' δ u u' hδ hc => ?_⟩
  obtain ⟨x1, x2, x3⟩ := h S S' δ u u' hδ hc
  obtain ⟨y1, y2, y3⟩ := h' S S' δ u u' hδ hc
  refine ⟨(abs_add_le _ _).trans (by linarith), (abs_add_le _ _).trans (by linarith), ?_⟩
  rw [show G S + G' S - (G S' + G' S') = (G S - G S') + (G' S - G' S') by ring]
  exact (abs_add_le _ _).trans (by linarith)

theorem Lips.mul (h : Lips L G) (h' : Lips L G') : Lips L fun S => G S * G' S := by
  obtain ⟨K, h⟩ := h
  obtain ⟨K', h'⟩ := h'
  refine ⟨2 * (K * K'), fun S S' δ u u' hδ hc => ?_⟩
  obtain ⟨x1, x2, x3⟩ := h S S' δ u u' hδ hc
  obtain ⟨y1, y2, y3⟩ := h' S S' δ u u' hδ hc
  have hK : 0 ≤ K := (abs_nonneg _).trans x1
  have hK' : 0 ≤ K' := (abs_nonneg _).trans y1
  have k := mul_nonneg hK hK'
  refine ⟨?_, ?_, ?_⟩
  · rw [abs_mul]; linarith [mul_le_mul x1 y1 (abs_nonneg _) hK]
  · rw [abs_mul]; linarith [mul_le_mul x2 y2 (abs_nonneg _) hK]
  · rw [show G S * G' S - G S' * G' S' = G S * (G' S - G' S') + (G S - G S') * G' S' by ring]
    refine (abs_add_le _ _).trans ?_
    rw [abs_mul, abs_mul]
    have a1 := mul_le_mul x1 y3 (abs_nonneg _) hK
    have a2 := mul_le_mul x3 y2 (abs_nonneg _) (by positivity)
    linarith

theorem Lips.neg (h : Lips L G) : Lips L fun S => -G S := by simpa using (Lips.const (-1)).mul h

theorem Lips.sub (h : Lips L G) (h' : Lips L G') : Lips L fun S => G S - G' S := by
  simpa only [sub_eq_add_neg] using h.add h'.neg

theorem Lips.sum {n : ℕ} {F : ℕ → (ℕ → V3 ℝ) → ℝ} (h : ∀ i < n, Lips L (F i)) : Lips L fun S => ∑ i ∈ range n, F i S := by
  induction n with
  | zero => simpa using Lips.const 0
  | succ n ih =>
    simp only [sum_range_succ]
    exact (ih fun i hi => h i (by omega)).add (h n (by omega))

theorem comp_le_abs (v : V3 ℝ) : |v.x| ≤ len v ∧ |v.y| ≤ len v ∧ |v.z| ≤ len v := by
  refine ⟨Real.abs_le_sqrt ?_, Real.abs_le_sqrt ?_, Real.abs_le_sqrt ?_⟩ <;> simp only [dot] <;>
    nlinarith [sq_nonneg v.x, sq_nonneg v.y, sq_nonneg v.z]

theorem lips_x {i : ℕ} (hi : i < L) : Lips L fun S => (S i).x :=
  ⟨1, fun _ _ _ u u' _ hc => ⟨(comps_le_one (u i hi)).1, (comps_le_one (u' i hi)).1,
    ((comp_le_abs (Spec.sub _ _)).1.trans (hc i hi)).trans (by linarith)⟩⟩
theorem lips_y {i : ℕ} (hi : i < L) : Lips L fun S => (S i).y :=
  ⟨1, fun _ _ _ u u' _ hc => ⟨(comps_le_one (u i hi)).2.1, (comps_le_one (u' i hi)).2.1,
    ((comp_le_abs (Spec.sub _ _)).2.1.trans (hc i hi)).trans (by linarith)⟩⟩
theorem lips_z {i : ℕ} (hi : i < L) : Lips L fun S => (S i).z :=
  ⟨1, fun _ _ _ u u' _ hc => ⟨(comps_le_one (u i hi)).2.2, (comps_le_one (u' i hi)).2.2,
    ((comp_le_abs (Spec.sub _ _)).2.2.trans (hc i hi)).trans (by linarith)⟩⟩

/-- polynomials of the spins are Lipschitz -/
macro "lips" : tactic => `(tactic| repeat' first
  | with_reducible refine Lips.const _
  | with_reducible refine lips_x ?_
  | with_reducible refine lips_y ?_
  | with_reducible refine lips_z ?_
  | with_reducible refine Lips.add ?_ ?_
  | with_reducible refine Lips.sub ?_ ?_
  | with_reducible refine Lips.mul ?_ ?_
  | with_reducible refine Lips.neg ?_
  | assumption
  | with_reducible refine lt_left ?_
  | with_reducible refine lt_right ?_)

theorem lips_energy (J B : ℕ → V3 ℝ) : Lips L fun S => ringEnergy L S J B := by
  refine Lips.sum fun i hi => ?_
  have : (i + 1) % L < L := Nat.mod_lt _ (by omega)
  simp only [dot, had]
  lips

theorem lips_torque (hs : s ≤ L) (J B : ℕ → V3 ℝ) : (Lips L fun S => (drivenTorque L s S J B).x) ∧
    Lips L fun S => (drivenTorque L s S J B).y := by
  refine ⟨Lips.sum fun i hi => ?_, Lips.sum fun i hi => ?_⟩ <;>
  · have hi : i < L := lt_of_lt_of_le hi hs
    simp only [cross, omega, Spec.add, Spec.sub, had]
    lips

/-- the effective energy is Lipschitz, uniformly in the time -/
theorem lips_effective (hs : s ≤ L) (J B : ℕ → V3 ℝ) (om e : ℝ) (ho : 0 < om) : ∃ K, 0 ≤ K ∧
    ∀ (S S' : ℕ → V3 ℝ) (δ t : ℝ), (∀ i < L, len (S i) = 1) → (∀ i < L, len (S' i) = 1) → 0 ≤ δ →
    (∀ i < L, len (sub (S i) (S' i)) ≤ δ) → |effectiveE L s om e t S J B - effectiveE L s om e t S' J B| ≤ K * δ := by
  obtain ⟨K1, h1⟩ := lips_energy (L := L) J B
  obtain ⟨K2, h2⟩ := (lips_torque hs J B).1
  obtain ⟨K3, h3⟩ := (lips_torque hs J B).2
  obtain ⟨K4, h4⟩ := Lips.sum (n := s) (L := L) (F := fun i S => (S i).z) (fun i hi => lips_z (by omega))
  refine ⟨max 0 (K1 + (K2 + |e| * K3) / om + |e| / (2 * om) * K4), le_max_left _ _, fun S S' δ t u u' hδ hc => ?_⟩
  refine le_trans ?_ (mul_le_mul_of_nonneg_right (le_max_right _ _) hδ)
  have a1 := (h1 S S' δ u u' hδ hc).2.2
  have a2 := (h2 S S' δ u u' hδ hc).2.2
  have a3 := (h3 S S' δ u u' hδ hc).2.2
  have a4 := (h4 S S' δ u u' hδ hc).2.2
  set N := drivenTorque L s S J B
  set N' := drivenTorque L s S' J B
  have e1 : effectiveE L s om e t S J B - effectiveE L s om e t S' J B
      = (ringEnergy L S J B - ringEnergy L S' J B)
        + (Real.sin (om * t) * (N.x - N'.x) + (-e * (Real.cos (om * t) * (N.y - N'.y)))) / om
        + -(e / (2 * om)) * (∑ i ∈ range s, (S i).z - ∑ i ∈ range s, (S' i).z) := by
    unfold effectiveE
    ring
  rw [e1]
  have b2 : |Real.sin (om * t) * (N.x - N'.x)| ≤ K2 * δ := by
    rw [abs_mul]
    nlinarith [Real.abs_sin_le_one (om * t), abs_nonneg (N.x - N'.x), abs_nonneg (Real.sin (om * t))]
  have b3 : |-e * (Real.cos (om * t) * (N.y - N'.y))| ≤ |e| * (K3 * δ) := by
    rw [abs_mul, abs_neg, abs_mul]
    refine mul_le_mul_of_nonneg_left ?_ (abs_nonneg e)
    nlinarith [Real.abs_cos_le_one (om * t), abs_nonneg (N.y - N'.y), abs_nonneg (Real.cos (om * t))]
  have b23 : |(Real.sin (om * t) * (N.x - N'.x) + (-e * (Real.cos (om * t) * (N.y - N'.y)))) / om|
      ≤ (K2 * δ + |e| * (K3 * δ)) / om := by
    rw [abs_div, abs_of_pos ho]
    gcongr
    exact (abs_add_le _ _).trans (add_le_add b2 b3)
  have b4 : |-(e / (2 * om)) * (∑ i ∈ range s, (S i).z - ∑ i ∈ range s, (S' i).z)| ≤ |e| / (2 * om) * (K4 * δ) := by
    rw [abs_mul, abs_neg, abs_div, abs_of_pos (by positivity : 0 < 2 * om)]
    gcongr
  refine (abs_add_le _ _).trans ((add_le_add ((abs_add_le _ _).trans (add_le_add a1 b23)) b4).trans (le_of_eq ?_))
  ring

end

/-- C120, the program: the energy reported for the static fields (`mc_total_energy`) changes during `n` updates by at
most `K τ (1 + n dt)`, up to an error of second order in the time-step.  The constant `K` is the same for all periods,
time-steps, numbers of updates and initial spins; `K'` depends on the period and on the length `T` of the run. -/
theorem C120_program (c0 : SpinChain ℝ) (L s : ℕ) (hL : 2 ≤ L) (he : L % 2 = 0) (hs : s ≤ L) (ho : Oscillating c0.vars) :
    ∃ K, 0 ≤ K ∧ ∀ tau T, 0 < tau → ∃ K', 0 ≤ K' ∧ ∀ (c c' : SpinChain ℝ) (n : ℕ) (e e' : ℝ), WF c L s →
      SameUpToPeriod c0 c → c.vars.tau = tau → (∀ x ∈ c.spins, IsUnit3 x) → 0 < c.vars.dt → n * c.vars.dt ≤ T →
      RegularRun c L s n → c.updates n = .ok c' → c.mc_total_energy = .ok e → c'.mc_total_energy = .ok e' →
      |e' - e| ≤ K * tau * (1 + n * c.vars.dt) + K' * c.vars.dt ^ 2 ∧
      |effectiveE L s (2 * Real.pi / tau) (ell c0.vars) c'.t (S c') (J c) (H0 c)
        - effectiveE L s (2 * Real.pi / tau) (ell c0.vars) c.t (S c) (J c) (H0 c)|
        ≤ K * tau ^ 2 * (1 + n * c.vars.dt) + K' * c.vars.dt ^ 2 := by
  obtain ⟨K1, hK1, h1⟩ := C120_fast c0 L s hs ho
  obtain ⟨K2, hK2, h2⟩ := C120_effective c0 L s hs ho
  refine ⟨K1 + K2, by positivity, fun tau T htau => ?_⟩
  obtain ⟨Kg, hKg, hg⟩ := C85_global { c0 with vars := { c0.vars with tau } } L s T hL he
  obtain ⟨Ke, hE⟩ := lips_energy (L := L) (J c0) (H0 c0)
  obtain ⟨Kf, hKf, hF⟩ := lips_effective (L := L) hs (J c0) (H0 c0) (2 * Real.pi / tau) (ell c0.vars)
    (by have := Real.pi_pos; positivity)
  refine ⟨max 0 Ke * Kg + Kf * Kg, by positivity, fun c c' n e e' w hc hct hu h0 hn hr hup hm hm' => ?_⟩
  have hT : 0 ≤ T := le_trans (by positivity) hn
  have hsame : SameSystem { c0 with vars := { c0.vars with tau } } c := by
    refine ⟨hc.j, hc.h, ?_⟩
    have := hc.v
    rw [hct] at this
    exact this
  obtain ⟨X, hX0, hX⟩ := C85_exists c L s w hu T
  have hX' : Motion c L s X c.t (c.t + T) := fun t h1 h2 => hX t (by linarith) h2
  have hcl := hg c c' X n w hsame hu h0 hn hr hX0 hX' hup
  have ht := C25_time c c' n hup
  have hnd : 0 ≤ n * c.vars.dt := by positivity
  have t1 : c.t ≤ c'.t := by rw [ht]; linarith
  have t2 : c'.t ≤ c.t + T := by rw [ht]; linarith
  have hXu : ∀ i < L, len (X c.t i) = 1 := fun i hi => by rw [hX0 i hi]; exact unit_of w hu hi
  obtain ⟨w', u'⟩ := updates_unit w hL hu hr hup
  obtain ⟨f1, f2, f3, -⟩ := updates_frame hup
  have hXe : ∀ i < L, len (X c'.t i) = 1 := fun i hi => by rw [motion_len hX' t1 t2 hi, hXu i hi]
  have hd : 0 ≤ Kg * c.vars.dt ^ 2 := by positivity
  have hRing : ringEnergy L (X c.t) (J c) (H0 c) = ringEnergy L (S c) (J c) (H0 c) := by
    unfold ringEnergy
    refine sum_congr rfl fun i hi => ?_
    rw [hX0 i (mem_range.1 hi), hX0 _ (Nat.mod_lt _ (by omega))]
  have hEff : effectiveE L s (2 * Real.pi / tau) (ell c0.vars) c.t (X c.t) (J c) (H0 c)
      = effectiveE L s (2 * Real.pi / tau) (ell c0.vars) c.t (S c) (J c) (H0 c) := by
    have := hF (X c.t) (S c) 0 c.t hXu (fun i hi => unit_of w hu hi) le_rfl
      (fun i hi => by rw [hX0 i hi]; simp [len, Spec.sub, dot])
    rw [mul_zero, same_J' hc |>.symm, same_H0' hc |>.symm] at this
    have := abs_nonpos_iff.1 this
    linarith
  have hJ : J c = J c0 := same_J' hc
  have hH : H0 c = H0 c0 := same_H0' hc
  have hU' : ∀ i < L, len (S c' i) = 1 := fun i hi => unit_of w' u' hi
  rw [C25_time c c' n hup] at hcl t1 t2
  have tn : c.t + n * c.vars.dt - c.t = n * c.vars.dt := by ring
  constructor
  · rw [mc_total_energy_eq w (by omega)] at hm
    rw [mc_total_energy_eq w' (by omega)] at hm'
    have g1 := h1 c X c.t (c.t + T) (c.t + n * c.vars.dt) hc (by rw [hct]; exact htau) hXu hX' t1 t2
    rw [hRing, hct, tn] at g1
    have g2 := (hE (S c') (X (c.t + n * c.vars.dt)) _ hU' (by rw [← ht]; exact hXe) hd hcl).2.2
    rw [← hJ, ← hH] at g2
    have hj' : J c' = J c := J_congr f1
    have hh' : H0 c' = H0 c := by funext i; unfold H0; rw [f2]
    rw [hj', hh'] at hm'
    cases hm
    cases hm'
    have hL0 : (1 : ℝ) ≤ L := by exact_mod_cast (by omega : 1 ≤ L)
    have e3 : |ringEnergy L (S c') (J c) (H0 c) / L - ringEnergy L (S c) (J c) (H0 c) / L|
        ≤ |ringEnergy L (S c') (J c) (H0 c) - ringEnergy L (S c) (J c) (H0 c)| := by
      rw [← sub_div, abs_div, abs_of_pos (by linarith : (0 : ℝ) < L)]
      exact div_le_self (abs_nonneg _) hL0
    refine e3.trans ?_
    rw [show ringEnergy L (S c') (J c) (H0 c) - ringEnergy L (S c) (J c) (H0 c)
      = (ringEnergy L (S c') (J c) (H0 c) - ringEnergy L (X (c.t + n * c.vars.dt)) (J c) (H0 c))
        + (ringEnergy L (X (c.t + n * c.vars.dt)) (J c) (H0 c) - ringEnergy L (S c) (J c) (H0 c)) by ring]
    refine (abs_add_le _ _).trans ?_
    have k1 : Ke * (Kg * c.vars.dt ^ 2) ≤ max 0 Ke * (Kg * c.vars.dt ^ 2) :=
      mul_le_mul_of_nonneg_right (le_max_right _ _) hd
    have k2 : 0 ≤ K2 * tau * (1 + n * c.vars.dt) := by positivity
    have k3 : 0 ≤ Kf * Kg * c.vars.dt ^ 2 := by positivity
    nlinarith
  · have g1 := h2 c X c.t (c.t + T) (c.t + n * c.vars.dt) hc (by rw [hct]; exact htau) hXu hX' t1 t2
    rw [hct, hEff, tn] at g1
    have g2 := hF (S c') (X (c.t + n * c.vars.dt)) _ (c.t + n * c.vars.dt) hU' (by rw [← ht]; exact hXe) hd hcl
    rw [← hJ, ← hH] at g2
    rw [ht]
    have := abs_add_le (effectiveE L s (2 * Real.pi / tau) (ell c0.vars) (c.t + n * c.vars.dt) (S c') (J c) (H0 c)
        - effectiveE L s (2 * Real.pi / tau) (ell c0.vars) (c.t + n * c.vars.dt) (X (c.t + n * c.vars.dt)) (J c) (H0 c))
      (effectiveE L s (2 * Real.pi / tau) (ell c0.vars) (c.t + n * c.vars.dt) (X (c.t + n * c.vars.dt)) (J c) (H0 c)
        - effectiveE L s (2 * Real.pi / tau) (ell c0.vars) c.t (S c) (J c) (H0 c))
    rw [sub_add_sub_cancel] at this
    refine this.trans ?_
    have k2 : 0 ≤ K1 * tau ^ 2 * (1 + n * c.vars.dt) := by positivity
    have k3 : 0 ≤ max 0 Ke * Kg * c.vars.dt ^ 2 := by positivity
    nlinarith

/-- the hypotheses of `C120_program` are met by the demonstration chain, for ten steps -/
example : 2 ≤ 4 ∧ 4 % 2 = 0 ∧ 2 ≤ 4 ∧ Oscillating demo.vars ∧ WF demo 4 2 ∧ SameUpToPeriod demo demo ∧ 0 < demo.vars.tau ∧
    (∀ x ∈ demo.spins, IsUnit3 x) ∧ 0 < demo.vars.dt ∧ RegularRun demo 4 2 10 :=
  ⟨by norm_num, by norm_num, by norm_num, Or.inl rfl, demo_wf, ⟨rfl, rfl, rfl⟩, by norm_num [demo, demoVars], demo_unit,
    by norm_num [demo, demoVars], demo_regular 10⟩

end Verif.Props
