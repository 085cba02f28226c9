/-
C120, continued: the energies of the Magnus samplers against the driven motion (/repo/src/spinchain.rs
`metropolis_update_magnus`, `metropolis_update_mag_full`, `metropolis_update_maglab`).
-/
import Verif.Props.FastDrive
import Mathlib.MeasureTheory.Integral.IntervalIntegral.FundThmCalculus
import Mathlib.Analysis.Real.Pi.Bounds

set_option linter.unusedSectionVars false

namespace Verif.Props

open Spec Finset

/-- a quantity that is not at rest without the drive moves by a finite amount, however fast the drive -/
theorem drift_lower {c0 : SpinChain ℝ} {L s : ℕ} {G D : (ℕ → V3 ℝ) → ℝ} (ho : Oscillating c0.vars) {K : ℝ} (hK : 0 ≤ K)
    (h : ∀ (c : SpinChain ℝ) (X : ℝ → ℕ → V3 ℝ) (a b : ℝ), DrivenMotion c0 L s c X a b → ∀ t, a ≤ t → t ≤ b →
      |G (X t) - G (X a) - D (X a) * (t - a)| ≤ K * (t - a) ^ 2 + K * c.vars.tau * (1 + (t - a)))
    {S0 : ℕ → V3 ℝ} (hu : ∀ i < L, len (S0 i) = 1) (hcongr : ∀ S, (∀ i < L, S i = S0 i) → D S = D S0) (hD : D S0 ≠ 0) :
    ∃ T tau0 : ℝ, 0 < T ∧ T ≤ 1 ∧ 0 < tau0 ∧ tau0 ≤ 1 ∧ ∀ (c : SpinChain ℝ) (X : ℝ → ℕ → V3 ℝ), SameUpToPeriod c0 c →
      0 < c.vars.tau → c.vars.tau ≤ tau0 → (∀ i < L, X c.t i = S0 i) → Motion c L s X c.t (c.t + T) →
      ∃ n : ℕ, n * c.vars.tau ≤ T ∧ |D S0| * T / 4 ≤ |G (X (c.t + n * c.vars.tau)) - G (X c.t)| := by
  have hd : 0 < |D S0| := abs_pos.2 hD
  set d := |D S0|
  let T := min 1 (d / (4 * (K + 1)))
  have hT : 0 < T := by positivity
  have hT1 : T ≤ 1 := min_le_left _ _
  have hKT : K * T ≤ d / 4 := by
    have : T ≤ d / (4 * (K + 1)) := min_le_right _ _
    rw [le_div_iff₀ (by positivity)] at this
    nlinarith
  refine ⟨T, min (T / 2) (d * T / (16 * (K + 1))), hT, hT1, by positivity,
    (min_le_left _ _).trans (by linarith), fun c X hc ht0 ht hX0 hX => ?_⟩
  have ht1 : c.vars.tau ≤ T / 2 := ht.trans (min_le_left _ _)
  have ht2 : K * c.vars.tau ≤ d * T / 16 := by
    have := ht.trans (min_le_right _ _)
    rw [le_div_iff₀ (by positivity)] at this
    nlinarith
  have hn1 : (⌊T / c.vars.tau⌋₊ : ℝ) * c.vars.tau ≤ T := by
    have := Nat.floor_le (by positivity : 0 ≤ T / c.vars.tau)
    rwa [le_div_iff₀ ht0] at this
  have hn2 : T / 2 ≤ (⌊T / c.vars.tau⌋₊ : ℝ) * c.vars.tau := by
    have := Nat.lt_floor_add_one (T / c.vars.tau)
    rw [div_lt_iff₀ ht0] at this
    linarith
  refine ⟨⌊T / c.vars.tau⌋₊, hn1, ?_⟩
  set y : ℝ := (⌊T / c.vars.tau⌋₊ : ℝ) * c.vars.tau
  have hm : DrivenMotion c0 L s c X c.t (c.t + T) := ⟨hc, ho, ht0, fun i hi => by rw [hX0 i hi]; exact hu i hi, hX⟩
  have := h c X c.t (c.t + T) hm (c.t + y) (by linarith) (by linarith)
  rw [add_sub_cancel_left, hcongr (X c.t) hX0] at this
  have e1 : d * y = |D S0 * y| := by rw [abs_mul, abs_of_nonneg (by linarith : 0 ≤ y)]
  have e2 : |D S0 * y| ≤ |G (X (c.t + y)) - G (X c.t)| + |G (X (c.t + y)) - G (X c.t) - D S0 * y| := by
    have := abs_sub (G (X (c.t + y)) - G (X c.t)) (G (X (c.t + y)) - G (X c.t) - D S0 * y)
    rwa [sub_sub_cancel] at this
  have y0 : 0 ≤ y := by linarith
  have e3 : K * y ^ 2 ≤ d / 4 * y := by
    have : K * y ≤ d / 4 := (mul_le_mul_of_nonneg_left hn1 hK).trans hKT
    nlinarith
  have e4 : K * c.vars.tau * (1 + y) ≤ d * T / 16 * 2 := by
    have : 0 ≤ K * c.vars.tau := by positivity
    nlinarith
  have e5 : d * (T / 2) ≤ d * y := mul_le_mul_of_nonneg_left hn2 hd.le
  linarith

/-- `Σ_driven (k S^z + 2 y·((J S) × S))`, the first-order term of the Magnus energies of the code -/
def magnusSum (L s : ℕ) (k : ℝ) (S J : ℕ → V3 ℝ) : ℝ := ∑ i ∈ range s, (k * (S i).z + 2 * magTerm L S J i)

theorem magnusSum_eq (L s : ℕ) (k : ℝ) (S J : ℕ → V3 ℝ) :
    magnusSum L s k S J = k * ∑ i ∈ range s, (S i).z - 2 * (drivenTorque L s S J (fun _ => zero)).y := by
  unfold magnusSum
  rw [sum_add_distrib, ← mul_sum, ← mul_sum, sub_eq_add_neg, ← mul_neg]
  congr 2
  simp only [drivenTorque]
  rw [← sum_neg_distrib]
  refine sum_congr rfl fun i _ => ?_
  simp only [magTerm, cross, omega, Spec.add, Spec.sub, had, zero]
  ring

/-- rate of change of `magnusSum` without the drive -/
def magnusRate (c0 : SpinChain ℝ) (L s : ℕ) (k : ℝ) (S : ℕ → V3 ℝ) : ℝ :=
  k * (drivenTorque L s S (J c0) (H0 c0)).z - 2 * (tqFree c0 L s S).y

theorem ring_congr {L : ℕ} {S S' J B : ℕ → V3 ℝ} (h : ∀ i < L, S i = S' i) : ringEnergy L S J B = ringEnergy L S' J B :=
  sum_congr rfl fun i hi => by rw [h i (mem_range.1 hi), h _ (Nat.mod_lt _ (by have := mem_range.1 hi; omega))]

theorem omega_congr' {L : ℕ} {S S' J B : ℕ → V3 ℝ} (h : ∀ i < L, S i = S' i) {i : ℕ} (hi : i < L) :
    omega L S J B i = omega L S' J B i := by
  unfold omega
  rw [h _ (lt_left hi), h _ (lt_right hi)]

theorem torque_congr {L s : ℕ} (hs : s ≤ L) {S S' J B : ℕ → V3 ℝ} (h : ∀ i < L, S i = S' i) :
    drivenTorque L s S J B = drivenTorque L s S' J B := by
  have e : ∀ i ∈ range s, cross (S i) (omega L S J B i) = cross (S' i) (omega L S' J B i) := fun i hi => by
    have hi : i < L := lt_of_lt_of_le (mem_range.1 hi) hs
    rw [h i hi, omega_congr' h hi]
  unfold drivenTorque
  congr 1 <;> exact sum_congr rfl fun i hi => by rw [e i hi]

theorem tqFree_congr {c0 : SpinChain ℝ} {L s : ℕ} (hs : s ≤ L) {S S' : ℕ → V3 ℝ} (h : ∀ i < L, S i = S' i) :
    tqFree c0 L s S = tqFree c0 L s S' := by
  have hf : ∀ i < L, free L (J c0) (H0 c0) S i = free L (J c0) (H0 c0) S' i := fun i hi => by
    unfold free
    rw [h i hi, omega_congr' h hi]
  have e : ∀ i ∈ range s, tq L (J c0) (H0 c0) S (free L (J c0) (H0 c0) S) i
      = tq L (J c0) (H0 c0) S' (free L (J c0) (H0 c0) S') i := fun i hi => by
    have hi : i < L := lt_of_lt_of_le (mem_range.1 hi) hs
    unfold tq
    rw [hf i hi, omega_congr' h hi, omega_congr' hf hi, h i hi]
  unfold tqFree
  congr 1 <;> exact sum_congr rfl fun i hi => by rw [e i hi]

theorem magnusRate_congr {c0 : SpinChain ℝ} {L s : ℕ} (hs : s ≤ L) (k : ℝ) {S S' : ℕ → V3 ℝ} (h : ∀ i < L, S i = S' i) :
    magnusRate c0 L s k S = magnusRate c0 L s k S' := by
  unfold magnusRate
  rw [torque_congr hs h, tqFree_congr hs h]

/-- `magnusRate` is what its name says: the rate at which `magnusSum` changes in the exact motion without drive -/
theorem magnusRate_spec {c0 : SpinChain ℝ} {L s : ℕ} (hs : s ≤ L) (hH : H0 c0 = fun _ => zero) (k : ℝ) (X : ℝ → ℕ → V3 ℝ)
    {a b t : ℝ} (hX : Motion { c0 with vars := { c0.vars with drive := .none } } L s X a b) (h1 : a ≤ t) (h2 : t ≤ b) :
    HasDerivAt (fun u => magnusSum L s k (X u) (J c0)) (magnusRate c0 L s k (X t)) t := by
  have hV : ∀ i < L, HasDeriv3 (fun u => X u i) (free L (J c0) (H0 c0) (X t) i) t := by
    intro i hi
    have := hX t h1 h2 i hi
    convert this using 1
    unfold free
    congr 1
    have : B { c0 with vars := { c0.vars with drive := .none } } s t = H0 c0 := by
      funext j
      unfold B
      have e : H0 { c0 with vars := { c0.vars with drive := .none } } = H0 c0 := rfl
      rw [e]
      split
      · simp [drive, Spec.add, zero]
      · rfl
    rw [this]
    rfl
  simp only [magnusSum_eq]
  rw [← hH]
  have d1 := HasDerivAt.fun_sum (u := range s) (A := fun i u => (X u i).z) (x := t)
    (fun i hi => (hV i (lt_of_lt_of_le (mem_range.1 hi) hs)).2.2)
  have d2 := HasDerivAt.fun_sum (u := range s) (A := fun i u => (cross (X u i) (omega L (X u) (J c0) (H0 c0) i)).y) (x := t)
    (fun i hi => (hasDeriv_torque hV (lt_of_lt_of_le (mem_range.1 hi) hs)).2.1)
  exact (d1.const_mul k).sub (d2.const_mul 2)

theorem magnus_drift {c0 : SpinChain ℝ} {L s : ℕ} (hs : s ≤ L) (hH : H0 c0 = fun _ => zero) (k : ℝ) :
    ∃ K, 0 ≤ K ∧ ∀ (c : SpinChain ℝ) (X : ℝ → ℕ → V3 ℝ) (a b : ℝ), DrivenMotion c0 L s c X a b → ∀ t, a ≤ t → t ≤ b →
      |magnusSum L s k (X t) (J c0) - magnusSum L s k (X a) (J c0) - magnusRate c0 L s k (X a) * (t - a)|
        ≤ K * (t - a) ^ 2 + K * c.vars.tau * (1 + (t - a)) := by
  refine slow_drift (c0 := c0) (L := L) (s := s) (G := fun S => magnusSum L s k S (J c0)) (D := magnusRate c0 L s k)
    (((Slow.const k).mul (slow_torque hs).2.2).sub ((Slow.const 2).mul (slow_free hs).2.1))
    (((Slow.const (-k * ell c0.vars)).mul (slow_mag hs).1).add ((Slow.const (2 * ell c0.vars)).mul (slow_turn hs ey).2.1))
    (((Slow.const k).mul (slow_mag hs).2.1).add ((Slow.const 2).mul (slow_turn hs ex).2.1)) ?_
  intro c X a b hm t h1 h2
  simp only [magnusSum_eq]
  rw [← hH]
  refine (((hm.deriv_mag hs h1 h2).const_mul k).sub ((hm.deriv_torque hs h1 h2).2.1.const_mul 2)).congr_deriv ?_
  simp only [magnusRate, Spec.sub, smul]
  ring

/-- C120, the energy of `metropolis_update_magnus`: unless its correction happens to be at rest in the undriven chain, it
changes by more than `δ/τ` within a fixed time, at whole periods: the faster the drive the more, while the effective energy is
conserved to order `τ²` (`C120_effective`) and the energy itself to order `τ` (`C120_fast`). -/
theorem C120_magnus_diverges (c0 : SpinChain ℝ) (L s : ℕ) (hs : s ≤ L) (ho : Oscillating c0.vars) (hH : H0 c0 = fun _ => zero)
    (k : ℝ) (hu : ∀ i < L, len (S c0 i) = 1) (hD : magnusRate c0 L s k (S c0) ≠ 0) :
    ∃ T δ tau0 : ℝ, 0 < T ∧ 0 < δ ∧ 0 < tau0 ∧ ∀ (c : SpinChain ℝ) (X : ℝ → ℕ → V3 ℝ), SameUpToPeriod c0 c →
      0 < c.vars.tau → c.vars.tau ≤ tau0 → (∀ i < L, X c.t i = S c0 i) → Motion c L s X c.t (c.t + T) →
      ∃ n : ℕ, n * c.vars.tau ≤ T ∧
        δ / c.vars.tau ≤ |magnusE L s c.vars.tau k (X (c.t + n * c.vars.tau)) (J c) - magnusE L s c.vars.tau k (X c.t) (J c)| := by
  obtain ⟨K, hK, h⟩ := magnus_drift (c0 := c0) hs hH k
  obtain ⟨K1, hK1, hE⟩ := C120_fast c0 L s hs ho
  obtain ⟨T, tau1, hT, hT1, ht1, ht1', hl⟩ := drift_lower (G := fun S => magnusSum L s k S (J c0)) ho hK h hu
    (fun S hS => magnusRate_congr hs k hS) hD
  have hd : 0 < |magnusRate c0 L s k (S c0)| := abs_pos.2 hD
  set d := |magnusRate c0 L s k (S c0)|
  refine ⟨T, d * T / 4, min tau1 (d * T / (4 * (K1 + 1))), hT, by positivity, by positivity,
    fun c X hc h0 ht hX0 hX => ?_⟩
  have ht2 : c.vars.tau ≤ tau1 := ht.trans (min_le_left _ _)
  have ht3 : K1 * c.vars.tau ≤ d * T / 4 := by
    have := ht.trans (min_le_right _ _)
    rw [le_div_iff₀ (by positivity)] at this
    nlinarith
  obtain ⟨n, hn, hg⟩ := hl c X hc h0 ht2 hX0 hX
  refine ⟨n, hn, ?_⟩
  have hn0 : 0 ≤ n * c.vars.tau := by positivity
  have he := hE c X c.t (c.t + T) (c.t + n * c.vars.tau) hc h0 (fun i hi => by rw [hX0 i hi]; exact hu i hi) hX
    (by linarith) (by linarith)
  rw [add_sub_cancel_left, same_J' hc, same_H0' hc, hH] at he
  rw [same_J' hc]
  have e1 : ∀ S, magnusE L s c.vars.tau k S (J c0)
      = ringEnergy L S (J c0) (fun _ => zero) - Real.pi / c.vars.tau * magnusSum L s k S (J c0) := fun _ => rfl
  rw [e1, e1]
  set E := ringEnergy L (X (c.t + n * c.vars.tau)) (J c0) (fun _ => zero)
  set E' := ringEnergy L (X c.t) (J c0) (fun _ => zero)
  set M := magnusSum L s k (X (c.t + n * c.vars.tau)) (J c0)
  set M' := magnusSum L s k (X c.t) (J c0)
  have a1 : |Real.pi / c.vars.tau * (M - M')| ≤ |E - Real.pi / c.vars.tau * M - (E' - Real.pi / c.vars.tau * M')| + |E - E'| := by
    rw [show Real.pi / c.vars.tau * (M - M') = (E - E') - (E - Real.pi / c.vars.tau * M - (E' - Real.pi / c.vars.tau * M')) by ring]
    refine (abs_sub _ _).trans ?_
    linarith
  rw [abs_mul, abs_of_pos (div_pos Real.pi_pos h0)] at a1
  have a2 : 3 / c.vars.tau * (d * T / 4) ≤ Real.pi / c.vars.tau * |M - M'| := by
    have := le_of_lt Real.pi_gt_three
    gcongr
  have a3 : |E - E'| ≤ 2 * (d * T / 4) := by
    have : 0 ≤ K1 * c.vars.tau := by positivity
    nlinarith
  have a4 : 2 * (d * T / 4) ≤ 2 / c.vars.tau * (d * T / 4) := by
    have h1 : (1 : ℝ) ≤ 1 / c.vars.tau := by
      rw [le_div_iff₀ h0]; linarith
    have : 0 < d * T / 4 := by positivity
    rw [show 2 / c.vars.tau * (d * T / 4) = 1 / c.vars.tau * (2 * (d * T / 4)) by ring]
    nlinarith
  have a5 : d * T / 4 / c.vars.tau = 3 / c.vars.tau * (d * T / 4) - 2 / c.vars.tau * (d * T / 4) := by ring
  linarith

/-- the first-order Magnus energy as the comments of the source have it (spinchain.rs:577, 1007):
`-Σ S J S - 1/(2ω) Σ_driven (S^z + 2 y·((J S) × S))`, with `1/(2ω) = τ/(4π)` -/
noncomputable def commentE (L s : ℕ) (tau : ℝ) (S J : ℕ → V3 ℝ) : ℝ :=
  ringEnergy L S J (fun _ => zero) - tau / (4 * Real.pi) * magnusSum L s 1 S J

/-- C120, the sign: with the prefactor `1/(2ω)` of the comments in place of `π/τ`, but the relative sign of its two terms
as in the code, the first-order energy is conserved to first order in the period only: it changes by more than `δ τ`. -/
theorem C120_comment_sign (c0 : SpinChain ℝ) (L s : ℕ) (hs : s ≤ L) (ho : c0.vars.drive = .xyplane)
    (hH : H0 c0 = fun _ => zero) (hu : ∀ i < L, len (S c0 i) = 1) (hD : magnusRate c0 L s 0 (S c0) ≠ 0) :
    ∃ T δ tau0 : ℝ, 0 < T ∧ 0 < δ ∧ 0 < tau0 ∧ ∀ (c : SpinChain ℝ) (X : ℝ → ℕ → V3 ℝ), SameUpToPeriod c0 c →
      0 < c.vars.tau → c.vars.tau ≤ tau0 → c.t = 0 → (∀ i < L, X 0 i = S c0 i) → Motion c L s X 0 T →
      ∃ n : ℕ, n * c.vars.tau ≤ T ∧
        δ * c.vars.tau ≤ |commentE L s c.vars.tau (X (n * c.vars.tau)) (J c) - commentE L s c.vars.tau (X 0) (J c)| := by
  have hosc : Oscillating c0.vars := Or.inl ho
  obtain ⟨K, hK, h⟩ := magnus_drift (c0 := c0) hs hH 0
  obtain ⟨K1, hK1, hE⟩ := C120_effective c0 L s hs hosc
  obtain ⟨T, tau1, hT, hT1, ht1, ht1', hl⟩ := drift_lower (G := fun S => magnusSum L s 0 S (J c0)) hosc hK h hu
    (fun S hS => magnusRate_congr hs 0 hS) hD
  have hd : 0 < |magnusRate c0 L s 0 (S c0)| := abs_pos.2 hD
  set d := |magnusRate c0 L s 0 (S c0)|
  have hpi := Real.pi_pos
  refine ⟨T, d * T / (16 * Real.pi), min tau1 (d * T / (32 * Real.pi * (K1 + 1))), hT, by positivity, by positivity,
    fun c X hc h0 ht hct hX0 hX => ?_⟩
  have ht2 : c.vars.tau ≤ tau1 := ht.trans (min_le_left _ _)
  have ht3 : 2 * K1 * c.vars.tau ≤ d * T / (16 * Real.pi) := by
    have := ht.trans (min_le_right _ _)
    rw [le_div_iff₀ (by positivity)] at this
    rw [le_div_iff₀ (by positivity)]
    have : 0 ≤ Real.pi * c.vars.tau := by positivity
    nlinarith
  obtain ⟨n, hn, hg⟩ := hl c X hc h0 ht2 (by rwa [hct]) (by rwa [hct, zero_add])
  rw [hct, zero_add] at hg
  refine ⟨n, hn, ?_⟩
  have hn0 : 0 ≤ n * c.vars.tau := by positivity
  have he := hE c X 0 T (n * c.vars.tau) hc h0 (fun i hi => by rw [hX0 i hi]; exact hu i hi) hX hn0 hn
  rw [sub_zero, same_J' hc, same_H0' hc, hH] at he
  have w1 := effectiveE_whole (L := L) (s := s) c.vars.tau (ell c0.vars) (n : ℤ) h0.ne' (X (n * c.vars.tau)) (J c0)
  have w2 := effectiveE_whole (L := L) (s := s) c.vars.tau (ell c0.vars) 0 h0.ne' (X 0) (J c0)
  rw [Int.cast_natCast] at w1
  rw [Int.cast_zero, zero_mul] at w2
  have hell : ell c0.vars = 1 := by simp [ell, ho]
  rw [w1, w2, hell] at he
  rw [same_J' hc]
  -- the two energies differ by twice the torque term
  have e1 : ∀ S, commentE L s c.vars.tau S (J c0) = (ringEnergy L S (J c0) (fun _ => zero)
      - 1 * c.vars.tau / (4 * Real.pi) * ∑ i ∈ range s, ((S i).z - 2 * magTerm L S (J c0) i))
      - c.vars.tau / (2 * Real.pi) * magnusSum L s 0 S (J c0) := by
    intro S
    unfold commentE magnusSum
    rw [sum_add_distrib, sum_sub_distrib, sum_add_distrib, ← mul_sum, ← mul_sum, ← mul_sum]
    ring
  rw [e1, e1]
  generalize (ringEnergy L (X (n * c.vars.tau)) (J c0) (fun _ => zero)
      - 1 * c.vars.tau / (4 * Real.pi) * ∑ i ∈ range s, ((X (n * c.vars.tau) i).z - 2 * magTerm L (X (n * c.vars.tau)) (J c0) i)) = F at *
  generalize (ringEnergy L (X 0) (J c0) (fun _ => zero)
      - 1 * c.vars.tau / (4 * Real.pi) * ∑ i ∈ range s, ((X 0 i).z - 2 * magTerm L (X 0) (J c0) i)) = F' at *
  generalize magnusSum L s 0 (X (n * c.vars.tau)) (J c0) = M at *
  generalize magnusSum L s 0 (X 0) (J c0) = M' at *
  have a1 : |c.vars.tau / (2 * Real.pi) * (M - M')|
      ≤ |F - c.vars.tau / (2 * Real.pi) * M - (F' - c.vars.tau / (2 * Real.pi) * M')| + |F - F'| := by
    rw [show c.vars.tau / (2 * Real.pi) * (M - M')
      = (F - F') - (F - c.vars.tau / (2 * Real.pi) * M - (F' - c.vars.tau / (2 * Real.pi) * M')) by ring]
    refine (abs_sub _ _).trans ?_
    linarith
  rw [abs_mul, abs_of_pos (by positivity : 0 < c.vars.tau / (2 * Real.pi))] at a1
  have a2 : c.vars.tau / (2 * Real.pi) * (d * T / 4) ≤ c.vars.tau / (2 * Real.pi) * |M - M'| :=
    mul_le_mul_of_nonneg_left hg (by positivity)
  have a3 : |F - F'| ≤ d * T / (16 * Real.pi) * c.vars.tau := by
    refine he.trans ?_
    have k1 : 0 ≤ K1 * c.vars.tau ^ 2 := by positivity
    have k2 : K1 * c.vars.tau ^ 2 * (1 + n * c.vars.tau) ≤ K1 * c.vars.tau ^ 2 * 2 :=
      mul_le_mul_of_nonneg_left (by linarith) k1
    have k3 : 2 * K1 * c.vars.tau * c.vars.tau ≤ d * T / (16 * Real.pi) * c.vars.tau :=
      mul_le_mul_of_nonneg_right ht3 h0.le
    nlinarith
  have a4 : c.vars.tau / (2 * Real.pi) * (d * T / 4) = d * T / (16 * Real.pi) * c.vars.tau * 2 := by
    field_simp; norm_num
  linarith

/-- The sign of the comments belongs to the middle of a period, when the driving field points along `-x`: there `commentE` is
the effective energy of `C120_effective`, so conserved to order `τ²`. The program's runs begin at the time 0. -/
theorem C120_comment_half (L s : ℕ) (tau : ℝ) (n : ℕ) (ht : tau ≠ 0) (S J : ℕ → V3 ℝ) :
    effectiveE L s (2 * Real.pi / tau) 1 ((n + 1 / 2) * tau) S J (fun _ => zero) = commentE L s tau S J := by
  have e1 : 2 * Real.pi / tau * ((n + 1 / 2) * tau) = Real.pi + n * (2 * Real.pi) := by field_simp; ring
  unfold effectiveE commentE
  rw [e1, Real.sin_add_nat_mul_two_pi, Real.cos_add_nat_mul_two_pi, Real.sin_pi, Real.cos_pi, magnusSum_eq]
  have := Real.pi_ne_zero
  field_simp
  ring

/-! ### the second-order sampler -/

/-- C120, `metropolis_update_mag_full`: in the interior of the driven region the energy differences it uses are those of
`commentE` (with the sign that is wrong by `C120_comment_sign`), up to terms of second order in the period. -/
theorem C120_mag_full (L s i : ℕ) (hL : 3 ≤ L) (hs : s ≤ L) (hi : i < s) (hl : left L i < s) (hr : right L i < s)
    (Sp J : ℕ → V3 ℝ) (v : V3 ℝ) : ∃ r : ℝ, ∀ tau : ℝ, tau ≠ 0 →
      magFullSiteE (2 * Real.pi / tau) L s i (Function.update Sp i v) J - magFullSiteE (2 * Real.pi / tau) L s i Sp J
        = commentE L s tau (Function.update Sp i v) J - commentE L s tau Sp J + r * tau ^ 2 := by
  have hiL : i < L := by omega
  refine ⟨(SpinChain.magFullEi2 (nb L (Function.update Sp i v) J i) - SpinChain.magFullEi2 (nb L Sp J i)) / (4 * Real.pi ^ 2),
    fun tau ht => ?_⟩
  have hpi := Real.pi_ne_zero
  have h := ringEnergy_replace (by omega) hiL Sp J (fun _ => zero) v
  have hext : ∀ f : ℕ → ℝ, ∑ k ∈ range s, f k = ∑ k ∈ range L, if k < s then f k else 0 := by
    intro f
    rw [← sum_filter]
    apply sum_congr _ (fun _ _ => rfl)
    ext k
    simp only [mem_range, mem_filter]
    omega
  have hm : magnusSum L s 1 (Function.update Sp i v) J - magnusSum L s 1 Sp J
      = (v.z - (Sp i).z) + 2 * ((magTerm L (Function.update Sp i v) J (left L i) - magTerm L Sp J (left L i))
          + (magTerm L (Function.update Sp i v) J i - magTerm L Sp J i)
          + (magTerm L (Function.update Sp i v) J (right L i) - magTerm L Sp J (right L i))) := by
    unfold magnusSum
    rw [hext, hext, sum_three hL hiL]
    · rw [if_pos hi, if_pos hi, if_pos hl, if_pos hl, if_pos hr, if_pos hr, Function.update_self,
        Function.update_of_ne (left_ne (by omega) hiL), Function.update_of_ne (right_ne (by omega) hiL)]
      ring
    · intro k _ h1 h2 h3
      rw [magTerm_local Sp J v h1 h2 h3, Function.update_of_ne h1]
  have key : commentE L s tau (Function.update Sp i v) J - commentE L s tau Sp J
      = -dot (omega L Sp J (fun _ => zero) i) (Spec.sub v (Sp i)) - tau / (4 * Real.pi) * (magnusSum L s 1 (Function.update Sp i v) J
          - magnusSum L s 1 Sp J) := by
    rw [← h]
    unfold commentE
    ring
  rw [key, hm]
  unfold magFullSiteE SpinChain.magFullEi
  rw [decide_eq_true hi]
  simp only [if_true]
  have e2 : ∀ x : ℝ, x / (2 * Real.pi / tau * (2 * Real.pi / tau)) = x / (4 * Real.pi ^ 2) * tau ^ 2 := by
    intro x; field_simp; norm_num
  have e1 : ∀ x : ℝ, x / (2 * Real.pi / tau) = x * (tau / (2 * Real.pi)) := by
    intro x; field_simp
  have e3 : tau / (4 * Real.pi) = tau / (2 * Real.pi) / 2 := by field_simp; norm_num
  rw [e1, e1, e2, e2, e3]
  generalize SpinChain.magFullEi2 (nb L (Function.update Sp i v) J i) = a
  generalize SpinChain.magFullEi2 (nb L Sp J i) = b
  simp only [SpinChain.magFullEi0, SpinChain.magFullEi1, nb, for3,
    V3.get_zero, V3.get_one, V3.get_two, omega, dot, had, Spec.sub, Spec.add, lit_0, lit_2, zero,
    magTerm, right_left hiL, left_right hiL, Function.update_self,
    Function.update_of_ne (left_ne (by omega) hiL), Function.update_of_ne (right_ne (by omega) hiL),
    Function.update_of_ne (left_left_ne hL hiL), Function.update_of_ne (right_right_ne hL hiL)]
  ring

/-! ### means over a period -/

theorem energy_le (a b e : ℝ) {p q K K' : ℝ} (hp : |p| ≤ K) (hq : |q| ≤ K') : |Real.cos a * p + e * Real.sin b * q| ≤ K + |e| * K' := by
  refine (abs_add_le _ _).trans (add_le_add ?_ ?_)
  · rw [abs_mul]
    nlinarith [Real.abs_cos_le_one a, abs_nonneg (Real.cos a), abs_nonneg p]
  · rw [abs_mul, abs_mul, mul_assoc]
    refine mul_le_mul_of_nonneg_left ?_ (abs_nonneg e)
    nlinarith [Real.abs_sin_le_one b, abs_nonneg (Real.sin b), abs_nonneg q]

/-- The mean over a period of `E₀ - e/(2ω) Σ_driven S^z` is the effective energy at its beginning, to second order in the
period. -/
theorem mean_effective (c0 : SpinChain ℝ) (L s : ℕ) (hs : s ≤ L) (ho : Oscillating c0.vars) :
    ∃ K, 0 ≤ K ∧ ∀ (c : SpinChain ℝ) (X : ℝ → ℕ → V3 ℝ) (a b t : ℝ), DrivenMotion c0 L s c X a b → a ≤ t → t + c.vars.tau ≤ b →
      |periodMean c.vars.tau (fun u => ringEnergy L (X u) (J c0) (H0 c0)
          - ell c0.vars / (2 * (2 * Real.pi / c.vars.tau)) * ∑ i ∈ range s, (X u i).z) t
        - effectiveE L s (2 * Real.pi / c.vars.tau) (ell c0.vars) t (X t) (J c0) (H0 c0)|
      ≤ K * c.vars.tau ^ 2 * (1 + c.vars.tau) := by
  obtain ⟨K1, hK1, hF⟩ := C120_effective c0 L s hs ho
  obtain ⟨Kx, hx⟩ := (slow_torque (c0 := c0) hs).1
  obtain ⟨Ky, hy⟩ := (slow_torque (c0 := c0) hs).2.1
  set e := ell c0.vars
  refine ⟨K1 + 2 * (|Kx| + |e| * |Ky|), by positivity, fun c X a b t hm t1 t2 => ?_⟩
  have ht := hm.tau
  have hpi := Real.pi_pos
  set tau := c.vars.tau
  set w := 2 * Real.pi / tau with hw
  have hw0 : 0 < w := by positivity
  set K2 := |Kx| + |e| * |Ky|
  have hK2 : 0 ≤ K2 := by positivity
  have hw2 : 1 / w ^ 2 ≤ tau ^ 2 := by
    rw [div_le_iff₀ (by positivity), hw, ← mul_pow, mul_div_cancel₀ _ ht.ne']
    nlinarith [Real.pi_gt_three]
  let Q : ℝ → ℝ := fun u => ringEnergy L (X u) (J c0) (H0 c0) - e / (2 * w) * ∑ i ∈ range s, (X u i).z
  let F : ℝ → ℝ := fun u => effectiveE L s w e u (X u) (J c0) (H0 c0)
  let N : ℝ → V3 ℝ := fun u => drivenTorque L s (X u) (J c0) (H0 c0)
  have hN : ∀ u, a ≤ u → u ≤ b → (|deriv (fun u => (N u).x) u| ≤ |Kx| ∧ HasDerivAt (fun u => (N u).x) (deriv (fun u => (N u).x) u) u) ∧
      (|deriv (fun u => (N u).y) u| ≤ |Ky| ∧ HasDerivAt (fun u => (N u).y) (deriv (fun u => (N u).y) u) u) := by
    intro u u1 u2
    obtain ⟨-, d, x2, x3⟩ := hx c X a b hm u u1 u2
    obtain ⟨-, d', y2, y3⟩ := hy c X a b hm u u1 u2
    rw [show deriv (fun u => (N u).x) u = d from x3.deriv, show deriv (fun u => (N u).y) u = d' from y3.deriv]
    exact ⟨⟨x2.trans (le_abs_self _), x3⟩, y2.trans (le_abs_self _), y3⟩
  have hFt : ∀ u, t ≤ u → u ≤ t + tau → |F u - F t| ≤ K1 * tau ^ 2 * (1 + tau) := by
    intro u u1 u2
    have := hF c X t b u hm.same ht (fun i hi => hm.len t1 (by linarith) hi)
      (fun v v1 v2 => hm.motion v (t1.trans v1) v2) u1 (by linarith)
    rw [same_J' hm.same, same_H0' hm.same] at this
    refine this.trans (mul_le_mul_of_nonneg_left (by linarith) (by positivity))
  -- the primitive of `Q`
  have hQd : ∀ u, a ≤ u → u ≤ b → ContinuousAt Q u := by
    intro u u1 u2
    have d1 := hm.deriv_energy hs u1 u2
    have d2 := hm.deriv_mag hs u1 u2
    exact (d1.sub (d2.const_mul _)).continuousAt
  have hle : t ≤ t + tau := by linarith
  let q : ℝ → ℝ := Set.IccExtend hle (Set.domRestrict (Set.Icc t (t + tau)) Q)
  have hqc : Continuous q := by
    refine Continuous.Icc_extend' (continuousOn_iff_continuous_domRestrict.1 fun u hu => ?_)
    exact (hQd u (t1.trans hu.1) (hu.2.trans t2)).continuousWithinAt
  have hqe : ∀ u, t ≤ u → u ≤ t + tau → q u = Q u := fun u u1 u2 => Set.IccExtend_of_mem hle _ ⟨u1, u2⟩
  have hint : ∫ u in t..(t + tau), Q u = ∫ u in t..(t + tau), q u := by
    refine intervalIntegral.integral_congr fun u hu => ?_
    rw [Set.uIcc_of_le hle] at hu
    exact (hqe u hu.1 hu.2).symm
  let g : ℝ → ℝ := fun u => (Real.cos (w * u) * (N u).x + e * Real.sin (w * u) * (N u).y) / w ^ 2
  let f : ℝ → ℝ := fun u => (∫ v in t..u, q v) - F t * (u - t) - g u
  let r : ℝ → ℝ := fun u => (Real.cos (w * u) * deriv (fun u => (N u).x) u + e * Real.sin (w * u) * deriv (fun u => (N u).y) u) / w ^ 2
  have hrle : ∀ p : ℝ, |p| ≤ K2 → |p / w ^ 2| ≤ K2 * tau ^ 2 := by
    intro p hp
    rw [abs_div, abs_of_pos (by positivity : 0 < w ^ 2), div_eq_mul_one_div]
    exact mul_le_mul hp hw2 (by positivity) hK2
  have hmv : |f (t + tau) - f t| ≤ (K1 * tau ^ 2 * (1 + tau) + K2 * tau ^ 2) * (t + tau - t) := by
    refine move_le (f := f) (d := fun u => F u - F t - r u) (a := t) (b := t + tau) (fun u u1 u2 => ⟨?_, ?_⟩) hle le_rfl
    · have l1 : HasDerivAt (fun t : ℝ => w * t) w u := by simpa using (hasDerivAt_id u).const_mul w
      obtain ⟨⟨-, x1⟩, -, y1⟩ := hN u (t1.trans u1) (u2.trans t2)
      have d1 := (hqc.integral_hasStrictDerivAt t u).hasDerivAt
      have d2 := ((hasDerivAt_id u).sub_const t).const_mul (F t)
      have d3 := ((l1.cos.mul x1).add ((l1.sin.const_mul e).mul y1)).div_const (w ^ 2)
      refine ((d1.sub d2).sub d3).congr_deriv ?_
      rw [hqe u u1 u2]
      simp only [Q, F, r, effectiveE, N]
      field_simp
      ring
    · obtain ⟨⟨x1, -⟩, y1, -⟩ := hN u (t1.trans u1) (u2.trans t2)
      refine (abs_sub _ _).trans (add_le_add (hFt u u1 u2) (hrle _ (energy_le _ _ _ x1 y1)))
  have hmx : |(N (t + tau)).x - (N t).x| ≤ |Kx| * tau := by
    have := move_le (f := fun u => (N u).x) (d := fun u => deriv (fun u => (N u).x) u) (a := t) (b := t + tau) (C := |Kx|)
      (fun u u1 u2 => ⟨(hN u (t1.trans u1) (u2.trans t2)).1.2, (hN u (t1.trans u1) (u2.trans t2)).1.1⟩) hle le_rfl
    rwa [add_sub_cancel_left] at this
  have hmy : |(N (t + tau)).y - (N t).y| ≤ |Ky| * tau := by
    have := move_le (f := fun u => (N u).y) (d := fun u => deriv (fun u => (N u).y) u) (a := t) (b := t + tau) (C := |Ky|)
      (fun u u1 u2 => ⟨(hN u (t1.trans u1) (u2.trans t2)).2.2, (hN u (t1.trans u1) (u2.trans t2)).2.1⟩) hle le_rfl
    rwa [add_sub_cancel_left] at this
  have hper : w * (t + tau) = w * t + 2 * Real.pi := by rw [hw]; field_simp
  have hg : |g (t + tau) - g t| ≤ K2 * tau * tau ^ 2 := by
    have e1 : g (t + tau) - g t = (Real.cos (w * t) * ((N (t + tau)).x - (N t).x)
        + e * Real.sin (w * t) * ((N (t + tau)).y - (N t).y)) / w ^ 2 := by
      simp only [g]
      rw [hper, Real.cos_add_two_pi, Real.sin_add_two_pi]
      ring
    rw [e1, abs_div, abs_of_pos (by positivity : 0 < w ^ 2), div_eq_mul_one_div]
    refine mul_le_mul ((energy_le _ _ _ hmx hmy).trans (le_of_eq ?_)) hw2 (by positivity) (by positivity)
    simp only [K2]; ring
  have hfin : |(∫ u in t..(t + tau), Q u) - F t * tau| ≤ (K1 + 2 * K2) * tau ^ 2 * (1 + tau) * tau := by
    rw [hint]
    have e1 : (∫ u in t..(t + tau), q u) - F t * tau = (f (t + tau) - f t) + (g (t + tau) - g t) := by
      simp only [f, intervalIntegral.integral_same]
      ring
    rw [e1]
    refine (abs_add_le _ _).trans ((add_le_add hmv hg).trans ?_)
    rw [add_sub_cancel_left]
    have : 0 ≤ K2 * tau ^ 2 * tau * tau := by positivity
    nlinarith
  show |(∫ u in t..(t + tau), Q u) / tau - F t| ≤ _
  rw [show (∫ u in t..(t + tau), Q u) / tau - F t = ((∫ u in t..(t + tau), Q u) - F t * tau) / tau by field_simp,
    abs_div, abs_of_pos ht, div_le_iff₀ ht]
  exact hfin

/-- C120, means: the mean over a period of the energy in the static fields minus `e/(2ω)` times the driven magnetisation
along z changes by at most `K τ² (1 + τ + t)` in the time `t`. -/
theorem C120_mean (c0 : SpinChain ℝ) (L s : ℕ) (hs : s ≤ L) (ho : Oscillating c0.vars) :
    ∃ K, 0 ≤ K ∧ ∀ (c : SpinChain ℝ) (X : ℝ → ℕ → V3 ℝ) (a b t : ℝ), SameUpToPeriod c0 c → 0 < c.vars.tau →
      (∀ i < L, len (X a i) = 1) → Motion c L s X a b → a ≤ t → t + c.vars.tau ≤ b →
      |periodMean c.vars.tau (fun u => ringEnergy L (X u) (J c) (H0 c)
          - ell c0.vars / (2 * (2 * Real.pi / c.vars.tau)) * ∑ i ∈ range s, (X u i).z) t
        - periodMean c.vars.tau (fun u => ringEnergy L (X u) (J c) (H0 c)
          - ell c0.vars / (2 * (2 * Real.pi / c.vars.tau)) * ∑ i ∈ range s, (X u i).z) a|
      ≤ K * c.vars.tau ^ 2 * (1 + c.vars.tau + (t - a)) := by
  obtain ⟨K1, hK1, h1⟩ := C120_effective c0 L s hs ho
  obtain ⟨K2, hK2, h2⟩ := mean_effective c0 L s hs ho
  refine ⟨K1 + 2 * K2, by positivity, fun c X a b t hc ht hu hX t1 t2 => ?_⟩
  have hm : DrivenMotion c0 L s c X a b := ⟨hc, ho, ht, hu, hX⟩
  have a1 := h1 c X a b t hc ht hu hX t1 (by linarith)
  rw [same_J' hc, same_H0' hc] at a1 ⊢
  have a2 := h2 c X a b t hm t1 t2
  have a3 := h2 c X a b a hm le_rfl (by linarith)
  have h0 : 0 ≤ c.vars.tau ^ 2 := by positivity
  have b1 : 0 ≤ K1 * c.vars.tau ^ 2 * c.vars.tau := by positivity
  have b2 : 0 ≤ K2 * c.vars.tau ^ 2 * (t - a) := by have : 0 ≤ t - a := by linarith
                                                    positivity
  have := abs_le.1 a1
  have := abs_le.1 a2
  have := abs_le.1 a3
  rw [abs_le]
  constructor <;> nlinarith

theorem maglabE_eq (L : ℕ) (om : ℝ) (S J : ℕ → V3 ℝ) :
    maglabE L om 0 0 S J = ringEnergy L S J (fun _ => zero) - 1 / (2 * om) * ∑ i ∈ range L, (S i).z := by
  unfold maglabE ringEnergy
  rw [mul_sum, ← sum_sub_distrib]
  have : corr L 0 0 S J = 0 := by simp [corr]
  rw [this, zero_div, sub_zero]
  refine sum_congr rfl fun i _ => ?_
  simp only [dot, zero]
  ring

/-- C120, `metropolis_update_maglab`: if all spins are driven in the xy-plane and there are no static fields, the mean over
a period of the energy it samples is conserved to second order in the period. -/
theorem C120_maglab_partial (c0 : SpinChain ℝ) (L : ℕ) (ho : c0.vars.drive = .xyplane) (hH : H0 c0 = fun _ => zero) :
    ∃ K, 0 ≤ K ∧ ∀ (c : SpinChain ℝ) (X : ℝ → ℕ → V3 ℝ) (a b t : ℝ), SameUpToPeriod c0 c → 0 < c.vars.tau →
      (∀ i < L, len (X a i) = 1) → Motion c L L X a b → a ≤ t → t + c.vars.tau ≤ b →
      |periodMean c.vars.tau (fun u => maglabE L (2 * Real.pi / c.vars.tau) 0 0 (X u) (J c)) t
        - periodMean c.vars.tau (fun u => maglabE L (2 * Real.pi / c.vars.tau) 0 0 (X u) (J c)) a|
      ≤ K * c.vars.tau ^ 2 * (1 + c.vars.tau + (t - a)) := by
  obtain ⟨K, hK, h⟩ := C120_mean c0 L L le_rfl (Or.inl ho)
  refine ⟨K, hK, fun c X a b t hc ht hu hX t1 t2 => ?_⟩
  have := h c X a b t hc ht hu hX t1 t2
  have hell : ell c0.vars = 1 := by simp [ell, ho]
  rw [hell, same_H0' hc, hH] at this
  simp only [maglabE_eq]
  exact this

/-- the mean of a slow quantity over a period is its value at the beginning, to first order -/
theorem mean_slow {c0 : SpinChain ℝ} {L s : ℕ} {G : (ℕ → V3 ℝ) → ℝ} (h : Slow c0 L s G) :
    ∃ K, 0 ≤ K ∧ ∀ (c : SpinChain ℝ) (X : ℝ → ℕ → V3 ℝ) (a b t : ℝ), DrivenMotion c0 L s c X a b → a ≤ t → t + c.vars.tau ≤ b →
      IntervalIntegrable (fun u => G (X u)) MeasureTheory.volume t (t + c.vars.tau) ∧
      |periodMean c.vars.tau (fun u => G (X u)) t - G (X t)| ≤ K * c.vars.tau := by
  obtain ⟨K, h⟩ := h
  refine ⟨|K|, abs_nonneg _, fun c X a b t hm t1 t2 => ?_⟩
  have ht := hm.tau
  have hle : t ≤ t + c.vars.tau := by linarith
  have hd : ∀ u, t ≤ u → u ≤ t + c.vars.tau → HasDerivAt (fun u => G (X u)) (deriv (fun u => G (X u)) u) u ∧
      |deriv (fun u => G (X u)) u| ≤ |K| := by
    intro u u1 u2
    obtain ⟨-, d, x2, x3⟩ := h c X a b hm u (t1.trans u1) (u2.trans t2)
    rw [x3.deriv]
    exact ⟨x3, x2.trans (le_abs_self _)⟩
  have hc : ContinuousOn (fun u => G (X u)) (Set.uIcc t (t + c.vars.tau)) := by
    rw [Set.uIcc_of_le hle]
    exact fun u hu => (hd u hu.1 hu.2).1.continuousAt.continuousWithinAt
  have hi := hc.intervalIntegrable (μ := MeasureTheory.volume)
  refine ⟨hi, ?_⟩
  have e : periodMean c.vars.tau (fun u => G (X u)) t - G (X t) = (∫ u in t..(t + c.vars.tau), (G (X u) - G (X t))) / c.vars.tau := by
    rw [intervalIntegral.integral_sub hi (by simp), intervalIntegral.integral_const, add_sub_cancel_left, smul_eq_mul]
    unfold periodMean
    field_simp
  rw [e, abs_div, abs_of_pos ht, div_le_iff₀ ht]
  have := intervalIntegral.norm_integral_le_of_norm_le_const (a := t) (b := t + c.vars.tau) (f := fun u => G (X u) - G (X t))
    (C := |K| * c.vars.tau) fun u hu => by
      rw [Set.uIoc_of_le hle] at hu
      refine (move_le hd hu.1.le hu.2).trans (mul_le_mul_of_nonneg_left ?_ (abs_nonneg _))
      linarith [hu.2]
  rwa [add_sub_cancel_left, abs_of_pos ht] at this

/-- rate of change of the magnetisation along z of the undriven spins -/
def undrivenRate (L s : ℕ) (S J B : ℕ → V3 ℝ) : ℝ := ∑ i ∈ range (L - s), (cross (S (s + i)) (omega L S J B (s + i))).z

/-- C120, `metropolis_update_maglab` with undriven spins: it gives them the field `-1/(2ω)` too, and the mean over a period
of the energy it samples changes by more than `δ τ` unless their magnetisation happens to be at rest. -/
theorem C120_maglab_undriven (c0 : SpinChain ℝ) (L s : ℕ) (hs : s ≤ L) (ho : c0.vars.drive = .xyplane)
    (hH : H0 c0 = fun _ => zero) (hu : ∀ i < L, len (S c0 i) = 1) (hD : undrivenRate L s (S c0) (J c0) (H0 c0) ≠ 0) :
    ∃ T δ tau0 : ℝ, 0 < T ∧ 0 < δ ∧ 0 < tau0 ∧ ∀ (c : SpinChain ℝ) (X : ℝ → ℕ → V3 ℝ), SameUpToPeriod c0 c →
      0 < c.vars.tau → c.vars.tau ≤ tau0 → (∀ i < L, X c.t i = S c0 i) → Motion c L s X c.t (c.t + T + 1) →
      ∃ n : ℕ, n * c.vars.tau ≤ T ∧ δ * c.vars.tau
        ≤ |periodMean c.vars.tau (fun u => maglabE L (2 * Real.pi / c.vars.tau) 0 0 (X u) (J c)) (c.t + n * c.vars.tau)
          - periodMean c.vars.tau (fun u => maglabE L (2 * Real.pi / c.vars.tau) 0 0 (X u) (J c)) c.t| := by
  have hosc : Oscillating c0.vars := Or.inl ho
  have hell : ell c0.vars = 1 := by simp [ell, ho]
  let G : (ℕ → V3 ℝ) → ℝ := fun S => ∑ i ∈ range (L - s), (S (s + i)).z
  have hG : Slow c0 L s G := Slow.sum fun i hi => slow_z (by omega)
  have hE : ∀ r : ℝ, Slow c0 L s fun S => ringEnergy L S (J c0) (H0 c0) - r * ∑ i ∈ range s, (S i).z := fun r => by
    refine Slow.sub (Slow.sum fun i hi => ?_) ((Slow.const r).mul (slow_mag hs).2.2)
    have hi' : (i + 1) % L < L := Nat.mod_lt _ (by omega)
    simp only [dot, had]
    slow
  have hR : Slow c0 L s fun S => undrivenRate L s S (J c0) (H0 c0) := Slow.sum fun i hi => by
    have hi : s + i < L := by omega
    simp only [cross, omega, Spec.add, Spec.sub, had]
    slow
  obtain ⟨K, hK, h⟩ := slow_drift (G := G) hR (Slow.const 0) (Slow.const 0) (fun c X a b hm t t1 t2 => by
    refine (HasDerivAt.fun_sum fun i hi => (hm.deriv' t1 t2 (by have := mem_range.1 hi; omega : s + i < L)).2.2).congr_deriv ?_
    rw [mul_zero, mul_zero, add_zero, add_zero]
    refine sum_congr rfl fun i _ => ?_
    have e : ind s (s + i) = 0 := if_neg (by omega)
    simp only [free, Verif.turn, Spec.sub, smul, e]
    ring)
  obtain ⟨T, tau1, hT, hT1, ht1, ht1', hl⟩ := drift_lower (G := G) (D := fun S => undrivenRate L s S (J c0) (H0 c0)) hosc hK h hu
    (fun S' hS => sum_congr rfl fun i hi => by
      have hi : s + i < L := by have := mem_range.1 hi; omega
      rw [hS _ hi, omega_congr' hS hi]) hD
  obtain ⟨K1, hK1, hM⟩ := C120_mean c0 L s hs hosc
  obtain ⟨K2, hK2, hG'⟩ := mean_slow hG
  have hd : 0 < |undrivenRate L s (S c0) (J c0) (H0 c0)| := abs_pos.2 hD
  set d := |undrivenRate L s (S c0) (J c0) (H0 c0)|
  have hpi := Real.pi_pos
  have hpi3 := Real.pi_gt_three
  refine ⟨T, d * T / (64 * Real.pi), min tau1 (min (d * T / (16 * (K2 + 1))) (d * T / (192 * Real.pi * (K1 + 1)))), hT,
    by positivity, by positivity, fun c X hc h0 ht hX0 hX => ?_⟩
  have ht2 : c.vars.tau ≤ tau1 := ht.trans (min_le_left _ _)
  have ht3 : K2 * c.vars.tau ≤ d * T / 16 := by
    have := ht.trans ((min_le_right _ _).trans (min_le_left _ _))
    rw [le_div_iff₀ (by positivity)] at this
    rw [le_div_iff₀ (by positivity)]
    nlinarith
  have ht4 : 3 * K1 * c.vars.tau ≤ d * T / (64 * Real.pi) := by
    have := ht.trans ((min_le_right _ _).trans (min_le_right _ _))
    rw [le_div_iff₀ (by positivity)] at this
    rw [le_div_iff₀ (by positivity)]
    have : 0 ≤ Real.pi * c.vars.tau := by positivity
    nlinarith
  obtain ⟨n, hn, hg⟩ := hl c X hc h0 ht2 hX0 (fun u u1 u2 => hX u u1 (by linarith))
  refine ⟨n, hn, ?_⟩
  have hn0 : 0 ≤ n * c.vars.tau := by positivity
  have huX : ∀ i < L, len (X c.t i) = 1 := fun i hi => by rw [hX0 i hi]; exact hu i hi
  have hm : DrivenMotion c0 L s c X c.t (c.t + T + 1) := ⟨hc, hosc, h0, huX, hX⟩
  have q := hM c X c.t (c.t + T + 1) (c.t + n * c.vars.tau) hc h0 huX hX (by linarith) (by linarith)
  rw [add_sub_cancel_left, same_J' hc, same_H0' hc, hell] at q
  obtain ⟨Ke, -, hE'⟩ := mean_slow (hE (1 / (2 * (2 * Real.pi / c.vars.tau))))
  -- the mean of the sampled energy
  have split : ∀ t, c.t ≤ t → t + c.vars.tau ≤ c.t + T + 1 →
      periodMean c.vars.tau (fun u => maglabE L (2 * Real.pi / c.vars.tau) 0 0 (X u) (J c)) t
      = periodMean c.vars.tau (fun u => ringEnergy L (X u) (J c0) (H0 c0)
          - 1 / (2 * (2 * Real.pi / c.vars.tau)) * ∑ i ∈ range s, (X u i).z) t
        - c.vars.tau / (4 * Real.pi) * periodMean c.vars.tau (fun u => G (X u)) t := by
    intro t u1 u2
    obtain ⟨i1, -⟩ := hE' c X c.t (c.t + T + 1) t hm u1 u2
    obtain ⟨i2, -⟩ := hG' c X c.t (c.t + T + 1) t hm u1 u2
    have e1 : ∀ u, maglabE L (2 * Real.pi / c.vars.tau) 0 0 (X u) (J c)
        = (ringEnergy L (X u) (J c0) (H0 c0) - 1 / (2 * (2 * Real.pi / c.vars.tau)) * ∑ i ∈ range s, (X u i).z)
          - c.vars.tau / (4 * Real.pi) * G (X u) := by
      intro u
      have e2 : ∑ i ∈ range L, (X u i).z = ∑ i ∈ range s, (X u i).z + G (X u) := by
        simp only [G]
        conv_lhs => rw [show L = s + (L - s) by omega]
        exact sum_range_add _ _ _
      rw [maglabE_eq, same_J' hc, hH, e2]
      field_simp
      ring
    simp only [e1, periodMean]
    rw [intervalIntegral.integral_sub i1 (i2.const_mul _), intervalIntegral.integral_const_mul]
    ring
  rw [split _ (by linarith) (by linarith), split _ le_rfl (by linarith)]
  have g1 := (hG' c X c.t (c.t + T + 1) (c.t + n * c.vars.tau) hm (by linarith) (by linarith)).2
  have g2 := (hG' c X c.t (c.t + T + 1) c.t hm le_rfl (by linarith)).2
  generalize periodMean c.vars.tau (fun u => ringEnergy L (X u) (J c0) (H0 c0)
          - 1 / (2 * (2 * Real.pi / c.vars.tau)) * ∑ i ∈ range s, (X u i).z) (c.t + n * c.vars.tau) = P at *
  generalize periodMean c.vars.tau (fun u => ringEnergy L (X u) (J c0) (H0 c0)
          - 1 / (2 * (2 * Real.pi / c.vars.tau)) * ∑ i ∈ range s, (X u i).z) c.t = P' at *
  generalize periodMean c.vars.tau (fun u => G (X u)) (c.t + n * c.vars.tau) = M at *
  generalize periodMean c.vars.tau (fun u => G (X u)) c.t = M' at *
  generalize G (X (c.t + n * c.vars.tau)) = A at *
  generalize G (X c.t) = A' at *
  have b1 : d * T / 8 ≤ |M - M'| := by
    have : |A - A'| ≤ |M - M'| + |M - A| + |M' - A'| := by
      rw [show A - A' = (M - M') - (M - A) + (M' - A') by ring]
      exact (abs_add_le _ _).trans (add_le_add (abs_sub _ _) le_rfl)
    linarith
  have b2 : |P - P'| ≤ d * T / (64 * Real.pi) * c.vars.tau := by
    refine q.trans ?_
    have k1 : 0 ≤ K1 * c.vars.tau ^ 2 := by positivity
    have k2 : K1 * c.vars.tau ^ 2 * (1 + c.vars.tau + n * c.vars.tau) ≤ K1 * c.vars.tau ^ 2 * 3 :=
      mul_le_mul_of_nonneg_left (by linarith) k1
    have k3 : 3 * K1 * c.vars.tau * c.vars.tau ≤ d * T / (64 * Real.pi) * c.vars.tau :=
      mul_le_mul_of_nonneg_right ht4 h0.le
    nlinarith
  have b3 : |c.vars.tau / (4 * Real.pi) * (M - M')|
      ≤ |P - c.vars.tau / (4 * Real.pi) * M - (P' - c.vars.tau / (4 * Real.pi) * M')| + |P - P'| := by
    rw [show c.vars.tau / (4 * Real.pi) * (M - M')
      = (P - P') - (P - c.vars.tau / (4 * Real.pi) * M - (P' - c.vars.tau / (4 * Real.pi) * M')) by ring]
    refine (abs_sub _ _).trans ?_
    linarith
  rw [abs_mul, abs_of_pos (by positivity : 0 < c.vars.tau / (4 * Real.pi))] at b3
  have b4 : c.vars.tau / (4 * Real.pi) * (d * T / 8) ≤ c.vars.tau / (4 * Real.pi) * |M - M'| :=
    mul_le_mul_of_nonneg_left b1 (by positivity)
  have b5 : c.vars.tau / (4 * Real.pi) * (d * T / 8) = d * T / (64 * Real.pi) * c.vars.tau * 2 := by
    field_simp; norm_num
  linarith

/-! ### concrete chains -/

/-- the four spins and couplings of `demo`, two of them driven, without static fields -/
noncomputable def still : SpinChain ℝ := { demo with static_h := List.replicate 4 zero }

theorem still_wf : WF still 4 2 := by constructor <;> simp [still, demo, demoVars]

theorem still_H0 : H0 still = fun _ => zero := by
  funext i
  simp only [H0, still]
  rcases i with _ | _ | _ | _ | i <;> rfl

theorem still_S : S still = S demo := rfl

theorem still_drive : still.vars.drive = .xyplane := rfl

theorem still_len : ∀ i < 4, len (S still i) = 1 := fun _ hi => unit_of still_wf demo_unit hi

theorem still_rates : magnusRate still 4 2 0 (S still) ≠ 0 ∧ magnusRate still 4 2 1 (S still) ≠ 0 ∧
    undrivenRate 4 2 (S still) (J still) (H0 still) ≠ 0 := by
  simp only [magnusRate, undrivenRate, tqFree, still_H0]
  refine ⟨?_, ?_, ?_⟩ <;>
    norm_num [drivenTorque, tqFree, tq, free, still_H0, omega, cross, Spec.add, Spec.sub, had, zero, sum_range_succ, left, right,
      S, J, still, demo]

/-- the chain `still` with another period of its drive -/
noncomputable def stillAt (tau : ℝ) : SpinChain ℝ :=
  { still with
    vars := { still.vars with
              tau := tau } }

theorem still_motion (tau T : ℝ) (hT : 0 ≤ T) : SameUpToPeriod still (stillAt tau) ∧
    ∃ X : ℝ → ℕ → V3 ℝ, (∀ i < 4, X 0 i = S still i) ∧ Motion (stillAt tau) 4 2 X 0 T := by
  refine ⟨⟨rfl, rfl, rfl⟩, ?_⟩
  have w : WF (stillAt tau) 4 2 := by constructor <;> simp [stillAt, still, demo, demoVars]
  obtain ⟨X, h1, h2⟩ := C85_exists (stillAt tau) 4 2 w demo_unit T
  refine ⟨X, h1, fun t t1 t2 i hi => h2 t ?_ ?_ i hi⟩
  · show (0 : ℝ) - T ≤ t
    linarith
  · show t ≤ (0 : ℝ) + T
    linarith

/-- C120 fails for `metropolis_update_magnus`: for a ring of four spins, two of them driven, however short the period `τ`,
the energy it samples (`k = 0`, `C40_magnus_energy_partial`) changes by `δ/τ` at some whole number of periods within a fixed
time, and so it does with the weight of the source comment (`k = 1`). -/
theorem C120_magnus_negation (k : ℝ) (hk : k = 0 ∨ k = 1) :
    ∃ T δ tau0 : ℝ, 0 < T ∧ 0 < δ ∧ 0 < tau0 ∧ ∀ tau, 0 < tau → tau ≤ tau0 →
      ∃ X : ℝ → ℕ → V3 ℝ, (∀ i < 4, X 0 i = S still i) ∧ Motion (stillAt tau) 4 2 X 0 T ∧
        ∃ n : ℕ, n * tau ≤ T ∧ δ / tau ≤ |magnusE 4 2 tau k (X (n * tau)) (J still) - magnusE 4 2 tau k (X 0) (J still)| := by
  have hD : magnusRate still 4 2 k (S still) ≠ 0 := by
    rcases hk with rfl | rfl
    exacts [still_rates.1, still_rates.2.1]
  obtain ⟨T, δ, tau0, hT, hδ, h0, h⟩ := C120_magnus_diverges still 4 2 (by norm_num) (Or.inl still_drive) still_H0 k still_len hD
  refine ⟨T, δ, tau0, hT, hδ, h0, fun tau t1 t2 => ?_⟩
  obtain ⟨hs, X, x1, x2⟩ := still_motion tau T hT.le
  refine ⟨X, x1, x2, ?_⟩
  obtain ⟨n, hn, h⟩ := h (stillAt tau) X hs t1 t2 x1 (by
    show Motion (stillAt tau) 4 2 X 0 (0 + T)
    rwa [zero_add])
  refine ⟨n, hn, ?_⟩
  have h : δ / tau ≤ |magnusE 4 2 tau k (X (0 + n * tau)) (J still) - magnusE 4 2 tau k (X 0) (J still)| := h
  rwa [zero_add] at h

/-- C120 fails for the first-order energy of the source comments, and with it for the first-order part of
`metropolis_update_mag_full` (`C120_mag_full`): it is conserved to first order in the period only. -/
theorem C120_sign_negation : ∃ T δ tau0 : ℝ, 0 < T ∧ 0 < δ ∧ 0 < tau0 ∧ ∀ tau, 0 < tau → tau ≤ tau0 →
      ∃ X : ℝ → ℕ → V3 ℝ, (∀ i < 4, X 0 i = S still i) ∧ Motion (stillAt tau) 4 2 X 0 T ∧
        ∃ n : ℕ, n * tau ≤ T ∧ δ * tau ≤ |commentE 4 2 tau (X (n * tau)) (J still) - commentE 4 2 tau (X 0) (J still)| := by
  obtain ⟨T, δ, tau0, hT, hδ, h0, h⟩ := C120_comment_sign still 4 2 (by norm_num) still_drive still_H0 still_len still_rates.1
  refine ⟨T, δ, tau0, hT, hδ, h0, fun tau t1 t2 => ?_⟩
  obtain ⟨hs, X, x1, x2⟩ := still_motion tau T hT.le
  exact ⟨X, x1, x2, h (stillAt tau) X hs t1 t2 rfl x1 x2⟩

/-- C120 fails for `metropolis_update_maglab` as soon as there are undriven spins. -/
theorem C120_maglab_negation : ∃ T δ tau0 : ℝ, 0 < T ∧ 0 < δ ∧ 0 < tau0 ∧ ∀ tau, 0 < tau → tau ≤ tau0 →
      ∃ X : ℝ → ℕ → V3 ℝ, (∀ i < 4, X 0 i = S still i) ∧ Motion (stillAt tau) 4 2 X 0 (T + 1) ∧
        ∃ n : ℕ, n * tau ≤ T ∧ δ * tau
          ≤ |periodMean tau (fun u => maglabE 4 (2 * Real.pi / tau) 0 0 (X u) (J still)) (n * tau)
            - periodMean tau (fun u => maglabE 4 (2 * Real.pi / tau) 0 0 (X u) (J still)) 0| := by
  obtain ⟨T, δ, tau0, hT, hδ, h0, h⟩ := C120_maglab_undriven still 4 2 (by norm_num) still_drive still_H0 still_len
    still_rates.2.2
  refine ⟨T, δ, tau0, hT, hδ, h0, fun tau t1 t2 => ?_⟩
  obtain ⟨hs, X, x1, x2⟩ := still_motion tau (T + 1) (by linarith)
  refine ⟨X, x1, x2, ?_⟩
  obtain ⟨n, hn, h⟩ := h (stillAt tau) X hs t1 t2 x1 (by
    show Motion (stillAt tau) 4 2 X 0 (0 + T + 1)
    rwa [zero_add])
  refine ⟨n, hn, ?_⟩
  have h : δ * tau ≤ |periodMean tau (fun u => maglabE 4 (2 * Real.pi / tau) 0 0 (X u) (J still)) (0 + n * tau)
            - periodMean tau (fun u => maglabE 4 (2 * Real.pi / tau) 0 0 (X u) (J still)) 0| := h
  rwa [zero_add] at h

/-- the hypotheses of the theorems above are met -/
example : WF demo 4 2 ∧ (2 : ℕ) ≤ 4 ∧ Oscillating demo.vars ∧ SameUpToPeriod demo demo ∧ 0 < demo.vars.tau ∧ (∀ i < 4, len (S demo i) = 1) ∧
    ∃ X : ℝ → ℕ → V3 ℝ, (∀ i < 4, X demo.t i = S demo i) ∧ Motion demo 4 2 X (demo.t - 100) (demo.t + 100) :=
  ⟨demo_wf, by norm_num, Or.inl rfl, ⟨rfl, rfl, rfl⟩, by norm_num [demo, demoVars], fun _ hi => unit_of demo_wf demo_unit hi,
    C85_exists demo 4 2 demo_wf demo_unit 100⟩

example : (3 : ℕ) ≤ 6 ∧ (1 : ℕ) < 3 ∧ left 6 1 < 3 ∧ right 6 1 < 3 := by decide

end Verif.Props
