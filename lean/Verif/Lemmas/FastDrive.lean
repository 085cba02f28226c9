/-
The rate of change of the effective energy of a driven chain (for C120).
-/
import Verif.Lemmas.Averaging
import Verif.Lemmas.Metropolis
import Verif.Lemmas.LangevinEnergy

set_option linter.unusedSectionVars false

namespace Verif

open Spec Finset Props

/-- one on the driven sites -/
def ind (s i : ℕ) : ℝ := if i < s then 1 else 0

theorem ind_sq (s i : ℕ) : ind s i * ind s i = ind s i := by unfold ind; split <;> norm_num

theorem sum_ind {L s : ℕ} (hs : s ≤ L) (f : ℕ → ℝ) : ∑ i ∈ range s, f i = ∑ i ∈ range L, ind s i * f i := by
  have : ∀ i ∈ range L, ind s i * f i = if i < s then f i else 0 := fun i _ => by
    unfold ind; split <;> ring
  rw [sum_congr rfl this, ← Finset.sum_filter]
  congr 1
  ext i
  simp only [mem_filter, mem_range]
  omega

/-- rate of change of `S_i × Ω_i` when the spins move with the velocities `V` -/
def tq (L : ℕ) (J B S V : ℕ → V3 ℝ) (i : ℕ) : V3 ℝ :=
  Spec.add (cross (V i) (omega L S J B i)) (cross (S i) (omega L V J (fun _ => zero) i))

/-- rotation of the driven spins about `n` -/
def turn (s : ℕ) (n : V3 ℝ) (S : ℕ → V3 ℝ) (i : ℕ) : V3 ℝ := smul (ind s i) (cross (S i) n)

/-- precession in the static fields -/
def free (L : ℕ) (J B S : ℕ → V3 ℝ) (i : ℕ) : V3 ℝ := cross (S i) (omega L S J B i)

def ex : V3 ℝ := ⟨1, 0, 0⟩
def ey : V3 ℝ := ⟨0, 1, 0⟩

theorem hasDeriv_torque {L : ℕ} {J B : ℕ → V3 ℝ} {X : ℝ → ℕ → V3 ℝ} {V : ℕ → V3 ℝ} {t : ℝ}
    (h : ∀ i < L, HasDeriv3 (fun u => X u i) (V i) t) {i : ℕ} (hi : i < L) :
    HasDeriv3 (fun u => cross (X u i) (omega L (X u) J B i)) (tq L J B (X t) V i) t := by
  obtain ⟨a1, a2, a3⟩ := h i hi
  obtain ⟨b1, b2, b3⟩ := h (left L i) (Nat.mod_lt _ (by omega))
  obtain ⟨c1, c2, c3⟩ := h (right L i) (Nat.mod_lt _ (by omega))
  have ox := ((b1.const_mul (J (left L i)).x).add (c1.const_mul (J i).x)).sub_const (B i).x
  have oy := ((b2.const_mul (J (left L i)).y).add (c2.const_mul (J i).y)).sub_const (B i).y
  have oz := ((b3.const_mul (J (left L i)).z).add (c3.const_mul (J i).z)).sub_const (B i).z
  refine ⟨((a2.mul oz).sub (a3.mul oy)).congr_deriv ?_, ((a3.mul ox).sub (a1.mul oz)).congr_deriv ?_,
    ((a1.mul oy).sub (a2.mul ox)).congr_deriv ?_⟩ <;>
  · simp only [tq, cross, omega, Spec.add, Spec.sub, had, zero, Pi.add_apply]
    ring

/-- the right-hand bond of a site, in the Jacobi identity -/
def bondJ (d d' : ℝ) (J u v : V3 ℝ) : ℝ :=
  d * ((cross (smul d (cross u ey)) (had J v)).x + (cross u (had J (smul d' (cross v ey)))).x
    - (cross (smul d (cross u ex)) (had J v)).y - (cross u (had J (smul d' (cross v ex)))).y + (cross u (had J v)).z)

theorem bondJ_zero {d d' : ℝ} (J u v : V3 ℝ) (h : d * d = d) (h' : d' * d' = d') : bondJ d d' J u v + bondJ d' d J v u = 0 := by
  simp only [bondJ, cross, smul, had, ex, ey]
  linear_combination (-(u.x * J.y * v.y) + u.y * v.x * J.x) * h + (u.x * v.y * J.x - u.y * J.y * v.x) * h'

/-- Turning about y and about x in either order differs by a turn about z (Jacobi identity). -/
theorem jacobi {L s : ℕ} (hs : s ≤ L) (J B S : ℕ → V3 ℝ) :
    ∑ i ∈ range s, (tq L J B S (turn s ey S) i).x - ∑ i ∈ range s, (tq L J B S (turn s ex S) i).y
      = -(drivenTorque L s S J B).z := by
  rw [← sub_eq_zero, sub_neg_eq_add]
  simp only [drivenTorque]
  rw [sum_ind hs, sum_ind hs, sum_ind hs, ← sum_sub_distrib, ← sum_add_distrib]
  let g : ℕ → ℝ := fun i => bondJ (ind s (right L i)) (ind s i) (J i) (S (right L i)) (S i)
  have e : ∀ i ∈ range L, ind s i * (tq L J B S (turn s ey S) i).x - ind s i * (tq L J B S (turn s ex S) i).y
      + ind s i * (cross (S i) (omega L S J B i)).z
      = bondJ (ind s i) (ind s (right L i)) (J i) (S i) (S (right L i)) + g (left L i) := by
    intro i hi
    have hi := mem_range.1 hi
    simp only [g, right_left hi]
    simp only [tq, turn, bondJ, cross, smul, had, ex, ey, omega, Spec.add, Spec.sub, zero]
    linear_combination ((B i).y * (S i).x - (B i).x * (S i).y) * ind_sq s i
  rw [sum_congr rfl e, sum_add_distrib, sum_left g, ← sum_add_distrib]
  exact sum_eq_zero fun i _ => bondJ_zero _ _ _ (ind_sq _ _) (ind_sq _ _)

/-- rate of change of the energy in static fields -/
theorem hasDeriv_energy {L : ℕ} {J B : ℕ → V3 ℝ} {X : ℝ → ℕ → V3 ℝ} {V : ℕ → V3 ℝ} {t : ℝ}
    (h : ∀ i < L, HasDeriv3 (fun u => X u i) (V i) t) :
    HasDerivAt (fun u => ringEnergy L (X u) J B) (-∑ i ∈ range L, dot (omega L (X t) J B i) (V i)) t := by
  have hd := HasDerivAt.fun_sum (u := range L)
    (A := fun i u => -dot (X u i) (had (J i) (X u (right L i))) + dot (B i) (X u i))
    (A' := fun i => -(dot (V i) (had (J i) (X t (right L i))) + dot (X t i) (had (J i) (V (right L i)))) + dot (B i) (V i))
    (x := t) (fun i hi => by
      have hi := mem_range.1 hi
      have h1 := HasDeriv3.dot (h i hi) (HasDeriv3.had (J i) (h (right L i) (Nat.mod_lt _ (by omega))))
      have h2 : HasDerivAt (fun u => dot (B i) (X u i)) (dot (B i) (V i)) t :=
        (((h i hi).1.const_mul _).add ((h i hi).2.1.const_mul _)).add ((h i hi).2.2.const_mul _)
      exact h1.neg.add h2)
  refine hd.congr_deriv ?_
  let g : ℕ → ℝ := fun i => dot (X t i) (had (J i) (V (right L i)))
  have e : ∀ i ∈ range L, dot (omega L (X t) J B i) (V i)
      = dot (V i) (had (J i) (X t (right L i))) - dot (B i) (V i) + g (left L i) := by
    intro i hi
    simp only [g, right_left (mem_range.1 hi), omega, dot, had, Spec.add, Spec.sub]
    ring
  have e2 : ∑ i ∈ range L, dot (omega L (X t) J B i) (V i)
      = ∑ i ∈ range L, (dot (V i) (had (J i) (X t (right L i))) - dot (B i) (V i) + g i) := by
    rw [sum_congr rfl e, sum_add_distrib, sum_left g, ← sum_add_distrib]
  rw [e2, ← sum_neg_distrib]
  refine sum_congr rfl fun i _ => ?_
  simp only [g]
  ring

section
variable {c0 c : SpinChain ℝ} {L s : ℕ} {X : ℝ → ℕ → V3 ℝ} {a b t : ℝ}

/-- the velocities of the spins -/
theorem DrivenMotion.deriv' (h : DrivenMotion c0 L s c X a b) (h1 : a ≤ t) (h2 : t ≤ b) {i : ℕ} (hi : i < L) :
    HasDeriv3 (fun u => X u i) (Spec.sub (Spec.sub (free L (J c0) (H0 c0) (X t) i)
      (smul (Real.cos (2 * Real.pi / c.vars.tau * t)) (turn s ex (X t) i)))
      (smul (ell c0.vars * Real.sin (2 * Real.pi / c.vars.tau * t)) (turn s ey (X t) i))) t := by
  have := h.deriv h1 h2 hi
  convert this using 1
  unfold free turn ind
  split
  · simp only [cross, Spec.sub, smul, ex, ey]
    ext <;> simp only <;> ring
  · simp only [cross, Spec.sub, smul, ex, ey, zero]
    ext <;> simp only <;> ring

/-- change of the driven torque without the drive, and under turns of the driven spins about x and about y -/
def tqFree (c0 : SpinChain ℝ) (L s : ℕ) (S : ℕ → V3 ℝ) : V3 ℝ :=
  ⟨∑ i ∈ range s, (tq L (J c0) (H0 c0) S (free L (J c0) (H0 c0) S) i).x,
    ∑ i ∈ range s, (tq L (J c0) (H0 c0) S (free L (J c0) (H0 c0) S) i).y,
    ∑ i ∈ range s, (tq L (J c0) (H0 c0) S (free L (J c0) (H0 c0) S) i).z⟩
def tqTurn (c0 : SpinChain ℝ) (L s : ℕ) (n : V3 ℝ) (S : ℕ → V3 ℝ) : V3 ℝ :=
  ⟨∑ i ∈ range s, (tq L (J c0) (H0 c0) S (turn s n S) i).x, ∑ i ∈ range s, (tq L (J c0) (H0 c0) S (turn s n S) i).y,
    ∑ i ∈ range s, (tq L (J c0) (H0 c0) S (turn s n S) i).z⟩

theorem tq_lin (J B S V0 V1 V2 : ℕ → V3 ℝ) (p q : ℝ) (i : ℕ) :
    tq L J B S (fun i => Spec.sub (Spec.sub (V0 i) (smul p (V1 i))) (smul q (V2 i))) i
      = Spec.sub (Spec.sub (tq L J B S V0 i) (smul p (tq L J B S V1 i))) (smul q (tq L J B S V2 i)) := by
  simp only [tq, cross, omega, Spec.add, Spec.sub, smul, had, zero]
  ext <;> simp only <;> ring

theorem DrivenMotion.deriv_torque (h : DrivenMotion c0 L s c X a b) (hs : s ≤ L) (h1 : a ≤ t) (h2 : t ≤ b) :
    HasDeriv3 (fun u => drivenTorque L s (X u) (J c0) (H0 c0)) (Spec.sub (Spec.sub (tqFree c0 L s (X t))
      (smul (Real.cos (2 * Real.pi / c.vars.tau * t)) (tqTurn c0 L s ex (X t))))
      (smul (ell c0.vars * Real.sin (2 * Real.pi / c.vars.tau * t)) (tqTurn c0 L s ey (X t)))) t := by
  have hd : ∀ i ∈ range s, _ := fun i hi => hasDeriv_torque (J := J c0) (B := H0 c0) (t := t)
    (fun i hi => h.deriv' h1 h2 hi) (lt_of_lt_of_le (mem_range.1 hi) hs)
  simp only [tq_lin] at hd
  refine ⟨(HasDerivAt.fun_sum fun i hi => (hd i hi).1).congr_deriv ?_,
    (HasDerivAt.fun_sum fun i hi => (hd i hi).2.1).congr_deriv ?_,
    (HasDerivAt.fun_sum fun i hi => (hd i hi).2.2).congr_deriv ?_⟩ <;>
  simp only [Spec.sub, smul, tqFree, tqTurn, sum_sub_distrib, mul_sum]

theorem DrivenMotion.deriv_energy (h : DrivenMotion c0 L s c X a b) (hs : s ≤ L) (h1 : a ≤ t) (h2 : t ≤ b) :
    HasDerivAt (fun u => ringEnergy L (X u) (J c0) (H0 c0))
      (-(Real.cos (2 * Real.pi / c.vars.tau * t) * (drivenTorque L s (X t) (J c0) (H0 c0)).x
        + ell c0.vars * Real.sin (2 * Real.pi / c.vars.tau * t) * (drivenTorque L s (X t) (J c0) (H0 c0)).y)) t := by
  refine (hasDeriv_energy (fun i hi => h.deriv' h1 h2 hi)).congr_deriv ?_
  simp only [drivenTorque]
  rw [neg_inj, sum_ind hs, sum_ind hs, mul_sum, mul_sum, ← sum_add_distrib]
  refine sum_congr rfl fun i _ => ?_
  simp only [dot, free, turn, cross, Spec.sub, smul, ex, ey]
  ring

theorem DrivenMotion.deriv_mag (h : DrivenMotion c0 L s c X a b) (hs : s ≤ L) (h1 : a ≤ t) (h2 : t ≤ b) :
    HasDerivAt (fun u => ∑ i ∈ range s, (X u i).z)
      ((drivenTorque L s (X t) (J c0) (H0 c0)).z
        + Real.cos (2 * Real.pi / c.vars.tau * t) * ∑ i ∈ range s, (X t i).y
        - ell c0.vars * Real.sin (2 * Real.pi / c.vars.tau * t) * ∑ i ∈ range s, (X t i).x) t := by
  refine (HasDerivAt.fun_sum fun i hi => (h.deriv' h1 h2 (lt_of_lt_of_le (mem_range.1 hi) hs)).2.2).congr_deriv ?_
  simp only [drivenTorque]
  rw [mul_sum, mul_sum, ← sum_add_distrib, ← sum_sub_distrib]
  refine sum_congr rfl fun i hi => ?_
  have e : ind s i = 1 := if_pos (mem_range.1 hi)
  simp only [free, turn, cross, Spec.sub, smul, ex, ey, e]
  ring

/-- along a motion the effective energy only oscillates -/
theorem DrivenMotion.deriv_effective (h : DrivenMotion c0 L s c X a b) (hs : s ≤ L) (h1 : a ≤ t) (h2 : t ≤ b) :
    HasDerivAt (fun u => effectiveE L s (2 * Real.pi / c.vars.tau) (ell c0.vars) u (X u) (J c0) (H0 c0))
      (1 / (2 * Real.pi / c.vars.tau) *
        (Real.sin (2 * Real.pi / c.vars.tau * t)
            * ((tqFree c0 L s (X t)).x + ell c0.vars ^ 2 / 2 * ∑ i ∈ range s, (X t i).x)
          + Real.cos (2 * Real.pi / c.vars.tau * t)
            * (-ell c0.vars * (tqFree c0 L s (X t)).y - ell c0.vars / 2 * ∑ i ∈ range s, (X t i).y)
          + Real.sin (2 * (2 * Real.pi / c.vars.tau * t))
            * (1 / 2 * (ell c0.vars ^ 2 * (tqTurn c0 L s ey (X t)).y - (tqTurn c0 L s ex (X t)).x))
          + Real.cos (2 * (2 * Real.pi / c.vars.tau * t))
            * (ell c0.vars / 2 * ((tqTurn c0 L s ey (X t)).x + (tqTurn c0 L s ex (X t)).y)))) t := by
  have hE := h.deriv_energy hs h1 h2
  obtain ⟨hx, hy, -⟩ := h.deriv_torque hs h1 h2
  have hM := h.deriv_mag hs h1 h2
  have hj := jacobi hs (J c0) (H0 c0) (X t)
  have hw : 2 * Real.pi / c.vars.tau ≠ 0 := by have := h.tau; have := Real.pi_pos; positivity
  generalize 2 * Real.pi / c.vars.tau = w at *
  have l1 : HasDerivAt (fun t : ℝ => w * t) w t := by simpa using (hasDerivAt_id t).const_mul w
  have D := (hE.add (((l1.sin.mul hx).sub ((l1.cos.const_mul (ell c0.vars)).mul hy)).div_const w)).sub
    (hM.const_mul (ell c0.vars / (2 * w)))
  refine D.congr_deriv ?_
  rw [Real.sin_two_mul, Real.cos_two_mul]
  simp only [Spec.sub, smul]
  have hsc := Real.sin_sq_add_cos_sq (w * t)
  have e1 : (∑ i ∈ range s, (tq L (J c0) (H0 c0) (X t) (turn s ey (X t)) i).x) = (tqTurn c0 L s ey (X t)).x := rfl
  have e2 : (∑ i ∈ range s, (tq L (J c0) (H0 c0) (X t) (turn s ex (X t)) i).y) = (tqTurn c0 L s ex (X t)).y := rfl
  rw [e1, e2] at hj
  have e3 : (tqTurn c0 L s ex (X t)).y = (tqTurn c0 L s ey (X t)).x + (drivenTorque L s (X t) (J c0) (H0 c0)).z := by linarith
  rw [e3]
  generalize (tqTurn c0 L s ey (X t)).x = Qxy
  generalize (tqTurn c0 L s ex (X t)).x = Qxx
  generalize (tqTurn c0 L s ey (X t)).y = Qyy
  generalize (tqFree c0 L s (X t)).x = Px
  generalize (tqFree c0 L s (X t)).y = Py
  generalize (drivenTorque L s (X t) (J c0) (H0 c0)).x = Nx
  generalize (drivenTorque L s (X t) (J c0) (H0 c0)).y = Ny
  generalize (drivenTorque L s (X t) (J c0) (H0 c0)).z = Nz
  generalize (∑ i ∈ range s, (X t i).x) = Mx
  generalize (∑ i ∈ range s, (X t i).y) = My
  generalize ell c0.vars = e
  generalize Real.sin (w * t) = S at *
  generalize Real.cos (w * t) = C at *
  field_simp
  linear_combination (-2 * e * Qxy) * hsc

end

/-! ### slowness of the amplitudes -/

section
variable {c0 : SpinChain ℝ} {L s : ℕ}

theorem slow_x {i : ℕ} (hi : i < L) : Slow c0 L s fun S => (S i).x := (slow_spin hi).1
theorem slow_y {i : ℕ} (hi : i < L) : Slow c0 L s fun S => (S i).y := (slow_spin hi).2.1
theorem slow_z {i : ℕ} (hi : i < L) : Slow c0 L s fun S => (S i).z := (slow_spin hi).2.2

theorem lt_left {i : ℕ} (hi : i < L) : left L i < L := Nat.mod_lt _ (by omega)
theorem lt_right {i : ℕ} (hi : i < L) : right L i < L := Nat.mod_lt _ (by omega)

/-- polynomials of the spins are slow -/
macro "slow" : tactic => `(tactic| repeat' first
  | with_reducible refine Slow.const _
  | with_reducible refine slow_x ?_
  | with_reducible refine slow_y ?_
  | with_reducible refine slow_z ?_
  | with_reducible refine Slow.add ?_ ?_
  | with_reducible refine Slow.sub ?_ ?_
  | with_reducible refine Slow.mul ?_ ?_
  | with_reducible refine Slow.neg ?_
  | assumption
  | with_reducible refine lt_left ?_
  | with_reducible refine lt_right ?_)

theorem slow_torque (hs : s ≤ L) : (Slow c0 L s fun S => (drivenTorque L s S (J c0) (H0 c0)).x) ∧
    (Slow c0 L s fun S => (drivenTorque L s S (J c0) (H0 c0)).y) ∧
    Slow c0 L s fun S => (drivenTorque L s S (J c0) (H0 c0)).z := by
  refine ⟨Slow.sum fun i hi => ?_, Slow.sum fun i hi => ?_, Slow.sum fun i hi => ?_⟩ <;>
  · have hi : i < L := lt_of_lt_of_le hi hs
    simp only [cross, omega, Spec.add, Spec.sub, had]
    slow

theorem slow_free (hs : s ≤ L) : (Slow c0 L s fun S => (tqFree c0 L s S).x) ∧
    (Slow c0 L s fun S => (tqFree c0 L s S).y) ∧ Slow c0 L s fun S => (tqFree c0 L s S).z := by
  refine ⟨Slow.sum fun i hi => ?_, Slow.sum fun i hi => ?_, Slow.sum fun i hi => ?_⟩ <;>
  · have hi : i < L := lt_of_lt_of_le hi hs
    simp only [tq, free, cross, omega, Spec.add, Spec.sub, had, zero]
    slow

theorem slow_turn (hs : s ≤ L) (n : V3 ℝ) : (Slow c0 L s fun S => (tqTurn c0 L s n S).x) ∧
    (Slow c0 L s fun S => (tqTurn c0 L s n S).y) ∧ Slow c0 L s fun S => (tqTurn c0 L s n S).z := by
  refine ⟨Slow.sum fun i hi => ?_, Slow.sum fun i hi => ?_, Slow.sum fun i hi => ?_⟩ <;>
  · have hi : i < L := lt_of_lt_of_le hi hs
    simp only [tq, turn, cross, omega, Spec.add, Spec.sub, had, zero, smul]
    slow

theorem slow_mag (hs : s ≤ L) : (Slow c0 L s fun S => ∑ i ∈ range s, (S i).x) ∧
    (Slow c0 L s fun S => ∑ i ∈ range s, (S i).y) ∧ Slow c0 L s fun S => ∑ i ∈ range s, (S i).z :=
  ⟨Slow.sum fun _ hi => slow_x (lt_of_lt_of_le hi hs), Slow.sum fun _ hi => slow_y (lt_of_lt_of_le hi hs),
    Slow.sum fun _ hi => slow_z (lt_of_lt_of_le hi hs)⟩

/-- averaging, for amplitudes that are functions of the spins -/
theorem slow_average' {G1 G2 G3 G4 : (ℕ → V3 ℝ) → ℝ} (g1 : Slow c0 L s G1) (g2 : Slow c0 L s G2) (g3 : Slow c0 L s G3)
    (g4 : Slow c0 L s G4) : ∃ K, 0 ≤ K ∧ ∀ (c : SpinChain ℝ) (X : ℝ → ℕ → V3 ℝ) (a b A R : ℝ) (f r : ℝ → ℝ),
      DrivenMotion c0 L s c X a b → 0 ≤ A →
      (∀ t, a ≤ t → t ≤ b → HasDerivAt f (A * (Real.sin (2 * Real.pi / c.vars.tau * t) * G1 (X t)
        + Real.cos (2 * Real.pi / c.vars.tau * t) * G2 (X t) + Real.sin (2 * (2 * Real.pi / c.vars.tau * t)) * G3 (X t)
        + Real.cos (2 * (2 * Real.pi / c.vars.tau * t)) * G4 (X t)) + r t) t) → (∀ t, a ≤ t → t ≤ b → |r t| ≤ R) →
      ∀ t, a ≤ t → t ≤ b → |f t - f a| ≤ K * A * c.vars.tau * (1 + (t - a)) + R * (t - a) := by
  obtain ⟨K1, h1⟩ := g1
  obtain ⟨K2, h2⟩ := g2
  obtain ⟨K3, h3⟩ := g3
  obtain ⟨K4, h4⟩ := g4
  let K := max 0 (max (max K1 K2) (max K3 K4))
  have hK : 0 ≤ K := le_max_left _ _
  refine ⟨6 * K / (2 * Real.pi), by have := Real.pi_pos; positivity, fun c X a b A R f r hm hA hf hr t t1 t2 => ?_⟩
  have hw : 0 < 2 * Real.pi / c.vars.tau := by have := hm.tau; have := Real.pi_pos; positivity
  have m1 : K1 ≤ K := le_trans (le_trans (le_max_left _ _) (le_max_left _ _)) (le_max_right _ _)
  have m2 : K2 ≤ K := le_trans (le_trans (le_max_right _ _) (le_max_left _ _)) (le_max_right _ _)
  have m3 : K3 ≤ K := le_trans (le_trans (le_max_left _ _) (le_max_right _ _)) (le_max_right _ _)
  have m4 : K4 ≤ K := le_trans (le_trans (le_max_right _ _) (le_max_right _ _)) (le_max_right _ _)
  have pick : ∀ {G : (ℕ → V3 ℝ) → ℝ} {k : ℝ}, (∀ c X a b, DrivenMotion c0 L s c X a b → ∀ t, a ≤ t → t ≤ b →
      |G (X t)| ≤ k ∧ ∃ d, |d| ≤ k ∧ HasDerivAt (fun u => G (X u)) d t) → k ≤ K →
      ∃ d : ℝ → ℝ, ∀ t, a ≤ t → t ≤ b → |G (X t)| ≤ K ∧ |d t| ≤ K ∧ HasDerivAt (fun u => G (X u)) (d t) t := by
    intro G k h hk
    refine ⟨fun t => deriv (fun u => G (X u)) t, fun t t1 t2 => ?_⟩
    obtain ⟨x1, d, x2, x3⟩ := h c X a b hm t t1 t2
    beta_reduce
    rw [x3.deriv]
    exact ⟨x1.trans hk, x2.trans hk, x3⟩
  obtain ⟨d1, p1⟩ := pick h1 m1
  obtain ⟨d2, p2⟩ := pick h2 m2
  obtain ⟨d3, p3⟩ := pick h3 m3
  obtain ⟨d4, p4⟩ := pick h4 m4
  have := average_le (p1 := fun t => G1 (X t)) (p2 := fun t => G2 (X t)) (p3 := fun t => G3 (X t)) (p4 := fun t => G4 (X t))
    hw hA hf hr (fun t t1 t2 => ⟨p1 t t1 t2, p2 t t1 t2, p3 t t1 t2, p4 t t1 t2⟩) t1 t2
  refine this.trans (add_le_add (le_of_eq ?_) le_rfl)
  have := Real.pi_pos.ne'
  have := hm.tau.ne'
  field_simp

theorem slow_average {G1 G2 G3 G4 : (ℕ → V3 ℝ) → ℝ} (g1 : Slow c0 L s G1) (g2 : Slow c0 L s G2) (g3 : Slow c0 L s G3)
    (g4 : Slow c0 L s G4) : ∃ K, 0 ≤ K ∧ ∀ (c : SpinChain ℝ) (X : ℝ → ℕ → V3 ℝ) (a b A : ℝ) (f : ℝ → ℝ),
      DrivenMotion c0 L s c X a b → 0 ≤ A →
      (∀ t, a ≤ t → t ≤ b → HasDerivAt f (A * (Real.sin (2 * Real.pi / c.vars.tau * t) * G1 (X t)
        + Real.cos (2 * Real.pi / c.vars.tau * t) * G2 (X t) + Real.sin (2 * (2 * Real.pi / c.vars.tau * t)) * G3 (X t)
        + Real.cos (2 * (2 * Real.pi / c.vars.tau * t)) * G4 (X t))) t) →
      ∀ t, a ≤ t → t ≤ b → |f t - f a| ≤ K * A * c.vars.tau * (1 + (t - a)) := by
  obtain ⟨K, hK, h⟩ := slow_average' g1 g2 g3 g4
  refine ⟨K, hK, fun c X a b A f hm hA hf t t1 t2 => ?_⟩
  have := h c X a b A 0 f (fun _ => 0) hm hA (fun t t1 t2 => (hf t t1 t2).congr_deriv (by ring)) (by simp) t t1 t2
  linarith

/-- a quantity grows at first at the rate it has without the drive -/
theorem slow_drift {G D G1 G2 : (ℕ → V3 ℝ) → ℝ} (hD : Slow c0 L s D) (g1 : Slow c0 L s G1) (g2 : Slow c0 L s G2)
    (hG : ∀ (c : SpinChain ℝ) (X : ℝ → ℕ → V3 ℝ) (a b : ℝ), DrivenMotion c0 L s c X a b → ∀ t, a ≤ t → t ≤ b →
      HasDerivAt (fun u => G (X u)) (D (X t) + Real.sin (2 * Real.pi / c.vars.tau * t) * G1 (X t)
        + Real.cos (2 * Real.pi / c.vars.tau * t) * G2 (X t)) t) :
    ∃ K, 0 ≤ K ∧ ∀ (c : SpinChain ℝ) (X : ℝ → ℕ → V3 ℝ) (a b : ℝ), DrivenMotion c0 L s c X a b → ∀ t, a ≤ t → t ≤ b →
      |G (X t) - G (X a) - D (X a) * (t - a)| ≤ K * (t - a) ^ 2 + K * c.vars.tau * (1 + (t - a)) := by
  obtain ⟨K, hK, h⟩ := slow_average' g1 g2 (Slow.const (c0 := c0) (L := L) (s := s) 0) (Slow.const (c0 := c0) (L := L) (s := s) 0)
  obtain ⟨K', hD⟩ := hD
  refine ⟨K + max 0 K', by positivity, fun c X a b hm t t1 t2 => ?_⟩
  have hmt : DrivenMotion c0 L s c X a t := ⟨hm.1, hm.2, hm.3, hm.4, fun u u1 u2 => hm.5 u u1 (u2.trans t2)⟩
  have hdiff : ∀ u, a ≤ u → u ≤ t → |D (X u) - D (X a)| ≤ max 0 K' * (t - a) := by
    intro u u1 u2
    have := move_le (f := fun u => D (X u)) (d := fun u => deriv (fun u => D (X u)) u) (a := a) (b := t) (C := max 0 K')
      (fun v v1 v2 => by
        obtain ⟨-, d, x2, x3⟩ := hD c X a t hmt v v1 v2
        rw [x3.deriv]
        exact ⟨x3, x2.trans (le_max_right _ _)⟩) u1 u2
    exact this.trans (mul_le_mul_of_nonneg_left (by linarith) (le_max_left _ _))
  have := h c X a t 1 (max 0 K' * (t - a)) (fun u => G (X u) - D (X a) * (u - a)) (fun u => D (X u) - D (X a)) hmt zero_le_one
    (fun u u1 u2 => by
      have l : HasDerivAt (fun u : ℝ => D (X a) * (u - a)) (D (X a)) u := by
        simpa using ((hasDerivAt_id u).sub_const a).const_mul (D (X a))
      exact ((hG c X a t hmt u u1 u2).sub l).congr_deriv (by ring)) hdiff t t1 le_rfl
  rw [sub_self, mul_zero, sub_zero, sub_right_comm] at this
  refine this.trans ?_
  have hm0 : 0 ≤ max 0 K' := le_max_left _ _
  have ht0 : 0 ≤ t - a := by linarith
  have k1 : 0 ≤ max 0 K' * c.vars.tau * (1 + (t - a)) := by have := hm.tau; positivity
  have k2 : 0 ≤ K * (t - a) ^ 2 := by positivity
  nlinarith

end

end Verif
