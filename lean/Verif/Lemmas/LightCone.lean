/-
Growth of differences between two runs, with weights that decay away from where they differ.
-/
import Verif.Lemmas.Order3
import Verif.Props.Liouville
import Verif.Spec.LightCone

set_option linter.unusedSectionVars false

namespace Verif.LightCone

open Spec

section
variable {L L2 : ℕ} {S J B : ℕ → V3 ℝ}

theorem idx_lt (hL : 2 ≤ L) (k : ℤ) : (k % (2 * (L / 2) : ℕ)).toNat < 2 * (L / 2) := by
  have h0 : (0 : ℤ) < (2 * (L / 2) : ℕ) := by omega
  have := Int.emod_lt_of_pos k h0
  have := Int.emod_nonneg k h0.ne'
  omega

theorem idx_left {m : ℕ} (hm : 0 < m) (k : ℤ) : left m (k % m).toNat = ((k - 1) % m).toNat := by
  have h0 : (0 : ℤ) < m := by omega
  have h1 := Int.emod_lt_of_pos k h0
  have h2 := Int.emod_nonneg k h0.ne'
  have h3 := Int.emod_nonneg (k - 1) h0.ne'
  unfold left
  zify
  rw [Int.toNat_of_nonneg h3]
  rw [show (((k % m).toNat + m - 1 : ℕ) : ℤ) = k % m + m - 1 by omega,
    show k % (m : ℤ) + m - 1 = (k % m - 1) + m by ring, Int.add_emod_right, Int.emod_sub_emod]

theorem idx_right {m : ℕ} (hm : 0 < m) (k : ℤ) : right m (k % m).toNat = ((k + 1) % m).toNat := by
  have h0 : (0 : ℤ) < m := by omega
  have h2 := Int.emod_nonneg k h0.ne'
  have h3 := Int.emod_nonneg (k + 1) h0.ne'
  unfold right
  zify
  rw [Int.toNat_of_nonneg h3, Int.toNat_of_nonneg h2, Int.emod_add_emod]

theorem idx_parity (l : ℕ) (hl : 0 < l) (k : ℤ) (par : ℕ) : (k % (2 * l : ℕ)).toNat % 2 = par ↔ k % 2 = par := by
  have h0 : (0 : ℤ) < (2 * l : ℕ) := by omega
  have h2 := Int.emod_nonneg k h0.ne'
  have h3 : k % (2 * l : ℕ) % 2 = k % 2 := Int.emod_emod_of_dvd k (by push_cast; exact Dvd.intro _ rfl)
  omega

/-- the local field, counted around the ring -/
theorem around_omega (hL : 2 ≤ L) (k : ℤ) : around L (omega (2 * (L / 2)) S J B) k
    = sub (Spec.add (had (around L J (k - 1)) (around L S (k - 1))) (had (around L J k) (around L S (k + 1)))) (around L B k) := by
  unfold around omega
  rw [idx_left (by omega), idx_right (by omega)]

theorem around_subStep (hL : 2 ≤ L) (par : ℕ) (t : ℝ) (k : ℤ) : around L (subStep (2 * (L / 2)) par J B t S) k
    = if k % 2 = par then precess (around L S k) (around L (omega (2 * (L / 2)) S J B) k) t else around L S k := by
  unfold around subStep
  have h1 := idx_lt hL k
  have h2 := idx_parity (L / 2) (by omega) k par
  by_cases h : k % 2 = par
  · rw [if_pos ⟨h1, h2.2 h⟩, if_pos h]
  · rw [if_neg fun hh => h (h2.1 hh.2), if_neg h]

variable {S2 J2 B2 : ℕ → V3 ℝ} {a K W G x : ℝ} {d : ℤ → ℝ}

/-- two systems whose difference is at most `G` times the weight -/
structure Close (L L2 : ℕ) (J B J2 B2 : ℕ → V3 ℝ) (a K G : ℝ) (d : ℤ → ℝ) : Prop where
  a0 : 0 ≤ a
  G0 : 0 ≤ G
  lip : ∀ k, |d (k + 1) - d k| ≤ 1
  leJ : ∀ k, len (around L J k) ≤ K
  diff : ∀ k, len (sub (around L J (k - 1)) (around L2 J2 (k - 1))) + len (sub (around L J k) (around L2 J2 k))
    + len (sub (around L B k) (around L2 B2 k)) ≤ G * Real.exp (-(a * d k))

variable (C : Close L L2 J B J2 B2 a K G d)
include C

theorem Close.K0 : 0 ≤ K := (len_nonneg _).trans (C.leJ 0)

theorem Close.near (k : ℤ) : Real.exp (-(a * d (k - 1))) ≤ Real.exp a * Real.exp (-(a * d k)) ∧
    Real.exp (-(a * d (k + 1))) ≤ Real.exp a * Real.exp (-(a * d k)) := by
  have h1 := abs_le.1 (C.lip k)
  have h2 := abs_le.1 (C.lip (k - 1))
  rw [sub_add_cancel] at h2
  have := C.a0
  constructor <;> rw [← Real.exp_add, Real.exp_le_exp] <;> nlinarith

/-- difference of the local fields -/
theorem Close.field (hL : 2 ≤ L) (hL2 : 2 ≤ L2) (W0 : 0 ≤ W)
    (hW : ∀ k, len (sub (around L S k) (around L2 S2 k)) ≤ W * Real.exp (-(a * d k)))
    (hu : ∀ k, len (around L2 S2 k) = 1) (k : ℤ) :
    len (sub (around L (omega (2 * (L / 2)) S J B) k) (around L2 (omega (2 * (L2 / 2)) S2 J2 B2) k))
      ≤ (2 * K * Real.exp a * W + G) * Real.exp (-(a * d k)) := by
  rw [around_omega hL, around_omega hL2]
  have hK := C.K0
  obtain ⟨n1, n2⟩ := C.near k
  have hp := Real.exp_pos (-(a * d k))
  generalize hA : around L J (k - 1) = A
  generalize hA2 : around L2 J2 (k - 1) = A2
  generalize hD : around L J k = D
  generalize hD2 : around L2 J2 k = D2
  have c1 := C.diff k
  have j1 := C.leJ (k - 1)
  have j2 := C.leJ k
  have s1 := hW (k - 1)
  have s2 := hW (k + 1)
  have u1 := hu (k - 1)
  have u2 := hu (k + 1)
  rw [hA, hA2, hD, hD2] at c1
  rw [hA] at j1
  rw [hD] at j2
  generalize around L S (k - 1) = p at *
  generalize around L2 S2 (k - 1) = p2 at *
  generalize around L S (k + 1) = q at *
  generalize around L2 S2 (k + 1) = q2 at *
  generalize around L B k = b at *
  generalize around L2 B2 k = b2 at *
  rw [show Spec.sub (Spec.sub (Spec.add (had A p) (had D q)) b) (Spec.sub (Spec.add (had A2 p2) (had D2 q2)) b2)
    = Spec.sub (Spec.add (Spec.add (had A (Spec.sub p p2)) (had (Spec.sub A A2) p2))
        (Spec.add (had D (Spec.sub q q2)) (had (Spec.sub D D2) q2))) (Spec.sub b b2) by
    ext <;> simp only [Spec.sub, Spec.add, had] <;> ring]
  have l1 := len_sub_le (Spec.add (Spec.add (had A (Spec.sub p p2)) (had (Spec.sub A A2) p2))
        (Spec.add (had D (Spec.sub q q2)) (had (Spec.sub D D2) q2))) (Spec.sub b b2)
  have l2 := len_add_le (Spec.add (had A (Spec.sub p p2)) (had (Spec.sub A A2) p2))
        (Spec.add (had D (Spec.sub q q2)) (had (Spec.sub D D2) q2))
  have l3 := len_add_le (had A (Spec.sub p p2)) (had (Spec.sub A A2) p2)
  have l4 := len_add_le (had D (Spec.sub q q2)) (had (Spec.sub D D2) q2)
  have m1 := len_had_le A (Spec.sub p p2)
  have m2 := len_had_le (Spec.sub A A2) p2
  have m3 := len_had_le D (Spec.sub q q2)
  have m4 := len_had_le (Spec.sub D D2) q2
  rw [u1, mul_one] at m2
  rw [u2, mul_one] at m4
  have e1 : len A * len (Spec.sub p p2) ≤ K * (W * (Real.exp a * Real.exp (-(a * d k)))) :=
    mul_le_mul j1 (s1.trans (mul_le_mul_of_nonneg_left n1 W0)) (len_nonneg _) hK
  have e2 : len D * len (Spec.sub q q2) ≤ K * (W * (Real.exp a * Real.exp (-(a * d k)))) :=
    mul_le_mul j2 (s2.trans (mul_le_mul_of_nonneg_left n2 W0)) (len_nonneg _) hK
  nlinarith

omit C in
theorem unit_sub (hL : 2 ≤ L) (hu : ∀ k, len (around L S k) = 1) (par : ℕ) (t : ℝ) (k : ℤ) :
    len (around L (subStep (2 * (L / 2)) par J B t S) k) = 1 := by
  rw [around_subStep hL]
  split
  · rw [len_precess, hu]
  · exact hu k

theorem Close.subStep (hL : 2 ≤ L) (hL2 : 2 ≤ L2) (W0 : 0 ≤ W) (x0 : 0 ≤ x)
    (hW : ∀ k, len (sub (around L S k) (around L2 S2 k))
      ≤ ((W + G * x) * Real.exp (2 * K * Real.exp a * x)) * Real.exp (-(a * d k)))
    (hu : ∀ k, len (around L2 S2 k) = 1) (par : ℕ) {t : ℝ} (t0 : 0 ≤ t) (k : ℤ) :
    len (sub (around L (subStep (2 * (L / 2)) par J B t S) k) (around L2 (subStep (2 * (L2 / 2)) par J2 B2 t S2) k))
      ≤ ((W + G * (x + t)) * Real.exp (2 * K * Real.exp a * (x + t))) * Real.exp (-(a * d k)) := by
  have hK := C.K0
  have hG := C.G0
  have hp := Real.exp_pos (-(a * d k))
  set Q := 2 * K * Real.exp a with hQ
  have Q0 : 0 ≤ Q := by positivity
  have V0 : 0 ≤ (W + G * x) * Real.exp (Q * x) := by positivity
  have grow : (W + G * x) * Real.exp (Q * x) + (Q * ((W + G * x) * Real.exp (Q * x)) + G) * t
      ≤ (W + G * (x + t)) * Real.exp (Q * (x + t)) := by
    have e1 := Real.add_one_le_exp (Q * t)
    have e2 : Real.exp (Q * (x + t)) = Real.exp (Q * x) * Real.exp (Q * t) := by rw [← Real.exp_add]; ring_nf
    have e3 : (1 : ℝ) ≤ Real.exp (Q * (x + t)) := Real.one_le_exp (by positivity)
    have e4 : (W + G * x) * Real.exp (Q * x) * (Q * t + 1) ≤ (W + G * x) * Real.exp (Q * x) * Real.exp (Q * t) :=
      mul_le_mul_of_nonneg_left e1 V0
    have e5 : G * t * 1 ≤ G * t * Real.exp (Q * (x + t)) := mul_le_mul_of_nonneg_left e3 (by positivity)
    calc _ = (W + G * x) * Real.exp (Q * x) * (Q * t + 1) + G * t * 1 := by ring
      _ ≤ (W + G * x) * Real.exp (Q * x) * Real.exp (Q * t) + G * t * Real.exp (Q * (x + t)) := add_le_add e4 e5
      _ = _ := by rw [e2]; ring
  rw [around_subStep hL, around_subStep hL2]
  split
  · refine (precess_dist _ _ _ _ t0).trans ?_
    rw [hu, one_mul]
    have h1 := mul_le_mul_of_nonneg_right (C.field hL hL2 V0 hW hu k) t0
    have h2 := hW k
    have h3 := mul_le_mul_of_nonneg_right grow hp.le
    rw [← hQ] at h1
    linarith
  · refine (hW k).trans ?_
    have h3 := mul_le_mul_of_nonneg_right grow hp.le
    have h4 : 0 ≤ (Q * ((W + G * x) * Real.exp (Q * x)) + G) * t * Real.exp (-(a * d k)) := by positivity
    linarith

theorem Close.step (hL : 2 ≤ L) (hL2 : 2 ≤ L2) (W0 : 0 ≤ W) (x0 : 0 ≤ x)
    (hW : ∀ k, len (sub (around L S k) (around L2 S2 k))
      ≤ ((W + G * x) * Real.exp (2 * K * Real.exp a * x)) * Real.exp (-(a * d k)))
    (hu : ∀ k, len (around L2 S2 k) = 1) {t : ℝ} (t0 : 0 ≤ t) (k : ℤ) :
    len (sub (around L (step (2 * (L / 2)) J B t S) k) (around L2 (step (2 * (L2 / 2)) J2 B2 t S2) k))
      ≤ ((W + G * (x + 2 * t)) * Real.exp (2 * K * Real.exp a * (x + 2 * t))) * Real.exp (-(a * d k)) := by
  have h0 : 0 ≤ t / 2 := by linarith
  have s1 := C.subStep hL hL2 W0 x0 hW hu 0 h0
  have u1 := unit_sub (J := J2) (B := B2) hL2 hu 0 (t / 2)
  have s2 := C.subStep hL hL2 W0 (by linarith) s1 u1 1 t0
  have u2 := unit_sub (J := J2) (B := B2) hL2 u1 1 t
  have s3 := C.subStep hL hL2 W0 (by linarith) s2 u2 0 h0 k
  rw [show x + t / 2 + t + t / 2 = x + 2 * t by ring] at s3
  exact s3

end

end Verif.LightCone
