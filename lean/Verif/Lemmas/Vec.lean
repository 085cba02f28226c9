/-
Helper lemmas about three-component vectors.
-/
import Verif.Spec.Vec
import Verif.Instances.Real

namespace Verif

open Spec

theorem dot_self_nonneg (a : V3 ℝ) : 0 ≤ dot a a := by
  unfold dot; nlinarith [sq_nonneg a.x, sq_nonneg a.y, sq_nonneg a.z]

theorem len_sq (a : V3 ℝ) : len a * len a = dot a a := Real.mul_self_sqrt (dot_self_nonneg a)

theorem len_nonneg (a : V3 ℝ) : 0 ≤ len a := Real.sqrt_nonneg _

theorem dot_self_eq_zero {a : V3 ℝ} : dot a a = 0 ↔ a = zero := by
  constructor
  · intro h
    unfold dot at h
    have hx : a.x = 0 := by nlinarith [sq_nonneg a.x, sq_nonneg a.y, sq_nonneg a.z]
    have hy : a.y = 0 := by nlinarith [sq_nonneg a.x, sq_nonneg a.y, sq_nonneg a.z]
    have hz : a.z = 0 := by nlinarith [sq_nonneg a.x, sq_nonneg a.y, sq_nonneg a.z]
    ext <;> simp [hx, hy, hz, zero]
  · rintro rfl; simp [dot, zero]

theorem dot_self_pos {a : V3 ℝ} (h : a ≠ zero) : 0 < dot a a :=
  lt_of_le_of_ne (dot_self_nonneg a) fun h' => h (dot_self_eq_zero.1 h'.symm)

theorem len_pos {a : V3 ℝ} (h : a ≠ zero) : 0 < len a := Real.sqrt_pos.2 (dot_self_pos h)

theorem unit_iff {s : Spin ℝ} : IsUnit3 s ↔ dot s.dir s.dir = 1 := by
  unfold IsUnit3
  constructor
  · intro h; rw [← len_sq, h]; norm_num
  · intro h; unfold len; rw [h]; exact Real.sqrt_one

theorem unit_ne_zero {s : Spin ℝ} (h : IsUnit3 s) : s.dir ≠ zero := by
  intro h'
  rw [unit_iff, h'] at h
  simp [dot, zero] at h

theorem sumSq_real (v : V3 ℝ) : sumSq v = dot v v := by
  simp [sumSq, dot]

/-- Lagrange identity -/
theorem lagrange (a b : V3 ℝ) :
    dot (cross a b) (cross a b) = dot a a * dot b b - dot a b * dot a b := by
  simp only [dot, cross]; ring

theorem cross_dot_left (a b : V3 ℝ) : dot (cross a b) a = 0 := by
  simp only [dot, cross]; ring

theorem cross_dot_right (a b : V3 ℝ) : dot (cross a b) b = 0 := by
  simp only [dot, cross]; ring

theorem dot_comm (a b : V3 ℝ) : dot a b = dot b a := by
  simp only [dot]; ring

/-- Cauchy–Schwarz -/
theorem dot_sq_le (a b : V3 ℝ) : dot a b * dot a b ≤ dot a a * dot b b := by
  have := dot_self_nonneg (cross a b)
  rw [lagrange] at this
  linarith

end Verif
