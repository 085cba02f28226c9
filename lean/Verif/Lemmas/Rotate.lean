/-
Helper lemmas about `Spin::rotate` at ℝ: the closed (Rodrigues) form and its algebra.
-/
import Verif.Lemmas.Vec
import Mathlib.Analysis.SpecialFunctions.Trigonometric.Deriv
import Mathlib.Tactic.LinearCombination

namespace Verif

open Spec

/-- Rodrigues rotation of `s` about the unit vector `n` by the angle `-a`. -/
noncomputable def rodr (n s : V3 ℝ) (a : ℝ) : V3 ℝ :=
  ⟨s.x * Real.cos a + n.x * dot s n * (1 - Real.cos a) - (n.y * s.z - n.z * s.y) * Real.sin a,
   s.y * Real.cos a + n.y * dot s n * (1 - Real.cos a) - (n.z * s.x - n.x * s.z) * Real.sin a,
   s.z * Real.cos a + n.z * dot s n * (1 - Real.cos a) - (n.x * s.y - n.y * s.x) * Real.sin a⟩

/-- the direction of a vector -/
noncomputable def nrm (b : V3 ℝ) : V3 ℝ := ⟨b.x / len b, b.y / len b, b.z / len b⟩

theorem dot_nrm {b : V3 ℝ} (h : b ≠ zero) : dot (nrm b) (nrm b) = 1 := by
  have hl := (len_pos h).ne'
  have h2 := len_sq b
  have : dot (nrm b) (nrm b) = dot b b / (len b * len b) := by
    simp only [dot, nrm]; field_simp
  rw [this, h2, div_self (dot_self_pos h).ne']

theorem smul_nrm {b : V3 ℝ} (h : b ≠ zero) : smul (len b) (nrm b) = b := by
  have hl := (len_pos h).ne'
  ext <;> simp only [smul, nrm] <;> field_simp

theorem dot_rodr_self {n s : V3 ℝ} (hn : dot n n = 1) (a : ℝ) :
    dot (rodr n s a) (rodr n s a) = dot s s := by
  have hc := Real.sin_sq_add_cos_sq a
  simp only [dot] at hn ⊢
  simp only [rodr, dot]
  generalize Real.cos a = c at *
  generalize Real.sin a = t at *
  obtain ⟨nx, ny, nz⟩ := n
  obtain ⟨x, y, z⟩ := s
  simp only at *
  have e : t ^ 2 = 1 - c ^ 2 := by linarith
  linear_combination (2 * c * (1 - c) * (x*nx+y*ny+z*nz)^2 * 0 + (1-c)^2 * (x*nx+y*ny+z*nz)^2 + t^2 * (x^2+y^2+z^2)) * hn
    + ((x^2+y^2+z^2) - (x*nx+y*ny+z*nz)^2) * hc

theorem dot_rodr_axis {n s : V3 ℝ} (hn : dot n n = 1) (a : ℝ) : dot (rodr n s a) n = dot s n := by
  simp only [dot] at hn ⊢
  simp only [rodr, dot]
  obtain ⟨nx, ny, nz⟩ := n
  obtain ⟨x, y, z⟩ := s
  simp only at *
  linear_combination (1 - Real.cos a) * (x*nx+y*ny+z*nz) * hn

theorem rodr_zero (n s : V3 ℝ) : rodr n s 0 = s := by
  ext <;> simp [rodr]

theorem rodr_rodr {n s : V3 ℝ} (hn : dot n n = 1) (a b : ℝ) :
    rodr n (rodr n s a) b = rodr n s (a + b) := by
  have hd := dot_rodr_axis (s := s) hn a
  have hx : rodr n (rodr n s a) b =
      ⟨(rodr n s a).x * Real.cos b + n.x * dot s n * (1 - Real.cos b)
          - (n.y * (rodr n s a).z - n.z * (rodr n s a).y) * Real.sin b,
       (rodr n s a).y * Real.cos b + n.y * dot s n * (1 - Real.cos b)
          - (n.z * (rodr n s a).x - n.x * (rodr n s a).z) * Real.sin b,
       (rodr n s a).z * Real.cos b + n.z * dot s n * (1 - Real.cos b)
          - (n.x * (rodr n s a).y - n.y * (rodr n s a).x) * Real.sin b⟩ := by
    rw [← hd]
    rfl
  rw [hx]
  simp only [rodr, Real.cos_add, Real.sin_add]
  simp only [dot] at hn ⊢
  obtain ⟨nx, ny, nz⟩ := n
  obtain ⟨x, y, z⟩ := s
  simp only at *
  generalize Real.cos a = ca at *
  generalize Real.cos b = cb at *
  generalize Real.sin a = sa at *
  generalize Real.sin b = sb at *
  ext <;> simp only
  · linear_combination (-(x * sa * sb)) * hn
  · linear_combination (-(y * sa * sb)) * hn
  · linear_combination (-(z * sa * sb)) * hn

/-- Closed form of the model's `rotate`: Rodrigues rotation, then division by the length of the
spin. -/
theorem rotate_eq {s : Spin ℝ} {b : V3 ℝ} (hb : b ≠ zero) (dt : ℝ) :
    (s.rotate b dt).dir =
      ⟨(rodr (nrm b) s.dir (len b * dt)).x / len s.dir,
       (rodr (nrm b) s.dir (len b * dt)).y / len s.dir,
       (rodr (nrm b) s.dir (len b * dt)).z / len s.dir⟩ := by
  have h1 : Real.sqrt (sumSq b) = len b := by rw [sumSq_real]; rfl
  have hl : len s.dir = Real.sqrt (sumSq (rodr (nrm b) s.dir (len b * dt))) := by
    rw [sumSq_real, dot_rodr_self (dot_nrm hb)]; rfl
  rw [hl]
  simp only [Spin.rotate, fsqrt_real, fcos_real, fsin_real, h1]
  simp only [rodr, nrm, dot, lit_0, lit_1, zero_add]

theorem rotate_unit_eq {s : Spin ℝ} (hs : IsUnit3 s) {b : V3 ℝ} (hb : b ≠ zero) (dt : ℝ) :
    (s.rotate b dt).dir = rodr (nrm b) s.dir (len b * dt) := by
  rw [rotate_eq hb, show len s.dir = 1 from hs]
  ext <;> simp

end Verif
