/-
Helper lemmas for the geometry of `Spin` at ℝ: angles, Gram–Schmidt, flow of `rotate`.
-/
import Verif.Lemmas.Rotate

namespace Verif

open Spec

theorem rotate_unit {s : Spin ℝ} {b : V3 ℝ} (hs : s.dir ≠ zero) (hb : b ≠ zero) (dt : ℝ) :
    IsUnit3 (s.rotate b dt) := by
  have hl := (len_pos hs).ne'
  rw [unit_iff, rotate_eq hb]
  have h := dot_rodr_self (s := s.dir) (dot_nrm hb) (len b * dt)
  rw [← len_sq s.dir] at h
  generalize rodr (nrm b) s.dir (len b * dt) = v at *
  have : dot ⟨v.x / len s.dir, v.y / len s.dir, v.z / len s.dir⟩
      ⟨v.x / len s.dir, v.y / len s.dir, v.z / len s.dir⟩ = dot v v / (len s.dir * len s.dir) := by
    simp only [dot]; field_simp
  rw [this, h, div_self (mul_ne_zero hl hl)]

theorem rotate_dot_axis {s : Spin ℝ} {b : V3 ℝ} (hs : IsUnit3 s) (hb : b ≠ zero) (dt : ℝ) :
    dot (s.rotate b dt).dir b = dot s.dir b := by
  rw [rotate_unit_eq hs hb]
  have h := dot_rodr_axis (s := s.dir) (dot_nrm hb) (len b * dt)
  have e : ∀ v : V3 ℝ, dot v b = len b * dot v (nrm b) := by
    intro v
    conv_lhs => rw [← smul_nrm hb]
    simp only [dot, smul]; ring
  rw [e, e, h]

theorem rodr_hasDeriv {n s : V3 ℝ} (hn : dot n n = 1) (k t : ℝ) :
    HasDeriv3 (fun t => rodr n s (k * t)) (cross (rodr n s (k * t)) (smul k n)) t := by
  have hc : HasDerivAt (fun t => Real.cos (k * t)) (-Real.sin (k * t) * k) t := by
    have := ((hasDerivAt_id' t).const_mul k).cos
    rwa [mul_one] at this
  have hsn : HasDerivAt (fun t => Real.sin (k * t)) (Real.cos (k * t) * k) t := by
    have := ((hasDerivAt_id' t).const_mul k).sin
    rwa [mul_one] at this
  have gen : ∀ a b c : ℝ, HasDerivAt
      (fun t => a * Real.cos (k * t) + b * (1 - Real.cos (k * t)) - c * Real.sin (k * t))
      (a * (-Real.sin (k * t) * k) + b * (0 - (-Real.sin (k * t) * k))
        - c * (Real.cos (k * t) * k)) t := by
    intro a b c
    exact ((hc.const_mul a).add (((hasDerivAt_const t (1:ℝ)).sub hc).const_mul b)).sub
      (hsn.const_mul c)
  simp only [HasDeriv3, rodr, cross, smul]
  simp only [dot] at hn
  obtain ⟨nx, ny, nz⟩ := n
  obtain ⟨x, y, z⟩ := s
  simp only [dot] at *
  refine ⟨?_, ?_, ?_⟩
  · convert gen x (nx * (x * nx + y * ny + z * nz)) (ny * z - nz * y) using 1
    generalize Real.cos (k * t) = c
    generalize Real.sin (k * t) = d
    linear_combination (-(x * d * k)) * hn
  · convert gen y (ny * (x * nx + y * ny + z * nz)) (nz * x - nx * z) using 1
    generalize Real.cos (k * t) = c
    generalize Real.sin (k * t) = d
    linear_combination (-(y * d * k)) * hn
  · convert gen z (nz * (x * nx + y * ny + z * nz)) (nx * y - ny * x) using 1
    generalize Real.cos (k * t) = c
    generalize Real.sin (k * t) = d
    linear_combination (-(z * d * k)) * hn

theorem rotate_hasDeriv {s : Spin ℝ} {b : V3 ℝ} (hs : IsUnit3 s) (hb : b ≠ zero) (t : ℝ) :
    HasDeriv3 (fun t => (s.rotate b t).dir) (cross (s.rotate b t).dir b) t := by
  have h := rodr_hasDeriv (s := s.dir) (dot_nrm hb) (len b) t
  rw [smul_nrm hb] at h
  have e : (fun t => (s.rotate b t).dir) = fun t => rodr (nrm b) s.dir (len b * t) := by
    funext t; exact rotate_unit_eq hs hb t
  rw [e, rotate_unit_eq hs hb]
  exact h

theorem rotate_zero {s : Spin ℝ} {b : V3 ℝ} (hs : IsUnit3 s) (hb : b ≠ zero) :
    s.rotate b 0 = s := by
  ext1
  rw [rotate_unit_eq hs hb, mul_zero, rodr_zero]

theorem rotate_rotate {s : Spin ℝ} {b : V3 ℝ} (hs : IsUnit3 s) (hb : b ≠ zero) (t1 t2 : ℝ) :
    (s.rotate b t1).rotate b t2 = s.rotate b (t1 + t2) := by
  ext1
  rw [rotate_unit_eq (rotate_unit (unit_ne_zero hs) hb t1) hb, rotate_unit_eq hs hb,
    rotate_unit_eq hs hb, rodr_rodr (dot_nrm hb), mul_add]

theorem angles_unit (theta phi : ℝ) : IsUnit3 (Spin.new_from_angles theta phi) := by
  rw [unit_iff]
  simp only [Spin.new_from_angles, dot, fcos_real, fsin_real]
  have h1 := Real.sin_sq_add_cos_sq theta
  have h2 := Real.sin_sq_add_cos_sq phi
  linear_combination Real.sin phi ^ 2 * h1 + h2

/-- On the unit sphere the projection to the x-y plane has length `sin φ`. -/
theorem sin_phi {s : Spin ℝ} (hs : IsUnit3 s) :
    Real.sin s.phi = Real.sqrt (s.dir.x * s.dir.x + s.dir.y * s.dir.y) := by
  rw [unit_iff] at hs
  simp only [Spin.phi, facos_real, Real.sin_arccos]
  congr 1
  simp only [dot] at hs
  linarith

theorem cos_phi {s : Spin ℝ} (hs : IsUnit3 s) : Real.cos s.phi = s.dir.z := by
  rw [unit_iff] at hs
  simp only [dot] at hs
  simp only [Spin.phi, facos_real]
  apply Real.cos_arccos <;> nlinarith [sq_nonneg s.dir.x, sq_nonneg s.dir.y]

theorem sqrt_one_add_div {x y : ℝ} (hx : x ≠ 0) :
    Real.sqrt (1 + (y / x) ^ 2) = Real.sqrt (x * x + y * y) / |x| := by
  have : 1 + (y / x) ^ 2 = (x * x + y * y) / (|x| * |x|) := by
    rw [abs_mul_abs_self]; field_simp
  rw [this, Real.sqrt_div (by nlinarith [mul_self_nonneg x, mul_self_nonneg y]), Real.sqrt_mul_self (abs_nonneg x)]

theorem angles_roundtrip {s : Spin ℝ} (hs : IsUnit3 s) (hx : s.dir.x ≠ 0) :
    Spin.new_from_angles s.theta s.phi = s := by
  have hsin := sin_phi hs
  have hcos := cos_phi hs
  have hpos : 0 < s.dir.x * s.dir.x + s.dir.y * s.dir.y := by
    have := mul_self_pos.2 hx
    nlinarith [mul_self_nonneg s.dir.y]
  have hr := Real.sqrt_pos.2 hpos
  have hct : Real.cos s.theta = s.dir.x / Real.sqrt (s.dir.x * s.dir.x + s.dir.y * s.dir.y) ∧
      Real.sin s.theta = s.dir.y / Real.sqrt (s.dir.x * s.dir.x + s.dir.y * s.dir.y) := by
    simp only [Spin.theta, flt_real, fatan_real, fpi_real, lit_0, decide_eq_true_eq]
    by_cases h : 0 < s.dir.x
    · rw [if_pos h, add_zero, Real.cos_arctan, Real.sin_arctan, sqrt_one_add_div hx, abs_of_pos h]
      constructor <;> field_simp
    · have hn : s.dir.x < 0 := lt_of_le_of_ne (not_lt.1 h) hx
      rw [if_neg h, Real.cos_add_pi, Real.sin_add_pi, Real.cos_arctan, Real.sin_arctan,
        sqrt_one_add_div hx, abs_of_neg hn]
      constructor <;> field_simp
  ext <;> simp only [Spin.new_from_angles, fcos_real, fsin_real]
  · rw [hct.1, hsin]; field_simp
  · rw [hct.2, hsin]; field_simp
  · exact hcos

/-- The Gram–Schmidt residue before normalisation. -/
noncomputable def gsSub (old perp : V3 ℝ) : V3 ℝ :=
  ⟨perp.x - dot perp old * old.x / dot old old, perp.y - dot perp old * old.y / dot old old,
    perp.z - dot perp old * old.z / dot old old⟩

theorem gs_eq (old perp : V3 ℝ) : Spin.gs old perp = nrm (gsSub old perp) := by
  simp only [Spin.gs, nrm, sumSq_real, fsqrt_real]
  rfl

theorem gsSub_dot_old {old : V3 ℝ} (ho : old ≠ zero) (perp : V3 ℝ) :
    dot (gsSub old perp) old = 0 := by
  have h := (dot_self_pos ho).ne'
  have h2 : dot (gsSub old perp) old = dot perp old - dot perp old / dot old old * dot old old := by
    simp only [gsSub]
    conv_lhs => rw [dot]
    conv_rhs => rw [show ∀ a b : V3 ℝ, ∀ c, dot a b - c * dot old old
      = dot a b - c * (old.x * old.x + old.y * old.y + old.z * old.z) from fun _ _ _ => rfl]
    conv_rhs => arg 1; rw [dot]
    ring
  rw [h2, div_mul_cancel₀ _ h, sub_self]

theorem gsSub_ne_zero {old perp : V3 ℝ} (ho : old ≠ zero)
    (hind : cross old perp ≠ zero) : gsSub old perp ≠ zero := by
  intro h
  apply hind
  have hx : perp.x = dot perp old * old.x / dot old old := by
    have := congrArg V3.x h; simp only [gsSub, zero] at this; linarith
  have hy : perp.y = dot perp old * old.y / dot old old := by
    have := congrArg V3.y h; simp only [gsSub, zero] at this; linarith
  have hz : perp.z = dot perp old * old.z / dot old old := by
    have := congrArg V3.z h; simp only [gsSub, zero] at this; linarith
  have hd := (dot_self_pos ho).ne'
  generalize dot perp old = d at *
  generalize dot old old = q at *
  ext <;> simp only [cross, zero] <;> simp only [hx, hy, hz] <;> ring

end Verif
