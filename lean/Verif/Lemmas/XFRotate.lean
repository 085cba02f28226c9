/-
On finite inputs the extended scalars compute what the reals compute.
-/
import Verif.Lemmas.SpinGeom
import Verif.Spec.Exact

namespace Verif

open Spec

theorem rep_lit (m : ℕ) (s : Bool) (e : ℕ) :
    (OfScientific.ofScientific m s e : XF).Rep (OfScientific.ofScientific m s e : ℝ) := Or.inl rfl

theorem rep_sumSq {v : V3 XF} {r : V3 ℝ} (h : Rep3 v r) : (sumSq v).Rep (sumSq r) :=
  (((rep_lit _ _ _).add (h.1.mul h.1)).add (h.2.1.mul h.2.1)).add (h.2.2.mul h.2.2)

theorem rep_rotate {s : Spin XF} {field : V3 XF} {dt : XF} {sr fr : V3 ℝ} {tr : ℝ}
    (hs : Rep3 s.dir sr) (hf : Rep3 field fr) (ht : dt.Rep tr) (hs0 : sr ≠ zero)
    (hf0 : fr ≠ zero) : Rep3 (s.rotate field dt).dir ((⟨sr⟩ : Spin ℝ).rotate fr tr).dir := by
  have hfs := (rep_sumSq hf).sqrt (by rw [sumSq_real]; exact dot_self_nonneg _)
  have hfs0 : Real.sqrt (sumSq fr) ≠ 0 := by
    rw [sumSq_real]; exact (len_pos hf0).ne'
  have fx := hf.1.div hfs hfs0
  have fy := hf.2.1.div hfs hfs0
  have fz := hf.2.2.div hfs hfs0
  have dts := hfs.mul ht
  have dc := dts.cos
  have ds := dts.sin
  obtain ⟨sx, sy, sz⟩ := hs
  have axp := (((rep_lit 0 true 1).add (sx.mul fx)).add (sy.mul fy)).add (sz.mul fz)
  have one := rep_lit 10 true 1
  have ox := (fy.mul sz).sub (fz.mul sy)
  have oy := (fz.mul sx).sub (fx.mul sz)
  have oz := (fx.mul sy).sub (fy.mul sx)
  have vx := ((sx.mul dc).add ((fx.mul axp).mul (one.sub dc))).sub (ox.mul ds)
  have vy := ((sy.mul dc).add ((fy.mul axp).mul (one.sub dc))).sub (oy.mul ds)
  have vz := ((sz.mul dc).add ((fz.mul axp).mul (one.sub dc))).sub (oz.mul ds)
  have hv := rep_sumSq (v := ⟨_, _, _⟩) (r := ⟨_, _, _⟩) ⟨vx, vy, vz⟩
  have hss := hv.sqrt (by rw [sumSq_real]; exact dot_self_nonneg _)
  refine ⟨vx.div hss ?_, vy.div hss ?_, vz.div hss ?_⟩ <;>
  · intro h
    -- the length before renormalisation is the length of the spin
    have hl := len_pos hs0
    have key : rodr (nrm fr) sr (len fr * tr) = zero := by
      rw [sumSq_real] at h
      have h2 := dot_self_eq_zero.1 ((Real.sqrt_eq_zero (dot_self_nonneg _)).1 h)
      have h1 : Real.sqrt (sumSq fr) = len fr := by rw [sumSq_real]; rfl
      rw [← h2]
      simp only [fsqrt_real, fcos_real, fsin_real, h1, rodr, nrm, dot, lit_0, lit_1, zero_add]
    have := dot_rodr_self (s := sr) (dot_nrm hf0) (len fr * tr)
    rw [key] at this
    have h2 := dot_self_pos hs0
    rw [← this] at h2
    simp [dot, zero] at h2

end Verif
