/-
C112: the drives against their documentation (/repo/src/config.rs lines 6-17 and README.md, and
/repo/src/spinchain.rs `h_ext`, lines 1712-1740).
-/
import Verif.Props.Dynamics
import Verif.Props.Init

namespace Verif.Props

open Spec

/-- the drives as documented in src/config.rs lines 7-16; `staticfield` is "constant", its value is not documented -/
noncomputable def documentedDrive (d : DriveType) (e tau : ℝ) (hs : V3 ℝ) (t : ℝ) : V3 ℝ :=
  match d with
  | .xyplane => ⟨Real.cos (2 * Real.pi * t / tau), Real.sin (2 * Real.pi * t / tau), 0⟩
  | .xyelliptic =>
      ⟨e * Real.cos (2 * Real.pi * t / tau), Real.sqrt (1 - e ^ 2) * Real.sin (2 * Real.pi * t / tau), 0⟩
  | .uniaxial => ⟨Real.cos (2 * Real.pi * t / tau), 0, 0⟩
  | .staticfield => hs
  | .none => zero

/-- C112: all drives except the elliptic one are as documented. -/
theorem C112_documented (c : SpinChain ℝ) (a b d : ℝ) (rest : List ℝ) (hs : c.vars.hs = a :: b :: d :: rest)
    (hd : c.vars.drive ≠ .xyelliptic) (t : ℝ) :
    c.h_ext t = .ok (documentedDrive c.vars.drive c.vars.e c.vars.tau ⟨a, b, d⟩ t) := by
  unfold SpinChain.h_ext documentedDrive
  cases h : c.vars.drive
  · simp [lit_2, lit_0]
    rfl
  · exact absurd h hd
  · simp [lit_2, lit_0]
    rfl
  · simp only
    rw [hs]
    rfl
  · simp only [lit_0]
    rfl

/-- C112, the elliptic drive: for no value of `e` and no period is it the documented one. -/
theorem C112_elliptic (c : SpinChain ℝ) (hd : c.vars.drive = .xyelliptic) (ht : c.vars.tau ≠ 0) (hs : V3 ℝ) :
    ¬ ∀ t, c.h_ext t = .ok (documentedDrive c.vars.drive c.vars.e c.vars.tau hs t) := by
  intro h
  have h1 := h 0
  have h2 := h (c.vars.tau / 4)
  have e2 : 2 * Real.pi * (c.vars.tau / 4) / c.vars.tau = Real.pi / 2 := by
    field_simp
    ring
  unfold SpinChain.h_ext documentedDrive at h1 h2
  rw [hd] at h1 h2
  simp only [lit_2, lit_0, fpi_real, fcos_real, fsin_real, e2, mul_zero, zero_div, Real.cos_zero, Real.sin_zero,
    Real.cos_pi_div_two, Real.sin_pi_div_two, mul_one] at h1 h2
  injection h1 with h1
  injection h2 with h2
  have e1 : (1 : ℝ) = c.vars.e := congrArg V3.x h1
  have e3 : c.vars.e = Real.sqrt (1 - c.vars.e ^ 2) := congrArg V3.y h2
  rw [← e1] at e3
  norm_num at e3

/-- C112: the tip of the elliptic drive runs on the ellipse with semi-axes 1 along x and `|e|` along y, whose
eccentricity is `√(1 - e²)`; it is `e` only for `e = 1/√2`. -/
theorem C112_ellipse (c : SpinChain ℝ) (hd : c.vars.drive = .xyelliptic) (he : 0 < c.vars.e) (he1 : c.vars.e ≤ 1) :
    (∀ t, ∃ v, c.h_ext t = .ok v ∧ v.x ^ 2 + (v.y / c.vars.e) ^ 2 = 1 ∧ v.z = 0) ∧
      (Real.sqrt (1 - c.vars.e ^ 2) = c.vars.e ↔ c.vars.e ^ 2 = 1 / 2) := by
  constructor
  · intro t
    unfold SpinChain.h_ext
    rw [hd]
    simp only [lit_2, lit_0, fpi_real, fcos_real, fsin_real]
    refine ⟨_, rfl, ?_, rfl⟩
    dsimp only
    rw [mul_div_cancel_left₀ _ he.ne', Real.cos_sq_add_sin_sq]
  · rw [Real.sqrt_eq_iff_mul_self_eq (by nlinarith) he.le]
    constructor <;> intro h <;> nlinarith

/-- C112, the static drive: a new chain with drive `staticfield` feels the field `hs` of the subsystem twice on every
site of the subsystem, once from the static fields and once from the drive. -/
theorem C112_static_twice (conf : Config ℝ) (num : ℕ) (u zj zh : ℕ → ℝ) (L s : ℕ)
    (hL : conf.hsize = L) (hlt : L < 2 ^ 31) (hs : conf.ssize = s) (f h : V3 ℝ) (fr hr : List ℝ)
    (hf : conf.hfield = f.x :: f.y :: f.z :: fr) (hh : conf.hs = h.x :: h.y :: h.z :: hr)
    (hd : conf.drive = .staticfield) (c : SpinChain ℝ) (hc : SpinChain.new conf num u zj zh = .ok c) (t : ℝ) :
    ∀ i < L, B c s t i = add (if i < s then add f (smul 2 h) else f)
      (smul conf.hvar ⟨zh (3 * i), zh (3 * i + 1), zh (3 * i + 2)⟩) := by
  intro i hi
  obtain ⟨c', h1, h2⟩ := C12_couplings_fields conf num u zj zh L hL hlt f h fr hr hf hh
  rw [hc] at h1
  injection h1 with h1
  subst h1
  have hv : c.vars = conf := by
    obtain ⟨c', h1, -, -, -, -, h3, -⟩ := C11_new_wf conf num u zj zh L hL hlt (by rw [hf]; simp) (by rw [hh]; simp) rfl rfl
    rw [hc] at h1
    injection h1 with h1
    rw [h1, h3]
  unfold B
  rw [(h2 i hi).2, hs]
  by_cases his : i < s
  · rw [if_pos his, if_pos his, if_pos (by exact_mod_cast his)]
    unfold drive
    rw [hv, hd]
    simp only [hh]
    ext <;> simp [add, smul] <;> ring
  · rw [if_neg his, if_neg his, if_neg (by exact_mod_cast his)]

/-- the fields of the drives are those of configurations that can be chosen -/
example : ∃ c : SpinChain ℝ, c.vars.drive = .xyelliptic ∧ c.vars.tau ≠ 0 ∧ 0 < c.vars.e ∧ c.vars.e ≤ 1 :=
  ⟨{ j_couple := []
     static_h := []
     spins := []
     t := 0
     vars := { (Config.default : Config ℝ) with drive := .xyelliptic }
     file := none }, rfl, by norm_num [Config.default], by norm_num [Config.default], by norm_num [Config.default]⟩

example (u zj zh : ℕ → ℝ) : ∃ c : SpinChain ℝ, SpinChain.new { (Config.default : Config ℝ) with
      drive := .staticfield
      hs := [1, 2, 3] } 0 u zj zh = .ok c ∧ c.spins.length = 512 := by
  obtain ⟨c, h1, h2, -⟩ := C11_new_wf { (Config.default : Config ℝ) with
      drive := .staticfield
      hs := [1, 2, 3] } 0 u zj zh 512 rfl (by norm_num) (by simp [Config.default]) (by simp) rfl rfl
  exact ⟨c, h1, h2⟩

end Verif.Props
