/-
Helper lemmas: vectors of size O(h^k), uniformly over a family; expansion of precession to second
order; dependence of precession on the spin and the field.
-/
import Verif.Lemmas.Consistency
import Verif.Lemmas.EnergyModel
import Verif.Props.Dynamics
import Mathlib.Analysis.Calculus.MeanValue

namespace Verif

open Spec

/-! ### lengths -/

theorem abs_dot_le_len (a b : V3 ℝ) : |dot a b| ≤ len a * len b := by
  apply abs_le_of_sq_le_sq _ (mul_nonneg (len_nonneg a) (len_nonneg b))
  have := dot_sq_le a b
  rw [← len_sq a, ← len_sq b] at this
  nlinarith

theorem len_smul (r : ℝ) (a : V3 ℝ) : len (smul r a) = |r| * len a := by
  unfold len
  rw [show dot (smul r a) (smul r a) = r ^ 2 * dot a a by simp only [dot, smul]; ring,
    Real.sqrt_mul (sq_nonneg r), Real.sqrt_sq_eq_abs]

theorem len_neg (a : V3 ℝ) : len (neg a) = len a := by
  unfold len; congr 1; simp only [dot, neg]; ring

theorem len_sub_le (a b : V3 ℝ) : len (Spec.sub a b) ≤ len a + len b := by
  have := len_add_le a (neg b)
  rw [len_neg] at this
  rwa [show Spec.sub a b = Spec.add a (neg b) by ext <;> simp only [Spec.sub, Spec.add, neg] <;> ring]

theorem len_sub_comm (a b : V3 ℝ) : len (Spec.sub a b) = len (Spec.sub b a) := by
  unfold len; congr 1; simp only [dot, Spec.sub]; ring

theorem len_sub_tri (a b c : V3 ℝ) : len (Spec.sub a c) ≤ len (Spec.sub a b) + len (Spec.sub b c) := by
  have := len_add_le (Spec.sub a b) (Spec.sub b c)
  rwa [show Spec.add (Spec.sub a b) (Spec.sub b c) = Spec.sub a c by
    ext <;> simp only [Spec.sub, Spec.add] <;> ring] at this

theorem le_len_of_dot {a : V3 ℝ} {r : ℝ} (hr : 0 ≤ r) (h : dot a a ≤ r * r) : len a ≤ r :=
  Real.sqrt_le_iff.2 ⟨hr, by nlinarith⟩

theorem len_cross_le (a b : V3 ℝ) : len (cross a b) ≤ len a * len b := by
  apply le_len_of_dot (mul_nonneg (len_nonneg a) (len_nonneg b))
  have h : dot (cross a b) (cross a b) + dot a b * dot a b = dot a a * dot b b := by
    simp only [dot, cross]; ring
  rw [← len_sq a, ← len_sq b] at h
  nlinarith [mul_self_nonneg (dot a b)]

theorem len_had_le (a b : V3 ℝ) : len (had a b) ≤ len a * len b := by
  apply le_len_of_dot (mul_nonneg (len_nonneg a) (len_nonneg b))
  have h1 : len a * len b * (len a * len b) = dot a a * dot b b := by
    rw [← len_sq a, ← len_sq b]; ring
  rw [h1]
  simp only [dot, had]
  nlinarith [mul_self_nonneg (a.x * b.y), mul_self_nonneg (a.x * b.z), mul_self_nonneg (a.y * b.x),
    mul_self_nonneg (a.y * b.z), mul_self_nonneg (a.z * b.x), mul_self_nonneg (a.z * b.y)]

/-- length from inner products with unit directions -/
theorem len_le_of_dir {a : V3 ℝ} {K : ℝ} (hK : 0 ≤ K) (h : ∀ u, len u ≤ 1 → dot u a ≤ K) :
    len a ≤ K := by
  by_cases h0 : a = zero
  · rw [h0, len_zero]; exact hK
  · have hp := len_pos h0
    have := h (smul (1 / len a) a) (by rw [len_smul, abs_of_pos (by positivity)]; field_simp; rfl)
    have e : dot (smul (1 / len a) a) a = len a := by
      rw [show dot (smul (1 / len a) a) a = (1 / len a) * dot a a by simp only [dot, smul]; ring,
        ← len_sq]
      field_simp
    rwa [e] at this

/-- mean value inequality for curves in space -/
theorem len_int {f g : ℝ → V3 ℝ} {h K : ℝ} (h0 : 0 ≤ h) (hK : 0 ≤ K)
    (hd : ∀ u, 0 ≤ u → u ≤ h → HasDeriv3 f (g u) u) (hg : ∀ u, 0 ≤ u → u ≤ h → len (g u) ≤ K) :
    len (Spec.sub (f h) (f 0)) ≤ K * h := by
  apply len_le_of_dir (mul_nonneg hK h0)
  intro d hd1
  have hder : ∀ u ∈ Set.Icc (0 : ℝ) h, HasDerivWithinAt (fun u => dot d (f u)) (dot d (g u)) (Set.Icc 0 h) u := by
    intro u hu
    obtain ⟨a, b, c⟩ := hd u hu.1 hu.2
    have := ((a.const_mul d.x).add (b.const_mul d.y)).add (c.const_mul d.z)
    exact this.hasDerivWithinAt
  have hb : ∀ u ∈ Set.Icc (0 : ℝ) h, ‖dot d (g u)‖ ≤ K := by
    intro u hu
    rw [Real.norm_eq_abs]
    have h1 := abs_dot_le_len d (g u)
    have h2 := hg u hu.1 hu.2
    have h3 := len_nonneg (g u)
    nlinarith
  have := (convex_Icc (0 : ℝ) h).norm_image_sub_le_of_norm_hasDerivWithin_le hder hb
    (Set.left_mem_Icc.2 h0) (Set.right_mem_Icc.2 h0)
  rw [Real.norm_eq_abs, Real.norm_eq_abs, sub_zero, abs_of_nonneg h0] at this
  have h4 := le_of_abs_le this
  have e : dot d (Spec.sub (f h) (f 0)) = dot d (f h) - dot d (f 0) := by
    simp only [dot, Spec.sub]; ring
  rw [e]
  exact h4

/-! ### expansion of precession -/

theorem precess_hasDeriv (v Ω : V3 ℝ) (t : ℝ) :
    HasDeriv3 (fun t => precess v Ω t) (cross (precess v Ω t) Ω) t :=
  (Props.C30_precess_is_flow v Ω t).2

theorem hasDeriv3_sub {f g : ℝ → V3 ℝ} {f' g' : V3 ℝ} {t : ℝ} (hf : HasDeriv3 f f' t)
    (hg : HasDeriv3 g g' t) : HasDeriv3 (fun u => Spec.sub (f u) (g u)) (Spec.sub f' g') t :=
  ⟨hf.1.sub hg.1, hf.2.1.sub hg.2.1, hf.2.2.sub hg.2.2⟩

theorem hasDeriv3_lin (v : V3 ℝ) (t : ℝ) : HasDeriv3 (fun u => smul u v) v t := by
  refine ⟨?_, ?_, ?_⟩
  · simpa [smul] using (hasDerivAt_id t).mul_const v.x
  · simpa [smul] using (hasDerivAt_id t).mul_const v.y
  · simpa [smul] using (hasDerivAt_id t).mul_const v.z

theorem hasDeriv3_quad (v : V3 ℝ) (t : ℝ) : HasDeriv3 (fun u => smul (u ^ 2 / 2) v) (smul t v) t := by
  have h : HasDerivAt (fun u : ℝ => u ^ 2 / 2) t t := by
    have := (hasDerivAt_pow 2 t).div_const 2
    simpa using this
  exact ⟨h.mul_const v.x, h.mul_const v.y, h.mul_const v.z⟩

theorem precess_order1 (v Ω : V3 ℝ) {t : ℝ} (ht : 0 ≤ t) :
    len (Spec.sub (precess v Ω t) v) ≤ len v * len Ω * t := by
  have := len_int (f := fun t => precess v Ω t) (g := fun t => cross (precess v Ω t) Ω) ht
    (mul_nonneg (len_nonneg v) (len_nonneg Ω)) (fun u _ _ => precess_hasDeriv v Ω u)
    (fun u _ _ => by
      have := len_cross_le (precess v Ω u) Ω
      rwa [len_precess] at this)
  rwa [precess_zero] at this

theorem precess_order2 (v Ω : V3 ℝ) {t : ℝ} (ht : 0 ≤ t) :
    len (Spec.sub (Spec.sub (precess v Ω t) v) (smul t (cross v Ω))) ≤ len v * len Ω ^ 2 * t ^ 2 := by
  have := len_int (f := fun t => Spec.sub (Spec.sub (precess v Ω t) v) (smul t (cross v Ω)))
    (g := fun t => Spec.sub (Spec.sub (cross (precess v Ω t) Ω) zero) (cross v Ω))
    (K := len v * len Ω ^ 2 * t) ht
    (mul_nonneg (mul_nonneg (len_nonneg v) (sq_nonneg _)) ht)
    (fun u _ _ => hasDeriv3_sub (hasDeriv3_sub (precess_hasDeriv v Ω u) (hasDeriv3_const v u))
      (hasDeriv3_lin _ u))
    (fun u h0 h1 => by
      rw [show Spec.sub (Spec.sub (cross (precess v Ω u) Ω) zero) (cross v Ω)
        = cross (Spec.sub (precess v Ω u) v) Ω by
          ext <;> simp only [Spec.sub, cross, zero] <;> ring]
      have e1 := len_cross_le (Spec.sub (precess v Ω u) v) Ω
      have e2 := precess_order1 v Ω h0
      have e3 : len v * len Ω * u * len Ω ≤ len v * len Ω ^ 2 * t := by
        have : 0 ≤ len v * len Ω ^ 2 := mul_nonneg (len_nonneg v) (sq_nonneg _)
        nlinarith
      have e4 := mul_le_mul_of_nonneg_right e2 (len_nonneg Ω)
      linarith)
  have e : Spec.sub (Spec.sub (Spec.sub (precess v Ω t) v) (smul t (cross v Ω)))
      (Spec.sub (Spec.sub (precess v Ω 0) v) (smul 0 (cross v Ω)))
      = Spec.sub (Spec.sub (precess v Ω t) v) (smul t (cross v Ω)) := by
    rw [precess_zero]; ext <;> simp only [Spec.sub, smul] <;> ring
  rw [e] at this
  refine this.trans (le_of_eq (by ring))

theorem precess_order3 (v Ω : V3 ℝ) {t : ℝ} (ht : 0 ≤ t) :
    len (Spec.sub (Spec.sub (Spec.sub (precess v Ω t) v) (smul t (cross v Ω)))
      (smul (t ^ 2 / 2) (cross (cross v Ω) Ω))) ≤ len v * len Ω ^ 3 * t ^ 3 := by
  have hO := len_nonneg Ω
  have hv := len_nonneg v
  have := len_int (f := fun t => Spec.sub (Spec.sub (Spec.sub (precess v Ω t) v) (smul t (cross v Ω)))
      (smul (t ^ 2 / 2) (cross (cross v Ω) Ω)))
    (g := fun t => Spec.sub (Spec.sub (Spec.sub (cross (precess v Ω t) Ω) zero) (cross v Ω))
      (smul t (cross (cross v Ω) Ω)))
    (K := len v * len Ω ^ 3 * t ^ 2) ht (by positivity)
    (fun u _ _ => hasDeriv3_sub (hasDeriv3_sub (hasDeriv3_sub (precess_hasDeriv v Ω u)
      (hasDeriv3_const v u)) (hasDeriv3_lin _ u)) (hasDeriv3_quad _ u))
    (fun u h0 h1 => by
      rw [show Spec.sub (Spec.sub (Spec.sub (cross (precess v Ω u) Ω) zero) (cross v Ω))
          (smul u (cross (cross v Ω) Ω))
        = cross (Spec.sub (Spec.sub (precess v Ω u) v) (smul u (cross v Ω))) Ω by
          ext <;> simp only [Spec.sub, cross, zero, smul] <;> ring]
      have e1 := len_cross_le (Spec.sub (Spec.sub (precess v Ω u) v) (smul u (cross v Ω))) Ω
      have e2 := precess_order2 v Ω h0
      have e4 := mul_le_mul_of_nonneg_right e2 hO
      have e3 : len v * len Ω ^ 2 * u ^ 2 * len Ω ≤ len v * len Ω ^ 3 * t ^ 2 := by
        have h2 : u ^ 2 ≤ t ^ 2 := pow_le_pow_left₀ h0 h1 2
        calc len v * len Ω ^ 2 * u ^ 2 * len Ω = len v * len Ω ^ 3 * u ^ 2 := by ring
          _ ≤ _ := mul_le_mul_of_nonneg_left h2 (by positivity)
      linarith)
  have e : Spec.sub (Spec.sub (Spec.sub (Spec.sub (precess v Ω t) v) (smul t (cross v Ω)))
      (smul (t ^ 2 / 2) (cross (cross v Ω) Ω)))
      (Spec.sub (Spec.sub (Spec.sub (precess v Ω 0) v) (smul 0 (cross v Ω)))
        (smul (0 ^ 2 / 2) (cross (cross v Ω) Ω)))
      = Spec.sub (Spec.sub (Spec.sub (precess v Ω t) v) (smul t (cross v Ω)))
      (smul (t ^ 2 / 2) (cross (cross v Ω) Ω)) := by
    rw [precess_zero]; ext <;> simp only [Spec.sub, smul] <;> ring
  rw [e] at this
  refine this.trans (le_of_eq (by ring))

/-! ### precession depends continuously on spin and field -/

/-- growth of the distance of two curves whose difference is turned and pushed: if
`d' = d × Ω + g` with `|g| ≤ M` then `|d|` grows at most at rate `M` -/
theorem len_growth {d g Ω : ℝ → V3 ℝ} {h M : ℝ} (h0 : 0 ≤ h)
    (hd : ∀ u, 0 ≤ u → u ≤ h → HasDeriv3 d (Spec.add (cross (d u) (Ω u)) (g u)) u)
    (hg : ∀ u, 0 ≤ u → u ≤ h → len (g u) ≤ M) : len (d h) ≤ len (d 0) + M * h := by
  have hM : 0 ≤ M := (len_nonneg _).trans (hg 0 le_rfl h0)
  have key : ∀ e : ℝ, 0 < e → len (d h) ≤ len (d 0) + e + M * h := by
    intro e he
    have hpos : ∀ u, 0 < dot (d u) (d u) + e ^ 2 := by
      intro u
      have := len_sq (d u)
      nlinarith [mul_self_nonneg (len (d u)), pow_pos he 2]
    have hder : ∀ u ∈ Set.Icc (0 : ℝ) h, HasDerivWithinAt (fun u => Real.sqrt (dot (d u) (d u) + e ^ 2))
        (2 * dot (d u) (g u) / (2 * Real.sqrt (dot (d u) (d u) + e ^ 2))) (Set.Icc 0 h) u := by
      intro u hu
      obtain ⟨a, b, c⟩ := hd u hu.1 hu.2
      have h1 : HasDerivAt (fun u => dot (d u) (d u) + e ^ 2) (2 * dot (d u) (g u)) u := by
        have := (((a.mul a).add (b.mul b)).add (c.mul c)).add_const (e ^ 2)
        refine this.congr_deriv ?_
        simp only [dot, Spec.add, cross]
        ring
      exact (h1.sqrt (hpos u).ne').hasDerivWithinAt
    have hb : ∀ u ∈ Set.Icc (0 : ℝ) h,
        ‖2 * dot (d u) (g u) / (2 * Real.sqrt (dot (d u) (d u) + e ^ 2))‖ ≤ M := by
      intro u hu
      have hs := Real.sqrt_pos.2 (hpos u)
      rw [Real.norm_eq_abs, abs_div, abs_of_pos (by positivity : (0:ℝ) < 2 * Real.sqrt (dot (d u) (d u) + e ^ 2)), div_le_iff₀ (by positivity),
        abs_mul, abs_of_pos (by norm_num : (0:ℝ) < 2)]
      have h1 := abs_dot_le_len (d u) (g u)
      have h2 : len (d u) ≤ Real.sqrt (dot (d u) (d u) + e ^ 2) :=
        Real.sqrt_le_sqrt (by nlinarith [pow_pos he 2])
      have h3 := hg u hu.1 hu.2
      have h4 := mul_le_mul h2 h3 (len_nonneg _) hs.le
      linarith
    have := (convex_Icc (0 : ℝ) h).norm_image_sub_le_of_norm_hasDerivWithin_le hder hb
      (Set.left_mem_Icc.2 h0) (Set.right_mem_Icc.2 h0)
    rw [Real.norm_eq_abs, Real.norm_eq_abs, sub_zero, abs_of_nonneg h0] at this
    have h4 := le_of_abs_le this
    have h5 : len (d h) ≤ Real.sqrt (dot (d h) (d h) + e ^ 2) :=
      Real.sqrt_le_sqrt (by nlinarith [pow_pos he 2])
    have h6 : Real.sqrt (dot (d 0) (d 0) + e ^ 2) ≤ len (d 0) + e := by
      apply Real.sqrt_le_iff.2
      have := len_nonneg (d 0)
      refine ⟨by linarith, ?_⟩
      have := len_sq (d 0)
      nlinarith
    linarith
  by_contra hc
  push Not at hc
  have := key ((len (d h) - (len (d 0) + M * h)) / 2) (by linarith)
  linarith

theorem precess_dist (v v' Ω Ω' : V3 ℝ) {t : ℝ} (ht : 0 ≤ t) :
    len (Spec.sub (precess v Ω t) (precess v' Ω' t))
      ≤ len (Spec.sub v v') + len v' * len (Spec.sub Ω Ω') * t := by
  have := len_growth (d := fun t => Spec.sub (precess v Ω t) (precess v' Ω' t)) (Ω := fun _ => Ω)
    (g := fun t => cross (precess v' Ω' t) (Spec.sub Ω Ω')) (M := len v' * len (Spec.sub Ω Ω')) ht
    (fun u _ _ => by
      have := hasDeriv3_sub (precess_hasDeriv v Ω u) (precess_hasDeriv v' Ω' u)
      convert this using 1
      ext <;> simp only [Spec.add, Spec.sub, cross] <;> ring)
    (fun u _ _ => by
      have := len_cross_le (precess v' Ω' u) (Spec.sub Ω Ω')
      rwa [len_precess] at this)
  simpa only [precess_zero] using this

/-! ### uniformly small families -/

/-- `f i h = O(h^k)`, uniformly over the pairs `(i, h)` satisfying `A` -/
def VO {ι : Type} (A : ι → ℝ → Prop) (k : ℕ) (f : ι → ℝ → V3 ℝ) : Prop :=
  ∃ K, 0 ≤ K ∧ ∀ i h, A i h → len (f i h) ≤ K * h ^ k

/-- the set of pairs contains only times in `[0,1]`, and with a time all earlier ones -/
structure Dom {ι : Type} (A : ι → ℝ → Prop) : Prop where
  nonneg : ∀ i h, A i h → 0 ≤ h
  le_one : ∀ i h, A i h → h ≤ 1
  down : ∀ i h u, A i h → 0 ≤ u → u ≤ h → A i u

section
variable {ι : Type} {A : ι → ℝ → Prop}

theorem VO.add {k : ℕ} {f g : ι → ℝ → V3 ℝ} (hf : VO A k f) (hg : VO A k g) :
    VO A k (fun i h => Spec.add (f i h) (g i h)) := by
  obtain ⟨K, hK, h1⟩ := hf
  obtain ⟨M, hM, h2⟩ := hg
  refine ⟨K + M, by positivity, fun i h a => ?_⟩
  have := len_add_le (f i h) (g i h)
  have := h1 i h a
  have := h2 i h a
  rw [add_mul]; linarith

theorem VO.sub {k : ℕ} {f g : ι → ℝ → V3 ℝ} (hf : VO A k f) (hg : VO A k g) :
    VO A k (fun i h => Spec.sub (f i h) (g i h)) := by
  obtain ⟨K, hK, h1⟩ := hf
  obtain ⟨M, hM, h2⟩ := hg
  refine ⟨K + M, by positivity, fun i h a => ?_⟩
  have := len_sub_le (f i h) (g i h)
  have := h1 i h a
  have := h2 i h a
  rw [add_mul]; linarith

theorem VO.mono (hA : Dom A) {k j : ℕ} (hjk : j ≤ k) {f : ι → ℝ → V3 ℝ} (hf : VO A k f) : VO A j f := by
  obtain ⟨K, hK, h1⟩ := hf
  refine ⟨K, hK, fun i h a => (h1 i h a).trans ?_⟩
  exact mul_le_mul_of_nonneg_left (pow_le_pow_of_le_one (hA.nonneg i h a) (hA.le_one i h a) hjk) hK

theorem VO.cross (hA : Dom A) {k j : ℕ} {f g : ι → ℝ → V3 ℝ} (hf : VO A k f) (hg : VO A j g) :
    VO A (k + j) (fun i h => Spec.cross (f i h) (g i h)) := by
  obtain ⟨K, hK, h1⟩ := hf
  obtain ⟨M, hM, h2⟩ := hg
  refine ⟨K * M, by positivity, fun i h a => ?_⟩
  have h3 := mul_le_mul (h1 i h a) (h2 i h a) (len_nonneg _)
    (mul_nonneg hK (pow_nonneg (hA.nonneg i h a) _))
  refine (len_cross_le _ _).trans (h3.trans (le_of_eq ?_))
  rw [pow_add]; ring

theorem VO.had (hA : Dom A) {k j : ℕ} {f g : ι → ℝ → V3 ℝ} (hf : VO A k f) (hg : VO A j g) :
    VO A (k + j) (fun i h => Spec.had (f i h) (g i h)) := by
  obtain ⟨K, hK, h1⟩ := hf
  obtain ⟨M, hM, h2⟩ := hg
  refine ⟨K * M, by positivity, fun i h a => ?_⟩
  have h3 := mul_le_mul (h1 i h a) (h2 i h a) (len_nonneg _)
    (mul_nonneg hK (pow_nonneg (hA.nonneg i h a) _))
  refine (len_had_le _ _).trans (h3.trans (le_of_eq ?_))
  rw [pow_add]; ring

/-- multiplication by a scalar of size O(h^j) -/
theorem VO.smul (hA : Dom A) {k j : ℕ} {f : ι → ℝ → V3 ℝ} (hf : VO A k f) {r : ι → ℝ → ℝ} {M : ℝ}
    (hr : ∀ i h, A i h → |r i h| ≤ M * h ^ j) :
    VO A (j + k) (fun i h => Spec.smul (r i h) (f i h)) := by
  obtain ⟨K, hK, h1⟩ := hf
  refine ⟨|M| * K, by positivity, fun i h a => ?_⟩
  rw [len_smul]
  have hp := pow_nonneg (hA.nonneg i h a) j
  have h2 : |r i h| ≤ |M| * h ^ j :=
    (hr i h a).trans (mul_le_mul_of_nonneg_right (le_abs_self M) hp)
  have h3 := mul_le_mul h2 (h1 i h a) (len_nonneg _) (mul_nonneg (abs_nonneg M) hp)
  refine h3.trans (le_of_eq ?_)
  rw [pow_add]; ring

theorem VO.congr {k : ℕ} {f g : ι → ℝ → V3 ℝ} (hf : VO A k f) (h : ∀ i h, A i h → f i h = g i h) :
    VO A k g := by
  obtain ⟨K, hK, h1⟩ := hf
  exact ⟨K, hK, fun i u a => by rw [← h i u a]; exact h1 i u a⟩

/-- a bounded family -/
theorem VO.of_le {f : ι → ℝ → V3 ℝ} {K : ℝ} (hf : ∀ i h, A i h → len (f i h) ≤ K) : VO A 0 f := by
  refine ⟨|K|, abs_nonneg K, fun i h a => ?_⟩
  rw [pow_zero, mul_one]
  exact (hf i h a).trans (le_abs_self K)

/-- integration: if the derivative is O(h^k) and the start is zero, the family is O(h^(k+1)) -/
theorem VO.int (hA : Dom A) {k : ℕ} {f g : ι → ℝ → V3 ℝ} (hg : VO A k g)
    (hd : ∀ i h, A i h → HasDeriv3 (f i) (g i h) h) (h0 : ∀ i h, A i h → f i 0 = zero) :
    VO A (k + 1) f := by
  obtain ⟨K, hK, h1⟩ := hg
  refine ⟨K, hK, fun i h a => ?_⟩
  have hn := hA.nonneg i h a
  have := len_int (f := f i) (g := g i) (K := K * h ^ k) hn (mul_nonneg hK (pow_nonneg hn k))
    (fun u u0 u1 => hd i u (hA.down i h u a u0 u1))
    (fun u u0 u1 => (h1 i u (hA.down i h u a u0 u1)).trans
      (mul_le_mul_of_nonneg_left (pow_le_pow_left₀ u0 u1 k) hK))
  rw [h0 i h a, show Spec.sub (f i h) zero = f i h by ext <;> simp [Spec.sub, zero]] at this
  refine this.trans (le_of_eq ?_)
  rw [pow_succ]; ring

/-- composition with a reindexing that keeps the times -/
theorem VO.comp {κ : Type} {A' : κ → ℝ → Prop} {k : ℕ} {f : ι → ℝ → V3 ℝ} (hf : VO A k f) (m : κ → ι)
    (hm : ∀ i h, A' i h → A (m i) h) : VO A' k (fun i h => f (m i) h) := by
  obtain ⟨K, hK, h1⟩ := hf
  exact ⟨K, hK, fun i h a => h1 (m i) h (hm i h a)⟩

end

end Verif
