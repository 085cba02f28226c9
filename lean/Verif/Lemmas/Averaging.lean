/-
Averaging over a fast oscillation (for C120).
-/
import Verif.Spec.FastDrive
import Verif.Props.Order
import Mathlib.Analysis.Calculus.MeanValue
import Mathlib.Analysis.SpecialFunctions.Trigonometric.Deriv

set_option linter.unusedSectionVars false

namespace Verif

open Spec Finset Props

/-- a function with a small derivative moves little -/
theorem move_le {f d : ℝ → ℝ} {a b C : ℝ} (h : ∀ t, a ≤ t → t ≤ b → HasDerivAt f (d t) t ∧ |d t| ≤ C) {t : ℝ}
    (h1 : a ≤ t) (h2 : t ≤ b) : |f t - f a| ≤ C * (t - a) := by
  have := (convex_Icc a b).norm_image_sub_le_of_norm_hasDerivWithin_le (f := f) (f' := d) (C := C)
    (fun u hu => (h u hu.1 hu.2).1.hasDerivWithinAt) (fun u hu => (h u hu.1 hu.2).2)
    (Set.left_mem_Icc.2 (h1.trans h2)) ⟨h1, h2⟩
  rwa [Real.norm_eq_abs, Real.norm_eq_abs, abs_of_nonneg (by linarith : 0 ≤ t - a)] at this

theorem four_le {s c s2 c2 p1 p2 p3 p4 K : ℝ} (hs : |s| ≤ 1) (hc : |c| ≤ 1) (hs2 : |s2| ≤ 1) (hc2 : |c2| ≤ 1)
    (h1 : |p1| ≤ K) (h2 : |p2| ≤ K) (h3 : |p3| ≤ K) (h4 : |p4| ≤ K) :
    |-c * p1 + s * p2 - c2 / 2 * p3 + s2 / 2 * p4| ≤ 3 * K := by
  have e : ∀ {x p : ℝ}, |x| ≤ 1 → |p| ≤ K → |x * p| ≤ K := fun {x p} hx hp => by
    rw [abs_mul]
    nlinarith [abs_nonneg x, abs_nonneg p]
  have a1 := abs_le.1 (e hc h1)
  have a2 := abs_le.1 (e hs h2)
  have a3 := abs_le.1 (e hc2 h3)
  have a4 := abs_le.1 (e hs2 h4)
  rw [abs_le]
  constructor <;> linarith [a1.1, a1.2, a2.1, a2.2, a3.1, a3.2, a4.1, a4.2]

/-- A quantity whose rate of change only oscillates, with amplitudes that are bounded and slow, up to a rest bounded by
`R`, hardly changes. -/
theorem average_le {f p1 p2 p3 p4 d1 d2 d3 d4 r0 : ℝ → ℝ} {om A K R a b : ℝ} (ho : 0 < om) (hA : 0 ≤ A)
    (hf : ∀ t, a ≤ t → t ≤ b → HasDerivAt f (A * (Real.sin (om * t) * p1 t + Real.cos (om * t) * p2 t
      + Real.sin (2 * (om * t)) * p3 t + Real.cos (2 * (om * t)) * p4 t) + r0 t) t)
    (hr0 : ∀ t, a ≤ t → t ≤ b → |r0 t| ≤ R)
    (hp : ∀ t, a ≤ t → t ≤ b → (|p1 t| ≤ K ∧ |d1 t| ≤ K ∧ HasDerivAt p1 (d1 t) t) ∧
      (|p2 t| ≤ K ∧ |d2 t| ≤ K ∧ HasDerivAt p2 (d2 t) t) ∧ (|p3 t| ≤ K ∧ |d3 t| ≤ K ∧ HasDerivAt p3 (d3 t) t) ∧
      (|p4 t| ≤ K ∧ |d4 t| ≤ K ∧ HasDerivAt p4 (d4 t) t)) {t : ℝ} (h1 : a ≤ t) (h2 : t ≤ b) :
    |f t - f a| ≤ 6 * K * A / om * (1 + (t - a)) + R * (t - a) := by
  have hK : 0 ≤ K := le_trans (abs_nonneg _) (hp a le_rfl (h1.trans h2)).1.1
  let q : ℝ → ℝ := fun t => -Real.cos (om * t) * p1 t + Real.sin (om * t) * p2 t
      - Real.cos (2 * (om * t)) / 2 * p3 t + Real.sin (2 * (om * t)) / 2 * p4 t
  let r : ℝ → ℝ := fun t => -Real.cos (om * t) * d1 t + Real.sin (om * t) * d2 t
      - Real.cos (2 * (om * t)) / 2 * d3 t + Real.sin (2 * (om * t)) / 2 * d4 t
  have hq : ∀ u, a ≤ u → u ≤ b → |q u| ≤ 3 * K := fun u u1 u2 => by
    obtain ⟨⟨x1, -, -⟩, ⟨x2, -, -⟩, ⟨x3, -, -⟩, ⟨x4, -, -⟩⟩ := hp u u1 u2
    exact four_le (Real.abs_sin_le_one _) (Real.abs_cos_le_one _) (Real.abs_sin_le_one _) (Real.abs_cos_le_one _) x1 x2 x3 x4
  have hr : ∀ u, a ≤ u → u ≤ b → |r u| ≤ 3 * K := fun u u1 u2 => by
    obtain ⟨⟨-, x1, -⟩, ⟨-, x2, -⟩, ⟨-, x3, -⟩, ⟨-, x4, -⟩⟩ := hp u u1 u2
    exact four_le (Real.abs_sin_le_one _) (Real.abs_cos_le_one _) (Real.abs_sin_le_one _) (Real.abs_cos_le_one _) x1 x2 x3 x4
  have hd : ∀ u, a ≤ u → u ≤ b → HasDerivAt (fun t => f t - A / om * q t) (-(A / om) * r u + r0 u) u ∧
      |-(A / om) * r u + r0 u| ≤ A / om * (3 * K) + R := by
    intro u u1 u2
    obtain ⟨⟨-, -, x1⟩, ⟨-, -, x2⟩, ⟨-, -, x3⟩, ⟨-, -, x4⟩⟩ := hp u u1 u2
    constructor
    · have l1 : HasDerivAt (fun t : ℝ => om * t) om u := by simpa using (hasDerivAt_id u).const_mul om
      have l2 : HasDerivAt (fun t : ℝ => 2 * (om * t)) (2 * om) u := l1.const_mul 2
      have D := (hf u u1 u2).sub ((((((l1.cos.neg).mul x1).add ((l1.sin).mul x2)).sub
        ((l2.cos.div_const 2).mul x3)).add ((l2.sin.div_const 2).mul x4)).const_mul (A / om))
      refine D.congr_deriv ?_
      simp only [r, Pi.neg_apply]
      field_simp
      ring
    · refine (abs_add_le _ _).trans (add_le_add ?_ (hr0 u u1 u2))
      rw [abs_mul, abs_neg, abs_of_nonneg (by positivity : 0 ≤ A / om)]
      exact mul_le_mul_of_nonneg_left (hr u u1 u2) (by positivity)
  have hm := move_le hd h1 h2
  have g : 0 ≤ A / om := by positivity
  have b1 : |A / om * q t| ≤ A / om * (3 * K) := by
    rw [abs_mul, abs_of_nonneg g]; exact mul_le_mul_of_nonneg_left (hq t h1 h2) g
  have b2 : |A / om * q a| ≤ A / om * (3 * K) := by
    rw [abs_mul, abs_of_nonneg g]; exact mul_le_mul_of_nonneg_left (hq a le_rfl (h1.trans h2)) g
  have e : 6 * K * A / om * (1 + (t - a)) = A / om * (3 * K) * 2 + 2 * (A / om * (3 * K) * (t - a)) := by ring
  rw [e]
  have := abs_le.1 hm
  have := abs_le.1 b1
  have := abs_le.1 b2
  have : 0 ≤ A / om * (3 * K) * (t - a) := by have : 0 ≤ t - a := by linarith
                                              positivity
  rw [abs_le]
  constructor <;> nlinarith

/-- an exact motion of unit spins in the couplings and static fields of `c0`, under its drive with some period -/
structure DrivenMotion (c0 : SpinChain ℝ) (L s : ℕ) (c : SpinChain ℝ) (X : ℝ → ℕ → V3 ℝ) (a b : ℝ) : Prop where
  same : SameUpToPeriod c0 c
  osc : Oscillating c0.vars
  tau : 0 < c.vars.tau
  unit : ∀ i < L, len (X a i) = 1
  motion : Motion c L s X a b

/-- a function of the spins that is bounded and slow along all motions, uniformly in the period of the drive -/
def Slow (c0 : SpinChain ℝ) (L s : ℕ) (G : (ℕ → V3 ℝ) → ℝ) : Prop :=
  ∃ K, ∀ c X a b, DrivenMotion c0 L s c X a b → ∀ t, a ≤ t → t ≤ b →
    |G (X t)| ≤ K ∧ ∃ d, |d| ≤ K ∧ HasDerivAt (fun u => G (X u)) d t

section
variable {c0 : SpinChain ℝ} {L s : ℕ} {G G' : (ℕ → V3 ℝ) → ℝ}

theorem Slow.const (r : ℝ) : Slow c0 L s fun _ => r :=
  ⟨|r|, fun _ _ _ _ _ t _ _ => ⟨le_rfl, 0, by simp, hasDerivAt_const t r⟩⟩

theorem Slow.add (h : Slow c0 L s G) (h' : Slow c0 L s G') : Slow c0 L s fun S => G S + G' S := by
  obtain ⟨K, h⟩ := h
  obtain ⟨K', h'⟩ := h'
  refine ⟨K + K', fun c X a b hm t h1 h2 => ?_⟩
  obtain ⟨x1, d, x2, x3⟩ := h c X a b hm t h1 h2
  obtain ⟨y1, e, y2, y3⟩ := h' c X a b hm t h1 h2
  exact ⟨(abs_add_le _ _).trans (by linarith), d + e, (abs_add_le _ _).trans (by linarith), x3.add y3⟩

theorem Slow.mul (h : Slow c0 L s G) (h' : Slow c0 L s G') : Slow c0 L s fun S => G S * G' S := by
  obtain ⟨K, h⟩ := h
  obtain ⟨K', h'⟩ := h'
  refine ⟨2 * (K * K'), fun c X a b hm t h1 h2 => ?_⟩
  obtain ⟨x1, d, x2, x3⟩ := h c X a b hm t h1 h2
  obtain ⟨y1, e, y2, y3⟩ := h' c X a b hm t h1 h2
  have hK : 0 ≤ K := (abs_nonneg _).trans x1
  have hK' : 0 ≤ K' := (abs_nonneg _).trans y1
  refine ⟨?_, d * G' (X t) + G (X t) * e, ?_, x3.mul y3⟩
  · rw [abs_mul]
    nlinarith [mul_le_mul x1 y1 (abs_nonneg _) hK, mul_nonneg hK hK']
  · refine (abs_add_le _ _).trans ?_
    rw [abs_mul, abs_mul]
    nlinarith [mul_le_mul x1 y2 (abs_nonneg _) hK, mul_le_mul x2 y1 (abs_nonneg _) hK]

theorem Slow.neg (h : Slow c0 L s G) : Slow c0 L s fun S => -G S := by
  simpa using (Slow.const (-1)).mul h

theorem Slow.sub (h : Slow c0 L s G) (h' : Slow c0 L s G') : Slow c0 L s fun S => G S - G' S := by
  simpa only [sub_eq_add_neg] using h.add h'.neg

theorem Slow.ite (p : Prop) [Decidable p] (h : p → Slow c0 L s G) (h' : ¬p → Slow c0 L s G') :
    Slow c0 L s fun S => if p then G S else G' S := by
  by_cases hp : p
  · simpa only [if_pos hp] using h hp
  · simpa only [if_neg hp] using h' hp

theorem Slow.sum {n : ℕ} {F : ℕ → (ℕ → V3 ℝ) → ℝ} (h : ∀ i < n, Slow c0 L s (F i)) :
    Slow c0 L s fun S => ∑ i ∈ range n, F i S := by
  induction n with
  | zero => simpa using Slow.const 0
  | succ n ih =>
    simp only [sum_range_succ]
    exact (ih fun i hi => h i (by omega)).add (h n (by omega))

theorem drive_eq {v : Config ℝ} (h : Oscillating v) (t : ℝ) :
    drive v t = ⟨Real.cos (2 * Real.pi / v.tau * t), ell v * Real.sin (2 * Real.pi / v.tau * t), 0⟩ := by
  have e : 2 * Real.pi * t / v.tau = 2 * Real.pi / v.tau * t := by ring
  rcases h with h | h | h <;> simp only [drive, ell, h, e, one_mul, zero_mul]

theorem same_osc {c : SpinChain ℝ} (h : SameUpToPeriod c0 c) (ho : Oscillating c0.vars) : Oscillating c.vars := by
  rw [h.v]; exact ho

theorem same_ell {c : SpinChain ℝ} (h : SameUpToPeriod c0 c) : ell c.vars = ell c0.vars := by rw [h.v]; rfl

theorem same_J' {c : SpinChain ℝ} (h : SameUpToPeriod c0 c) : J c = J c0 := J_congr h.j

theorem same_H0' {c : SpinChain ℝ} (h : SameUpToPeriod c0 c) : H0 c = H0 c0 := by
  funext i; unfold H0; rw [h.h]

theorem comps_le_one {v : V3 ℝ} (h : len v = 1) : |v.x| ≤ 1 ∧ |v.y| ≤ 1 ∧ |v.z| ≤ 1 := by
  have := len_sq v
  rw [h] at this
  simp only [dot] at this
  refine ⟨abs_le_one_iff_mul_self_le_one.2 ?_, abs_le_one_iff_mul_self_le_one.2 ?_,
    abs_le_one_iff_mul_self_le_one.2 ?_⟩ <;>
    nlinarith [mul_self_nonneg v.x, mul_self_nonneg v.y, mul_self_nonneg v.z]

theorem DrivenMotion.len {c : SpinChain ℝ} {X : ℝ → ℕ → V3 ℝ} {a b : ℝ} (h : DrivenMotion c0 L s c X a b) {t : ℝ}
    (h1 : a ≤ t) (h2 : t ≤ b) {i : ℕ} (hi : i < L) : Spec.len (X t i) = 1 := by
  rw [motion_len h.motion h1 h2 hi, h.unit i hi]

/-- the velocity of a spin: precession in the static fields, and about the drive -/
theorem DrivenMotion.deriv {c : SpinChain ℝ} {X : ℝ → ℕ → V3 ℝ} {a b : ℝ} (h : DrivenMotion c0 L s c X a b) {t : ℝ}
    (h1 : a ≤ t) (h2 : t ≤ b) {i : ℕ} (hi : i < L) :
    HasDeriv3 (fun u => X u i) (Spec.sub (cross (X t i) (omega L (X t) (J c0) (H0 c0) i))
      (if i < s then cross (X t i) ⟨Real.cos (2 * Real.pi / c.vars.tau * t),
        ell c0.vars * Real.sin (2 * Real.pi / c.vars.tau * t), 0⟩ else zero)) t := by
  have := h.motion t h1 h2 i hi
  rw [same_J' h.same] at this
  have e : cross (X t i) (omega L (X t) (J c0) (B c s t) i)
      = Spec.sub (cross (X t i) (omega L (X t) (J c0) (H0 c0) i))
      (if i < s then cross (X t i) ⟨Real.cos (2 * Real.pi / c.vars.tau * t),
        ell c0.vars * Real.sin (2 * Real.pi / c.vars.tau * t), 0⟩ else zero) := by
    unfold B
    rw [drive_eq (same_osc h.same h.osc), same_ell h.same, same_H0' h.same]
    unfold omega
    beta_reduce
    split
    · simp only [cross, Spec.sub, Spec.add, had]
      ext <;> simp only <;> ring
    · simp only [cross, Spec.sub, Spec.add, had, zero]
      ext <;> simp only <;> ring
  rwa [e] at this

theorem cross_le {u v : V3 ℝ} {M : ℝ} (hu : |u.x| ≤ 1 ∧ |u.y| ≤ 1 ∧ |u.z| ≤ 1) (hv : |v.x| ≤ M ∧ |v.y| ≤ M ∧ |v.z| ≤ M) :
    |(cross u v).x| ≤ 2 * M ∧ |(cross u v).y| ≤ 2 * M ∧ |(cross u v).z| ≤ 2 * M := by
  have e : ∀ {p q x y : ℝ}, |p| ≤ 1 → |q| ≤ 1 → |x| ≤ M → |y| ≤ M → |p * x - q * y| ≤ 2 * M := fun {p q x y} a b c d => by
    refine (abs_sub _ _).trans ?_
    rw [abs_mul, abs_mul]
    nlinarith [abs_nonneg p, abs_nonneg q, abs_nonneg x, abs_nonneg y]
  obtain ⟨u1, u2, u3⟩ := hu
  obtain ⟨v1, v2, v3⟩ := hv
  exact ⟨e u2 u3 v3 v2, e u3 u1 v1 v3, e u1 u2 v2 v1⟩

theorem slow_spin {i : ℕ} (hi : i < L) : (Slow c0 L s fun S => (S i).x) ∧ (Slow c0 L s fun S => (S i).y) ∧
    Slow c0 L s fun S => (S i).z := by
  -- a bound of the local field
  obtain ⟨W, hW⟩ : ∃ W : ℝ, ∀ S : ℕ → V3 ℝ, (∀ j < L, len (S j) = 1) →
      |(omega L S (J c0) (H0 c0) i).x| ≤ W ∧ |(omega L S (J c0) (H0 c0) i).y| ≤ W ∧
      |(omega L S (J c0) (H0 c0) i).z| ≤ W := by
    refine ⟨(|(J c0 (left L i)).x| + |(J c0 i).x| + |(H0 c0 i).x|) + (|(J c0 (left L i)).y| + |(J c0 i).y| + |(H0 c0 i).y|)
      + (|(J c0 (left L i)).z| + |(J c0 i).z| + |(H0 c0 i).z|), fun S hS => ?_⟩
    have hl := comps_le_one (hS (left L i) (Nat.mod_lt _ (by omega)))
    have hr := comps_le_one (hS (right L i) (Nat.mod_lt _ (by omega)))
    have e : ∀ {p q x y h : ℝ}, |x| ≤ 1 → |y| ≤ 1 → |p * x + q * y - h| ≤ |p| + |q| + |h| := fun {p q x y h} a b => by
      refine (abs_sub _ _).trans (add_le_add ((abs_add_le _ _).trans ?_) le_rfl)
      rw [abs_mul, abs_mul]
      nlinarith [abs_nonneg p, abs_nonneg q]
    have hx := e (p := (J c0 (left L i)).x) (q := (J c0 i).x) (h := (H0 c0 i).x) hl.1 hr.1
    have hy := e (p := (J c0 (left L i)).y) (q := (J c0 i).y) (h := (H0 c0 i).y) hl.2.1 hr.2.1
    have hz := e (p := (J c0 (left L i)).z) (q := (J c0 i).z) (h := (H0 c0 i).z) hl.2.2 hr.2.2
    simp only [omega, Spec.sub, Spec.add, had]
    refine ⟨hx.trans ?_, hy.trans ?_, hz.trans ?_⟩ <;> linarith [abs_nonneg (J c0 (left L i)).x, abs_nonneg (J c0 i).x,
      abs_nonneg (H0 c0 i).x, abs_nonneg (J c0 (left L i)).y, abs_nonneg (J c0 i).y, abs_nonneg (H0 c0 i).y,
      abs_nonneg (J c0 (left L i)).z, abs_nonneg (J c0 i).z, abs_nonneg (H0 c0 i).z]
  have key : ∀ c X a b, DrivenMotion c0 L s c X a b → ∀ t, a ≤ t → t ≤ b →
      (|(X t i).x| ≤ 1 ∧ |(X t i).y| ≤ 1 ∧ |(X t i).z| ≤ 1) ∧ ∃ v : V3 ℝ, HasDeriv3 (fun u => X u i) v t ∧
      |v.x| ≤ 2 * W + 2 * (1 + |ell c0.vars|) ∧ |v.y| ≤ 2 * W + 2 * (1 + |ell c0.vars|) ∧
      |v.z| ≤ 2 * W + 2 * (1 + |ell c0.vars|) := by
    intro c X a b hm t h1 h2
    have hu := comps_le_one (hm.len h1 h2 hi)
    refine ⟨hu, _, hm.deriv h1 h2 hi, ?_⟩
    have w1 := cross_le hu (hW (X t) fun j hj => hm.len h1 h2 hj)
    have w2 : ∀ v, v = (if i < s then cross (X t i) ⟨Real.cos (2 * Real.pi / c.vars.tau * t),
        ell c0.vars * Real.sin (2 * Real.pi / c.vars.tau * t), 0⟩ else zero) →
        |v.x| ≤ 2 * (1 + |ell c0.vars|) ∧ |v.y| ≤ 2 * (1 + |ell c0.vars|) ∧ |v.z| ≤ 2 * (1 + |ell c0.vars|) := by
      rintro v rfl
      split
      · refine cross_le hu ⟨?_, ?_, ?_⟩
        · show |Real.cos _| ≤ _
          linarith [Real.abs_cos_le_one (2 * Real.pi / c.vars.tau * t), abs_nonneg (ell c0.vars)]
        · show |_ * Real.sin _| ≤ _
          rw [abs_mul]
          nlinarith [Real.abs_sin_le_one (2 * Real.pi / c.vars.tau * t), abs_nonneg (ell c0.vars)]
        · show |(0 : ℝ)| ≤ _
          rw [abs_zero]; positivity
      · simp only [zero, abs_zero]
        have : 0 ≤ 2 * (1 + |ell c0.vars|) := by positivity
        exact ⟨this, this, this⟩
    obtain ⟨w3, w4, w5⟩ := w2 _ rfl
    refine ⟨(abs_sub _ _).trans ?_, (abs_sub _ _).trans ?_, (abs_sub _ _).trans ?_⟩
    · linarith [w1.1]
    · linarith [w1.2.1]
    · linarith [w1.2.2]
  refine ⟨⟨max 1 (2 * W + 2 * (1 + |ell c0.vars|)), fun c X a b hm t h1 h2 => ?_⟩,
    ⟨max 1 (2 * W + 2 * (1 + |ell c0.vars|)), fun c X a b hm t h1 h2 => ?_⟩,
    ⟨max 1 (2 * W + 2 * (1 + |ell c0.vars|)), fun c X a b hm t h1 h2 => ?_⟩⟩ <;>
  obtain ⟨⟨x1, x2, x3⟩, v, ⟨d1, d2, d3⟩, v1, v2, v3⟩ := key c X a b hm t h1 h2
  · exact ⟨x1.trans (le_max_left _ _), _, v1.trans (le_max_right _ _), d1⟩
  · exact ⟨x2.trans (le_max_left _ _), _, v2.trans (le_max_right _ _), d2⟩
  · exact ⟨x3.trans (le_max_left _ _), _, v3.trans (le_max_right _ _), d3⟩

end

end Verif
