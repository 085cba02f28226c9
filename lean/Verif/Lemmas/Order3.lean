/-
Helper lemmas: error of one step, growth of errors over many steps, and smoothness of the drive.
-/
import Verif.Lemmas.Order2

namespace Verif

open Spec

section
variable {J : ℕ → V3 ℝ} {b b1 b2 : ℝ → ℕ → V3 ℝ} {K : ℝ}

theorem step_odd {l : ℕ} (Bf : ℕ → V3 ℝ) (h : ℝ) (S : ℕ → V3 ℝ) {i : ℕ} (hi : i < 2 * l) (hp : i % 2 = 1) :
    subStep (2 * l) 1 J Bf h (subStep (2 * l) 0 J Bf (h / 2) S) i
      = precess (S i) (Spec.sub (Spec.add
        (had (J (left (2 * l) i)) (precess (S (left (2 * l) i)) (omega (2 * l) S J Bf (left (2 * l) i)) (h / 2)))
        (had (J i) (precess (S (right (2 * l) i)) (omega (2 * l) S J Bf (right (2 * l) i)) (h / 2))))
        (Bf i)) h := by
  have hl := left_par hi
  have hr := right_par hi
  have hl' := left_lt (m := 2 * l) (i := i) (by omega)
  have hr' := right_lt' (m := 2 * l) (i := i) (by omega)
  rw [subStep_pos ⟨hi, hp⟩, subStep_neg (by omega : ¬(i < 2 * l ∧ i % 2 = 0))]
  congr 1
  rw [← subStep_pos (J := J) (B := Bf) (S := S) (dt := h / 2) (m := 2 * l) (par := 0) ⟨hl', by omega⟩,
    ← subStep_pos (J := J) (B := Bf) (S := S) (dt := h / 2) (m := 2 * l) (par := 0) ⟨hr', by omega⟩]
  rfl

theorem fam_step {l : ℕ} (X : ℝ → ℕ → V3 ℝ) (t0 h : ℝ) {i : ℕ} (hi : i < 2 * l) :
    step (2 * l) J (b (t0 + h / 2)) h (X t0) i
      = if i % 2 = 1 then yb (2 * l) J b ⟨X, t0, i⟩ h else yc (2 * l) J b ⟨X, t0, i⟩ h := by
  have hodd : ∀ i, i < 2 * l → i % 2 = 1 → subStep (2 * l) 1 J (b (t0 + h / 2)) h
      (subStep (2 * l) 0 J (b (t0 + h / 2)) (h / 2) (X t0)) i = yb (2 * l) J b ⟨X, t0, i⟩ h := by
    intro i hi hp
    rw [step_odd _ _ _ hi hp]
    simp only [yb, Ob, ya, Oa, xx, lf, rg, add_zero, one_mul, one_div_mul_eq_div]
  by_cases hp : i % 2 = 1
  · rw [if_pos hp, ← hodd i hi hp]
    exact if_neg (by omega)
  · have hp0 : i % 2 = 0 := by omega
    have hl := left_par hi
    have hr := right_par hi
    have hl' := left_lt (m := 2 * l) (i := i) (by omega)
    have hr' := right_lt' (m := 2 * l) (i := i) (by omega)
    rw [if_neg hp]
    unfold step
    rw [show ∀ S, subStep (2 * l) 0 J (b (t0 + h / 2)) (h / 2) S i
      = precess (S i) (omega (2 * l) S J (b (t0 + h / 2)) i) (h / 2) from fun S => if_pos ⟨hi, hp0⟩]
    have e1 : subStep (2 * l) 1 J (b (t0 + h / 2)) h
        (subStep (2 * l) 0 J (b (t0 + h / 2)) (h / 2) (X t0)) i = ya (2 * l) J b ⟨X, t0, i⟩ h := by
      have e2 : subStep (2 * l) 0 J (b (t0 + h / 2)) (h / 2) (X t0) i = ya (2 * l) J b ⟨X, t0, i⟩ h := by
        rw [show subStep (2 * l) 0 J (b (t0 + h / 2)) (h / 2) (X t0) i
          = precess (X t0 i) (omega (2 * l) (X t0) J (b (t0 + h / 2)) i) (h / 2) from if_pos ⟨hi, hp0⟩]
        simp only [ya, Oa, xx, add_zero, one_div_mul_eq_div]
      rw [← e2]
      exact if_neg (by omega)
    rw [e1]
    conv_lhs => unfold omega
    rw [hodd _ hl' (by omega), hodd _ hr' (by omega)]
    simp only [yc, Oc, lf, rg, one_div_mul_eq_div]

/-- one step is wrong by at most a constant times the third power of its length -/
theorem local_error {l : ℕ} (D : FieldData (2 * l) J b b1 b2 K) :
    ∃ M, 0 ≤ M ∧ ∀ (X : ℝ → ℕ → V3 ℝ) (t0 h : ℝ), 0 ≤ h → h ≤ 1 → (∀ j < 2 * l, len (X t0 j) = 1) →
      (∀ u, 0 ≤ u → u ≤ h → ∀ j < 2 * l, HasDeriv3 (fun t => X t j)
        (cross (X (t0 + u) j) (omega (2 * l) (X (t0 + u)) J (b (t0 + u)) j)) (t0 + u)) →
      ∀ i < 2 * l, len (Spec.sub (step (2 * l) J (b (t0 + h / 2)) h (X t0) i) (X (t0 + h) i)) ≤ M * h ^ 3 := by
  obtain ⟨M1, hM1, h1⟩ := (vo_yb3 D).sub (vo_exact D)
  obtain ⟨M2, hM2, h2⟩ := (vo_yc3 D).sub (vo_exact D)
  refine ⟨M1 + M2, by positivity, fun X t0 h h0 h1' hu hd i hi => ?_⟩
  have a : Sol (2 * l) J b ⟨X, t0, i⟩ h := ⟨h0, h1', hi, hu, hd⟩
  have hp := pow_nonneg h0 3
  rw [fam_step X t0 h hi]
  have cancel : ∀ y : V3 ℝ, Spec.sub (Spec.sub y (taylor (2 * l) J b b1 ⟨X, t0, i⟩ h))
      (Spec.sub (xx ⟨X, t0, i⟩ h) (taylor (2 * l) J b b1 ⟨X, t0, i⟩ h)) = Spec.sub y (X (t0 + h) i) := by
    intro y; ext <;> simp only [Spec.sub, xx] <;> ring
  split
  · have := h1 _ h a
    dsimp only at this
    rw [cancel] at this
    nlinarith
  · have := h2 _ h a
    dsimp only at this
    rw [cancel] at this
    nlinarith

/-! ### growth of errors -/

theorem omega_dist {m : ℕ} (hJ : ∀ i < m, len (J i) ≤ K) {S S' Bf : ℕ → V3 ℝ} {E : ℝ}
    (hE : ∀ j < m, len (Spec.sub (S j) (S' j)) ≤ E) {i : ℕ} (hi : i < m) :
    len (Spec.sub (omega m S J Bf i) (omega m S' J Bf i)) ≤ 2 * K * E := by
  have hl' := left_lt (m := m) (i := i) (by omega)
  have hr' := right_lt' (m := m) (i := i) (by omega)
  rw [show Spec.sub (omega m S J Bf i) (omega m S' J Bf i)
    = Spec.add (had (J (left m i)) (Spec.sub (S (left m i)) (S' (left m i))))
      (had (J i) (Spec.sub (S (right m i)) (S' (right m i)))) by
    ext <;> simp only [omega, Spec.sub, Spec.add, had] <;> ring]
  have h1 := len_had_le (J (left m i)) (Spec.sub (S (left m i)) (S' (left m i)))
  have h2 := len_had_le (J i) (Spec.sub (S (right m i)) (S' (right m i)))
  have h3 := mul_le_mul (hJ _ hl') (hE _ hl') (len_nonneg _) ((len_nonneg _).trans (hJ _ hl'))
  have h4 := mul_le_mul (hJ _ hi) (hE _ hr') (len_nonneg _) ((len_nonneg _).trans (hJ _ hi))
  have h5 := len_add_le (had (J (left m i)) (Spec.sub (S (left m i)) (S' (left m i))))
      (had (J i) (Spec.sub (S (right m i)) (S' (right m i))))
  linarith

theorem subStep_dist {m par : ℕ} (hJ : ∀ i < m, len (J i) ≤ K) {S S' Bf : ℕ → V3 ℝ} {E h : ℝ} (h0 : 0 ≤ h)
    (hK : 0 ≤ K) (hE : ∀ j < m, len (Spec.sub (S j) (S' j)) ≤ E) (hu : ∀ j < m, len (S' j) = 1) :
    ∀ i < m, len (Spec.sub (subStep m par J Bf h S i) (subStep m par J Bf h S' i)) ≤ (1 + 2 * K * h) * E := by
  intro i hi
  have hE0 : 0 ≤ E := (len_nonneg _).trans (hE i hi)
  unfold subStep
  split
  · have h1 := precess_dist (S i) (S' i) (omega m S J Bf i) (omega m S' J Bf i) h0
    rw [hu i hi, one_mul] at h1
    have h2 := mul_le_mul_of_nonneg_right (omega_dist hJ (Bf := Bf) hE hi) h0
    have h3 := hE i hi
    linarith
  · have := hE i hi
    have : 0 ≤ 2 * K * h * E := by positivity
    linarith

theorem subStep_unit {m par : ℕ} {S Bf : ℕ → V3 ℝ} {h : ℝ} (hu : ∀ j < m, len (S j) = 1) :
    ∀ j < m, len (subStep m par J Bf h S j) = 1 := by
  intro j hj
  unfold subStep
  split
  · rw [len_precess]; exact hu j hj
  · exact hu j hj

theorem step_dist {m : ℕ} (hJ : ∀ i < m, len (J i) ≤ K) {S S' Bf : ℕ → V3 ℝ} {E h : ℝ} (h0 : 0 ≤ h)
    (hK : 0 ≤ K) (hE : ∀ j < m, len (Spec.sub (S j) (S' j)) ≤ E) (hu : ∀ j < m, len (S' j) = 1) :
    ∀ i < m, len (Spec.sub (step m J Bf h S i) (step m J Bf h S' i)) ≤ Real.exp (4 * K * h) * E := by
  intro i hi
  have hE0 : 0 ≤ E := (len_nonneg _).trans (hE i hi)
  have s1 := subStep_dist (par := 0) (Bf := Bf) hJ (half_pos_of h0) hK hE hu
  have u1 := subStep_unit (par := 0) (J := J) (Bf := Bf) (h := h / 2) hu
  have s2 := subStep_dist (par := 1) (Bf := Bf) hJ h0 hK s1 u1
  have u2 := subStep_unit (par := 1) (J := J) (Bf := Bf) (h := h) u1
  have s3 := subStep_dist (par := 0) (Bf := Bf) hJ (half_pos_of h0) hK s2 u2 i hi
  refine s3.trans ?_
  have e1 := Real.add_one_le_exp (2 * K * (h / 2))
  have e2 := Real.add_one_le_exp (2 * K * h)
  have p1 : 0 ≤ 1 + 2 * K * (h / 2) := by positivity
  have p2 : 0 ≤ 1 + 2 * K * h := by positivity
  rw [show 4 * K * h = 2 * K * (h / 2) + (2 * K * h + 2 * K * (h / 2)) by ring, Real.exp_add, Real.exp_add]
  calc _ = (1 + 2 * K * (h / 2)) * ((1 + 2 * K * h) * (1 + 2 * K * (h / 2))) * E := by ring
    _ ≤ _ := by
      gcongr <;> linarith
  where half_pos_of {h : ℝ} (h0 : 0 ≤ h) : 0 ≤ h / 2 := by linarith

/-- after any number of steps within a fixed time the error is at most a constant times the square of
the length of the steps -/
theorem global_error {l : ℕ} (D : FieldData (2 * l) J b b1 b2 K) (hK : 0 ≤ K) (T : ℝ) :
    ∃ M, 0 ≤ M ∧ ∀ (X : ℝ → ℕ → V3 ℝ) (Y : ℕ → ℕ → V3 ℝ) (t0 h : ℝ) (n : ℕ), 0 ≤ h → h ≤ 1 → n * h ≤ T →
      (∀ j < 2 * l, len (X t0 j) = 1) →
      (∀ t, t0 ≤ t → t ≤ t0 + T → ∀ j < 2 * l, HasDeriv3 (fun t => X t j)
        (cross (X t j) (omega (2 * l) (X t) J (b t) j)) t) →
      (∀ j < 2 * l, Y 0 j = X t0 j) →
      (∀ k < n, Y (k + 1) = step (2 * l) J (b (t0 + k * h + h / 2)) h (Y k)) →
      ∀ i < 2 * l, len (Spec.sub (Y n i) (X (t0 + n * h) i)) ≤ M * h ^ 2 := by
  obtain ⟨M, hM, hloc⟩ := local_error D
  refine ⟨|T| * M * Real.exp (4 * K * |T|), by positivity, ?_⟩
  intro X Y t0 h n h0 h1 hn hu hX hY0 hY i hi
  have unit : ∀ t, t0 ≤ t → t ≤ t0 + T → ∀ j < 2 * l, len (X t j) = 1 := by
    intro t ht ht2 j hj
    by_cases hs : t - t0 ≤ 1
    · have := sol_len (m := 2 * l) (J := J) (b := b) ⟨X, t0, j⟩ (t - t0) ⟨by linarith, hs, hj, hu, fun u u0 u1 =>
        hX (t0 + u) (by linarith) (by linarith)⟩
      simpa [xx] using this
    · -- conservation over longer times
      have hd : ∀ u ∈ Set.Icc t0 t, HasDerivWithinAt (fun u => dot (X u j) (X u j)) 0 (Set.Icc t0 t) u := by
        intro u hu
        obtain ⟨d1, d2, d3⟩ := hX u hu.1 (hu.2.trans ht2) j hj
        have := ((d1.mul d1).add (d2.mul d2)).add (d3.mul d3)
        refine (this.congr_deriv ?_).hasDerivWithinAt
        simp only [cross]; ring
      have := (convex_Icc t0 t).norm_image_sub_le_of_norm_hasDerivWithin_le (C := 0) hd (by simp)
          (Set.left_mem_Icc.2 ht) (Set.right_mem_Icc.2 ht)
      rw [zero_mul] at this
      have e : dot (X t j) (X t j) = dot (X t0 j) (X t0 j) := by
        have := norm_le_zero_iff.1 this
        linarith
      have := hu j hj
      unfold len at this ⊢
      rw [e, this]
  have key : ∀ k ≤ n, ∀ i < 2 * l,
      len (Spec.sub (Y k i) (X (t0 + k * h) i)) ≤ k * M * h ^ 3 * Real.exp (4 * K * (k * h)) := by
    intro k
    induction k with
    | zero =>
      intro _ i hi
      rw [hY0 i hi]
      have : Spec.sub (X t0 i) (X (t0 + ((0 : ℕ) : ℝ) * h) i) = zero := by
        ext <;> simp [Spec.sub, zero]
      rw [this, len_zero]
      simp
    | succ k ih =>
      intro hk i hi
      have hkn : ((k : ℝ) + 1) * h ≤ T := by
        have : ((k + 1 : ℕ) : ℝ) * h ≤ n * h := mul_le_mul_of_nonneg_right (by exact_mod_cast hk) h0
        push_cast at this
        linarith
      have hk0 : 0 ≤ (k : ℝ) * h := by positivity
      have e0 := ih (by omega)
      have ut := unit (t0 + k * h) (by linarith) (by nlinarith)
      have e1 := step_dist (Bf := b (t0 + k * h + h / 2)) D.leJ h0 hK e0 ut i hi
      have e2 := hloc X (t0 + k * h) h h0 h1 ut (fun u u0 u1 =>
        hX (t0 + k * h + u) (by linarith) (by nlinarith)) i hi
      have e3 := len_sub_tri (Y (k + 1) i) (step (2 * l) J (b (t0 + k * h + h / 2)) h (X (t0 + k * h)) i)
        (X (t0 + k * h + h) i)
      rw [← hY k (by omega)] at e1
      rw [show t0 + ((k + 1 : ℕ) : ℝ) * h = t0 + k * h + h by push_cast; ring]
      have hx : Real.exp (4 * K * h) * (k * M * h ^ 3 * Real.exp (4 * K * (k * h)))
          = k * M * h ^ 3 * Real.exp (4 * K * ((k + 1 : ℕ) * h)) := by
        rw [show 4 * K * (((k + 1 : ℕ) : ℝ) * h) = 4 * K * h + 4 * K * (k * h) by push_cast; ring, Real.exp_add]
        ring
      rw [hx] at e1
      have hone : 1 ≤ Real.exp (4 * K * (((k + 1 : ℕ) : ℝ) * h)) := Real.one_le_exp (by positivity)
      have hMh : 0 ≤ M * h ^ 3 := by positivity
      have : M * h ^ 3 ≤ M * h ^ 3 * Real.exp (4 * K * (((k + 1 : ℕ) : ℝ) * h)) := by nlinarith
      calc _ ≤ _ := e3
        _ ≤ k * M * h ^ 3 * Real.exp (4 * K * ((k + 1 : ℕ) * h)) + M * h ^ 3 := add_le_add e1 e2
        _ ≤ k * M * h ^ 3 * Real.exp (4 * K * ((k + 1 : ℕ) * h))
            + M * h ^ 3 * Real.exp (4 * K * (((k + 1 : ℕ) : ℝ) * h)) := by linarith
        _ = _ := by push_cast; ring
  refine (key n le_rfl i hi).trans ?_
  have hT : (n : ℝ) * h ≤ |T| := hn.trans (le_abs_self T)
  have hnh : 0 ≤ (n : ℝ) * h := by positivity
  calc (n : ℝ) * M * h ^ 3 * Real.exp (4 * K * (n * h))
      = (n * h) * (M * h ^ 2) * Real.exp (4 * K * (n * h)) := by ring
    _ ≤ |T| * (M * h ^ 2) * Real.exp (4 * K * |T|) := by gcongr
    _ = _ := by ring

end

/-! ### the drive -/

/-- first derivative of the drive -/
noncomputable def drive1 (v : Config ℝ) (t : ℝ) : V3 ℝ :=
  let w := 2 * Real.pi / v.tau
  match v.drive with
  | .xyplane => ⟨-w * Real.sin (w * t), w * Real.cos (w * t), 0⟩
  | .uniaxial => ⟨-w * Real.sin (w * t), 0, 0⟩
  | .xyelliptic => ⟨-w * Real.sin (w * t), v.e * (w * Real.cos (w * t)), 0⟩
  | .staticfield => zero
  | .none => zero

/-- second derivative of the drive -/
noncomputable def drive2 (v : Config ℝ) (t : ℝ) : V3 ℝ :=
  let w := 2 * Real.pi / v.tau
  match v.drive with
  | .xyplane => ⟨-w * (w * Real.cos (w * t)), w * (-w * Real.sin (w * t)), 0⟩
  | .uniaxial => ⟨-w * (w * Real.cos (w * t)), 0, 0⟩
  | .xyelliptic => ⟨-w * (w * Real.cos (w * t)), v.e * (w * (-w * Real.sin (w * t))), 0⟩
  | .staticfield => zero
  | .none => zero

theorem drive_deriv (v : Config ℝ) (t : ℝ) : HasDeriv3 (drive v) (drive1 v t) t := by
  have e : ∀ x : ℝ, 2 * Real.pi * x / v.tau = 2 * Real.pi / v.tau * x := fun x => by ring
  have hl : HasDerivAt (fun x : ℝ => 2 * Real.pi / v.tau * x) (2 * Real.pi / v.tau) t := by
    simpa using (hasDerivAt_id t).const_mul (2 * Real.pi / v.tau)
  have hc : HasDerivAt (fun x : ℝ => Real.cos (2 * Real.pi / v.tau * x))
      (-(2 * Real.pi / v.tau) * Real.sin (2 * Real.pi / v.tau * t)) t :=
    hl.cos.congr_deriv (by ring)
  have hs : HasDerivAt (fun x : ℝ => Real.sin (2 * Real.pi / v.tau * x))
      (2 * Real.pi / v.tau * Real.cos (2 * Real.pi / v.tau * t)) t :=
    hl.sin.congr_deriv (by ring)
  unfold drive drive1
  cases v.drive <;> simp only [e]
  · exact ⟨hc, hs, hasDerivAt_const _ _⟩
  · exact ⟨hc, hs.const_mul _, hasDerivAt_const _ _⟩
  · exact ⟨hc, hasDerivAt_const _ _, hasDerivAt_const _ _⟩
  · exact hasDeriv3_const _ _
  · exact hasDeriv3_const _ _

theorem drive1_deriv (v : Config ℝ) (t : ℝ) : HasDeriv3 (drive1 v) (drive2 v t) t := by
  have hl : HasDerivAt (fun x : ℝ => 2 * Real.pi / v.tau * x) (2 * Real.pi / v.tau) t := by
    simpa using (hasDerivAt_id t).const_mul (2 * Real.pi / v.tau)
  have hc : HasDerivAt (fun x : ℝ => Real.cos (2 * Real.pi / v.tau * x))
      (-(2 * Real.pi / v.tau) * Real.sin (2 * Real.pi / v.tau * t)) t :=
    hl.cos.congr_deriv (by ring)
  have hs : HasDerivAt (fun x : ℝ => Real.sin (2 * Real.pi / v.tau * x))
      (2 * Real.pi / v.tau * Real.cos (2 * Real.pi / v.tau * t)) t :=
    hl.sin.congr_deriv (by ring)
  unfold drive1 drive2
  cases v.drive <;> dsimp only
  · exact ⟨hs.const_mul _, hc.const_mul _, hasDerivAt_const _ _⟩
  · exact ⟨hs.const_mul _, (hc.const_mul _).const_mul _, hasDerivAt_const _ _⟩
  · exact ⟨hs.const_mul _, hasDerivAt_const _ _, hasDerivAt_const _ _⟩
  · exact hasDeriv3_const _ _
  · exact hasDeriv3_const _ _

theorem len_le_sum (a : V3 ℝ) : len a ≤ |a.x| + |a.y| + |a.z| := by
  apply le_len_of_dot (by positivity)
  have := mul_nonneg (abs_nonneg a.x) (abs_nonneg a.y)
  have := mul_nonneg (abs_nonneg a.x) (abs_nonneg a.z)
  have := mul_nonneg (abs_nonneg a.y) (abs_nonneg a.z)
  have e1 := abs_mul_abs_self a.x
  have e2 := abs_mul_abs_self a.y
  have e3 := abs_mul_abs_self a.z
  simp only [dot]
  nlinarith

/-- the drive and its first two derivatives are bounded -/
theorem drive_bound (v : Config ℝ) : ∃ K, 0 ≤ K ∧ ∀ t, len (drive v t) ≤ K ∧ len (drive1 v t) ≤ K ∧
    len (drive2 v t) ≤ K := by
  set w := 2 * Real.pi / v.tau with hw
  set A := |v.e| + 1 with hA
  have hA1 : 1 ≤ A := by have := abs_nonneg v.e; linarith
  have he : |v.e| ≤ A := by linarith
  have hA0 : 0 ≤ A := by linarith
  set W := 1 + |w| + |w| * |w| with hW
  have hw0 := abs_nonneg w
  have hW1 : 1 ≤ W := by nlinarith
  have hW2 : |w| ≤ W := by nlinarith
  have hW3 : |w| * |w| ≤ W := by nlinarith
  refine ⟨2 * (A * W) + len (drive v 0), by have := len_nonneg (drive v 0); positivity, fun t => ?_⟩
  have bc : ∀ x, |Real.cos x| ≤ 1 := Real.abs_cos_le_one
  have bs : ∀ x, |Real.sin x| ≤ 1 := Real.abs_sin_le_one
  have l0 := len_nonneg (drive v 0)
  have hAW : W ≤ A * W := by nlinarith
  have hAW1 : 0 ≤ A * W := by positivity
  have p1 : ∀ x, |x| ≤ 1 → |w * x| ≤ W := fun x hx => by
    rw [abs_mul]; nlinarith [abs_nonneg x]
  have p2 : ∀ x, |x| ≤ 1 → |w * (w * x)| ≤ W := fun x hx => by
    rw [abs_mul, abs_mul, ← mul_assoc]; nlinarith [abs_nonneg x, mul_nonneg hw0 hw0]
  have pe : ∀ x y, |x| ≤ y → 0 ≤ y → |v.e * x| ≤ A * y := fun x y hx hy => by
    rw [abs_mul]; exact mul_le_mul he hx (abs_nonneg _) hA0
  have e : ∀ x : ℝ, 2 * Real.pi * x / v.tau = w * x := fun x => by rw [hw]; ring
  refine ⟨?_, ?_, ?_⟩
  · unfold drive at l0 ⊢
    cases hv : v.drive <;> simp only [hv] at l0 ⊢
    · refine (len_le_sum _).trans ?_
      have := bc (2 * Real.pi * t / v.tau)
      have := bs (2 * Real.pi * t / v.tau)
      simp only [abs_zero]; linarith
    · refine (len_le_sum _).trans ?_
      have := bc (2 * Real.pi * t / v.tau)
      have := pe _ 1 (bs (2 * Real.pi * t / v.tau)) (by norm_num)
      have : A * 1 ≤ A * W := by nlinarith
      simp only [abs_zero]; linarith
    · refine (len_le_sum _).trans ?_
      have := bc (2 * Real.pi * t / v.tau)
      simp only [abs_zero]; linarith
    · linarith
    · linarith
  · refine le_trans ?_ (le_add_of_nonneg_right l0)
    have c1 := p1 _ (bc (w * t))
    have s1 := p1 _ (bs (w * t))
    unfold drive1
    cases v.drive <;> dsimp only
    · refine (len_le_sum _).trans ?_
      simp only [abs_zero, neg_mul, abs_neg, ← hw]; linarith
    · refine (len_le_sum _).trans ?_
      have := pe _ _ c1 (by linarith)
      simp only [abs_zero, neg_mul, abs_neg, ← hw]; linarith
    · refine (len_le_sum _).trans ?_
      simp only [abs_zero, neg_mul, abs_neg, ← hw]; linarith
    · rw [len_zero]; linarith
    · rw [len_zero]; linarith
  · refine le_trans ?_ (le_add_of_nonneg_right l0)
    have c1 := p2 _ (bc (w * t))
    have s1 := p2 _ (bs (w * t))
    unfold drive2
    cases v.drive <;> dsimp only
    · refine (len_le_sum _).trans ?_
      simp only [abs_zero, neg_mul, mul_neg, abs_neg, ← hw]; linarith
    · refine (len_le_sum _).trans ?_
      have := pe _ _ s1 (by linarith)
      simp only [abs_zero, neg_mul, mul_neg, abs_neg, ← hw]; linarith
    · refine (len_le_sum _).trans ?_
      simp only [abs_zero, neg_mul, abs_neg, ← hw]; linarith
    · rw [len_zero]; linarith
    · rw [len_zero]; linarith

theorem getD_bound (xs : List (V3 ℝ)) : ∃ K, 0 ≤ K ∧ ∀ i : ℕ, len ((xs[i]?).getD zero) ≤ K := by
  induction xs with
  | nil => exact ⟨0, le_rfl, fun i => by simp [len_zero]⟩
  | cons a xs ih =>
    obtain ⟨K, hK, h⟩ := ih
    refine ⟨K + len a, add_nonneg hK (len_nonneg a), fun i => ?_⟩
    cases i with
    | zero => simpa using hK
    | succ i =>
      have := h i
      have := len_nonneg a
      simp only [List.getElem?_cons_succ]
      linarith

/-- the couplings and fields of a chain are smooth and bounded -/
theorem chain_data (c : SpinChain ℝ) (s m : ℕ) : ∃ b1 b2 K, 0 ≤ K ∧
    FieldData m (J c) (fun t => B c s t) b1 b2 K := by
  obtain ⟨K1, hK1, h1⟩ := getD_bound c.j_couple
  obtain ⟨K2, hK2, h2⟩ := getD_bound c.static_h
  obtain ⟨K3, hK3, h3⟩ := drive_bound c.vars
  refine ⟨fun t i => if i < s then drive1 c.vars t else zero, fun t i => if i < s then drive2 c.vars t else zero,
    K1 + K2 + K3, by positivity, ⟨?_, ?_, ?_, ?_, ?_, ?_⟩⟩
  · intro i _
    have : len (J c i) ≤ K1 := h1 i
    linarith
  · intro t i
    have e1 : len (H0 c i) ≤ K2 := h2 i
    have e2 := (h3 t).1
    unfold B
    split
    · have := len_add_le (H0 c i) (drive c.vars t)
      linarith
    · linarith
  · intro t i
    have e2 := (h3 t).2.1
    split
    · linarith
    · rw [len_zero]; linarith
  · intro t i
    have e2 := (h3 t).2.2
    split
    · linarith
    · rw [len_zero]; linarith
  · intro t i
    unfold B
    by_cases hi : i < s
    · simp only [if_pos hi]
      have h0 := hasDeriv3_const (H0 c i) t
      have hd := drive_deriv c.vars t
      have := h0.1.add hd.1
      refine ⟨(h0.1.add hd.1).congr_deriv ?_, (h0.2.1.add hd.2.1).congr_deriv ?_,
        (h0.2.2.add hd.2.2).congr_deriv ?_⟩ <;> simp [zero]
    · simp only [if_neg hi]
      exact hasDeriv3_const _ _
  · intro t i
    by_cases hi : i < s
    · simp only [if_pos hi]
      exact drive1_deriv _ _
    · simp only [if_neg hi]
      exact hasDeriv3_const _ _

end Verif
