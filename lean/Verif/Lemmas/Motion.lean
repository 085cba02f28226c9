/-
Helper lemmas: the equations of motion of a ring of spins have exactly one solution for given
initial spins, for all times.
-/
import Verif.Lemmas.Order3
import Mathlib.Analysis.ODE.ExistUnique

namespace Verif

open Spec Metric Set
open scoped NNReal

/-! ### Radial retraction -/

/-- the nearest multiple of `x` with norm at most one -/
noncomputable def retract {E : Type*} [NormedAddCommGroup E] [NormedSpace ℝ E] (x : E) : E :=
  (max 1 ‖x‖)⁻¹ • x

section
variable {E : Type*} [NormedAddCommGroup E] [NormedSpace ℝ E]

theorem retract_norm (x : E) : ‖retract x‖ ≤ 1 := by
  unfold retract
  have h : 0 < max 1 ‖x‖ := lt_max_of_lt_left one_pos
  rw [norm_smul, norm_inv, Real.norm_of_nonneg h.le, inv_mul_le_one₀ h]
  exact le_max_right _ _

theorem retract_eq {x : E} (h : ‖x‖ ≤ 1) : retract x = x := by
  unfold retract
  rw [max_eq_left h, inv_one, one_smul]

theorem retract_lip (x y : E) : ‖retract x - retract y‖ ≤ 2 * ‖x - y‖ := by
  have ha : 1 ≤ max 1 ‖x‖ := le_max_left _ _
  have hb : 1 ≤ max 1 ‖y‖ := le_max_left _ _
  have hab : |max 1 ‖y‖ - max 1 ‖x‖| ≤ ‖x - y‖ := by
    have h1 := abs_max_sub_max_le_max 1 ‖y‖ 1 ‖x‖
    rw [sub_self, abs_zero, max_eq_right (abs_nonneg (‖y‖ - ‖x‖))] at h1
    have h2 := abs_norm_sub_norm_le y x
    rw [norm_sub_rev] at h2
    exact h1.trans h2
  have hy := retract_norm y
  have e : retract x - retract y
      = (max 1 ‖x‖)⁻¹ • (x - y) + ((max 1 ‖x‖)⁻¹ * (max 1 ‖y‖ - max 1 ‖x‖)) • retract y := by
    unfold retract
    rw [smul_smul, smul_sub]
    have : (max 1 ‖x‖)⁻¹ * (max 1 ‖y‖ - max 1 ‖x‖) * (max 1 ‖y‖)⁻¹ = (max 1 ‖x‖)⁻¹ - (max 1 ‖y‖)⁻¹ := by
      field_simp
    rw [this, sub_smul]
    abel
  have hi : (max 1 ‖x‖)⁻¹ ≤ 1 := inv_le_one_of_one_le₀ ha
  have hi0 : 0 ≤ (max 1 ‖x‖)⁻¹ := by positivity
  rw [e]
  refine (norm_add_le _ _).trans ?_
  rw [norm_smul, norm_smul, Real.norm_of_nonneg hi0, norm_mul, Real.norm_of_nonneg hi0, Real.norm_eq_abs]
  have h1 : (max 1 ‖x‖)⁻¹ * ‖x - y‖ ≤ 1 * ‖x - y‖ := by gcongr
  have h2 : (max 1 ‖x‖)⁻¹ * |max 1 ‖y‖ - max 1 ‖x‖| * ‖retract y‖ ≤ 1 * ‖x - y‖ * 1 := by gcongr
  linarith

end

/-! ### States as a normed space -/

/-- a vector from its components -/
def ofP (x : ℝ × ℝ × ℝ) : V3 ℝ := ⟨x.1, x.2.1, x.2.2⟩
/-- the components of a vector -/
def toP (v : V3 ℝ) : ℝ × ℝ × ℝ := (v.x, v.y, v.z)

theorem abs_le_len (v : V3 ℝ) : |v.x| ≤ len v ∧ |v.y| ≤ len v ∧ |v.z| ≤ len v := by
  unfold len dot
  refine ⟨?_, ?_, ?_⟩ <;> apply Real.abs_le_sqrt <;> nlinarith [mul_self_nonneg v.x, mul_self_nonneg v.y,
    mul_self_nonneg v.z]

theorem norm_toP (v : V3 ℝ) : ‖toP v‖ ≤ len v := by
  obtain ⟨h1, h2, h3⟩ := abs_le_len v
  rw [toP, Prod.norm_def, Prod.norm_def]
  simp only [Real.norm_eq_abs]
  exact max_le h1 (max_le h2 h3)

theorem len_ofP (x : ℝ × ℝ × ℝ) : len (ofP x) ≤ 2 * ‖x‖ := by
  have h1 : |x.1| ≤ ‖x‖ := norm_fst_le x
  have h2 : |x.2.1| ≤ ‖x‖ := (norm_fst_le x.2).trans (norm_snd_le x)
  have h3 : |x.2.2| ≤ ‖x‖ := (norm_snd_le x.2).trans (norm_snd_le x)
  apply le_len_of_dot (by positivity)
  have := abs_le.1 h1
  have := abs_le.1 h2
  have := abs_le.1 h3
  simp only [ofP, dot]
  nlinarith

theorem ofP_sub (x y : ℝ × ℝ × ℝ) : Spec.sub (ofP x) (ofP y) = ofP (x - y) := rfl
theorem toP_sub (v w : V3 ℝ) : toP v - toP w = toP (Spec.sub v w) := rfl

theorem hasDeriv_toP {f : ℝ → V3 ℝ} {v : V3 ℝ} {t : ℝ} (h : HasDeriv3 f v t) :
    HasDerivAt (fun t => toP (f t)) (toP v) t := h.1.prodMk (h.2.1.prodMk h.2.2)

theorem hasDeriv_ofP {f : ℝ → ℝ × ℝ × ℝ} {v : V3 ℝ} {t : ℝ} (h : HasDerivAt f (toP v) t) :
    HasDeriv3 (fun t => ofP (f t)) v t := by
  have h1 := (ContinuousLinearMap.fst ℝ ℝ (ℝ × ℝ)).hasFDerivAt.comp_hasDerivAt t h
  have h2 := (ContinuousLinearMap.snd ℝ ℝ (ℝ × ℝ)).hasFDerivAt.comp_hasDerivAt t h
  have h3 := (ContinuousLinearMap.fst ℝ ℝ ℝ).hasFDerivAt.comp_hasDerivAt t h2
  have h4 := (ContinuousLinearMap.snd ℝ ℝ ℝ).hasFDerivAt.comp_hasDerivAt t h2
  exact ⟨h1, h3, h4⟩

/-- the spins of a state, each shortened to norm at most one -/
noncomputable def spinsOf (m : ℕ) (x : Fin m → ℝ × ℝ × ℝ) (j : ℕ) : V3 ℝ :=
  if h : j < m then ofP (retract (x ⟨j, h⟩)) else zero

/-- the right-hand side of the equations of motion -/
noncomputable def rhs (m : ℕ) (J : ℕ → V3 ℝ) (b : ℝ → ℕ → V3 ℝ) (t : ℝ) (x : Fin m → ℝ × ℝ × ℝ) :
    Fin m → ℝ × ℝ × ℝ :=
  fun i => toP (cross (spinsOf m x i) (omega m (spinsOf m x) J (b t) i))

section
variable {m : ℕ} {J : ℕ → V3 ℝ} {b b1 b2 : ℝ → ℕ → V3 ℝ} {K : ℝ}

theorem spinsOf_len (x : Fin m → ℝ × ℝ × ℝ) (j : ℕ) : len (spinsOf m x j) ≤ 2 := by
  unfold spinsOf
  split
  · have := len_ofP (retract (x ⟨j, by assumption⟩))
    have := retract_norm (x ⟨j, by assumption⟩)
    linarith
  · rw [len_zero]; norm_num

theorem spinsOf_dist (x y : Fin m → ℝ × ℝ × ℝ) (j : ℕ) :
    len (Spec.sub (spinsOf m x j) (spinsOf m y j)) ≤ 4 * ‖x - y‖ := by
  unfold spinsOf
  split
  · rename_i h
    rw [ofP_sub]
    have h1 := len_ofP (retract (x ⟨j, h⟩) - retract (y ⟨j, h⟩))
    have h2 := retract_lip (x ⟨j, h⟩) (y ⟨j, h⟩)
    have h3 : ‖x ⟨j, h⟩ - y ⟨j, h⟩‖ ≤ ‖x - y‖ := norm_le_pi_norm (x - y) ⟨j, h⟩
    linarith
  · rw [show Spec.sub zero zero = zero by ext <;> simp [Spec.sub, zero], len_zero]
    positivity

theorem omega_len (hK : 0 ≤ K) (hJ : ∀ i < m, len (J i) ≤ K) {Bf S : ℕ → V3 ℝ} (hB : ∀ i, len (Bf i) ≤ K)
    (hS : ∀ j, len (S j) ≤ 2) {i : ℕ} (hi : i < m) : len (omega m S J Bf i) ≤ 5 * K := by
  have hl' := left_lt (m := m) (i := i) (by omega)
  unfold omega
  have h1 := len_had_le (J (left m i)) (S (left m i))
  have h2 := len_had_le (J i) (S (right m i))
  have h3 := mul_le_mul (hJ _ hl') (hS (left m i)) (len_nonneg _) hK
  have h4 := mul_le_mul (hJ _ hi) (hS (right m i)) (len_nonneg _) hK
  have h5 := len_add_le (had (J (left m i)) (S (left m i))) (had (J i) (S (right m i)))
  have h6 := len_sub_le (Spec.add (had (J (left m i)) (S (left m i))) (had (J i) (S (right m i)))) (Bf i)
  have := hB i
  linarith

theorem rhs_bound (hK : 0 ≤ K) (hJ : ∀ i < m, len (J i) ≤ K) (hB : ∀ t i, len (b t i) ≤ K) (t : ℝ)
    (x : Fin m → ℝ × ℝ × ℝ) : ‖rhs m J b t x‖ ≤ 10 * K := by
  rw [pi_norm_le_iff_of_nonneg (by positivity)]
  intro i
  refine (norm_toP _).trans ((len_cross_le _ _).trans ?_)
  have h1 := spinsOf_len x i
  have h2 := omega_len hK hJ (hB t) (spinsOf_len x) i.2
  have := mul_le_mul h1 h2 (len_nonneg _) (by norm_num)
  linarith

theorem rhs_lip (hK : 0 ≤ K) (hJ : ∀ i < m, len (J i) ≤ K) (hB : ∀ t i, len (b t i) ≤ K) (t : ℝ)
    (x y : Fin m → ℝ × ℝ × ℝ) : ‖rhs m J b t x - rhs m J b t y‖ ≤ 36 * K * ‖x - y‖ := by
  rw [pi_norm_le_iff_of_nonneg (by positivity)]
  intro i
  show ‖toP _ - toP _‖ ≤ _
  rw [toP_sub]
  refine (norm_toP _).trans ?_
  have e : ∀ p p' w w' : V3 ℝ, Spec.sub (cross p w) (cross p' w')
      = Spec.add (cross (Spec.sub p p') w) (cross p' (Spec.sub w w')) := by
    intro p p' w w'
    ext <;> simp only [Spec.sub, Spec.add, cross] <;> ring
  rw [e]
  refine (len_add_le _ _).trans ?_
  have h1 := len_cross_le (Spec.sub (spinsOf m x i) (spinsOf m y i)) (omega m (spinsOf m x) J (b t) i)
  have h2 := len_cross_le (spinsOf m y i)
    (Spec.sub (omega m (spinsOf m x) J (b t) i) (omega m (spinsOf m y) J (b t) i))
  have h3 := mul_le_mul (spinsOf_dist x y i) (omega_len hK hJ (hB t) (spinsOf_len x) i.2) (len_nonneg _)
    (by positivity)
  have h4 := mul_le_mul (spinsOf_len y i)
    (omega_dist hJ (Bf := b t) (fun j _ => spinsOf_dist x y j) i.2) (len_nonneg _) (by norm_num)
  linarith

/-- the equations of motion have a solution on every interval of time -/
theorem motion_exists (D : FieldData m J b b1 b2 K) (hK : 0 ≤ K) (t0 : ℝ) (S0 : ℕ → V3 ℝ)
    (hu : ∀ j < m, len (S0 j) = 1) (T : ℝ) :
    ∃ X : ℝ → ℕ → V3 ℝ, (∀ j < m, X t0 j = S0 j) ∧ ∀ t, t0 - T ≤ t → t ≤ t0 + T → ∀ j < m,
      HasDeriv3 (fun t => X t j) (cross (X t j) (omega m (X t) J (b t) j)) t := by
  set R : ℝ := max T 0 + 1 with hR
  have hR0 : 0 < R := by positivity
  have hRT : T < R := by have := le_max_left T 0; linarith
  have ht0 : t0 ∈ Icc (t0 - R) (t0 + R) := ⟨by linarith, by linarith⟩
  let x0 : Fin m → ℝ × ℝ × ℝ := fun i => toP (S0 i)
  have hp : IsPicardLindelof (rhs m J b) (⟨t0, ht0⟩ : Icc (t0 - R) (t0 + R)) x0
      (⟨10 * K * R, by positivity⟩ : ℝ≥0) 0 (⟨10 * K, by positivity⟩ : ℝ≥0) (⟨36 * K, by positivity⟩ : ℝ≥0) := by
    refine ⟨?_, ?_, ?_, ?_⟩
    · intro t _
      refine LipschitzOnWith.of_dist_le_mul fun x _ y _ => ?_
      rw [dist_eq_norm, dist_eq_norm]
      exact rhs_lip hK D.leJ D.le0 t x y
    · intro x _
      apply Continuous.continuousOn
      refine continuous_pi fun i => ?_
      have hb : ∀ i, Continuous (fun t => (b t i).x) ∧ Continuous (fun t => (b t i).y) ∧
          Continuous (fun t => (b t i).z) := fun i =>
        ⟨continuous_iff_continuousAt.2 fun t => (D.d1 t i).1.continuousAt,
          continuous_iff_continuousAt.2 fun t => (D.d1 t i).2.1.continuousAt,
          continuous_iff_continuousAt.2 fun t => (D.d1 t i).2.2.continuousAt⟩
      obtain ⟨h1, h2, h3⟩ := hb i
      unfold rhs toP cross omega Spec.sub
      fun_prop
    · intro t _ x _
      exact rhs_bound hK D.leJ D.le0 t x
    · show 10 * K * max (t0 + R - t0) (t0 - (t0 - R)) ≤ 10 * K * R - 0
      rw [show t0 + R - t0 = R by ring, show t0 - (t0 - R) = R by ring, max_self, sub_zero]
  obtain ⟨α, hα0, hα⟩ := hp.exists_eq_forall_mem_Icc_hasDerivWithinAt₀
  have hαi : ∀ i : Fin m, ∀ t ∈ Icc (t0 - R) (t0 + R), HasDerivWithinAt (fun t => α t i)
      (rhs m J b t (α t) i) (Icc (t0 - R) (t0 + R)) t := fun i t ht => (hasDerivWithinAt_pi.1 (hα t ht)) i
  -- the lengths do not change
  have hlen : ∀ i : Fin m, ∀ t ∈ Icc (t0 - R) (t0 + R), len (ofP (α t i)) = 1 := by
    intro i t ht
    have hd : ∀ u ∈ Icc (t0 - R) (t0 + R),
        HasDerivWithinAt (fun u => dot (ofP (α u i)) (ofP (α u i))) 0 (Icc (t0 - R) (t0 + R)) u := by
      intro u hu
      have h := hαi i u hu
      have h1 := (ContinuousLinearMap.fst ℝ ℝ (ℝ × ℝ)).hasFDerivAt.comp_hasDerivWithinAt u h
      have h2 := (ContinuousLinearMap.snd ℝ ℝ (ℝ × ℝ)).hasFDerivAt.comp_hasDerivWithinAt u h
      have h3 := (ContinuousLinearMap.fst ℝ ℝ ℝ).hasFDerivAt.comp_hasDerivWithinAt u h2
      have h4 := (ContinuousLinearMap.snd ℝ ℝ ℝ).hasFDerivAt.comp_hasDerivWithinAt u h2
      refine (((h1.mul h1).add (h3.mul h3)).add (h4.mul h4)).congr_deriv ?_
      have e : spinsOf m (α u) i = smul (max 1 ‖α u i‖)⁻¹ (ofP (α u i)) := by
        unfold spinsOf
        rw [dif_pos i.2]
        rfl
      simp only [rhs, e]
      generalize omega m (spinsOf m (α u)) J (b u) i = w
      simp only [toP, cross, smul, ofP, ContinuousLinearMap.coe_fst', ContinuousLinearMap.coe_snd',
        Function.comp_apply]
      ring
    have h0 := (convex_Icc (t0 - R) (t0 + R)).norm_image_sub_le_of_norm_hasDerivWithin_le (C := 0) hd
      (by simp) ht0 ht
    rw [zero_mul] at h0
    have h1 : dot (ofP (α t i)) (ofP (α t i)) = dot (ofP (α t0 i)) (ofP (α t0 i)) := by
      have := norm_le_zero_iff.1 h0
      linarith
    have h2 := hu i i.2
    have h3 : ofP (α t0 i) = S0 i := by
      rw [hα0]
      rfl
    unfold len at h2 ⊢
    rw [h1, h3, h2]
  refine ⟨fun t j => if h : j < m then ofP (α t ⟨j, h⟩) else zero, ?_, ?_⟩
  · intro j hj
    show (if h : j < m then ofP (α t0 ⟨j, h⟩) else zero) = _
    rw [dif_pos hj, hα0]
    rfl
  · intro t h1 h2 j hj
    have ht : t ∈ Icc (t0 - R) (t0 + R) := ⟨by linarith, by linarith⟩
    have hsp : spinsOf m (α t) = fun j => if h : j < m then ofP (α t ⟨j, h⟩) else zero := by
      funext k
      unfold spinsOf
      split
      · rename_i hk
        rw [retract_eq]
        have := norm_toP (ofP (α t ⟨k, hk⟩))
        rw [hlen ⟨k, hk⟩ t ht] at this
        exact this
      · rfl
    have hd : HasDerivAt (fun t => α t ⟨j, hj⟩) (rhs m J b t (α t) ⟨j, hj⟩) t :=
      (hαi ⟨j, hj⟩ t ht).hasDerivAt (Icc_mem_nhds (by linarith) (by linarith))
    have hd' := hasDeriv_ofP hd
    simp only [hsp] at hd'
    simpa only [dif_pos hj] using hd'

/-- a solution keeps the lengths of the spins -/
theorem motion_len {X : ℝ → ℕ → V3 ℝ} {a e : ℝ}
    (hX : ∀ t, a ≤ t → t ≤ e → ∀ j < m, HasDeriv3 (fun t => X t j) (cross (X t j) (omega m (X t) J (b t) j)) t)
    {t : ℝ} (h1 : a ≤ t) (h2 : t ≤ e) {j : ℕ} (hj : j < m) : len (X t j) = len (X a j) := by
  have hd : ∀ u ∈ Icc a e, HasDerivWithinAt (fun u => dot (X u j) (X u j)) 0 (Icc a e) u := by
    intro u hu
    obtain ⟨d1, d2, d3⟩ := hX u hu.1 hu.2 j hj
    have := ((d1.mul d1).add (d2.mul d2)).add (d3.mul d3)
    refine (this.congr_deriv ?_).hasDerivWithinAt
    simp only [cross]; ring
  have := (convex_Icc a e).norm_image_sub_le_of_norm_hasDerivWithin_le (C := 0) hd
    (by simp) (left_mem_Icc.2 (h1.trans h2)) ⟨h1, h2⟩
  rw [zero_mul] at this
  have e : dot (X t j) (X t j) = dot (X a j) (X a j) := by
    have := norm_le_zero_iff.1 this
    linarith
  unfold len
  rw [e]

/-- two solutions that start from the same unit spins agree -/
theorem motion_unique (D : FieldData m J b b1 b2 K) (hK : 0 ≤ K) {X Y : ℝ → ℕ → V3 ℝ} {a e : ℝ}
    (hX : ∀ t, a ≤ t → t ≤ e → ∀ j < m, HasDeriv3 (fun t => X t j) (cross (X t j) (omega m (X t) J (b t) j)) t)
    (hY : ∀ t, a ≤ t → t ≤ e → ∀ j < m, HasDeriv3 (fun t => Y t j) (cross (Y t j) (omega m (Y t) J (b t) j)) t)
    (hu : ∀ j < m, len (X a j) = 1) (h0 : ∀ j < m, Y a j = X a j) {t : ℝ} (h1 : a ≤ t) (h2 : t ≤ e) :
    ∀ j < m, Y t j = X t j := by
  have key : ∀ Z : ℝ → ℕ → V3 ℝ, (∀ j < m, len (Z a j) = 1) →
      (∀ t, a ≤ t → t ≤ e → ∀ j < m, HasDeriv3 (fun t => Z t j) (cross (Z t j) (omega m (Z t) J (b t) j)) t) →
      ∀ u ∈ Icc a e, HasDerivAt (fun t (i : Fin m) => toP (Z t i)) (rhs m J b u (fun i : Fin m => toP (Z u i))) u := by
    intro Z hZ0 hZ u hu
    rw [hasDerivAt_pi]
    intro i
    have hs : ∀ j < m, spinsOf m (fun i : Fin m => toP (Z u i)) j = Z u j := by
      intro j hj
      unfold spinsOf
      rw [dif_pos hj, retract_eq]
      · rfl
      · have := norm_toP (Z u j)
        rw [motion_len hZ hu.1 hu.2 hj, hZ0 j hj] at this
        exact this
    have h := hasDeriv_toP (hZ u hu.1 hu.2 i i.2)
    refine h.congr_deriv ?_
    unfold rhs
    rw [hs i i.2]
    congr 2
    have hm : 0 < m := by have := i.2; omega
    unfold omega
    rw [hs _ (left_lt hm), hs _ (right_lt' hm)]
  have hX' := key X hu hX
  have hY' := key Y (fun j hj => by rw [h0 j hj]; exact hu j hj) hY
  have := ODE_solution_unique (v := rhs m J b) (K := ⟨36 * K, by positivity⟩) (a := a) (b := e)
    (f := fun t (i : Fin m) => toP (X t i)) (g := fun t (i : Fin m) => toP (Y t i))
    (fun t => LipschitzWith.of_dist_le_mul fun x y => by
      rw [dist_eq_norm, dist_eq_norm]
      exact rhs_lip hK D.leJ D.le0 t x y)
    (fun u hu => (hX' u hu).continuousAt.continuousWithinAt)
    (fun u hu => (hX' u (Ico_subset_Icc_self hu)).hasDerivWithinAt)
    (fun u hu => (hY' u hu).continuousAt.continuousWithinAt)
    (fun u hu => (hY' u (Ico_subset_Icc_self hu)).hasDerivWithinAt)
    (by
      funext i
      show toP _ = toP _
      rw [h0 i i.2])
    ⟨h1, h2⟩
  intro j hj
  have h3 := congrFun this ⟨j, hj⟩
  simp only [toP, Prod.mk.injEq] at h3
  ext
  · exact h3.1.symm
  · exact h3.2.1.symm
  · exact h3.2.2.symm

end

end Verif
