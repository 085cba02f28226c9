/-
Helper lemmas: almost surely no field vanishes in a Langevin step.
-/
import Verif.Lemmas.KickMean

namespace Verif

set_option linter.unusedSectionVars false

open Spec Function MeasureTheory ProbabilityTheory
open scoped ENNReal

/-! ### null sets by varying one coordinate -/

theorem coord_section_null {n : ℕ} {X : Type} [MeasurableSpace X] {σ : Measure X} [IsProbabilityMeasure σ]
    {E : Set (Fin n → X)} (hE : MeasurableSet E) (k : Fin n) (h : ∀ v, σ {x | update v k x ∈ E} = 0) :
    (Measure.pi fun _ : Fin n => σ) E = 0 := by
  rw [← lintegral_indicator_one hE]
  have key : ∫⁻ v, E.indicator 1 v ∂(Measure.pi fun _ : Fin n => σ)
      = ∫⁻ v, (0 : ℝ≥0∞) ∂(Measure.pi fun _ : Fin n => σ) := by
    refine lintegral_eq_of_lmarginal_eq {k} (measurable_one.indicator hE) measurable_const ?_
    funext v
    rw [lmarginal_singleton, lmarginal_singleton, lintegral_zero]
    have hset : (fun x => E.indicator (1 : (Fin n → X) → ℝ≥0∞) (update v k x)) = ({x | update v k x ∈ E}).indicator 1 := by
      funext x
      by_cases hc : update v k x ∈ E
      · rw [Set.indicator_of_mem hc, Set.indicator_of_mem (by exact hc)]
        rfl
      · rw [Set.indicator_of_notMem hc, Set.indicator_of_notMem (by exact hc)]
    dsimp only
    have hm : MeasurableSet {x | update v k x ∈ E} := measurable_update v hE
    rw [hset, lintegral_indicator_one hm, h]
  rw [key, lintegral_zero]

theorem normal_section_null {E : Set (Fin 6 → ℝ)} (hE : MeasurableSet E) (k : Fin 6)
    (h : ∀ ζ x y, update ζ k x ∈ E → update ζ k y ∈ E → x = y) : normals E = 0 :=
  coord_section_null hE k fun ζ => by
    have : NullSingletonClass (gaussianReal 0 1) := nullSingletonClass_gaussianReal (by norm_num)
    exact Set.Subsingleton.measure_zero (fun x hx y hy => h ζ x y hx hy) _

section
variable {L : ℕ}

/-! ### rotating a set of sites about fields of the others -/

theorem some_preserving {P : ℕ → Prop} [DecidablePred P] {f : (ℕ → V3 ℝ) → ℕ → V3 ℝ}
    (hf : ∀ i, Measurable fun v : Fin L → V3 ℝ => f (fld v) i)
    (hl : ∀ i, P i → ∀ S S' : ℕ → V3 ℝ, (∀ j, ¬P j → S j = S' j) → f S i = f S' i) (t : ℝ) :
    MeasurePreserving (fun (v : Fin L → V3 ℝ) (i : Fin L) => if P i then precess (v i) (f (fld v) i) t else v i)
      (Measure.pi fun _ => sphereMeasure) (Measure.pi fun _ => sphereMeasure) := by
  have key : ∀ n : ℕ, MeasurePreserving
      (fun (v : Fin L → V3 ℝ) (i : Fin L) => if (i : ℕ) < n ∧ P i then precess (v i) (f (fld v) i) t else v i)
      (Measure.pi fun _ => sphereMeasure) (Measure.pi fun _ => sphereMeasure) := by
    intro n
    induction n with
    | zero =>
      simp only [Nat.not_lt_zero, false_and, if_false]
      exact MeasurePreserving.id _
    | succ n ih =>
      by_cases hn : n < L ∧ P n
      · have h1 := site_preserving (L := L) (σ := sphereMeasure) (i := ⟨n, hn.1⟩)
          (g := fun v x => precess x (f (fld v) n) t)
          (meas_precess measurable_snd ((hf n).comp measurable_fst) t)
          (fun v y x => by
            congr 1
            refine hl n hn.2 _ _ fun j hj => fld_update_ne v ⟨n, hn.1⟩ y ?_
            rintro rfl
            exact hj hn.2)
          (fun v h hh => sphere_invariant (precess_orthogonal _ t) hh)
        have h2 := h1.comp ih
        convert h2 using 1
        funext v i
        by_cases hin : i = ⟨n, hn.1⟩
        · subst hin
          rw [comp_apply, update_self]
          have e : f (fld fun i : Fin L => if (i : ℕ) < n ∧ P i then precess (v i) (f (fld v) i) t else v i) n = f (fld v) n := by
            refine hl n hn.2 _ _ fun j hj => ?_
            unfold fld
            split
            · exact if_neg fun h => hj h.2
            · rfl
          rw [e]
          simp [hn.2]
        · have hne : (i : ℕ) ≠ n := fun h => hin (Fin.ext h)
          rw [comp_apply, update_of_ne hin]
          by_cases hc : (i : ℕ) < n ∧ P i
          · rw [if_pos hc, if_pos ⟨by omega, hc.2⟩]
          · rw [if_neg hc, if_neg (fun h => hc ⟨by omega, h.2⟩)]
      · convert ih using 1
        funext v i
        by_cases hc : (i : ℕ) < n ∧ P i
        · rw [if_pos hc, if_pos ⟨by omega, hc.2⟩]
        · rw [if_neg hc, if_neg]
          rintro ⟨h1, h2⟩
          have : (i : ℕ) ≠ n := fun e => hn ⟨e ▸ i.2, e ▸ h2⟩
          exact hc ⟨by omega, h2⟩
  have h := key L
  simp only [Fin.is_lt, true_and] at h
  exact h

/-! ### locality -/

section
variable {m : ℕ} {γ : ℝ} {J B η : ℕ → V3 ℝ}

theorem openOmega_congr {S S' : ℕ → V3 ℝ} {i : ℕ} (hl : 0 < i → S (i - 1) = S' (i - 1)) (hr : S (i + 1) = S' (i + 1)) :
    openOmega m S J B i = openOmega m S' J B i := by
  unfold openOmega
  rw [hr]
  by_cases h : 0 < i
  · rw [hl h]
  · rw [if_neg h, if_neg h]

theorem langField_congr {S S' : ℕ → V3 ℝ} {i : ℕ} (hl : 0 < i → S (i - 1) = S' (i - 1)) (hc : S i = S' i)
    (hr : S (i + 1) = S' (i + 1)) : langField m γ J B η S i = langField m γ J B η S' i := by
  unfold langField
  rw [openOmega_congr hl hr, hc]

theorem langField_inner {S : ℕ → V3 ℝ} {i : ℕ} (h0 : 0 < i) (h1 : i + 1 < m) :
    langField m γ J B η S i = Spec.sub (Spec.add (had (J (i - 1)) (S (i - 1))) (had (J i) (S (i + 1)))) (B i) := by
  unfold langField openOmega
  rw [if_neg (by omega), if_pos h0, if_pos h1]

theorem inner_zero_right {a b c w : V3 ℝ} : Spec.sub (Spec.add (had a c) w) b = zero → w = Spec.sub b (had a c) := by
  intro h
  have hx := congrArg V3.x h
  have hy := congrArg V3.y h
  have hz := congrArg V3.z h
  simp only [Spec.sub, Spec.add, had, zero] at hx hy hz ⊢
  ext <;> dsimp only <;> linarith

theorem inner_zero_left {a b c w : V3 ℝ} : Spec.sub (Spec.add w (had a c)) b = zero → w = Spec.sub b (had a c) := by
  intro h
  have hx := congrArg V3.x h
  have hy := congrArg V3.y h
  have hz := congrArg V3.z h
  simp only [Spec.sub, Spec.add, had, zero] at hx hy hz ⊢
  ext <;> dsimp only <;> linarith

theorem meas_lang_fld (i : ℕ) : Measurable fun v : Fin L → V3 ℝ => langField m γ J B η (fld v) i :=
  meas_langField (η := fun _ => η) (fun _ => measurable_const) (fun k => meas_fld k) i

/-- inner fields in the first sub-step -/
theorem inner_first (hm : m ≤ L) {i : ℕ} (h0 : 0 < i) (h1 : i + 1 < m) (hJ : J i ≠ zero) :
    (Measure.pi fun _ : Fin L => sphereMeasure) {v | langField m γ J B η (fld v) i = zero} = 0 := by
  refine coord_section_null (meas_lang_fld i (measurableSet_v3 zero)) ⟨i + 1, by omega⟩ fun v => ?_
  refine measure_mono_null (fun x hx => ?_) (affine_null hJ (Spec.sub (B i) (had (J (i - 1)) (fld v (i - 1)))))
  have hx' : langField m γ J B η (fld (update v ⟨i + 1, by omega⟩ x)) i = zero := hx
  rw [langField_inner h0 h1, fld_update_ne v ⟨i + 1, by omega⟩ x (by dsimp only; omega : i - 1 ≠ _),
    fld_update_self v ⟨i + 1, by omega⟩ x] at hx'
  exact inner_zero_right hx'

/-! ### fields on the edges -/

theorem langField_eta {η' : ℕ → V3 ℝ} {S : ℕ → V3 ℝ} {i : ℕ} (h : η i = η' i) :
    langField m γ J B η S i = langField m γ J B η' S i := by
  unfold langField
  rw [h]

theorem langField_drift {S : ℕ → V3 ℝ} {i : ℕ} (h : i = 0 ∨ i + 1 = m) :
    langField m γ J B η S i = Spec.sub (driftField m γ J B S i) (η i) := by
  unfold langField driftField
  rw [if_pos h, if_pos h]
  ext <;> simp only [Spec.sub, Spec.add] <;> ring

variable {β dt K : ℝ}

theorem meas_zero {α : Type} [MeasurableSpace α] {g : α → V3 ℝ} (hg : Measurable g) : MeasurableSet {t | g t = zero} :=
  hg (measurableSet_v3 zero)

theorem noise_zero : ∀ (ζ : Fin 6 → ℝ) (x : ℝ), noiseField m γ β dt (noiseOf (update ζ 0 x)) 0
      = smul (Real.sqrt (2 * γ * dt / β) / dt) ⟨x, ζ 1, ζ 2⟩ := by
  intro ζ x
  unfold noiseField noiseOf
  rw [if_pos rfl]
  simp [update]

theorem noise_zero' : ∀ (ζ : Fin 6 → ℝ) (x y : ℝ) (i : ℕ), i ≠ 0 → noiseField m γ β dt (noiseOf (update ζ 0 x)) i
      = noiseField m γ β dt (noiseOf (update ζ 0 y)) i := by
  intro ζ x y i hi
  unfold noiseField noiseOf
  rw [if_neg hi, if_neg hi]
  simp [update]

theorem noise_last (h2 : 2 ≤ m) : ∀ (ζ : Fin 6 → ℝ) (x : ℝ), noiseField m γ β dt (noiseOf (update ζ 3 x)) (m - 1)
      = smul (Real.sqrt (2 * γ * dt / β) / dt) ⟨x, ζ 4, ζ 5⟩ := by
  intro ζ x
  unfold noiseField noiseOf
  rw [if_neg (by omega), if_pos (by omega)]
  simp [update]

theorem noise_last' : ∀ (ζ : Fin 6 → ℝ) (x y : ℝ) (i : ℕ), i + 1 ≠ m → noiseField m γ β dt (noiseOf (update ζ 3 x)) i
      = noiseField m γ β dt (noiseOf (update ζ 3 y)) i := by
  intro ζ x y i hi
  unfold noiseField noiseOf
  rw [if_neg hi, if_neg hi]
  simp [update]

theorem edge_first (hγ : 0 < γ) (hβ : 0 < β) (h0 : 0 < dt) (v : Fin L → V3 ℝ) :
    normals {ζ | langField m γ J B (noiseField m γ β dt (noiseOf ζ)) (fld v) 0 = zero} = 0 := by
  have hc : 0 < Real.sqrt (2 * γ * dt / β) / dt := div_pos (Real.sqrt_pos.2 (by positivity)) h0
  have hn : ∀ i, Measurable fun ζ => noiseField m γ β dt (noiseOf ζ) i := fun i => meas_noiseField measurable_id β dt i
  have n0 := noise_zero (m := m) (γ := γ) (β := β) (dt := dt)
  refine normal_section_null (meas_zero (meas_langField hn (S := fun _ => fld v) (fun k => measurable_const) 0)) 0 fun ζ x y hx hy => ?_
  have hx' : langField m γ J B (noiseField m γ β dt (noiseOf (update ζ 0 x))) (fld v) 0 = zero := hx
  have hy' : langField m γ J B (noiseField m γ β dt (noiseOf (update ζ 0 y))) (fld v) 0 = zero := hy
  rw [langField_drift (Or.inl rfl), n0] at hx' hy'
  have ax := congrArg V3.x hx'
  have ay := congrArg V3.x hy'
  simp only [Spec.sub, smul, zero] at ax ay
  have : Real.sqrt (2 * γ * dt / β) / dt * x = Real.sqrt (2 * γ * dt / β) / dt * y := by linarith
  exact mul_left_cancel₀ hc.ne' this

theorem edge_second (h2 : 2 ≤ m) (he : m % 2 = 0) (hγ : 0 < γ) (hβ : 0 < β) (h0 : 0 < dt) (v : Fin L → V3 ℝ) :
    normals {ζ | langField m γ J B (noiseField m γ β dt (noiseOf ζ))
      (subStepG (langField m γ J B (noiseField m γ β dt (noiseOf ζ))) m 0 (dt / 2) (fld v)) (m - 1) = zero} = 0 := by
  have hc : 0 < Real.sqrt (2 * γ * dt / β) / dt := div_pos (Real.sqrt_pos.2 (by positivity)) h0
  have hn : ∀ i, Measurable fun ζ => noiseField m γ β dt (noiseOf ζ) i := fun i => meas_noiseField measurable_id β dt i
  have ms1 : ∀ k, Measurable fun ζ => subStepG (langField m γ J B (noiseField m γ β dt (noiseOf ζ))) m 0 (dt / 2) (fld v) k :=
    fun k => meas_subStepG hn (S := fun _ => fld v) (fun k => measurable_const) 0 (dt / 2) k
  have n3 := noise_last (γ := γ) (β := β) (dt := dt) h2
  have n3' := noise_last' (m := m) (γ := γ) (β := β) (dt := dt)
  refine normal_section_null (meas_zero (meas_langField hn ms1 (m - 1))) 3 fun ζ x y hx hy => ?_
  have hx' : langField m γ J B (noiseField m γ β dt (noiseOf (update ζ 3 x)))
    (subStepG (langField m γ J B (noiseField m γ β dt (noiseOf (update ζ 3 x)))) m 0 (dt / 2) (fld v)) (m - 1) = zero := hx
  have hy' : langField m γ J B (noiseField m γ β dt (noiseOf (update ζ 3 y)))
    (subStepG (langField m γ J B (noiseField m γ β dt (noiseOf (update ζ 3 y)))) m 0 (dt / 2) (fld v)) (m - 1) = zero := hy
  have es : subStepG (langField m γ J B (noiseField m γ β dt (noiseOf (update ζ 3 x)))) m 0 (dt / 2) (fld v)
      = subStepG (langField m γ J B (noiseField m γ β dt (noiseOf (update ζ 3 y)))) m 0 (dt / 2) (fld v) := by
    funext i
    unfold subStepG
    by_cases hi : i < m ∧ i % 2 = 0
    · rw [if_pos hi, if_pos hi, langField_eta (n3' ζ x y i (by omega))]
    · rw [if_neg hi, if_neg hi]
  rw [es] at hx'
  rw [langField_drift (Or.inr (by omega)), n3] at hx' hy'
  have ax := congrArg V3.x hx'
  have ay := congrArg V3.x hy'
  simp only [Spec.sub, smul, zero] at ax ay
  have : Real.sqrt (2 * γ * dt / β) / dt * x = Real.sqrt (2 * γ * dt / β) / dt * y := by linarith
  exact mul_left_cancel₀ hc.ne' this

theorem edge_contract (hγ : 0 < γ) (hβ : 0 < β) (h0 : 0 < dt)
    (hJ : ∀ i, len (J i) ≤ K) (hB : ∀ i, len (B i) ≤ K) (hd : K * (2 + 5 * |γ|) * dt < 1) {v : Fin L → V3 ℝ}
    (hv : ∀ i, len (v i) = 1) {ζ : Fin 6 → ℝ} {x y : ℝ}
    (hx : langField m γ J B (noiseField m γ β dt (noiseOf (update ζ 0 x))) (subStepG (langField m γ J B (noiseField m γ β dt (noiseOf (update ζ 0 x)))) m 1 dt
      (subStepG (langField m γ J B (noiseField m γ β dt (noiseOf (update ζ 0 x)))) m 0 (dt / 2) (fld v))) 0 = zero)
    (hy : langField m γ J B (noiseField m γ β dt (noiseOf (update ζ 0 y))) (subStepG (langField m γ J B (noiseField m γ β dt (noiseOf (update ζ 0 y)))) m 1 dt
      (subStepG (langField m γ J B (noiseField m γ β dt (noiseOf (update ζ 0 y)))) m 0 (dt / 2) (fld v))) 0 = zero) : x = y := by
  have hc : 0 < Real.sqrt (2 * γ * dt / β) / dt := div_pos (Real.sqrt_pos.2 (by positivity)) h0
  have n0 := noise_zero (m := m) (γ := γ) (β := β) (dt := dt)
  have n0' := noise_zero' (m := m) (γ := γ) (β := β) (dt := dt)
  have hS : ∀ i, len (fld v i) ≤ 1 := atSite_len hv
  obtain ⟨ηx, hηx⟩ : ∃ ηx, ηx = noiseField m γ β dt (noiseOf (update ζ 0 x)) := ⟨_, rfl⟩
  obtain ⟨ηy, hηy⟩ : ∃ ηy, ηy = noiseField m γ β dt (noiseOf (update ζ 0 y)) := ⟨_, rfl⟩
  have hx' : langField m γ J B ηx (subStepG (langField m γ J B ηx) m 1 dt
    (subStepG (langField m γ J B ηx) m 0 (dt / 2) (fld v))) 0 = zero := by rw [hηx]; exact hx
  have hy' : langField m γ J B ηy (subStepG (langField m γ J B ηy) m 1 dt
    (subStepG (langField m γ J B ηy) m 0 (dt / 2) (fld v))) 0 = zero := by rw [hηy]; exact hy
  obtain ⟨c, ec⟩ : ∃ c, c = Real.sqrt (2 * γ * dt / β) / dt := ⟨_, rfl⟩
  rw [← ec] at hc n0
  have d0 : len (Spec.sub (ηx 0) (ηy 0)) = c * |x - y| := by
    rw [hηx, hηy, n0, n0, show Spec.sub (smul c ⟨x, ζ 1, ζ 2⟩) (smul c ⟨y, ζ 1, ζ 2⟩) = smul (c * (x - y)) ⟨1, 0, 0⟩ by
      ext <;> simp only [Spec.sub, smul] <;> ring, len_smul, abs_mul, abs_of_pos hc]
    unfold len dot
    norm_num
  have di : ∀ i, i ≠ 0 → ηx i = ηy i := by
    intro i hi
    rw [hηx, hηy]
    exact n0' ζ x y i hi
  have e0 : 0 ≤ c * |x - y| := by positivity
  -- first sub-step
  have s1 : ∀ i, len (Spec.sub (subStepG (langField m γ J B ηx) m 0 (dt / 2) (fld v) i)
      (subStepG (langField m γ J B ηy) m 0 (dt / 2) (fld v) i)) ≤ c * |x - y| * (dt / 2) := by
    intro i
    unfold subStepG
    by_cases hi : i < m ∧ i % 2 = 0
    · rw [if_pos hi, if_pos hi]
      refine (precess_dist _ _ _ _ (by positivity)).trans ?_
      rw [show Spec.sub (fld v i) (fld v i) = zero by ext <;> simp [Spec.sub, zero], len_zero, zero_add]
      refine mul_le_mul_of_nonneg_right ?_ (by positivity)
      have : len (Spec.sub (langField m γ J B ηx (fld v) i) (langField m γ J B ηy (fld v) i)) ≤ c * |x - y| := by
        by_cases hi0 : i = 0
        · subst hi0
          rw [langField_drift (Or.inl rfl), langField_drift (Or.inl rfl), ← d0, len_sub_comm (ηx 0)]
          refine le_of_eq ?_
          congr 1
          ext <;> simp only [Spec.sub] <;> ring
        · rw [langField_eta (di i hi0), show ∀ a : V3 ℝ, Spec.sub a a = zero from fun a => by
            ext <;> simp [Spec.sub, zero], len_zero]
          exact e0
      have := mul_le_mul (hS i) this (len_nonneg _) zero_le_one
      linarith
    · rw [if_neg hi, if_neg hi, show Spec.sub (fld v i) (fld v i) = zero by ext <;> simp [Spec.sub, zero], len_zero]
      positivity
  obtain ⟨X1, hX1⟩ : ∃ X1, X1 = subStepG (langField m γ J B ηx) m 0 (dt / 2) (fld v) := ⟨_, rfl⟩
  obtain ⟨Y1, hY1⟩ : ∃ Y1, Y1 = subStepG (langField m γ J B ηy) m 0 (dt / 2) (fld v) := ⟨_, rfl⟩
  have lX1 : ∀ i, len (X1 i) ≤ 1 := fun i => by rw [hX1, subStepG_len']; exact hS i
  have lY1 : ∀ i, len (Y1 i) ≤ 1 := fun i => by rw [hY1, subStepG_len']; exact hS i
  rw [← hX1] at s1 hx'
  rw [← hY1] at s1 hy'
  obtain ⟨A, hA⟩ : ∃ A, A = K * (2 + 5 * |γ|) := ⟨_, rfl⟩
  have K0 : 0 ≤ K := (len_nonneg _).trans (hJ 0)
  have A0 : 0 ≤ A := by rw [hA]; positivity
  rw [← hA] at hd
  obtain ⟨d1, hd1⟩ : ∃ d1, d1 = c * |x - y| * (dt / 2) := ⟨_, rfl⟩
  have d10 : 0 ≤ d1 := by rw [hd1]; positivity
  rw [← hd1] at s1
  have s2 : ∀ i, len (Spec.sub (subStepG (langField m γ J B ηx) m 1 dt X1 i)
      (subStepG (langField m γ J B ηy) m 1 dt Y1 i)) ≤ d1 * (1 + A * dt) := by
    intro i
    unfold subStepG
    by_cases hi : i < m ∧ i % 2 = 1
    · rw [if_pos hi, if_pos hi]
      refine (precess_dist _ _ _ _ h0.le).trans ?_
      have dl := driftField_lip (m := m) (γ := γ) hJ hB lX1 lY1 s1 i
      rw [← hA] at dl
      have : len (Spec.sub (langField m γ J B ηx X1 i) (langField m γ J B ηy Y1 i)) ≤ A * d1 := by
        rw [langField_eta (di i (by omega))]
        by_cases he : i = 0 ∨ i + 1 = m
        · rw [langField_drift he, langField_drift he, show Spec.sub (Spec.sub (driftField m γ J B X1 i) (ηy i))
            (Spec.sub (driftField m γ J B Y1 i) (ηy i)) = Spec.sub (driftField m γ J B X1 i) (driftField m γ J B Y1 i) by
              ext <;> simp only [Spec.sub] <;> ring]
          exact dl
        · have q : ∀ S, langField m γ J B ηy S i = driftField m γ J B S i := by
            intro S
            unfold langField driftField
            rw [if_neg he, if_neg he]
          rw [q, q]
          exact dl
      have := mul_le_mul_of_nonneg_right (mul_le_mul (lY1 i) this (len_nonneg _) zero_le_one) h0.le
      linarith [s1 i]
    · rw [if_neg hi, if_neg hi]
      refine (s1 i).trans ?_
      have : 0 ≤ d1 * (A * dt) := by positivity
      linarith
  have l2 : ∀ η S, (∀ i, len (S i) ≤ 1) → ∀ i, len (subStepG (langField m γ J B η) m 1 dt S i) ≤ 1 :=
    fun η S h i => by rw [subStepG_len']; exact h i
  have dl := driftField_lip (m := m) (γ := γ) hJ hB (l2 ηx X1 lX1) (l2 ηy Y1 lY1) s2 0
  rw [← hA] at dl
  rw [langField_drift (Or.inl rfl)] at hx' hy'
  have q : ∀ a b : V3 ℝ, Spec.sub a b = zero → b = a := by
    intro a b h
    have hx := congrArg V3.x h
    have hy := congrArg V3.y h
    have hz := congrArg V3.z h
    simp only [Spec.sub, zero] at hx hy hz
    ext <;> linarith
  rw [q _ _ hx', q _ _ hy'] at d0
  rw [d0, hd1] at dl
  by_contra hne
  have hp : 0 < c * |x - y| := mul_pos hc (abs_pos.2 (sub_ne_zero.2 hne))
  have : A * (c * |x - y| * (dt / 2) * (1 + A * dt)) = c * |x - y| * (A * dt * (1 + A * dt) / 2) := by ring
  rw [this] at dl
  have ad0 : 0 ≤ A * dt := by positivity
  have : A * dt * (1 + A * dt) / 2 < 1 := by nlinarith
  nlinarith

theorem edge_third (hγ : 0 < γ) (hβ : 0 < β) (h0 : 0 < dt)
    (hJ : ∀ i, len (J i) ≤ K) (hB : ∀ i, len (B i) ≤ K) (hd : K * (2 + 5 * |γ|) * dt < 1) {v : Fin L → V3 ℝ}
    (hv : ∀ i, len (v i) = 1) :
    normals {ζ | langField m γ J B (noiseField m γ β dt (noiseOf ζ))
      (subStepG (langField m γ J B (noiseField m γ β dt (noiseOf ζ))) m 1 dt
      (subStepG (langField m γ J B (noiseField m γ β dt (noiseOf ζ))) m 0 (dt / 2) (fld v))) 0 = zero} = 0 := by
  have hn : ∀ i, Measurable fun ζ => noiseField m γ β dt (noiseOf ζ) i := fun i => meas_noiseField measurable_id β dt i
  have ms1 : ∀ k, Measurable fun ζ => subStepG (langField m γ J B (noiseField m γ β dt (noiseOf ζ))) m 0 (dt / 2) (fld v) k :=
    fun k => meas_subStepG hn (S := fun _ => fld v) (fun k => measurable_const) 0 (dt / 2) k
  have ms2 : ∀ k, Measurable fun ζ => subStepG (langField m γ J B (noiseField m γ β dt (noiseOf ζ))) m 1 dt
      (subStepG (langField m γ J B (noiseField m γ β dt (noiseOf ζ))) m 0 (dt / 2) (fld v)) k :=
    fun k => meas_subStepG hn ms1 1 dt k
  exact normal_section_null (meas_zero (meas_langField hn ms2 0)) 0 fun ζ x y hx hy =>
    edge_contract hγ hβ h0 hJ hB hd hv hx hy

theorem edge_regular (h2 : 2 ≤ m) (he : m % 2 = 0) (hγ : 0 < γ) (hβ : 0 < β) (h0 : 0 < dt)
    (hJ : ∀ i, len (J i) ≤ K) (hB : ∀ i, len (B i) ≤ K) (hd : K * (2 + 5 * |γ|) * dt < 1) {v : Fin L → V3 ℝ}
    (hv : ∀ i, len (v i) = 1) : ∀ᵐ ζ ∂normals,
      langField m γ J B (noiseField m γ β dt (noiseOf ζ)) (fld v) 0 ≠ zero ∧
      langField m γ J B (noiseField m γ β dt (noiseOf ζ))
        (subStepG (langField m γ J B (noiseField m γ β dt (noiseOf ζ))) m 0 (dt / 2) (fld v)) (m - 1) ≠ zero ∧
      langField m γ J B (noiseField m γ β dt (noiseOf ζ))
        (subStepG (langField m γ J B (noiseField m γ β dt (noiseOf ζ))) m 1 dt
        (subStepG (langField m γ J B (noiseField m γ β dt (noiseOf ζ))) m 0 (dt / 2) (fld v))) 0 ≠ zero := by
  filter_upwards [measure_eq_zero_iff_ae_notMem.1 (edge_first (J := J) (B := B) hγ hβ h0 v),
    measure_eq_zero_iff_ae_notMem.1 (edge_second (J := J) (B := B) h2 he hγ hβ h0 v),
    measure_eq_zero_iff_ae_notMem.1 (edge_third hγ hβ h0 hJ hB hd hv)] with ζ a1 a2 a3
  exact ⟨a1, a2, a3⟩

end

end

end Verif
