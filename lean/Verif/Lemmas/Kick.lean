/-
Helper lemmas: expansion of one Langevin step in powers of the square root of the time-step.
-/
import Verif.Lemmas.LangevinEnergy
import Verif.Lemmas.Order

namespace Verif

open Spec

set_option linter.unusedSectionVars false

/-- the field on site `i` without noise: local field and, on the edges, damping -/
def driftField (m : ℕ) (γ : ℝ) (J B : ℕ → V3 ℝ) (S : ℕ → V3 ℝ) (i : ℕ) : V3 ℝ :=
  if i = 0 ∨ i + 1 = m then
    sub (openOmega m S J B i) (smul γ (cross (S i) (openOmega m S J B i)))
  else openOmega m S J B i

/-- scaled drift and a kick -/
def kickField (m : ℕ) (γ : ℝ) (J B Y : ℕ → V3 ℝ) (a : ℝ) (S : ℕ → V3 ℝ) (i : ℕ) : V3 ℝ :=
  sub (smul a (driftField m γ J B S i)) (Y i)

theorem precess_scale (v Ω : V3 ℝ) {a : ℝ} (ha : 0 < a) (t : ℝ) : precess v (smul a Ω) t = precess v Ω (a * t) := by
  by_cases hO : Ω = zero
  · subst hO
    rw [show smul a zero = zero by ext <;> simp [smul, zero], precess_zero_field, precess_zero_field]
  · have hl := len_pos hO
    unfold precess
    rw [len_smul, abs_of_pos ha]
    have e : smul (1 / (a * len Ω)) (smul a Ω) = smul (1 / len Ω) Ω := by
      ext <;> simp only [smul] <;> field_simp
    simp only [e]
    rw [show a * len Ω * t = len Ω * (a * t) by ring]

/-- A Langevin step with scaled time and fields. -/
theorem stepG_scale {m : ℕ} {γ : ℝ} {J B η Y : ℕ → V3 ℝ} {a h : ℝ} (ha : 0 < a)
    (hY : ∀ i, Y i = if i = 0 ∨ i + 1 = m then smul a (η i) else zero) (S : ℕ → V3 ℝ) :
    stepG (langField m γ J B η) m (a * h) S = stepG (kickField m γ J B Y a) m h S := by
  have hf : ∀ S i, kickField m γ J B Y a S i = smul a (langField m γ J B η S i) := by
    intro S i
    unfold kickField driftField langField
    rw [hY]
    by_cases hc : i = 0 ∨ i + 1 = m
    · rw [if_pos hc, if_pos hc, if_pos hc]
      ext <;> simp only [sub, smul, Spec.add, cross] <;> ring
    · rw [if_neg hc, if_neg hc, if_neg hc]
      ext <;> simp only [sub, smul, zero] <;> ring
  have hs : ∀ par t S, subStepG (langField m γ J B η) m par (a * t) S
      = subStepG (kickField m γ J B Y a) m par t S := by
    intro par t S
    funext i
    unfold subStepG
    rw [hf, precess_scale _ _ ha]
  unfold stepG
  rw [show a * h / 2 = a * (h / 2) by ring, hs, hs, hs]

/-! ### sizes -/

theorem len_add_sub (a b c d : V3 ℝ) : len (sub (Spec.add a b) (Spec.add c d)) ≤ len (sub a c) + len (sub b d) := by
  rw [show sub (Spec.add a b) (Spec.add c d) = Spec.add (sub a c) (sub b d) by
    ext <;> simp only [sub, Spec.add] <;> ring]
  exact len_add_le _ _

theorem len_sub_sub (a b c d : V3 ℝ) : len (sub (sub a b) (sub c d)) ≤ len (sub a c) + len (sub b d) := by
  rw [show sub (sub a b) (sub c d) = sub (sub a c) (sub b d) by ext <;> simp only [sub] <;> ring]
  exact len_sub_le _ _

section
variable {m : ℕ} {γ K : ℝ} {J B : ℕ → V3 ℝ}

theorem openOmega_len (hJ : ∀ i, len (J i) ≤ K) (hB : ∀ i, len (B i) ≤ K) {S : ℕ → V3 ℝ}
    (hS : ∀ i, len (S i) ≤ 1) (i : ℕ) : len (openOmega m S J B i) ≤ 3 * K := by
  have hK : 0 ≤ K := (len_nonneg _).trans (hJ 0)
  have h1 : ∀ j k, len (had (J j) (S k)) ≤ K := fun j k =>
    (len_had_le _ _).trans (by nlinarith [hJ j, hS k, len_nonneg (J j), len_nonneg (S k)])
  unfold openOmega
  refine (len_sub_le _ _).trans ?_
  refine (add_le_add (len_add_le _ _) (hB i)).trans ?_
  have a1 : len (if 0 < i then had (J (i - 1)) (S (i - 1)) else zero) ≤ K := by
    split
    · exact h1 _ _
    · rw [len_zero]; exact hK
  have a2 : len (if i + 1 < m then had (J i) (S (i + 1)) else zero) ≤ K := by
    split
    · exact h1 _ _
    · rw [len_zero]; exact hK
  linarith

theorem openOmega_lip (hJ : ∀ i, len (J i) ≤ K) {S S' : ℕ → V3 ℝ} {d : ℝ} (hd : ∀ i, len (sub (S i) (S' i)) ≤ d)
    (i : ℕ) : len (sub (openOmega m S J B i) (openOmega m S' J B i)) ≤ 2 * K * d := by
  have hK : 0 ≤ K := (len_nonneg _).trans (hJ 0)
  have hd0 : 0 ≤ d := (len_nonneg _).trans (hd 0)
  have h1 : ∀ j k, len (sub (had (J j) (S k)) (had (J j) (S' k))) ≤ K * d := fun j k => by
    rw [show sub (had (J j) (S k)) (had (J j) (S' k)) = had (J j) (sub (S k) (S' k)) by
      ext <;> simp only [sub, had] <;> ring]
    exact (len_had_le _ _).trans (mul_le_mul (hJ j) (hd k) (len_nonneg _) hK)
  unfold openOmega
  refine (len_sub_sub _ _ _ _).trans ?_
  rw [show sub (B i) (B i) = zero by ext <;> simp [sub, zero], len_zero, add_zero]
  refine (len_add_sub _ _ _ _).trans ?_
  have z : len (sub zero zero) = 0 := by
    rw [show sub zero zero = zero by ext <;> simp [sub, zero], len_zero]
  have a1 : len (sub (if 0 < i then had (J (i - 1)) (S (i - 1)) else zero)
      (if 0 < i then had (J (i - 1)) (S' (i - 1)) else zero)) ≤ K * d := by
    split
    · exact h1 _ _
    · rw [z]; positivity
  have a2 : len (sub (if i + 1 < m then had (J i) (S (i + 1)) else zero)
      (if i + 1 < m then had (J i) (S' (i + 1)) else zero)) ≤ K * d := by
    split
    · exact h1 _ _
    · rw [z]; positivity
  linarith

theorem driftField_len (hJ : ∀ i, len (J i) ≤ K) (hB : ∀ i, len (B i) ≤ K) {S : ℕ → V3 ℝ}
    (hS : ∀ i, len (S i) ≤ 1) (i : ℕ) : len (driftField m γ J B S i) ≤ 3 * K * (1 + |γ|) := by
  have hK : 0 ≤ K := (len_nonneg _).trans (hJ 0)
  have h1 := openOmega_len (m := m) hJ hB hS i
  have hg := abs_nonneg γ
  unfold driftField
  split
  · refine (len_sub_le _ _).trans ?_
    rw [len_smul]
    have h2 := (len_cross_le (S i) (openOmega m S J B i)).trans
      (mul_le_mul (hS i) h1 (len_nonneg _) zero_le_one)
    nlinarith
  · nlinarith

theorem driftField_lip (hJ : ∀ i, len (J i) ≤ K) (hB : ∀ i, len (B i) ≤ K) {S S' : ℕ → V3 ℝ}
    (hS : ∀ i, len (S i) ≤ 1) (hS' : ∀ i, len (S' i) ≤ 1) {d : ℝ} (hd : ∀ i, len (sub (S i) (S' i)) ≤ d) (i : ℕ) :
    len (sub (driftField m γ J B S i) (driftField m γ J B S' i)) ≤ K * (2 + 5 * |γ|) * d := by
  have hK : 0 ≤ K := (len_nonneg _).trans (hJ 0)
  have hd0 : 0 ≤ d := (len_nonneg _).trans (hd 0)
  have h1 := openOmega_len (m := m) hJ hB hS' i
  have h2 := openOmega_lip (m := m) (B := B) hJ hd i
  have hg := abs_nonneg γ
  unfold driftField
  split
  · refine (len_sub_sub _ _ _ _).trans ?_
    rw [show sub (smul γ (cross (S i) (openOmega m S J B i))) (smul γ (cross (S' i) (openOmega m S' J B i)))
      = smul γ (Spec.add (cross (S i) (sub (openOmega m S J B i) (openOmega m S' J B i)))
          (cross (sub (S i) (S' i)) (openOmega m S' J B i))) by
        ext <;> simp only [sub, smul, cross, Spec.add] <;> ring, len_smul]
    have h3 : len (Spec.add (cross (S i) (sub (openOmega m S J B i) (openOmega m S' J B i)))
          (cross (sub (S i) (S' i)) (openOmega m S' J B i))) ≤ 5 * K * d := by
      refine (len_add_le _ _).trans ?_
      have a1 := (len_cross_le (S i) (sub (openOmega m S J B i) (openOmega m S' J B i))).trans
        (mul_le_mul (hS i) h2 (len_nonneg _) zero_le_one)
      have a2 := (len_cross_le (sub (S i) (S' i)) (openOmega m S' J B i)).trans
        (mul_le_mul (hd i) h1 (len_nonneg _) hd0)
      linarith
    have := mul_le_mul_of_nonneg_left h3 hg
    nlinarith
  · have : 0 ≤ K * (5 * |γ|) * d := by positivity
    linarith

theorem subStepG_len' {om : (ℕ → V3 ℝ) → ℕ → V3 ℝ} {par : ℕ} {S : ℕ → V3 ℝ} {dt : ℝ} (i : ℕ) :
    len (subStepG om m par dt S i) = len (S i) := by
  unfold subStepG
  split
  · exact len_precess _ _ _
  · rfl

theorem subStepG_near {om : (ℕ → V3 ℝ) → ℕ → V3 ℝ} {par : ℕ} {S : ℕ → V3 ℝ} {t W : ℝ} (ht : 0 ≤ t) (hW : 0 ≤ W)
    (hS : ∀ i, len (S i) ≤ 1) (ho : ∀ i, len (om S i) ≤ W) (i : ℕ) :
    len (sub (subStepG om m par t S i) (S i)) ≤ W * t := by
  unfold subStepG
  split
  · refine (precess_order1 _ _ ht).trans ?_
    have := mul_le_mul (hS i) (ho i) (len_nonneg _) zero_le_one
    exact (mul_le_mul_of_nonneg_right this ht).trans (le_of_eq (by ring))
  · rw [show sub (S i) (S i) = zero by ext <;> simp [sub, zero], len_zero]
    positivity

/-- one step turns every spin about its initial field, up to third order -/
theorem kick_step {Y : ℕ → V3 ℝ} {KY a h : ℝ} (hJ : ∀ i, len (J i) ≤ K) (hB : ∀ i, len (B i) ≤ K)
    (hY : ∀ i, len (Y i) ≤ KY) (h0 : 0 ≤ h) (h1 : h ≤ 1) (ha : 0 ≤ a) (hah : a ≤ h) {S : ℕ → V3 ℝ}
    (hS : ∀ i, len (S i) ≤ 1) {i : ℕ} (hi : i < m) :
    len (sub (stepG (kickField m γ J B Y a) m h S i) (precess (S i) (kickField m γ J B Y a S i) h))
      ≤ 2 * (K * (2 + 5 * |γ|)) * (3 * K * (1 + |γ|) + KY) * h ^ 3 := by
  have hK : 0 ≤ K := (len_nonneg _).trans (hJ 0)
  have hKY : 0 ≤ KY := (len_nonneg _).trans (hY 0)
  have hg := abs_nonneg γ
  obtain ⟨M, hM⟩ : ∃ M, M = K * (2 + 5 * |γ|) := ⟨_, rfl⟩
  obtain ⟨W, hW⟩ : ∃ W, W = 3 * K * (1 + |γ|) + KY := ⟨_, rfl⟩
  rw [← hM, ← hW]
  have M0 : 0 ≤ M := by rw [hM]; positivity
  have W0 : 0 ≤ W := by rw [hW]; positivity
  obtain ⟨om, hom⟩ : ∃ om, om = kickField m γ J B Y a := ⟨_, rfl⟩
  rw [← hom]
  have ho : ∀ S, (∀ i, len (S i) ≤ 1) → ∀ i, len (om S i) ≤ W := by
    intro S hS i
    rw [hom]
    unfold kickField
    refine (len_sub_le _ _).trans ?_
    rw [len_smul, abs_of_nonneg ha, hW]
    have b1 := driftField_len (m := m) (γ := γ) hJ hB hS i
    have b2 : a * len (driftField m γ J B S i) ≤ 1 * (3 * K * (1 + |γ|)) :=
      mul_le_mul (hah.trans h1) b1 (len_nonneg _) zero_le_one
    linarith [hY i]
  have hl : ∀ S S', (∀ i, len (S i) ≤ 1) → (∀ i, len (S' i) ≤ 1) → ∀ d, (∀ i, len (sub (S i) (S' i)) ≤ d) →
      ∀ i, len (sub (om S i) (om S' i)) ≤ M * d * h := by
    intro S S' hS hS' d hd i
    have hd0 : 0 ≤ d := (len_nonneg _).trans (hd 0)
    rw [hom]
    unfold kickField
    rw [show sub (sub (smul a (driftField m γ J B S i)) (Y i)) (sub (smul a (driftField m γ J B S' i)) (Y i))
      = smul a (sub (driftField m γ J B S i) (driftField m γ J B S' i)) by
        ext <;> simp only [sub, smul] <;> ring, len_smul, abs_of_nonneg ha]
    have := driftField_lip (m := m) (γ := γ) hJ hB hS hS' hd i
    rw [← hM] at this
    have := mul_le_mul hah this (len_nonneg _) h0
    linarith
  -- the stages
  obtain ⟨S1, e1⟩ : ∃ S1, S1 = subStepG om m 0 (h / 2) S := ⟨_, rfl⟩
  obtain ⟨S2, e2⟩ : ∃ S2, S2 = subStepG om m 1 h S1 := ⟨_, rfl⟩
  have u1 : ∀ i, len (S1 i) ≤ 1 := fun i => by rw [e1, subStepG_len']; exact hS i
  have u2 : ∀ i, len (S2 i) ≤ 1 := fun i => by rw [e2, subStepG_len']; exact u1 i
  have n1 : ∀ i, len (sub (S1 i) (S i)) ≤ W * (h / 2) := fun i => by
    rw [e1]; exact subStepG_near (by linarith) W0 hS (ho S hS) i
  have n2 : ∀ i, len (sub (S2 i) (S i)) ≤ W * h + W * (h / 2) := fun i => by
    have := subStepG_near (om := om) (m := m) (par := 1) h0 W0 u1 (ho S1 u1) i
    rw [← e2] at this
    exact (len_sub_tri _ (S1 i) _).trans (add_le_add this (n1 i))
  have l1 := hl S1 S u1 hS _ n1
  have l2 := hl S2 S u2 hS _ n2
  have p0 : 0 ≤ M * W * h ^ 3 := by positivity
  unfold stepG
  rw [← e1, ← e2]
  rcases Nat.mod_two_eq_zero_or_one i with hp | hp
  · -- even sites: two half turns
    have f1 : subStepG om m 0 (h / 2) S2 i = precess (S2 i) (om S2 i) (h / 2) := by
      unfold subStepG; rw [if_pos ⟨hi, hp⟩]
    have f2 : S2 i = S1 i := by rw [e2]; unfold subStepG; rw [if_neg (by omega)]
    have f3 : S1 i = precess (S i) (om S i) (h / 2) := by rw [e1]; unfold subStepG; rw [if_pos ⟨hi, hp⟩]
    rw [f1, f2, f3]
    have : precess (S i) (om S i) h = precess (precess (S i) (om S i) (h / 2)) (om S i) (h / 2) := by
      rw [precess_precess]; congr 1; ring
    rw [this]
    refine (precess_dist _ _ _ _ (by linarith)).trans ?_
    rw [show sub (precess (S i) (om S i) (h / 2)) (precess (S i) (om S i) (h / 2)) = zero by
      ext <;> simp [sub, zero], len_zero, len_precess]
    have b1 := mul_le_mul (hS i) (l2 i) (len_nonneg _) zero_le_one
    have b2 := mul_le_mul_of_nonneg_right b1 (by linarith : (0 : ℝ) ≤ h / 2)
    nlinarith
  · have f1 : subStepG om m 0 (h / 2) S2 i = S2 i := by
      unfold subStepG; rw [if_neg (by omega)]
    have f2 : S2 i = precess (S1 i) (om S1 i) h := by rw [e2]; unfold subStepG; rw [if_pos ⟨hi, hp⟩]
    have f3 : S1 i = S i := by rw [e1]; unfold subStepG; rw [if_neg (by omega)]
    rw [f1, f2, f3]
    refine (precess_dist _ _ _ _ h0).trans ?_
    rw [show sub (S i) (S i) = zero by ext <;> simp [sub, zero], len_zero]
    have b1 := mul_le_mul (hS i) (l1 i) (len_nonneg _) zero_le_one
    have b2 := mul_le_mul_of_nonneg_right b1 h0
    nlinarith

/-- The displacement of a spin in one step to second order: the kick, the drift, and the curvature of the
sphere. -/
noncomputable def kickMove (m : ℕ) (γ : ℝ) (J B Y : ℕ → V3 ℝ) (a h : ℝ) (S : ℕ → V3 ℝ) (i : ℕ) : V3 ℝ :=
  Spec.add (smul (-h) (cross (S i) (Y i)))
    (Spec.add (smul (a * h) (cross (S i) (driftField m γ J B S i))) (smul (h ^ 2 / 2) (cross (cross (S i) (Y i)) (Y i))))

theorem kick_expand {Y : ℕ → V3 ℝ} {KY a h : ℝ} (hJ : ∀ i, len (J i) ≤ K) (hB : ∀ i, len (B i) ≤ K)
    (hY : ∀ i, len (Y i) ≤ KY) (h0 : 0 ≤ h) (h1 : h ≤ 1) (ha : 0 ≤ a) (hah : a ≤ h) {S : ℕ → V3 ℝ}
    (hS : ∀ i, len (S i) ≤ 1) {i : ℕ} (hi : i < m) :
    len (sub (sub (stepG (kickField m γ J B Y a) m h S i) (S i)) (kickMove m γ J B Y a h S i))
      ≤ (2 * (K * (2 + 5 * |γ|)) * (3 * K * (1 + |γ|) + KY) + (3 * K * (1 + |γ|) + KY) ^ 3
        + (3 * K * (1 + |γ|) + 2 * KY) * (3 * K * (1 + |γ|))) * h ^ 3 := by
  have hK : 0 ≤ K := (len_nonneg _).trans (hJ 0)
  have hKY : 0 ≤ KY := (len_nonneg _).trans (hY 0)
  have hg := abs_nonneg γ
  have k1 := kick_step (γ := γ) hJ hB hY h0 h1 ha hah hS hi
  obtain ⟨D, hD⟩ : ∃ D, D = driftField m γ J B S i := ⟨_, rfl⟩
  have b1 := driftField_len (m := m) (γ := γ) hJ hB hS i
  obtain ⟨P, hP⟩ : ∃ P, P = 3 * K * (1 + |γ|) := ⟨_, rfl⟩
  rw [← hP, ← hD] at b1
  rw [← hP] at k1 ⊢
  have P0 : 0 ≤ P := by rw [hP]; positivity
  have ew : kickField m γ J B Y a S i = sub (smul a D) (Y i) := by rw [hD]; rfl
  have lw : len (sub (smul a D) (Y i)) ≤ P + KY := by
    refine (len_sub_le _ _).trans ?_
    rw [len_smul, abs_of_nonneg ha]
    have : a * len D ≤ 1 * P := mul_le_mul (hah.trans h1) b1 (len_nonneg _) zero_le_one
    linarith [hY i]
  have k2 := precess_order3 (S i) (sub (smul a D) (Y i)) h0
  have k3 : len (S i) * len (sub (smul a D) (Y i)) ^ 3 * h ^ 3 ≤ (P + KY) ^ 3 * h ^ 3 := by
    have := mul_le_mul (hS i) (pow_le_pow_left₀ (len_nonneg _) lw 3) (pow_nonneg (len_nonneg _) 3) zero_le_one
    exact (mul_le_mul_of_nonneg_right this (by positivity)).trans (le_of_eq (by ring))
  rw [ew] at k1
  -- the second-order terms left out
  have k4 : len (smul (h ^ 2 / 2 * a) (sub (cross (cross (S i) (sub (smul a D) (Y i))) D) (cross (cross (S i) D) (Y i))))
      ≤ (P + 2 * KY) * P * h ^ 3 := by
    rw [len_smul, abs_of_nonneg (by positivity)]
    have c1 : len (sub (cross (cross (S i) (sub (smul a D) (Y i))) D) (cross (cross (S i) D) (Y i)))
        ≤ (P + KY) * P + P * KY := by
      refine (len_sub_le _ _).trans (add_le_add ?_ ?_)
      · refine (len_cross_le _ _).trans ?_
        have := (len_cross_le (S i) (sub (smul a D) (Y i))).trans (mul_le_mul (hS i) lw (len_nonneg _) zero_le_one)
        rw [one_mul] at this
        exact mul_le_mul this b1 (len_nonneg _) (by positivity)
      · refine (len_cross_le _ _).trans ?_
        have := (len_cross_le (S i) D).trans (mul_le_mul (hS i) b1 (len_nonneg _) zero_le_one)
        rw [one_mul] at this
        exact mul_le_mul this (hY i) (len_nonneg _) P0
    have c2 : h ^ 2 / 2 * a ≤ h ^ 3 := by
      have : h ^ 2 / 2 * a ≤ h ^ 2 * h := mul_le_mul (by nlinarith [sq_nonneg h]) hah ha (by positivity)
      linarith [this, pow_succ h 2]
    have := mul_le_mul c2 c1 (len_nonneg _) (by positivity)
    linarith
  have e : sub (sub (stepG (kickField m γ J B Y a) m h S i) (S i)) (kickMove m γ J B Y a h S i)
      = Spec.add (sub (stepG (kickField m γ J B Y a) m h S i) (precess (S i) (sub (smul a D) (Y i)) h))
        (Spec.add (sub (sub (sub (precess (S i) (sub (smul a D) (Y i)) h) (S i)) (smul h (cross (S i) (sub (smul a D) (Y i)))))
          (smul (h ^ 2 / 2) (cross (cross (S i) (sub (smul a D) (Y i))) (sub (smul a D) (Y i)))))
          (smul (h ^ 2 / 2 * a) (sub (cross (cross (S i) (sub (smul a D) (Y i))) D) (cross (cross (S i) D) (Y i))))) := by
    unfold kickMove
    rw [← hD]
    ext <;> simp only [sub, smul, cross, Spec.add] <;> ring
  rw [e]
  refine (len_add_le _ _).trans ?_
  refine (add_le_add k1 ((len_add_le _ _).trans (add_le_add (k2.trans k3) k4))).trans (le_of_eq ?_)
  ring

end

end Verif
