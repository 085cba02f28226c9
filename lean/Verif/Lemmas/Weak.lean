/-
Helper lemmas: an observable after one Langevin step, to second order in the square root of the time-step.
-/
import Verif.Lemmas.Kick
import Verif.Lemmas.Gibbs

namespace Verif

set_option linter.unusedSectionVars false
set_option maxHeartbeats 800000

open Spec Function

variable {L : ℕ}

/-- displacement of the first `m` spins -/
def movedBy (m : ℕ) (d : ℕ → V3 ℝ) : Fin L → ℝ × ℝ × ℝ := fun i => if (i : ℕ) < m then toP (d i) else 0

theorem norm_movedBy {m : ℕ} {d : ℕ → V3 ℝ} {K : ℝ} (hK : 0 ≤ K) (h : ∀ i < m, len (d i) ≤ K) :
    ‖movedBy (L := L) m d‖ ≤ K := by
  rw [pi_norm_le_iff_of_nonneg hK]
  intro i
  unfold movedBy
  split
  · exact (norm_toP _).trans (h _ (by assumption))
  · rw [norm_zero]; exact hK

theorem movedBy_sub (m : ℕ) (d e : ℕ → V3 ℝ) :
    movedBy (L := L) m d - movedBy m e = movedBy m fun i => Spec.sub (d i) (e i) := by
  funext i
  rw [Pi.sub_apply]
  unfold movedBy
  split
  · rfl
  · rw [sub_zero]

theorem movedBy_sum (m : ℕ) (d : ℕ → V3 ℝ) :
    movedBy (L := L) m d = ∑ i : Fin L, if (i : ℕ) < m then shift i (d i) else 0 := by
  funext k
  rw [Finset.sum_apply, Finset.sum_eq_single k]
  · unfold movedBy shift
    split
    · rw [Pi.single_eq_same]
    · rfl
  · intro i _ hi
    split
    · unfold shift
      rw [Pi.single_eq_of_ne (Ne.symm hi)]
    · rfl
  · intro h
    exact absurd (Finset.mem_univ k) h

section
variable {m : ℕ} {γ K KY : ℝ}

theorem weak_path {F : (Fin L → ℝ × ℝ × ℝ) → ℝ} (hF : ContDiff ℝ 3 F) (m : ℕ) (γ : ℝ) (hK : 0 ≤ K) (hKY : 0 ≤ KY) :
    ∃ C, 0 ≤ C ∧ ∀ (J B Y : ℕ → V3 ℝ) (v : Fin L → V3 ℝ) (a h : ℝ), (∀ i, len (J i) ≤ K) → (∀ i, len (B i) ≤ K) →
      (∀ i, len (Y i) ≤ KY) → (∀ i, len (v i) = 1) → 0 ≤ a → a ≤ 1 → a ≤ h →
      |F (coords fun i : Fin L => stepG (kickField m γ J B Y a) m h (atSite v) i) - F (coords v)
        - fderiv ℝ F (coords v) (movedBy m fun i => kickMove m γ J B Y a h (atSite v) i)
        - fderiv ℝ (fderiv ℝ F) (coords v) (movedBy m fun i => smul (-h) (cross (atSite v i) (Y i)))
          (movedBy m fun i => smul (-h) (cross (atSite v i) (Y i))) / 2| ≤ C * h ^ 3 := by
  have hG : ContDiff ℝ 2 (fderiv ℝ F) := hF.fderiv_right (by norm_num)
  obtain ⟨T, T0, hT⟩ := taylor2 hF 1
  obtain ⟨M0, M00, hM0⟩ := ball_bound hF.continuous 1
  obtain ⟨M1, M10, hM1⟩ := ball_bound (hF.continuous_fderiv (by norm_num)) 1
  obtain ⟨M2, M20, hM2⟩ := ball_bound (hG.continuous_fderiv (by norm_num)) 1
  obtain ⟨P, hP⟩ : ∃ P, P = 3 * K * (1 + |γ|) := ⟨_, rfl⟩
  have hg := abs_nonneg γ
  have P0 : 0 ≤ P := by rw [hP]; positivity
  obtain ⟨C1, hC1⟩ : ∃ C1, C1 = 2 * (K * (2 + 5 * |γ|)) * (P + KY) + (P + KY) ^ 3 + (P + 2 * KY) * P := ⟨_, rfl⟩
  have C10 : 0 ≤ C1 := by rw [hC1]; positivity
  obtain ⟨C2, hC2⟩ : ∃ C2, C2 = P + KY ^ 2 := ⟨_, rfl⟩
  have C20 : 0 ≤ C2 := by rw [hC2]; positivity
  obtain ⟨C3, hC3⟩ : ∃ C3, C3 = C1 + C2 + KY := ⟨_, rfl⟩
  have C30 : 0 ≤ C3 := by rw [hC3]; positivity
  refine ⟨T * C3 ^ 3 + M1 * C1 + M2 * (C1 + C2) * C3 + M2 * KY * (C1 + C2) + (2 * M0 + M1 * (C2 + KY) + M2 * KY * KY),
    by positivity, ?_⟩
  intro J B Y v a h hJ hB hY hv ha ha1 hah
  have h0 : 0 ≤ h := ha.trans hah
  have hS : ∀ i, len (atSite v i) ≤ 1 := atSite_len hv
  obtain ⟨S, eS⟩ : ∃ S, S = atSite v := ⟨_, rfl⟩
  rw [← eS] at hS ⊢
  obtain ⟨kE, hkE⟩ : ∃ kE : Fin L → ℝ × ℝ × ℝ, kE = movedBy m fun i => smul (-h) (cross (S i) (Y i)) := ⟨_, rfl⟩
  obtain ⟨mE, hmE⟩ : ∃ mE : Fin L → ℝ × ℝ × ℝ, mE = movedBy m fun i => kickMove m γ J B Y a h S i := ⟨_, rfl⟩
  obtain ⟨y, hy⟩ : ∃ y : Fin L → V3 ℝ, y = fun i : Fin L => stepG (kickField m γ J B Y a) m h S i := ⟨_, rfl⟩
  rw [← hkE, ← hmE, ← hy]
  have hyl : ∀ i, len (y i) = 1 := by
    intro i
    rw [hy]
    dsimp only
    unfold stepG
    rw [subStepG_len', subStepG_len', subStepG_len', eS]
    unfold atSite
    rw [dif_pos i.2, hv]
  have nx := norm_coords hv
  have ny := norm_coords hyl
  have lk : ∀ i, len (smul (-h) (cross (S i) (Y i))) ≤ KY * h := by
    intro i
    rw [len_smul, abs_neg, abs_of_nonneg h0, mul_comm]
    refine mul_le_mul_of_nonneg_right ((len_cross_le _ _).trans ?_) h0
    have := mul_le_mul (hS i) (hY i) (len_nonneg _) zero_le_one
    linarith
  have nk : ‖kE‖ ≤ KY * h := by
    rw [hkE]; exact norm_movedBy (by positivity) fun i _ => lk i
  -- the drift and curvature part
  have lr : ∀ i, len (Spec.sub (kickMove m γ J B Y a h S i) (smul (-h) (cross (S i) (Y i))))
      ≤ a * h * P + h ^ 2 * KY ^ 2 := by
    intro i
    unfold kickMove
    rw [show Spec.sub (Spec.add (smul (-h) (cross (S i) (Y i))) (Spec.add (smul (a * h) (cross (S i) (driftField m γ J B S i)))
        (smul (h ^ 2 / 2) (cross (cross (S i) (Y i)) (Y i))))) (smul (-h) (cross (S i) (Y i)))
      = Spec.add (smul (a * h) (cross (S i) (driftField m γ J B S i))) (smul (h ^ 2 / 2) (cross (cross (S i) (Y i)) (Y i))) by
        ext <;> simp only [Spec.sub, Spec.add, smul] <;> ring]
    refine (len_add_le _ _).trans (add_le_add ?_ ?_)
    · rw [len_smul, abs_of_nonneg (mul_nonneg ha h0)]
      refine mul_le_mul_of_nonneg_left ((len_cross_le _ _).trans ?_) (mul_nonneg ha h0)
      have b1 := driftField_len (m := m) (γ := γ) hJ hB hS i
      rw [← hP] at b1
      have := mul_le_mul (hS i) b1 (len_nonneg _) zero_le_one
      linarith
    · rw [len_smul, abs_of_nonneg (by positivity)]
      have c1 := (len_cross_le (S i) (Y i)).trans (mul_le_mul (hS i) (hY i) (len_nonneg _) zero_le_one)
      rw [one_mul] at c1
      have c2 := (len_cross_le (cross (S i) (Y i)) (Y i)).trans (mul_le_mul c1 (hY i) (len_nonneg _) hKY)
      have : h ^ 2 / 2 ≤ h ^ 2 := by nlinarith [sq_nonneg h]
      refine (mul_le_mul this c2 (len_nonneg _) (by positivity)).trans (le_of_eq (by ring))
  have nr : ‖mE - kE‖ ≤ a * h * P + h ^ 2 * KY ^ 2 := by
    rw [hmE, hkE, movedBy_sub]
    exact norm_movedBy (by positivity) fun i _ => lr i
  by_cases h1 : h ≤ 1
  · obtain ⟨d, hd⟩ : ∃ d : Fin L → ℝ × ℝ × ℝ, d = coords y - coords v := ⟨_, rfl⟩
    have nd1 : ‖d - mE‖ ≤ C1 * h ^ 3 := by
      rw [pi_norm_le_iff_of_nonneg (by positivity)]
      intro i
      rw [hd, hmE, Pi.sub_apply, Pi.sub_apply]
      unfold movedBy
      have ei : v i = S i := by
        rw [eS]
        unfold atSite
        rw [dif_pos i.2]
      by_cases hi : (i : ℕ) < m
      · rw [if_pos hi]
        have e : coords y i - coords v i - toP (kickMove m γ J B Y a h S i)
            = toP (Spec.sub (Spec.sub (y i) (v i)) (kickMove m γ J B Y a h S i)) := rfl
        rw [e]
        refine (norm_toP _).trans ?_
        rw [ei, hy]
        have := kick_expand (γ := γ) hJ hB hY h0 h1 ha hah hS hi
        rwa [← hP, ← hC1] at this
      · rw [if_neg hi, sub_zero]
        have e : coords y i = coords v i := by
          unfold coords
          rw [hy]
          dsimp only
          unfold stepG subStepG
          simp only [hi, false_and, if_false]
          rw [ei]
        rw [e, sub_self, norm_zero]
        positivity
    have h32 : h ^ 3 ≤ h ^ 2 := pow_le_pow_of_le_one h0 h1 (by norm_num)
    have h21 : h ^ 2 ≤ h := by nlinarith
    have nr2 : ‖mE - kE‖ ≤ C2 * h ^ 2 := by
      refine nr.trans ?_
      rw [hC2, add_mul]
      have : a * h * P ≤ h * h * P := by gcongr
      nlinarith
    have ndk : ‖d - kE‖ ≤ (C1 + C2) * h ^ 2 := by
      rw [show d - kE = (d - mE) + (mE - kE) by abel]
      refine (norm_add_le _ _).trans ?_
      have := mul_le_mul_of_nonneg_left h32 C10
      nlinarith
    have nd : ‖d‖ ≤ C3 * h := by
      rw [show d = (d - kE) + kE by abel]
      refine (norm_add_le _ _).trans ?_
      have := mul_le_mul_of_nonneg_left h21 (by positivity : 0 ≤ C1 + C2)
      rw [hC3]
      nlinarith
    have t1 := hT (coords v) (coords y) nx ny
    rw [← hd] at t1
    have t2 : |fderiv ℝ F (coords v) d - fderiv ℝ F (coords v) mE| ≤ M1 * C1 * h ^ 3 := by
      rw [← map_sub, ← Real.norm_eq_abs]
      refine (ContinuousLinearMap.le_opNorm _ _).trans ?_
      have := mul_le_mul (hM1 _ nx) nd1 (norm_nonneg _) M10
      linarith
    have bil : ∀ p q : Fin L → ℝ × ℝ × ℝ, |fderiv ℝ (fderiv ℝ F) (coords v) p q| ≤ M2 * ‖p‖ * ‖q‖ := by
      intro p q
      rw [← Real.norm_eq_abs]
      refine (ContinuousLinearMap.le_opNorm₂ _ _ _).trans ?_
      have := hM2 _ nx
      gcongr
    have t3 : |fderiv ℝ (fderiv ℝ F) (coords v) d d - fderiv ℝ (fderiv ℝ F) (coords v) kE kE|
        ≤ M2 * (C1 + C2) * C3 * h ^ 3 + M2 * KY * (C1 + C2) * h ^ 3 := by
      have e : fderiv ℝ (fderiv ℝ F) (coords v) d d - fderiv ℝ (fderiv ℝ F) (coords v) kE kE
          = fderiv ℝ (fderiv ℝ F) (coords v) (d - kE) d + fderiv ℝ (fderiv ℝ F) (coords v) kE (d - kE) := by
        simp only [map_sub, _root_.sub_apply]
        ring
      rw [e]
      refine (abs_add_le _ _).trans (add_le_add ?_ ?_)
      · refine (bil _ _).trans ((mul_le_mul (mul_le_mul_of_nonneg_left ndk M20) nd (norm_nonneg _) ?_).trans (le_of_eq ?_))
        · positivity
        · ring
      · refine (bil _ _).trans ((mul_le_mul (mul_le_mul_of_nonneg_left nk M20) ndk (norm_nonneg _) ?_).trans (le_of_eq ?_))
        · positivity
        · ring
    have t4 : T * ‖d‖ ^ 3 ≤ T * C3 ^ 3 * h ^ 3 := by
      have := pow_le_pow_left₀ (norm_nonneg _) nd 3
      rw [mul_pow] at this
      have := mul_le_mul_of_nonneg_left this T0
      linarith
    have p3 : 0 ≤ h ^ 3 := by positivity
    have p4 : 0 ≤ (2 * M0 + M1 * (C2 + KY) + M2 * KY * KY) * h ^ 3 := by positivity
    have p5 : 0 ≤ (M2 * (C1 + C2) * C3 + M2 * KY * (C1 + C2)) * h ^ 3 := by positivity
    rw [abs_le] at t1 t2 t3 ⊢
    obtain ⟨t11, t12⟩ := t1
    obtain ⟨t21, t22⟩ := t2
    obtain ⟨t31, t32⟩ := t3
    constructor <;> linarith
  · push Not at h1
    have h12 : h ≤ h ^ 3 := by nlinarith [mul_pos (by linarith : (0:ℝ) < h) (by linarith : (0:ℝ) < h)]
    have h23 : h ^ 2 ≤ h ^ 3 := by nlinarith [sq_nonneg h]
    have h13 : 1 ≤ h ^ 3 := by linarith
    have b0 : |F (coords y)| ≤ M0 := hM0 _ ny
    have b1 : |F (coords v)| ≤ M0 := hM0 _ nx
    have nm : ‖mE‖ ≤ (C2 + KY) * h ^ 3 := by
      rw [show mE = (mE - kE) + kE by abel]
      refine (norm_add_le _ _).trans ?_
      have q1 : a * h * P ≤ 1 * h * P := by gcongr
      have q2 := mul_le_mul_of_nonneg_left h12 P0
      have q3 := mul_le_mul_of_nonneg_left h23 (sq_nonneg KY)
      have q4 := mul_le_mul_of_nonneg_left h12 hKY
      rw [hC2]
      linarith
    have b2 : |fderiv ℝ F (coords v) mE| ≤ M1 * (C2 + KY) * h ^ 3 := by
      rw [← Real.norm_eq_abs]
      refine (ContinuousLinearMap.le_opNorm _ _).trans ?_
      have := mul_le_mul (hM1 _ nx) nm (norm_nonneg _) M10
      linarith
    have b3 : |fderiv ℝ (fderiv ℝ F) (coords v) kE kE| ≤ M2 * KY * KY * h ^ 3 := by
      rw [← Real.norm_eq_abs]
      refine (ContinuousLinearMap.le_opNorm₂ _ _ _).trans ?_
      have q1 := mul_le_mul (mul_le_mul (hM2 _ nx) nk (norm_nonneg _) M20) nk (norm_nonneg _) (by positivity)
      have q2 := mul_le_mul_of_nonneg_left h23 (by positivity : 0 ≤ M2 * KY * KY)
      refine q1.trans (le_trans (le_of_eq (by ring)) q2)
    have p1 : 0 ≤ (T * C3 ^ 3 + M1 * C1 + M2 * (C1 + C2) * C3 + M2 * KY * (C1 + C2)) * h ^ 3 := by positivity
    have p2 : M0 ≤ M0 * h ^ 3 := le_mul_of_one_le_right M00 h13
    have p3 : 0 ≤ M2 * KY * KY * h ^ 3 := by positivity
    rw [abs_le] at b0 b1 b2 b3 ⊢
    obtain ⟨b01, b02⟩ := b0
    obtain ⟨b11, b12⟩ := b1
    obtain ⟨b21, b22⟩ := b2
    obtain ⟨b31, b32⟩ := b3
    constructor <;> linarith

end

end Verif
