/-
The rounding of `Instances/B64.lean` is correct: the result is representable, no representable
number is nearer, ties go to the even significand.
-/
import Verif.Instances.B64
import Mathlib.Tactic.Linarith
import Mathlib.Tactic.Positivity
import Mathlib.Tactic.FieldSimp
import Mathlib.Tactic.Ring
import Mathlib.Algebra.Order.Field.Power
import Mathlib.Algebra.Order.AbsoluteValue.Basic

namespace Verif

theorem pow2_eq (k : ℤ) : pow2 k = (2 : ℚ) ^ k := by
  unfold pow2
  split_ifs with h
  · obtain ⟨n, rfl⟩ := Int.eq_ofNat_of_zero_le h
    simp
  · obtain ⟨n, hn⟩ := Int.eq_ofNat_of_zero_le (by omega : 0 ≤ -k)
    have : k = -(n : ℤ) := by omega
    subst this
    rw [Rat.mkRat_eq_div]
    simp

/-- the exponent of a quotient of natural numbers -/
theorem expo_aux {a b : ℕ} (ha : a ≠ 0) (hb : b ≠ 0) {e : ℤ} (he : e = (a.log2 : ℤ) - b.log2) {e' : ℤ}
    (he' : e' = if 0 ≤ e then (if b <<< e.toNat ≤ a then e else e - 1)
      else (if b ≤ a <<< (-e).toNat then e else e - 1)) :
    (2 : ℚ) ^ e' ≤ (a : ℚ) / b ∧ (a : ℚ) / b < (2 : ℚ) ^ (e' + 1) := by
  have hb' : (0 : ℚ) < b := by exact_mod_cast Nat.pos_of_ne_zero hb
  have a1 : ((2 ^ a.log2 : ℕ) : ℚ) ≤ a := by exact_mod_cast Nat.log2_self_le ha
  have a2 : (a : ℚ) < ((2 ^ (a.log2 + 1) : ℕ) : ℚ) := by exact_mod_cast Nat.lt_log2_self (n := a)
  have b1 : ((2 ^ b.log2 : ℕ) : ℚ) ≤ b := by exact_mod_cast Nat.log2_self_le hb
  have b2 : (b : ℚ) < ((2 ^ (b.log2 + 1) : ℕ) : ℚ) := by exact_mod_cast Nat.lt_log2_self (n := b)
  have key : (2 : ℚ) ^ e * (2 : ℚ) ^ b.log2 = (2 : ℚ) ^ a.log2 := by
    rw [he, zpow_sub₀ (by norm_num)]
    simp
  push_cast at a1 a2 b1 b2
  have htest : (e' = e ∧ (2 : ℚ) ^ e * b ≤ a) ∨ (e' = e - 1 ∧ (a : ℚ) < (2 : ℚ) ^ e * b) := by
    by_cases h0 : 0 ≤ e
    · obtain ⟨n, hn⟩ := Int.eq_ofNat_of_zero_le h0
      rw [if_pos h0] at he'
      have hc : b <<< e.toNat ≤ a ↔ (2 : ℚ) ^ e * b ≤ a := by
        rw [hn]
        simp only [Int.toNat_natCast, Nat.shiftLeft_eq, zpow_natCast]
        rw [mul_comm]
        exact_mod_cast Iff.rfl
      by_cases h1 : b <<< e.toNat ≤ a
      · exact Or.inl ⟨by rw [he', if_pos h1], hc.mp h1⟩
      · exact Or.inr ⟨by rw [he', if_neg h1], not_le.mp (fun h => h1 (hc.mpr h))⟩
    · obtain ⟨n, hn⟩ := Int.eq_ofNat_of_zero_le (by omega : 0 ≤ -e)
      rw [if_neg h0] at he'
      have hc : b ≤ a <<< (-e).toNat ↔ (2 : ℚ) ^ e * b ≤ a := by
        rw [hn]
        have : e = -(n : ℤ) := by omega
        rw [this]
        simp only [Int.toNat_natCast, Nat.shiftLeft_eq, zpow_neg, zpow_natCast]
        rw [inv_mul_le_iff₀ (by positivity), mul_comm ((2 : ℚ) ^ n)]
        exact_mod_cast Iff.rfl
      by_cases h1 : b ≤ a <<< (-e).toNat
      · exact Or.inl ⟨by rw [he', if_pos h1], hc.mp h1⟩
      · exact Or.inr ⟨by rw [he', if_neg h1], not_le.mp (fun h => h1 (hc.mpr h))⟩
  have hE : (0 : ℚ) < 2 ^ e := by positivity
  rcases htest with ⟨rfl, h⟩ | ⟨rfl, h⟩
  · refine ⟨by rwa [le_div_iff₀ hb'], ?_⟩
    rw [div_lt_iff₀ hb', zpow_add_one₀ (by norm_num)]
    rw [pow_succ, ← key] at a2
    nlinarith
  · refine ⟨?_, by rw [sub_add_cancel, div_lt_iff₀ hb']; exact h⟩
    rw [le_div_iff₀ hb', zpow_sub_one₀ (by norm_num)]
    rw [pow_succ] at b2
    rw [← key] at a1
    nlinarith

theorem expo_spec {q : ℚ} (hq : q ≠ 0) :
    (2 : ℚ) ^ expo q ≤ |q| ∧ |q| < (2 : ℚ) ^ (expo q + 1) := by
  have hb : (0 : ℚ) < q.den := by exact_mod_cast q.den_pos
  have ha0 : q.num.natAbs ≠ 0 := by simpa using hq
  have hq' : |q| = (q.num.natAbs : ℚ) / q.den := by
    conv_lhs => rw [← Rat.num_div_den q]
    rw [abs_div, abs_of_pos hb, Nat.cast_natAbs, Int.cast_abs]
  rw [hq']
  exact expo_aux ha0 q.den_nz rfl rfl

/-- `rne` is a nearest integer -/
theorem rne_nearest (x : ℚ) (n : ℤ) : |(rne x : ℚ) - x| ≤ |(n : ℚ) - x| := by
  have h1 : ((x.floor : ℤ) : ℚ) ≤ x := Rat.floor_le x
  have h2 : x < ((x.floor : ℤ) : ℚ) + 1 := by exact_mod_cast Rat.lt_floor_add_one x
  have hn : (n : ℚ) ≤ x.floor ∨ (x.floor : ℚ) + 1 ≤ n := by
    rcases le_or_gt n x.floor with h | h
    · left; exact_mod_cast h
    · right; exact_mod_cast h
  unfold rne
  dsimp only
  split_ifs with c1 c2 c3 <;> push_cast <;> rw [abs_le] <;> rcases hn with hn | hn <;>
    constructor <;> (first | (rw [abs_of_nonpos (by linarith)]; linarith) |
      (rw [abs_of_nonneg (by linarith)]; linarith))

/-- ties go to the even integer -/
theorem rne_even (x : ℚ) (h : x - x.floor = 1 / 2) : rne x % 2 = 0 := by
  unfold rne
  dsimp only
  rw [h, if_neg (lt_irrefl _), if_neg (lt_irrefl _)]
  split_ifs with c
  · exact c
  · omega

/-- the finite numbers with 53 bits and exponent not below the subnormal one -/
def Rep (y : ℚ) : Prop := ∃ (n : ℤ) (j : ℤ), |n| ≤ 2 ^ 53 ∧ -1074 ≤ j ∧ y = n * (2 : ℚ) ^ j

theorem rne_bound {x : ℚ} {N : ℤ} (h : |x| ≤ N) : |rne x| ≤ N := by
  have h1 := abs_le.mp h
  have up : rne x ≤ N := by
    by_contra hc
    have h3 : ((N : ℤ) : ℚ) + 1 ≤ rne x := by exact_mod_cast not_le.mp hc
    have := rne_nearest x N
    rw [abs_of_nonneg (by linarith), abs_of_nonneg (by linarith)] at this
    linarith
  have lo : -N ≤ rne x := by
    by_contra hc
    have h3 : (rne x : ℚ) + 1 ≤ ((-N : ℤ) : ℚ) := by exact_mod_cast not_le.mp hc
    have := rne_nearest x (-N)
    push_cast at h3 this
    rw [abs_of_nonpos (by linarith), abs_of_nonpos (by linarith)] at this
    linarith
  exact abs_le.mpr ⟨lo, up⟩

theorem ulp_le {q : ℚ} (hq : q ≠ 0) : |q / (2 : ℚ) ^ ulpExp q| ≤ ((2 ^ 53 : ℤ) : ℚ) := by
  have h := (expo_spec hq).2
  rw [abs_div, abs_of_pos (a := (2 : ℚ) ^ ulpExp q) (by positivity), div_le_iff₀ (by positivity)]
  have : (2 : ℚ) ^ (expo q + 1) ≤ ((2 ^ 53 : ℤ) : ℚ) * 2 ^ ulpExp q := by
    have e1 : ((2 ^ 53 : ℤ) : ℚ) = (2 : ℚ) ^ (53 : ℤ) := by norm_num
    rw [e1, ← zpow_add₀ (by norm_num)]
    apply zpow_le_zpow_right₀ (by norm_num)
    unfold ulpExp
    omega
  linarith

/-- the rounded number is representable -/
theorem rnd_rep (q : ℚ) : Rep (rnd q) := by
  unfold rnd
  split_ifs with h
  · exact ⟨0, 0, by norm_num, by norm_num, by norm_num⟩
  · refine ⟨rne (q / pow2 (ulpExp q)), ulpExp q, ?_, ?_, by rw [pow2_eq]⟩
    · rw [pow2_eq]
      exact rne_bound (ulp_le h)
    · unfold ulpExp
      omega

/-- no representable number is nearer -/
theorem rnd_nearest (q y : ℚ) (hy : Rep y) : |rnd q - q| ≤ |y - q| := by
  unfold rnd
  split_ifs with h
  · rw [h]; simp
  · rw [pow2_eq]
    obtain ⟨n, j, hn, hj, rfl⟩ := hy
    have hu : (0 : ℚ) < 2 ^ ulpExp q := by positivity
    have near : ∀ k : ℤ, |(rne (q / 2 ^ ulpExp q) : ℚ) * 2 ^ ulpExp q - q|
        ≤ |(k : ℚ) * 2 ^ ulpExp q - q| := by
      intro k
      have h1 := rne_nearest (q / 2 ^ ulpExp q) k
      have h2 : ∀ z : ℚ, |z * 2 ^ ulpExp q - q| = |z - q / 2 ^ ulpExp q| * 2 ^ ulpExp q := by
        intro z
        rw [← abs_of_pos hu, ← abs_mul, abs_of_pos hu]
        congr 1
        field_simp
      rw [h2, h2]
      exact mul_le_mul_of_nonneg_right h1 hu.le
    rcases le_or_gt (ulpExp q) j with hc | hc
    · obtain ⟨d, hd⟩ := Int.eq_ofNat_of_zero_le (by omega : 0 ≤ j - ulpExp q)
      have h3 := near (n * 2 ^ d)
      have h4 : (2 : ℚ) ^ j = 2 ^ d * 2 ^ ulpExp q := by
        rw [← zpow_natCast, ← zpow_add₀ (by norm_num)]
        congr 1
        omega
      push_cast at h3
      rw [h4, ← mul_assoc]
      exact h3
    · have hk : ulpExp q = expo q - 52 := by unfold ulpExp at hc ⊢; omega
      have hq1 := (expo_spec h).1
      have hbig : (2 : ℚ) ^ expo q = ((2 ^ 52 : ℤ) : ℚ) * 2 ^ ulpExp q := by
        have e1 : ((2 ^ 52 : ℤ) : ℚ) = (2 : ℚ) ^ (52 : ℤ) := by norm_num
        rw [e1, ← zpow_add₀ (by norm_num), hk]
        congr 1
        omega
      have hy : |(n : ℚ) * 2 ^ j| ≤ 2 ^ expo q := by
        rw [abs_mul, abs_of_pos (a := (2 : ℚ) ^ j) (by positivity)]
        have hn' : |(n : ℚ)| ≤ 2 ^ (53 : ℤ) := by exact_mod_cast hn
        calc |(n : ℚ)| * 2 ^ j ≤ 2 ^ (53 : ℤ) * 2 ^ j :=
              mul_le_mul_of_nonneg_right hn' (by positivity)
          _ = 2 ^ (53 + j) := by rw [← zpow_add₀ (by norm_num)]
          _ ≤ 2 ^ expo q := zpow_le_zpow_right₀ (by norm_num) (by omega)
      have hy' := abs_le.mp hy
      rcases le_or_gt 0 q with hs | hs
      · have h3 := near (2 ^ 52)
        rw [← hbig] at h3
        rw [abs_of_nonneg hs] at hq1
        rw [abs_of_nonpos (a := (2 : ℚ) ^ expo q - q) (by linarith)] at h3
        rw [abs_of_nonpos (a := (n : ℚ) * 2 ^ j - q) (by linarith)]
        linarith
      · have h3 := near (-2 ^ 52)
        rw [abs_of_neg hs] at hq1
        have h4 : (((-2 ^ 52 : ℤ) : ℤ) : ℚ) * 2 ^ ulpExp q = -2 ^ expo q := by
          rw [hbig]
          push_cast
          ring
        rw [h4, abs_of_nonneg (a := -(2 : ℚ) ^ expo q - q) (by linarith)] at h3
        rw [abs_of_nonneg (a := (n : ℚ) * 2 ^ j - q) (by linarith)]
        linarith

/-- relative error of the normal numbers -/
theorem rnd_rel (q : ℚ) (hq : (2 : ℚ) ^ (-1022 : ℤ) ≤ |q|) : |rnd q - q| ≤ 2 ^ (-53 : ℤ) * |q| := by
  have h : q ≠ 0 := by
    rintro rfl
    rw [abs_zero] at hq
    exact absurd hq (not_le.mpr (by positivity))
  unfold rnd
  rw [if_neg h, pow2_eq]
  have hu : (0 : ℚ) < 2 ^ ulpExp q := by positivity
  have he := expo_spec h
  have hk : ulpExp q = expo q - 52 := by
    unfold ulpExp
    have : -1022 ≤ expo q := by
      by_contra hc
      have : (2 : ℚ) ^ (expo q + 1) ≤ 2 ^ (-1022 : ℤ) :=
        zpow_le_zpow_right₀ (by norm_num) (by omega)
      linarith [he.2]
    omega
  have half : ∀ x : ℚ, |(rne x : ℚ) - x| ≤ 1 / 2 := by
    intro x
    have h1 := Rat.floor_le x
    have h2 : x < ((x.floor : ℤ) : ℚ) + 1 := by exact_mod_cast Rat.lt_floor_add_one x
    rcases le_total (x - x.floor) (1 / 2) with h3 | h3
    · refine (rne_nearest x x.floor).trans ?_
      rw [abs_le]
      constructor <;> linarith
    · refine (rne_nearest x (x.floor + 1)).trans ?_
      push_cast
      rw [abs_le]
      constructor <;> linarith
  have h1 := half (q / 2 ^ ulpExp q)
  have h2 : |(rne (q / 2 ^ ulpExp q) : ℚ) * 2 ^ ulpExp q - q|
      = |(rne (q / 2 ^ ulpExp q) : ℚ) - q / 2 ^ ulpExp q| * 2 ^ ulpExp q := by
    rw [← abs_of_pos hu, ← abs_mul, abs_of_pos hu]
    congr 1
    field_simp
  rw [h2]
  have h3 : (2 : ℚ) ^ ulpExp q * (1 / 2) = 2 ^ (-53 : ℤ) * 2 ^ expo q := by
    rw [hk, show (1 / 2 : ℚ) = 2 ^ (-1 : ℤ) by norm_num, ← zpow_add₀ (by norm_num),
      ← zpow_add₀ (by norm_num)]
    congr 1
    omega
  calc _ ≤ 1 / 2 * (2 : ℚ) ^ ulpExp q := mul_le_mul_of_nonneg_right h1 hu.le
    _ = 2 ^ (-53 : ℤ) * 2 ^ expo q := by rw [mul_comm]; exact h3
    _ ≤ _ := mul_le_mul_of_nonneg_left he.1 (by positivity)

end Verif
