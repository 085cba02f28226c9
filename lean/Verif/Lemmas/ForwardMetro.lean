/-
Binary64 errors of a Monte-Carlo step: the proposed direction, the energy difference, the decision.
-/
import Verif.Lemmas.ForwardEnergy
import Verif.Lemmas.Metropolis
import Mathlib.Analysis.SpecialFunctions.Trigonometric.Inverse
import Mathlib.Analysis.Complex.ExponentialBounds

set_option linter.unusedSectionVars false

namespace Verif

/-- Accuracy `ε` of the functions used by the Monte-Carlo samplers: the inverse cosine, and the exponential of numbers
up to 1. -/
structure SamplesTo (ε : ℝ) (m : Libm) : Prop extends AccurateTo ε m where
  acos : ∀ x q, HasVal x q → |q| ≤ 1 → ∃ r : ℚ, HasVal (m.acos x) r ∧ |(r : ℝ) - Real.arccos q| ≤ ε
  exp : ∀ x q, HasVal x q → q ≤ 1 → ∃ r : ℚ, HasVal (m.exp x) r ∧ |(r : ℝ) - Real.exp q| ≤ 3 * ε

namespace Forward

open Spec Finset

variable {m : Libm}

/-! ### Exact operations -/

theorem round_rep' {q : ℚ} (b : Bool) (h : Rep q) (hb : |q| < 2 ^ 1000) : HasVal (B64v.round q b) q := by
  by_cases h0 : q = 0
  · subst h0
    cases b
    · exact .inl rfl
    · exact .inr ⟨rfl, rfl⟩
  · have := round_rep h hb
    unfold B64v.round at *
    rw [if_neg h0] at *
    exact this

theorem mul_exact {x y : B64v} {p q : ℚ} (hx : HasVal x p) (hy : HasVal y q) (h : Rep (p * q)) (hb : |p * q| < 2 ^ 1000) :
    HasVal (x.mul y) (p * q) := by
  have key : x.mul y = B64v.round (x.val * y.val) (x.sgn != y.sgn) := by
    rcases hx with rfl | ⟨rfl, rfl⟩ <;> rcases hy with rfl | ⟨rfl, rfl⟩ <;> rfl
  have e1 : x.val = p := by rcases hx with rfl | ⟨rfl, rfl⟩ <;> rfl
  have e2 : y.val = q := by rcases hy with rfl | ⟨rfl, rfl⟩ <;> rfl
  rw [key, e1, e2]
  exact round_rep' _ h hb

theorem add_exact {x y : B64v} {p q : ℚ} (hx : HasVal x p) (hy : HasVal y q) (h : Rep (p + q)) (hb : |p + q| < 2 ^ 1000) :
    HasVal (x.add y) (p + q) := by
  have e1 : x.val = p := by rcases hx with rfl | ⟨rfl, rfl⟩ <;> rfl
  have e2 : y.val = q := by rcases hy with rfl | ⟨rfl, rfl⟩ <;> rfl
  by_cases hn : x = .nzero ∧ y = .nzero
  · obtain ⟨rfl, rfl⟩ := hn
    rw [← e1, ← e2]
    exact .inr ⟨rfl, by norm_num [B64v.val]⟩
  · have key : x.add y = B64v.round (x.val + y.val) false := by
      rcases hx with rfl | ⟨rfl, rfl⟩ <;> rcases hy with rfl | ⟨rfl, rfl⟩ <;> first | rfl | exact absurd ⟨rfl, rfl⟩ hn
    rw [key, e1, e2]
    exact round_rep' _ h hb

theorem lt_val {x y : B64v} {p q : ℚ} (hx : HasVal x p) (hy : HasVal y q) : B64v.lt x y = decide (p < q) := by
  have e1 : x.val = p := by rcases hx with rfl | ⟨rfl, rfl⟩ <;> rfl
  have e2 : y.val = q := by rcases hy with rfl | ⟨rfl, rfl⟩ <;> rfl
  rw [← e1, ← e2]
  rcases hx with rfl | ⟨rfl, rfl⟩ <;> rcases hy with rfl | ⟨rfl, rfl⟩ <;> rfl

theorem val_lit (k : ℕ) (hk : k ≤ 2 ^ 53) : HasVal (B64v.round (k : ℚ) false) k := round_rep (rep_nat hk) (nat_small hk)

theorem lit0_val : HasVal (0.0 : B64 m) 0 := by
  obtain ⟨q, h1, h2⟩ := near_lit0 (m := m) 0
  rw [mul_zero, abs_nonpos_iff, sub_zero] at h2
  have : q = 0 := by exact_mod_cast h2
  rwa [this] at h1

theorem lit1_val : HasVal (1.0 : B64 m) 1 := by
  obtain ⟨q, h1, h2⟩ := near_lit1 (m := m) 0
  rw [mul_zero, abs_nonpos_iff, sub_eq_zero] at h2
  have : q = 1 := by exact_mod_cast h2
  rwa [this] at h1

theorem lit2_val : HasVal (2.0 : B64 m) 2 := by
  obtain ⟨q, h1, h2⟩ := near_lit2 (m := m) 0
  rw [mul_zero, abs_nonpos_iff, sub_eq_zero] at h2
  have : q = 2 := by exact_mod_cast h2
  rwa [this] at h1

/-- `1 - 2 u` is computed exactly for multiples `u` of `2 ^ -53` -/
theorem one_minus {u : B64 m} {k : ℕ} (hk : k ≤ 2 ^ 53) (hu : HasVal u (k / 2 ^ 53)) :
    HasVal ((1.0 : B64 m) - 2.0 * u : B64 m) (1 - 2 * (k / 2 ^ 53)) := by
  have kq : (k : ℚ) ≤ 2 ^ 53 := by exact_mod_cast hk
  have k0 : (0 : ℚ) ≤ k := Nat.cast_nonneg k
  have big : (4 : ℚ) < 2 ^ 1000 := lt_of_lt_of_le (by norm_num : (4 : ℚ) < 2 ^ 3) (pow_le_pow_right₀ (by norm_num) (by norm_num))
  have h1 : HasVal ((2.0 : B64 m) * u : B64 m) (2 * (k / 2 ^ 53)) := by
    refine mul_exact lit2_val hu ⟨k, -52, ?_, by norm_num, ?_⟩ ?_
    · rw [abs_of_nonneg (by positivity)]
      exact_mod_cast hk
    · push_cast
      rw [zpow_neg]
      norm_num
      ring
    · generalize (2 : ℚ) ^ 1000 = Y at big
      refine lt_of_le_of_lt ?_ big
      rw [abs_of_nonneg (by positivity), ← mul_div_assoc, div_le_iff₀ (by positivity)]
      linarith [show (0 : ℚ) < 2 ^ 53 by positivity]
  rw [sub_eq_add_neg]
  refine add_exact lit1_val h1.neg ⟨2 ^ 52 - k, -52, ?_, by norm_num, ?_⟩ ?_
  · rw [abs_le]
    constructor <;> norm_num at * <;> omega
  · push_cast
    rw [zpow_neg]
    norm_num
    ring
  · generalize (2 : ℚ) ^ 1000 = Y at big
    refine lt_of_le_of_lt ?_ big
    have h2 : (k : ℚ) / 2 ^ 53 ≤ 1 := by rw [div_le_one (by positivity)]; exact kq
    have h3 : 0 ≤ (k : ℚ) / 2 ^ 53 := by positivity
    rw [abs_le]
    constructor <;> linarith

/-! ### The proposed direction -/

theorem prod_lip {a b c d e f : ℝ} (h1 : |a - b| ≤ e) (h2 : |c - d| ≤ f) (ha : |c| ≤ 1) (hb : |b| ≤ 1) :
    |a * c - b * d| ≤ e + f := by
  rw [show a * c - b * d = (a - b) * c + b * (c - d) by ring]
  refine (abs_add_le _ _).trans (add_le_add ?_ ?_)
  · rw [abs_mul]
    exact (mul_le_mul h1 ha (abs_nonneg _) ((abs_nonneg _).trans h1)).trans (by linarith)
  · rw [abs_mul]
    exact (mul_le_mul hb h2 (abs_nonneg _) zero_le_one).trans (by linarith)

/-- the proposed direction: a unit vector to `8 ε`, within `56 ε` of the exact one -/
theorem proposal_near {ε : ℝ} (he : Tol ε) (hm : SamplesTo ε m) {u1 u2 : B64 m} {a : ℝ} {k : ℕ} (h1 : IsVal u1 a)
    (a0 : |a| ≤ 1) (hk : k ≤ 2 ^ 53) (h2 : HasVal u2 (k / 2 ^ 53)) :
    ∃ v, IsVal3 (SpinChain.proposal u1 u2).dir v ∧ |len v - 1| ≤ 8 * ε ∧
      len (Spec.sub v (spherePoint a (k / 2 ^ 53))) ≤ 56 * ε := by
  have e0 := Tol.pos he
  have e1 : ε ≤ 1 / 2 ^ 30 := he.hi
  have e2 : ε ≤ 1 / 1000 := e1.trans (by norm_num)
  -- angles
  have n3 : NearR ((2.0 : B64 m) * FOps.fpi : B64 m) (2 * Real.pi) ((2 * 0 * 4 + 1 * 2 + 2 * 4) * ε) :=
    (near_lit2 (m := m) ε).mul he (pi_near he) (A := 2) (B := 4) (by norm_num)
      (by rw [abs_of_pos Real.pi_pos]; exact Real.pi_le_four) (by norm_num) (by norm_num) le_rfl (by norm_num) (by linarith)
  have n4 : NearR ((2.0 : B64 m) * FOps.fpi * u1 : B64 m) (2 * Real.pi * a) _ :=
    n3.mul he (isVal_near h1 ε) (A := 7) (B := 1) (by rw [abs_of_pos (by positivity)]; linarith [Real.pi_lt_d2]) a0
      (by norm_num) (by norm_num) (by norm_num) (by linarith) (by norm_num)
  obtain ⟨θ, t1, t2⟩ := n4
  have kr : (k : ℝ) ≤ 2 ^ 53 := by exact_mod_cast hk
  have k0 : (0 : ℝ) ≤ k := Nat.cast_nonneg k
  have kk1 : (k : ℝ) / 2 ^ 53 ≤ 1 := by rw [div_le_one (by positivity)]; exact kr
  have kk0 : 0 ≤ (k : ℝ) / 2 ^ 53 := by positivity
  have kq : |(1 - 2 * (k / 2 ^ 53) : ℚ)| ≤ 1 := by
    have h1 : (k : ℚ) / 2 ^ 53 ≤ 1 := by rw [div_le_one (by positivity)]; exact_mod_cast hk
    have h2 : 0 ≤ (k : ℚ) / 2 ^ 53 := by positivity
    rw [abs_le]
    constructor <;> linarith
  obtain ⟨φ, f1, f2⟩ := hm.acos _ _ (one_minus hk h2) kq
  push_cast at f2
  -- library
  obtain ⟨ct, c1, c2⟩ := hm.cos _ _ t1
  obtain ⟨st, s1, s2⟩ := hm.sin _ _ t1
  obtain ⟨cp, c3, c4⟩ := hm.cos _ _ f1
  obtain ⟨sp, s3, s4⟩ := hm.sin _ _ f1
  have bc : ∀ x : ℝ, |Real.cos x| ≤ 1 := Real.abs_cos_le_one
  have bs : ∀ x : ℝ, |Real.sin x| ≤ 1 := Real.abs_sin_le_one
  have p1 : NearR (m.cos ((2.0 : B64 m) * FOps.fpi * u1 : B64 m)) (Real.cos θ) (1 * ε) := ⟨ct, c1, by rw [one_mul]; exact c2⟩
  have p2 : NearR (m.sin ((2.0 : B64 m) * FOps.fpi * u1 : B64 m)) (Real.sin θ) (1 * ε) := ⟨st, s1, by rw [one_mul]; exact s2⟩
  have p3 : NearR (m.cos (m.acos ((1.0 : B64 m) - 2.0 * u2 : B64 m))) (Real.cos φ) (1 * ε) := ⟨cp, c3, by rw [one_mul]; exact c4⟩
  have p4 : NearR (m.sin (m.acos ((1.0 : B64 m) - 2.0 * u2 : B64 m))) (Real.sin φ) (1 * ε) := ⟨sp, s3, by rw [one_mul]; exact s4⟩
  have q1 := p1.mul he p4 (bc _) (bs _) (by norm_num) (by norm_num) (by norm_num) (by linarith) (by linarith)
  have q2 := p2.mul he p4 (bs _) (bs _) (by norm_num) (by norm_num) (by norm_num) (by linarith) (by linarith)
  have q3 : NearR (m.cos (m.acos ((1.0 : B64 m) - 2.0 * u2 : B64 m))) (Real.cos φ) (4 * ε) := p3.mono (by linarith)
  obtain ⟨v, v1, v2⟩ := near3 (x := (SpinChain.proposal u1 u2).dir) (v := (⟨Real.cos θ * Real.sin φ, Real.sin θ * Real.sin φ,
    Real.cos φ⟩ : V3 ℝ)) (q1.mono (e' := 4 * ε) (by linarith)) (q2.mono (e' := 4 * ε) (by linarith)) q3
  have lw : len (⟨Real.cos θ * Real.sin φ, Real.sin θ * Real.sin φ, Real.cos φ⟩ : V3 ℝ) = 1 := by
    unfold len dot
    rw [Real.sqrt_eq_one]
    have g1 := Real.sin_sq_add_cos_sq (θ : ℝ)
    have g2 := Real.sin_sq_add_cos_sq (φ : ℝ)
    linear_combination (Real.sin φ) ^ 2 * g1 + g2
  refine ⟨v, v1, ?_, ?_⟩
  · have := (abs_len_sub v ⟨Real.cos θ * Real.sin φ, Real.sin θ * Real.sin φ, Real.cos φ⟩).trans v2
    rw [lw] at this
    linarith
  · have sa : Real.sin (Real.arccos (1 - 2 * (k / 2 ^ 53))) = Real.sqrt (1 - (1 - 2 * (k / 2 ^ 53)) ^ 2) := Real.sin_arccos _
    have ca : Real.cos (Real.arccos (1 - 2 * (k / 2 ^ 53))) = 1 - 2 * (k / 2 ^ 53) :=
      Real.cos_arccos (by linarith) (by linarith)
    have tt : |(θ : ℝ) - 2 * Real.pi * a| ≤ 27 * ε := t2.trans (le_of_eq (by ring))
    have w1 : |Real.cos θ - Real.cos (2 * Real.pi * a)| ≤ 27 * ε := (Real.abs_cos_sub_cos_le _ _).trans tt
    have w2 : |Real.sin θ - Real.sin (2 * Real.pi * a)| ≤ 27 * ε := (Real.abs_sin_sub_sin_le _ _).trans tt
    have w3 : |Real.cos φ - (1 - 2 * (k / 2 ^ 53))| ≤ ε := by
      rw [← ca]; exact (Real.abs_cos_sub_cos_le _ _).trans f2
    have w4 : |Real.sin φ - Real.sqrt (1 - (1 - 2 * (k / 2 ^ 53)) ^ 2)| ≤ ε := by
      rw [← sa]; exact (Real.abs_sin_sub_sin_le _ _).trans f2
    have l1 : len (Spec.sub (⟨Real.cos θ * Real.sin φ, Real.sin θ * Real.sin φ, Real.cos φ⟩ : V3 ℝ) (spherePoint a (k / 2 ^ 53)))
        ≤ 7 / 4 * (28 * ε) := by
      refine len_of_comp ?_ ?_ ?_
      · show |Real.cos θ * Real.sin φ - Real.sqrt (1 - (1 - 2 * (k / 2 ^ 53)) ^ 2) * Real.cos (2 * Real.pi * a)| ≤ _
        rw [mul_comm (Real.sqrt _)]
        exact (prod_lip w1 w4 (bs _) (bc _)).trans (by linarith)
      · show |Real.sin θ * Real.sin φ - Real.sqrt (1 - (1 - 2 * (k / 2 ^ 53)) ^ 2) * Real.sin (2 * Real.pi * a)| ≤ _
        rw [mul_comm (Real.sqrt _)]
        exact (prod_lip w2 w4 (bs _) (bs _)).trans (by linarith)
      · exact w3.trans (by linarith)
    have := len_sub_tri v ⟨Real.cos θ * Real.sin φ, Real.sin θ * Real.sin φ, Real.cos φ⟩ (spherePoint a (k / 2 ^ 53))
    linarith

/-! ### The energy difference -/

/-- one component of the energy of the centre spin, added to a sum bounded by `22 M` -/
theorem de_comp {M a e : ℝ} (hM : 1 ≤ M) (hM' : M ≤ 2 ^ 100) {acc sl jl sc sr jr h : B64v} {p q r p' q' s : ℝ}
    (hsl : IsVal sl p) (hjl : IsVal jl q) (hsc : IsVal sc r) (hsr : IsVal sr p') (hjr : IsVal jr q') (hh : IsVal h s)
    (bp : |p| ≤ 11 / 10) (bq : |q| ≤ M) (br : |r| ≤ 11 / 10) (bp' : |p'| ≤ 11 / 10) (bq' : |q'| ≤ M) (bs : |s| ≤ M)
    (ha : NearR acc a e) (h0 : |a| ≤ 18 * M) (e0 : e ≤ M) :
    NearR ((acc.add (((sl.mul jl).mul sc).add ((sr.mul jr).mul sc)).neg).add (sc.mul h))
      (a - (p * q * r + p' * q' * r) + r * s) (e + 60 * M / 2 ^ 52) ∧
      |a - (p * q * r + p' * q' * r) + r * s| ≤ |a| + 18 / 5 * M := by
  have big : M ≤ 2 ^ 150 := hM'.trans (pow_le_pow_right₀ (by norm_num) (by norm_num))
  have P : ∀ {p q : ℝ}, |p| ≤ 11 / 10 → |q| ≤ M → |p * q * r| ≤ 121 / 100 * M := by
    intro p q hp hq
    rw [abs_mul, abs_mul]
    calc |p| * |q| * |r| ≤ 11 / 10 * M * (11 / 10) :=
          mul_le_mul (mul_le_mul hp hq (abs_nonneg _) (by norm_num)) br (abs_nonneg _) (by positivity)
      _ = 121 / 100 * M := by ring
  have T : ∀ {x y : B64v} {p q : ℝ}, IsVal x p → IsVal y q → |p| ≤ 11 / 10 → |q| ≤ M →
      NearR ((x.mul y).mul sc) (p * q * r) (4 * M / 2 ^ 52) := by
    intro x y p q hx hy hp hq
    have t1 := (IsVal.nearR hx).mul_abs (IsVal.nearR hy) hp hq (by linarith) (by norm_num at *; linarith) le_rfl (by norm_num)
      (by linarith)
    have b1 : |p * q| ≤ 11 / 10 * M := by
      rw [abs_mul]; exact mul_le_mul hp hq (abs_nonneg _) (by norm_num)
    have t2 := t1.mul_abs (IsVal.nearR hsc) b1 br (by linarith) (by norm_num at *; linarith) (by positivity)
      (by norm_num at *; linarith) (by norm_num)
    refine t2.mono ?_
    norm_num
    linarith
  have b1 := abs_le.1 (P bp bq)
  have b2 := abs_le.1 (P bp' bq')
  have b3 : |r * s| ≤ 11 / 10 * M := by
    rw [abs_mul]; exact mul_le_mul br bs (abs_nonneg _) (by norm_num)
  have b3' := abs_le.1 b3
  have b4 := abs_le.1 h0
  have b5 := abs_le.1 (le_refl |a|)
  have t3 := (T hsl hjl bp bq).add_abs (T hsr hjr bp' bq') (C := 3 * M) (by rw [abs_le]; constructor <;> linarith)
    (by linarith) (by norm_num at *; linarith) (by norm_num; linarith)
  have t4 := ha.sub_abs t3 (C := 22 * M) (by rw [abs_le]; constructor <;> linarith) (by linarith)
    (by norm_num at *; linarith) (by norm_num; linarith)
  have t5 := (IsVal.nearR hsc).mul_abs (IsVal.nearR hh) br bs (by linarith) (by norm_num at *; linarith) le_rfl (by norm_num)
    (by linarith)
  have t6 := t4.add_abs t5 (C := 22 * M) (by rw [abs_le]; constructor <;> linarith) (by linarith)
    (by norm_num at *; linarith) (by norm_num; linarith)
  refine ⟨t6.mono ?_, ?_⟩
  · norm_num
    linarith
  · rw [abs_le]
    constructor <;> linarith

/-- the numbers around a site -/
structure Around (M : ℝ) (n : Nbhd1 (B64 m)) (k : Nbhd1 ℝ) : Prop where
  lo : 1 ≤ M
  hi : M ≤ 2 ^ 100
  sl : IsVal3 n.s_l.dir k.s_l.dir ∧ len k.s_l.dir ≤ 11 / 10
  sc : IsVal3 n.s_c.dir k.s_c.dir ∧ len k.s_c.dir ≤ 11 / 10
  sr : IsVal3 n.s_r.dir k.s_r.dir ∧ len k.s_r.dir ≤ 11 / 10
  jl : IsVal3 n.j_l k.j_l ∧ len k.j_l ≤ M
  jr : IsVal3 n.j_r k.j_r ∧ len k.j_r ≤ M
  h : IsVal3 n.h k.h ∧ len k.h ≤ M

theorem de_near {M : ℝ} {n : Nbhd1 (B64 m)} {k : Nbhd1 ℝ} (h : Around M n k) {x : Spin (B64 m)} {v : V3 ℝ}
    (hx : IsVal3 x.dir v) (hv : len v ≤ 11 / 10) :
    NearR (SpinChain.metroDe n x : B64 m) (SpinChain.metroDe k ⟨v⟩) (360 * M / 2 ^ 52) := by
  obtain ⟨M1, M2, ⟨l, l'⟩, ⟨c, c'⟩, ⟨r, r'⟩, ⟨jl, jl'⟩, ⟨jr, jr'⟩, ⟨hh, hh'⟩⟩ := h
  have z : NearR (0.0 : B64 m) (0 : ℝ) 0 := by have := near_lit0 (m := m) 1; rwa [zero_mul] at this
  have big : 60 * M / 2 ^ 52 ≤ M / 100 := by norm_num; linarith
  obtain ⟨a1, a2, a3⟩ := abs_le_len k.s_l.dir
  obtain ⟨b1, b2, b3⟩ := abs_le_len k.s_c.dir
  obtain ⟨d1, d2, d3⟩ := abs_le_len k.s_r.dir
  obtain ⟨f1, f2, f3⟩ := abs_le_len k.j_l
  obtain ⟨g1, g2, g3⟩ := abs_le_len k.j_r
  obtain ⟨i1, i2, i3⟩ := abs_le_len k.h
  obtain ⟨v1, v2, v3⟩ := abs_le_len v
  have az : |(0 : ℝ)| = 0 := abs_zero
  have s1 := de_comp M1 M2 l.1 jl.1 c.1 r.1 jr.1 hh.1 (a1.trans l') (f1.trans jl') (b1.trans c') (d1.trans r') (g1.trans jr')
    (i1.trans hh') z (by linarith) (by linarith)
  have s2 := de_comp M1 M2 l.2.1 jl.2.1 c.2.1 r.2.1 jr.2.1 hh.2.1 (a2.trans l') (f2.trans jl') (b2.trans c') (d2.trans r')
    (g2.trans jr') (i2.trans hh') s1.1 (by linarith [s1.2]) (by linarith)
  have s3 := de_comp M1 M2 l.2.2 jl.2.2 c.2.2 r.2.2 jr.2.2 hh.2.2 (a3.trans l') (f3.trans jl') (b3.trans c') (d3.trans r')
    (g3.trans jr') (i3.trans hh') s2.1 (by linarith [s1.2, s2.2]) (by linarith)
  have n0 := s3.1.neg
  have b0 := s3.2
  rw [← abs_neg] at b0
  have s4 := de_comp M1 M2 l.1 jl.1 hx.1 r.1 jr.1 hh.1 (a1.trans l') (f1.trans jl') (v1.trans hv) (d1.trans r') (g1.trans jr')
    (i1.trans hh') n0 (by linarith [s1.2, s2.2]) (by linarith)
  have s5 := de_comp M1 M2 l.2.1 jl.2.1 hx.2.1 r.2.1 jr.2.1 hh.2.1 (a2.trans l') (f2.trans jl') (v2.trans hv) (d2.trans r')
    (g2.trans jr') (i2.trans hh') s4.1 (by linarith [s1.2, s2.2, s4.2]) (by linarith)
  have s6 := de_comp M1 M2 l.2.2 jl.2.2 hx.2.2 r.2.2 jr.2.2 hh.2.2 (a3.trans l') (f3.trans jl') (v3.trans hv) (d3.trans r')
    (g3.trans jr') (i3.trans hh') s5.1 (by linarith [s1.2, s2.2, s4.2, s5.2]) (by linarith)
  have e1 : SpinChain.metroDe k ⟨v⟩ = _ := rfl
  have := s6.1.mono (e' := 360 * M / 2 ^ 52) (by linarith)
  simp only [SpinChain.metroDe, for3, V3.get_zero, V3.get_one, V3.get_two, lit_0]
  exact this

/-- in exact arithmetic -/
theorem de_real (k : Nbhd1 ℝ) (v : V3 ℝ) : SpinChain.metroDe k ⟨v⟩
    = dot (Spec.sub v k.s_c.dir) (Spec.sub (Spec.sub k.h (had k.j_l k.s_l.dir)) (had k.j_r k.s_r.dir)) := by
  simp only [SpinChain.metroDe, for3, V3.get_zero, V3.get_one, V3.get_two, dot, had, Spec.sub, lit_0]
  ring

/-- dependence of the energy difference on the spins -/
theorem de_lip {M D ρ : ℝ} {k k' : Nbhd1 ℝ} {v v' : V3 ℝ} (hM : 1 ≤ M) (hjl : k.j_l = k'.j_l) (hjr : k.j_r = k'.j_r)
    (hh : k.h = k'.h) (l1 : len k.s_l.dir ≤ 11 / 10) (l3 : len k.s_r.dir ≤ 11 / 10)
    (jl : len k.j_l ≤ M) (jr : len k.j_r ≤ M) (h : len k.h ≤ M) (u1 : len k'.s_c.dir = 1) (u2 : len v' = 1)
    (d1 : len (Spec.sub k.s_l.dir k'.s_l.dir) ≤ D) (d2 : len (Spec.sub k.s_c.dir k'.s_c.dir) ≤ D)
    (d3 : len (Spec.sub k.s_r.dir k'.s_r.dir) ≤ D) (d4 : len (Spec.sub v v') ≤ ρ) :
    |SpinChain.metroDe k ⟨v⟩ - SpinChain.metroDe k' ⟨v'⟩| ≤ 8 * M * D + 16 / 5 * M * ρ := by
  rw [de_real, de_real, ← hjl, ← hjr, ← hh]
  have e1 : dot (Spec.sub v k.s_c.dir) (Spec.sub (Spec.sub k.h (had k.j_l k.s_l.dir)) (had k.j_r k.s_r.dir))
      - dot (Spec.sub v' k'.s_c.dir) (Spec.sub (Spec.sub k.h (had k.j_l k'.s_l.dir)) (had k.j_r k'.s_r.dir))
      = dot (Spec.sub (Spec.sub v v') (Spec.sub k.s_c.dir k'.s_c.dir))
          (Spec.sub (Spec.sub k.h (had k.j_l k.s_l.dir)) (had k.j_r k.s_r.dir))
        - dot (Spec.sub v' k'.s_c.dir) (had k.j_l (Spec.sub k.s_l.dir k'.s_l.dir))
        - dot (Spec.sub v' k'.s_c.dir) (had k.j_r (Spec.sub k.s_r.dir k'.s_r.dir)) := by
    simp only [dot, had, Spec.sub]; ring
  have D0 : 0 ≤ D := (len_nonneg _).trans d1
  have ρ0 : 0 ≤ ρ := (len_nonneg _).trans d4
  have g1 : len (had k.j_l k.s_l.dir) ≤ M * (11 / 10) :=
    (len_had_le _ _).trans (mul_le_mul jl l1 (len_nonneg _) (by linarith))
  have g2 : len (had k.j_r k.s_r.dir) ≤ M * (11 / 10) :=
    (len_had_le _ _).trans (mul_le_mul jr l3 (len_nonneg _) (by linarith))
  have g3 : len (had k.j_l (Spec.sub k.s_l.dir k'.s_l.dir)) ≤ M * D :=
    (len_had_le _ _).trans (mul_le_mul jl d1 (len_nonneg _) (by linarith))
  have g4 : len (had k.j_r (Spec.sub k.s_r.dir k'.s_r.dir)) ≤ M * D :=
    (len_had_le _ _).trans (mul_le_mul jr d3 (len_nonneg _) (by linarith))
  have g5 : len (Spec.sub (Spec.sub k.h (had k.j_l k.s_l.dir)) (had k.j_r k.s_r.dir)) ≤ 16 / 5 * M := by
    have a1 := len_sub_le (Spec.sub k.h (had k.j_l k.s_l.dir)) (had k.j_r k.s_r.dir)
    have a2 := len_sub_le k.h (had k.j_l k.s_l.dir)
    linarith
  have g6 : len (Spec.sub (Spec.sub v v') (Spec.sub k.s_c.dir k'.s_c.dir)) ≤ ρ + D :=
    (len_sub_le _ _).trans (add_le_add d4 d2)
  have g7 : len (Spec.sub v' k'.s_c.dir) ≤ 2 := (len_sub_le _ _).trans (by rw [u1, u2]; norm_num)
  have c1 := abs_le.1 ((abs_dot_le_len _ _).trans (mul_le_mul g6 g5 (len_nonneg _) (by linarith)))
  have c2 := abs_le.1 ((abs_dot_le_len _ _).trans (mul_le_mul g7 g3 (len_nonneg _) (by norm_num)))
  have c3 := abs_le.1 ((abs_dot_le_len _ _).trans (mul_le_mul g7 g4 (len_nonneg _) (by norm_num)))
  have MD : 0 ≤ M * D := by positivity
  rw [e1, abs_le]
  constructor <;> linarith

/-! ### The decision -/

theorem exp_lip {a b : ℝ} (ha : a ≤ 1) (hb : b ≤ 1) : |Real.exp a - Real.exp b| ≤ 3 * |a - b| := by
  wlog h : b ≤ a generalizing a b
  · rw [abs_sub_comm, abs_sub_comm a]
    exact this hb ha (le_of_not_ge h)
  have h1 := Real.add_one_le_exp (b - a)
  have h2 : Real.exp b = Real.exp a * Real.exp (b - a) := by rw [← Real.exp_add]; ring_nf
  have h3 : Real.exp a ≤ 3 := (Real.exp_le_exp.2 ha).trans (by linarith [Real.exp_one_lt_d9])
  have h4 := Real.exp_pos a
  have h5 : Real.exp b ≤ Real.exp a := Real.exp_le_exp.2 h
  rw [abs_of_nonneg (by linarith), abs_of_nonneg (by linarith)]
  have : Real.exp a * (1 + (b - a)) ≤ Real.exp b := by
    rw [h2]; exact mul_le_mul_of_nonneg_left (by linarith) h4.le
  nlinarith

theorem minexp_lip {a b : ℝ} : |min 1 (Real.exp a) - min 1 (Real.exp b)| ≤ |a - b| := by
  wlog h : b ≤ a generalizing a b
  · rw [abs_sub_comm, abs_sub_comm a]
    exact this (le_of_not_ge h)
  have h5 : Real.exp b ≤ Real.exp a := Real.exp_le_exp.2 h
  have h1 := Real.add_one_le_exp (b - a)
  have h2 : Real.exp b = Real.exp a * Real.exp (b - a) := by rw [← Real.exp_add]; ring_nf
  have h4 := Real.exp_pos a
  have h6 : 0 ≤ a - b := by linarith
  rw [abs_of_nonneg (by linarith [min_le_min_left 1 h5]), abs_of_nonneg h6]
  rcases le_total 1 (Real.exp a) with h7 | h7
  · rw [min_eq_left h7]
    rcases le_total 1 (Real.exp b) with h8 | h8
    · rw [min_eq_left h8]; linarith
    · rw [min_eq_right h8, h2]
      have : 0 < Real.exp (b - a) := Real.exp_pos _
      nlinarith
  · rw [min_eq_right h7, min_eq_right (h5.trans h7), h2]
    nlinarith

/-- the probability of acceptance -/
noncomputable def acc (beta dE : ℝ) : ℝ := min 1 (Real.exp (-(beta * dE)))

theorem acc_iff {beta dE u : ℝ} (hb : 0 ≤ beta) (hu : u < 1) : (dE < 0 ∨ u < Real.exp (-(beta * dE))) ↔ u < acc beta dE := by
  unfold acc
  rw [lt_min_iff]
  constructor
  · rintro (h | h)
    · refine ⟨hu, lt_of_lt_of_le hu (Real.one_le_exp ?_)⟩
      nlinarith
    · exact ⟨hu, h⟩
  · rintro ⟨-, h⟩
    exact .inr h

/-- The computed decision is the exact one, unless the uniform number is close to the probability of acceptance. -/
theorem accept_near {ε M b β Δ δ υ : ℝ} (he : Tol ε) (hm : SamplesTo ε m) {beta de u : B64 m} (hb : IsVal beta β) (b0 : 0 ≤ β)
    (b1 : β ≤ b) (hb1 : 1 ≤ b) (hM : 1 ≤ M) (hbM : b * M ≤ 2 ^ 20) (hΔ : |Δ| ≤ 22 * M) (hde : NearR de Δ δ) (hδ : δ ≤ M)
    (hu : IsVal u υ) (u1 : υ < 1) (margin : 73 * b * M * ε + b * δ ≤ |υ - acc β Δ|) :
    SpinChain.accept beta de u = decide (υ < acc β Δ) := by
  obtain ⟨q, q1, q2⟩ := hde
  obtain ⟨w, w1, rfl⟩ := hu
  have e0 := Tol.pos he
  have eu := he.lo
  have eh := he.hi
  have M0 : 0 ≤ b * M := by positivity
  have bM1 : 1 ≤ b * M := by nlinarith
  have δ0 : 0 ≤ δ := (abs_nonneg _).trans q2
  have hq : |(q : ℝ)| ≤ 23 * M := by rw [abs_le] at *; constructor <;> linarith
  have eε : ε ≤ b * M * ε := by nlinarith
  -- the exponent
  obtain ⟨p, p1, p2⟩ := (IsVal.nearR hb).neg.mul_abs (HasVal.nearR q1) (A := b) (B := 23 * M) (by
    rw [abs_neg, abs_of_nonneg b0]; exact b1) hq (by linarith) (by
      rw [show b * (23 * M) = 23 * (b * M) by ring]
      refine (mul_le_mul_of_nonneg_left hbM (by norm_num)).trans (by norm_num)) le_rfl (by linarith) (by linarith)
  have p3 : |(p : ℝ) - -β * q| ≤ 23 * (b * M * ε) := by
    refine p2.trans ?_
    have : b * M * (1 / 2 ^ 52) ≤ b * M * ε := mul_le_mul_of_nonneg_left eu M0
    norm_num at *
    linarith
  have sm : 23 * (b * M * ε) ≤ 1 := by
    have : b * M * ε ≤ 2 ^ 20 * (1 / 2 ^ 30) := mul_le_mul hbM eh e0.le (by positivity)
    norm_num at *
    linarith
  -- dependence on the energy
  have a1 : |acc β q - acc β Δ| ≤ b * δ := by
    refine minexp_lip.trans ?_
    rw [show -(β * (q : ℝ)) - -(β * Δ) = -(β * (q - Δ)) by ring, abs_neg, abs_mul, abs_of_nonneg b0]
    exact mul_le_mul b1 q2 (abs_nonneg _) (by linarith)
  have bε : 0 < b * M * ε := by positivity
  unfold SpinChain.accept
  show (B64v.lt de (0.0 : B64 m) || B64v.lt u (m.exp (B64v.mul (B64v.neg beta) de))) = _
  rw [lt_val q1 lit0_val]
  have hacc : ∀ {r : ℝ}, |r - acc β Δ| < 73 * b * M * ε + b * δ → ((w : ℝ) < r ↔ (w : ℝ) < acc β Δ) := by
    intro r hr
    rw [abs_lt] at hr
    rcases le_abs.1 margin with h | h
    · exact ⟨fun h' => by linarith, fun h' => by linarith⟩
    · exact ⟨fun h' => by linarith, fun h' => by linarith⟩
  by_cases hq0 : q < 0
  · rw [decide_eq_true hq0, Bool.true_or, eq_comm, decide_eq_true_eq]
    have : acc β q = 1 := by
      unfold acc
      apply min_eq_left
      apply Real.one_le_exp
      have : (q : ℝ) < 0 := by exact_mod_cast hq0
      nlinarith
    rw [this] at a1
    exact (hacc (lt_of_le_of_lt a1 (by linarith))).1 u1
  · rw [decide_eq_false hq0, Bool.false_or]
    have hq1 : (0 : ℝ) ≤ q := by exact_mod_cast not_lt.1 hq0
    have p4 : (p : ℝ) ≤ 1 := by
      have := (abs_le.1 p3).2
      nlinarith
    obtain ⟨r, r1, r2⟩ := hm.exp _ _ p1 (by exact_mod_cast p4)
    rw [lt_val w1 r1]
    have r3 := exp_lip p4 (show -β * (q : ℝ) ≤ 1 by nlinarith)
    have aq : acc β q = Real.exp (-β * q) := by
      unfold acc
      rw [neg_mul]
      apply min_eq_right
      rw [Real.exp_le_one_iff]
      nlinarith
    rw [← aq] at r3
    have r4 : |(r : ℝ) - acc β Δ| < 73 * b * M * ε + b * δ := by
      have h1 := abs_sub_le (r : ℝ) (Real.exp p) (acc β Δ)
      have h2 := abs_sub_le (Real.exp p) (acc β q) (acc β Δ)
      linarith
    have := hacc r4
    simp only [Rat.cast_lt] at this
    simp only [this]

end Forward

end Verif
