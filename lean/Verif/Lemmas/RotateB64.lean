/-
The rotation of `Spin::rotate` in binary64 with an accurate mathematics library.
-/
import Verif.Lemmas.Rounding
import Mathlib.Analysis.SpecialFunctions.Trigonometric.Basic
import Mathlib.Analysis.Real.Sqrt

namespace Verif

/-- A mathematics library is accurate: the square root of a (normal) number has a relative error of at
most half a unit in the last place, and sine and cosine of finite numbers have an absolute error of at
most `2 ^ (-30)`.  (IEEE 754 demands the first; the usual libraries are far better than the second.) -/
structure Accurate (m : Libm) : Prop where
  sqrt : ∀ x q, HasVal x q → 1 / 2 ^ 1022 ≤ q →
    ∃ r : ℚ, HasVal (m.sqrt x) r ∧ |(r : ℝ) - Real.sqrt q| ≤ 1 / 2 ^ 53 * Real.sqrt q
  cos : ∀ x q, HasVal x q → ∃ r : ℚ, HasVal (m.cos x) r ∧ |(r : ℝ) - Real.cos q| ≤ 1 / 2 ^ 30
  sin : ∀ x q, HasVal x q → ∃ r : ℚ, HasVal (m.sin x) r ∧ |(r : ℝ) - Real.sin q| ≤ 1 / 2 ^ 30

variable {m : Libm}

theorem Accurate.sqrt_sq (hm : Accurate m) {x : B64v} {q : ℚ} (h : HasVal x q) (hq : 1 / 2 ^ 1022 ≤ q) :
    ∃ r : ℚ, HasVal (m.sqrt x) r ∧ 0 < r ∧ (1 - uro) ^ 2 * q ≤ r ^ 2 ∧ r ^ 2 ≤ (1 + uro) ^ 2 * q := by
  obtain ⟨r, h1, h2⟩ := hm.sqrt x q h hq
  have q0 : (0 : ℚ) < q := lt_of_lt_of_le (by positivity) hq
  have q1 : (0 : ℝ) < q := by exact_mod_cast q0
  have s0 := Real.sqrt_pos.mpr q1
  have s2 := Real.sq_sqrt q1.le
  rw [abs_le] at h2
  have a1 : (1 - 1 / 2 ^ 53) * Real.sqrt q ≤ r := by linarith
  have a2 : (r : ℝ) ≤ (1 + 1 / 2 ^ 53) * Real.sqrt q := by linarith
  have a0 : (0 : ℝ) < (1 - 1 / 2 ^ 53) * Real.sqrt q := mul_pos (by norm_num) s0
  have r0 : (0 : ℝ) < r := lt_of_lt_of_le a0 a1
  refine ⟨r, h1, by exact_mod_cast r0, ?_, ?_⟩
  · have := pow_le_pow_left₀ a0.le a1 2
    rw [mul_pow, s2] at this
    unfold uro
    rw [← Rat.cast_le (K := ℝ)]
    push_cast
    exact this
  · have := pow_le_pow_left₀ r0.le a2 2
    rw [mul_pow, s2] at this
    unfold uro
    rw [← Rat.cast_le (K := ℝ)]
    push_cast
    exact this

theorem Accurate.trig (hm : Accurate m) {x : B64v} {q : ℚ} (h : HasVal x q) :
    ∃ c d : ℚ, HasVal (m.cos x) c ∧ HasVal (m.sin x) d ∧ |c ^ 2 + d ^ 2 - 1| ≤ 1 / 2 ^ 26 := by
  obtain ⟨c, c1, c2⟩ := hm.cos x q h
  obtain ⟨d, d1, d2⟩ := hm.sin x q h
  refine ⟨c, d, c1, d1, ?_⟩
  have hr : |(c : ℝ) ^ 2 + (d : ℝ) ^ 2 - 1| ≤ 1 / 2 ^ 26 := by
    have e := Real.sin_sq_add_cos_sq (q : ℝ)
    have k1 := Real.abs_cos_le_one (q : ℝ)
    have k2 := Real.abs_sin_le_one (q : ℝ)
    have e2 : (c : ℝ) ^ 2 + (d : ℝ) ^ 2 - 1
        = (c - Real.cos q) * (2 * Real.cos q + (c - Real.cos q))
          + (d - Real.sin q) * (2 * Real.sin q + (d - Real.sin q)) := by
      linear_combination e
    rw [e2]
    have bd : ∀ a b : ℝ, |a| ≤ 1 / 2 ^ 30 → |b| ≤ 1 → |a * (2 * b + a)| ≤ 1 / 2 ^ 30 * 3 := by
      intro a b ha hb
      rw [abs_mul]
      apply mul_le_mul ha _ (abs_nonneg _) (by norm_num)
      rw [abs_le] at *
      constructor <;> linarith
    refine (abs_add_le _ _).trans ?_
    have := bd _ _ c2 k1
    have := bd _ _ d2 k2
    linarith
  rw [← Rat.cast_le (K := ℝ)]
  push_cast
  exact hr

theorem abs_mul_le {a b A B : ℚ} (ha : |a| ≤ A) (hb : |b| ≤ B) : |a * b| ≤ A * B := by
  rw [abs_mul]
  exact mul_le_mul ha hb (abs_nonneg _) ((abs_nonneg _).trans ha)

theorem abs_add_le' {a b A B : ℚ} (ha : |a| ≤ A) (hb : |b| ≤ B) : |a + b| ≤ A + B :=
  (abs_add_le _ _).trans (add_le_add ha hb)

theorem abs_sub_le' {a b A B : ℚ} (ha : |a| ≤ A) (hb : |b| ≤ B) : |a - b| ≤ A + B := by
  rw [sub_eq_add_neg]
  exact abs_add_le' ha (by rwa [abs_neg])

/-- one component of the rotated vector before it is normalised -/
theorem comp_near {s f w axp dc ds : B64v} {p g o a c d : ℚ} (hs : HasVal s p) (hf : HasVal f g)
    (hw : NearTo w o (3 * eps)) (hx : NearTo axp a (6 * eps)) (hc : HasVal dc c) (hd : HasVal ds d)
    (one : B64v) (h1 : HasVal one 1)
    (p1 : |p| ≤ 11 / 10) (g1 : |g| ≤ 11 / 10) (o1 : |o| ≤ 5 / 2) (a1 : |a| ≤ 37 / 10)
    (c1 : |c| ≤ 11 / 10) (d1 : |d| ≤ 11 / 10) :
    NearTo (((s.mul dc).add ((f.mul axp).mul (one.add dc.neg))).add (w.mul ds).neg)
      (p * c + g * a * (1 - c) - o * d) (1 / 2 ^ 28) := by
  have t1 := hs.near.mul hc.near (by linarith) (by linarith) (by norm_num) (by norm_num)
  have t2 := hf.near.mul hx (by linarith) (by linarith) (by norm_num) (by norm_num [eps])
  have t3 := h1.near.sub hc.near (by norm_num) (by linarith) (by norm_num) (by norm_num)
  have b1 := abs_mul_le p1 c1
  have b2 := abs_mul_le g1 a1
  have b3 := abs_sub_le' (a := 1) (A := 1) (by norm_num) c1
  have b4 := abs_mul_le b2 b3
  have b5 := abs_mul_le o1 d1
  have t4 := t2.mul t3 (by linarith) (by linarith) (by norm_num [eps]) (by norm_num [eps])
  have t5 := t1.add t4 (by linarith) (by linarith) (by norm_num [eps]) (by norm_num [eps])
  have t6 := hw.mul hd.near (by linarith) (by linarith) (by norm_num [eps]) (by norm_num)
  have b6 := abs_add_le' b1 b4
  have t7 := t5.sub t6 (by linarith) (by linarith) (by norm_num [eps]) (by norm_num [eps])
  exact t7.mono (by norm_num [eps])

/-- rotating preserves the length, up to the errors in axis, sine and cosine -/
theorem rodrigues_len {p1 p2 p3 g1 g2 g3 c d e : ℚ} (he : 0 ≤ e) (he1 : e ≤ 1 / 100)
    (hp : |p1 ^ 2 + p2 ^ 2 + p3 ^ 2 - 1| ≤ e) (hg : |g1 ^ 2 + g2 ^ 2 + g3 ^ 2 - 1| ≤ e)
    (hc : |c ^ 2 + d ^ 2 - 1| ≤ e) :
    |(p1 * c + g1 * (p1 * g1 + p2 * g2 + p3 * g3) * (1 - c) - (g2 * p3 - g3 * p2) * d) ^ 2
      + (p2 * c + g2 * (p1 * g1 + p2 * g2 + p3 * g3) * (1 - c) - (g3 * p1 - g1 * p3) * d) ^ 2
      + (p3 * c + g3 * (p1 * g1 + p2 * g2 + p3 * g3) * (1 - c) - (g1 * p2 - g2 * p1) * d) ^ 2 - 1|
      ≤ 40 * e := by
  set P := p1 ^ 2 + p2 ^ 2 + p3 ^ 2 with hP
  set G := g1 ^ 2 + g2 ^ 2 + g3 ^ 2 with hG
  set a := p1 * g1 + p2 * g2 + p3 * g3 with ha
  have cs : a ^ 2 ≤ P * G := by
    have : P * G - a ^ 2 = (g2 * p3 - g3 * p2) ^ 2 + (g3 * p1 - g1 * p3) ^ 2 + (g1 * p2 - g2 * p1) ^ 2 := by
      rw [hP, hG, ha]; ring
    nlinarith [sq_nonneg (g2 * p3 - g3 * p2), sq_nonneg (g3 * p1 - g1 * p3), sq_nonneg (g1 * p2 - g2 * p1)]
  have key : (p1 * c + g1 * a * (1 - c) - (g2 * p3 - g3 * p2) * d) ^ 2
      + (p2 * c + g2 * a * (1 - c) - (g3 * p1 - g1 * p3) * d) ^ 2
      + (p3 * c + g3 * a * (1 - c) - (g1 * p2 - g2 * p1) * d) ^ 2 - 1
      = (P - 1) + P * (1 - c ^ 2) * (G - 1) + a ^ 2 * (1 - c) ^ 2 * (G - 1)
        + (P * G - a ^ 2) * (c ^ 2 + d ^ 2 - 1) := by
    rw [hP, hG, ha]; ring
  rw [key]
  have hp' := abs_le.mp hp
  have hg' := abs_le.mp hg
  have hc' := abs_le.mp hc
  clear key
  clear_value P G a
  have PG : P * G ≤ 101 / 100 * (101 / 100) :=
    mul_le_mul (by linarith) (by linarith) (by linarith) (by norm_num)
  have c2 : c ^ 2 ≤ 11 / 10 := by linarith [sq_nonneg d]
  have c0 := sq_nonneg c
  have c1 : |c| ≤ 11 / 10 := abs_le_of_sq_le_sq (by linarith) (by norm_num)
  have a0 := sq_nonneg a
  have k1 : |P| ≤ 11 / 10 := by rw [abs_le]; constructor <;> linarith
  have k2 : |1 - c ^ 2| ≤ 21 / 10 := by rw [abs_le]; constructor <;> linarith
  have k3 : |a ^ 2| ≤ 11 / 10 := by rw [abs_le]; constructor <;> linarith
  have k4 : |(1 - c) ^ 2| ≤ 5 := by
    rw [abs_of_nonneg (sq_nonneg _), sub_sq]
    rw [abs_le] at c1
    linarith
  have k5 : |P * G - a ^ 2| ≤ 11 / 10 := by rw [abs_le]; constructor <;> linarith
  have m1 := abs_mul_le (abs_mul_le k1 k2) hg
  have m2 := abs_mul_le (abs_mul_le k3 k4) hg
  have m3 := abs_mul_le k5 hc
  refine (abs_add_le' (abs_add_le' (abs_add_le' hp m1) m2) m3).trans ?_
  linarith

theorem comp_bound {x y z e : ℚ} (h : |x ^ 2 + y ^ 2 + z ^ 2 - 1| ≤ e) (he : e ≤ 1 / 100) :
    |x| ≤ 11 / 10 ∧ |y| ≤ 11 / 10 ∧ |z| ≤ 11 / 10 := by
  have h := (abs_le.mp h).2
  refine ⟨?_, ?_, ?_⟩ <;> refine abs_le_of_sq_le_sq ?_ (by norm_num) <;>
    nlinarith [sq_nonneg x, sq_nonneg y, sq_nonneg z]

theorem dot_near {s f : V3 (B64 m)} {p1 p2 p3 g1 g2 g3 : ℚ} (hs : Vals s p1 p2 p3) (hf : Vals f g1 g2 g3)
    (bp : |p1| ≤ 11 / 10 ∧ |p2| ≤ 11 / 10 ∧ |p3| ≤ 11 / 10)
    (bg : |g1| ≤ 11 / 10 ∧ |g2| ≤ 11 / 10 ∧ |g3| ≤ 11 / 10) :
    NearTo (0.0 + s.x * f.x + s.y * f.y + s.z * f.z : B64 m) (p1 * g1 + p2 * g2 + p3 * g3) (6 * eps) := by
  have b1 := abs_mul_le bp.1 bg.1
  have b2 := abs_mul_le bp.2.1 bg.2.1
  have b3 := abs_mul_le bp.2.2 bg.2.2
  have t1 := hs.x.near.mul hf.x.near (by linarith) (by linarith) (by norm_num) (by norm_num)
  have t2 := hs.y.near.mul hf.y.near (by linarith) (by linarith) (by norm_num) (by norm_num)
  have t3 := hs.z.near.mul hf.z.near (by linarith) (by linarith) (by norm_num) (by norm_num)
  have u1 := (lit0_val (m := m)).near.add t1 (by norm_num) (by linarith) (by norm_num) (by norm_num [eps])
  have u2 := u1.add t2 (by rw [zero_add]; linarith) (by linarith) (by norm_num [eps]) (by norm_num [eps])
  have b4 := abs_add_le' b1 b2
  have u3 := u2.add t3 (by rw [zero_add]; linarith) (by linarith) (by norm_num [eps]) (by norm_num [eps])
  rw [zero_add] at u3
  exact u3.mono (by norm_num [eps])

theorem cross_near {a b c d : B64v} {p q r s : ℚ} (ha : HasVal a p) (hb : HasVal b q) (hc : HasVal c r)
    (hd : HasVal d s) (h1 : |p| ≤ 11 / 10) (h2 : |q| ≤ 11 / 10) (h3 : |r| ≤ 11 / 10) (h4 : |s| ≤ 11 / 10) :
    NearTo ((a.mul b).add (c.mul d).neg) (p * q - r * s) (3 * eps) ∧ |p * q - r * s| ≤ 5 / 2 := by
  have b1 := abs_mul_le h1 h2
  have b2 := abs_mul_le h3 h4
  have t1 := ha.near.mul hb.near (by linarith) (by linarith) (by norm_num) (by norm_num)
  have t2 := hc.near.mul hd.near (by linarith) (by linarith) (by norm_num) (by norm_num)
  have u := t1.sub t2 (by linarith) (by linarith) (by norm_num [eps]) (by norm_num [eps])
  exact ⟨u.mono (by norm_num [eps]), (abs_sub_le' b1 b2).trans (by norm_num)⟩

theorem shift_sq {x v e : ℚ} (hx : |x| ≤ 2) (he : |v - x| ≤ e) (e1 : e ≤ 1 / 100) :
    |v ^ 2 - x ^ 2| ≤ 5 * e := by
  have e2 : v ^ 2 - x ^ 2 = (v - x) * (2 * x + (v - x)) := by ring
  have e0 : 0 ≤ e := (abs_nonneg _).trans he
  rw [e2, mul_comm 5 e]
  refine abs_mul_le he ?_
  rw [abs_le] at *
  constructor <;> linarith

/-- the normalisation at the beginning and at the end of a rotation -/
theorem Accurate.unit (hm : Accurate m) {v : V3 (B64 m)} {a b c : ℚ} (hv : Vals v a b c)
    (ha : a ^ 2 ≤ 2 ^ 900) (hb : b ^ 2 ≤ 2 ^ 900) (hc : c ^ 2 ≤ 2 ^ 900)
    (hT : 1 / 2 ^ 900 ≤ a ^ 2 + b ^ 2 + c ^ 2) :
    ∃ F, HasVal (FOps.fsqrt (sumSq v) : B64 m) F ∧ F ^ 2 ≤ 4 * (a ^ 2 + b ^ 2 + c ^ 2) ∧
      ∃ p q r, Vals (⟨v.x / FOps.fsqrt (sumSq v), v.y / FOps.fsqrt (sumSq v), v.z / FOps.fsqrt (sumSq v)⟩ : V3 (B64 m)) p q r ∧
        |p ^ 2 + q ^ 2 + r ^ 2 - 1| ≤ 16 * uro := by
  obtain ⟨S, s1, s2⟩ := sumSq_val hv ha hb hc hT
  have hS : 1 / 2 ^ 1022 ≤ S := by
    have h1 := (abs_le.mp s2).1
    have h2 : (1 : ℚ) / 2 ^ 1022 ≤ 1 / 2 * (1 / 2 ^ 900) := by
      rw [div_mul_div_comm, one_mul, ← pow_succ', div_le_div_iff₀ (by positivity) (by positivity), one_mul, one_mul]
      exact pow_le_pow_right₀ (by norm_num) (by norm_num)
    simp only [uro_eq] at h1
    have h3 : (0 : ℚ) < 1 / 2 ^ 900 := by positivity
    clear ha hb hc
    generalize (1 : ℚ) / 2 ^ 1022 = A at *
    generalize (1 : ℚ) / 2 ^ 900 = B at *
    linarith
  obtain ⟨F, f1, f2, f3, f4⟩ := hm.sqrt_sq s1 hS
  refine ⟨F, f1, ?_, normalise_val hv hT s2 f1 f2 f3 f4⟩
  have h1 := (abs_le.mp s2).2
  have h0 : 0 ≤ a ^ 2 + b ^ 2 + c ^ 2 := by positivity
  clear hS hT ha hb hc
  simp only [uro_eq] at *
  linarith

/-- a rotation of a vector of length about one -/
theorem Accurate.rotate (hm : Accurate m) {s : Spin (B64 m)} {f : V3 (B64 m)} {dt : B64 m}
    {p1 p2 p3 a b c τ : ℚ} (hs : Vals s.dir p1 p2 p3) (hf : Vals f a b c) (ht : HasVal dt τ)
    (hp : |p1 ^ 2 + p2 ^ 2 + p3 ^ 2 - 1| ≤ 1 / 2 ^ 20)
    (ha : a ^ 2 ≤ 2 ^ 900) (hb : b ^ 2 ≤ 2 ^ 900) (hc : c ^ 2 ≤ 2 ^ 900)
    (hT : 1 / 2 ^ 900 ≤ a ^ 2 + b ^ 2 + c ^ 2) (hτ : τ ^ 2 ≤ 2 ^ 900) :
    ∃ p q r, Vals (s.rotate f dt).dir p q r ∧ |p ^ 2 + q ^ 2 + r ^ 2 - 1| ≤ 16 * uro := by
  obtain ⟨F, F1, F2, g1, g2, g3, hg, hg2⟩ := hm.unit hf ha hb hc hT
  have hg3 : |g1 ^ 2 + g2 ^ 2 + g3 ^ 2 - 1| ≤ 1 / 2 ^ 20 := hg2.trans (by unfold uro; norm_num)
  have bp := comp_bound hp (by norm_num)
  have bg := comp_bound hg3 (by norm_num)
  -- the angle is finite
  have hFτ : |F * τ| ≤ big := by
    apply abs_le_of_sq_le_sq _ (by unfold big; positivity)
    rw [mul_pow]
    have h1 : F ^ 2 ≤ 12 * 2 ^ 900 := by
      clear hT hτ
      generalize (2 : ℚ) ^ 900 = Q at *
      linarith
    calc F ^ 2 * τ ^ 2 ≤ (12 * 2 ^ 900) * 2 ^ 900 := mul_le_mul h1 hτ (sq_nonneg _) (by positivity)
      _ ≤ 2 ^ 4 * 2 ^ 900 * 2 ^ 900 := by
        have : (0 : ℚ) < 2 ^ 900 := by positivity
        exact mul_le_mul_of_nonneg_right (mul_le_mul_of_nonneg_right (by norm_num) this.le) this.le
      _ = 2 ^ 1804 := by rw [← pow_add, ← pow_add]
      _ ≤ big ^ 2 := by
        unfold big
        rw [← pow_mul]
        exact pow_le_pow_right₀ (by norm_num) (by norm_num)
  obtain ⟨w, w1, _, _⟩ := F1.mul ht hFτ
  obtain ⟨co, si, hco, hsi, hcs⟩ := hm.trig w1
  have hcs' : |co ^ 2 + si ^ 2 + 0 ^ 2 - 1| ≤ 1 / 2 ^ 20 := by
    rw [zero_pow (by norm_num), add_zero]
    exact hcs.trans (by norm_num)
  have bc := comp_bound hcs' (by norm_num)
  have hdot := dot_near hs hg bp bg
  have bdot : |p1 * g1 + p2 * g2 + p3 * g3| ≤ 37 / 10 :=
    (abs_add_le' (abs_add_le' (abs_mul_le bp.1 bg.1) (abs_mul_le bp.2.1 bg.2.1))
      (abs_mul_le bp.2.2 bg.2.2)).trans (by norm_num)
  obtain ⟨x1, x2⟩ := cross_near hg.y hs.z hg.z hs.y bg.2.1 bp.2.2 bg.2.2 bp.2.1
  obtain ⟨y1, y2⟩ := cross_near hg.z hs.x hg.x hs.z bg.2.2 bp.1 bg.1 bp.2.2
  obtain ⟨z1, z2⟩ := cross_near hg.x hs.y hg.y hs.x bg.1 bp.2.1 bg.2.1 bp.1
  obtain ⟨vx, vx1, vx2⟩ := comp_near hs.x hg.x x1 hdot hco hsi _ (lit1_val (m := m)) bp.1 bg.1 x2 bdot bc.1 bc.2.1
  obtain ⟨vy, vy1, vy2⟩ := comp_near hs.y hg.y y1 hdot hco hsi _ (lit1_val (m := m)) bp.2.1 bg.2.1 y2 bdot bc.1 bc.2.1
  obtain ⟨vz, vz1, vz2⟩ := comp_near hs.z hg.z z1 hdot hco hsi _ (lit1_val (m := m)) bp.2.2 bg.2.2 z2 bdot bc.1 bc.2.1
  have hlen := rodrigues_len (e := 1 / 2 ^ 20) (by norm_num) (by norm_num) hp hg3 (hcs.trans (by norm_num))
  have hl2 := comp_bound hlen (by norm_num)
  have sx := abs_le.mp (shift_sq (hl2.1.trans (by norm_num)) vx2 (by norm_num))
  have sy := abs_le.mp (shift_sq (hl2.2.1.trans (by norm_num)) vy2 (by norm_num))
  have sz := abs_le.mp (shift_sq (hl2.2.2.trans (by norm_num)) vz2 (by norm_num))
  have hlen' := abs_le.mp hlen
  have lo : 1 / 2 ≤ vx ^ 2 + vy ^ 2 + vz ^ 2 := by linarith
  have hi : vx ^ 2 + vy ^ 2 + vz ^ 2 ≤ 2 := by linarith
  have B2 : (2 : ℚ) ≤ 2 ^ 900 := by
    calc (2 : ℚ) = 2 ^ 1 := by norm_num
      _ ≤ _ := pow_le_pow_right₀ (by norm_num) (by norm_num)
  have B3 : (1 : ℚ) / 2 ^ 900 ≤ 1 / 2 := by
    apply one_div_le_one_div_of_le (by norm_num) B2
  have qx := sq_nonneg vx
  have qy := sq_nonneg vy
  have qz := sq_nonneg vz
  obtain ⟨_, _, _, p, q, r, h1, h2⟩ := hm.unit (v := ⟨_, _, _⟩) ⟨vx1, vy1, vz1⟩
    (le_trans (by linarith only [hi, qx, qy, qz]) B2) (le_trans (by linarith only [hi, qx, qy, qz]) B2)
    (le_trans (by linarith only [hi, qx, qy, qz]) B2) (B3.trans lo)
  exact ⟨p, q, r, h1, h2⟩

end Verif
