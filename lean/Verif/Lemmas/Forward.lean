/-
Forward errors in binary64: how far the computed operations, and the computed rotation of a spin, are from the
exact ones.
-/
import Verif.Lemmas.RotateB64
import Verif.Lemmas.Motion
import Mathlib.Analysis.SpecialFunctions.Trigonometric.Bounds

namespace Verif

/-- A mathematics library of accuracy `ε`: the square root is rounded correctly, sine and cosine of finite numbers
have an absolute error of at most `ε`. -/
structure AccurateTo (ε : ℝ) (m : Libm) : Prop where
  sqrt : ∀ x q, HasVal x q → 1 / 2 ^ 1022 ≤ q →
    ∃ r : ℚ, HasVal (m.sqrt x) r ∧ |(r : ℝ) - Real.sqrt q| ≤ 1 / 2 ^ 53 * Real.sqrt q
  cos : ∀ x q, HasVal x q → ∃ r : ℚ, HasVal (m.cos x) r ∧ |(r : ℝ) - Real.cos q| ≤ ε
  sin : ∀ x q, HasVal x q → ∃ r : ℚ, HasVal (m.sin x) r ∧ |(r : ℝ) - Real.sin q| ≤ ε

/-- the range of accuracies considered: no better than the arithmetic -/
structure Tol (ε : ℝ) : Prop where
  lo : 1 / 2 ^ 52 ≤ ε
  hi : ε ≤ 1 / 2 ^ 30

namespace Forward

open Spec

theorem Tol.pos {ε : ℝ} (h : Tol ε) : 0 < ε := lt_of_lt_of_le (by positivity) h.lo

theorem accurate {ε : ℝ} {m : Libm} (he : Tol ε) (h : AccurateTo ε m) : Accurate m :=
  ⟨h.sqrt, fun x q hx => (h.cos x q hx).imp fun _ a => ⟨a.1, a.2.trans he.hi⟩,
    fun x q hx => (h.sin x q hx).imp fun _ a => ⟨a.1, a.2.trans he.hi⟩⟩

/-- unit of rounding and of underflow, as real numbers -/
theorem eta_real : (eta : ℝ) ≤ 1 / 2 ^ 200 := by
  have h : eta ≤ 1 / 2 ^ 200 := by
    unfold eta
    exact one_div_le_one_div_of_le (by positivity) (pow_le_pow_right₀ (by norm_num) (by norm_num))
  have := (Rat.cast_le (K := ℝ)).2 h
  push_cast at this
  exact this

theorem eta_pos' : (0 : ℝ) < eta := by exact_mod_cast eta_pos

theorem uro_real : (uro : ℝ) = 1 / 2 ^ 53 := by
  unfold uro
  push_cast
  rfl

theorem big_real : (2 : ℝ) ^ 900 ≤ big := by
  unfold big
  push_cast
  exact pow_le_pow_right₀ (by norm_num) (by norm_num)

/-- `x` is a finite number within `e` of the real number `a` -/
def NearR (x : B64v) (a e : ℝ) : Prop := ∃ q : ℚ, HasVal x q ∧ |(q : ℝ) - a| ≤ e

theorem HasVal.nearR {x : B64v} {q : ℚ} (h : HasVal x q) : NearR x q 0 := ⟨q, h, by simp⟩

theorem NearR.mono {x : B64v} {a e e' : ℝ} (h : NearR x a e) (he : e ≤ e') : NearR x a e' :=
  h.imp fun _ p => ⟨p.1, p.2.trans he⟩

theorem NearR.neg {x : B64v} {a e : ℝ} (h : NearR x a e) : NearR x.neg (-a) e := by
  obtain ⟨q, h1, h2⟩ := h
  refine ⟨-q, h1.neg, ?_⟩
  rw [show ((-q : ℚ) : ℝ) - -a = -((q : ℝ) - a) by push_cast; ring, abs_neg]
  exact h2

theorem NearR.shift {x : B64v} {a b e f : ℝ} (h : NearR x a e) (hab : |a - b| ≤ f) : NearR x b (e + f) := by
  obtain ⟨q, h1, h2⟩ := h
  exact ⟨q, h1, (abs_sub_le _ a _).trans (add_le_add h2 hab)⟩

theorem le_big_real {q : ℚ} (h : |(q : ℝ)| ≤ 2 ^ 900) : |q| ≤ big := by
  have := h.trans big_real
  exact_mod_cast this

/-- one rounding -/
theorem round_le {ε C q : ℝ} (he : Tol ε) (hC : 1 ≤ C) (h : |q| ≤ 3 / 2 * C) :
    uro * |q| + eta ≤ C * ε := by
  have h1 := he.lo
  have h2 := eta_real
  have e0 := Tol.pos he
  rw [uro_real]
  have h3 : (1 : ℝ) / 2 ^ 53 * |q| ≤ ε / 2 * (3 / 2 * C) := by
    apply mul_le_mul _ h (abs_nonneg _) (by positivity)
    norm_num at *
    linarith
  have h4 : (1 : ℝ) / 2 ^ 200 ≤ ε / 4 := by norm_num at *; linarith
  nlinarith

section
variable {x y : B64v} {a b k l ε : ℝ}

theorem NearR.add (he : Tol ε) (hx : NearR x a (k * ε)) (hy : NearR y b (l * ε)) {C : ℝ} (hab : |a + b| ≤ C)
    (hC : 1 ≤ C) (hC' : C ≤ 2 ^ 200) (hk : k * ε ≤ 1 / 4) (hl : l * ε ≤ 1 / 4) :
    NearR (x.add y) (a + b) ((k + l + C) * ε) := by
  obtain ⟨p, p1, p2⟩ := hx
  obtain ⟨q, q1, q2⟩ := hy
  have hs : |(p : ℝ) + q| ≤ 3 / 2 * C := by
    rw [abs_le] at *
    constructor <;> linarith
  have hb : |p + q| ≤ big := le_big_real (by
    push_cast
    refine hs.trans ?_
    calc 3 / 2 * C ≤ 3 / 2 * 2 ^ 200 := by linarith
      _ ≤ 2 * 2 ^ 200 := by linarith [show (0 : ℝ) < 2 ^ 200 by positivity]
      _ = 2 ^ 201 := by rw [← pow_succ']
      _ ≤ 2 ^ 900 := pow_le_pow_right₀ (by norm_num) (by norm_num))
  obtain ⟨r, r1, r2, _⟩ := p1.add q1 hb
  refine ⟨r, r1, ?_⟩
  have r3 : |(r : ℝ) - (p + q)| ≤ uro * |(p : ℝ) + q| + eta := by exact_mod_cast r2
  have r4 := abs_le.1 (r3.trans (round_le he hC hs))
  rw [abs_le] at *
  constructor <;> linarith

theorem NearR.sub (he : Tol ε) (hx : NearR x a (k * ε)) (hy : NearR y b (l * ε)) {C : ℝ} (hab : |a - b| ≤ C)
    (hC : 1 ≤ C) (hC' : C ≤ 2 ^ 200) (hk : k * ε ≤ 1 / 4) (hl : l * ε ≤ 1 / 4) :
    NearR (x.add y.neg) (a - b) ((k + l + C) * ε) := by
  rw [sub_eq_add_neg] at *
  exact hx.add he hy.neg hab hC hC' hk hl

theorem NearR.mul (he : Tol ε) (hx : NearR x a (k * ε)) (hy : NearR y b (l * ε)) {A B : ℝ} (ha : |a| ≤ A)
    (hb : |b| ≤ B) (hC : 1 ≤ A * B) (hC' : A * B ≤ 2 ^ 200) (hk0 : 0 ≤ k) (hk : k * ε ≤ A / 8) (hl : l * ε ≤ B / 8) :
    NearR (x.mul y) (a * b) ((2 * k * B + l * A + A * B) * ε) := by
  obtain ⟨p, p1, p2⟩ := hx
  obtain ⟨q, q1, q2⟩ := hy
  have e0 := Tol.pos he
  have A0 : 0 ≤ A := (abs_nonneg a).trans ha
  have B0 : 0 ≤ B := (abs_nonneg b).trans hb
  have hp : |(p : ℝ)| ≤ 9 / 8 * A := by rw [abs_le] at *; constructor <;> linarith
  have hq : |(q : ℝ)| ≤ 9 / 8 * B := by rw [abs_le] at *; constructor <;> linarith
  have hs : |(p : ℝ) * q| ≤ 3 / 2 * (A * B) := by
    rw [abs_mul]
    refine (mul_le_mul hp hq (abs_nonneg _) (by positivity)).trans ?_
    nlinarith
  have hbig : |p * q| ≤ big := le_big_real (by
    push_cast
    refine hs.trans ?_
    calc 3 / 2 * (A * B) ≤ 3 / 2 * 2 ^ 200 := by linarith
      _ ≤ 2 * 2 ^ 200 := by linarith [show (0 : ℝ) < 2 ^ 200 by positivity]
      _ = 2 ^ 201 := by rw [← pow_succ']
      _ ≤ 2 ^ 900 := pow_le_pow_right₀ (by norm_num) (by norm_num))
  obtain ⟨r, r1, r2, _⟩ := p1.mul q1 hbig
  refine ⟨r, r1, ?_⟩
  have r3 : |(r : ℝ) - p * q| ≤ uro * |(p : ℝ) * q| + eta := by exact_mod_cast r2
  have r4 := r3.trans (round_le he hC hs)
  have e1 : (r : ℝ) - a * b = (r - p * q) + (p - a) * q + a * (q - b) := by ring
  rw [e1]
  refine (abs_add_le _ _).trans ?_
  have t1 := abs_add_le ((r : ℝ) - p * q) ((p - a) * q)
  rw [abs_mul ((p : ℝ) - a)] at t1
  rw [abs_mul a]
  have t2 : |(p : ℝ) - a| * |(q : ℝ)| ≤ k * ε * (9 / 8 * B) := mul_le_mul p2 hq (abs_nonneg _) (by positivity)
  have t3 : |a| * |(q : ℝ) - b| ≤ A * (l * ε) := mul_le_mul ha q2 (abs_nonneg _) A0
  have t4 : 0 ≤ k * ε * B := by positivity
  linarith

end

/-! ### Normalising -/

variable {m : Libm}

/-- The length is computed up to five roundings, the direction up to eight. -/
theorem unit_near (hm : Accurate m) {v : V3 (B64 m)} {a b c : ℚ} (hv : Vals v a b c)
    (ha : a ^ 2 ≤ 2 ^ 900) (hb : b ^ 2 ≤ 2 ^ 900) (hc : c ^ 2 ≤ 2 ^ 900)
    (hT : 1 / 2 ^ 900 ≤ a ^ 2 + b ^ 2 + c ^ 2) :
    ∃ F : ℚ, HasVal (FOps.fsqrt (sumSq v) : B64 m) F ∧
      |(F : ℝ) - len ⟨a, b, c⟩| ≤ 5 * uro * len ⟨a, b, c⟩ ∧
      NearR (v.x / FOps.fsqrt (sumSq v) : B64 m) (a / len ⟨a, b, c⟩) (8 * uro) ∧
      NearR (v.y / FOps.fsqrt (sumSq v) : B64 m) (b / len ⟨a, b, c⟩) (8 * uro) ∧
      NearR (v.z / FOps.fsqrt (sumSq v) : B64 m) (c / len ⟨a, b, c⟩) (8 * uro) := by
  obtain ⟨S, s1, s2⟩ := sumSq_val hv ha hb hc hT
  have hT0 : 0 < a ^ 2 + b ^ 2 + c ^ 2 := lt_of_lt_of_le (by positivity) hT
  have hS : 1 / 2 ^ 1022 ≤ S := by
    have h1 := (abs_le.mp s2).1
    have h2 : (1 : ℚ) / 2 ^ 1022 ≤ 1 / 2 * (1 / 2 ^ 900) := by
      rw [div_mul_div_comm, one_mul, ← pow_succ', div_le_div_iff₀ (by positivity) (by positivity), one_mul, one_mul]
      exact pow_le_pow_right₀ (by norm_num) (by norm_num)
    simp only [uro_eq] at h1
    have h3 : (0 : ℚ) < 1 / 2 ^ 900 := by positivity
    clear ha hb hc
    generalize (1 : ℚ) / 2 ^ 1022 = A at *
    generalize (1 : ℚ) / 2 ^ 900 = B at *
    linarith
  obtain ⟨F, f1, f2, f3, f4⟩ := hm.sqrt_sq s1 hS
  clear hS hT ha hb hc
  set l := len (⟨a, b, c⟩ : V3 ℝ) with hl
  have hl2 : l ^ 2 = ((a ^ 2 + b ^ 2 + c ^ 2 : ℚ) : ℝ) := by
    rw [hl, sq, len_sq]
    simp only [dot]
    push_cast
    ring
  have hT1 : (0 : ℝ) < l ^ 2 := by rw [hl2]; exact_mod_cast hT0
  have l0 : 0 < l := lt_of_le_of_ne (len_nonneg _) (fun h => by rw [← h] at hT1; norm_num at hT1)
  have F0 : (0 : ℝ) < F := by exact_mod_cast f2
  have s3 : |(S : ℝ) - l ^ 2| ≤ 5 * uro * l ^ 2 := by rw [hl2]; exact_mod_cast s2
  have f3' : (1 - (uro : ℝ)) ^ 2 * S ≤ (F : ℝ) ^ 2 := by exact_mod_cast f3
  have f4' : (F : ℝ) ^ 2 ≤ (1 + (uro : ℝ)) ^ 2 * S := by exact_mod_cast f4
  rw [uro_real] at *
  rw [abs_le] at s3
  have lo : (1 - 5 * (1 / 2 ^ 53)) * l ≤ F := by
    refine le_of_sq_le_sq ?_ F0.le
    rw [mul_pow]
    nlinarith
  have hi : (F : ℝ) ≤ (1 + 5 * (1 / 2 ^ 53)) * l := by
    refine le_of_sq_le_sq ?_ (by positivity)
    rw [mul_pow]
    nlinarith
  refine ⟨F, f1, by rw [abs_le]; constructor <;> linarith, ?_⟩
  have comp : ∀ {x : B64 m} {q : ℚ}, HasVal x q → |(q : ℝ)| ≤ l →
      NearR (x / FOps.fsqrt (sumSq v) : B64 m) (q / l) (8 * (1 / 2 ^ 53)) := by
    intro x q hx hq
    have q1 : |(q : ℝ) / l| ≤ 1 := by rw [abs_div, abs_of_pos l0, div_le_one l0]; exact hq
    have q2 : |(q : ℝ) / F - q / l| ≤ 6 * (1 / 2 ^ 53) := by
      have e : (q : ℝ) / F - q / l = q / l * ((l - F) / F) := by field_simp
      rw [e, abs_mul]
      have : |(l - F) / F| ≤ 6 * (1 / 2 ^ 53) := by
        rw [abs_div, abs_of_pos F0, div_le_iff₀ F0, abs_le]
        constructor <;> linarith
      calc _ ≤ 1 * (6 * (1 / 2 ^ 53) : ℝ) := mul_le_mul q1 this (abs_nonneg _) zero_le_one
        _ = _ := one_mul _
    have q3 : |(q : ℝ) / F| ≤ 2 := by
      have := abs_le.1 q1
      have := abs_le.1 q2
      rw [abs_le]
      constructor <;> norm_num at * <;> linarith
    obtain ⟨p, p1, p2, -⟩ := HasVal.div hx f1 f2.ne' (le_big_real (by
      push_cast
      refine q3.trans ?_
      calc (2 : ℝ) = 2 ^ 1 := by norm_num
        _ ≤ _ := pow_le_pow_right₀ (by norm_num) (by norm_num)))
    refine ⟨p, p1, ?_⟩
    have p3 : |(p : ℝ) - q / F| ≤ uro * |(q : ℝ) / F| + eta := by exact_mod_cast p2
    have := eta_real
    rw [uro_real] at p3
    have h1 := abs_le.1 q1
    have h2 := abs_le.1 q2
    have h3 : |(q : ℝ) / F| ≤ 5 / 4 := by
      rw [abs_le]
      constructor <;> norm_num at * <;> linarith
    have h4 := abs_le.1 p3
    rw [abs_le]
    constructor <;> norm_num at * <;> linarith
  have bd := abs_le_len (⟨a, b, c⟩ : V3 ℝ)
  exact ⟨comp hv.x bd.1, comp hv.y bd.2.1, comp hv.z bd.2.2⟩

/-! ### Rotating -/

theorem near0 {x : B64v} {q : ℚ} (h : HasVal x q) (ε : ℝ) : NearR x q (0 * ε) := by
  rw [zero_mul]
  exact HasVal.nearR h

theorem near_lit0 (ε : ℝ) : NearR (0.0 : B64 m) 0 (0 * ε) := by
  simpa using near0 (lit0_val (m := m)) ε

theorem near_lit1 (ε : ℝ) : NearR (1.0 : B64 m) 1 (0 * ε) := by
  simpa using near0 (lit1_val (m := m)) ε

theorem near_lit2 (ε : ℝ) : NearR (2.0 : B64 m) 2 (0 * ε) := by
  simpa using near0 (lit2_val (m := m)) ε

/-- one component of the rotated vector before it is normalised -/
theorem comp_nearR {ε : ℝ} (he : Tol ε) {s f w axp dc ds one : B64v} {p g o a c d : ℝ} (hs : NearR s p (0 * ε))
    (hf : NearR f g (4 * ε)) (hw : NearR w o (22 * ε)) (hx : NearR axp a (24 * ε)) (hc : NearR dc c (6 * ε))
    (hd : NearR ds d (6 * ε)) (h1 : NearR one 1 (0 * ε))
    (p1 : |p| ≤ 11 / 10) (g1 : |g| ≤ 1) (o1 : |o| ≤ 11 / 10) (a1 : |a| ≤ 11 / 10) (c1 : |c| ≤ 1) (d1 : |d| ≤ 1) :
    NearR (((s.mul dc).add ((f.mul axp).mul (one.add dc.neg))).add (w.mul ds).neg)
      (p * c + g * a * (1 - c) - o * d) (215 * ε) := by
  have e1 := he.hi
  have e0 := Tol.pos he
  have hm : ∀ {x y A B : ℝ}, |x| ≤ A → |y| ≤ B → |x * y| ≤ A * B := by
    intro x y A B hx hy
    rw [abs_mul]
    exact mul_le_mul hx hy (abs_nonneg _) ((abs_nonneg _).trans hx)
  have t1 := hs.mul he hc p1 c1 (by norm_num) (by norm_num) (by norm_num) (by norm_num) (by norm_num at *; linarith)
  have t2 := hf.mul he hx g1 a1 (by norm_num) (by norm_num) (by norm_num) (by norm_num at *; linarith)
    (by norm_num at *; linarith)
  have b3 : |1 - c| ≤ 2 := by rw [abs_le] at *; constructor <;> linarith
  have t3 := h1.sub he hc b3 (by norm_num) (by norm_num) (by norm_num) (by norm_num at *; linarith)
  have b2 := hm g1 a1
  have t4 := t2.mul he t3 b2 b3 (by norm_num) (by norm_num) (by norm_num) (by norm_num at *; linarith)
    (by norm_num at *; linarith)
  have b1 := hm p1 c1
  have b4 := hm b2 b3
  have b5 : |p * c + g * a * (1 - c)| ≤ 33 / 10 := (abs_add_le _ _).trans (by norm_num at *; linarith)
  have t5 := t1.add he t4 b5 (by norm_num) (by norm_num) (by norm_num at *; linarith) (by norm_num at *; linarith)
  have t6 := hw.mul he hd o1 d1 (by norm_num) (by norm_num) (by norm_num) (by norm_num at *; linarith)
    (by norm_num at *; linarith)
  have b6 := hm o1 d1
  have b7 : |p * c + g * a * (1 - c) - o * d| ≤ 44 / 10 := by
    rw [abs_le] at *
    constructor <;> linarith
  have t7 := t5.sub he t6 b7 (by norm_num) (by norm_num) (by norm_num at *; linarith) (by norm_num at *; linarith)
  exact t7.mono (mul_le_mul_of_nonneg_right (by norm_num) e0.le)

theorem dot_nearR {ε : ℝ} (he : Tol ε) {x1 x2 x3 y1 y2 y3 : B64 m} {p1 p2 p3 g1 g2 g3 : ℝ}
    (h1 : NearR x1 p1 (0 * ε)) (h2 : NearR x2 p2 (0 * ε)) (h3 : NearR x3 p3 (0 * ε))
    (k1 : NearR y1 g1 (4 * ε)) (k2 : NearR y2 g2 (4 * ε)) (k3 : NearR y3 g3 (4 * ε))
    (bp : |p1| ≤ 11 / 10 ∧ |p2| ≤ 11 / 10 ∧ |p3| ≤ 11 / 10) (bg : |g1| ≤ 1 ∧ |g2| ≤ 1 ∧ |g3| ≤ 1) :
    NearR (0.0 + x1 * y1 + x2 * y2 + x3 * y3 : B64 m) (p1 * g1 + p2 * g2 + p3 * g3) (24 * ε) := by
  have e1 := he.hi
  have e0 := Tol.pos he
  have hm : ∀ {x y A B : ℝ}, |x| ≤ A → |y| ≤ B → |x * y| ≤ A * B := by
    intro x y A B hx hy
    rw [abs_mul]
    exact mul_le_mul hx hy (abs_nonneg _) ((abs_nonneg _).trans hx)
  have b1 := hm bp.1 bg.1
  have b2 := hm bp.2.1 bg.2.1
  have b3 := hm bp.2.2 bg.2.2
  have t1 := h1.mul he k1 bp.1 bg.1 (by norm_num) (by norm_num) (by norm_num) (by norm_num)
    (by norm_num at *; linarith)
  have t2 := h2.mul he k2 bp.2.1 bg.2.1 (by norm_num) (by norm_num) (by norm_num) (by norm_num)
    (by norm_num at *; linarith)
  have t3 := h3.mul he k3 bp.2.2 bg.2.2 (by norm_num) (by norm_num) (by norm_num) (by norm_num)
    (by norm_num at *; linarith)
  have u1 := (near_lit0 (m := m) ε).add he t1 (C := 11 / 10) (by rw [zero_add]; linarith) (by norm_num) (by norm_num)
    (by norm_num) (by norm_num at *; linarith)
  rw [zero_add] at u1
  have c2 : |p1 * g1 + p2 * g2| ≤ 22 / 10 := (abs_add_le _ _).trans (by linarith)
  have u2 := u1.add he t2 c2 (by norm_num) (by norm_num) (by norm_num at *; linarith) (by norm_num at *; linarith)
  have c3 : |p1 * g1 + p2 * g2 + p3 * g3| ≤ 33 / 10 := (abs_add_le _ _).trans (by linarith)
  have u3 := u2.add he t3 c3 (by norm_num) (by norm_num) (by norm_num at *; linarith) (by norm_num at *; linarith)
  exact u3.mono (mul_le_mul_of_nonneg_right (by norm_num) e0.le)

theorem cross_nearR {ε : ℝ} (he : Tol ε) {a b c d : B64v} {p q r s : ℝ} (ha : NearR a p (4 * ε))
    (hb : NearR b q (0 * ε)) (hc : NearR c r (4 * ε)) (hd : NearR d s (0 * ε)) (h1 : |p| ≤ 1) (h2 : |q| ≤ 11 / 10)
    (h3 : |r| ≤ 1) (h4 : |s| ≤ 11 / 10) : NearR ((a.mul b).add (c.mul d).neg) (p * q - r * s) (22 * ε) := by
  have e1 := he.hi
  have e0 := Tol.pos he
  have hm : ∀ {x y A B : ℝ}, |x| ≤ A → |y| ≤ B → |x * y| ≤ A * B := by
    intro x y A B hx hy
    rw [abs_mul]
    exact mul_le_mul hx hy (abs_nonneg _) ((abs_nonneg _).trans hx)
  have b1 := hm h1 h2
  have b2 := hm h3 h4
  have t1 := ha.mul he hb h1 h2 (by norm_num) (by norm_num) (by norm_num) (by norm_num at *; linarith) (by norm_num)
  have t2 := hc.mul he hd h3 h4 (by norm_num) (by norm_num) (by norm_num) (by norm_num at *; linarith) (by norm_num)
  have c1 : |p * q - r * s| ≤ 22 / 10 := by
    rw [abs_le] at *
    constructor <;> linarith
  have u := t1.sub he t2 c1 (by norm_num) (by norm_num) (by norm_num at *; linarith) (by norm_num at *; linarith)
  exact u.mono (mul_le_mul_of_nonneg_right (by norm_num) e0.le)

theorem len_of_comp {v : V3 ℝ} {e : ℝ} (h1 : |v.x| ≤ e) (h2 : |v.y| ≤ e) (h3 : |v.z| ≤ e) : len v ≤ 7 / 4 * e := by
  have e0 : 0 ≤ e := (abs_nonneg _).trans h1
  apply le_len_of_dot (by positivity)
  have a1 := sq_le_sq' (abs_le.1 h1).1 (abs_le.1 h1).2
  have a2 := sq_le_sq' (abs_le.1 h2).1 (abs_le.1 h2).2
  have a3 := sq_le_sq' (abs_le.1 h3).1 (abs_le.1 h3).2
  simp only [dot]
  nlinarith

theorem abs_len_sub (v w : V3 ℝ) : |len v - len w| ≤ len (Spec.sub v w) := by
  have h1 := len_add_le (Spec.sub v w) w
  have h2 := len_add_le (Spec.sub w v) v
  rw [show Spec.add (Spec.sub v w) w = v by ext <;> simp [Spec.add, Spec.sub]] at h1
  rw [show Spec.add (Spec.sub w v) v = w by ext <;> simp [Spec.add, Spec.sub], len_sub_comm] at h2
  rw [abs_le]
  constructor <;> linarith

/-- the normalisation at the end -/
theorem finish {ε : ℝ} (he : Tol ε) (hm : Accurate m) {v : V3 (B64 m)} {vx vy vz : ℚ} (hv : Vals v vx vy vz) {w : V3 ℝ}
    (d1 : len (Spec.sub ⟨vx, vy, vz⟩ w) ≤ 7 / 4 * (215 * ε)) (hw : |len w - 1| ≤ 8 * ε) :
    ∃ q1 q2 q3 : ℚ, Vals (⟨v.x / FOps.fsqrt (sumSq v), v.y / FOps.fsqrt (sumSq v), v.z / FOps.fsqrt (sumSq v)⟩ : V3 (B64 m))
      q1 q2 q3 ∧ |len ⟨q1, q2, q3⟩ - 1| ≤ 8 * ε ∧ len (Spec.sub ⟨q1, q2, q3⟩ w) ≤ 1000 * ε := by
  have hi := he.hi
  have lo := he.lo
  have e0 := Tol.pos he
  have hu : 8 * (uro : ℝ) ≤ 4 * ε := by rw [uro_real]; norm_num at *; linarith
  set W : V3 ℝ := ⟨vx, vy, vz⟩ with hW
  have d2 : |len W - 1| ≤ 7 / 4 * (215 * ε) + 8 * ε :=
    (abs_sub_le _ (len w) _).trans (add_le_add ((abs_len_sub W w).trans d1) hw)
  have d3 : 1 / 2 ≤ len W ∧ len W ≤ 11 / 10 := by
    have := abs_le.1 d2
    constructor <;> norm_num at * <;> linarith
  have hWW : len W * len W = ((vx ^ 2 + vy ^ 2 + vz ^ 2 : ℚ) : ℝ) := by
    rw [len_sq, hW]; simp only [dot]; push_cast; ring
  have hi2 : vx ^ 2 + vy ^ 2 + vz ^ 2 ≤ 2 := by
    rw [← Rat.cast_le (K := ℝ), ← hWW]; push_cast; nlinarith only [d3.1, d3.2]
  have lo2 : 1 / 8 ≤ vx ^ 2 + vy ^ 2 + vz ^ 2 := by
    rw [← Rat.cast_le (K := ℝ), ← hWW]; push_cast; nlinarith only [d3.1, d3.2]
  have qx := sq_nonneg vx
  have qy := sq_nonneg vy
  have qz := sq_nonneg vz
  have B2 : (2 : ℚ) ≤ 2 ^ 900 := by
    calc (2 : ℚ) = 2 ^ 1 := by norm_num
      _ ≤ _ := pow_le_pow_right₀ (by norm_num) (by norm_num)
  have B3 : (1 : ℚ) / 2 ^ 900 ≤ 1 / 8 := by
    refine one_div_le_one_div_of_le (by norm_num) ?_
    calc (8 : ℚ) = 2 ^ 3 := by norm_num
      _ ≤ _ := pow_le_pow_right₀ (by norm_num) (by norm_num)
  obtain ⟨_, -, -, ⟨q1, x1, x2⟩, ⟨q2, y1, y2⟩, ⟨q3, z1, z2⟩⟩ := unit_near hm hv
    (le_trans (by linarith only [hi2, qx, qy, qz]) B2) (le_trans (by linarith only [hi2, qx, qy, qz]) B2)
    (le_trans (by linarith only [hi2, qx, qy, qz]) B2) (B3.trans lo2)
  clear B2 B3
  rw [← hW] at x2 y2 z2
  have lW : 0 < len W := by linarith [d3.1]
  have d4 : len (Spec.sub ⟨q1, q2, q3⟩ (smul (1 / len W) W)) ≤ 7 / 4 * (8 * uro) := by
    apply len_of_comp
    · show |(q1 : ℝ) - 1 / len W * vx| ≤ _
      rwa [one_div_mul_eq_div]
    · show |(q2 : ℝ) - 1 / len W * vy| ≤ _
      rwa [one_div_mul_eq_div]
    · show |(q3 : ℝ) - 1 / len W * vz| ≤ _
      rwa [one_div_mul_eq_div]
  have d5 : len (Spec.sub (smul (1 / len W) W) W) = |len W - 1| := by
    rw [show Spec.sub (smul (1 / len W) W) W = smul (1 / len W - 1) W by
      ext <;> simp only [Spec.sub, smul] <;> ring, len_smul]
    rw [show |1 / len W - 1| * len W = |(1 / len W - 1) * len W| by rw [abs_mul, abs_of_pos lW],
      show (1 / len W - 1) * len W = -(len W - 1) by field_simp; ring, abs_neg]
  refine ⟨q1, q2, q3, ⟨x1, y1, z1⟩, ?_, ?_⟩
  · have h1 := abs_len_sub ⟨q1, q2, q3⟩ (smul (1 / len W) W)
    rw [show len (smul (1 / len W) W) = 1 by
      rw [len_smul, abs_of_pos (by positivity)]; field_simp] at h1
    linarith
  · have h1 := len_sub_tri ⟨q1, q2, q3⟩ (smul (1 / len W) W) w
    have h2 := len_sub_tri (smul (1 / len W) W) W w
    linarith

/-- One computed rotation ends within `1000 ε` of the exact one, and has unit length up to `8 ε`. -/
theorem rotate_near {ε : ℝ} (he : Tol ε) (hm : AccurateTo ε m) {s : Spin (B64 m)} {f : V3 (B64 m)} {dt : B64 m}
    {p1 p2 p3 a b c τ : ℚ} {h : ℝ} (hs : Vals s.dir p1 p2 p3) (hf : Vals f a b c) (ht : HasVal dt τ)
    (hp : |len ⟨p1, p2, p3⟩ - 1| ≤ 8 * ε)
    (ha : a ^ 2 ≤ 2 ^ 900) (hb : b ^ 2 ≤ 2 ^ 900) (hc : c ^ 2 ≤ 2 ^ 900) (hT : 1 / 2 ^ 900 ≤ a ^ 2 + b ^ 2 + c ^ 2)
    (hθ : len ⟨a, b, c⟩ * |h| ≤ 1) (hτ : len ⟨a, b, c⟩ * |τ - h| ≤ ε) :
    ∃ q1 q2 q3 : ℚ, Vals (s.rotate f dt).dir q1 q2 q3 ∧ |len ⟨q1, q2, q3⟩ - 1| ≤ 8 * ε ∧
      len (Spec.sub ⟨q1, q2, q3⟩ (precess ⟨p1, p2, p3⟩ ⟨a, b, c⟩ h)) ≤ 1000 * ε := by
  have hi := he.hi
  have lo := he.lo
  have e0 := Tol.pos he
  have hu : 8 * (uro : ℝ) ≤ 4 * ε := by rw [uro_real]; norm_num at *; linarith
  have hacc := accurate he hm
  obtain ⟨F, F1, F2, gx, gy, gz⟩ := unit_near hacc hf ha hb hc hT
  set l := len (⟨a, b, c⟩ : V3 ℝ) with hl
  have l0 : 0 < l := by
    have h1 : (0 : ℚ) < a ^ 2 + b ^ 2 + c ^ 2 := lt_of_lt_of_le (by positivity) hT
    have h2 : l * l = ((a ^ 2 + b ^ 2 + c ^ 2 : ℚ) : ℝ) := by
      rw [hl, len_sq]; simp only [dot]; push_cast; ring
    have h3 : (0 : ℝ) < l * l := by rw [h2]; exact_mod_cast h1
    exact lt_of_le_of_ne (len_nonneg _) (fun h => by rw [← h] at h3; norm_num at h3)
  clear ha hb hc hT
  -- the angle
  have hFτ : |(F : ℝ) * τ - l * h| ≤ 5 * uro * (11 / 10) + ε := by
    have e : (F : ℝ) * τ - l * h = (F - l) * τ + l * (τ - h) := by ring
    rw [e]
    refine (abs_add_le _ _).trans (add_le_add ?_ (by rw [abs_mul, abs_of_pos l0]; exact hτ))
    rw [abs_mul]
    have h1 : l * |(τ : ℝ)| ≤ 11 / 10 := by
      have := abs_add_le ((τ : ℝ) - h) h
      rw [sub_add_cancel] at this
      have := mul_le_mul_of_nonneg_left this l0.le
      norm_num at *
      linarith
    calc _ ≤ 5 * uro * l * |(τ : ℝ)| := mul_le_mul_of_nonneg_right F2 (abs_nonneg _)
      _ = 5 * uro * (l * |(τ : ℝ)|) := by ring
      _ ≤ _ := mul_le_mul_of_nonneg_left h1 (by rw [uro_real]; positivity)
  have hlh : |l * h| ≤ 1 := by rw [abs_mul, abs_of_pos l0]; exact hθ
  have hFτ1 : |(F : ℝ) * τ| ≤ 3 / 2 := by
    rw [uro_real] at hFτ
    rw [abs_le] at *
    constructor <;> norm_num at * <;> linarith
  obtain ⟨w, w1, w2, -⟩ := F1.mul ht (le_big_real (by
    push_cast
    refine hFτ1.trans ?_
    calc (3 / 2 : ℝ) ≤ 2 ^ 1 := by norm_num
      _ ≤ _ := pow_le_pow_right₀ (by norm_num) (by norm_num)))
  have w3 : |(w : ℝ) - l * h| ≤ 5 * ε := by
    have w3 : |(w : ℝ) - F * τ| ≤ uro * |(F : ℝ) * τ| + eta := by exact_mod_cast w2
    have w4 : uro * |(F : ℝ) * τ| + eta ≤ 1 * ε := round_le he le_rfl (by linarith)
    have w5 := abs_sub_le (w : ℝ) (F * τ) (l * h)
    rw [uro_real] at hFτ
    norm_num at *
    linarith
  obtain ⟨co, co1, co2⟩ := hm.cos _ _ w1
  obtain ⟨si, si1, si2⟩ := hm.sin _ _ w1
  have nc : NearR (FOps.fcos (FOps.fsqrt (sumSq f) * dt) : B64 m) (Real.cos (l * h)) (6 * ε) :=
    ⟨co, co1, by have := abs_sub_le (co : ℝ) (Real.cos w) (Real.cos (l * h))
                 have := Real.abs_cos_sub_cos_le w (l * h)
                 linarith⟩
  have ns : NearR (FOps.fsin (FOps.fsqrt (sumSq f) * dt) : B64 m) (Real.sin (l * h)) (6 * ε) :=
    ⟨si, si1, by have := abs_sub_le (si : ℝ) (Real.sin w) (Real.sin (l * h))
                 have := Real.abs_sin_sub_sin_le w (l * h)
                 linarith⟩
  have bp : |(p1 : ℝ)| ≤ 11 / 10 ∧ |(p2 : ℝ)| ≤ 11 / 10 ∧ |(p3 : ℝ)| ≤ 11 / 10 := by
    have h1 := abs_le_len (⟨p1, p2, p3⟩ : V3 ℝ)
    have h2 := (abs_le.1 hp).2
    refine ⟨h1.1.trans ?_, h1.2.1.trans ?_, h1.2.2.trans ?_⟩ <;> norm_num at * <;> linarith
  set n : V3 ℝ := smul (1 / l) ⟨a, b, c⟩ with hn
  have ln : len n = 1 := by
    rw [hn, len_smul, abs_of_pos (by positivity), ← hl]
    field_simp
  have bn : |n.x| ≤ 1 ∧ |n.y| ≤ 1 ∧ |n.z| ≤ 1 := by
    have := abs_le_len n
    rwa [ln] at this
  have nx : NearR (f.x / FOps.fsqrt (sumSq f) : B64 m) n.x (4 * ε) := by
    have e : n.x = a / l := by simp only [hn, smul]; ring
    rw [e]; exact gx.mono hu
  have ny : NearR (f.y / FOps.fsqrt (sumSq f) : B64 m) n.y (4 * ε) := by
    have e : n.y = b / l := by simp only [hn, smul]; ring
    rw [e]; exact gy.mono hu
  have nz : NearR (f.z / FOps.fsqrt (sumSq f) : B64 m) n.z (4 * ε) := by
    have e : n.z = c / l := by simp only [hn, smul]; ring
    rw [e]; exact gz.mono hu
  have sx := near0 hs.x ε
  have sy := near0 hs.y ε
  have sz := near0 hs.z ε
  set v : V3 ℝ := ⟨p1, p2, p3⟩ with hv
  have lv : len v ≤ 11 / 10 := by
    have := (abs_le.1 hp).2
    norm_num at *; linarith
  have hd := dot_nearR he sx sy sz nx ny nz bp bn
  have bd : |(p1 : ℝ) * n.x + p2 * n.y + p3 * n.z| ≤ 11 / 10 := by
    have := abs_dot_le_len v n
    rw [ln, mul_one] at this
    exact this.trans lv
  have bc := abs_le_len (cross n v)
  have lc : len (cross n v) ≤ 11 / 10 := by
    have := len_cross_le n v
    rw [ln, one_mul] at this
    exact this.trans lv
  have cx := cross_nearR he ny sz nz sy bn.2.1 bp.2.2 bn.2.2 bp.2.1
  have cy := cross_nearR he nz sx nx sz bn.2.2 bp.1 bn.1 bp.2.2
  have cz := cross_nearR he nx sy ny sx bn.1 bp.2.1 bn.2.1 bp.1
  have kc := Real.abs_cos_le_one (l * h)
  have ks := Real.abs_sin_le_one (l * h)
  obtain ⟨vx, vx1, vx2⟩ := comp_nearR he sx nx cx hd nc ns (near_lit1 (m := m) ε) bp.1 bn.1 (bc.1.trans lc) bd kc ks
  obtain ⟨vy, vy1, vy2⟩ := comp_nearR he sy ny cy hd nc ns (near_lit1 (m := m) ε) bp.2.1 bn.2.1 (bc.2.1.trans lc) bd kc ks
  obtain ⟨vz, vz1, vz2⟩ := comp_nearR he sz nz cz hd nc ns (near_lit1 (m := m) ε) bp.2.2 bn.2.2 (bc.2.2.trans lc) bd kc ks
  have d1 : len (Spec.sub ⟨vx, vy, vz⟩ (precess v ⟨a, b, c⟩ h)) ≤ 7 / 4 * (215 * ε) := by
    have ex : (precess v ⟨a, b, c⟩ h).x = p1 * Real.cos (l * h) + n.x * (p1 * n.x + p2 * n.y + p3 * n.z)
        * (1 - Real.cos (l * h)) - (n.y * p3 - n.z * p2) * Real.sin (l * h) := by
      simp only [precess, Spec.sub, Spec.add, smul, cross, dot, ← hl, hn, hv]
      ring
    have ey : (precess v ⟨a, b, c⟩ h).y = p2 * Real.cos (l * h) + n.y * (p1 * n.x + p2 * n.y + p3 * n.z)
        * (1 - Real.cos (l * h)) - (n.z * p1 - n.x * p3) * Real.sin (l * h) := by
      simp only [precess, Spec.sub, Spec.add, smul, cross, dot, ← hl, hn, hv]
      ring
    have ez : (precess v ⟨a, b, c⟩ h).z = p3 * Real.cos (l * h) + n.z * (p1 * n.x + p2 * n.y + p3 * n.z)
        * (1 - Real.cos (l * h)) - (n.x * p2 - n.y * p1) * Real.sin (l * h) := by
      simp only [precess, Spec.sub, Spec.add, smul, cross, dot, ← hl, hn, hv]
      ring
    apply len_of_comp
    · show |(vx : ℝ) - (precess v ⟨a, b, c⟩ h).x| ≤ _
      rw [ex]; exact vx2
    · show |(vy : ℝ) - (precess v ⟨a, b, c⟩ h).y| ≤ _
      rw [ey]; exact vy2
    · show |(vz : ℝ) - (precess v ⟨a, b, c⟩ h).z| ≤ _
      rw [ez]; exact vz2
  exact finish he hacc (v := ⟨_, _, _⟩) ⟨vx1, vy1, vz1⟩ d1 (by rw [len_precess]; exact hp)

end Forward

end Verif
