/-
Error bounds of the binary64 operations of `Instances/B64.lean`, and of normalising and rotating a
vector in binary64.
-/
import Verif.Lemmas.B64
import Verif.Model.Spin
import Mathlib.Tactic.NormNum
import Mathlib.Tactic.Linarith
import Mathlib.Tactic.Positivity
import Mathlib.Tactic.Ring

namespace Verif

/-- half the distance from 1 to the next number: the relative error of a rounded operation -/
def uro : ℚ := 1 / 2 ^ 53

/-- the absolute error where numbers are so small that they lose bits -/
def eta : ℚ := 1 / 2 ^ 1074

/-- `x` is a finite number of value `q` -/
def HasVal (x : B64v) (q : ℚ) : Prop := x = .fin q ∨ (x = .nzero ∧ q = 0)

theorem rnd_half (q : ℚ) (h : q ≠ 0) : |rnd q - q| ≤ 1 / 2 * 2 ^ ulpExp q := by
  unfold rnd
  rw [if_neg h, pow2_eq]
  have hu : (0 : ℚ) < 2 ^ ulpExp q := by positivity
  have half : ∀ x : ℚ, |(rne x : ℚ) - x| ≤ 1 / 2 := by
    intro x
    have h1 := Rat.floor_le x
    have h2 : x < ((x.floor : ℤ) : ℚ) + 1 := by exact_mod_cast Rat.lt_floor_add_one x
    rcases le_total (x - x.floor) (1 / 2) with h3 | h3
    · refine (rne_nearest x x.floor).trans ?_
      rw [abs_le]
      constructor <;> linarith
    · refine (rne_nearest x (x.floor + 1)).trans ?_
      push_cast
      rw [abs_le]
      constructor <;> linarith
  have h1 := half (q / 2 ^ ulpExp q)
  have h2 : |(rne (q / 2 ^ ulpExp q) : ℚ) * 2 ^ ulpExp q - q|
      = |(rne (q / 2 ^ ulpExp q) : ℚ) - q / 2 ^ ulpExp q| * 2 ^ ulpExp q := by
    rw [← abs_of_pos hu, ← abs_mul, abs_of_pos hu]
    congr 1
    field_simp
  rw [h2]
  exact mul_le_mul_of_nonneg_right h1 hu.le

theorem rnd_err (q : ℚ) : |rnd q - q| ≤ uro * |q| + eta := by
  have hη : (0 : ℚ) ≤ eta := by unfold eta; positivity
  rcases le_or_gt ((2 : ℚ) ^ (-1022 : ℤ)) |q| with h | h
  · have := rnd_rel q h
    have e : (2 : ℚ) ^ (-53 : ℤ) = uro := by unfold uro; norm_num
    rw [e] at this
    linarith
  · by_cases h0 : q = 0
    · subst h0
      simp only [rnd, if_pos, sub_zero, abs_zero, mul_zero, zero_add]
      exact hη
    · have h1 := rnd_half q h0
      have he := (expo_spec h0).1
      have h2 : expo q < -1022 := by
        by_contra hc
        have : (2 : ℚ) ^ (-1022 : ℤ) ≤ 2 ^ expo q :=
          zpow_le_zpow_right₀ (by norm_num) (by omega)
        linarith
      have h3 : ulpExp q = -1074 := by unfold ulpExp; omega
      rw [h3] at h1
      have e : (2 : ℚ) ^ (-1074 : ℤ) = eta := by
        unfold eta
        rw [zpow_neg, one_div]
        norm_cast
      rw [e] at h1
      have : 0 ≤ uro * |q| := mul_nonneg (by unfold uro; positivity) (abs_nonneg _)
      linarith

theorem rnd_nonneg {q : ℚ} (h : 0 ≤ q) : 0 ≤ rnd q := by
  have := rnd_nearest q 0 ⟨0, 0, by norm_num, by norm_num, by norm_num⟩
  rw [zero_sub, abs_neg, abs_of_nonneg h] at this
  have := (abs_le.mp this).1
  linarith

/-- the largest numbers considered below -/
def big : ℚ := 2 ^ 1000

theorem eta_le : eta ≤ uro := by
  unfold eta uro
  rw [div_le_div_iff₀ (by positivity) (by positivity), one_mul, one_mul]
  exact pow_le_pow_right₀ (by norm_num) (by norm_num)

theorem round_val {q : ℚ} (n : Bool) (h : |q| ≤ big) : ∃ r, HasVal (.round q n) r ∧
    |r - q| ≤ uro * |q| + eta ∧ (0 ≤ q → 0 ≤ r) := by
  have hη : (0 : ℚ) ≤ eta := by unfold eta; positivity
  unfold B64v.round
  by_cases h0 : q = 0
  · subst h0
    rw [if_pos rfl]
    cases n
    · exact ⟨0, .inl rfl, by simpa using hη, fun h => h⟩
    · exact ⟨0, .inr ⟨rfl, rfl⟩, by simpa using hη, fun h => h⟩
  · rw [if_neg h0]
    dsimp only
    have herr := rnd_err q
    have hb : |rnd q| < pow2 1024 := by
      have h1 : |rnd q| ≤ |rnd q - q| + |q| := by
        have := abs_add_le (rnd q - q) q
        rwa [sub_add_cancel] at this
      have h2 : uro * |q| ≤ 1 * big := by
        apply mul_le_mul _ h (abs_nonneg _) (by norm_num)
        unfold uro; norm_num
      have h3 : eta ≤ big := eta_le.trans (by
        unfold uro big
        rw [div_le_iff₀ (by positivity), ← pow_add]
        exact one_le_pow₀ (by norm_num))
      have h4 : 3 * big < pow2 1024 := by
        have e : ((1024 : ℤ)) = ((1024 : ℕ) : ℤ) := rfl
        rw [pow2_eq, e, zpow_natCast]
        unfold big
        rw [show (1024 : ℕ) = 24 + 1000 by norm_num, pow_add]
        have : (0 : ℚ) < 2 ^ 1000 := by positivity
        exact mul_lt_mul_of_pos_right (by norm_num) this
      linarith
    have hb' := abs_lt.mp hb
    by_cases hr : rnd q = 0
    · rw [if_pos hr]
      rw [hr] at herr
      split_ifs
      · exact ⟨0, .inr ⟨rfl, rfl⟩, herr, fun _ => le_refl _⟩
      · exact ⟨0, .inl rfl, herr, fun _ => le_refl _⟩
    · rw [if_neg hr, if_neg (not_le.mpr hb'.2), if_neg (not_le.mpr hb'.1)]
      exact ⟨_, .inl rfl, herr, rnd_nonneg⟩

theorem HasVal.val {x : B64v} {a : ℚ} (h : HasVal x a) : x.val = a := by
  rcases h with rfl | ⟨rfl, rfl⟩ <;> rfl

theorem HasVal.unique {x : B64v} {a b : ℚ} (h : HasVal x a) (h' : HasVal x b) : a = b :=
  h.val.symm.trans h'.val

section ops
variable {x y : B64v} {a b : ℚ}

theorem HasVal.add (hx : HasVal x a) (hy : HasVal y b) (h : |a + b| ≤ big) :
    ∃ r, HasVal (x.add y) r ∧ |r - (a + b)| ≤ uro * |a + b| + eta ∧ (0 ≤ a + b → 0 ≤ r) := by
  have hη : (0 : ℚ) ≤ eta := by unfold eta; positivity
  rcases hx with rfl | ⟨rfl, rfl⟩ <;> rcases hy with rfl | ⟨rfl, rfl⟩
  · exact round_val false h
  · exact round_val false h
  · exact round_val false h
  · exact ⟨0, .inr ⟨rfl, rfl⟩, by simpa using hη, fun h => by linarith⟩

theorem HasVal.neg (hx : HasVal x a) : HasVal x.neg (-a) := by
  rcases hx with rfl | ⟨rfl, rfl⟩
  · unfold B64v.neg
    dsimp only
    split_ifs with h
    · exact .inr ⟨rfl, by rw [h, neg_zero]⟩
    · exact .inl rfl
  · exact .inl (by rw [neg_zero]; rfl)

theorem HasVal.mul (hx : HasVal x a) (hy : HasVal y b) (h : |a * b| ≤ big) :
    ∃ r, HasVal (x.mul y) r ∧ |r - a * b| ≤ uro * |a * b| + eta ∧ (0 ≤ a * b → 0 ≤ r) := by
  rcases hx with rfl | ⟨rfl, rfl⟩ <;> rcases hy with rfl | ⟨rfl, rfl⟩
  · exact round_val _ h
  · exact round_val _ h
  · exact round_val _ h
  · exact round_val _ h

theorem HasVal.div (hx : HasVal x a) (hy : HasVal y b) (hb : b ≠ 0) (h : |a / b| ≤ big) :
    ∃ r, HasVal (x.div y) r ∧ |r - a / b| ≤ uro * |a / b| + eta ∧ (0 ≤ a / b → 0 ≤ r) := by
  rcases hy with rfl | ⟨rfl, rfl⟩
  · rcases hx with rfl | ⟨rfl, rfl⟩
    · unfold B64v.div
      dsimp only
      rw [if_neg (show ¬(B64v.fin b).val = 0 from hb)]
      exact round_val _ h
    · unfold B64v.div
      dsimp only
      rw [if_neg (show ¬(B64v.fin b).val = 0 from hb)]
      exact round_val _ h
  · exact absurd rfl hb

end ops

/-! ### Normalising a vector -/

/-- the components of `v` are finite numbers of values `a`, `b`, `c` -/
structure Vals {m : Libm} (v : V3 (B64 m)) (a b c : ℚ) : Prop where
  x : HasVal v.x a
  y : HasVal v.y b
  z : HasVal v.z c

theorem lit0_val {m : Libm} : HasVal (0.0 : B64 m) 0 := .inl (by
  show B64v.lit 0 true 1 = _
  decide +kernel)

theorem lit1_val {m : Libm} : HasVal (1.0 : B64 m) 1 := .inl (by
  show B64v.lit 10 true 1 = _
  decide +kernel)

theorem lit2_val {m : Libm} : HasVal (2.0 : B64 m) 2 := .inl (by
  show B64v.lit 20 true 1 = _
  decide +kernel)

theorem uro_eq : uro = 1 / 2 ^ 53 := rfl

theorem uro_pos : 0 < uro := by unfold uro; positivity

theorem eta_pos : 0 < eta := by unfold eta; positivity

theorem eta_scale {T : ℚ} (h : 1 / 2 ^ 900 ≤ T) : 1000 * eta ≤ uro * T := by
  have h1 : uro * (1 / 2 ^ 900) ≤ uro * T := mul_le_mul_of_nonneg_left h uro_pos.le
  refine le_trans ?_ h1
  unfold eta uro
  rw [mul_one_div, div_mul_div_comm, one_mul, ← pow_add, div_le_div_iff₀ (by positivity) (by positivity),
    one_mul, show (1074 : ℕ) = 121 + (53 + 900) by norm_num, pow_add 2 121]
  apply mul_le_mul_of_nonneg_right _ (by positivity)
  norm_num

/-- the sum of squares has a relative error of at most five roundings -/
theorem sumSq_val {m : Libm} {v : V3 (B64 m)} {a b c : ℚ} (hv : Vals v a b c)
    (ha : a ^ 2 ≤ 2 ^ 900) (hb : b ^ 2 ≤ 2 ^ 900) (hc : c ^ 2 ≤ 2 ^ 900)
    (hT : 1 / 2 ^ 900 ≤ a ^ 2 + b ^ 2 + c ^ 2) :
    ∃ S, HasVal (sumSq (F := B64 m) v) S ∧ |S - (a ^ 2 + b ^ 2 + c ^ 2)| ≤ 5 * uro * (a ^ 2 + b ^ 2 + c ^ 2) := by
  have hη := eta_scale hT
  have η0 := eta_pos
  have hbig : 100 * 2 ^ 900 ≤ big := by
    unfold big
    rw [show (1000 : ℕ) = 100 + 900 by norm_num, pow_add]
    apply mul_le_mul_of_nonneg_right _ (by positivity)
    norm_num
  have hQ : eta ≤ 2 ^ 900 := eta_le.trans (by
    unfold uro
    rw [div_le_iff₀ (by positivity), ← pow_add]
    exact one_le_pow₀ (by norm_num))
  generalize hQe : (2 : ℚ) ^ 900 = Q at *
  have hQ0 : 0 < Q := by rw [← hQe]; positivity
  clear hQe hT
  have sq : ∀ {y : B64v} {q : ℚ}, HasVal y q → q ^ 2 ≤ Q →
      ∃ r, HasVal (y.mul y) r ∧ |r - q ^ 2| ≤ uro * q ^ 2 + eta ∧ 0 ≤ r := by
    intro y q hy hq
    have h0 : 0 ≤ q * q := mul_self_nonneg q
    obtain ⟨r, h1, h2, h3⟩ := hy.mul hy (by rw [abs_of_nonneg h0, ← sq]; linarith)
    rw [abs_of_nonneg h0, ← pow_two] at h2
    exact ⟨r, h1, h2, h3 h0⟩
  obtain ⟨q1, u1, u2, u3⟩ := sq hv.x ha
  obtain ⟨q2, v1, v2, v3⟩ := sq hv.y hb
  obtain ⟨q3, w1, w2, w3⟩ := sq hv.z hc
  have ha0 := sq_nonneg a
  have hb0 := sq_nonneg b
  have hc0 := sq_nonneg c
  generalize a ^ 2 = A at *
  generalize b ^ 2 = B at *
  generalize c ^ 2 = C at *
  simp only [uro_eq] at *
  rw [abs_le] at u2 v2 w2
  obtain ⟨s1, x1, x2, x3⟩ := (lit0_val (m := m)).add u1 (by
    rw [zero_add, abs_of_nonneg u3]; linarith)
  rw [zero_add, abs_of_nonneg u3, uro_eq, abs_le] at x2
  have x3 := x3 (by linarith)
  obtain ⟨s2, y1, y2, y3⟩ := x1.add v1 (by
    rw [abs_of_nonneg (by linarith)]; linarith)
  rw [abs_of_nonneg (a := s1 + q2) (by linarith), uro_eq, abs_le] at y2
  have y3 := y3 (by linarith)
  obtain ⟨s3, z1, z2, z3⟩ := y1.add w1 (by
    rw [abs_of_nonneg (by linarith)]; linarith)
  rw [abs_of_nonneg (a := s2 + q3) (by linarith), uro_eq, abs_le] at z2
  refine ⟨s3, z1, ?_⟩
  rw [abs_le]
  constructor <;> linarith

theorem sq_err {r w : ℚ} (hr : |r| ≤ 2) (h : |w - r| ≤ uro * |r| + eta) :
    |w ^ 2 - r ^ 2| ≤ 3 * uro * r ^ 2 + 10 * eta := by
  have e : w ^ 2 - r ^ 2 = (w - r) * (2 * r + (w - r)) := by ring
  rw [e, abs_mul]
  have h1 : |2 * r + (w - r)| ≤ 2 * |r| + |w - r| := by
    refine (abs_add_le _ _).trans ?_
    rw [abs_mul, abs_two]
  have h2 : |w - r| * |2 * r + (w - r)| ≤ (uro * |r| + eta) * (2 * |r| + (uro * |r| + eta)) :=
    mul_le_mul h (h1.trans (by linarith)) (abs_nonneg _)
      (add_nonneg (mul_nonneg uro_pos.le (abs_nonneg _)) eta_pos.le)
  refine h2.trans ?_
  have h3 : r ^ 2 = |r| ^ 2 := (sq_abs r).symm
  rw [h3]
  have hr0 := abs_nonneg r
  generalize |r| = A at *
  have hη := eta_pos
  have hη1 := eta_le
  generalize eta = n at *
  simp only [uro_eq] at *
  nlinarith [mul_nonneg hη.le hr0, mul_nonneg hr0 hr0, mul_nonneg hη.le hη.le,
    mul_nonneg hη.le (sub_nonneg.2 hr), mul_nonneg hη.le (sub_nonneg.2 hη1)]

/-- dividing a vector by a number close to its length gives a vector of length close to one -/
theorem normalise_val {m : Libm} {v : V3 (B64 m)} {a b c S F : ℚ} {f : B64 m} (hv : Vals v a b c)
    (hT : 1 / 2 ^ 900 ≤ a ^ 2 + b ^ 2 + c ^ 2)
    (hS : |S - (a ^ 2 + b ^ 2 + c ^ 2)| ≤ 5 * uro * (a ^ 2 + b ^ 2 + c ^ 2))
    (hF : HasVal f F) (F0 : 0 < F) (lo : (1 - uro) ^ 2 * S ≤ F ^ 2) (hi : F ^ 2 ≤ (1 + uro) ^ 2 * S) :
    ∃ p q r, Vals (⟨v.x / f, v.y / f, v.z / f⟩ : V3 (B64 m)) p q r ∧
      |p ^ 2 + q ^ 2 + r ^ 2 - 1| ≤ 16 * uro := by
  have hT0 : 0 < a ^ 2 + b ^ 2 + c ^ 2 := lt_of_lt_of_le (by positivity) hT
  generalize hTe : a ^ 2 + b ^ 2 + c ^ 2 = T at *
  have F2 : 0 < F ^ 2 := by positivity
  rw [abs_le] at hS
  have l1 : (1 - 8 * uro) * T ≤ F ^ 2 := by simp only [uro_eq] at *; linarith
  have l2 : F ^ 2 ≤ (1 + 8 * uro) * T := by simp only [uro_eq] at *; linarith
  have k1 : T / F ^ 2 ≤ 1 + 9 * uro := by
    rw [div_le_iff₀ F2]; simp only [uro_eq] at *; linarith
  have k2 : 1 - 9 * uro ≤ T / F ^ 2 := by
    rw [le_div_iff₀ F2]; simp only [uro_eq] at *; linarith
  have ke : (a / F) ^ 2 + (b / F) ^ 2 + (c / F) ^ 2 = T / F ^ 2 := by
    rw [← hTe]; ring
  have small : ∀ x : ℚ, x ^ 2 ≤ 4 → |x| ≤ 2 := fun x h => abs_le_of_sq_le_sq (by linarith) (by norm_num)
  have kk : T / F ^ 2 ≤ 4 := by simp only [uro_eq] at *; linarith
  have ra := small (a / F) (by linarith [sq_nonneg (b / F), sq_nonneg (c / F)])
  have rb := small (b / F) (by linarith [sq_nonneg (a / F), sq_nonneg (c / F)])
  have rc := small (c / F) (by linarith [sq_nonneg (b / F), sq_nonneg (a / F)])
  have hb2 : (2 : ℚ) ≤ big := by
    unfold big
    calc (2 : ℚ) = 2 ^ 1 := by norm_num
      _ ≤ _ := pow_le_pow_right₀ (by norm_num) (by norm_num)
  obtain ⟨p, p1, p2, _⟩ := hv.x.div hF F0.ne' (by linarith)
  obtain ⟨q, q1, q2, _⟩ := hv.y.div hF F0.ne' (by linarith)
  obtain ⟨r, r1, r2, _⟩ := hv.z.div hF F0.ne' (by linarith)
  have p3 := abs_le.mp (sq_err ra p2)
  have q3 := abs_le.mp (sq_err rb q2)
  have r3 := abs_le.mp (sq_err rc r2)
  refine ⟨p, q, r, ⟨p1, q1, r1⟩, ?_⟩
  have hη := eta_scale (T := 1) (by
    rw [div_le_one (by positivity)]
    exact one_le_pow₀ (by norm_num))
  generalize (a / F) ^ 2 = A at *
  generalize (b / F) ^ 2 = B at *
  generalize (c / F) ^ 2 = C at *
  generalize T / F ^ 2 = K at *
  simp only [uro_eq] at *
  rw [abs_le]
  constructor <;> linarith

/-! ### Operations on numbers of moderate size, with absolute errors -/

/-- `x` is a finite number within `e` of `a` -/
def NearTo (x : B64v) (a e : ℚ) : Prop := ∃ q, HasVal x q ∧ |q - a| ≤ e

/-- error of one operation on numbers up to 17 -/
def eps : ℚ := 1 / 2 ^ 40

theorem eps_bound {q : ℚ} (h : |q| ≤ 300) : uro * |q| + eta ≤ eps := by
  have h1 : uro * |q| ≤ uro * 300 := mul_le_mul_of_nonneg_left h uro_pos.le
  have h2 := eta_le
  unfold eps
  simp only [uro_eq] at *
  norm_num at *
  linarith

theorem le_big {q : ℚ} (h : |q| ≤ 300) : |q| ≤ big := by
  refine h.trans ?_
  unfold big
  calc (300 : ℚ) ≤ 2 ^ 9 := by norm_num
    _ ≤ _ := pow_le_pow_right₀ (by norm_num) (by norm_num)

section near
variable {x y : B64v} {a b e f : ℚ}

theorem HasVal.near (h : HasVal x a) : NearTo x a 0 := ⟨a, h, by simp⟩

theorem NearTo.mono {e' : ℚ} (h : NearTo x a e) (he : e ≤ e') : NearTo x a e' := by
  obtain ⟨q, h1, h2⟩ := h
  exact ⟨q, h1, h2.trans he⟩

theorem NearTo.neg (h : NearTo x a e) : NearTo x.neg (-a) e := by
  obtain ⟨q, h1, h2⟩ := h
  refine ⟨-q, h1.neg, ?_⟩
  rw [show -q - -a = -(q - a) by ring, abs_neg]
  exact h2

theorem NearTo.add (hx : NearTo x a e) (hy : NearTo y b f) (ha : |a| ≤ 16) (hb : |b| ≤ 16) (he : e ≤ 1)
    (hf : f ≤ 1) : NearTo (x.add y) (a + b) (e + f + eps) := by
  obtain ⟨p, p1, p2⟩ := hx
  obtain ⟨q, q1, q2⟩ := hy
  rw [abs_le] at p2 q2 ha hb
  have hs : |p + q| ≤ 300 := by rw [abs_le]; constructor <;> linarith
  obtain ⟨r, r1, r2, _⟩ := p1.add q1 (le_big hs)
  have r3 := abs_le.mp (r2.trans (eps_bound hs))
  refine ⟨r, r1, ?_⟩
  rw [abs_le]
  constructor <;> linarith

theorem NearTo.sub (hx : NearTo x a e) (hy : NearTo y b f) (ha : |a| ≤ 16) (hb : |b| ≤ 16) (he : e ≤ 1)
    (hf : f ≤ 1) : NearTo (x.add y.neg) (a - b) (e + f + eps) := by
  rw [sub_eq_add_neg]
  exact hx.add hy.neg ha (by rwa [abs_neg]) he hf

theorem NearTo.mul (hx : NearTo x a e) (hy : NearTo y b f) (ha : |a| ≤ 16) (hb : |b| ≤ 16) (he : e ≤ 1)
    (hf : f ≤ 1) : NearTo (x.mul y) (a * b) (17 * e + 16 * f + eps) := by
  obtain ⟨p, p1, p2⟩ := hx
  obtain ⟨q, q1, q2⟩ := hy
  have hp : |p| ≤ 17 := by
    have := abs_add_le (p - a) a
    rw [sub_add_cancel] at this
    linarith
  have hq : |q| ≤ 17 := by
    have := abs_add_le (q - b) b
    rw [sub_add_cancel] at this
    linarith
  have hs : |p * q| ≤ 300 := by
    rw [abs_mul]
    calc _ ≤ (17 : ℚ) * 17 := mul_le_mul hp hq (abs_nonneg _) (by norm_num)
      _ ≤ _ := by norm_num
  obtain ⟨r, r1, r2, _⟩ := p1.mul q1 (le_big hs)
  have r3 := r2.trans (eps_bound hs)
  refine ⟨r, r1, ?_⟩
  have e1 : r - a * b = (r - p * q) + (p - a) * q + a * (q - b) := by ring
  rw [e1]
  refine (abs_add_le _ _).trans ?_
  have t1 := abs_add_le (r - p * q) ((p - a) * q)
  rw [abs_mul] at t1
  rw [abs_mul]
  have t2 : |p - a| * |q| ≤ e * 17 := mul_le_mul p2 hq (abs_nonneg _) ((abs_nonneg _).trans p2)
  have t3 : |a| * |q - b| ≤ 16 * f := mul_le_mul ha q2 (abs_nonneg _) (by norm_num)
  linarith

end near

end Verif
