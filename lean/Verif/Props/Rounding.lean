/-
C63: rounding errors do not accumulate in the length of a spin.

IEEE binary64 arithmetic (`Instances/B64.lean`) with a mathematics library of which only accuracy is
assumed (`Accurate`).
-/
import Verif.Lemmas.RotateB64
import Verif.Lemmas.Regular
import Verif.Props.NaN

set_option linter.unusedSectionVars false

namespace Verif.Props

open Verif Verif.Spec

variable {m : Libm}

/-- The components are finite numbers and the length is within `e` of one. -/
def UnitWithin (e : ℝ) (v : V3 (B64 m)) : Prop :=
  ∃ p q r : ℚ, Vals v p q r ∧ |Real.sqrt ((p : ℝ) ^ 2 + (q : ℝ) ^ 2 + (r : ℝ) ^ 2) - 1| ≤ e

/-- The numbers are finite and no larger than `2 ^ 450` (about `10 ^ 135`), and one of them is no smaller
than `2 ^ (-450)`. -/
def Moderate (f : V3 (B64 m)) : Prop :=
  ∃ a b c : ℚ, Vals f a b c ∧ |a| ≤ 2 ^ 450 ∧ |b| ≤ 2 ^ 450 ∧ |c| ≤ 2 ^ 450 ∧
    (1 / 2 ^ 450 ≤ |a| ∨ 1 / 2 ^ 450 ≤ |b| ∨ 1 / 2 ^ 450 ≤ |c|)

/-- a finite time-step no larger than `2 ^ 450` -/
def ModerateStep (d : B64 m) : Prop := ∃ q : ℚ, HasVal d q ∧ |q| ≤ 2 ^ 450

theorem sq_of_len {x e : ℝ} (hx : 0 ≤ x) (h : |Real.sqrt x - 1| ≤ e) (he : e ≤ 1) : |x - 1| ≤ 3 * e := by
  have s := Real.sq_sqrt hx
  have e1 : x - 1 = (Real.sqrt x - 1) * (Real.sqrt x + 1) := by linear_combination -s
  rw [e1, abs_mul, mul_comm 3 e]
  refine mul_le_mul h ?_ (abs_nonneg _) ((abs_nonneg _).trans h)
  rw [abs_of_nonneg (by positivity)]
  linarith [(abs_le.mp h).2]

theorem len_of_sq {x e : ℝ} (hx : 0 ≤ x) (h : |x - 1| ≤ e) : |Real.sqrt x - 1| ≤ e := by
  have s := Real.sq_sqrt hx
  have s0 := Real.sqrt_nonneg x
  have e1 : x - 1 = (Real.sqrt x - 1) * (Real.sqrt x + 1) := by linear_combination -s
  rw [e1, abs_mul] at h
  refine le_trans ?_ h
  have : (1 : ℝ) ≤ |Real.sqrt x + 1| := by rw [abs_of_nonneg (by positivity)]; linarith
  nlinarith [abs_nonneg (Real.sqrt x - 1)]

theorem UnitWithin.sq {v : V3 (B64 m)} (h : UnitWithin (1 / 2 ^ 22) v) :
    ∃ p q r, Vals v p q r ∧ |p ^ 2 + q ^ 2 + r ^ 2 - 1| ≤ 1 / 2 ^ 20 := by
  obtain ⟨p, q, r, h1, h2⟩ := h
  refine ⟨p, q, r, h1, ?_⟩
  have := sq_of_len (by positivity) h2 (by norm_num)
  rw [← Rat.cast_le (K := ℝ)]
  push_cast
  linarith

theorem unitWithin_of {v : V3 (B64 m)} {p q r : ℚ} (h : Vals v p q r)
    (h2 : |p ^ 2 + q ^ 2 + r ^ 2 - 1| ≤ 16 * uro) : UnitWithin (1 / 2 ^ 49) v := by
  refine ⟨p, q, r, h, len_of_sq (by positivity) ?_⟩
  rw [← Rat.cast_le (K := ℝ)] at h2
  unfold uro at h2
  push_cast at h2
  linarith

theorem UnitWithin.mono {e e' : ℝ} {v : V3 (B64 m)} (h : UnitWithin e v) (he : e ≤ e') : UnitWithin e' v := by
  obtain ⟨p, q, r, h1, h2⟩ := h
  exact ⟨p, q, r, h1, h2.trans he⟩

theorem sq_of_abs {q : ℚ} (h : |q| ≤ 2 ^ 450) : q ^ 2 ≤ 2 ^ 900 := by
  have := pow_le_pow_left₀ (abs_nonneg q) h 2
  rw [sq_abs, ← pow_mul] at this
  exact this

theorem sq_of_abs' {q : ℚ} (h : 1 / 2 ^ 450 ≤ |q|) : 1 / 2 ^ 900 ≤ q ^ 2 := by
  have := pow_le_pow_left₀ (by positivity) h 2
  rw [sq_abs, div_pow, one_pow, ← pow_mul] at this
  exact this

/-- One rotation, in binary64, of a spin whose length is within `2 ^ (-22)` of one: the new length is
within `2 ^ (-49)` — a few units in the last place — of one. -/
theorem C63_rotate (hm : Accurate m) (s : Spin (B64 m)) (f : V3 (B64 m)) (dt : B64 m)
    (hs : UnitWithin (1 / 2 ^ 22) s.dir) (hf : Moderate f) (hd : ModerateStep dt) :
    UnitWithin (1 / 2 ^ 49) (s.rotate f dt).dir := by
  obtain ⟨p, q, r, h1, h2⟩ := hs.sq
  obtain ⟨a, b, c, f1, fa, fb, fc, f2⟩ := hf
  obtain ⟨τ, t1, t2⟩ := hd
  have hT : 1 / 2 ^ 900 ≤ a ^ 2 + b ^ 2 + c ^ 2 := by
    have qa := sq_nonneg a
    have qb := sq_nonneg b
    have qc := sq_nonneg c
    rcases f2 with h | h | h
    · exact (sq_of_abs' h).trans (by linarith only [qa, qb, qc])
    · exact (sq_of_abs' h).trans (by linarith only [qa, qb, qc])
    · exact (sq_of_abs' h).trans (by linarith only [qa, qb, qc])
  obtain ⟨x, y, z, g1, g2⟩ := hm.rotate h1 f1 t1 h2 (sq_of_abs fa) (sq_of_abs fb) (sq_of_abs fc) hT
    (sq_of_abs t2)
  exact unitWithin_of g1 g2

/-- Any number of rotations one after the other, with any fields and time-steps: the error does not grow
with the number of rotations. -/
theorem C63_history (hm : Accurate m) (s : Spin (B64 m)) (rs : List (V3 (B64 m) × B64 m))
    (hs : UnitWithin (1 / 2 ^ 22) s.dir) (hr : ∀ r ∈ rs, Moderate r.1 ∧ ModerateStep r.2) (hne : rs ≠ []) :
    UnitWithin (1 / 2 ^ 49) (rs.foldl (fun s r => s.rotate r.1 r.2) s).dir := by
  induction rs generalizing s with
  | nil => exact absurd rfl hne
  | cons r rs ih =>
    have h1 := C63_rotate hm s r.1 r.2 hs (hr r (by simp)).1 (hr r (by simp)).2
    rw [List.foldl_cons]
    rcases rs with _ | ⟨r', rs⟩
    · exact h1
    · exact ih _ (h1.mono (by norm_num)) (fun x hx => hr x (by simp [hx])) (by simp)

/-! ### The whole chain -/

/-- Conditions on the parameters under which no local field is ever nearly zero: numbers of moderate
size, and at every site a static field along `z` that is larger than the couplings. -/
structure Strong (c : SpinChain (B64 m)) (κ : ℚ) : Prop where
  j : ∀ x ∈ c.j_couple, ∃ a b d, Vals x a b d ∧ |a| ≤ 2 ^ 100 ∧ |b| ≤ 2 ^ 100 ∧ |d| ≤ κ
  h : ∀ x ∈ c.static_h, ∃ a b d, Vals x a b d ∧ |a| ≤ 2 ^ 100 ∧ |b| ≤ 2 ^ 100 ∧ 4 * κ + 1 ≤ |d| ∧ |d| ≤ 2 ^ 100
  drive : c.vars.drive ≠ .staticfield
  t : ∃ q, HasVal c.t q ∧ |q| ≤ 2 ^ 100
  dt : ∃ q, HasVal c.vars.dt q ∧ |q| ≤ 2 ^ 40
  tau : ∃ q, HasVal c.vars.tau q ∧ 1 / 2 ^ 40 ≤ |q|
  e : ∃ q, HasVal c.vars.e q ∧ |q| ≤ 2 ^ 40

theorem big_ge : (2 : ℚ) ^ 250 ≤ big := pow_le_pow_right₀ (by norm_num) (by norm_num)

theorem coarse {q : ℚ} : uro * |q| + eta ≤ (|q| + 1) / 100 := by
  have h1 := eta_le
  have h2 := abs_nonneg q
  simp only [uro_eq] at *
  linarith

/-- a sum that is exact up to one per cent -/
theorem add_coarse {x y : B64v} {a b : ℚ} (hx : HasVal x a) (hy : HasVal y b) (h : |a + b| ≤ 2 ^ 250) :
    ∃ r, HasVal (x.add y) r ∧ |r - (a + b)| ≤ (|a + b| + 1) / 100 := by
  obtain ⟨r, h1, h2, _⟩ := hx.add hy (h.trans big_ge)
  exact ⟨r, h1, h2.trans coarse⟩

theorem mul_coarse {x y : B64v} {a b : ℚ} (hx : HasVal x a) (hy : HasVal y b) (h : |a * b| ≤ 2 ^ 250) :
    ∃ r, HasVal (x.mul y) r ∧ |r - a * b| ≤ (|a * b| + 1) / 100 := by
  obtain ⟨r, h1, h2, _⟩ := hx.mul hy (h.trans big_ge)
  exact ⟨r, h1, h2.trans coarse⟩

theorem div_coarse {x y : B64v} {a b : ℚ} (hx : HasVal x a) (hy : HasVal y b) (hb : b ≠ 0)
    (h : |a / b| ≤ 2 ^ 250) : ∃ r, HasVal (x.div y) r ∧ |r - a / b| ≤ (|a / b| + 1) / 100 := by
  obtain ⟨r, h1, h2, _⟩ := hx.div hy hb (h.trans big_ge)
  exact ⟨r, h1, h2.trans coarse⟩

theorem tri {r q e : ℚ} (h : |r - q| ≤ e) : |r| ≤ |q| + e := by
  have := abs_add_le (r - q) q
  rw [sub_add_cancel] at this
  linarith

/-- a component of a local field -/
theorem local_bound {jl sl jr sr h : B64v} {a b c d e : ℚ} (h1 : HasVal jl a) (h2 : HasVal sl b)
    (h3 : HasVal jr c) (h4 : HasVal sr d) (h5 : HasVal h e) {M N : ℚ} (hM : M ≤ 2 ^ 110) (hN : N ≤ 2 ^ 110)
    (b1 : |a| ≤ M) (b2 : |b| ≤ 11 / 10) (b3 : |c| ≤ M) (b4 : |d| ≤ 11 / 10) (b5 : |e| ≤ N) :
    ∃ r, HasVal (((jl.mul sl).add (jr.mul sr)).add h.neg) r ∧ |r + e| ≤ 5 / 2 * M + (N + 10) / 50 := by
  have M0 := (abs_nonneg _).trans b1
  have N0 := (abs_nonneg _).trans b5
  have m1 := abs_mul_le b1 b2
  have m2 := abs_mul_le b3 b4
  obtain ⟨x, x1, x2⟩ := mul_coarse h1 h2 (m1.trans (by norm_num at *; linarith))
  obtain ⟨y, y1, y2⟩ := mul_coarse h3 h4 (m2.trans (by norm_num at *; linarith))
  have x3 := tri x2
  have y3 := tri y2
  have a1 := abs_add_le x y
  obtain ⟨z, z1, z2⟩ := add_coarse x1 y1 (a1.trans (by norm_num at *; linarith))
  have z3 := tri z2
  have a2 := abs_add_le z (-e)
  rw [abs_neg] at a2
  obtain ⟨w, w1, w2⟩ := add_coarse z1 h5.neg (a2.trans (by norm_num at *; linarith))
  refine ⟨w, w1, ?_⟩
  have a3 : |w + e| ≤ |w - (z + -e)| + |z| := by
    have := abs_add_le (w - (z + -e)) z
    rwa [show w - (z + -e) + z = w + e by ring] at this
  linarith

theorem clock {q : ℚ} {t d : ℚ} (ht : |t| ≤ 2 ^ 100) (hd : |d| ≤ 2 ^ 40) (hq : q = t + d) :
    |rnd q| ≤ 2 ^ 100 := by
  have gap : ∀ y : ℚ, Rep y → 2 ^ 100 < y → 2 ^ 100 + 2 ^ 48 ≤ y := by
    rintro y ⟨n, j, hn, hj, rfl⟩ hy
    have n1 : (n : ℚ) ≤ 2 ^ (53 : ℤ) := by
      have := (le_abs_self n).trans hn
      exact_mod_cast this
    have j1 : 48 ≤ j := by
      by_contra hc
      have e1 : (2 : ℚ) ^ j ≤ 2 ^ (47 : ℤ) := zpow_le_zpow_right₀ (by norm_num) (by omega)
      have e2 : (n : ℚ) * 2 ^ j ≤ 2 ^ (53 : ℤ) * 2 ^ (47 : ℤ) := by
        refine (mul_le_mul_of_nonneg_right n1 (by positivity)).trans ?_
        exact mul_le_mul_of_nonneg_left e1 (by positivity)
      rw [← zpow_add₀ (by norm_num)] at e2
      norm_num at e2 hy
      linarith
    obtain ⟨k, rfl⟩ : ∃ k : ℕ, j = 48 + k := ⟨(j - 48).toNat, by omega⟩
    have e3 : (n : ℚ) * 2 ^ ((48 : ℤ) + k) = ((n * 2 ^ k : ℤ) : ℚ) * 2 ^ 48 := by
      rw [zpow_add₀ (by norm_num), zpow_natCast]
      push_cast
      norm_num
      ring
    rw [e3] at hy ⊢
    have e4 : (2 : ℤ) ^ 52 < n * 2 ^ k := by
      by_contra hc
      have : ((n * 2 ^ k : ℤ) : ℚ) ≤ ((2 ^ 52 : ℤ) : ℚ) := by exact_mod_cast not_lt.mp hc
      push_cast at this hy
      linarith
    have e5 : ((2 ^ 52 + 1 : ℤ) : ℚ) ≤ ((n * 2 ^ k : ℤ) : ℚ) := by exact_mod_cast e4
    push_cast at e5 ⊢
    linarith
  have r100 : Rep (2 ^ 100) := ⟨1, 100, by norm_num, by norm_num, by norm_num⟩
  have r100' : Rep (-2 ^ 100) := ⟨-1, 100, by norm_num, by norm_num, by norm_num⟩
  have hrep := rnd_rep q
  have hneg : Rep (-rnd q) := by
    obtain ⟨n, j, h1, h2, h3⟩ := hrep
    exact ⟨-n, j, by rwa [abs_neg], h2, by rw [h3]; push_cast; ring⟩
  have h1 := rnd_nearest q _ r100
  have h2 := rnd_nearest q _ r100'
  have ht := abs_le.mp ht
  have hd := abs_le.mp hd
  by_contra hc
  rcases lt_abs.mp (not_le.mp hc) with h | h
  · have g := gap _ hrep h
    rw [abs_of_nonneg (by norm_num at *; linarith)] at h1
    rcases le_total q (2 ^ 100) with hl | hl
    · rw [abs_of_nonneg (by linarith)] at h1
      norm_num at *; linarith
    · rw [abs_of_nonpos (by linarith)] at h1
      norm_num at *; linarith
  · have g := gap _ hneg h
    rw [abs_of_nonpos (by norm_num at *; linarith)] at h2
    rcases le_total q (-2 ^ 100) with hl | hl
    · rw [abs_of_nonneg (by linarith)] at h2
      norm_num at *; linarith
    · rw [abs_of_nonpos (by linarith)] at h2
      norm_num at *; linarith

/-- The clock never overflows: additions of the time-step stop having an effect long before. -/
theorem clock_val {x y : B64v} {t d : ℚ} (hx : HasVal x t) (hy : HasVal y d) (ht : |t| ≤ 2 ^ 100)
    (hd : |d| ≤ 2 ^ 40) : ∃ r, HasVal (x.add y) r ∧ |r| ≤ 2 ^ 100 := by
  have hb : |t + d| ≤ 2 ^ 250 := (abs_add_le _ _).trans (by norm_num at *; linarith)
  have hr : ∀ n : Bool, ∃ r, HasVal (.round (t + d) n) r ∧ |r| ≤ 2 ^ 100 := by
    intro n
    obtain ⟨r, h1, -, -⟩ := round_val n (hb.trans big_ge)
    refine ⟨r, h1, ?_⟩
    have hc := clock ht hd rfl
    unfold B64v.round at h1
    split_ifs at h1 with c1 c2
    · rw [← h1.val]; simp [B64v.val]
    · rw [← h1.val]; simp [B64v.val]
    all_goals
      dsimp only at h1
      split_ifs at h1
      all_goals first
        | (rw [← h1.val]; exact hc)
        | (rw [← h1.val]; simp [B64v.val])
  rcases hx with rfl | ⟨rfl, rfl⟩ <;> rcases hy with rfl | ⟨rfl, rfl⟩
  · exact hr false
  · exact hr false
  · exact hr false
  · exact ⟨0, .inr ⟨rfl, rfl⟩, by simp⟩

/-- the drive of the first three kinds, and no drive: finite numbers, nothing along `z` -/
theorem Strong.ext (hm : Accurate m) {c : SpinChain (B64 m)} {κ : ℚ} (hc : Strong c κ) :
    ∃ e : V3 (B64 m), c.h_ext (c.t + c.vars.dt / 2.0) = .ok e ∧
      ∃ a b : ℚ, Vals e a b 0 ∧ |a| ≤ 2 ^ 42 ∧ |b| ≤ 2 ^ 42 := by
  obtain ⟨t, t1, t2⟩ := hc.t
  obtain ⟨d, d1, d2⟩ := hc.dt
  obtain ⟨τ, τ1, τ2⟩ := hc.tau
  obtain ⟨ε, ε1, ε2⟩ := hc.e
  have b2 : |d / 2| ≤ 2 ^ 40 := by
    rw [abs_div, abs_two]; norm_num at *; linarith
  obtain ⟨x, x1, x2⟩ := div_coarse d1 (lit2_val (m := m)) (by norm_num) (b2.trans (by norm_num))
  have x3 := tri x2
  have b3 := abs_add_le t x
  obtain ⟨y, y1, y2⟩ := add_coarse t1 x1 (b3.trans (by norm_num at *; linarith))
  have y3 := tri y2
  have hpi : HasVal (FOps.fpi : B64 m) (884279719003555 / 281474976710656) := .inl rfl
  obtain ⟨z, z1, z2⟩ := mul_coarse (lit2_val (m := m)) hpi (by norm_num)
  have z3 : |z| ≤ 10 := (tri z2).trans (by norm_num)
  have b4 := abs_mul_le z3 (le_refl |y|)
  obtain ⟨w, w1, w2⟩ := mul_coarse z1 y1 (b4.trans (by norm_num at *; linarith))
  have w3 := tri w2
  have τ0 : τ ≠ 0 := by
    rintro rfl
    norm_num at τ2
  have τp : 0 < |τ| := abs_pos.mpr τ0
  have b5 : |w / τ| ≤ |w| * 2 ^ 40 := by
    rw [abs_div, div_le_iff₀ τp]
    have : (1 : ℚ) ≤ 2 ^ 40 * |τ| := by norm_num at *; linarith
    nlinarith [abs_nonneg w]
  obtain ⟨v, v1, -⟩ := div_coarse w1 τ1 τ0 (b5.trans (by norm_num at *; linarith))
  obtain ⟨co, si, hco, hsi, hcs⟩ := hm.trig v1
  have hcs' : |co ^ 2 + si ^ 2 + 0 ^ 2 - 1| ≤ 1 / 2 ^ 20 := by
    rw [zero_pow (by norm_num), add_zero]
    exact hcs.trans (by norm_num)
  have bc := comp_bound hcs' (by norm_num)
  have l0 := lit0_val (m := m)
  have b6 := abs_mul_le ε2 bc.2.1
  obtain ⟨es, es1, es2⟩ := mul_coarse ε1 hsi (b6.trans (by norm_num))
  have es3 := tri es2
  unfold SpinChain.h_ext
  have hdr := hc.drive
  cases hdrive : c.vars.drive with
  | staticfield => exact absurd hdrive hdr
  | xyplane => exact ⟨_, rfl, co, si, ⟨hco, hsi, l0⟩, bc.1.trans (by norm_num), bc.2.1.trans (by norm_num)⟩
  | uniaxial => exact ⟨_, rfl, co, 0, ⟨hco, l0, l0⟩, bc.1.trans (by norm_num), by norm_num⟩
  | xyelliptic =>
    exact ⟨_, rfl, co, es, ⟨hco, es1, l0⟩, bc.1.trans (by norm_num), es3.trans (by norm_num at *; linarith)⟩
  | none => exact ⟨_, rfl, 0, 0, ⟨l0, l0, l0⟩, by norm_num, by norm_num⟩

theorem fit {r e B N : ℚ} (h : |r + e| ≤ B) (he : |e| ≤ N) (hB : B + N ≤ 2 ^ 200) : |r| ≤ 2 ^ 450 := by
  have h1 := abs_add_le (r + e) (-e)
  rw [abs_neg, add_neg_cancel_right] at h1
  have h2 : (2 : ℚ) ^ 200 ≤ 2 ^ 450 := pow_le_pow_right₀ (by norm_num) (by norm_num)
  exact (by linarith : |r| ≤ 2 ^ 200).trans h2

/-- the local fields of a strong chain are moderate -/
theorem om_moderate {n s : ℕ} {j h : ℕ → V3 (B64 m)} {e : V3 (B64 m)} {sp : ℕ → Spin (B64 m)} {κ a b : ℚ}
    (hn : 0 < n) (hκ : κ ≤ 2 ^ 100)
    (hj : ∀ i < n, ∃ a b d, Vals (j i) a b d ∧ |a| ≤ 2 ^ 100 ∧ |b| ≤ 2 ^ 100 ∧ |d| ≤ κ)
    (hh : ∀ i < n, ∃ a b d, Vals (h i) a b d ∧ |a| ≤ 2 ^ 100 ∧ |b| ≤ 2 ^ 100 ∧ 4 * κ + 1 ≤ |d| ∧ |d| ≤ 2 ^ 100)
    (he : Vals e a b 0) (ha : |a| ≤ 2 ^ 42) (hb : |b| ≤ 2 ^ 42)
    (hs : ∀ i < n, UnitWithin (1 / 2 ^ 22) (sp i).dir) {i : ℕ} (hi : i < n) :
    Moderate (omF n j (fieldF s h e) sp i) := by
  obtain ⟨p1, p2, p3, hp, hp2⟩ := (hs _ (Nat.mod_lt (i + n - 1) hn)).sq
  obtain ⟨q1, q2, q3, hq, hq2⟩ := (hs _ (Nat.mod_lt (i + 1) hn)).sq
  obtain ⟨x1, x2, x3, hx, hx1, hx2, hx3⟩ := hj _ (Nat.mod_lt (i + n - 1) hn)
  obtain ⟨y1, y2, y3, hy, hy1, hy2, hy3⟩ := hj i hi
  obtain ⟨z1, z2, z3, hz, hz1, hz2, hz3, hz4⟩ := hh i hi
  have bp := comp_bound hp2 (by norm_num)
  have bq := comp_bound hq2 (by norm_num)
  have κ0 : 0 ≤ κ := (abs_nonneg _).trans hx3
  -- the field at the site
  obtain ⟨f1, f2, f3, hf, hf1, hf2, hf3⟩ : ∃ f1 f2 f3 : ℚ, Vals (fieldF s h e i) f1 f2 f3 ∧
      |f1| ≤ 2 ^ 102 ∧ |f2| ≤ 2 ^ 102 ∧ |f3 - z3| ≤ (|z3| + 1) / 100 := by
    unfold fieldF
    split
    · obtain ⟨f1, k1, k2⟩ := add_coarse hz.x he.x ((abs_add_le _ _).trans (by norm_num at *; linarith))
      obtain ⟨f2, l1, l2⟩ := add_coarse hz.y he.y ((abs_add_le _ _).trans (by norm_num at *; linarith))
      obtain ⟨f3, m1, m2⟩ := add_coarse hz.z he.z ((abs_add_le _ _).trans (by norm_num at *; linarith))
      refine ⟨f1, f2, f3, ⟨k1, l1, m1⟩, ?_, ?_, ?_⟩
      · have := tri k2
        have := abs_add_le z1 a
        norm_num at *; linarith
      · have := tri l2
        have := abs_add_le z2 b
        norm_num at *; linarith
      · rwa [add_zero] at m2
    · refine ⟨z1, z2, z3, hz, hz1.trans (by norm_num), hz2.trans (by norm_num), ?_⟩
      rw [sub_self, abs_zero]
      positivity
  have hf4 := tri hf3
  have hf5 : |z3| - (|z3| + 1) / 100 ≤ |f3| := by
    have := abs_add_le f3 (-(f3 - z3))
    rw [show f3 + -(f3 - z3) = z3 by ring, abs_neg] at this
    linarith
  obtain ⟨u, u1, u2⟩ := local_bound hx.x hp.x hy.x hq.x hf.x (M := 2 ^ 100) (N := 2 ^ 102) (by norm_num) (by norm_num)
    hx1 bp.1 hy1 bq.1 hf1
  obtain ⟨v, v1, v2⟩ := local_bound hx.y hp.y hy.y hq.y hf.y (M := 2 ^ 100) (N := 2 ^ 102) (by norm_num) (by norm_num)
    hx2 bp.2.1 hy2 bq.2.1 hf2
  obtain ⟨w, w1, w2⟩ := local_bound hx.z hp.z hy.z hq.z hf.z (M := κ) (N := |f3|) (by norm_num at *; linarith)
    (by norm_num at *; linarith) hx3 bp.2.2 hy3 bq.2.2 (le_refl _)
  refine ⟨u, v, w, ⟨u1, v1, w1⟩, fit u2 hf1 (by norm_num), fit v2 hf2 (by norm_num),
    fit w2 (le_refl _) (by norm_num at *; linarith), .inr (.inr ?_)⟩
  have k1 : (1 : ℚ) / 2 ^ 450 ≤ 1 / 2 ^ 1 :=
    one_div_le_one_div_of_le (by norm_num) (pow_le_pow_right₀ (by norm_num) (by norm_num))
  refine k1.trans ?_
  have k2 := abs_add_le (w + f3) (-w)
  rw [abs_neg, show w + f3 + -w = f3 by ring] at k2
  linarith

theorem sub_unit (hm : Accurate m) {n par s : ℕ} {j h : ℕ → V3 (B64 m)} {e : V3 (B64 m)} {dt : B64 m}
    {sp : ℕ → Spin (B64 m)} (hd : ModerateStep dt)
    (hom : ∀ sp : ℕ → Spin (B64 m), (∀ i < n, UnitWithin (1 / 2 ^ 22) (sp i).dir) → ∀ i < n,
      Moderate (omF n j (fieldF s h e) sp i))
    (hs : ∀ i < n, UnitWithin (1 / 2 ^ 22) (sp i).dir) :
    (∀ i < n, UnitWithin (1 / 2 ^ 22) (subF n par j (fieldF s h e) dt sp i).dir) ∧
      ∀ i < n, (i % 2 = par ∨ UnitWithin (1 / 2 ^ 49) (sp i).dir) →
        UnitWithin (1 / 2 ^ 49) (subF n par j (fieldF s h e) dt sp i).dir := by
  have key : ∀ i < n, UnitWithin (1 / 2 ^ 49) ((sp i).rotate (omF n j (fieldF s h e) sp i) dt).dir :=
    fun i hi => C63_rotate hm _ _ _ (hs i hi) (hom sp hs i hi) hd
  constructor
  · intro i hi
    unfold subF
    split
    · exact (key i hi).mono (by norm_num)
    · exact hs i hi
  · intro i hi hp
    unfold subF
    split
    · exact key i hi
    · rename_i hc
      rcases hp with hp | hp
      · exact absurd ⟨hi, hp⟩ hc
      · exact hp

/-- one time-step -/
theorem strong_step (hm : Accurate m) {c : SpinChain (B64 m)} {L s : ℕ} {κ : ℚ} (w : WF c L s) (hL : 2 ≤ L)
    (hκ : κ ≤ 2 ^ 100) (hc : Strong c κ)
    (hs : ∀ i x, i < 2 * (L / 2) → c.spins[i]? = some x → UnitWithin (1 / 2 ^ 22) x.dir) :
    ∃ c', c.update = .ok c' ∧ WF c' L s ∧ Strong c' κ ∧
      ∀ i x, i < 2 * (L / 2) → c'.spins[i]? = some x → UnitWithin (1 / 2 ^ 49) x.dir := by
  obtain ⟨j, h, sp, hj, hh, hsp⟩ := wf_tabs w (by omega)
  obtain ⟨e, he, a, b, hab, ha, hb⟩ := hc.ext hm
  obtain ⟨s', g1, g2⟩ := update_tab w hL hj hh hsp he
  have w' := update_wf w g1
  obtain ⟨t, t1, t2⟩ := hc.t
  obtain ⟨d, d1, d2⟩ := hc.dt
  have hn : 0 < 2 * (L / 2) := by omega
  have hle : 2 * (L / 2) ≤ L := by omega
  refine ⟨_, g1, w', ⟨hc.j, hc.h, hc.drive, clock_val t1 d1 t2 d2, hc.dt, hc.tau, hc.e⟩, ?_⟩
  have k40 : (2 : ℚ) ^ 40 ≤ 2 ^ 450 := pow_le_pow_right₀ (by norm_num) (by norm_num)
  have hd1 : ModerateStep c.vars.dt := ⟨d, d1, d2.trans k40⟩
  have hd2 : ModerateStep (c.vars.dt / 2.0) := by
    have b2 : |d / 2| ≤ 2 ^ 39 := by rw [abs_div, abs_two]; norm_num at *; linarith
    obtain ⟨x, x1, x2⟩ := div_coarse d1 (lit2_val (m := m)) (by norm_num) (b2.trans (by norm_num))
    exact ⟨x, x1, ((tri x2).trans (by norm_num at *; linarith)).trans k40⟩
  have hom : ∀ sp : ℕ → Spin (B64 m), (∀ i < 2 * (L / 2), UnitWithin (1 / 2 ^ 22) (sp i).dir) →
      ∀ i < 2 * (L / 2), Moderate (omF (2 * (L / 2)) j (fieldF s h e) sp i) := by
    intro sp hs i hi
    refine om_moderate hn hκ (fun i hi => hc.j _ ?_) (fun i hi => hc.h _ ?_) hab ha hb hs hi
    · exact List.mem_of_getElem? (hj.getElem? (by omega : i < L))
    · exact List.mem_of_getElem? (hh.getElem? (by omega : i < L))
  have u0 : ∀ i < 2 * (L / 2), UnitWithin (1 / 2 ^ 22) (sp i).dir :=
    fun i hi => hs i _ hi (hsp.getElem? (by omega))
  obtain ⟨u1, v1⟩ := sub_unit (par := 0) hm hd2 hom u0
  obtain ⟨u2, v2⟩ := sub_unit (par := 1) hm hd1 hom u1
  obtain ⟨u3, v3⟩ := sub_unit (par := 0) hm hd2 hom u2
  intro i x hi hx
  rw [g2.getElem? (by omega : i < L)] at hx
  cases hx
  refine v3 i hi ?_
  by_cases hp : i % 2 = 0
  · exact .inl hp
  · exact .inr (v2 i hi (.inl (by omega)))

/-- The whole chain in binary64, with an accurate mathematics library: static fields along `z` larger
than the couplings, any of the drives along `x` and `y` (or none), any number of time-steps.  Nothing is
assumed of the later fields, spins and times.  All spins that take part in the dynamics stay within
`2 ^ (-49)` of unit length for ever (and finite, although the clock is rounded too). -/
theorem C63_updates (hm : Accurate m) (c : SpinChain (B64 m)) (L s n : ℕ) (κ : ℚ) (w : WF c L s) (hL : 2 ≤ L)
    (hc : Strong c κ) (hs : ∀ x ∈ c.spins, UnitWithin (1 / 2 ^ 22) x.dir) (hn : 1 ≤ n) :
    ∃ c', c.updates n = .ok c' ∧
      ∀ i x, i < 2 * (L / 2) → c'.spins[i]? = some x → UnitWithin (1 / 2 ^ 49) x.dir := by
  have hκ : κ ≤ 2 ^ 100 := by
    obtain ⟨x, hx⟩ : ∃ x, x ∈ c.static_h := List.exists_mem_of_length_pos (by rw [w.h]; omega)
    obtain ⟨_, _, d, _, _, _, h1, h2⟩ := hc.h x hx
    obtain ⟨y, hy⟩ : ∃ y, y ∈ c.j_couple := List.exists_mem_of_length_pos (by rw [w.j]; omega)
    obtain ⟨_, _, d', _, _, _, h3⟩ := hc.j y hy
    have := abs_nonneg d'
    linarith
  have key : ∀ n, ∃ c', c.updates (n + 1) = .ok c' ∧ WF c' L s ∧ Strong c' κ ∧
      ∀ i x, i < 2 * (L / 2) → c'.spins[i]? = some x → UnitWithin (1 / 2 ^ 49) x.dir := by
    intro n
    induction n with
    | zero =>
      obtain ⟨c', h1, h2, h3, h4⟩ := strong_step hm w hL hκ hc (fun i x _ hx => hs x (List.mem_of_getElem? hx))
      exact ⟨c', updates_succ'.2 ⟨c, rfl, h1⟩, h2, h3, h4⟩
    | succ n ih =>
      obtain ⟨c1, h1, h2, h3, h4⟩ := ih
      obtain ⟨c', g1, g2, g3, g4⟩ := strong_step hm h2 hL hκ h3 (fun i x hi hx => (h4 i x hi hx).mono (by norm_num))
      exact ⟨c', updates_succ'.2 ⟨c1, h1, g1⟩, g2, g3, g4⟩
  obtain ⟨k, rfl⟩ : ∃ k, n = k + 1 := ⟨n - 1, by omega⟩
  obtain ⟨c', h1, _, _, h4⟩ := key k
  exact ⟨c', h1, h4⟩

/-! ### Outside the moderate range -/

/-- A field of size `2 ^ (-600)` is not zero, but its squares are: the spin becomes `NaN`, whatever it was
and whatever the time-step (the library need only know that the root of zero is zero). -/
theorem C63_underflow (h0 : m.sqrt (.fin 0) = .fin 0) (s : Spin (B64 m)) (dt : B64 m) :
    Lost (B64v.nan : B64 m) (s.rotate ⟨B64v.fin (1 / 2 ^ 600), B64v.fin 0, B64v.fin 0⟩ dt).dir := by
  have hsum : sumSq (⟨B64v.fin (1 / 2 ^ 600), B64v.fin 0, B64v.fin 0⟩ : V3 (B64 m)) = (B64v.fin 0 : B64 m) := by
    show B64v.add (B64v.add (B64v.add (B64v.lit 0 true 1) (B64v.mul (.fin (1 / 2 ^ 600)) (.fin (1 / 2 ^ 600))))
      (B64v.mul (.fin 0) (.fin 0))) (B64v.mul (.fin 0) (.fin 0)) = _
    decide +kernel
  have hn := b64_absorbing m
  have hfs : FOps.fsqrt (sumSq (⟨B64v.fin (1 / 2 ^ 600), B64v.fin 0, B64v.fin 0⟩ : V3 (B64 m)))
      = (show B64 m from B64v.fin 0) := by
    rw [hsum]
    exact h0
  have hy : (show B64 m from B64v.fin 0) / (show B64 m from B64v.fin 0) = (B64v.nan : B64 m) := rfl
  have key : ∀ (d : B64 m), 0.0 + s.dir.x * d + s.dir.y * ((show B64 m from B64v.fin 0) / (show B64 m from B64v.fin 0))
      + s.dir.z * ((show B64 m from B64v.fin 0) / (show B64 m from B64v.fin 0)) = (B64v.nan : B64 m) := by
    intro d
    rw [hy]
    simp only [hn.add_r, hn.mul_r]
    exact hn.add_r _
  unfold Spin.rotate
  dsimp only
  rw [hfs, key]
  simp only [hn.add_r, hn.mul_l, hn.mul_r, hn.div_l, hn.sub_l]
  exact ⟨rfl, rfl, rfl⟩

/-- A field of size `2 ^ 600` is finite, but its squares are not: again the spin becomes `NaN` (the
library gives infinity for the root of infinity and has no cosine of infinity). -/
theorem C63_overflow (h0 : m.sqrt (.inf false) = .inf false) (h1 : ∀ b, m.cos (.inf b) = .nan)
    (h2 : m.cos .nan = .nan) (s : Spin (B64 m)) (dt : B64 m) :
    Lost (B64v.nan : B64 m) (s.rotate ⟨B64v.fin (2 ^ 600), B64v.fin 0, B64v.fin 0⟩ dt).dir := by
  have hsum : sumSq (⟨B64v.fin (2 ^ 600), B64v.fin 0, B64v.fin 0⟩ : V3 (B64 m)) = (B64v.inf false : B64 m) := by
    show B64v.add (B64v.add (B64v.add (B64v.lit 0 true 1) (B64v.mul (.fin (2 ^ 600)) (.fin (2 ^ 600))))
      (B64v.mul (.fin 0) (.fin 0))) (B64v.mul (.fin 0) (.fin 0)) = _
    decide +kernel
  have hn := b64_absorbing m
  have hfs : FOps.fsqrt (sumSq (⟨B64v.fin (2 ^ 600), B64v.fin 0, B64v.fin 0⟩ : V3 (B64 m)))
      = (show B64 m from B64v.inf false) := by
    rw [hsum]
    exact h0
  have hc : FOps.fcos ((show B64 m from B64v.inf false) * dt) = (show B64 m from B64v.nan) := by
    show m.cos (B64v.mul (.inf false) dt) = .nan
    cases (show B64v from dt) with
    | nan => exact h2
    | inf b => exact h1 _
    | nzero => exact h2
    | fin q =>
      unfold B64v.mul
      dsimp only
      split
      · exact h2
      · exact h1 _
  unfold Spin.rotate
  dsimp only
  rw [hfs, hc]
  have e1 : ∀ x : B64 m, x * (show B64 m from B64v.nan) = (show B64 m from B64v.nan) := hn.mul_r
  have e2 : ∀ x : B64 m, (show B64 m from B64v.nan) + x = (show B64 m from B64v.nan) := hn.add_l
  have e3 : ∀ x : B64 m, (show B64 m from B64v.nan) - x = (show B64 m from B64v.nan) := hn.sub_l
  have e4 : ∀ x : B64 m, (show B64 m from B64v.nan) / x = (show B64 m from B64v.nan) := hn.div_l
  simp only [e1, e2, e3, e4]
  exact ⟨rfl, rfl, rfl⟩

example : ∃ m : Libm, m.sqrt (.fin 0) = .fin 0 ∧ m.sqrt (.inf false) = .inf false ∧
    (∀ b, m.cos (.inf b) = .nan) ∧ m.cos .nan = .nan :=
  ⟨⟨id, id, fun x => match x with | .inf _ => .nan | y => y, id, id, id, id, id⟩, rfl, rfl, fun _ => rfl, rfl⟩

/-! ### Accurate libraries exist -/

theorem exists_near (x e : ℝ) (he : 0 < e) : ∃ r : ℚ, |(r : ℝ) - x| ≤ e := by
  obtain ⟨r, h1, h2⟩ := exists_rat_btwn (show x < x + e by linarith)
  exact ⟨r, by rw [abs_le]; constructor <;> linarith⟩

open Classical in
/-- a library that rounds somehow to nearby numbers -/
noncomputable def goodLibm : Libm :=
  let near := fun (f : ℝ → ℝ) (e : ℝ → ℝ) (x : B64v) =>
    if h : ∃ r : ℚ, |(r : ℝ) - f x.val| ≤ e x.val then B64v.fin h.choose else .nan
  { sqrt := near Real.sqrt (fun q => 1 / 2 ^ 53 * Real.sqrt q)
    sin := near Real.sin (fun _ => 1 / 2 ^ 30)
    cos := near Real.cos (fun _ => 1 / 2 ^ 30)
    acos := id
    atan := id
    exp := id
    ln := id
    tanh := id }

theorem goodLibm_accurate : Accurate goodLibm := by
  constructor
  · intro x q hx hq
    have q0 : (0 : ℚ) < q := lt_of_lt_of_le (by positivity) hq
    have q1 : (0 : ℝ) < q := by exact_mod_cast q0
    have s0 := Real.sqrt_pos.mpr q1
    have h : ∃ r : ℚ, |(r : ℝ) - Real.sqrt x.val| ≤ 1 / 2 ^ 53 * Real.sqrt x.val := by
      rw [hx.val]
      exact exists_near _ _ (by positivity)
    refine ⟨h.choose, .inl (dif_pos h), ?_⟩
    have hv := hx.val
    subst hv
    exact h.choose_spec
  · intro x q hx
    have h : ∃ r : ℚ, |(r : ℝ) - Real.cos x.val| ≤ 1 / 2 ^ 30 := exists_near _ _ (by norm_num)
    refine ⟨h.choose, .inl (dif_pos h), ?_⟩
    have hv := hx.val
    subst hv
    exact h.choose_spec
  · intro x q hx
    have h : ∃ r : ℚ, |(r : ℝ) - Real.sin x.val| ≤ 1 / 2 ^ 30 := exists_near _ _ (by norm_num)
    refine ⟨h.choose, .inl (dif_pos h), ?_⟩
    have hv := hx.val
    subst hv
    exact h.choose_spec

/-- four spins, couplings 1, fields 5 along `z`, rotating drive on two sites -/
def strongChain (m : Libm) : SpinChain (B64 m) where
  vars := { Config.default with
    hsize := 4
    ssize := 2
    dt := B64v.fin (1 / 64)
    tau := B64v.fin 1
    e := B64v.fin (1 / 2)
    hs := [B64v.fin 0, B64v.fin 0, B64v.fin 0]
    drive := .xyelliptic }
  spins := [⟨⟨B64v.fin 1, B64v.fin 0, B64v.nzero⟩⟩, ⟨⟨B64v.fin 0, B64v.fin (-1), B64v.fin 0⟩⟩,
    ⟨⟨B64v.fin 0, B64v.fin 0, B64v.fin 1⟩⟩, ⟨⟨B64v.fin (10066330 / 2 ^ 24), B64v.fin (13421773 / 2 ^ 24), B64v.fin 0⟩⟩]
  j_couple := List.replicate 4 ⟨B64v.fin 1, B64v.fin 1, B64v.fin 1⟩
  static_h := List.replicate 4 ⟨B64v.fin 0, B64v.fin (1 / 2), B64v.fin 5⟩
  t := B64v.fin 0
  file := none

theorem strongChain_wf (m : Libm) : WF (strongChain m) 4 2 :=
  ⟨rfl, rfl, by norm_num, by norm_num, rfl, rfl, rfl, le_refl 3⟩

theorem strongChain_strong (m : Libm) : Strong (strongChain m) 1 := by
  refine ⟨?_, ?_, by simp [strongChain], ⟨0, .inl rfl, by norm_num⟩, ⟨1 / 64, .inl rfl, by norm_num⟩,
    ⟨1, .inl rfl, by norm_num⟩, ⟨1 / 2, .inl rfl, by norm_num⟩⟩
  · intro x hx
    rw [List.eq_of_mem_replicate hx]
    exact ⟨1, 1, 1, ⟨.inl rfl, .inl rfl, .inl rfl⟩, by norm_num, by norm_num, by norm_num⟩
  · intro x hx
    rw [List.eq_of_mem_replicate hx]
    exact ⟨0, 1 / 2, 5, ⟨.inl rfl, .inl rfl, .inl rfl⟩, by norm_num, by norm_num, by norm_num, by norm_num⟩

theorem strongChain_unit (m : Libm) : ∀ x ∈ (strongChain m).spins, UnitWithin (1 / 2 ^ 22) x.dir := by
  intro x hx
  simp only [strongChain, List.mem_cons, List.not_mem_nil, or_false] at hx
  rcases hx with rfl | rfl | rfl | rfl
  · exact ⟨1, 0, 0, ⟨.inl rfl, .inl rfl, .inr ⟨rfl, rfl⟩⟩, len_of_sq (by positivity) (by norm_num)⟩
  · exact ⟨0, -1, 0, ⟨.inl rfl, .inl rfl, .inl rfl⟩, len_of_sq (by positivity) (by norm_num)⟩
  · exact ⟨0, 0, 1, ⟨.inl rfl, .inl rfl, .inl rfl⟩, len_of_sq (by positivity) (by norm_num)⟩
  · exact ⟨10066330 / 2 ^ 24, 13421773 / 2 ^ 24, 0, ⟨.inl rfl, .inl rfl, .inl rfl⟩,
      len_of_sq (by positivity) (by push_cast; rw [abs_le]; constructor <;> norm_num)⟩

/-- after a billion steps -/
example : ∃ c', (strongChain goodLibm).updates (10 ^ 9) = .ok c' ∧
    ∀ i x, i < 4 → c'.spins[i]? = some x → UnitWithin (1 / 2 ^ 49) x.dir :=
  C63_updates goodLibm_accurate _ 4 2 _ 1 (strongChain_wf _) (by norm_num) (strongChain_strong _)
    (strongChain_unit _) (by norm_num)

example (x : Spin (B64 goodLibm)) (hx : UnitWithin (1 / 2 ^ 22) x.dir) :
    UnitWithin (1 / 2 ^ 49) ((List.replicate 1000
      ((⟨B64v.fin 1, B64v.nzero, B64v.fin (1 / 3)⟩ : V3 (B64 goodLibm)), (B64v.fin (1 / 100) : B64 goodLibm))).foldl
        (fun s r => s.rotate r.1 r.2) x).dir := by
  have k : (2 : ℚ) ^ 1 ≤ 2 ^ 450 := pow_le_pow_right₀ (by norm_num) (by norm_num)
  have k' : (1 : ℚ) / 2 ^ 450 ≤ 1 / 2 ^ 1 := one_div_le_one_div_of_le (by norm_num) k
  refine C63_history goodLibm_accurate x _ hx (fun r hr => ?_) (List.ne_nil_of_length_pos (by rw [List.length_replicate]; norm_num))
  rw [List.eq_of_mem_replicate hr]
  refine ⟨⟨1, 0, 1 / 3, ⟨.inl rfl, .inr ⟨rfl, rfl⟩, .inl rfl⟩, ?_, ?_, ?_, .inl (k'.trans ?_)⟩, 1 / 100, .inl rfl, ?_⟩
  · exact le_trans (by norm_num) k
  · exact le_trans (by norm_num) k
  · exact le_trans (by norm_num) k
  · norm_num
  · exact le_trans (by norm_num) k

end Verif.Props
