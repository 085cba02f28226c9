/-
Forward errors of one time-step in binary64 against exact arithmetic.
-/
import Verif.Lemmas.Forward
import Verif.Lemmas.Update
import Mathlib.Analysis.Real.Pi.Bounds

namespace Verif

/-- `x` is a finite number of value `a` -/
def IsVal (x : B64v) (a : ℝ) : Prop := ∃ q : ℚ, HasVal x q ∧ (q : ℝ) = a

/-- the components of `x` are finite numbers, and `v` is the vector of their values -/
def IsVal3 {m : Libm} (x : V3 (B64 m)) (v : V3 ℝ) : Prop := IsVal x.x v.x ∧ IsVal x.y v.y ∧ IsVal x.z v.z

namespace Forward

open Spec

variable {m : Libm}

theorem isVal_near {x : B64v} {a : ℝ} (h : IsVal x a) (ε : ℝ) : NearR x a (0 * ε) := by
  obtain ⟨q, h1, rfl⟩ := h
  exact near0 h1 ε

theorem isVal3_vals {x : V3 (B64 m)} {v : V3 ℝ} (h : IsVal3 x v) :
    ∃ a b c : ℚ, Vals x a b c ∧ v = ⟨a, b, c⟩ := by
  obtain ⟨⟨a, h1, e1⟩, ⟨b, h2, e2⟩, c, h3, e3⟩ := h
  exact ⟨a, b, c, ⟨h1, h2, h3⟩, by ext <;> simp [e1, e2, e3]⟩

theorem vals_isVal3 {x : V3 (B64 m)} {a b c : ℚ} (h : Vals x a b c) : IsVal3 x ⟨a, b, c⟩ :=
  ⟨⟨a, h.x, rfl⟩, ⟨b, h.y, rfl⟩, ⟨c, h.z, rfl⟩⟩

/-- vector within given distance of its components -/
theorem near3 {x : V3 (B64 m)} {v : V3 ℝ} {e : ℝ} (h1 : NearR x.x v.x e) (h2 : NearR x.y v.y e) (h3 : NearR x.z v.z e) :
    ∃ w, IsVal3 x w ∧ len (Spec.sub w v) ≤ 7 / 4 * e := by
  obtain ⟨a, a1, a2⟩ := h1
  obtain ⟨b, b1, b2⟩ := h2
  obtain ⟨c, c1, c2⟩ := h3
  exact ⟨⟨a, b, c⟩, vals_isVal3 ⟨a1, b1, c1⟩, len_of_comp a2 b2 c2⟩

/-- a component of a local field -/
theorem field_comp {ε M : ℝ} (he : Tol ε) (hM : 1 ≤ M) (hM' : M ≤ 2 ^ 100) (hMe : M * ε ≤ 1 / 100)
    {jl sl jr sr h : B64v} {a b c d e : ℝ} (h1 : IsVal jl a) (h2 : IsVal sl b) (h3 : IsVal jr c)
    (h4 : IsVal sr d) (h5 : IsVal h e) (ha : |a| ≤ M) (hb : |b| ≤ 11 / 10) (hc : |c| ≤ M) (hd : |d| ≤ 11 / 10)
    (hh : |e| ≤ 2 * M) :
    NearR (((jl.mul sl).add (jr.mul sr)).add h.neg) (a * b + c * d - e) (9 * M * ε) := by
  have e0 := Tol.pos he
  have t1 := (isVal_near h1 ε).mul he (isVal_near h2 ε) ha hb (by linarith) (by norm_num at *; linarith) le_rfl
    (by linarith) (by norm_num)
  have t2 := (isVal_near h3 ε).mul he (isVal_near h4 ε) hc hd (by linarith) (by norm_num at *; linarith) le_rfl
    (by linarith) (by norm_num)
  have b1 : |a * b| ≤ M * (11 / 10) := by
    rw [abs_mul]; exact mul_le_mul ha hb (abs_nonneg _) (by linarith)
  have b2 : |c * d| ≤ M * (11 / 10) := by
    rw [abs_mul]; exact mul_le_mul hc hd (abs_nonneg _) (by linarith)
  have b3 : |a * b + c * d| ≤ 22 / 10 * M := (abs_add_le _ _).trans (by linarith)
  have t3 := t1.add he t2 b3 (by linarith) (by norm_num at *; linarith) (by linarith) (by linarith)
  have b4 : |a * b + c * d - e| ≤ 42 / 10 * M := by
    rw [abs_le] at *
    constructor <;> linarith
  have t4 := t3.sub he (isVal_near h5 ε) b4 (by linarith) (by norm_num at *; linarith) (by linarith) (by linarith)
  refine t4.mono ?_
  have : 0 ≤ M * ε := by positivity
  linarith

/-- the computed local field -/
theorem omega_near {ε M : ℝ} (he : Tol ε) (hM : 1 ≤ M) (hM' : M ≤ 2 ^ 100) (hMe : M * ε ≤ 1 / 100) {n : ℕ}
    {j h : ℕ → V3 (B64 m)} {sp : ℕ → Spin (B64 m)} {Jr Bh V : ℕ → V3 ℝ} (hj : ∀ i < n, IsVal3 (j i) (Jr i))
    (hJ : ∀ i < n, len (Jr i) ≤ M) (hh : ∀ i < n, IsVal3 (h i) (Bh i)) (hB : ∀ i < n, len (Bh i) ≤ 2 * M)
    (hs : ∀ i < n, IsVal3 (sp i).dir (V i)) (hV : ∀ i < n, len (V i) ≤ 11 / 10) {i : ℕ} (hi : i < n) :
    ∃ w, IsVal3 (omF n j h sp i) w ∧ len (Spec.sub w (omega n V Jr Bh i)) ≤ 16 * M * ε := by
  have hl : left n i < n := left_lt (by omega)
  have hr : right n i < n := right_lt' (by omega)
  have bJ := abs_le_len (Jr (left n i))
  have bJ' := abs_le_len (Jr i)
  have bV := abs_le_len (V (left n i))
  have bV' := abs_le_len (V (right n i))
  have bB := abs_le_len (Bh i)
  have cJ := hJ _ hl
  have cJ' := hJ i hi
  have cV := hV _ hl
  have cV' := hV _ hr
  have cB := hB i hi
  have k1 := hj _ hl
  have k2 := hj i hi
  have k3 := hs _ hl
  have k4 := hs _ hr
  have k5 := hh i hi
  obtain ⟨w, w1, w2⟩ := near3 (x := omF n j h sp i) (v := omega n V Jr Bh i)
    (field_comp he hM hM' hMe k1.1 k3.1 k2.1 k4.1 k5.1 (bJ.1.trans cJ) (bV.1.trans cV) (bJ'.1.trans cJ')
      (bV'.1.trans cV') (bB.1.trans cB))
    (field_comp he hM hM' hMe k1.2.1 k3.2.1 k2.2.1 k4.2.1 k5.2.1 (bJ.2.1.trans cJ) (bV.2.1.trans cV) (bJ'.2.1.trans cJ')
      (bV'.2.1.trans cV') (bB.2.1.trans cB))
    (field_comp he hM hM' hMe k1.2.2 k3.2.2 k2.2.2 k4.2.2 k5.2.2 (bJ.2.2.trans cJ) (bV.2.2.trans cV) (bJ'.2.2.trans cJ')
      (bV'.2.2.trans cV') (bB.2.2.trans cB))
  refine ⟨w, w1, w2.trans ?_⟩
  have : 0 ≤ M * ε := mul_nonneg (by linarith) (Tol.pos he).le
  linarith

/-- one sub-step: the errors `D` in the spins and `β` in the fields become an error of
`(1 + 2 M h) D + 1000 ε + (β + 16 M ε) h` -/
theorem sub_near {ε M D β μ : ℝ} (he : Tol ε) (hm : AccurateTo ε m) (hM : 1 ≤ M) (hM' : M ≤ 2 ^ 100)
    (hMe : M * ε ≤ 1 / 100) {n par : ℕ} {j h : ℕ → V3 (B64 m)} {sp : ℕ → Spin (B64 m)} {dt : B64 m} {τ : ℚ} {t : ℝ}
    {Jr Br Bh V S : ℕ → V3 ℝ} (hj : ∀ i < n, IsVal3 (j i) (Jr i)) (hJ : ∀ i < n, len (Jr i) ≤ M)
    (hh : ∀ i < n, IsVal3 (h i) (Bh i)) (hB : ∀ i < n, len (Br i) ≤ M) (hβ : ∀ i < n, len (Spec.sub (Bh i) (Br i)) ≤ β)
    (β1 : β ≤ M)
    (hs : ∀ i < n, IsVal3 (sp i).dir (V i)) (hV : ∀ i < n, |len (V i) - 1| ≤ 8 * ε)
    (hD : ∀ i < n, len (Spec.sub (V i) (S i)) ≤ D) (hS : ∀ i < n, len (S i) = 1)
    (hμ : ∀ i < n, i % 2 = par → μ ≤ len (omega n S Jr Br i)) (μ0 : 1 / 2 ^ 100 ≤ μ)
    (small : 2 * M * D + β + 16 * M * ε ≤ μ / 2)
    (ht : HasVal dt τ) (t0 : 0 ≤ t) (t1 : 5 * M * t ≤ 1) (hτ : 5 * M * |τ - t| ≤ ε) :
    ∃ V' : ℕ → V3 ℝ, ∀ i < n, IsVal3 (subF n par j h dt sp i).dir (V' i) ∧ |len (V' i) - 1| ≤ 8 * ε ∧
      len (Spec.sub (V' i) (subStep n par Jr Br t S i)) ≤ (1 + 2 * M * t) * D + (1000 * ε + (β + 16 * M * ε) * t) := by
  have e0 := Tol.pos he
  have e1 := he.hi
  have key : ∀ i, ∃ v : V3 ℝ, i < n → IsVal3 (subF n par j h dt sp i).dir v ∧ |len v - 1| ≤ 8 * ε ∧
      len (Spec.sub v (subStep n par Jr Br t S i)) ≤ (1 + 2 * M * t) * D + (1000 * ε + (β + 16 * M * ε) * t) := by
    intro i
    by_cases hi : i < n
    swap
    · exact ⟨zero, fun h => absurd h hi⟩
    have D0 : 0 ≤ D := (len_nonneg _).trans (hD i hi)
    have β0 : 0 ≤ β := (len_nonneg _).trans (hβ i hi)
    by_cases hc : i < n ∧ i % 2 = par
    · have hVl : ∀ i < n, len (V i) ≤ 11 / 10 := fun i hi => by
        have := (abs_le.1 (hV i hi)).2
        norm_num at *; linarith
      have hBh : ∀ i < n, len (Bh i) ≤ 2 * M := fun i hi => by
        have h1 := len_add_le (Spec.sub (Bh i) (Br i)) (Br i)
        rw [show Spec.add (Spec.sub (Bh i) (Br i)) (Br i) = Bh i by ext <;> simp [Spec.add, Spec.sub]] at h1
        have := hβ i hi
        have := hB i hi
        linarith
      obtain ⟨w, w1, w2⟩ := omega_near he hM hM' hMe hj hJ hh hBh hs hVl hi
      -- distance from the exact local field
      have w3 : len (Spec.sub w (omega n S Jr Br i)) ≤ 2 * M * D + β + 16 * M * ε := by
        have h1 := len_sub_tri w (omega n V Jr Bh i) (omega n S Jr Br i)
        have h2 := len_sub_tri (omega n V Jr Bh i) (omega n V Jr Br i) (omega n S Jr Br i)
        have h3 := omega_dist (Bf := Br) hJ hD hi
        have h4 : len (Spec.sub (omega n V Jr Bh i) (omega n V Jr Br i)) ≤ β := by
          rw [show Spec.sub (omega n V Jr Bh i) (omega n V Jr Br i) = neg (Spec.sub (Bh i) (Br i)) by
            ext <;> simp only [omega, Spec.sub, Spec.add, had, neg] <;> ring, len_neg]
          exact hβ i hi
        linarith
      have w4 := (abs_len_sub w (omega n S Jr Br i)).trans (w3.trans small)
      have w5 := hμ i hi hc.2
      have w6 : len (omega n S Jr Br i) ≤ 3 * M := by
        have hl := left_lt (m := n) (i := i) (by omega)
        have hr := right_lt' (m := n) (i := i) (by omega)
        unfold omega
        have h1 := len_had_le (Jr (left n i)) (S (left n i))
        have h2 := len_had_le (Jr i) (S (right n i))
        have h3 := len_sub_le (Spec.add (had (Jr (left n i)) (S (left n i))) (had (Jr i) (S (right n i)))) (Br i)
        have h4 := len_add_le (had (Jr (left n i)) (S (left n i))) (had (Jr i) (S (right n i)))
        rw [hS _ hl, mul_one] at h1
        rw [hS _ hr, mul_one] at h2
        have := hJ _ hl
        have := hJ i hi
        have := hB i hi
        linarith
      have w7 : μ / 2 ≤ len w ∧ len w ≤ 5 * M := by
        have := abs_le.1 w4
        constructor <;> linarith
      obtain ⟨a, b, c, hf, rfl⟩ := isVal3_vals w1
      obtain ⟨p1, p2, p3, hp, hpe⟩ := isVal3_vals (hs i hi)
      have wsq : len (⟨a, b, c⟩ : V3 ℝ) * len (⟨a, b, c⟩ : V3 ℝ) = ((a ^ 2 + b ^ 2 + c ^ 2 : ℚ) : ℝ) := by
        rw [len_sq]; simp only [dot]; push_cast; ring
      have up : a ^ 2 + b ^ 2 + c ^ 2 ≤ 2 ^ 900 := by
        have h1 : len (⟨a, b, c⟩ : V3 ℝ) * len (⟨a, b, c⟩ : V3 ℝ) ≤ 2 ^ 103 * 2 ^ 103 := by
          have : len (⟨a, b, c⟩ : V3 ℝ) ≤ 2 ^ 103 := w7.2.trans (by norm_num at *; linarith)
          exact mul_le_mul this this (len_nonneg _) (by positivity)
        rw [wsq, ← pow_add] at h1
        have h2 : a ^ 2 + b ^ 2 + c ^ 2 ≤ 2 ^ (103 + 103) := by exact_mod_cast h1
        exact h2.trans (pow_le_pow_right₀ (by norm_num) (by norm_num))
      have dn : 1 / 2 ^ 900 ≤ a ^ 2 + b ^ 2 + c ^ 2 := by
        have h1 : 1 / 2 ^ 101 * (1 / 2 ^ 101) ≤ len (⟨a, b, c⟩ : V3 ℝ) * len (⟨a, b, c⟩ : V3 ℝ) := by
          have : 1 / 2 ^ 101 ≤ len (⟨a, b, c⟩ : V3 ℝ) := le_trans (by norm_num at *; linarith) w7.1
          exact mul_le_mul this this (by positivity) (len_nonneg _)
        rw [wsq, div_mul_div_comm, one_mul, ← pow_add] at h1
        have h2 : 1 / 2 ^ (101 + 101) ≤ a ^ 2 + b ^ 2 + c ^ 2 := by
          refine (Rat.cast_le (K := ℝ)).1 (le_trans (le_of_eq ?_) h1)
          push_cast
          rfl
        exact le_trans (one_div_le_one_div_of_le (by positivity) (pow_le_pow_right₀ (by norm_num) (by norm_num))) h2
      have a0 := sq_nonneg a
      have b0 := sq_nonneg b
      have c0 := sq_nonneg c
      have hθ : len (⟨a, b, c⟩ : V3 ℝ) * |t| ≤ 1 := by
        rw [abs_of_nonneg t0]
        exact (mul_le_mul_of_nonneg_right w7.2 t0).trans t1
      have hτ' : len (⟨a, b, c⟩ : V3 ℝ) * |τ - t| ≤ ε :=
        (mul_le_mul_of_nonneg_right w7.2 (abs_nonneg _)).trans hτ
      have hpl := hV i hi
      rw [hpe] at hpl
      obtain ⟨q1, q2, q3, r1, r2, r3⟩ := rotate_near he hm hp hf ht hpl
        (le_trans (by linarith only [a0, b0, c0]) up) (le_trans (by linarith only [a0, b0, c0]) up)
        (le_trans (by linarith only [a0, b0, c0]) up) dn hθ hτ'
      clear up dn
      refine ⟨⟨q1, q2, q3⟩, fun _ => ⟨?_, r2, ?_⟩⟩
      · unfold subF
        rw [if_pos hc]
        exact vals_isVal3 r1
      · rw [subStep_pos hc]
        have h1 := precess_dist ⟨p1, p2, p3⟩ (S i) ⟨a, b, c⟩ (omega n S Jr Br i) t0
        rw [hS i hi, one_mul, ← hpe] at h1
        rw [← hpe] at r3
        have h2 := mul_le_mul_of_nonneg_right w3 t0
        have h3 := hD i hi
        have h4 := len_sub_tri ⟨q1, q2, q3⟩ (precess (V i) ⟨a, b, c⟩ t) (precess (S i) (omega n S Jr Br i) t)
        linarith
    · refine ⟨V i, fun _ => ⟨?_, hV i hi, ?_⟩⟩
      · unfold subF
        rw [if_neg hc]
        exact hs i hi
      · rw [subStep_neg hc]
        have h1 := hD i hi
        have h2 : 0 ≤ 2 * M * t * D := by positivity
        have h3 : 0 ≤ (β + 16 * M * ε) * t := by positivity
        linarith
  choose V' hV' using key
  exact ⟨V', hV'⟩

end Forward

end Verif
