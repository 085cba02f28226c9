/-
Forward errors of a time-step, of the clock and of the drive, in binary64 against exact arithmetic.
-/
import Verif.Lemmas.ForwardChain
import Mathlib.Analysis.Real.Pi.Bounds

namespace Verif.Forward

open Spec

variable {m : Libm}

/-- The local fields used in a time-step are no smaller than `μ`. -/
structure RegularBy (μ : ℝ) (n : ℕ) (J B : ℕ → V3 ℝ) (dt : ℝ) (S : ℕ → V3 ℝ) : Prop where
  first : ∀ i < n, i % 2 = 0 → μ ≤ len (omega n S J B i)
  second : ∀ i < n, i % 2 = 1 → μ ≤ len (omega n (subStep n 0 J B (dt / 2) S) J B i)
  third : ∀ i < n, i % 2 = 0 → μ ≤ len (omega n (subStep n 1 J B dt (subStep n 0 J B (dt / 2) S)) J B i)

theorem RegularBy.regular {μ : ℝ} {n : ℕ} {J B : ℕ → V3 ℝ} {dt : ℝ} {S : ℕ → V3 ℝ} (h : RegularBy μ n J B dt S)
    (hμ : 0 < μ) : Regular n J B dt S := by
  have key : ∀ v : V3 ℝ, μ ≤ len v → v ≠ zero := by
    rintro v hv rfl
    have : len (zero : V3 ℝ) = 0 := by simp [len, dot, zero]
    linarith
  exact ⟨fun i hi hp => key _ (h.first i hi hp), fun i hi hp => key _ (h.second i hi hp),
    fun i hi hp => key _ (h.third i hi hp)⟩

/-- halving the time-step -/
theorem half_near {dt : B64 m} {τ : ℚ} (h : HasVal dt τ) (h1 : |(τ : ℝ)| ≤ 1) :
    ∃ σ : ℚ, HasVal (dt / 2.0) σ ∧ |(σ : ℝ) - τ / 2| ≤ 1 / 2 ^ 53 * |(τ : ℝ)| + 1 / 2 ^ 200 := by
  have hb : |τ / 2| ≤ big := le_big_real (by
    push_cast
    rw [abs_div, abs_two]
    exact (by linarith : |(τ : ℝ)| / 2 ≤ 1).trans (one_le_pow₀ (by norm_num)))
  obtain ⟨r, r1, r2, _⟩ := h.div (lit2_val (m := m)) (by norm_num) hb
  refine ⟨r, r1, ?_⟩
  have r3 : |(r : ℝ) - τ / 2| ≤ uro * |(τ : ℝ) / 2| + eta := by exact_mod_cast r2
  refine r3.trans ?_
  rw [uro_real, abs_div, abs_two]
  have := eta_real
  have := abs_nonneg (τ : ℝ)
  have : (1 : ℝ) / 2 ^ 53 * (|(τ : ℝ)| / 2) ≤ 1 / 2 ^ 53 * |(τ : ℝ)| := by
    apply mul_le_mul_of_nonneg_left _ (by positivity)
    linarith
  linarith

/-- one time-step: the errors `D` in the spins and `β` in the fields become an error of
`exp (4 M dt) (D + 3 a)` with `a = 1000 ε + (β + 16 M ε) dt` -/
theorem step_near {ε M D β μ : ℝ} (he : Tol ε) (hm : AccurateTo ε m) (hM : 1 ≤ M) (hM' : M ≤ 2 ^ 100)
    (hMe : M * ε ≤ 1 / 100) {n : ℕ} {j h : ℕ → V3 (B64 m)} {sp : ℕ → Spin (B64 m)} {dt : B64 m} {τ : ℚ}
    {Jr Br Bh V S : ℕ → V3 ℝ} (hj : ∀ i < n, IsVal3 (j i) (Jr i)) (hJ : ∀ i < n, len (Jr i) ≤ M)
    (hh : ∀ i < n, IsVal3 (h i) (Bh i)) (hB : ∀ i < n, len (Br i) ≤ M) (hβ : ∀ i < n, len (Spec.sub (Bh i) (Br i)) ≤ β)
    (β1 : β ≤ M)
    (hs : ∀ i < n, IsVal3 (sp i).dir (V i)) (hV : ∀ i < n, |len (V i) - 1| ≤ 8 * ε)
    (hD : ∀ i < n, len (Spec.sub (V i) (S i)) ≤ D) (hS : ∀ i < n, len (S i) = 1)
    (hμ : RegularBy μ n Jr Br τ S) (μ0 : 1 / 2 ^ 100 ≤ μ) {a : ℝ} (ha : 1000 * ε + (β + 16 * M * ε) * τ ≤ a)
    (small : 2 * M * (Real.exp (4 * M * τ) * (D + 3 * a)) + β + 16 * M * ε ≤ μ / 2)
    (ht : HasVal dt τ) (t0 : (0 : ℝ) ≤ τ) (t1 : 5 * M * τ ≤ 1) :
    ∃ V' : ℕ → V3 ℝ, ∀ i < n, IsVal3 (stepF n j h dt sp i).dir (V' i) ∧ |len (V' i) - 1| ≤ 8 * ε ∧
      len (Spec.sub (V' i) (step n Jr Br τ S i)) ≤ Real.exp (4 * M * τ) * (D + 3 * a) := by
  rcases Nat.eq_zero_or_pos n with rfl | n0
  · exact ⟨fun _ => zero, fun i hi => absurd hi (by omega)⟩
  have e0 := Tol.pos he
  have D0 : 0 ≤ D := (len_nonneg _).trans (hD 0 n0)
  have β0 : 0 ≤ β := (len_nonneg _).trans (hβ 0 n0)
  have a0 : 0 ≤ a := le_trans (by positivity) ha
  have τ1 : |(τ : ℝ)| ≤ 1 := by rw [abs_of_nonneg t0]; nlinarith
  obtain ⟨σ, σ1, σ2⟩ := half_near ht τ1
  rw [abs_of_nonneg t0] at σ2
  have σ3 : 5 * M * |(σ : ℝ) - τ / 2| ≤ ε := by
    have h1 : 5 * M * |(σ : ℝ) - τ / 2| ≤ 5 * M * (1 / 2 ^ 53 * τ + 1 / 2 ^ 200) :=
      mul_le_mul_of_nonneg_left σ2 (by positivity)
    have h2 : 5 * M * (1 / 2 ^ 53 * τ + 1 / 2 ^ 200) = 1 / 2 ^ 53 * (5 * M * τ) + M * (5 / 2 ^ 200) := by ring
    have h3 : M * (5 / 2 ^ 200) ≤ 2 ^ 100 * (5 / 2 ^ 200) := mul_le_mul_of_nonneg_right hM' (by positivity)
    have h4 := he.lo
    rw [h2] at h1
    norm_num at *
    linarith
  -- factors
  obtain ⟨x, hx⟩ : ∃ x, x = 2 * M * (τ / 2 : ℝ) := ⟨_, rfl⟩
  obtain ⟨y, hy⟩ : ∃ y, y = 2 * M * (τ : ℝ) := ⟨_, rfl⟩
  have x0 : 0 ≤ x := by rw [hx]; positivity
  have y0 : 0 ≤ y := by rw [hy]; positivity
  have k1 := Real.add_one_le_exp x
  have k2 := Real.add_one_le_exp y
  have hexp : Real.exp (4 * M * τ) = Real.exp x * (Real.exp y * Real.exp x) := by
    rw [← Real.exp_add, ← Real.exp_add]
    congr 1
    rw [hx, hy]; ring
  have q1 : 1 ≤ Real.exp x := Real.one_le_exp x0
  have q2 : 1 ≤ Real.exp y := Real.one_le_exp y0
  generalize Real.exp x = X at *
  generalize Real.exp y = Y at *
  have g1 : (1 + x) * D + a ≤ X * (D + a) := by nlinarith
  have g2 : (1 + y) * (X * (D + a)) + a ≤ Y * X * (D + 2 * a) := by
    have h1 : (1 + y) * (X * (D + a)) ≤ Y * (X * (D + a)) :=
      mul_le_mul_of_nonneg_right (by linarith) (by positivity)
    have h2 : a ≤ Y * X * a := by
      have : 1 ≤ Y * X := by nlinarith
      nlinarith
    linarith
  have g3 : (1 + x) * (Y * X * (D + 2 * a)) + a ≤ X * (Y * X) * (D + 3 * a) := by
    have h1 : (1 + x) * (Y * X * (D + 2 * a)) ≤ X * (Y * X * (D + 2 * a)) :=
      mul_le_mul_of_nonneg_right (by linarith) (by positivity)
    have h2 : a ≤ X * (Y * X) * a := by
      have : 1 ≤ Y * X := by nlinarith
      have : 1 ≤ X * (Y * X) := by nlinarith
      nlinarith
    linarith
  rw [← hexp] at g3
  have l3 : (Y * X) * (D + 2 * a) ≤ Real.exp (4 * M * τ) * (D + 3 * a) := by
    have : 0 ≤ x * (Y * X * (D + 2 * a)) := by positivity
    linarith
  have l2 : X * (D + a) ≤ Real.exp (4 * M * τ) * (D + 3 * a) := by
    have : 0 ≤ y * (X * (D + a)) := by positivity
    linarith
  have l1 : D ≤ Real.exp (4 * M * τ) * (D + 3 * a) := by
    have : 0 ≤ x * D := by positivity
    linarith
  have sm : ∀ E, E ≤ Real.exp (4 * M * τ) * (D + 3 * a) → 2 * M * E + β + 16 * M * ε ≤ μ / 2 := by
    intro E hE
    have := mul_le_mul_of_nonneg_left hE (show 0 ≤ 2 * M by linarith)
    linarith
  rw [hx] at g1 g3
  rw [hy] at g2
  have th0 : (0 : ℝ) ≤ τ / 2 := by linarith
  have th1 : 5 * M * (τ / 2 : ℝ) ≤ 1 := by linarith
  have ah : 1000 * ε + (β + 16 * M * ε) * (τ / 2) ≤ a := by
    have : 0 ≤ (β + 16 * M * ε) * (τ / 2) := by positivity
    linarith
  obtain ⟨V1, s1⟩ := sub_near (par := 0) he hm hM hM' hMe hj hJ hh hB hβ β1 hs hV hD hS hμ.first μ0 (sm _ l1) σ1 th0 th1 σ3
  have u1 := subStep_unit (par := 0) (J := Jr) (Bf := Br) (h := τ / 2) hS
  obtain ⟨V2, s2⟩ := sub_near (par := 1) (D := X * (D + a)) he hm hM hM' hMe hj hJ hh hB hβ β1 (fun i hi => (s1 i hi).1)
    (fun i hi => (s1 i hi).2.1) (fun i hi => (s1 i hi).2.2.trans (by linarith)) u1 hμ.second μ0 (sm _ l2) ht t0 t1
    (by rw [sub_self, abs_zero, mul_zero]; exact e0.le)
  have u2 := subStep_unit (par := 1) (J := Jr) (Bf := Br) (h := τ) u1
  obtain ⟨V3, s3⟩ := sub_near (par := 0) (D := Y * X * (D + 2 * a)) he hm hM hM' hMe hj hJ hh hB hβ β1
    (fun i hi => (s2 i hi).1) (fun i hi => (s2 i hi).2.1) (fun i hi => (s2 i hi).2.2.trans (by linarith)) u2 hμ.third μ0
    (sm _ l3) σ1 th0 th1 σ3
  exact ⟨V3, fun i hi => ⟨(s3 i hi).1, (s3 i hi).2.1, (s3 i hi).2.2.trans (by linarith)⟩⟩

/-- the total field on a driven site -/
theorem sum_near {ε M γ : ℝ} (he : Tol ε) (hM : 1 ≤ M) (hM' : M ≤ 2 ^ 100) {h e : V3 (B64 m)} {H E D : V3 ℝ}
    (hh : IsVal3 h H) (hE : IsVal3 e E) (hB : len (Spec.add H D) ≤ M) (hγ : len (Spec.sub E D) ≤ γ) (γM : γ ≤ M) :
    ∃ w, IsVal3 (SpinChain.sum_vec h e) w ∧ len (Spec.sub w (Spec.add H D)) ≤ γ + 4 * M * ε := by
  have e0 := Tol.pos he
  have l1 : len (Spec.add H E) ≤ 2 * M := by
    have h1 := len_add_le (Spec.add H D) (Spec.sub E D)
    rw [show Spec.add (Spec.add H D) (Spec.sub E D) = Spec.add H E by
      ext <;> simp only [Spec.add, Spec.sub] <;> ring] at h1
    linarith
  have b := abs_le_len (Spec.add H E)
  have cmp : ∀ {x y : B64v} {a b : ℝ}, IsVal x a → IsVal y b → |a + b| ≤ 2 * M →
      NearR (x.add y) (a + b) (2 * M * ε) := by
    intro x y a b hx hy hab
    have := (isVal_near hx ε).add he (isVal_near hy ε) hab (by linarith) (by norm_num at *; linarith) (by linarith)
      (by linarith)
    refine this.mono (by linarith)
  obtain ⟨w, w1, w2⟩ := near3 (x := SpinChain.sum_vec h e) (v := Spec.add H E) (cmp hh.1 hE.1 (b.1.trans l1))
    (cmp hh.2.1 hE.2.1 (b.2.1.trans l1)) (cmp hh.2.2 hE.2.2 (b.2.2.trans l1))
  refine ⟨w, w1, ?_⟩
  have h1 := len_sub_tri w (Spec.add H E) (Spec.add H D)
  rw [show Spec.sub (Spec.add H E) (Spec.add H D) = Spec.sub E D by
    ext <;> simp only [Spec.add, Spec.sub] <;> ring] at h1
  have : 0 ≤ M * ε := by positivity
  linarith

/-- the fields of all sites -/
theorem field_near {ε M γ : ℝ} (he : Tol ε) (hM : 1 ≤ M) (hM' : M ≤ 2 ^ 100) {n s : ℕ} {h : ℕ → V3 (B64 m)}
    {e : V3 (B64 m)} {H : ℕ → V3 ℝ} {E D : V3 ℝ} (hh : ∀ i < n, IsVal3 (h i) (H i)) (hE : IsVal3 e E)
    (hB : ∀ i < n, i < s → len (Spec.add (H i) D) ≤ M) (hγ : len (Spec.sub E D) ≤ γ) (γM : γ ≤ M) :
    ∃ Bh : ℕ → V3 ℝ, ∀ i < n, IsVal3 (fieldF s h e i) (Bh i) ∧
      len (Spec.sub (Bh i) (if i < s then Spec.add (H i) D else H i)) ≤ γ + 4 * M * ε := by
  have key : ∀ i, ∃ v : V3 ℝ, i < n → IsVal3 (fieldF s h e i) v ∧
      len (Spec.sub v (if i < s then Spec.add (H i) D else H i)) ≤ γ + 4 * M * ε := by
    intro i
    by_cases hi : i < n
    swap
    · exact ⟨zero, fun h => absurd h hi⟩
    unfold fieldF
    by_cases hs : i < s
    · obtain ⟨w, w1, w2⟩ := sum_near he hM hM' (hh i hi) hE (hB i hi hs) hγ γM
      exact ⟨w, fun _ => by rw [if_pos hs, if_pos hs]; exact ⟨w1, w2⟩⟩
    · refine ⟨H i, fun _ => ?_⟩
      rw [if_neg hs, if_neg hs]
      refine ⟨hh i hi, ?_⟩
      have h1 : len (Spec.sub (H i) (H i)) = 0 := by simp [len, dot, Spec.sub]
      have h2 := (len_nonneg _).trans hγ
      have := Tol.pos he
      rw [h1]
      positivity
  choose Bh hBh using key
  exact ⟨Bh, hBh⟩

/-- division by an exactly known number -/
theorem NearR.div {ε k a : ℝ} {x y : B64v} {b : ℚ} (he : Tol ε) (hx : NearR x a (k * ε)) (hy : HasVal y b) (b0 : b ≠ 0)
    {C : ℝ} (hab : |a / b| ≤ C) (hk : k * ε / |(b : ℝ)| ≤ C / 2) (hC : 1 ≤ C) (hC' : C ≤ 2 ^ 200) :
    NearR (x.div y) (a / b) ((k / |(b : ℝ)| + C) * ε) := by
  obtain ⟨p, p1, p2⟩ := hx
  have br : (b : ℝ) ≠ 0 := by exact_mod_cast b0
  have bp : 0 < |(b : ℝ)| := abs_pos.2 br
  have d1 : |(p : ℝ) / b - a / b| ≤ k * ε / |(b : ℝ)| := by
    rw [← sub_div, abs_div]
    exact div_le_div_of_nonneg_right p2 bp.le
  have hs : |(p : ℝ) / b| ≤ 3 / 2 * C := by
    have := d1.trans hk
    rw [abs_le] at *
    constructor <;> linarith
  have hb : |p / b| ≤ big := le_big_real (by
    push_cast
    refine hs.trans ?_
    calc 3 / 2 * C ≤ 3 / 2 * 2 ^ 200 := by linarith
      _ ≤ 2 * 2 ^ 200 := by linarith [show (0 : ℝ) < 2 ^ 200 by positivity]
      _ = 2 ^ 201 := by rw [← pow_succ']
      _ ≤ 2 ^ 900 := pow_le_pow_right₀ (by norm_num) (by norm_num))
  obtain ⟨r, r1, r2, _⟩ := p1.div hy b0 hb
  refine ⟨r, r1, ?_⟩
  have r3 : |(r : ℝ) - p / b| ≤ uro * |(p : ℝ) / b| + eta := by exact_mod_cast r2
  have r4 := abs_le.1 (r3.trans (round_le he hC hs))
  have e1 : (k / |(b : ℝ)| + C) * ε = k * ε / |(b : ℝ)| + C * ε := by ring
  rw [e1]
  rw [abs_le] at *
  constructor <;> linarith

/-- the constant of the library -/
theorem pi_near {ε : ℝ} (he : Tol ε) : NearR (FOps.fpi : B64 m) Real.pi (1 * ε) := by
  refine ⟨884279719003555 / 281474976710656, .inl rfl, ?_⟩
  have h1 := Real.pi_gt_d20
  have h2 := Real.pi_lt_d20
  have h3 := he.lo
  rw [abs_le]
  push_cast
  constructor <;> norm_num at * <;> linarith

/-- The phase of the drive at a computed time.  `T` bounds the times, `A` the number of periods, `κ + 2` counts the
roundings of the time. -/
theorem phase_at {ε T A κ : ℝ} (he : Tol ε) {x tau : B64 m} {θ : ℝ} {w : ℚ} (κ0 : 0 ≤ κ)
    (n2' : NearR x θ (((κ + 2) * T) * ε)) (hw : HasVal tau w) (w0 : w ≠ 0)
    (hT : 1 ≤ T) (hT' : T ≤ 2 ^ 100) (hA : 1 ≤ A) (hA' : A ≤ 2 ^ 100) (hθ : |θ| ≤ T) (hTA : T ≤ A * |(w : ℝ)|)
    (hk : (50 + 7 * κ) * T * ε ≤ 1 / 8) :
    NearR ((2.0 : B64 m) * FOps.fpi * x / tau) (2 * Real.pi * θ / w) ((49 + 7 * κ) * A * ε) := by
  have e0 := Tol.pos he
  have hκ : 0 ≤ κ * ε := by positivity
  have kT : (50 + 7 * κ) * ε ≤ 1 / 8 := by
    have : (50 + 7 * κ) * ε * 1 ≤ (50 + 7 * κ) * ε * T := mul_le_mul_of_nonneg_left hT (by positivity)
    linarith
  have e1 : ε ≤ 1 / 400 := by linarith
  have κT : 0 ≤ κ * T * ε := by positivity
  have Tε : 0 ≤ T * ε := by positivity
  -- two pi
  have p3 := Real.pi_gt_three
  have p4 := Real.pi_le_four
  have n3 : NearR ((2.0 : B64 m) * FOps.fpi : B64 m) (2 * Real.pi) ((2 * 0 * 4 + 1 * 2 + 2 * 4) * ε) :=
    (near_lit2 (m := m) ε).mul he (pi_near he) (A := 2) (B := 4) (by norm_num) (by rw [abs_of_pos Real.pi_pos]; exact p4)
      (by norm_num) (by norm_num) le_rfl (by norm_num) (by linarith)
  have n4 : NearR ((2.0 : B64 m) * FOps.fpi * x : B64 m) (2 * Real.pi * θ) _ :=
    n3.mul he n2' (A := 7) (B := T) (by rw [abs_of_pos (by positivity)]; linarith [Real.pi_lt_d2]) hθ (by linarith)
      (by norm_num at *; linarith) (by norm_num) (by linarith) (by linarith)
  have wr : (w : ℝ) ≠ 0 := by exact_mod_cast w0
  have wp : 0 < |(w : ℝ)| := abs_pos.2 wr
  have TA : T / |(w : ℝ)| ≤ A := by rw [div_le_iff₀ wp]; exact hTA
  have T0 : 0 ≤ T / |(w : ℝ)| := by positivity
  have n5 : NearR ((2.0 : B64 m) * FOps.fpi * x / tau : B64 m) (2 * Real.pi * θ / w) _ :=
    n4.div he hw w0 (C := 7 * A) (by
      rw [abs_div, abs_mul, abs_of_pos (by positivity : 0 < 2 * Real.pi)]
      calc 2 * Real.pi * |θ| / |(w : ℝ)| ≤ 7 * T / |(w : ℝ)| := by
            apply div_le_div_of_nonneg_right _ wp.le
            exact mul_le_mul (by linarith [Real.pi_lt_d2]) hθ (abs_nonneg _) (by norm_num)
        _ = 7 * (T / |(w : ℝ)|) := by ring
        _ ≤ 7 * A := by linarith) (by
      rw [show (2 * (2 * 0 * 4 + 1 * 2 + 2 * 4) * T + (κ + 2) * T * 7 + 7 * T) * ε / |(w : ℝ)|
        = (41 + 7 * κ) * ε * (T / |(w : ℝ)|) by ring]
      have : (41 + 7 * κ) * ε * (T / |(w : ℝ)|) ≤ 1 * A := mul_le_mul (by linarith) TA T0 (by norm_num)
      linarith) (by linarith) (by norm_num at *; linarith)
  refine n5.mono ?_
  apply mul_le_mul_of_nonneg_right _ e0.le
  rw [show (2 * (2 * 0 * 4 + 1 * 2 + 2 * 4) * T + (κ + 2) * T * 7 + 7 * T) / |(w : ℝ)|
        = (41 + 7 * κ) * (T / |(w : ℝ)|) by ring]
  have : (41 + 7 * κ) * (T / |(w : ℝ)|) ≤ (41 + 7 * κ) * A := mul_le_mul_of_nonneg_left TA (by positivity)
  linarith

/-- the middle of a time-step, after `κ` roundings of the clock -/
theorem mid_near {ε T κ : ℝ} (he : Tol ε) {t dt : B64 m} {θ : ℝ} {δ : ℚ} (κ0 : 0 ≤ κ)
    (ht : NearR t θ (κ * T * ε)) (hd : HasVal dt δ) (δ0 : (0 : ℝ) ≤ δ) (δ1 : (δ : ℝ) ≤ 1)
    (hT : 1 ≤ T) (hT' : T ≤ 2 ^ 100) (hθ : |θ + δ / 2| ≤ T) (hk : (50 + 7 * κ) * T * ε ≤ 1 / 8) :
    NearR (t + dt / 2.0 : B64 m) (θ + δ / 2) (((κ + 2) * T) * ε) := by
  have e0 := Tol.pos he
  have hκ : 0 ≤ κ * ε := by positivity
  have kT : (50 + 7 * κ) * ε ≤ 1 / 8 := by
    have : (50 + 7 * κ) * ε * 1 ≤ (50 + 7 * κ) * ε * T := mul_le_mul_of_nonneg_left hT (by positivity)
    linarith
  have kT' : κ * T * ε ≤ 1 / 56 := by
    have : 0 ≤ T * ε := by positivity
    linarith
  have e1 : ε ≤ 1 / 400 := by linarith
  -- the middle of the time-step
  obtain ⟨σ, σ1, σ2⟩ := half_near hd (by rw [abs_of_nonneg δ0]; exact δ1)
  have n1 : NearR (dt / 2.0 : B64 m) (δ / 2) (1 * ε) := ⟨σ, σ1, by
    refine σ2.trans ?_
    rw [abs_of_nonneg δ0]
    have := he.lo
    norm_num at *
    linarith⟩
  have n2 : NearR (t + dt / 2.0 : B64 m) (θ + δ / 2) ((κ * T + 1 + T) * ε) :=
    ht.add he n1 hθ hT (by norm_num at *; linarith) (by linarith) (by linarith)
  exact n2.mono (by
    apply mul_le_mul_of_nonneg_right _ e0.le
    linarith)

theorem cos_near {ε x e : ℝ} (hm : AccurateTo ε m) {p : B64 m} (h : NearR p x e) :
    NearR (FOps.fcos p : B64 m) (Real.cos x) (ε + e) := by
  obtain ⟨q, q1, q2⟩ := h
  obtain ⟨r, r1, r2⟩ := hm.cos p q q1
  exact ⟨r, r1, (abs_sub_le _ (Real.cos q) _).trans (add_le_add r2 ((Real.abs_cos_sub_cos_le _ _).trans q2))⟩

theorem sin_near {ε x e : ℝ} (hm : AccurateTo ε m) {p : B64 m} (h : NearR p x e) :
    NearR (FOps.fsin p : B64 m) (Real.sin x) (ε + e) := by
  obtain ⟨q, q1, q2⟩ := h
  obtain ⟨r, r1, r2⟩ := hm.sin p q q1
  exact ⟨r, r1, (abs_sub_le _ (Real.sin q) _).trans (add_le_add r2 ((Real.abs_sin_sub_sin_le _ _).trans q2))⟩

/-- The numbers in the two configurations are the same, as far as they enter the time evolution. -/
structure SameVars (v : Config (B64 m)) (v' : Config ℝ) : Prop where
  drive : v.drive = v'.drive
  dt : IsVal v.dt v'.dt
  tau : IsVal v.tau v'.tau
  e : IsVal v.e v'.e
  hs : List.Forall₂ IsVal v.hs v'.hs

/-- `T` bounds the times, `A` the number of periods (if the drive depends on time) and `E` the ellipticity. -/
structure Paced (v : Config ℝ) (T A E : ℝ) : Prop where
  T1 : 1 ≤ T
  A1 : 1 ≤ A
  E1 : 1 ≤ E
  periods : v.drive ≠ .none → v.drive ≠ .staticfield → T ≤ A * |v.tau|
  e : |v.e| ≤ E

theorem forall₂_idx {v : List (B64 m)} {v' : List ℝ} (h : List.Forall₂ IsVal v v') (i : ℕ) (hi : i < v.length) :
    ∃ x, idx v i = .ok x ∧ IsVal x (v'.getD i 0) := by
  have h2 : i < v'.length := by rw [← h.length_eq]; exact hi
  refine ⟨v[i], idx_ok hi, ?_⟩
  have := h.get hi h2
  rw [List.getD_eq_getElem?_getD, List.getElem?_eq_getElem h2]
  exact this

theorem isVal_lit0 : IsVal (0.0 : B64 m) 0 := ⟨0, lit0_val, by norm_num⟩

/-- the computed drive at a computed time -/
theorem drive_at {ε T A E κ : ℝ} (he : Tol ε) (hm : AccurateTo ε m) {c : SpinChain (B64 m)} {v : Config ℝ}
    (hv : SameVars c.vars v) (hp : Paced v T A E) (hs : 3 ≤ c.vars.hs.length) (κ0 : 0 ≤ κ) {x : B64 m} {θ : ℝ}
    (ht : NearR x θ (((κ + 2) * T) * ε)) (hθ : |θ| ≤ T)
    (hk : (50 + 7 * κ) * (T * A * E) * ε ≤ 1 / 8) :
    ∃ e w, c.h_ext x = .ok e ∧ IsVal3 e w ∧
      len (Spec.sub w (drive v θ)) ≤ 100 * (κ + 1) * (A * E) * ε := by
  have e0 := Tol.pos he
  obtain ⟨T1, A1, E1, hTA, hE⟩ := hp
  have T0 : 0 ≤ T := by linarith
  have A0 : 0 ≤ A := by linarith
  have E0 : 0 ≤ E := by linarith
  have b0 : 0 ≤ (50 + 7 * κ) * ε := by positivity
  have TA1 : 1 ≤ T * A := by nlinarith
  have TE1 : 1 ≤ T * E := by nlinarith
  have AE1 : 1 ≤ A * E := by nlinarith
  have hkT : (50 + 7 * κ) * T * ε ≤ 1 / 8 := by
    have := mul_le_mul_of_nonneg_left AE1 (mul_nonneg b0 T0)
    linarith
  have hkA : (50 + 7 * κ) * A * ε ≤ 1 / 8 := by
    have := mul_le_mul_of_nonneg_left TE1 (mul_nonneg b0 A0)
    linarith
  have hkE : (50 + 7 * κ) * E * ε ≤ 1 / 8 := by
    have := mul_le_mul_of_nonneg_left TA1 (mul_nonneg b0 E0)
    linarith
  have big : ∀ X : ℝ, 0 ≤ X → (50 + 7 * κ) * X * ε ≤ 1 / 8 → X ≤ 2 ^ 100 := by
    intro X X0 h
    have h1 := he.lo
    have h2 : 0 ≤ κ * X * ε := by positivity
    have h3 : X * (1 / 2 ^ 52) ≤ X * ε := mul_le_mul_of_nonneg_left h1 X0
    norm_num at *
    linarith
  have ex : ∀ (x : V3 (B64 m)) (u : V3 ℝ), IsVal3 x u →
      ∃ w, IsVal3 x w ∧ len (Spec.sub w u) ≤ 100 * (κ + 1) * (A * E) * ε := by
    intro x u h
    refine ⟨u, h, ?_⟩
    rw [show len (Spec.sub u u) = 0 by simp [len, dot, Spec.sub]]
    positivity
  by_cases hno : v.drive = .none
  · obtain ⟨w, h1, h2⟩ := ex ⟨0.0, 0.0, 0.0⟩ zero ⟨isVal_lit0, isVal_lit0, isVal_lit0⟩
    refine ⟨_, w, ?_, h1, ?_⟩
    · unfold SpinChain.h_ext
      rw [hv.drive, hno]
      rfl
    · unfold drive
      rw [hno]
      exact h2
  by_cases hst : v.drive = .staticfield
  · obtain ⟨x0, a0, b0⟩ := forall₂_idx hv.hs 0 (by omega)
    obtain ⟨x1, a1, b1⟩ := forall₂_idx hv.hs 1 (by omega)
    obtain ⟨x2, a2, b2⟩ := forall₂_idx hv.hs 2 (by omega)
    obtain ⟨w, h1, h2⟩ := ex ⟨x0, x1, x2⟩ ⟨_, _, _⟩ ⟨b0, b1, b2⟩
    refine ⟨_, w, ?_, h1, ?_⟩
    · unfold SpinChain.h_ext
      rw [hv.drive, hst]
      simp only
      rw [a0, ok_bind, a1, ok_bind, a2, ok_bind]
      rfl
    · unfold drive
      rw [hst]
      exact h2
  have hTA := hTA hno hst
  obtain ⟨w, w1, w2⟩ := hv.tau
  have w0 : w ≠ 0 := by
    rintro rfl
    rw [← w2] at hTA
    norm_num at hTA
    linarith
  have ph := phase_at (A := A) he κ0 ht w1 w0 T1 (big T T0 hkT) A1 (big A A0 hkA) hθ (by rw [w2]; exact hTA) hkT
  rw [w2] at ph
  have hκA : 0 ≤ κ * A * ε := by positivity
  have co := (cos_near hm ph).mono (show ε + (49 + 7 * κ) * A * ε ≤ ((50 + 7 * κ) * A) * ε by nlinarith)
  have si := (sin_near hm ph).mono (show ε + (49 + 7 * κ) * A * ε ≤ ((50 + 7 * κ) * A) * ε by nlinarith)
  have l1 : ((50 + 7 * κ) * A) * ε ≤ (51 + 7 * κ) * (A * E) * ε := by
    have := mul_le_mul_of_nonneg_left E1 (show 0 ≤ (50 + 7 * κ) * A * ε by positivity)
    have : 0 ≤ A * E * ε := by positivity
    linarith
  have z0 : NearR (0.0 : B64 m) 0 ((51 + 7 * κ) * (A * E) * ε) := (near_lit0 ε).mono (by
    rw [zero_mul]; positivity)
  obtain ⟨f, f1, f2⟩ := hv.e
  have es : NearR (c.vars.e * FOps.fsin ((2.0 : B64 m) * FOps.fpi * x / c.vars.tau) : B64 m)
      (v.e * Real.sin (2 * Real.pi * θ / v.tau)) ((51 + 7 * κ) * (A * E) * ε) := by
    have h1 : NearR (c.vars.e : B64 m) v.e (0 * ε) := by rw [← f2]; exact near0 f1 ε
    refine (h1.mul he si (A := E) (B := 1) hE (Real.abs_sin_le_one _) (by linarith) (by
      have := big E E0 hkE
      norm_num at *; linarith) le_rfl (by linarith) (by linarith)).mono ?_
    have : E * ε ≤ A * E * ε := by
      have := mul_le_mul_of_nonneg_left A1 (show 0 ≤ E * ε by positivity)
      linarith
    linarith
  have fin : ∀ (x : V3 (B64 m)) (u : V3 ℝ), NearR x.x u.x ((51 + 7 * κ) * (A * E) * ε) →
      NearR x.y u.y ((51 + 7 * κ) * (A * E) * ε) → NearR x.z u.z ((51 + 7 * κ) * (A * E) * ε) →
      ∃ w, IsVal3 x w ∧ len (Spec.sub w u) ≤ 100 * (κ + 1) * (A * E) * ε := by
    intro x u h1 h2 h3
    obtain ⟨w, w1, w2⟩ := near3 h1 h2 h3
    refine ⟨w, w1, w2.trans ?_⟩
    have h1 : 0 ≤ A * E * ε := by positivity
    have h2 : 0 ≤ κ * (A * E * ε) := by positivity
    linarith
  unfold SpinChain.h_ext drive
  rw [← hv.drive]
  cases hdr : c.vars.drive with
  | xyplane =>
    obtain ⟨w, h1, h2⟩ := fin ⟨_, _, _⟩ ⟨_, _, 0⟩ (co.mono l1) (si.mono l1) z0
    exact ⟨_, w, rfl, h1, h2⟩
  | uniaxial =>
    obtain ⟨w, h1, h2⟩ := fin ⟨_, _, _⟩ ⟨_, 0, 0⟩ (co.mono l1) z0 z0
    exact ⟨_, w, rfl, h1, h2⟩
  | xyelliptic =>
    obtain ⟨w, h1, h2⟩ := fin ⟨_, _, _⟩ ⟨_, _, 0⟩ (co.mono l1) es z0
    exact ⟨_, w, rfl, h1, h2⟩
  | staticfield => exact absurd (hv.drive.symm.trans hdr) hst
  | none => exact absurd (hv.drive.symm.trans hdr) hno

/-- `T A E` is not enormous -/
theorem paced_le {ε T A E κ : ℝ} (he : Tol ε) (T1 : 1 ≤ T) (A1 : 1 ≤ A) (E1 : 1 ≤ E) (κ0 : 0 ≤ κ)
    (hk : (50 + 7 * κ) * (T * A * E) * ε ≤ 1 / 8) : (50 + 7 * κ) * T * ε ≤ 1 / 8 ∧ T ≤ 2 ^ 100 := by
  have e0 := Tol.pos he
  have AE1 : 1 ≤ A * E := by nlinarith
  have hkT : (50 + 7 * κ) * T * ε ≤ 1 / 8 := by
    have := mul_le_mul_of_nonneg_left AE1 (show 0 ≤ (50 + 7 * κ) * ε * T by positivity)
    linarith
  refine ⟨hkT, ?_⟩
  have h1 := he.lo
  have h2 : 0 ≤ κ * T * ε := by positivity
  have h3 : T * (1 / 2 ^ 52) ≤ T * ε := mul_le_mul_of_nonneg_left h1 (by linarith)
  norm_num at *
  linarith

/-- the drive computed in the middle of a time-step, after `κ` roundings of the clock -/
theorem drive_near {ε T A E κ : ℝ} (he : Tol ε) (hm : AccurateTo ε m) {c : SpinChain (B64 m)} {v : Config ℝ}
    (hv : SameVars c.vars v) (hp : Paced v T A E) (hs : 3 ≤ c.vars.hs.length) (κ0 : 0 ≤ κ) {θ : ℝ}
    (ht : NearR c.t θ (κ * T * ε)) (d0 : 0 ≤ v.dt) (d1 : v.dt ≤ 1) (hθ : |θ + v.dt / 2| ≤ T)
    (hk : (50 + 7 * κ) * (T * A * E) * ε ≤ 1 / 8) :
    ∃ e w, c.h_ext (c.t + c.vars.dt / 2.0) = .ok e ∧ IsVal3 e w ∧
      len (Spec.sub w (drive v (θ + v.dt / 2))) ≤ 100 * (κ + 1) * (A * E) * ε := by
  obtain ⟨hkT, hT⟩ := paced_le he hp.T1 hp.A1 hp.E1 κ0 hk
  obtain ⟨δ, δ1, δ2⟩ := hv.dt
  refine drive_at he hm hv hp hs κ0 ?_ hθ hk
  rw [← δ2] at d0 d1 hθ ⊢
  exact mid_near he κ0 ht δ1 d0 d1 hp.T1 hT hθ hkT

/-- the drive computed at the time of the clock, after `κ` roundings -/
theorem drive_now {ε T A E κ : ℝ} (he : Tol ε) (hm : AccurateTo ε m) {c : SpinChain (B64 m)} {v : Config ℝ}
    (hv : SameVars c.vars v) (hp : Paced v T A E) (hs : 3 ≤ c.vars.hs.length) (κ0 : 0 ≤ κ) {θ : ℝ}
    (ht : NearR c.t θ (κ * T * ε)) (hθ : |θ| ≤ T) (hk : (50 + 7 * κ) * (T * A * E) * ε ≤ 1 / 8) :
    ∃ e w, c.h_ext c.t = .ok e ∧ IsVal3 e w ∧
      len (Spec.sub w (drive v θ)) ≤ 100 * (κ + 1) * (A * E) * ε := by
  have := hp.T1
  refine drive_at he hm hv hp hs κ0 (ht.mono ?_) hθ hk
  have : 0 ≤ T * ε := mul_nonneg (by linarith) (Tol.pos he).le
  nlinarith

end Verif.Forward
