/-
Rounding errors of the energies and magnetisations in binary64.
-/
import Verif.Lemmas.ForwardRun
import Verif.Lemmas.EnergyModel

set_option linter.unusedSectionVars false

namespace Verif.Forward

open Spec Finset

variable {m : Libm}

/-! ### Operations, with absolute errors -/

theorem tol_u : Tol (1 / 2 ^ 52) := ⟨le_rfl, by norm_num⟩

section
variable {x y : B64v} {a b e f : ℝ}

theorem NearR.add_abs (hx : NearR x a e) (hy : NearR y b f) {C : ℝ} (hab : |a + b| ≤ C) (hC : 1 ≤ C) (hC' : C ≤ 2 ^ 200)
    (hef : e + f ≤ C / 2) : NearR (x.add y) (a + b) (e + f + C / 2 ^ 52) := by
  obtain ⟨p, p1, p2⟩ := hx
  obtain ⟨q, q1, q2⟩ := hy
  have hs : |(p : ℝ) + q| ≤ 3 / 2 * C := by
    rw [abs_le] at *
    constructor <;> linarith
  have hb : |p + q| ≤ big := le_big_real (by
    push_cast
    refine hs.trans ?_
    calc 3 / 2 * C ≤ 3 / 2 * 2 ^ 200 := by linarith
      _ ≤ 2 * 2 ^ 200 := by linarith [show (0 : ℝ) < 2 ^ 200 by positivity]
      _ = 2 ^ 201 := by rw [← pow_succ']
      _ ≤ 2 ^ 900 := pow_le_pow_right₀ (by norm_num) (by norm_num))
  obtain ⟨r, r1, r2, _⟩ := p1.add q1 hb
  refine ⟨r, r1, ?_⟩
  have r3 : |(r : ℝ) - (p + q)| ≤ uro * |(p : ℝ) + q| + eta := by exact_mod_cast r2
  have r4 := abs_le.1 (r3.trans (round_le tol_u hC hs))
  rw [mul_one_div] at r4
  rw [abs_le] at *
  constructor <;> linarith

theorem NearR.sub_abs (hx : NearR x a e) (hy : NearR y b f) {C : ℝ} (hab : |a - b| ≤ C) (hC : 1 ≤ C) (hC' : C ≤ 2 ^ 200)
    (hef : e + f ≤ C / 2) : NearR (x.add y.neg) (a - b) (e + f + C / 2 ^ 52) := by
  rw [sub_eq_add_neg] at *
  exact hx.add_abs hy.neg hab hC hC' hef

theorem NearR.mul_abs (hx : NearR x a e) (hy : NearR y b f) {A B : ℝ} (ha : |a| ≤ A) (hb : |b| ≤ B) (hC : 1 ≤ A * B)
    (hC' : A * B ≤ 2 ^ 200) (e0 : 0 ≤ e) (he : e ≤ A / 8) (hf : f ≤ B / 8) :
    NearR (x.mul y) (a * b) (2 * e * B + f * A + A * B / 2 ^ 52) := by
  have h1 : e = e * 2 ^ 52 * (1 / 2 ^ 52) := by ring
  have h2 : f = f * 2 ^ 52 * (1 / 2 ^ 52) := by ring
  rw [h1] at hx he
  rw [h2] at hy hf
  refine (hx.mul tol_u hy ha hb hC hC' (by positivity) he hf).mono (le_of_eq ?_)
  field_simp

theorem NearR.div_abs (hx : NearR x a e) {q : ℚ} (hy : HasVal y q) (b0 : q ≠ 0) {C : ℝ} (hab : |a / q| ≤ C)
    (he : e / |(q : ℝ)| ≤ C / 2) (hC : 1 ≤ C) (hC' : C ≤ 2 ^ 200) :
    NearR (x.div y) (a / q) (e / |(q : ℝ)| + C / 2 ^ 52) := by
  have h1 : e = e * 2 ^ 52 * (1 / 2 ^ 52) := by ring
  rw [h1] at hx he
  refine (hx.div tol_u hy b0 hab he hC hC').mono (le_of_eq ?_)
  field_simp

theorem IsVal.nearR (h : IsVal x a) : NearR x a 0 := by
  have := isVal_near h 1
  rwa [zero_mul] at this

end

/-- representable numbers are not rounded -/
theorem round_rep {q : ℚ} (h : Rep q) (hb : |q| < 2 ^ 1000) : HasVal (B64v.round q false) q := by
  have hr := rnd_nearest q q h
  have h2 : rnd q = q := by
    rw [sub_self, abs_zero] at hr
    exact sub_eq_zero.1 (abs_nonpos_iff.1 hr)
  unfold B64v.round
  by_cases h0 : q = 0
  · rw [if_pos h0, h0]
    exact .inl rfl
  rw [if_neg h0]
  have hp : (2 : ℚ) ^ 1000 < pow2 1024 := by
    have e : ((1024 : ℤ)) = ((1024 : ℕ) : ℤ) := rfl
    rw [pow2_eq, e, zpow_natCast]
    exact pow_lt_pow_right₀ (by norm_num) (by norm_num)
  have := abs_lt.1 hb
  generalize (2 : ℚ) ^ 1000 = Y at *
  dsimp only
  rw [h2, if_neg h0, if_neg (by linarith), if_neg (by linarith)]
  exact .inl rfl

theorem rep_nat {n : ℕ} (h : n ≤ 2 ^ 53) : Rep (n : ℚ) := ⟨n, 0, by
  rw [Nat.abs_cast]
  exact_mod_cast h, by norm_num, by simp⟩

theorem rep_quarter {n : ℕ} (h : n ≤ 2 ^ 53) : Rep ((n : ℚ) / 4) := ⟨n, -2, by
  rw [Nat.abs_cast]
  exact_mod_cast h, by norm_num, by
    rw [Int.cast_natCast, show (2 : ℚ) ^ (-2 : ℤ) = 1 / 4 by norm_num]
    ring⟩

theorem nat_small {n : ℕ} (h : n ≤ 2 ^ 53) : |(n : ℚ)| < 2 ^ 1000 := by
  rw [Nat.abs_cast]
  have h1 : (n : ℚ) ≤ 2 ^ 53 := by exact_mod_cast h
  exact lt_of_le_of_lt h1 (pow_lt_pow_right₀ (by norm_num) (by norm_num))

/-- the numbers of sites are converted exactly -/
theorem nat_val {n : ℕ} (h : n < 2 ^ 31) : HasVal (FOps.fofInt (n : ℤ) : B64 m) n := by
  have h' : n ≤ 2 ^ 53 := h.le.trans (by norm_num)
  show HasVal (B64v.round ((n : ℤ) : ℚ) false) n
  rw [Int.cast_natCast]
  exact round_rep (rep_nat h') (nat_small h')

/-- a quarter of a whole number is computed exactly, and cut off -/
theorem quarter {n : ℕ} (h : n < 2 ^ 53) {x : B64v} (hx : x = .fin n) : B64v.toNat (x.div (.fin 4)) = n / 4 := by
  subst hx
  have h1 : B64v.div (.fin n) (.fin 4) = B64v.round ((n : ℚ) / 4) false := by
    have hs : ((B64v.fin (n : ℚ)).sgn != (B64v.fin (4 : ℚ)).sgn) = false := by
      have : ¬((n : ℚ) < 0) := not_lt.2 (Nat.cast_nonneg n)
      simp [B64v.sgn, this]
    show (if (B64v.fin (4 : ℚ)).val = 0 then
      (if (B64v.fin (n : ℚ)).val = 0 then B64v.nan else B64v.inf ((B64v.fin (n : ℚ)).sgn != (B64v.fin (4 : ℚ)).sgn))
      else B64v.round ((B64v.fin (n : ℚ)).val / (B64v.fin (4 : ℚ)).val) _) = _
    rw [if_neg (by norm_num [B64v.val]), hs]
    rfl
  have h2 := round_rep (rep_quarter h.le) (q := (n : ℚ) / 4) (by
    rw [abs_div]
    have := nat_small h.le
    have h4 : |(4 : ℚ)| = 4 := by norm_num
    rw [h4]
    have := abs_nonneg (n : ℚ)
    generalize (2 : ℚ) ^ 1000 = Y at *
    linarith)
  rw [h1]
  have fl : ⌊((n : ℚ) / 4)⌋ = ((n / 4 : ℕ) : ℤ) := by
    have := Rat.floor_intCast_div_natCast (n : ℤ) 4
    push_cast at this ⊢
    exact this
  rcases h2 with h2 | ⟨h2, h3⟩
  · rw [h2]
    show min (Rat.floor ((n : ℚ) / 4)).toNat (2 ^ 64 - 1) = n / 4
    have : Rat.floor ((n : ℚ) / 4) = ((n / 4 : ℕ) : ℤ) := fl
    rw [this, Int.toNat_natCast]
    omega
  · rw [h2]
    have : n = 0 := by
      have : (n : ℚ) = 0 := by linarith
      exact_mod_cast this
    subst this
    rfl

theorem nat_fin {n : ℕ} (h : n < 2 ^ 31) (h0 : 1 ≤ n) : (FOps.fofInt (n : ℤ) : B64 m) = B64v.fin n := by
  rcases nat_val (m := m) h with h1 | ⟨_, h1⟩
  · exact h1
  · have : n = 0 := by exact_mod_cast h1
    omega

/-- the sites sampled by `log` -/
theorem site_quarter {n : ℕ} (h : n < 2 ^ 31) (h0 : 1 ≤ n) :
    FOps.ftoNat ((FOps.fofInt (n : ℤ) : B64 m) / 4.0) = n / 4 := by
  rw [nat_fin h h0]
  have e4 : (4.0 : B64 m) = B64v.fin 4 := by
    show B64v.lit 40 true 1 = _
    decide +kernel
  rw [e4]
  exact quarter (h.trans (by norm_num)) rfl

theorem site_three_quarters {n : ℕ} (h : n < 2 ^ 31) (h0 : 1 ≤ n) :
    FOps.ftoNat ((3.0 : B64 m) * (FOps.fofInt (n : ℤ) : B64 m) / 4.0) = 3 * n / 4 := by
  rw [nat_fin h h0]
  have e4 : (4.0 : B64 m) = B64v.fin 4 := by
    show B64v.lit 40 true 1 = _
    decide +kernel
  have e3 : (3.0 : B64 m) = B64v.fin 3 := by
    show B64v.lit 30 true 1 = _
    decide +kernel
  have e1 : B64v.mul (3.0 : B64 m) (B64v.fin n) = B64v.fin ((3 * n : ℕ) : ℚ) := by
    rw [e3]
    show B64v.round (3 * (n : ℚ)) ((B64v.fin (3 : ℚ)).sgn != (B64v.fin (n : ℚ)).sgn) = _
    have hs : ((B64v.fin (3 : ℚ)).sgn != (B64v.fin (n : ℚ)).sgn) = false := by
      have : ¬((n : ℚ) < 0) := not_lt.2 (Nat.cast_nonneg n)
      norm_num [B64v.sgn, this]
    rw [hs]
    have hn : 3 * n ≤ 2 ^ 53 := by omega
    have := round_rep (rep_nat hn) (nat_small hn)
    push_cast at this ⊢
    rcases this with h1 | ⟨_, h1⟩
    · exact h1
    · have : n = 0 := by
        have : (n : ℚ) = 0 := by linarith
        exact_mod_cast this
      omega
  show B64v.toNat (B64v.div (B64v.mul (3.0 : B64 m) (B64v.fin n)) (4.0 : B64 m)) = _
  rw [e1, e4]
  exact quarter (by omega) rfl

/-! ### Sums -/

/-- a sum of `n` terms: every term adds `q` to the error and at most `G` to the sum -/
theorem fold_near (f : ℕ → B64 m → B64 m) (g : ℕ → ℝ) {G q : ℝ} (n : ℕ) {z : B64 m} {a e : ℝ} (hz : NearR z a e)
    (hg : ∀ i < n, |g i| ≤ G)
    (hf : ∀ i < n, ∀ (acc : B64 m) (b e' : ℝ), NearR acc b e' → |b| ≤ |a| + i * G → e' ≤ e + i * q →
      NearR (f i acc) (b + g i) (e' + q)) :
    NearR ((List.range' 0 n).foldl (fun acc i => f i acc) z : B64 m) (a + ∑ i ∈ range n, g i) (e + n * q) ∧
      |a + ∑ i ∈ range n, g i| ≤ |a| + n * G := by
  have key : ∀ k ≤ n, (∃ e' ≤ e + k * q, NearR ((List.range' 0 k).foldl (fun acc i => f i acc) z : B64 m)
      (a + ∑ i ∈ range k, g i) e') ∧ |a + ∑ i ∈ range k, g i| ≤ |a| + k * G := by
    intro k
    induction k with
    | zero =>
      intro _
      simp only [List.range'_zero, List.foldl_nil, sum_range_zero, add_zero, Nat.cast_zero, zero_mul]
      exact ⟨⟨e, le_rfl, hz⟩, le_rfl⟩
    | succ k ih =>
      intro hk
      obtain ⟨⟨e', h1, h2⟩, h3⟩ := ih (by omega)
      rw [List.range'_concat, List.foldl_append, sum_range_succ, ← add_assoc]
      simp only [zero_add, one_mul, List.foldl_cons, List.foldl_nil]
      refine ⟨⟨e' + q, ?_, hf k (by omega) _ _ _ h2 h3 h1⟩, ?_⟩
      · push_cast
        linarith
      · have := hg k (by omega)
        push_cast
        rw [abs_le] at *
        constructor <;> linarith [abs_nonneg a]
  obtain ⟨⟨e', h1, h2⟩, h3⟩ := key n le_rfl
  exact ⟨h2.mono h1, h3⟩

/-- one component of the energy of a site, added to a sum bounded by `K` -/
theorem bond_comp {M K a e : ℝ} (hM : 1 ≤ M) (hK : 8 * M ≤ K) (hK' : K ≤ 2 ^ 150) {acc v j w h : B64v} {p q r s : ℝ}
    (hv : IsVal v p) (hj : IsVal j q) (hw : IsVal w r) (hh : IsVal h s) (bp : |p| ≤ 11 / 10) (bq : |q| ≤ M)
    (br : |r| ≤ 11 / 10) (bs : |s| ≤ 3 * M) (ha : NearR acc a e) (h0 : |a - p * q * r| ≤ K)
    (h1 : |a - p * q * r + p * s| ≤ K) (e0 : e ≤ K / 8) :
    NearR ((acc.add ((v.mul j).mul w).neg).add (v.mul h)) (a - p * q * r + p * s) (e + 7 * M / 2 ^ 52 + 2 * K / 2 ^ 52) := by
  have M' : M ≤ 2 ^ 150 := by linarith
  have t1 := (IsVal.nearR hv).mul_abs (IsVal.nearR hj) bp bq (by linarith) (by norm_num at *; linarith) le_rfl (by norm_num)
    (by linarith)
  have b1 : |p * q| ≤ 11 / 10 * M := by
    rw [abs_mul]; exact mul_le_mul bp bq (abs_nonneg _) (by norm_num)
  have t2 := t1.mul_abs (IsVal.nearR hw) b1 br (by linarith) (by norm_num at *; linarith) (by positivity)
    (by norm_num at *; linarith) (by norm_num)
  have t3 := ha.sub_abs t2 h0 (by linarith) (by norm_num at *; linarith) (by norm_num at *; linarith)
  have t4 := (IsVal.nearR hv).mul_abs (IsVal.nearR hh) bp bs (by linarith) (by norm_num at *; linarith) le_rfl (by norm_num)
    (by linarith)
  have t5 := t3.add_abs t4 h1 (by linarith) (by norm_num at *; linarith) (by norm_num at *; linarith)
  refine t5.mono ?_
  norm_num
  linarith

/-- the energy of a site -/
noncomputable def siteE (v w J B : V3 ℝ) : ℝ := -dot v (had J w) + dot B v

theorem siteE_abs {M : ℝ} (hM : 1 ≤ M) {v w J B : V3 ℝ} (hv : len v ≤ 11 / 10) (hw : len w ≤ 11 / 10) (hJ : len J ≤ M)
    (hB : len B ≤ 3 * M) : |siteE v w J B| ≤ 5 * M := by
  have h1 := abs_dot_le_len v (had J w)
  have h2 := len_had_le J w
  have h3 := abs_dot_le_len B v
  have h4 : len J * len w ≤ M * (11 / 10) := mul_le_mul hJ hw (len_nonneg _) (by linarith)
  have h5 : len v * len (had J w) ≤ 11 / 10 * (M * (11 / 10)) :=
    mul_le_mul hv (h2.trans h4) (len_nonneg _) (by norm_num)
  have h6 : len B * len v ≤ 3 * M * (11 / 10) := mul_le_mul hB hv (len_nonneg _) (by linarith)
  unfold siteE
  rw [abs_le] at *
  constructor <;> linarith

/-- adding the energy of a site to a sum bounded by `K` -/
theorem bond_near {M K a e : ℝ} (hM : 1 ≤ M) (hK : |a| + 14 * M ≤ K) (hK' : K ≤ 2 ^ 150) {acc : B64 m} {s1 s2 : Spin (B64 m)}
    {j h : V3 (B64 m)} {v w J B : V3 ℝ} (hs1 : IsVal3 s1.dir v) (hs2 : IsVal3 s2.dir w) (hj : IsVal3 j J) (hh : IsVal3 h B)
    (bv : len v ≤ 11 / 10) (bw : len w ≤ 11 / 10) (bJ : len J ≤ M) (bB : len B ≤ 3 * M) (ha : NearR acc a e)
    (e0 : e ≤ K / 16) :
    NearR (SpinChain.bondField s1 s2 j h acc : B64 m) (a + siteE v w J B) (e + (21 * M + 6 * K) / 2 ^ 52) := by
  have K0 : 14 * M ≤ K := by linarith [abs_nonneg a]
  obtain ⟨v1, v2, v3⟩ := abs_le_len v
  obtain ⟨w1, w2, w3⟩ := abs_le_len w
  obtain ⟨j1, j2, j3⟩ := abs_le_len J
  obtain ⟨b1, b2, b3⟩ := abs_le_len B
  have P : ∀ {p q r : ℝ}, |p| ≤ len v → |q| ≤ len J → |r| ≤ len w → |p * q * r| ≤ 121 / 100 * M := by
    intro p q r hp hq hr
    rw [abs_mul, abs_mul]
    calc |p| * |q| * |r| ≤ 11 / 10 * M * (11 / 10) :=
          mul_le_mul (mul_le_mul (hp.trans bv) (hq.trans bJ) (abs_nonneg _) (by norm_num)) (hr.trans bw) (abs_nonneg _)
            (by positivity)
      _ = 121 / 100 * M := by ring
  have Q : ∀ {p s : ℝ}, |p| ≤ len v → |s| ≤ len B → |p * s| ≤ 33 / 10 * M := by
    intro p s hp hs
    rw [abs_mul]
    calc |p| * |s| ≤ 11 / 10 * (3 * M) := mul_le_mul (hp.trans bv) (hs.trans bB) (abs_nonneg _) (by norm_num)
      _ = 33 / 10 * M := by ring
  have p1 := abs_le.1 (P v1 j1 w1)
  have p2 := abs_le.1 (P v2 j2 w2)
  have p3 := abs_le.1 (P v3 j3 w3)
  have q1 := abs_le.1 (Q v1 b1)
  have q2 := abs_le.1 (Q v2 b2)
  have q3 := abs_le.1 (Q v3 b3)
  have aa := abs_le.1 (le_refl |a|)
  have u0 : 7 * M / 2 ^ 52 + 2 * K / 2 ^ 52 ≤ K / 64 := by norm_num; linarith
  have c1 := bond_comp hM (by linarith) hK' hs1.1 hj.1 hs2.1 hh.1 (v1.trans bv) (j1.trans bJ) (w1.trans bw) (b1.trans bB) ha
    (by rw [abs_le]; constructor <;> linarith) (by rw [abs_le]; constructor <;> linarith) (by linarith)
  have c2 := bond_comp hM (by linarith) hK' hs1.2.1 hj.2.1 hs2.2.1 hh.2.1 (v2.trans bv) (j2.trans bJ) (w2.trans bw)
    (b2.trans bB) c1 (by rw [abs_le]; constructor <;> linarith) (by rw [abs_le]; constructor <;> linarith) (by linarith)
  have c3 := bond_comp hM (by linarith) hK' hs1.2.2 hj.2.2 hs2.2.2 hh.2.2 (v3.trans bv) (j3.trans bJ) (w3.trans bw)
    (b3.trans bB) c2 (by rw [abs_le]; constructor <;> linarith) (by rw [abs_le]; constructor <;> linarith) (by linarith)
  have e1 : a + siteE v w J B = a - v.x * J.x * w.x + v.x * B.x - v.y * J.y * w.y + v.y * B.y - v.z * J.z * w.z + v.z * B.z := by
    simp only [siteE, dot, had]; ring
  rw [e1]
  refine NearR.mono c3 (le_of_eq ?_)
  ring

/-! ### The loops -/

/-- values of the spins, couplings and fields that enter a sum over `n` sites -/
structure Sites (n : ℕ) (M : ℝ) (sp : ℕ → Spin (B64 m)) (j h : ℕ → V3 (B64 m)) (V J B : ℕ → V3 ℝ) : Prop where
  lo : 1 ≤ M
  hi : M ≤ 2 ^ 100
  sp : ∀ i < n, IsVal3 (sp i).dir (V i) ∧ len (V i) ≤ 11 / 10
  j : ∀ i < n, IsVal3 (j i) (J i) ∧ len (J i) ≤ M
  h : ∀ i < n, IsVal3 (h i) (B i) ∧ len (B i) ≤ 3 * M

/-- the sum over `k` sites; `nx` is the neighbour on the right -/
theorem bonds_near {n k : ℕ} {M : ℝ} {sp : ℕ → Spin (B64 m)} {j h : ℕ → V3 (B64 m)} {V J B : ℕ → V3 ℝ}
    (hs : Sites n M sp j h V J B) (hn : n < 2 ^ 31) (hk : k ≤ n) (nx : ℕ → ℕ) (hnx : ∀ i < k, nx i < n) :
    NearR ((List.range' 0 k).foldl (fun acc i => SpinChain.bondField (sp i) (sp (nx i)) (j i) (h i) acc) (0.0 : B64 m) : B64 m)
      (∑ i ∈ range k, siteE (V i) (V (nx i)) (J i) (B i)) (k * (105 * M * k / 2 ^ 52)) ∧
    |∑ i ∈ range k, siteE (V i) (V (nx i)) (J i) (B i)| ≤ k * (5 * M) := by
  have M1 := hs.lo
  have M2 := hs.hi
  have kb : (k : ℝ) ≤ 2 ^ 31 := by exact_mod_cast (hk.trans hn.le)
  have := fold_near (m := m) (fun i acc => SpinChain.bondField (sp i) (sp (nx i)) (j i) (h i) acc)
    (fun i => siteE (V i) (V (nx i)) (J i) (B i)) (G := 5 * M) (q := 105 * M * k / 2 ^ 52) k (z := (0.0 : B64 m)) (a := 0) (e := 0)
    (by have := near_lit0 (m := m) 1; rwa [zero_mul] at this)
    (fun i hi => siteE_abs M1 (hs.sp i (by omega)).2 (hs.sp _ (hnx i hi)).2 (hs.j i (by omega)).2 (hs.h i (by omega)).2)
    (by
      intro i hi acc b e' h1 h2 h3
      rw [abs_zero, zero_add] at h2
      rw [zero_add] at h3
      have ik : (i : ℝ) + 1 ≤ k := by exact_mod_cast hi
      have i0 : (0 : ℝ) ≤ i := Nat.cast_nonneg i
      have kM : k * M ≤ 2 ^ 31 * 2 ^ 100 := mul_le_mul kb M2 (by linarith) (by positivity)
      have iM : (i + 1) * M ≤ k * M := mul_le_mul_of_nonneg_right ik (by linarith)
      have iM0 : 0 ≤ i * M := by positivity
      refine (bond_near (K := 14 * M * k) M1 (by linarith) (by norm_num at *; linarith) (hs.sp i (by omega)).1
        (hs.sp _ (hnx i hi)).1 (hs.j i (by omega)).1 (hs.h i (by omega)).1 (hs.sp i (by omega)).2 (hs.sp _ (hnx i hi)).2
        (hs.j i (by omega)).2 (hs.h i (by omega)).2 h1 ?_).mono ?_
      · refine h3.trans ?_
        have h4 : (i : ℝ) * (105 * M * k / 2 ^ 52) ≤ 2 ^ 31 * (105 * M * k / 2 ^ 52) :=
          mul_le_mul_of_nonneg_right (by linarith) (by positivity)
        refine h4.trans ?_
        norm_num
        nlinarith
      · rw [add_le_add_iff_left]
        apply div_le_div_of_nonneg_right _ (by positivity)
        linarith)
  rw [zero_add, zero_add, abs_zero, zero_add] at this
  exact this

/-- the sum divided by a number of sites -/
theorem mean_near {k : ℕ} {M s : ℝ} {x : B64 m} (hk : 1 ≤ k) (hk' : k < 2 ^ 31) (M1 : 1 ≤ M) (M2 : M ≤ 2 ^ 100)
    (h : NearR x s (k * (105 * M * k / 2 ^ 52))) (hs : |s| ≤ k * (8 * M)) :
    NearR (x / FOps.fofInt (k : ℤ) : B64 m) (s / k) (128 * M * k / 2 ^ 52) := by
  have k1 : (1 : ℝ) ≤ k := by exact_mod_cast hk
  have k0 : (0 : ℝ) < k := by linarith
  have kb : (k : ℝ) ≤ 2 ^ 31 := by exact_mod_cast hk'.le
  have ek : k * (105 * M * k / 2 ^ 52) / |((k : ℚ) : ℝ)| = 105 * M * k / 2 ^ 52 := by
    rw [Rat.cast_natCast, abs_of_pos k0]
    field_simp
  have kM : M * k ≤ M * 2 ^ 31 := mul_le_mul_of_nonneg_left kb (by linarith)
  have kM' : M * 1 ≤ M * k := mul_le_mul_of_nonneg_left k1 (by linarith)
  have := h.div_abs (nat_val (m := m) hk') (by exact_mod_cast (by omega : k ≠ 0)) (C := 8 * M) (by
    rw [Rat.cast_natCast, abs_div, abs_of_pos k0, div_le_iff₀ k0]
    linarith) (by
    rw [ek]
    norm_num at *
    linarith) (by linarith) (by norm_num at *; linarith)
  rw [ek, Rat.cast_natCast] at this
  refine this.mono ?_
  norm_num
  linarith

/-- the energies computed by a loop around a ring -/
theorem ring_near {n : ℕ} {M : ℝ} {sp : ℕ → Spin (B64 m)} {j h : ℕ → V3 (B64 m)} {V J B : ℕ → V3 ℝ} {spins : List (Spin (B64 m))}
    {jc H : List (V3 (B64 m))} (hs : Sites n M sp j h V J B) (h1 : 1 ≤ n) (hn : n < 2 ^ 31)
    (ts : ∀ i < n, idx spins i = .ok (sp i)) (tj : ∀ i < n, idx jc i = .ok (j i)) (th : ∀ i < n, idx H i = .ok (h i)) :
    ∃ x, (do
      let e ← forRange 0 (n - 1) (0.0 : B64 m) fun i e => do
        return SpinChain.bondField (← idx spins i) (← idx spins (i + 1)) (← idx jc i) (← idx H i) e
      let e := SpinChain.bondField (← idx spins (n - 1)) (← idx spins 0) (← idx jc (n - 1)) (← idx H (n - 1)) e
      return e / FOps.fofInt (n : ℤ) : R (B64 m)) = .ok x ∧
      NearR x (ringEnergy n V J B / n) (128 * M * n / 2 ^ 52) := by
  obtain ⟨k, rfl⟩ : ∃ k, n = k + 1 := ⟨n - 1, by omega⟩
  have h2 := bonds_near hs hn le_rfl (fun i => (i + 1) % (k + 1)) (fun i _ => Nat.mod_lt _ (by omega))
  refine ⟨_, ?_, mean_near (by omega) hn hs.lo hs.hi h2.1
    (h2.2.trans (mul_le_mul_of_nonneg_left (by linarith [hs.lo]) (Nat.cast_nonneg _)))⟩
  rw [Nat.add_sub_cancel, forRange_ok (fun i e => SpinChain.bondField (sp i) (sp (i + 1)) (j i) (h i) e)]
  · rw [ok_bind, ts k (by omega), ok_bind, ts 0 (by omega), ok_bind, tj k (by omega), ok_bind, th k (by omega), ok_bind]
    rw [List.range'_concat, List.foldl_append]
    simp only [zero_add, one_mul, List.foldl_cons, List.foldl_nil, Nat.mod_self, Nat.sub_zero]
    congr 3
    refine List.foldl_ext _ _ _ fun acc i hi => ?_
    rw [List.mem_range'_1] at hi
    rw [Nat.mod_eq_of_lt (by omega)]
  · intro i _ hi acc
    rw [ts i (by omega), ok_bind, ts (i + 1) (by omega), ok_bind, tj i (by omega), ok_bind, th i (by omega), ok_bind]
    rfl

/-- the energy computed by a loop along an open chain -/
theorem open_near {n : ℕ} {M : ℝ} {sp : ℕ → Spin (B64 m)} {j h : ℕ → V3 (B64 m)} {V J B : ℕ → V3 ℝ} {spins : List (Spin (B64 m))}
    {jc H : List (V3 (B64 m))} (hs : Sites n M sp j h V J B) (h1 : 2 ≤ n) (hn : n < 2 ^ 31)
    (ts : ∀ i < n, idx spins i = .ok (sp i)) (tj : ∀ i < n, idx jc i = .ok (j i)) (th : ∀ i < n, idx H i = .ok (h i)) :
    ∃ x, (do
      let e ← forRange 0 (n - 1) (0.0 : B64 m) fun i e => do
        return SpinChain.bondField (← idx spins i) (← idx spins (i + 1)) (← idx jc i) (← idx H i) e
      return e / FOps.fofInt ((n - 1 : ℕ) : ℤ) : R (B64 m)) = .ok x ∧
      NearR x ((∑ i ∈ range (n - 1), siteE (V i) (V (i + 1)) (J i) (B i)) / ((n - 1 : ℕ) : ℝ))
        (128 * M * ((n - 1 : ℕ) : ℝ) / 2 ^ 52) := by
  have h2 := bonds_near (k := n - 1) hs hn (by omega) (fun i => i + 1) (fun i _ => by omega)
  refine ⟨_, ?_, mean_near (by omega) (by omega) hs.lo hs.hi h2.1
    (h2.2.trans (mul_le_mul_of_nonneg_left (by linarith [hs.lo]) (Nat.cast_nonneg _)))⟩
  rw [forRange_ok (fun i e => SpinChain.bondField (sp i) (sp (i + 1)) (j i) (h i) e)]
  · rfl
  · intro i _ hi acc
    rw [ts i (by omega), ok_bind, ts (i + 1) (by omega), ok_bind, tj i (by omega), ok_bind, th i (by omega), ok_bind]
    rfl

/-! ### The separate sums of `total_energy` -/

theorem sjs_near {M : ℝ} (hM : 1 ≤ M) (hM' : M ≤ 2 ^ 100) {s1 s2 : Spin (B64 m)} {j : V3 (B64 m)} {v w J : V3 ℝ}
    (hs1 : IsVal3 s1.dir v) (hs2 : IsVal3 s2.dir w) (hj : IsVal3 j J) (bv : len v ≤ 11 / 10) (bw : len w ≤ 11 / 10)
    (bJ : len J ≤ M) : NearR (SpinChain.sjs_energy s1 s2 j : B64 m) (dot v (had J w)) (24 * M / 2 ^ 52) := by
  obtain ⟨v1, v2, v3⟩ := abs_le_len v
  obtain ⟨w1, w2, w3⟩ := abs_le_len w
  obtain ⟨j1, j2, j3⟩ := abs_le_len J
  have P : ∀ {p q r : ℝ}, |p| ≤ len v → |q| ≤ len J → |r| ≤ len w → |p * q * r| ≤ 121 / 100 * M := by
    intro p q r hp hq hr
    rw [abs_mul, abs_mul]
    calc |p| * |q| * |r| ≤ 11 / 10 * M * (11 / 10) :=
          mul_le_mul (mul_le_mul (hp.trans bv) (hq.trans bJ) (abs_nonneg _) (by norm_num)) (hr.trans bw) (abs_nonneg _)
            (by positivity)
      _ = 121 / 100 * M := by ring
  have comp : ∀ {acc x y z : B64v} {a e p q r : ℝ}, NearR acc a e → IsVal x p → IsVal y q → IsVal z r → |p| ≤ len v →
      |q| ≤ len J → |r| ≤ len w → |a + p * q * r| ≤ 4 * M → e ≤ M → NearR (acc.add ((x.mul y).mul z)) (a + p * q * r)
        (e + 8 * M / 2 ^ 52) := by
    intro acc x y z a e p q r ha hx hy hz hp hq hr hb he
    have t1 := (IsVal.nearR hx).mul_abs (IsVal.nearR hy) (hp.trans bv) (hq.trans bJ) (by linarith)
      (by norm_num at *; linarith) le_rfl (by norm_num) (by linarith)
    have b1 : |p * q| ≤ 11 / 10 * M := by
      rw [abs_mul]; exact mul_le_mul (hp.trans bv) (hq.trans bJ) (abs_nonneg _) (by norm_num)
    have t2 := t1.mul_abs (IsVal.nearR hz) b1 (hr.trans bw) (by linarith) (by norm_num at *; linarith) (by positivity)
      (by norm_num at *; linarith) (by norm_num)
    refine (ha.add_abs t2 hb (by linarith) (by norm_num at *; linarith) (by norm_num at *; linarith)).mono ?_
    norm_num
    linarith
  have p1 := abs_le.1 (P v1 j1 w1)
  have p2 := abs_le.1 (P v2 j2 w2)
  have p3 := abs_le.1 (P v3 j3 w3)
  have z : NearR (0.0 : B64 m) 0 0 := by have := near_lit0 (m := m) 1; rwa [zero_mul] at this
  have c1 := comp z hs1.1 hj.1 hs2.1 v1 j1 w1 (by rw [abs_le]; constructor <;> linarith) (by linarith)
  have c2 := comp c1 hs1.2.1 hj.2.1 hs2.2.1 v2 j2 w2 (by rw [abs_le]; constructor <;> linarith) (by norm_num; linarith)
  have c3 := comp c2 hs1.2.2 hj.2.2 hs2.2.2 v3 j3 w3 (by rw [abs_le]; constructor <;> linarith) (by norm_num; linarith)
  have e1 : dot v (had J w) = 0 + v.x * J.x * w.x + v.y * J.y * w.y + v.z * J.z * w.z := by
    simp only [dot, had]; ring
  rw [e1]
  refine NearR.mono c3 (le_of_eq ?_)
  ring

theorem sh_near {M : ℝ} (hM : 1 ≤ M) (hM' : M ≤ 2 ^ 100) {s1 : Spin (B64 m)} {h : V3 (B64 m)} {v B : V3 ℝ}
    (hs1 : IsVal3 s1.dir v) (hh : IsVal3 h B) (bv : len v ≤ 11 / 10)
    (bB : len B ≤ 2 * M) : NearR (SpinChain.sh_energy s1 h : B64 m) (dot B v) (28 * M / 2 ^ 52) := by
  obtain ⟨v1, v2, v3⟩ := abs_le_len v
  obtain ⟨b1, b2, b3⟩ := abs_le_len B
  have Q : ∀ {p s : ℝ}, |p| ≤ len v → |s| ≤ len B → |p * s| ≤ 22 / 10 * M := by
    intro p s hp hs
    rw [abs_mul]
    calc |p| * |s| ≤ 11 / 10 * (2 * M) := mul_le_mul (hp.trans bv) (hs.trans bB) (abs_nonneg _) (by norm_num)
      _ = 22 / 10 * M := by ring
  have comp : ∀ {acc x y : B64v} {a e p q : ℝ}, NearR acc a e → IsVal x p → IsVal y q → |p| ≤ len v →
      |q| ≤ len B → |a + p * q| ≤ 7 * M → e ≤ M → NearR (acc.add (x.mul y)) (a + p * q) (e + 28 / 3 * M / 2 ^ 52) := by
    intro acc x y a e p q ha hx hy hp hq hb he
    have t1 := (IsVal.nearR hx).mul_abs (IsVal.nearR hy) (hp.trans bv) (hq.trans bB) (by linarith)
      (by norm_num at *; linarith) le_rfl (by norm_num) (by linarith)
    refine (ha.add_abs t1 hb (by linarith) (by norm_num at *; linarith) (by norm_num at *; linarith)).mono ?_
    norm_num
    linarith
  have p1 := abs_le.1 (Q v1 b1)
  have p2 := abs_le.1 (Q v2 b2)
  have p3 := abs_le.1 (Q v3 b3)
  have z : NearR (0.0 : B64 m) 0 0 := by have := near_lit0 (m := m) 1; rwa [zero_mul] at this
  have c1 := comp z hs1.1 hh.1 v1 b1 (by rw [abs_le]; constructor <;> linarith) (by linarith)
  have c2 := comp c1 hs1.2.1 hh.2.1 v2 b2 (by rw [abs_le]; constructor <;> linarith) (by norm_num; linarith)
  have c3 := comp c2 hs1.2.2 hh.2.2 v3 b3 (by rw [abs_le]; constructor <;> linarith) (by norm_num; linarith)
  have e1 : dot B v = 0 + v.x * B.x + v.y * B.y + v.z * B.z := by
    simp only [dot]; ring
  rw [e1]
  refine NearR.mono c3 (le_of_eq ?_)
  ring

/-- a sum of terms known with error `r`, bounded by `K` -/
theorem terms_near {n : ℕ} {r K G a e : ℝ} (x : ℕ → B64 m) (g : ℕ → ℝ) (sgn : Bool) {z : B64 m} (hz : NearR z a e)
    (hx : ∀ i < n, NearR (x i) (g i) r ∧ |g i| ≤ G) (K1 : 1 ≤ K) (K2 : K ≤ 2 ^ 200) (hK : |a| + n * G ≤ K)
    (he : e + n * (r + K / 2 ^ 52) ≤ K / 2) (r0 : 0 ≤ r) :
    NearR ((List.range' 0 n).foldl (fun acc i => if sgn then acc - x i else acc + x i) z : B64 m)
      (a + ∑ i ∈ range n, if sgn then -g i else g i) (e + n * (r + K / 2 ^ 52)) ∧
      |a + ∑ i ∈ range n, if sgn then -g i else g i| ≤ |a| + n * G := by
  have K0 : 0 ≤ r + K / 2 ^ 52 := by positivity
  refine fold_near (m := m) (fun i acc => if sgn then acc - x i else acc + x i) (fun i => if sgn then -g i else g i) n hz
    (fun i hi => ?_) fun i hi acc b e' h1 h2 h3 => ?_
  · cases sgn
    · exact (hx i hi).2
    · simpa using (hx i hi).2
  · have ik : (i : ℝ) + 1 ≤ n := by exact_mod_cast hi
    have G0 : 0 ≤ G := (abs_nonneg _).trans (hx i hi).2
    have e1 : (i + 1 : ℝ) * G ≤ n * G := mul_le_mul_of_nonneg_right ik G0
    have e2 : (i + 1 : ℝ) * (r + K / 2 ^ 52) ≤ n * (r + K / 2 ^ 52) := mul_le_mul_of_nonneg_right ik K0
    have e3 : 0 ≤ K / 2 ^ 52 := by positivity
    have gi := (hx i hi).2
    rw [← add_assoc]
    cases sgn
    · refine h1.add_abs (hx i hi).1 ?_ K1 K2 (by linarith)
      rw [abs_le] at *
      constructor <;> linarith [abs_nonneg a]
    · simp only [if_true]
      rw [← sub_eq_add_neg]
      refine h1.sub_abs (hx i hi).1 ?_ K1 K2 (by linarith)
      rw [abs_le] at *
      constructor <;> linarith [abs_nonneg a]

/-! ### Magnetisation -/

theorem foldl3 (l : List ℕ) (sp : ℕ → Spin (B64 m)) (a : V3 (B64 m)) :
    l.foldl (fun (acc : V3 (B64 m)) i => ⟨acc.x + (sp i).dir.x, acc.y + (sp i).dir.y, acc.z + (sp i).dir.z⟩) a
      = ⟨l.foldl (fun acc i => acc + (sp i).dir.x) a.x, l.foldl (fun acc i => acc + (sp i).dir.y) a.y,
        l.foldl (fun acc i => acc + (sp i).dir.z) a.z⟩ := by
  induction l generalizing a with
  | nil => rfl
  | cons i l ih => rw [List.foldl_cons, ih]; rfl

/-- a component of the magnetisation of `n` spins -/
theorem mag_comp {n : ℕ} (h0 : 1 ≤ n) (hn : n < 2 ^ 31) (x : ℕ → B64 m) (g : ℕ → ℝ)
    (hx : ∀ i < n, IsVal (x i) (g i) ∧ |g i| ≤ 11 / 10) :
    NearR ((List.range' 0 n).foldl (fun acc i => acc + x i) (0.0 : B64 m) : B64 m) (∑ i ∈ range n, g i)
      (2 * (n : ℝ) ^ 2 / 2 ^ 52) ∧ |∑ i ∈ range n, g i| ≤ 11 / 10 * n := by
  have n1 : (1 : ℝ) ≤ n := by exact_mod_cast h0
  have nb : (n : ℝ) ≤ 2147483648 := by exact_mod_cast hn.le
  have z : NearR (0.0 : B64 m) 0 0 := by have := near_lit0 (m := m) 1; rwa [zero_mul] at this
  have nn : (n : ℝ) * n ≤ n * 2147483648 := mul_le_mul_of_nonneg_left nb (by linarith)
  have := terms_near (m := m) (n := n) (r := 0) (K := 2 * n) (G := 11 / 10) x g false z
    (fun i hi => ⟨IsVal.nearR (hx i hi).1, (hx i hi).2⟩) (by linarith) (by norm_num; linarith)
    (by rw [abs_zero]; linarith) (by norm_num; linarith) le_rfl
  simp only [Bool.false_eq_true, if_false] at this
  rw [abs_zero, zero_add, zero_add, zero_add] at this
  refine ⟨this.1.mono (le_of_eq (by ring)), this.2.trans (by linarith)⟩

theorem mag_near {n L : ℕ} {sp : ℕ → Spin (B64 m)} {V : ℕ → V3 ℝ} {spins : List (Spin (B64 m))} (h0 : 1 ≤ n)
    (hn : n < 2 ^ 31) (hnL : n ≤ L) (t : Tab spins L sp) (vs : ∀ i < L, IsVal3 (sp i).dir (V i) ∧ len (V i) ≤ 11 / 10) :
    ∃ x, SpinChain.magSum spins n = .ok x ∧ NearR x.x (∑ i ∈ range n, (V i).x) (2 * (n : ℝ) ^ 2 / 2 ^ 52) ∧
      NearR x.y (∑ i ∈ range n, (V i).y) (2 * (n : ℝ) ^ 2 / 2 ^ 52) ∧
      NearR x.z (∑ i ∈ range n, (V i).z) (2 * (n : ℝ) ^ 2 / 2 ^ 52) := by
  have bx : ∀ i < n, |(V i).x| ≤ 11 / 10 ∧ |(V i).y| ≤ 11 / 10 ∧ |(V i).z| ≤ 11 / 10 := fun i hi => by
    obtain ⟨h1, h2, h3⟩ := abs_le_len (V i)
    have := (vs i (by omega)).2
    exact ⟨h1.trans this, h2.trans this, h3.trans this⟩
  have c1 := mag_comp h0 hn (fun i => (sp i).dir.x) (fun i => (V i).x) fun i hi => ⟨(vs i (by omega)).1.1, (bx i hi).1⟩
  have c2 := mag_comp h0 hn (fun i => (sp i).dir.y) (fun i => (V i).y) fun i hi => ⟨(vs i (by omega)).1.2.1, (bx i hi).2.1⟩
  have c3 := mag_comp h0 hn (fun i => (sp i).dir.z) (fun i => (V i).z) fun i hi => ⟨(vs i (by omega)).1.2.2, (bx i hi).2.2⟩
  refine ⟨⟨_, _, _⟩, ?_, c1.1, c2.1, c3.1⟩
  unfold SpinChain.magSum
  rw [if_pos (by rw [t.length]; exact hnL)]
  rw [show spins.take n = (List.range' 0 n).map sp by
    rw [t, ← List.map_take, List.take_range, min_eq_left hnL, List.range_eq_range'], List.foldl_map, foldl3]

/-- a mean of components -/
theorem mean_comp {n : ℕ} {x : B64 m} {a e D b : ℝ} (h0 : 1 ≤ n) (hn : n < 2 ^ 31) (h : NearR x a (2 * (n : ℝ) ^ 2 / 2 ^ 52))
    (ha : |a| ≤ 11 / 10 * n) (hb : |a / n - b / n| ≤ D) (he : 4 * n / 2 ^ 52 + D ≤ e) :
    NearR (x / FOps.fofInt (n : ℤ) : B64 m) (b / n) e := by
  have n1 : (1 : ℝ) ≤ n := by exact_mod_cast h0
  have n0 : (0 : ℝ) < n := by linarith
  have nb : (n : ℝ) ≤ 2147483648 := by exact_mod_cast hn.le
  have ek : 2 * (n : ℝ) ^ 2 / 2 ^ 52 / |((n : ℚ) : ℝ)| = 2 * n / 2 ^ 52 := by
    rw [Rat.cast_natCast, abs_of_pos n0]
    field_simp
  have := h.div_abs (nat_val (m := m) hn) (by exact_mod_cast (by omega : n ≠ 0)) (C := 2) (by
    rw [Rat.cast_natCast, abs_div, abs_of_pos n0, div_le_iff₀ n0]
    linarith) (by rw [ek]; norm_num; linarith) (by norm_num) (by norm_num)
  rw [ek, Rat.cast_natCast] at this
  refine (this.shift hb).mono (le_trans ?_ he)
  norm_num
  linarith

/-! ### Dependence of the energies on spins and fields -/

theorem siteE_lip {M D γ : ℝ} (hM : 1 ≤ M) (γ0 : 0 ≤ γ) {v w v' w' J B B' : V3 ℝ} (hv : len v ≤ 11 / 10) (hw : len w ≤ 11 / 10)
    (hv' : len v' ≤ 11 / 10) (hJ : len J ≤ M) (hB : len B' ≤ 2 * M) (d1 : len (Spec.sub v v') ≤ D)
    (d2 : len (Spec.sub w w') ≤ D) (d3 : len (Spec.sub B B') ≤ γ) :
    |siteE v w J B - siteE v' w' J B'| ≤ 5 * M * D + 2 * γ := by
  have e1 : siteE v w J B - siteE v' w' J B' = -dot (Spec.sub v v') (had J w) - dot v' (had J (Spec.sub w w'))
      + dot (Spec.sub B B') v + dot B' (Spec.sub v v') := by
    simp only [siteE, dot, had, Spec.sub]; ring
  have D0 : 0 ≤ D := (len_nonneg _).trans d1
  have h1 := abs_le.1 (abs_dot_le_len (Spec.sub v v') (had J w))
  have h2 := abs_le.1 (abs_dot_le_len v' (had J (Spec.sub w w')))
  have h3 := abs_le.1 (abs_dot_le_len (Spec.sub B B') v)
  have h4 := abs_le.1 (abs_dot_le_len B' (Spec.sub v v'))
  have b1 : len (had J w) ≤ M * (11 / 10) :=
    (len_had_le J w).trans (mul_le_mul hJ hw (len_nonneg _) (by linarith))
  have b2 : len (had J (Spec.sub w w')) ≤ M * D :=
    (len_had_le _ _).trans (mul_le_mul hJ d2 (len_nonneg _) (by linarith))
  have c1 : len (Spec.sub v v') * len (had J w) ≤ D * (M * (11 / 10)) := mul_le_mul d1 b1 (len_nonneg _) D0
  have c2 : len v' * len (had J (Spec.sub w w')) ≤ 11 / 10 * (M * D) := mul_le_mul hv' b2 (len_nonneg _) (by norm_num)
  have c3 : len (Spec.sub B B') * len v ≤ γ * (11 / 10) := mul_le_mul d3 hv (len_nonneg _) γ0
  have c4 : len B' * len (Spec.sub v v') ≤ 2 * M * D := mul_le_mul hB d1 (len_nonneg _) (by linarith)
  have MD : 0 ≤ M * D := by positivity
  rw [e1, abs_le]
  constructor <;> linarith

theorem mean_lip {k : ℕ} {X : ℝ} (f g : ℕ → ℝ) (hk : 1 ≤ k) (h : ∀ i < k, |f i - g i| ≤ X) :
    |(∑ i ∈ range k, f i) / k - (∑ i ∈ range k, g i) / k| ≤ X := by
  have k0 : (0 : ℝ) < k := by exact_mod_cast hk
  rw [← sub_div, abs_div, abs_of_pos k0, div_le_iff₀ k0, ← sum_sub_distrib]
  refine (abs_sum_le_sum_abs _ _).trans ?_
  refine (sum_le_sum fun i hi => h i (mem_range.1 hi)).trans (le_of_eq ?_)
  rw [sum_const, card_range, nsmul_eq_mul]
  ring

end Verif.Forward
