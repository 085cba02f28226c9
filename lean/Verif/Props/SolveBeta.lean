/-
C116: the energy density of the clean chain at the inverse temperature returned by `solve_beta`
(/repo/src/spinchain.rs, lines 107-116), which main.rs puts into the configuration (line 385) and README.md describes
as "determined from ednsty" (line 93).
-/
import Verif.Props.RingEnergy

namespace Verif.Props

open Spec Transfer

/-- energy density of the infinite clean chain: `1/β - coth β` -/
noncomputable def chainEnergy (beta : ℝ) : ℝ := 1 / beta - Real.cosh beta / Real.sinh beta

theorem coth_eq (x : ℝ) : 1 / Real.tanh x = Real.cosh x / Real.sinh x := by
  rw [Real.tanh_eq_sinh_div_cosh, one_div_div]

/-- the result of the loop is one of the iterates, at the first pair that is close -/
theorem solve_first {e b : ℝ} (he : -1 < e) (hs : SolveBeta e b) : ∃ m, b = betaSeq e (m + 1) ∧
    |betaSeq e (m + 1) - betaSeq e m| ≤ 1 / 100 ∧ ∀ k < m, ¬ |betaSeq e (k + 1) - betaSeq e k| ≤ 1 / 100 := by
  classical
  have hex := betaSeq_close he
  have hstop := solveBetaLoop_stop e (Nat.find hex) (Nat.find_spec hex) (fun k hk => Nat.find_min hex hk)
  obtain ⟨n, hn⟩ := hs
  exact ⟨Nat.find hex, solveBetaLoop_det hn hstop, Nat.find_spec hex, fun k hk => Nat.find_min hex hk⟩

theorem coth_three_halves : 1 / Real.tanh (3 / 2) ≤ 7 / 6 := by
  have hs : 0 < Real.sinh (3 / 2) := Real.sinh_pos_iff.2 (by norm_num)
  rw [coth_eq, div_le_iff₀ hs, Real.cosh_eq, Real.sinh_eq]
  have h3 : (13 : ℝ) ≤ Real.exp 3 := by
    have e : Real.exp 3 = Real.exp 1 ^ 3 := by rw [← Real.exp_nat_mul]; norm_num
    rw [e]
    calc (13 : ℝ) ≤ 2.5 ^ 3 := by norm_num
      _ ≤ _ := pow_le_pow_left₀ (by norm_num) (by linarith [Real.quadratic_le_exp_of_nonneg (x := 1) zero_le_one]) _
  have h4 : Real.exp (3 / 2) = Real.exp 3 * Real.exp (-(3 / 2)) := by rw [← Real.exp_add]; norm_num
  have := Real.exp_pos (-(3 / 2) : ℝ)
  nlinarith

/-- C116 for energy densities up to -1/2: the result is the inverse temperature of the requested energy density up to
0.005 in the energy.  (For larger energy densities this fails, see `C116_inaccurate`.) -/
theorem C116_solve_beta_partial (e b : ℝ) (h1 : -1 < e) (h2 : e ≤ -(1 / 2)) (hs : SolveBeta e b) :
    3 / 2 ≤ b ∧ |chainEnergy b - e| ≤ 0.005 := by
  have hge : ∀ n, 3 / 2 ≤ betaSeq e n := by
    intro n
    induction n with
    | zero => norm_num [betaSeq]
    | succ n ih =>
      rw [betaSeq]
      refine le_trans ?_ (betaStep_mono h1 (by norm_num) ih)
      have h3 := coth_gt_one (x := 3 / 2) (by norm_num)
      rw [le_div_iff₀ (by linarith)]
      linarith [coth_three_halves]
  obtain ⟨m, rfl, hm, -⟩ := solve_first h1 hs
  refine ⟨hge _, ?_⟩
  have hb := hge (m + 1)
  have hb0 := hge m
  set b := betaSeq e (m + 1) with hbd
  set b0 := betaSeq e m with hb0d
  have e0 : 1 / b = e + Real.cosh b0 / Real.sinh b0 := by
    rw [hbd, betaSeq, one_div_one_div, coth_eq]
  have s1 : 0 < Real.sinh b := Real.sinh_pos_iff.2 (by linarith)
  have s2 : 0 < Real.sinh b0 := Real.sinh_pos_iff.2 (by linarith)
  have e1 : chainEnergy b - e = Real.sinh (b - b0) / (Real.sinh b * Real.sinh b0) := by
    rw [chainEnergy, e0, Real.sinh_sub]
    field_simp
    ring
  have h3 : Real.sinh 0.01 ≤ 0.0101 := by
    rw [Real.sinh_eq]
    have a1 := Real.add_one_le_exp (-0.01 : ℝ)
    have a2 : Real.exp 0.01 ≤ 1 / 0.99 := by
      rw [show (0.01 : ℝ) = -(-0.01) by norm_num, Real.exp_neg, one_div]
      exact inv_anti₀ (by norm_num) (by linarith)
    have : (1 : ℝ) / 0.99 ≤ 1.0102 := by norm_num
    linarith
  have h4 : |Real.sinh (b - b0)| ≤ 0.0101 := by
    have hd := abs_le.1 hm
    refine le_trans (abs_le.2 ⟨?_, ?_⟩) h3
    · rw [← Real.sinh_neg, Real.sinh_le_sinh]
      linarith
    · rw [Real.sinh_le_sinh]
      linarith
  have h5 : 3 / 2 ≤ Real.sinh b := hb.trans (Real.self_lt_sinh_iff.2 (by linarith)).le
  have h6 : 3 / 2 ≤ Real.sinh b0 := hb0.trans (Real.self_lt_sinh_iff.2 (by linarith)).le
  rw [e1, abs_div, abs_of_pos (mul_pos s1 s2), div_le_iff₀ (mul_pos s1 s2)]
  nlinarith

/-- C116, rings: the thermal energy density of a clean ring at this inverse temperature is the requested one, up to
0.005 and the correction of the ring, which is damped exponentially in its length. -/
theorem C116_ring_partial (c : SpinChain ℝ) (L s : ℕ) (w : WF c L s) (hL : 2 ≤ L) (hc : CleanRing c L) (e b : ℝ)
    (h1 : -1 < e) (h2 : e ≤ -(1 / 2)) (hs : SolveBeta e b) :
    |energyAt c L b - e| ≤ 0.005 + 16 * b ^ 2 / (1 - Real.exp (-(2 * b))) * damping b ^ (L - 2) := by
  obtain ⟨h3, h4⟩ := C116_solve_beta_partial e b h1 h2 hs
  have h5 := C115_energy c L s w hL hc b (by linarith)
  have e1 : energyAt c L b - e = (energyAt c L b - chainEnergy b) + (chainEnergy b - e) := by ring
  rw [e1]
  exact (abs_add_le _ _).trans (by unfold chainEnergy at *; linarith)

theorem chainEnergy_anti : AntitoneOn chainEnergy (Set.Ioi 0) := by
  refine antitoneOn_of_deriv_nonpos (convex_Ioi 0) ?_ ?_ ?_
  all_goals
    have hd : ∀ x : ℝ, 0 < x → HasDerivAt chainEnergy
        (-(1 : ℝ) / x ^ 2 - (Real.sinh x * Real.sinh x - Real.cosh x * Real.cosh x) / Real.sinh x ^ 2) x := by
      intro x hx
      have h1 : HasDerivAt (fun x : ℝ => 1 / x) (-(1 : ℝ) / x ^ 2) x := by
        have := (hasDerivAt_inv hx.ne')
        simp only [one_div]
        exact this.congr_deriv (by ring)
      exact h1.sub ((Real.hasDerivAt_cosh x).div (Real.hasDerivAt_sinh x) (Real.sinh_pos_iff.2 hx).ne')
  · exact fun x hx => (hd x hx).continuousAt.continuousWithinAt
  · rw [interior_Ioi]
    exact fun x hx => (hd x hx).differentiableAt.differentiableWithinAt
  · rw [interior_Ioi]
    intro x hx
    rw [(hd x hx).deriv]
    have hx : 0 < x := hx
    have h1 := Real.self_lt_sinh_iff.2 hx
    have h2 := Real.cosh_sq x
    have e1 : Real.sinh x * Real.sinh x - Real.cosh x * Real.cosh x = -1 := by linear_combination -h2
    rw [e1, neg_div, neg_div, sub_neg_eq_add, neg_add_le_iff_le_add, add_zero]
    exact one_div_le_one_div_of_le (by positivity) (pow_le_pow_left₀ hx.le h1.le 2)

/-- `1/b ≤ coth b ≤ 1/b + b/3` -/
theorem coth_bounds {b : ℝ} (hb : 0 < b) : 1 / b ≤ 1 / Real.tanh b ∧ 1 / Real.tanh b ≤ 1 / b + b / 3 := by
  have hl := lang_pos hb
  rw [coth_eq]
  unfold lang at hl
  refine ⟨by linarith, ?_⟩
  have h : MonotoneOn (fun x : ℝ => x ^ 2 * Real.sinh x - 3 * (x * Real.cosh x - Real.sinh x)) (Set.Ici 0) := by
    have hd : ∀ x : ℝ, HasDerivAt (fun x : ℝ => x ^ 2 * Real.sinh x - 3 * (x * Real.cosh x - Real.sinh x))
        (2 * x * Real.sinh x + x ^ 2 * Real.cosh x - 3 * (1 * Real.cosh x + x * Real.sinh x - Real.cosh x)) x := by
      intro x
      have h1 : HasDerivAt (fun x : ℝ => x ^ 2) (2 * x) x := by simpa using hasDerivAt_pow 2 x
      exact (h1.mul (Real.hasDerivAt_sinh x)).sub ((((hasDerivAt_id x).mul (Real.hasDerivAt_cosh x)).sub
        (Real.hasDerivAt_sinh x)).const_mul 3)
    refine monotoneOn_of_deriv_nonneg (convex_Ici 0) (fun x _ => (hd x).continuousAt.continuousWithinAt)
      (fun x _ => (hd x).differentiableAt.differentiableWithinAt) fun x hx => ?_
    rw [interior_Ici] at hx
    have hx : 0 < x := hx
    rw [(hd x).deriv]
    have hs := Real.sinh_pos_iff.2 hx
    have hl := lang_pos hx
    unfold lang at hl
    have h2 : Real.sinh x ≤ x * Real.cosh x := by
      have : (Real.cosh x / Real.sinh x - 1 / x) * (x * Real.sinh x) = x * Real.cosh x - Real.sinh x := by field_simp
      have h3 : 0 < (Real.cosh x / Real.sinh x - 1 / x) * (x * Real.sinh x) := by positivity
      linarith
    nlinarith
  have h2 := h (Set.mem_Ici.2 le_rfl) (Set.mem_Ici.2 hb.le) hb.le
  simp only [Real.sinh_zero, mul_zero, zero_mul, sub_zero] at h2
  norm_num at h2
  have hs := Real.sinh_pos_iff.2 hb
  have e : 1 / b + b / 3 = (3 + b ^ 2) / (3 * b) := by field_simp
  rw [e, div_le_div_iff₀ hs (by positivity)]
  nlinarith

theorem betaSeq_anti {e : ℝ} (h1 : -(1 / 2) ≤ e) (n : ℕ) : betaSeq e (n + 1) ≤ betaSeq e n := by
  have he : -1 < e := by linarith
  induction n with
  | zero =>
    have := coth_gt_one (x := 20) (by norm_num)
    show 1 / (e + 1 / Real.tanh 20) ≤ 20
    rw [div_le_iff₀ (by linarith)]
    linarith
  | succ n ih => exact betaStep_mono he (betaSeq_pos he _) ih

/-- C116 for all energy densities between -1/2 and 0: the energy density at the result is never above the requested
one, and below it by at most `1 / (100 b²)` and at most 0.104. -/
theorem C116_above_partial (e b : ℝ) (h1 : -(1 / 2) ≤ e) (h2 : e < 0) (hs : SolveBeta e b) :
    0 < b ∧ 0 ≤ e - chainEnergy b ∧ e - chainEnergy b ≤ 1 / (100 * b ^ 2) ∧ e - chainEnergy b ≤ 0.104 := by
  have he : -1 < e := by linarith
  obtain ⟨m, rfl, hm, -⟩ := solve_first he hs
  have hb := betaSeq_pos he (m + 1)
  have hb0 := betaSeq_pos he m
  have rel : ∀ k, e - chainEnergy (betaSeq e k) = 1 / betaSeq e (k + 1) - 1 / betaSeq e k := by
    intro k
    rw [chainEnergy, show betaSeq e (k + 1) = 1 / (e + 1 / Real.tanh (betaSeq e k)) from rfl, one_div_one_div, coth_eq]
    ring
  have g1 : 0 ≤ e - chainEnergy (betaSeq e (m + 1)) := by
    rw [rel, sub_nonneg]
    exact one_div_le_one_div_of_le (betaSeq_pos he _) (betaSeq_anti h1 _)
  have h3 := betaSeq_anti h1 m
  have h4 : chainEnergy (betaSeq e m) ≤ chainEnergy (betaSeq e (m + 1)) :=
    chainEnergy_anti (Set.mem_Ioi.2 hb) (Set.mem_Ioi.2 hb0) h3
  have h5 := rel m
  have g3 : e - chainEnergy (betaSeq e (m + 1)) ≤ betaSeq e (m + 1) / 3 := by
    have := (coth_bounds hb).2
    rw [coth_eq] at this
    unfold chainEnergy
    linarith
  generalize betaSeq e (m + 1) = b at *
  generalize betaSeq e m = b0 at *
  have h6 : 1 / b - 1 / b0 ≤ 1 / (100 * b ^ 2) := by
    have h7 := (abs_le.1 hm).1
    have e1 : 1 / b - 1 / b0 = (b0 - b) / (b * b0) := by field_simp
    rw [e1, div_le_div_iff₀ (by positivity) (by positivity)]
    nlinarith [mul_pos hb hb]
  have g2 : e - chainEnergy b ≤ 1 / (100 * b ^ 2) := by linarith
  refine ⟨hb, g1, g2, ?_⟩
  rcases le_total b 0.312 with hc | hc
  · linarith
  · refine g2.trans ?_
    rw [div_le_iff₀ (by positivity)]
    nlinarith

/-- C116, all energy densities between -1 and 0: the energy density at the result is at most 0.005 above and at most
0.104 below the requested one. -/
theorem C116_bound_partial (e b : ℝ) (h1 : -1 < e) (h2 : e < 0) (hs : SolveBeta e b) :
    e - 0.104 ≤ chainEnergy b ∧ chainEnergy b ≤ e + 0.005 := by
  rcases le_total e (-(1 / 2)) with h | h
  · have := abs_le.1 (C116_solve_beta_partial e b h1 h hs).2
    constructor <;> linarith [this.1, this.2]
  · obtain ⟨-, h3, -, h4⟩ := C116_above_partial e b h h2 hs
    constructor <;> linarith

/-- C116 fails for energy densities near zero: for -1/20 the loop stops far from the solution, since successive values
come within 0.01 of one another long before they come close to their limit.  Whatever is returned (and something is),
the clean chain has at that inverse temperature an energy density below zero by at least twice what was asked for. -/
theorem C116_inaccurate :
    (∃ b : ℝ, SolveBeta (-(1 / 20)) b) ∧ ∀ b : ℝ, SolveBeta (-(1 / 20)) b → chainEnergy b ≤ -(1 / 10) := by
  refine ⟨?_, fun b hs => ?_⟩
  · obtain ⟨b, hs, -⟩ := C15_solve_beta (-(1 / 20)) (by norm_num)
    exact ⟨b, hs⟩
  obtain ⟨m, rfl, -, hm⟩ := solve_first (by norm_num) hs
  set g : ℝ → ℝ := fun x => 1 / (-(1 / 20) + 1 / Real.tanh x) with hg
  have hmono : ∀ x y : ℝ, 0 < x → x ≤ y → g x ≤ g y := fun x y h1 h2 => betaStep_mono (by norm_num) h1 h2
  have hstep : ∀ x : ℝ, 0 < x → x ≤ 0.36 → |g x - x| ≤ 1 / 100 := by
    intro x h0 h1
    obtain ⟨c1, c2⟩ := coth_bounds h0
    have hi : x * (1 / x) = 1 := by field_simp
    set C := 1 / Real.tanh x with hC
    set I := 1 / x with hI
    have hI0 : 2 ≤ I := by
      rw [hI, le_div_iff₀ h0]
      linarith
    have hp : 0 < -(1 / 20) + C := by linarith
    have a1 : x * C ≤ 1 + x * x / 3 := by nlinarith
    have a2 : 1 ≤ x * C := by nlinarith
    rw [abs_le, hg]
    constructor
    · rw [le_sub_iff_add_le, le_div_iff₀ hp]
      nlinarith [mul_nonneg h0.le (sq_nonneg (x - 0.36)), mul_nonneg h0.le h0.le]
    · rw [sub_le_iff_le_add, div_le_iff₀ hp]
      nlinarith
  have hlow : ∀ x : ℝ, 0.36 ≤ x → 0.34 ≤ g (g x) := by
    intro x hx
    have h1 := hmono 0.36 x (by norm_num) hx
    have h2 := (abs_le.1 (hstep 0.36 (by norm_num) le_rfl)).1
    have h3 : 0.35 ≤ g x := by linarith
    have h4 := hmono 0.35 (g x) (by norm_num) h3
    have h5 := (abs_le.1 (hstep 0.35 (by norm_num) (by norm_num))).1
    linarith
  have hb : 0.34 ≤ betaSeq (-(1 / 20)) (m + 1) := by
    cases m with
    | zero =>
      show 0.34 ≤ g 20
      have h1 := hmono 0.36 20 (by norm_num) (by norm_num)
      have h2 := (abs_le.1 (hstep 0.36 (by norm_num) le_rfl)).1
      linarith
    | succ m =>
      refine hlow (betaSeq (-(1 / 20)) m) ?_
      by_contra hc
      push Not at hc
      exact hm m (Nat.lt_succ_self m) (hstep _ (betaSeq_pos (by norm_num) m) hc.le)
  refine (chainEnergy_anti (Set.mem_Ioi.2 (by norm_num)) (Set.mem_Ioi.2 (by linarith)) hb).trans ?_
  have h1 : Real.exp 0.34 ≤ 1.4050 := by
    have := Real.exp_bound' (x := 0.34) (by norm_num) (by norm_num) (n := 5) (by norm_num)
    refine this.trans ?_
    norm_num [Finset.sum_range_succ, Nat.factorial]
  have h2 : 1.4049 ≤ Real.exp 0.34 := by
    have := Real.sum_le_exp_of_nonneg (x := 0.34) (by norm_num) 6
    refine le_trans ?_ this
    norm_num [Finset.sum_range_succ, Nat.factorial]
  have h3 : Real.exp 0.34 * Real.exp (-0.34) = 1 := by rw [← Real.exp_add]; norm_num
  have h0 := Real.exp_pos (0.34 : ℝ)
  have h4 : 0.7117 ≤ Real.exp (-0.34) := by nlinarith
  have h5 : Real.exp (-0.34) ≤ 0.7118 := by nlinarith
  have hs : 0 < Real.sinh 0.34 := Real.sinh_pos_iff.2 (by norm_num)
  have hsu : Real.sinh 0.34 ≤ 0.34665 := by rw [Real.sinh_eq]; linarith
  have hcl : 1.0583 ≤ Real.cosh 0.34 := by rw [Real.cosh_eq]; linarith
  unfold chainEnergy
  rw [sub_le_iff_le_add, neg_add_eq_sub, le_sub_iff_add_le, le_div_iff₀ hs]
  nlinarith

/-- the hypotheses of the positive results are met -/
example : ∃ b : ℝ, SolveBeta (-0.66) b ∧ (-1 : ℝ) < -0.66 ∧ (-0.66 : ℝ) ≤ -(1 / 2) := by
  obtain ⟨b, h, -⟩ := C15_solve_beta (-0.66) (by norm_num)
  exact ⟨b, h, by norm_num, by norm_num⟩

example : ∃ b : ℝ, SolveBeta (-0.3) b ∧ -(1 / 2) ≤ (-0.3 : ℝ) ∧ (-0.3 : ℝ) < 0 := by
  obtain ⟨b, h, -⟩ := C15_solve_beta (-0.3) (by norm_num)
  exact ⟨b, h, by norm_num, by norm_num⟩

end Verif.Props
