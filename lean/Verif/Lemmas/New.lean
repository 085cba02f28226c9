/-
Helper lemmas for `SpinChain.new` (any scalar type) and `solve_beta`.
-/
import Verif.Lemmas.Init
import Verif.Instances.XF
import Mathlib.Topology.Order.MonotoneConvergence
import Mathlib.Topology.MetricSpace.Pseudo.Defs
import Mathlib.Analysis.SpecialFunctions.Trigonometric.DerivHyp

namespace Verif

open Spec

set_option linter.unusedSectionVars false

section anyF
variable {F : Type} [Add F] [Sub F] [Mul F] [Div F] [Neg F] [OfScientific F] [FOps F]

theorem newSpinStep_ok (b : F) (st : F × F) (u1 u2 u3 : F) :
    ∃ r, SpinChain.newSpinStep b st u1 u2 u3 = .ok r := ⟨_, rfl⟩

theorem newSpins_ok (b : F) (u : ℕ → F) (n : ℕ) :
    ∃ l, SpinChain.newSpins b u n = .ok l ∧ l.length = n := by
  have key : ∀ n, ∃ r, forRange 0 n ((((0.01 : F), (fpi / 2.0 : F)), ([] : List (Spin F))))
      (fun x acc => do
        let (st, sp) ← SpinChain.newSpinStep b acc.1 (u (3 * x)) (u (3 * x + 1)) (u (3 * x + 2))
        return (st, acc.2 ++ [sp])) = .ok r ∧ r.2.length = n := by
    intro n
    induction n with
    | zero => exact ⟨_, rfl, rfl⟩
    | succ n ih =>
      obtain ⟨r, h1, h2⟩ := ih
      obtain ⟨q, hq⟩ := newSpinStep_ok b r.1 (u (3 * n)) (u (3 * n + 1)) (u (3 * n + 2))
      refine ⟨(q.1, r.2 ++ [q.2]), ?_, by simp [h2]⟩
      unfold forRange at h1 ⊢
      rw [Nat.sub_zero] at h1 ⊢
      rw [List.range'_concat, List.foldlM_append, h1, ok_bind]
      simp only [List.foldlM_cons, List.foldlM_nil, Nat.one_mul, Nat.zero_add, hq, ok_bind]
      rfl
  obtain ⟨r, h1, h2⟩ := key n
  refine ⟨r.2, ?_, h2⟩
  unfold SpinChain.newSpins
  rw [h1]
  rfl

def coupF (lambda jvar : F) (z : ℕ → F) (x : ℕ) : V3 F :=
  ⟨1.0 + (0.0 + jvar * z (3 * x)), 1.0 + (0.0 + jvar * z (3 * x + 1)),
    lambda + (0.0 + jvar * z (3 * x + 2))⟩

def fieldN (f0 f1 f2 h0 h1 h2 hvar : F) (ssize : ℤ) (z : ℕ → F) (x : ℕ) : V3 F :=
  if (x : ℤ) < ssize then ⟨f0 + h0 + (0.0 + hvar * z (3 * x)), f1 + h1 + (0.0 + hvar * z (3 * x + 1)),
    f2 + h2 + (0.0 + hvar * z (3 * x + 2))⟩
  else ⟨f0 + (0.0 + hvar * z (3 * x)), f1 + (0.0 + hvar * z (3 * x + 1)),
    f2 + (0.0 + hvar * z (3 * x + 2))⟩

theorem newCouplings_eq (lambda jvar : F) (z : ℕ → F) (n : ℕ) :
    SpinChain.newCouplings lambda jvar z n = .ok ((List.range n).map (coupF lambda jvar z)) := by
  unfold SpinChain.newCouplings
  rw [mapRange_ok (coupF lambda jvar z), List.range_eq_range', Nat.sub_zero]
  intro i _ _
  rfl

theorem newFields_eq {f0 f1 f2 h0 h1 h2 : F} {fr hr : List F} (hvar : F) (ssize : ℤ) (z : ℕ → F)
    (n : ℕ) : SpinChain.newFields (f0 :: f1 :: f2 :: fr) (h0 :: h1 :: h2 :: hr) ssize hvar z n
      = .ok ((List.range n).map (fieldN f0 f1 f2 h0 h1 h2 hvar ssize z)) := by
  unfold SpinChain.newFields
  rw [mapRange_ok (fieldN f0 f1 f2 h0 h1 h2 hvar ssize z), List.range_eq_range', Nat.sub_zero]
  intro i _ _
  unfold fieldN
  split_ifs <;> rfl

theorem three_le {α : Type} {l : List α} (h : 3 ≤ l.length) :
    ∃ a b c r, l = a :: b :: c :: r := by
  rcases l with _ | ⟨a, _ | ⟨b, _ | ⟨c, r⟩⟩⟩ <;> simp at h
  exact ⟨a, b, c, r, rfl⟩

theorem new_eq {conf : Config F} {L : ℕ} (hL : conf.hsize = L) (hlt : L < 2 ^ 31)
    {f0 f1 f2 h0 h1 h2 : F} {fr hr : List F} (hf : conf.hfield = f0 :: f1 :: f2 :: fr)
    (hh : conf.hs = h0 :: h1 :: h2 :: hr) (hj : fisFinite conf.jvar = true)
    (hv : fisFinite conf.hvar = true) (num : ℕ) (u zj zh : ℕ → F) {sp : List (Spin F)}
    (hs : SpinChain.newSpins conf.beta u L = .ok sp) :
    SpinChain.new conf num u zj zh = .ok
      { j_couple := (List.range L).map (coupF conf.lambda conf.jvar zj)
        static_h := (List.range L).map (fieldN f0 f1 f2 h0 h1 h2 conf.hvar conf.ssize zh)
        spins := sp
        t := -conf.trel
        vars := conf
        file := if conf.log then some (SpinChain.logName conf.file num) else none } := by
  unfold SpinChain.new
  rw [if_neg (by rw [hL]; omega)]
  rw [hL, asUsize_nat hlt, hs]
  simp only [SpinChain.normalNew, hj, hv, if_true, newCouplings_eq, hf, hh, newFields_eq,
    Int.toNat_natCast]
  rfl

end anyF

/-! ### `solve_beta` -/

noncomputable def betaSeq (e : ℝ) : ℕ → ℝ
  | 0 => 20
  | n + 1 => 1 / (e + 1 / Real.tanh (betaSeq e n))

theorem coth_gt_one {x : ℝ} (h : 0 < x) : 1 < 1 / Real.tanh x := by
  have h1 : 0 < Real.tanh x := by
    rw [Real.tanh_eq_sinh_div_cosh]
    exact div_pos (Real.sinh_pos_iff.2 h) (Real.cosh_pos x)
  rw [lt_div_iff₀ h1, one_mul, Real.tanh_eq_sinh_div_cosh, div_lt_one (Real.cosh_pos x)]
  exact Real.sinh_lt_cosh x

theorem coth_anti {x y : ℝ} (h : 0 < x) (hxy : x ≤ y) : 1 / Real.tanh y ≤ 1 / Real.tanh x := by
  have e : ∀ z : ℝ, 1 / Real.tanh z = Real.cosh z / Real.sinh z := by
    intro z; rw [Real.tanh_eq_sinh_div_cosh, one_div_div]
  have hx := Real.sinh_pos_iff.2 h
  have hy := Real.sinh_pos_iff.2 (h.trans_le hxy)
  rw [e, e, div_le_div_iff₀ hy hx]
  have := Real.sinh_sub y x
  have h2 : 0 ≤ Real.sinh (y - x) := Real.sinh_nonneg_iff.2 (by linarith)
  rw [this] at h2
  linarith

theorem betaStep_mono {e x y : ℝ} (he : -1 < e) (h : 0 < x) (hxy : x ≤ y) :
    1 / (e + 1 / Real.tanh x) ≤ 1 / (e + 1 / Real.tanh y) := by
  have h1 := coth_gt_one (h.trans_le hxy)
  have h2 := coth_anti h hxy
  exact one_div_le_one_div_of_le (by linarith) (by linarith)

theorem betaSeq_pos {e : ℝ} (he : -1 < e) (n : ℕ) : 0 < betaSeq e n := by
  induction n with
  | zero => norm_num [betaSeq]
  | succ n ih =>
    have := coth_gt_one ih
    exact one_div_pos.2 (by linarith)

theorem betaSeq_le {e : ℝ} (he : -1 < e) (n : ℕ) : betaSeq e (n + 1) ≤ 1 / (e + 1) := by
  have := coth_gt_one (betaSeq_pos he n)
  exact one_div_le_one_div_of_le (by linarith) (by linarith)

theorem betaSeq_conv {e : ℝ} (he : -1 < e) : ∃ l, Filter.Tendsto (betaSeq e) Filter.atTop (nhds l) := by
  rcases le_total (betaSeq e 1) (betaSeq e 0) with h | h
  · have hm : Antitone (betaSeq e) := by
      apply antitone_nat_of_succ_le
      intro n
      induction n with
      | zero => exact h
      | succ n ih => exact betaStep_mono he (betaSeq_pos he _) ih
    exact ⟨_, tendsto_atTop_ciInf hm ⟨0, by rintro _ ⟨n, rfl⟩; exact (betaSeq_pos he n).le⟩⟩
  · have hm : Monotone (betaSeq e) := by
      apply monotone_nat_of_le_succ
      intro n
      induction n with
      | zero => exact h
      | succ n ih => exact betaStep_mono he (betaSeq_pos he _) ih
    refine ⟨_, tendsto_atTop_ciSup hm ⟨1 / (e + 1), ?_⟩⟩
    rintro _ ⟨n, rfl⟩
    exact (hm (Nat.le_succ n)).trans (betaSeq_le he n)

theorem betaSeq_close {e : ℝ} (he : -1 < e) : ∃ n, |betaSeq e (n + 1) - betaSeq e n| ≤ 1 / 100 := by
  obtain ⟨l, hl⟩ := betaSeq_conv he
  rw [Metric.tendsto_atTop] at hl
  obtain ⟨N, hN⟩ := hl (1 / 200) (by norm_num)
  refine ⟨N, ?_⟩
  have h1 := hN N le_rfl
  have h2 := hN (N + 1) (by omega)
  rw [Real.dist_eq] at h1 h2
  rw [abs_lt] at h1 h2
  rw [abs_le]
  constructor <;> linarith [h1.1, h1.2, h2.1, h2.2]

theorem solveBetaStep_real (e : ℝ) (p : ℝ × ℝ) :
    solveBetaStep e p = (1 / (e + 1 / Real.tanh p.1), p.1) := by
  simp [solveBetaStep]

theorem solveBetaCond_real (p : ℝ × ℝ) : solveBetaCond p = decide (1 / 100 < |p.1 - p.2|) := by
  have : (0.01 : ℝ) = 1 / 100 := by norm_num
  simp [solveBetaCond, this]

/-- the loop stops at the first close pair -/
theorem solveBetaLoop_stop (e : ℝ) (m : ℕ) (hm : |betaSeq e (m + 1) - betaSeq e m| ≤ 1 / 100)
    (hlt : ∀ k < m, ¬ |betaSeq e (k + 1) - betaSeq e k| ≤ 1 / 100) :
    solveBetaLoop e (m + 2) (20.0, 10.0) = some (betaSeq e (m + 1)) := by
  have key : ∀ j k, k + j = m → solveBetaLoop e (j + 1) (betaSeq e (k + 1), betaSeq e k)
      = some (betaSeq e (m + 1)) := by
    intro j
    induction j with
    | zero =>
      intro k hk
      obtain rfl : k = m := by omega
      simp only [solveBetaLoop, solveBetaCond_real, decide_eq_true_eq]
      rw [if_neg (by linarith)]
    | succ j ih =>
      intro k hk
      have := hlt k (by omega)
      rw [solveBetaLoop, solveBetaCond_real, if_pos (by simpa using this), solveBetaStep_real]
      exact ih (k + 1) (by omega)
  have hfirst : solveBetaCond ((20.0, 10.0) : ℝ × ℝ) = true := by
    rw [solveBetaCond_real]; norm_num
  rw [solveBetaLoop, hfirst, if_pos rfl, solveBetaStep_real]
  have : ((1 / (e + 1 / Real.tanh ((20.0, 10.0) : ℝ × ℝ).1), ((20.0, 10.0) : ℝ × ℝ).1) : ℝ × ℝ)
      = (betaSeq e (0 + 1), betaSeq e 0) := by
    simp [betaSeq]
  rw [this]
  exact key m 0 (by omega)

theorem solveBetaLoop_det {F : Type} [Add F] [Sub F] [Div F] [OfScientific F] [FOps F] {e : F}
    {n m : ℕ} {p : F × F} {a b : F}
    (h1 : solveBetaLoop e n p = some a) (h2 : solveBetaLoop e m p = some b) : a = b := by
  induction n generalizing m p with
  | zero => simp [solveBetaLoop] at h1
  | succ n ih =>
    cases m with
    | zero => simp [solveBetaLoop] at h2
    | succ m =>
      rw [solveBetaLoop] at h1 h2
      split_ifs at h1 h2 with hc
      · exact ih h1 h2
      · exact Option.some.inj (h1.symm.trans h2)

end Verif
