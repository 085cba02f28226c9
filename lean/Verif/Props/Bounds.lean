/-
Property C87: range of the reported energies (/repo/src/spinchain.rs `total_energy2`,
`mc_total_energy`).
-/
import Verif.Lemmas.Order
import Verif.Props.Energy
import Mathlib.Tactic.IntervalCases

namespace Verif.Props

open Spec Finset

/-! ### C87: energies lie between the bounds set by couplings and fields -/

/-- largest coupling in absolute value among the three directions -/
noncomputable def maxJ (j : V3 ℝ) : ℝ := max |j.x| (max |j.y| |j.z|)

/-- largest conceivable energy of a ring: all bonds and all spins at their extremes -/
noncomputable def extremal (L : ℕ) (J B : ℕ → V3 ℝ) : ℝ := ∑ i ∈ range L, (maxJ (J i) + len (B i))

theorem bond_le (a j b : V3 ℝ) : |dot a (had j b)| ≤ maxJ j * (len a * len b) := by
  have h1 := abs_dot_le_len a (had j b)
  have hm : 0 ≤ maxJ j := (abs_nonneg j.x).trans (le_max_left _ _)
  have h2 : len (had j b) ≤ maxJ j * len b := by
    apply le_len_of_dot (mul_nonneg hm (len_nonneg b))
    have hx : |j.x| ≤ maxJ j := le_max_left _ _
    have hy : |j.y| ≤ maxJ j := (le_max_left _ _).trans (le_max_right _ _)
    have hz : |j.z| ≤ maxJ j := (le_max_right _ _).trans (le_max_right _ _)
    have sx : j.x ^ 2 ≤ maxJ j ^ 2 := sq_le_sq' (by linarith [neg_abs_le j.x]) ((le_abs_self _).trans hx)
    have sy : j.y ^ 2 ≤ maxJ j ^ 2 := sq_le_sq' (by linarith [neg_abs_le j.y]) ((le_abs_self _).trans hy)
    have sz : j.z ^ 2 ≤ maxJ j ^ 2 := sq_le_sq' (by linarith [neg_abs_le j.z]) ((le_abs_self _).trans hz)
    have e : maxJ j * len b * (maxJ j * len b) = maxJ j ^ 2 * (b.x * b.x + b.y * b.y + b.z * b.z) := by
      have := len_sq b
      unfold dot at this
      rw [← this]; ring
    rw [e]
    simp only [dot, had]
    nlinarith [mul_nonneg (sub_nonneg.2 sx) (mul_self_nonneg b.x),
      mul_nonneg (sub_nonneg.2 sy) (mul_self_nonneg b.y), mul_nonneg (sub_nonneg.2 sz) (mul_self_nonneg b.z)]
  have h3 := mul_le_mul_of_nonneg_left h2 (len_nonneg a)
  linarith

theorem ringEnergy_bound {L : ℕ} {S J B : ℕ → V3 ℝ} (hu : ∀ i < L, len (S i) = 1) :
    |ringEnergy L S J B| ≤ extremal L J B := by
  unfold ringEnergy extremal
  refine (abs_sum_le_sum_abs _ _).trans (sum_le_sum fun i hi => ?_)
  have hi := mem_range.1 hi
  have h1 := bond_le (S i) (J i) (S ((i + 1) % L))
  have h2 := abs_dot_le_len (B i) (S i)
  rw [hu i hi, hu _ (Nat.mod_lt _ (by omega)), mul_one, mul_one] at h1
  rw [hu i hi, mul_one] at h2
  refine (abs_add_le _ _).trans ?_
  rw [abs_neg]
  linarith

/-- C87: for unit spins the reported total energy per site and the undriven energy used by the Monte
Carlo code lie between plus and minus the mean over the sites of (largest coupling + field strength). -/
theorem C87_energy (c : SpinChain ℝ) (L s : ℕ) (w : WF c L s) (hL : 1 ≤ L)
    (hu : ∀ x ∈ c.spins, IsUnit3 x) :
    (∃ e, c.total_energy2 = .ok e ∧
      |e| ≤ (∑ i ∈ range L, (maxJ (J c i) + len (B c s c.t i))) / L) ∧
    (∃ e, c.mc_total_energy = .ok e ∧ |e| ≤ (∑ i ∈ range L, (maxJ (J c i) + len (H0 c i))) / L) := by
  have hp : (0 : ℝ) < L := by exact_mod_cast hL
  refine ⟨⟨_, total_energy2_eq w hL, ?_⟩, ⟨_, mc_total_energy_eq w hL, ?_⟩⟩ <;>
  · rw [abs_div, abs_of_pos hp]
    exact div_le_div_of_nonneg_right (ringEnergy_bound fun i hi => unit_of w hu hi) hp.le

/-- The bound is sharp: parallel spins with isotropic ferromagnetic couplings and fields pointing
against the spins have exactly the lowest energy. -/
theorem C87_sharp (c : SpinChain ℝ) (L s : ℕ) (w : WF c L s) (hL : 1 ≤ L) (u : V3 ℝ) (hu : len u = 1)
    (hS : ∀ i < L, S c i = u) (a b : ℕ → ℝ) (ha : ∀ i < L, 0 ≤ a i) (hb : ∀ i < L, 0 ≤ b i)
    (hJ : ∀ i < L, J c i = ⟨a i, a i, a i⟩) (hB : ∀ i < L, B c s c.t i = smul (-b i) u) :
    c.total_energy2 = .ok (-((∑ i ∈ range L, (maxJ (J c i) + len (B c s c.t i))) / L)) := by
  rw [total_energy2_eq w hL, ← neg_div]
  congr 2
  unfold ringEnergy
  rw [← sum_neg_distrib]
  refine sum_congr rfl fun i hi => ?_
  have hi := mem_range.1 hi
  have huu : u.x * u.x + u.y * u.y + u.z * u.z = 1 := by
    have := len_sq u
    rw [hu] at this
    unfold dot at this
    linarith
  rw [hS i hi, hS _ (Nat.mod_lt _ (by omega)), hJ i hi, hB i hi, len_smul, hu, abs_neg,
    abs_of_nonneg (hb i hi)]
  have : maxJ ⟨a i, a i, a i⟩ = a i := by
    unfold maxJ
    simp only [max_self, abs_of_nonneg (ha i hi)]
  rw [this]
  simp only [dot, had, smul]
  linear_combination (-(a i) - b i) * huu

example : WF demo 4 2 ∧ 1 ≤ 4 ∧ ∀ x ∈ demo.spins, IsUnit3 x := ⟨demo_wf, by norm_num, demo_unit⟩

/-- four parallel spins with unit couplings in a field opposite to them -/
noncomputable def ferro : SpinChain ℝ :=
  { demoStatic with
    spins := List.replicate 4 ⟨⟨0, 0, 1⟩⟩
    j_couple := List.replicate 4 ⟨1, 1, 1⟩
    static_h := List.replicate 4 ⟨0, 0, -2⟩ }

/-- the hypotheses of `C87_sharp` are met by a chain with couplings and fields -/
example : WF ferro 4 2 ∧ (∀ i < 4, S ferro i = ⟨0, 0, 1⟩) ∧ (∀ i < 4, J ferro i = ⟨1, 1, 1⟩) ∧
    ∀ i < 4, B ferro 2 ferro.t i = smul (-2) ⟨0, 0, 1⟩ := by
  refine ⟨?_, ?_, ?_, ?_⟩
  · constructor <;> simp [ferro, demoStatic, demo, demoVars]
  · intro i hi; interval_cases i <;> simp [S, ferro]
  · intro i hi; interval_cases i <;> simp [J, ferro]
  · intro i hi
    rw [B_none rfl]
    interval_cases i <;> simp [H0, ferro, smul]

end Verif.Props
