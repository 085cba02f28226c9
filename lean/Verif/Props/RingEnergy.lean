/-
C115: energy and correlations of the clean ring in thermal equilibrium, against the relation `e = 1/β - coth β` which
`solve_beta` inverts and which the repository's own test takes for the exact energy (/repo/src/spinchain.rs
`solve_beta`, lines 107-116; `metropolis_low_t`, lines 1993-2016).
-/
import Verif.Lemmas.RingEnergy
import Verif.Props.Thermal
import Verif.Props.Init

namespace Verif.Props

open Spec Transfer Thermal MeasureTheory

/-- mean projection of a spin on its neighbour in an infinite chain with unit couplings: `coth β - 1/β` -/
noncomputable def neighbour (beta : ℝ) : ℝ := Real.cosh beta / Real.sinh beta - 1 / beta

/-- how much smaller the corrections of a ring become with every further site -/
noncomputable def damping (beta : ℝ) : ℝ := Real.sqrt (1 - neighbour beta / beta)

/-- Isotropic couplings of strength one and no static fields, as set in the test `metropolis_low_t`. -/
def CleanRing (c : SpinChain ℝ) (L : ℕ) : Prop := ∀ i < L, J c i = ⟨1, 1, 1⟩ ∧ H0 c i = zero

theorem clean_energy {c : SpinChain ℝ} {n : ℕ} (h : CleanRing c (n + 1)) (v : Fin (n + 1) → V3 ℝ) :
    ringEnergy (n + 1) (fld v) (J c) (H0 c) = -ringSum v := by
  unfold ringEnergy ringSum
  rw [Finset.sum_range, ← Finset.sum_neg_distrib]
  refine Finset.sum_congr rfl fun j _ => ?_
  obtain ⟨h1, h2⟩ := h j j.2
  have e : fld v (((j : ℕ) + 1) % (n + 1)) = v (j + 1) := by
    rw [← fld_val v (j + 1), Fin.val_add]
    congr 1
    simp [Nat.add_mod]
  rw [h1, h2, e, fld_val]
  simp only [dot, had, zero]
  ring

theorem damping_eq (b : ℝ) : damping b = rate b := rfl

theorem lipK_eq {b : ℝ} (hb : 0 < b) : 8 * lipK b = 16 * b ^ 2 / (1 - Real.exp (-(2 * b))) := by
  have h1 : Real.sinh b = (1 - Real.exp (-(2 * b))) * Real.exp b / 2 := by
    rw [Real.sinh_eq, sub_mul, ← Real.exp_add]
    congr 2
    · ring
    · ring_nf
  have h2 : 0 < 1 - Real.exp (-(2 * b)) := by
    have : Real.exp (-(2 * b)) < 1 := by
      rw [← Real.exp_zero]
      exact Real.exp_lt_exp.2 (by linarith)
    linarith
  have h3 := Real.exp_pos b
  unfold lipK
  rw [h1]
  field_simp
  ring

/-- C115: in thermal equilibrium the correlation of two spins `k` sites apart in a clean ring of `L` sites is the
`k`-th power of `coth β - 1/β`, up to a correction that is damped exponentially in the length `L - k` of the way
around. -/
theorem C115_correlations (c : SpinChain ℝ) (L s : ℕ) (w : WF c L s) (hL : 2 ≤ L) (hc : CleanRing c L) (beta : ℝ)
    (hb : 0 < beta) (i k : ℕ) (hi : i < L) (hk : k < L) :
    |thermalMean (atBeta c beta) L (wholeEnergy L) (fun c => dot (S c i) (S c ((i + k) % L))) - neighbour beta ^ k|
      ≤ 16 * beta ^ 2 / (1 - Real.exp (-(2 * beta))) * damping beta ^ (L - 1 - k) := by
  obtain ⟨n, rfl⟩ : ∃ n, L = n + 1 := ⟨L - 1, by omega⟩
  have w' : WF (atBeta c beta) (n + 1) s := ⟨w.hsize, w.ssize, w.L_lt, w.s_lt, w.spins, w.j, w.h, w.hs⟩
  have e : ∀ v : Fin (n + 1) → V3 ℝ, wholeEnergy (n + 1) (withSpins (atBeta c beta) v) = -ringSum v := fun v => by
    rw [whole_ring w' hL v]
    exact clean_energy (c := atBeta c beta) hc v
  have hb' : (atBeta c beta).vars.beta = beta := rfl
  have e2 : ∀ v : Fin (n + 1) → V3 ℝ, dot (S (withSpins (atBeta c beta) v) i)
      (S (withSpins (atBeta c beta) v) ((i + k) % (n + 1))) = dot (v ⟨i, hi⟩) (v (⟨i, hi⟩ + ⟨k, hk⟩)) := fun v => by
    rw [S_fld, ← fld_val v ⟨i, hi⟩, ← fld_val v (⟨i, hi⟩ + ⟨k, hk⟩)]
    rfl
  unfold thermalMean
  simp only [e, e2, hb', mul_neg, neg_neg]
  rw [← lipK_eq hb]
  exact ring_corr hb ⟨i, hi⟩ ⟨k, hk⟩

theorem clean_mean {c : SpinChain ℝ} {L s : ℕ} (w : WF c L s) (hL : 2 ≤ L) (hc : CleanRing c L) (beta : ℝ)
    (hb : 0 < beta) : energyAt c L beta = -((∑ i ∈ Finset.range L,
      thermalMean (atBeta c beta) L (wholeEnergy L) fun c => dot (S c i) (S c ((i + 1) % L))) / L) := by
  obtain ⟨n, rfl⟩ : ∃ n, L = n + 1 := ⟨L - 1, by omega⟩
  have w' : WF (atBeta c beta) (n + 1) s := ⟨w.hsize, w.ssize, w.L_lt, w.s_lt, w.spins, w.j, w.h, w.hs⟩
  have e : ∀ v : Fin (n + 1) → V3 ℝ, wholeEnergy (n + 1) (withSpins (atBeta c beta) v) = -ringSum v := fun v => by
    rw [whole_ring w' hL v]
    exact clean_energy (c := atBeta c beta) hc v
  have hb' : (atBeta c beta).vars.beta = beta := rfl
  rw [energyAt_eq w hL]
  unfold U thermalMean
  simp only [e, clean_energy hc, hb', mul_neg, neg_neg, S_fld]
  rw [← Finset.sum_div, integral_neg, ← integral_finsetSum]
  · have e4 : ∀ v : Fin (n + 1) → V3 ℝ, ∑ i ∈ Finset.range (n + 1), Real.exp (beta * ringSum v)
        * dot (fld v i) (fld v ((i + 1) % (n + 1))) = Real.exp (beta * ringSum v) * ringSum v := by
      intro v
      rw [← Finset.mul_sum]
      congr 1
      unfold ringSum
      rw [Finset.sum_range]
      refine Finset.sum_congr rfl fun j _ => ?_
      rw [← fld_val v j, ← fld_val v (j + 1), Fin.val_add]
      congr 2
      simp [Nat.add_mod]
    simp only [e4]
    rw [neg_div, neg_div]
  · intro i hi
    have hi := Finset.mem_range.1 hi
    have hn : (i + 1) % (n + 1) < n + 1 := Nat.mod_lt _ (by omega)
    have e3 : ∀ v : Fin (n + 1) → V3 ℝ, dot (fld v i) (fld v ((i + 1) % (n + 1))) = dot (v ⟨i, hi⟩) (v ⟨_, hn⟩) := by
      intro v
      rw [← fld_val v ⟨i, hi⟩, ← fld_val v ⟨_, hn⟩]
    simp only [e3]
    exact ring_int hb (meas_dot (measurable_pi_apply _) (measurable_pi_apply _)) (M := 1)
      fun v hv => dot_le_one (hv _) (hv _)

/-- C115, energy: the thermal energy density of the clean ring is `1/β - coth β`, up to a correction damped
exponentially in the length of the ring. -/
theorem C115_energy (c : SpinChain ℝ) (L s : ℕ) (w : WF c L s) (hL : 2 ≤ L) (hc : CleanRing c L) (beta : ℝ)
    (hb : 0 < beta) : |energyAt c L beta - (1 / beta - Real.cosh beta / Real.sinh beta)|
      ≤ 16 * beta ^ 2 / (1 - Real.exp (-(2 * beta))) * damping beta ^ (L - 2) := by
  have hL0 : (0 : ℝ) < L := by exact_mod_cast (by omega : 0 < L)
  rw [clean_mean w hL hc beta hb]
  set m : ℕ → ℝ := fun i => thermalMean (atBeta c beta) L (wholeEnergy L) fun c => dot (S c i) (S c ((i + 1) % L))
  set K := 16 * beta ^ 2 / (1 - Real.exp (-(2 * beta))) * damping beta ^ (L - 2) with hK
  have hm : ∀ i ∈ Finset.range L, |m i - neighbour beta| ≤ K := fun i hi => by
    have := C115_correlations c L s w hL hc beta hb i 1 (Finset.mem_range.1 hi) (by omega)
    rwa [pow_one, show L - 1 - 1 = L - 2 by omega] at this
  have e : -((∑ i ∈ Finset.range L, m i) / L) - (1 / beta - Real.cosh beta / Real.sinh beta)
      = -((∑ i ∈ Finset.range L, (m i - neighbour beta)) / L) := by
    rw [Finset.sum_sub_distrib, Finset.sum_const, Finset.card_range, nsmul_eq_mul, neighbour]
    field_simp
    ring
  rw [e, abs_neg, abs_div, abs_of_pos hL0, div_le_iff₀ hL0]
  refine (Finset.abs_sum_le_sum_abs _ _).trans ((Finset.sum_le_sum hm).trans ?_)
  rw [Finset.sum_const, Finset.card_range, nsmul_eq_mul]
  linarith

/-- The damping is below one: the corrections vanish on long rings, whatever the temperature, so that the energies of clean
rings of increasing length converge to `1/β - coth β`. -/
theorem C115_long (beta : ℝ) (hb : 0 < beta) (ε : ℝ) (he : 0 < ε) :
    0 < damping beta ∧ damping beta < 1 ∧ ∃ L0, ∀ (c : SpinChain ℝ) (L s : ℕ), WF c L s → L0 ≤ L → CleanRing c L →
      |energyAt c L beta - (1 / beta - Real.cosh beta / Real.sinh beta)| < ε := by
  have r0 : 0 < damping beta := rate_pos hb
  have r1 : damping beta < 1 := rate_lt_one hb
  refine ⟨r0, r1, ?_⟩
  set A := 16 * beta ^ 2 / (1 - Real.exp (-(2 * beta))) with hA
  have A0 : 0 < A := by
    rw [hA, ← lipK_eq hb]
    have := lipK_pos hb
    positivity
  obtain ⟨N, hN⟩ := exists_pow_lt_of_lt_one (div_pos he A0) r1
  refine ⟨N + 2, fun c L s w hL hc => lt_of_le_of_lt (C115_energy c L s w (by omega) hc beta hb) ?_⟩
  have h1 : damping beta ^ (L - 2) ≤ damping beta ^ N := pow_le_pow_of_le_one r0.le r1.le (by omega)
  have h2 := lt_of_le_of_lt h1 hN
  rwa [lt_div_iff₀ A0, mul_comm] at h2

/-- C115, `solve_beta`: the thermal energy density of a clean ring at the inverse temperature found by `solve_beta`
for the energy density `e` is `e`, up to the tolerance of the search and the correction of the ring. -/
theorem C115_solve_beta (c : SpinChain ℝ) (L s : ℕ) (w : WF c L s) (hL : 2 ≤ L) (hc : CleanRing c L) (e : ℝ)
    (he : -1 < e) (b : ℝ) (hs : SolveBeta e b) (hb : 0.01 < b) :
    |energyAt c L b - e| ≤ 0.0101 / (b * (b - 0.01))
      + 16 * b ^ 2 / (1 - Real.exp (-(2 * b))) * damping b ^ (L - 2) := by
  obtain ⟨b', -, huniq, -, b0, hb0, hd, hbe⟩ := C15_solve_beta e he
  obtain rfl := huniq b hs
  have hb1 : 0 < b := by linarith
  have h1 := C115_energy c L s w hL hc b hb1
  have h2 : |(1 / b - Real.cosh b / Real.sinh b) - e| ≤ 0.0101 / (b * (b - 0.01)) := by
    have s1 := Real.sinh_pos_iff.2 hb1
    have s2 := Real.sinh_pos_iff.2 hb0
    have e1 : (1 / b - Real.cosh b / Real.sinh b) - e = Real.sinh (b - b0) / (Real.sinh b * Real.sinh b0) := by
      rw [hbe, Real.sinh_sub]
      field_simp
      ring
    have h3 : Real.sinh 0.01 ≤ 0.0101 := by
      rw [Real.sinh_eq]
      have a1 := Real.add_one_le_exp (-0.01 : ℝ)
      have a2 : Real.exp 0.01 ≤ 1 / 0.99 := by
        rw [show (0.01 : ℝ) = -(-0.01) by norm_num, Real.exp_neg, one_div]
        exact inv_anti₀ (by norm_num) (by linarith)
      have : (1 : ℝ) / 0.99 ≤ 1.0102 := by norm_num
      linarith
    have h4 : |Real.sinh (b - b0)| ≤ 0.0101 := by
      have hd := abs_le.1 hd
      refine le_trans (abs_le.2 ⟨?_, ?_⟩) h3
      · rw [← Real.sinh_neg, Real.sinh_le_sinh]
        linarith
      · rw [Real.sinh_le_sinh]
        linarith
    have h5 : b ≤ Real.sinh b := (Real.self_lt_sinh_iff.2 hb1).le
    have h6 : b - 0.01 ≤ Real.sinh b0 := by
      have := (Real.self_lt_sinh_iff.2 hb0).le
      have hd := abs_le.1 hd
      linarith
    rw [e1, abs_div, abs_of_pos (mul_pos s1 s2)]
    have h7 : b * (b - 0.01) ≤ Real.sinh b * Real.sinh b0 := mul_le_mul h5 h6 (by linarith) s1.le
    have h8 : 0 < b * (b - 0.01) := mul_pos hb1 (by linarith)
    exact div_le_div₀ (by norm_num) h4 h8 h7
  calc |energyAt c L b - e| = |(energyAt c L b - (1 / b - Real.cosh b / Real.sinh b))
        + ((1 / b - Real.cosh b / Real.sinh b) - e)| := by congr 1; ring
    _ ≤ _ := abs_add_le _ _
    _ ≤ _ := by linarith

/-- C115, configurations: without disorder, anisotropy and fields a new chain is a clean ring. -/
theorem C115_new (conf : Config ℝ) (num : ℕ) (u zj zh : ℕ → ℝ) (L : ℕ) (hL : conf.hsize = L) (hlt : L < 2 ^ 31)
    (hlam : conf.lambda = 1) (hjv : conf.jvar = 0) (hhv : conf.hvar = 0) (hf : conf.hfield = [0, 0, 0])
    (hh : conf.hs = [0, 0, 0]) : ∃ c : SpinChain ℝ, SpinChain.new conf num u zj zh = .ok c ∧ CleanRing c L := by
  obtain ⟨c, h1, h2⟩ := C12_couplings_fields conf num u zj zh L hL hlt zero zero [] [] hf hh
  refine ⟨c, h1, fun i hi => ?_⟩
  obtain ⟨a1, a2⟩ := h2 i hi
  rw [a1, a2, hlam, hjv, hhv]
  constructor
  · ext <;> simp [add, smul]
  · split_ifs <;> ext <;> simp [add, smul, zero]

/-- C115, sampling: the average of `n` reported energies from the sampling loop on a clean ring differs from
`1/β - coth β` by `δ` more than the correction of the ring with a probability of order `1/(n δ²)` at most, whatever
the initial spins and the number of updates between the samples. -/
theorem C115_sampled (c : SpinChain ℝ) (L s : ℕ) (w : WF c L s) (hL : 2 ≤ L) (hc : CleanRing c L) (bmax : ℝ) :
    ∃ K : ℝ, 0 < K ∧ ∀ beta : ℝ, 0 < beta → beta ≤ bmax → ∀ v : Fin L → V3 ℝ, (∀ i, len (v i) = 1) →
    ∀ per n : ℕ, 1 ≤ per → 1 ≤ n → ∀ δ : ℝ, 0 < δ →
    blockLaw L per n {draws | ¬ ∃ c' xs,
        sampleLoop (fun c d => c.metropolis_update d) per n (fun c => c.mc_total_energy) (blockDraws draws)
          (withSpins (atBeta c beta) v) = .ok (c', xs) ∧
          |meanOf xs n - (1 / beta - Real.cosh beta / Real.sinh beta)|
            < δ + 16 * beta ^ 2 / (1 - Real.exp (-(2 * beta))) * damping beta ^ (L - 2)}
      ≤ ENNReal.ofReal (K / (n * δ ^ 2)) := by
  have hL0 : (0 : ℝ) < L := by exact_mod_cast (by omega : 0 < L)
  obtain ⟨K, hK, h⟩ := C92_probability _ _ c L (C92_mean_square c L s w hL) bmax
  refine ⟨K, hK, fun beta hb hbm v hv per n hper hn δ hδ => ?_⟩
  have w' : WF (atBeta c beta) L s := ⟨w.hsize, w.ssize, w.L_lt, w.s_lt, w.spins, w.j, w.h, w.hs⟩
  have hwhole : ∀ v : Fin L → V3 ℝ, (withSpins (atBeta c beta) v).mc_total_energy
      = .ok (wholeEnergy L (withSpins (atBeta c beta) v) / L) := by
    intro v
    have := mc_total_energy_eq (withSpins_wf w' v) (by omega)
    unfold wholeEnergy
    rw [this]
    dsimp only
    rw [mul_div_cancel_left₀ _ hL0.ne']
  have hbound : ∀ v : Fin L → V3 ℝ, (∀ i, len (v i) = 1) → |wholeEnergy L (withSpins (atBeta c beta) v) / L| ≤ 1 := by
    intro v hv
    obtain ⟨m, rfl⟩ : ∃ m, L = m + 1 := ⟨L - 1, by omega⟩
    rw [whole_ring w' hL v]
    have : ringEnergy (m + 1) (fld v) (J (atBeta c beta)) (H0 (atBeta c beta)) = -ringSum v :=
      clean_energy (c := atBeta c beta) hc v
    rw [this, abs_div, abs_neg, abs_of_pos hL0, div_le_one hL0]
    have := ringSum_bound (v := v) fun i => unit_sq (hv i)
    push_cast
    exact this
  have key := h beta hb.le hbm (fun c => wholeEnergy L c / L) (fun c => c.mc_total_energy) 1 hwhole
    ((whole_tame w' hL).meas.div_const _) hbound v hv per n hper hn δ hδ
  rw [one_pow, mul_one] at key
  refine le_trans (measure_mono fun draws hd => ?_) key
  rintro ⟨c', xs, h1, h2⟩
  refine hd ⟨c', xs, h1, ?_⟩
  have h3 := C115_energy c L s w hL hc beta hb
  have h4 : thermalMean (atBeta c beta) L (wholeEnergy L) (fun c => wholeEnergy L c / L) = energyAt c L beta := rfl
  rw [h4] at h2
  calc |meanOf xs n - (1 / beta - Real.cosh beta / Real.sinh beta)|
      = |(meanOf xs n - energyAt c L beta) + (energyAt c L beta - (1 / beta - Real.cosh beta / Real.sinh beta))| := by
        congr 1; ring
    _ ≤ _ := abs_add_le _ _
    _ < _ := by linarith

/-- a clean ring of four spins -/
noncomputable def cleanDemo : SpinChain ℝ :=
  { demo with
    j_couple := List.replicate 4 ⟨1, 1, 1⟩
    static_h := List.replicate 4 ⟨0, 0, 0⟩ }

theorem cleanDemo_wf : WF cleanDemo 4 2 :=
  ⟨demo_wf.hsize, demo_wf.ssize, demo_wf.L_lt, demo_wf.s_lt, demo_wf.spins, by simp [cleanDemo], by simp [cleanDemo],
    demo_wf.hs⟩

theorem cleanDemo_clean : CleanRing cleanDemo 4 := by
  intro i hi
  interval_cases i <;> simp [J, H0, cleanDemo, zero]

/-- The hypotheses are met by a ring of four spins; for the energy density -0.95 `solve_beta` stops after one step,
close to 20. -/
example : WF cleanDemo 4 2 ∧ CleanRing cleanDemo 4 ∧ ∃ b : ℝ, SolveBeta (-0.95) b ∧ 0.01 < b := by
  refine ⟨cleanDemo_wf, cleanDemo_clean, ?_⟩
  have hx : 0 ≤ 1 / Real.tanh 20 - 1 ∧ 1 / Real.tanh 20 - 1 ≤ 0.00001 := by
    have hs : 0 < Real.sinh 20 := Real.sinh_pos_iff.2 (by norm_num)
    have e1 : 1 / Real.tanh 20 - 1 = Real.exp (-20) / Real.sinh 20 := by
      rw [Real.tanh_eq_sinh_div_cosh, one_div_div, ← Real.cosh_sub_sinh]
      field_simp
    rw [e1]
    refine ⟨by positivity, ?_⟩
    rw [div_le_iff₀ hs, Real.sinh_eq]
    have h1 : (2 : ℝ) ^ 20 ≤ Real.exp 20 := by
      have : Real.exp 20 = Real.exp 1 ^ 20 := by rw [← Real.exp_nat_mul]; norm_num
      rw [this]
      exact pow_le_pow_left₀ (by norm_num) (by linarith [Real.add_one_le_exp (1 : ℝ)]) _
    have h2 : Real.exp (-20) ≤ 1 := by
      rw [← Real.exp_zero]
      exact Real.exp_le_exp.2 (by norm_num)
    norm_num at h1
    nlinarith
  have hm : |betaSeq (-0.95) (0 + 1) - betaSeq (-0.95) 0| ≤ 1 / 100 ∧ 0.01 < betaSeq (-0.95) (0 + 1) := by
    simp only [betaSeq]
    set x := 1 / Real.tanh 20 - 1 with hxd
    have e : -0.95 + 1 / Real.tanh 20 = 0.05 + x := by rw [hxd]; norm_num; ring
    rw [e]
    have hp : 0 < 0.05 + x := by linarith [hx.1]
    constructor
    · rw [abs_le]
      constructor
      · rw [le_sub_iff_add_le, le_div_iff₀ hp]
        nlinarith [hx.2]
      · rw [sub_le_iff_le_add, div_le_iff₀ hp]
        nlinarith [hx.1]
    · rw [lt_div_iff₀ hp]
      nlinarith [hx.2]
  exact ⟨_, ⟨_, solveBetaLoop_stop (-0.95) 0 hm.1 fun k hk => absurd hk (Nat.not_lt_zero k)⟩, hm.2⟩

end Verif.Props
