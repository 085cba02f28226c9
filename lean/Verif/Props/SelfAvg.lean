/-
C132: chains with random couplings and fields (/repo/src/spinchain.rs, `new`, lines 164-202) and temperature searches in them
(/repo/src/obs.rs).
-/
import Verif.Spec.SelfAvg
import Verif.Lemmas.SelfAvg
import Verif.Props.Quench
import Mathlib.Probability.Distributions.Gaussian.Real

set_option linter.unusedSectionVars false

namespace Verif.Props

open Spec MeasureTheory Quench ProbabilityTheory
open Finset hiding expect
open scoped ENNReal

section
variable {c c' : SpinChain ℝ} {L s : ℕ} {conf : Config ℝ} {Z K b : ℝ}

theorem len_sum (x y z : ℝ) : len (⟨x, y, z⟩ : V3 ℝ) ≤ |x| + |y| + |z| := by
  refine le_len_of_dot (by positivity) ?_
  simp only [dot]
  have h : ∀ t : ℝ, t * t = |t| * |t| := fun t => (abs_mul_abs_self t).symm
  rw [h x, h y, h z]
  nlinarith [mul_nonneg (abs_nonneg x) (abs_nonneg y), mul_nonneg (abs_nonneg x) (abs_nonneg z), mul_nonneg (abs_nonneg y) (abs_nonneg z)]

theorem sum_by_three (n : ℕ) (g : ℕ → ℝ) : ∑ i ∈ range n, (g (3 * i) + g (3 * i + 1) + g (3 * i + 2)) = ∑ x ∈ range (3 * n), g x := by
  induction n with
  | zero => simp
  | succ n ih =>
    rw [sum_range_succ, ih, show 3 * (n + 1) = 3 * n + 1 + 1 + 1 by ring, sum_range_succ, sum_range_succ, sum_range_succ]
    ring

/-- the differences of the couplings and fields of two new chains, in terms of the draws -/
theorem drawn_total (v : ValidConf conf L s) {num num' : ℕ} {u u' zj zh zj' zh' : ℕ → ℝ}
    (hc : SpinChain.new conf num u zj zh = .ok c) (hc' : SpinChain.new conf num' u' zj' zh' = .ok c') :
    ∑ i ∈ range L, change c c' i ≤ |conf.jvar| * ∑ x ∈ range (3 * L), |zj' x - zj x| + |conf.hvar| * ∑ x ∈ range (3 * L), |zh' x - zh x| := by
  obtain ⟨f0, f1, f2, fr, hf⟩ := three_le v.hfield
  obtain ⟨h0, h1, h2, hr, hh⟩ := three_le v.hs
  obtain ⟨sp, hsp, -⟩ := newSpins_ok conf.beta u L
  obtain ⟨sp', hsp', -⟩ := newSpins_ok conf.beta u' L
  have a := new_eq v.hsize v.L_lt hf hh v.jvar v.hvar num u zj zh hsp
  have a' := new_eq v.hsize v.L_lt hf hh v.jvar v.hvar num' u' zj' zh' hsp'
  rw [hc] at a
  rw [hc'] at a'
  rw [← sum_by_three, ← sum_by_three, mul_sum, mul_sum, ← sum_add_distrib]
  refine sum_le_sum fun i hi => ?_
  have hi := mem_range.1 hi
  have J1 : sub (J c' i) (J c i) = ⟨conf.jvar * (zj' (3 * i) - zj (3 * i)), conf.jvar * (zj' (3 * i + 1) - zj (3 * i + 1)),
      conf.jvar * (zj' (3 * i + 2) - zj (3 * i + 2))⟩ := by
    cases a
    cases a'
    simp [J, coupF, hi, sub, mul_sub]
  have H1 : sub (H0 c' i) (H0 c i) = ⟨conf.hvar * (zh' (3 * i) - zh (3 * i)), conf.hvar * (zh' (3 * i + 1) - zh (3 * i + 1)),
      conf.hvar * (zh' (3 * i + 2) - zh (3 * i + 2))⟩ := by
    cases a
    cases a'
    by_cases hs : (i : ℤ) < conf.ssize
    · simp [H0, fieldN, hi, sub, hs, mul_sub]
    · simp [H0, fieldN, hi, sub, hs, mul_sub]
  unfold change
  rw [J1, H1]
  have g1 := len_sum (conf.jvar * (zj' (3 * i) - zj (3 * i))) (conf.jvar * (zj' (3 * i + 1) - zj (3 * i + 1)))
    (conf.jvar * (zj' (3 * i + 2) - zj (3 * i + 2)))
  have g2 := len_sum (conf.hvar * (zh' (3 * i) - zh (3 * i))) (conf.hvar * (zh' (3 * i + 1) - zh (3 * i + 1)))
    (conf.hvar * (zh' (3 * i + 2) - zh (3 * i + 2)))
  simp only [abs_mul] at g1 g2
  linarith

theorem trim_abs {Z : ℝ} (Z0 : 0 ≤ Z) (t : ℝ) : |trim Z t| ≤ Z := by
  unfold trim
  rw [abs_le]
  exact ⟨le_max_left _ _, max_le (by linarith) (min_le_right _ _)⟩

theorem trim_eq {Z t : ℝ} (h : |t| ≤ Z) : trim Z t = t := by
  obtain ⟨h1, h2⟩ := abs_le.1 h
  unfold trim
  rw [min_eq_left h2, max_eq_right h1]

theorem trim_lip (Z t t' : ℝ) : |trim Z t - trim Z t'| ≤ |t - t'| := by
  unfold trim
  refine (abs_max_sub_max_le_max _ _ _ _).trans (max_le (by simp) ?_)
  refine (abs_min_sub_min_le_max _ _ _ _).trans (max_le le_rfl (by simp))

theorem within_J {z : Fin (6 * L) → ℝ} (h : ∀ i, |z i| ≤ Z) : DrawsWithin Z L (forJ z) := fun x hx => by
  unfold forJ stream
  rw [dif_pos (by omega)]
  exact h _

theorem within_H {z : Fin (6 * L) → ℝ} (h : ∀ i, |z i| ≤ Z) : DrawsWithin Z L (forH z) := fun x hx => by
  unfold forH stream
  rw [dif_pos (by omega)]
  exact h _

theorem drawn_new (v : ValidConf conf L s) (u0 : ℕ → ℝ) (z : Fin (6 * L) → ℝ) (b : ℝ) :
    ∃ c, SpinChain.new conf 0 u0 (forJ z) (forH z) = .ok c ∧ WF c L s ∧ drawnEnergy conf u0 L b z = energyAt c L b := by
  obtain ⟨c, hc, w⟩ := C11_new_wf' conf 0 u0 (forJ z) (forH z) L s v.hsize v.L_lt v.ssize v.s_lt v.hfield v.hs v.jvar v.hvar
  refine ⟨c, hc, w, ?_⟩
  unfold drawnEnergy
  rw [hc]

/-- how much the energy depends on the `i`-th random number -/
noncomputable def weightOf (conf : Config ℝ) (L : ℕ) (b K : ℝ) (x : ℕ) : ℝ := feel b K / L * if x < 3 * L then |conf.jvar| else |conf.hvar|

theorem feel_pos (K0 : 0 ≤ K) (b : ℝ) : 0 < feel b K := by
  have : 0 ≤ perSite b K := by
    unfold perSite
    positivity
  unfold feel
  positivity

theorem weight_nonneg (K0 : 0 ≤ K) (x : ℕ) : 0 ≤ weightOf conf L b K x := by
  have := (feel_pos K0 b).le
  unfold weightOf
  split_ifs <;> positivity

theorem sum_stream (α : ℕ → ℝ) (z z' : Fin (6 * L) → ℝ) : ∑ i : Fin (6 * L), α i * |z i - z' i|
    = ∑ x ∈ range (3 * L), α x * |forJ z x - forJ z' x| + ∑ x ∈ range (3 * L), α (3 * L + x) * |forH z x - forH z' x| := by
  have e : ∀ i : Fin (6 * L), α i * |z i - z' i| = (fun x => α x * |stream z x - stream z' x|) i := fun i => by
    simp [stream]
  rw [sum_congr rfl fun i _ => e i, Fin.sum_univ_eq_sum_range (fun x => α x * |stream z x - stream z' x|) (6 * L)]
  have g : ∀ β : ℕ → ℝ, ∑ x ∈ range (6 * L), β x = ∑ x ∈ range (3 * L), β x + ∑ x ∈ range (3 * L), β (3 * L + x) := fun β => by
    rw [show 6 * L = 3 * L + 3 * L by ring, sum_range_add]
  rw [g]
  rfl

theorem sum_weights (hL : 2 ≤ L) : ∑ i : Fin (6 * L), weightOf conf L b K i ^ 2
    = 3 * feel b K ^ 2 * (conf.jvar ^ 2 + conf.hvar ^ 2) / L := by
  have L0 : (L : ℝ) ≠ 0 := by
    have : (0 : ℝ) < L := by exact_mod_cast (by omega : 0 < L)
    exact this.ne'
  rw [Fin.sum_univ_eq_sum_range (fun x => weightOf conf L b K x ^ 2), show 6 * L = 3 * L + 3 * L by ring, sum_range_add]
  have e1 : ∀ x ∈ range (3 * L), weightOf conf L b K x ^ 2 = (feel b K / L) ^ 2 * conf.jvar ^ 2 := fun x hx => by
    unfold weightOf
    rw [if_pos (mem_range.1 hx), mul_pow, sq_abs]
  have e2 : ∀ x ∈ range (3 * L), weightOf conf L b K (3 * L + x) ^ 2 = (feel b K / L) ^ 2 * conf.hvar ^ 2 := fun x hx => by
    unfold weightOf
    rw [if_neg (by omega), mul_pow, sq_abs]
  rw [sum_congr rfl e1, sum_congr rfl e2, sum_const, sum_const, card_range, nsmul_eq_mul, nsmul_eq_mul]
  push_cast
  field_simp

section
variable {u0 : ℕ → ℝ} (v : ValidConf conf L s) (Z0 : 0 ≤ Z)
  (hK : ∀ zj zh x, DrawsWithin Z L zj → DrawsWithin Z L zh → SpinChain.new conf 0 u0 zj zh = .ok x →
      ∀ i < L, len (J x i) + len (H0 x i) ≤ K)
include v Z0 hK

theorem K_pos' : 0 ≤ K := by
  obtain ⟨c, hc, w, -⟩ := drawn_new v u0 (fun _ => 0) 0
  have hz : ∀ i : Fin (6 * L), |(fun _ => 0 : Fin (6 * L) → ℝ) i| ≤ Z := fun i => by simpa using Z0
  exact K_nonneg v.L_two (hK _ _ _ (within_J hz) (within_H hz) hc)

theorem drawn_lip (b : ℝ) (z z' : Fin (6 * L) → ℝ) :
    |drawnEnergy conf u0 L b (fun i => trim Z (z i)) - drawnEnergy conf u0 L b fun i => trim Z (z' i)|
      ≤ ∑ i : Fin (6 * L), weightOf conf L b K i * |z i - z' i| := by
  have hL := v.L_two
  have L0 : (0 : ℝ) < L := by exact_mod_cast (by omega : 0 < L)
  have K0 := K_pos' v Z0 hK
  have cz : ∀ q : Fin (6 * L) → ℝ, ∀ i, |trim Z (q i)| ≤ Z := fun q i => trim_abs Z0 _
  obtain ⟨c, hc, w, e⟩ := drawn_new v u0 (fun i => trim Z (z i)) b
  obtain ⟨c', hc', w', e'⟩ := drawn_new v u0 (fun i => trim Z (z' i)) b
  rw [e, e', abs_sub_comm]
  refine (C131_energy c c' L s s w w' hL K (hK _ _ _ (within_J (cz z)) (within_H (cz z)) hc)
    (hK _ _ _ (within_J (cz z')) (within_H (cz z')) hc') b).trans ?_
  have F0 := (feel_pos K0 b).le
  have h1 := drawn_total v hc hc'
  have h2 : feel b K * ((∑ i ∈ range L, change c c' i) / L) ≤ feel b K / L * (|conf.jvar| * ∑ x ∈ range (3 * L),
      |forJ (fun i => trim Z (z' i)) x - forJ (fun i => trim Z (z i)) x|
      + |conf.hvar| * ∑ x ∈ range (3 * L), |forH (fun i => trim Z (z' i)) x - forH (fun i => trim Z (z i)) x|) := by
    rw [← mul_div_assoc, mul_div_right_comm]
    exact mul_le_mul_of_nonneg_left h1 (div_nonneg F0 L0.le)
  refine h2.trans ?_
  have h3 := sum_stream (weightOf conf L b K) (fun i => trim Z (z i)) fun i => trim Z (z' i)
  have e1 : ∑ x ∈ range (3 * L), weightOf conf L b K x * |forJ (fun i => trim Z (z i)) x - forJ (fun i => trim Z (z' i)) x|
      = feel b K / L * (|conf.jvar| * ∑ x ∈ range (3 * L), |forJ (fun i => trim Z (z' i)) x - forJ (fun i => trim Z (z i)) x|) := by
    rw [mul_sum, mul_sum]
    refine sum_congr rfl fun x hx => ?_
    unfold weightOf
    rw [if_pos (mem_range.1 hx), abs_sub_comm, mul_assoc]
  have e2 : ∑ x ∈ range (3 * L), weightOf conf L b K (3 * L + x) * |forH (fun i => trim Z (z i)) x - forH (fun i => trim Z (z' i)) x|
      = feel b K / L * (|conf.hvar| * ∑ x ∈ range (3 * L), |forH (fun i => trim Z (z' i)) x - forH (fun i => trim Z (z i)) x|) := by
    rw [mul_sum, mul_sum]
    refine sum_congr rfl fun x hx => ?_
    unfold weightOf
    rw [if_neg (by omega), abs_sub_comm, mul_assoc]
  rw [e1, e2, ← mul_add] at h3
  rw [← h3]
  exact sum_le_sum fun i _ => mul_le_mul_of_nonneg_left (trim_lip Z _ _) (weight_nonneg K0 _)

theorem drawn_abs (b : ℝ) (z : Fin (6 * L) → ℝ) : |drawnEnergy conf u0 L b fun i => trim Z (z i)| ≤ K := by
  have hL := v.L_two
  obtain ⟨c, hc, w, e⟩ := drawn_new v u0 (fun i => trim Z (z i)) b
  have cz : ∀ i, |trim Z (z i)| ≤ Z := fun i => trim_abs Z0 _
  rw [e]
  exact thermal_mean_abs (at_wf w b) hL (density_bounded (at_wf w b) hL (K := K) fun i hi => hK _ _ c (within_J cz) (within_H cz) hc i hi)

theorem drawn_meas (b : ℝ) : Measurable fun z : Fin (6 * L) → ℝ => drawnEnergy conf u0 L b fun i => trim Z (z i) :=
  SelfAvg.lip_meas (fun i => weight_nonneg (K_pos' v Z0 hK) i) (drawn_lip v Z0 hK b)

end

instance (ν : Measure ℝ) [IsProbabilityMeasure ν] (L : ℕ) : IsProbabilityMeasure (drawLaw ν L) := by
  unfold drawLaw
  infer_instance

theorem sq_int {ν : Measure ℝ} [IsProbabilityMeasure ν] (h2 : MemLp (id : ℝ → ℝ) 2 ν) (k : ℝ) : Integrable (fun x : ℝ => (x - k) ^ 2) ν := by
  have := (h2.sub (memLp_const k)).integrable_sq
  exact this

theorem tail_union (ν : Measure ℝ) [IsProbabilityMeasure ν] (L : ℕ) (Z : ℝ) :
    drawLaw ν L {z | ¬ ∀ i, |z i| ≤ Z} ≤ 6 * L * ν {t | Z < |t|} := by
  have m : MeasurableSet {t : ℝ | Z < |t|} := measurableSet_lt measurable_const measurable_id.abs
  calc drawLaw ν L {z | ¬ ∀ i, |z i| ≤ Z} ≤ drawLaw ν L (⋃ i ∈ (univ : Finset (Fin (6 * L))), {z | Z < |z i|}) := by
        refine measure_mono fun z hz => ?_
        have hz : ¬ ∀ i, |z i| ≤ Z := hz
        simp only [not_forall, not_le] at hz
        obtain ⟨i, hi⟩ := hz
        simp only [Set.mem_iUnion]
        exact ⟨i, mem_univ _, hi⟩
    _ ≤ ∑ _i : Fin (6 * L), ν {t | Z < |t|} := by
        refine (measure_biUnion_finset_le _ _).trans (sum_le_sum fun i _ => le_of_eq ?_)
        exact (measurePreserving_eval (fun _ : Fin (6 * L) => ν) i).measure_preimage m.nullMeasurableSet
    _ = _ := by simp

/-- how far the energy of the chain with draws cut off at `Z` is from its mean -/
theorem drawn_chebyshev (v : ValidConf conf L s) {u0 : ℕ → ℝ} {ν : Measure ℝ} [IsProbabilityMeasure ν] (h2 : MemLp (id : ℝ → ℝ) 2 ν) (Z0 : 0 ≤ Z)
    (hK : ∀ zj zh x, DrawsWithin Z L zj → DrawsWithin Z L zh → SpinChain.new conf 0 u0 zj zh = .ok x →
      ∀ i < L, len (J x i) + len (H0 x i) ≤ K) (b : ℝ) {x : ℝ} (hx : 0 < x) :
    drawLaw ν L {z | x ≤ |drawnEnergy conf u0 L b (fun i => trim Z (z i)) - typicalEnergy conf u0 L ν Z b|}
      ≤ ENNReal.ofReal (3 * feel b K ^ 2 * (conf.jvar ^ 2 + conf.hvar ^ 2) * (∫ t, (t - ∫ t, t ∂ν) ^ 2 ∂ν) / (L * x ^ 2)) := by
  have hL := v.L_two
  have L0 : (0 : ℝ) < L := by exact_mod_cast (by omega : 0 < L)
  have K0 := K_pos' v Z0 hK
  set V := ∫ t, (t - ∫ t, t ∂ν) ^ 2 ∂ν with hV
  set m := typicalEnergy conf u0 L ν Z b with hm
  set f : (Fin (6 * L) → ℝ) → ℝ := fun z => drawnEnergy conf u0 L b fun i => trim Z (z i) with hf
  have mf : Measurable f := drawn_meas v Z0 hK b
  have var := SelfAvg.many_lip (sq_int h2 _) (fun i : Fin (6 * L) => weight_nonneg K0 i) (drawn_abs v Z0 hK b) (drawn_lip v Z0 hK b)
  rw [sum_weights hL] at var
  have var : ∫ z, (f z - m) ^ 2 ∂(drawLaw ν L) ≤ 3 * feel b K ^ 2 * (conf.jvar ^ 2 + conf.hvar ^ 2) / L * V := var
  have hsub : {z | x ≤ |f z - m|} ⊆ {z | ENNReal.ofReal (x ^ 2) ≤ ENNReal.ofReal ((f z - m) ^ 2)} := by
    intro z hz
    have hz : x ≤ |f z - m| := hz
    show ENNReal.ofReal (x ^ 2) ≤ ENNReal.ofReal ((f z - m) ^ 2)
    refine ENNReal.ofReal_le_ofReal ?_
    rw [← sq_abs (_ - m)]
    exact pow_le_pow_left₀ hx.le hz 2
  refine (measure_mono hsub).trans ?_
  have mg : Measurable fun z => ENNReal.ofReal ((f z - m) ^ 2) := ((mf.sub_const m).pow_const 2).ennreal_ofReal
  have x2 : 0 < x ^ 2 := by positivity
  refine (meas_ge_le_lintegral_div mg.aemeasurable (ENNReal.ofReal_pos.2 x2).ne' ENNReal.ofReal_ne_top).trans ?_
  have hi : Integrable (fun z => (f z - m) ^ 2) (drawLaw ν L) := by
    refine SelfAvg.bdd_int (M := (K + |m|) ^ 2) ((mf.sub_const m).pow_const 2) fun z => ?_
    rw [abs_pow]
    refine pow_le_pow_left₀ (abs_nonneg _) ((abs_sub _ _).trans ?_) 2
    have := drawn_abs v Z0 hK b z
    linarith
  rw [← ofReal_integral_eq_lintegral_ofReal hi (.of_forall fun z => sq_nonneg _), ← ENNReal.ofReal_div_of_pos x2]
  refine ENNReal.ofReal_le_ofReal ?_
  rw [div_le_div_iff₀ x2 (by positivity)]
  have := mul_le_mul_of_nonneg_right var (by positivity : 0 ≤ L * x ^ 2)
  refine this.trans (le_of_eq ?_)
  field_simp

theorem trim_all {z : Fin (6 * L) → ℝ} (h : ∀ i, |z i| ≤ Z) : (fun i => trim Z (z i)) = z := funext fun i => trim_eq (h i)

/-- C132: the thermal energy per site of a chain with random couplings and fields is self-averaging: all but a few of the chains have
nearly the same.  The draws may have any law with a finite variance; `Z` cuts off the tails, for draws within `Z` the couplings and
fields add up to at most `K` at each site. -/
theorem C132_typical (conf : Config ℝ) (L s : ℕ) (v : ValidConf conf L s) (u0 : ℕ → ℝ) (ν : Measure ℝ) [IsProbabilityMeasure ν]
    (h2 : MemLp (id : ℝ → ℝ) 2 ν) (Z K : ℝ) (Z0 : 0 ≤ Z)
    (hK : ∀ zj zh x, DrawsWithin Z L zj → DrawsWithin Z L zh → SpinChain.new conf 0 u0 zj zh = .ok x →
      ∀ i < L, len (J x i) + len (H0 x i) ≤ K) (b x : ℝ) (hx : 0 < x) :
    drawLaw ν L {z | x ≤ |drawnEnergy conf u0 L b z - typicalEnergy conf u0 L ν Z b|}
      ≤ 6 * L * ν {t | Z < |t|}
        + ENNReal.ofReal (3 * feel b K ^ 2 * (conf.jvar ^ 2 + conf.hvar ^ 2) * (∫ t, (t - ∫ t, t ∂ν) ^ 2 ∂ν) / (L * x ^ 2)) := by
  refine (measure_mono fun z hz => ?_).trans ((measure_union_le _ _).trans (add_le_add (tail_union ν L Z) (drawn_chebyshev v h2 Z0 hK b hx)))
  have hz : x ≤ |drawnEnergy conf u0 L b z - typicalEnergy conf u0 L ν Z b| := hz
  by_cases hw : ∀ i, |z i| ≤ Z
  · right
    show x ≤ |drawnEnergy conf u0 L b (fun i => trim Z (z i)) - _|
    rw [trim_all hw]
    exact hz
  · exact Or.inl hw

theorem gauss_tail {Z : ℝ} (Z0 : 0 ≤ Z) : gaussianReal 0 1 {t | Z < |t|} ≤ ENNReal.ofReal (2 * Real.exp (-(Z ^ 2 / 2))) := by
  have i : ∀ t : ℝ, Integrable (fun x : ℝ => Real.exp (t * id x)) (gaussianReal 0 1) := fun t => integrable_exp_mul_gaussianReal t
  have h1 := measure_ge_le_exp_mul_mgf (μ := gaussianReal 0 1) (X := id) Z Z0 (i Z)
  have h2 := measure_le_le_exp_mul_mgf (μ := gaussianReal 0 1) (X := id) (-Z) (neg_nonpos.2 Z0) (i (-Z))
  rw [mgf_id_gaussianReal, ← Real.exp_add] at h1 h2
  have e1 : -Z * Z + (0 * Z + ((1 : NNReal) : ℝ) * Z ^ 2 / 2) = -(Z ^ 2 / 2) := by
    push_cast
    ring
  have e2 : -(-Z) * -Z + (0 * -Z + ((1 : NNReal) : ℝ) * (-Z) ^ 2 / 2) = -(Z ^ 2 / 2) := by
    push_cast
    ring
  rw [e1] at h1
  rw [e2] at h2
  have hs : {t : ℝ | Z < |t|} ⊆ {t | Z ≤ id t} ∪ {t | id t ≤ -Z} := fun t ht => by
    have ht : Z < |t| := ht
    rcases lt_abs.1 ht with h | h
    · exact Or.inl h.le
    · right
      show t ≤ -Z
      linarith
  refine (measure_mono hs).trans ((measure_union_le _ _).trans ?_)
  rw [two_mul, ENNReal.ofReal_add (Real.exp_nonneg _) (Real.exp_nonneg _)]
  refine add_le_add ?_ ?_
  · rw [← ofReal_measureReal]
    exact ENNReal.ofReal_le_ofReal h1
  · rw [← ofReal_measureReal]
    exact ENNReal.ofReal_le_ofReal h2

/-- C132: for the normal draws of the program. -/
theorem C132_normal (conf : Config ℝ) (L s : ℕ) (v : ValidConf conf L s) (u0 : ℕ → ℝ) (Z K : ℝ) (Z0 : 0 ≤ Z)
    (hK : ∀ zj zh x, DrawsWithin Z L zj → DrawsWithin Z L zh → SpinChain.new conf 0 u0 zj zh = .ok x →
      ∀ i < L, len (J x i) + len (H0 x i) ≤ K) (b x : ℝ) (hx : 0 < x) :
    drawLaw (gaussianReal 0 1) L {z | x ≤ |drawnEnergy conf u0 L b z - typicalEnergy conf u0 L (gaussianReal 0 1) Z b|}
      ≤ ENNReal.ofReal (12 * L * Real.exp (-(Z ^ 2 / 2)) + 3 * feel b K ^ 2 * (conf.jvar ^ 2 + conf.hvar ^ 2) / (L * x ^ 2)) := by
  have h := C132_typical conf L s v u0 (gaussianReal 0 1) (memLp_id_gaussianReal' 2 (by simp)) Z K Z0 hK b x hx
  have e : ∫ t, (t - ∫ t, t ∂(gaussianReal 0 1)) ^ 2 ∂(gaussianReal 0 1) = 1 := by
    have := variance_id_gaussianReal (μ := 0) (v := 1)
    rw [variance_eq_integral measurable_id.aemeasurable] at this
    simpa using this
  rw [e, mul_one] at h
  refine h.trans ?_
  rw [ENNReal.ofReal_add (by positivity) (by positivity)]
  refine add_le_add ?_ le_rfl
  refine (mul_le_mul_right (gauss_tail Z0) _).trans (le_of_eq ?_)
  rw [show (6 * (L : ℝ≥0∞)) = ENNReal.ofReal (6 * L) by rw [ENNReal.ofReal_mul (by norm_num)]; simp, ← ENNReal.ofReal_mul (by positivity)]
  congr 1
  ring

/-- C132: for draws that do not exceed `Z` the typical energy is the mean over the draws, and the variance of the thermal energy per site
falls with the length of the chain. -/
theorem C132_variance (conf : Config ℝ) (L s : ℕ) (v : ValidConf conf L s) (u0 : ℕ → ℝ) (ν : Measure ℝ) [IsProbabilityMeasure ν]
    (Z K : ℝ) (Z0 : 0 ≤ Z) (hZ : ∀ᵐ t ∂ν, |t| ≤ Z)
    (hK : ∀ zj zh x, DrawsWithin Z L zj → DrawsWithin Z L zh → SpinChain.new conf 0 u0 zj zh = .ok x →
      ∀ i < L, len (J x i) + len (H0 x i) ≤ K) (b : ℝ) :
    Integrable (drawnEnergy conf u0 L b) (drawLaw ν L) ∧
    Integrable (fun z => (drawnEnergy conf u0 L b z - ∫ z, drawnEnergy conf u0 L b z ∂(drawLaw ν L)) ^ 2) (drawLaw ν L) ∧
    typicalEnergy conf u0 L ν Z b = ∫ z, drawnEnergy conf u0 L b z ∂(drawLaw ν L) ∧
    ∫ z, (drawnEnergy conf u0 L b z - ∫ z, drawnEnergy conf u0 L b z ∂(drawLaw ν L)) ^ 2 ∂(drawLaw ν L)
      ≤ 3 * feel b K ^ 2 * (conf.jvar ^ 2 + conf.hvar ^ 2) * (∫ t, (t - ∫ t, t ∂ν) ^ 2 ∂ν) / L := by
  have hL := v.L_two
  have K0 := K_pos' v Z0 hK
  have h2 : MemLp (id : ℝ → ℝ) 2 ν := MemLp.of_bound measurable_id.aestronglyMeasurable Z (hZ.mono fun t ht => by simpa using ht)
  set f : (Fin (6 * L) → ℝ) → ℝ := fun z => drawnEnergy conf u0 L b fun i => trim Z (z i) with hf
  have mf : Measurable f := drawn_meas v Z0 hK b
  have ae : f =ᵐ[drawLaw ν L] drawnEnergy conf u0 L b := by
    have : ∀ᵐ z ∂(drawLaw ν L), ∀ i, |z i| ≤ Z := by
      rw [ae_all_iff]
      intro i
      exact (Measure.quasiMeasurePreserving_eval (μ := fun _ : Fin (6 * L) => ν) i).ae hZ
    filter_upwards [this] with z hz
    rw [hf]
    dsimp only
    congr 1
    funext i
    exact trim_eq (hz i)
  have var := SelfAvg.many_lip (sq_int h2 _) (fun i : Fin (6 * L) => weight_nonneg K0 i) (drawn_abs v Z0 hK b) (drawn_lip v Z0 hK b)
  rw [sum_weights hL] at var
  have em : typicalEnergy conf u0 L ν Z b = ∫ z, drawnEnergy conf u0 L b z ∂(drawLaw ν L) := integral_congr_ae ae
  rw [← em]
  set m := typicalEnergy conf u0 L ν Z b with hm
  have var : ∫ z, (f z - m) ^ 2 ∂(drawLaw ν L) ≤ _ := var
  have ae2 : (fun z => (f z - m) ^ 2) =ᵐ[drawLaw ν L] fun z => (drawnEnergy conf u0 L b z - m) ^ 2 := ae.mono fun z hz => by
    dsimp only
    rw [hz]
  have i1 : Integrable f (drawLaw ν L) := SelfAvg.bdd_int mf (drawn_abs v Z0 hK b)
  have i2 : Integrable (fun z => (f z - m) ^ 2) (drawLaw ν L) := by
    refine SelfAvg.bdd_int (M := (K + |m|) ^ 2) ((mf.sub_const m).pow_const 2) fun z => ?_
    rw [abs_pow]
    refine pow_le_pow_left₀ (abs_nonneg _) ((abs_sub _ _).trans ?_) 2
    have := drawn_abs v Z0 hK b z
    linarith
  refine ⟨i1.congr ae, i2.congr ae2, rfl, ?_⟩
  rw [← integral_congr_ae ae2]
  refine var.trans (le_of_eq ?_)
  ring

section
variable {u0 : ℕ → ℝ} {ν : Measure ℝ} [IsProbabilityMeasure ν] (v : ValidConf conf L s) (Z0 : 0 ≤ Z)
  (hK : ∀ zj zh x, DrawsWithin Z L zj → DrawsWithin Z L zh → SpinChain.new conf 0 u0 zj zh = .ok x →
      ∀ i < L, len (J x i) + len (H0 x i) ≤ K)
include v Z0 hK

theorem typical_cont : Continuous (typicalEnergy conf u0 L ν Z) := by
  refine continuous_of_dominated (bound := fun _ => K) (fun b => (drawn_meas v Z0 hK b).aestronglyMeasurable)
    (fun b => .of_forall fun z => by simpa [Real.norm_eq_abs] using drawn_abs v Z0 hK b z) (integrable_const _) (.of_forall fun z => ?_)
  obtain ⟨c, hc, w, -⟩ := drawn_new v u0 (fun i => trim Z (z i)) 0
  have e : (fun b => drawnEnergy conf u0 L b fun i => trim Z (z i)) = energyAt c L := by
    funext b
    unfold drawnEnergy
    rw [hc]
  rw [e]
  exact energyAt_cont w v.L_two

theorem typical_slope (hL : 3 ≤ L) {j0 : ℝ} (hj0 : 0 < j0)
    (hj : ∀ zj zh x, DrawsWithin Z L zj → DrawsWithin Z L zh → SpinChain.new conf 0 u0 zj zh = .ok x → ∀ i < L, j0 ≤ len (J x i))
    (bm b1 b2 : ℝ) (h1 : -bm ≤ b1) (h12 : b1 ≤ b2) (h2 : b2 ≤ bm) :
    heatLow bm K j0 * (b2 - b1) ≤ typicalEnergy conf u0 L ν Z b1 - typicalEnergy conf u0 L ν Z b2 ∧
    typicalEnergy conf u0 L ν Z b1 - typicalEnergy conf u0 L ν Z b2 ≤ perSite bm K * K ^ 2 * (b2 - b1) := by
  have i : ∀ b, Integrable (fun z : Fin (6 * L) → ℝ => drawnEnergy conf u0 L b fun i => trim Z (z i)) (drawLaw ν L) := fun b =>
    SelfAvg.bdd_int (drawn_meas v Z0 hK b) (drawn_abs v Z0 hK b)
  have key : ∀ z : Fin (6 * L) → ℝ, heatLow bm K j0 * (b2 - b1)
      ≤ drawnEnergy conf u0 L b1 (fun i => trim Z (z i)) - drawnEnergy conf u0 L b2 (fun i => trim Z (z i)) ∧
      drawnEnergy conf u0 L b1 (fun i => trim Z (z i)) - drawnEnergy conf u0 L b2 (fun i => trim Z (z i))
        ≤ perSite bm K * K ^ 2 * (b2 - b1) := fun z => by
    obtain ⟨c, hc, w, e⟩ := drawn_new v u0 (fun i => trim Z (z i)) b1
    have e2 : drawnEnergy conf u0 L b2 (fun i => trim Z (z i)) = energyAt c L b2 := by
      unfold drawnEnergy
      rw [hc]
    have cz : ∀ i, |trim Z (z i)| ≤ Z := fun i => trim_abs Z0 _
    rw [e, e2]
    exact C129_slope c L s w hL K j0 (hK _ _ _ (within_J cz) (within_H cz) hc) hj0.le (hj _ _ _ (within_J cz) (within_H cz) hc)
      bm b1 b2 h1 h12 h2
  have es : typicalEnergy conf u0 L ν Z b1 - typicalEnergy conf u0 L ν Z b2
      = ∫ z, (drawnEnergy conf u0 L b1 (fun i => trim Z (z i)) - drawnEnergy conf u0 L b2 (fun i => trim Z (z i))) ∂(drawLaw ν L) :=
    (integral_sub (i b1) (i b2)).symm
  rw [es]
  constructor
  · calc heatLow bm K j0 * (b2 - b1) = ∫ _z : Fin (6 * L) → ℝ, heatLow bm K j0 * (b2 - b1) ∂(drawLaw ν L) := by simp
      _ ≤ _ := integral_mono (integrable_const _) ((i b1).sub (i b2)) fun z => (key z).1
  · calc ∫ z, (drawnEnergy conf u0 L b1 (fun i => trim Z (z i)) - drawnEnergy conf u0 L b2 (fun i => trim Z (z i))) ∂(drawLaw ν L)
        ≤ ∫ _z : Fin (6 * L) → ℝ, perSite bm K * K ^ 2 * (b2 - b1) ∂(drawLaw ν L) :=
          integral_mono ((i b1).sub (i b2)) (integrable_const _) fun z => (key z).2
      _ = _ := by simp

end

/-- two decreasing functions, one of them with bounded slope, that are close at the points of a net are close everywhere -/
theorem net_close {f g : ℝ → ℝ} {l h x Λ : ℝ} {q : ℕ} (hq : 1 ≤ q) (hlh : l ≤ h) (Λ0 : 0 ≤ Λ)
    (hf : ∀ a ∈ Set.Icc l h, ∀ b ∈ Set.Icc l h, a ≤ b → f b ≤ f a)
    (hg : ∀ a ∈ Set.Icc l h, ∀ b ∈ Set.Icc l h, a ≤ b → g a - g b ≤ Λ * (b - a))
    (hn : ∀ j ∈ range (q + 1), |f (l + (h - l) * j / q) - g (l + (h - l) * j / q)| ≤ x) :
    ∀ b ∈ Set.Icc l h, |f b - g b| ≤ x + Λ * (h - l) / q := by
  intro b hb
  have q0 : (0 : ℝ) < q := by exact_mod_cast hq
  have inI : ∀ j : ℕ, j ≤ q → l + (h - l) * j / q ∈ Set.Icc l h := fun j hj => by
    have hj' : (j : ℝ) ≤ q := by exact_mod_cast hj
    have h1 : (h - l) * j / q ≤ h - l := by
      rw [div_le_iff₀ q0]
      exact mul_le_mul_of_nonneg_left hj' (by linarith)
    have h2 : 0 ≤ (h - l) * j / q := div_nonneg (mul_nonneg (by linarith) (Nat.cast_nonneg _)) q0.le
    exact ⟨by linarith, by linarith⟩
  rcases hlh.eq_or_lt with e | hlt
  · have hbl : b = l := le_antisymm (by rw [e]; exact hb.2) hb.1
    have := hn 0 (by simp)
    simp only [Nat.cast_zero, mul_zero, zero_div, add_zero] at this
    rw [hbl, e, sub_self, mul_zero, zero_div, add_zero, ← e]
    exact this
  · have hd : 0 < h - l := by linarith
    set y := (b - l) / (h - l) * q with hy
    have y0 : 0 ≤ y := mul_nonneg (div_nonneg (by linarith [hb.1]) hd.le) q0.le
    have yq : y ≤ q := by
      rw [hy]
      refine mul_le_of_le_one_left q0.le ?_
      rw [div_le_one hd]
      linarith [hb.2]
    have eb : b = l + (h - l) * y / q := by
      rw [hy]
      field_simp
      ring
    have step : ∀ a : ℝ, (h - l) * a / q = a * ((h - l) / q) := fun a => by ring
    have w0 : 0 < (h - l) / q := div_pos hd q0
    have f1 : ⌊y⌋₊ ≤ q := by
      have := Nat.floor_le y0
      exact_mod_cast this.trans yq
    have f2 : ⌈y⌉₊ ≤ q := Nat.ceil_le.2 yq
    have a1 := hn ⌊y⌋₊ (mem_range.2 (by omega))
    have a2 := hn ⌈y⌉₊ (mem_range.2 (by omega))
    have i1 := inI _ f1
    have i2 := inI _ f2
    have o1 : l + (h - l) * ⌊y⌋₊ / q ≤ b := by
      rw [eb, step, step]
      have := mul_le_mul_of_nonneg_right (Nat.floor_le y0) w0.le
      linarith
    have o2 : b ≤ l + (h - l) * ⌈y⌉₊ / q := by
      rw [step]
      have e : b = l + y * ((h - l) / q) := by rw [← step]; exact eb
      have := mul_le_mul_of_nonneg_right (Nat.le_ceil y) w0.le
      linarith
    have d1 : b - (l + (h - l) * ⌊y⌋₊ / q) ≤ (h - l) / q := by
      rw [step]
      have e : b = l + y * ((h - l) / q) := by rw [← step]; exact eb
      have := mul_le_mul_of_nonneg_right (Nat.lt_floor_add_one y).le w0.le
      linarith
    have d2 : l + (h - l) * ⌈y⌉₊ / q - b ≤ (h - l) / q := by
      rw [step]
      have e : b = l + y * ((h - l) / q) := by rw [← step]; exact eb
      have := mul_le_mul_of_nonneg_right (Nat.ceil_lt_add_one y0).le w0.le
      linarith
    have g1 := hg _ i1 b hb o1
    have g2 := hg b hb _ i2 o2
    have k1 := hf _ i1 b hb o1
    have k2 := hf b hb _ i2 o2
    have m1 := mul_le_mul_of_nonneg_left d1 Λ0
    have m2 := mul_le_mul_of_nonneg_left d2 Λ0
    rw [mul_div_assoc]
    obtain ⟨-, u1⟩ := abs_le.1 a1
    obtain ⟨u2, -⟩ := abs_le.1 a2
    rw [abs_le]
    constructor <;> linarith

theorem search_union (ν : Measure ℝ) [IsProbabilityMeasure ν] (L : ℕ) (A : Set (Fin (6 * L) → ℝ)) (α : ℝ≥0∞) (h : drawLaw ν L A ≤ α) :
    (Measure.pi fun _ : Fin 16 => drawLaw ν L) {z | ∃ k, z k ∈ A} ≤ 16 * α := by
  calc (Measure.pi fun _ : Fin 16 => drawLaw ν L) {z | ∃ k, z k ∈ A}
      ≤ (Measure.pi fun _ : Fin 16 => drawLaw ν L) (⋃ k ∈ (univ : Finset (Fin 16)), {z | z k ∈ A}) := by
        refine measure_mono fun z hz => ?_
        obtain ⟨k, hk⟩ := hz
        simp only [Set.mem_iUnion]
        exact ⟨k, mem_univ _, hk⟩
    _ ≤ ∑ _k : Fin 16, α := by
        refine (measure_biUnion_finset_le _ _).trans (sum_le_sum fun k _ => ?_)
        refine (Measure.quasiMeasurePreserving_eval (μ := fun _ : Fin 16 => drawLaw ν L) k |> fun _ => ?_)
        refine le_trans (measure_mono (Set.preimage_mono (subset_toMeasurable (drawLaw ν L) A))) ?_
        rw [(measurePreserving_eval (fun _ : Fin 16 => drawLaw ν L) k).measure_preimage
          (measurableSet_toMeasurable _ _).nullMeasurableSet, measure_toMeasurable]
        exact h
    _ = _ := by simp

/-- C132: a temperature search in chains with random couplings and fields.  Every estimate draws its own chain, with independent draws of
law `ν`.  But for a few choices of the draws the search finds, with probability at least `1 - p`, the inverse temperature `bs` of the
typical energy per site.  The error that the disorder adds, `x` up to the choice of the net of `q` points, can be made small for long
chains whatever the strength of the disorder. -/
theorem C132_search (conf : Config ℝ) (L s : ℕ) (v : ValidConf conf L s) (hL : 3 ≤ L) (hb0 : conf.beta ≠ 0) (u0 : ℕ → ℝ)
    (ν : Measure ℝ) [IsProbabilityMeasure ν] (h2 : MemLp (id : ℝ → ℝ) 2 ν) (Z K j0 : ℝ) (Z0 : 0 ≤ Z)
    (hK : ∀ zj zh x, DrawsWithin Z L zj → DrawsWithin Z L zh → SpinChain.new conf 0 u0 zj zh = .ok x →
      ∀ i < L, len (J x i) + len (H0 x i) ≤ K) (hj0 : 0 < j0)
    (hj : ∀ zj zh x, DrawsWithin Z L zj → DrawsWithin Z L zh → SpinChain.new conf 0 u0 zj zh = .ok x → ∀ i < L, j0 ≤ len (J x i))
    (per n : ℕ) (hper : 1 ≤ per) (hn : 1 ≤ n) (δ p : ℝ) (hδ : 0 < δ) (hδK : δ ≤ K) (hp : 0 < p) (hp1 : p ≤ 1)
    (hs : 16 * K ^ 2 * samplesWorth 5 K L per * (17 + 8 * ((|conf.beta| / 2 + 5 * K) * L)) / (p * δ ^ 2) ≤ n)
    (l0 : ℝ) (hl : l0 = 0.01 ∨ l0 = 0.0001) (bs : ℝ) (hbs : bs ∈ Set.Icc l0 5) (q : ℕ) (hq : 1 ≤ q) (x : ℝ) (hx : 0 < x) :
    (Measure.pi fun _ : Fin 16 => drawLaw ν L) {z | ¬
      searchLaw L per n {r | ¬ ∃ b, bisect l0 5 (typicalEnergy conf u0 L ν Z bs) (fun k beta =>
        estimate SpinChain.metropolis_update per n SpinChain.mc_total_energy conf beta (searchRand (searchJ z) (searchH z) r k)) 13
          = .ok (some b) ∧
        |b.mid - bs| ≤ 0.0005 + (δ + (x + perSite 5 K * K ^ 2 * 5 / q)) / heatLow 5 K j0} ≤ ENNReal.ofReal p}
    ≤ 16 * (6 * L * ν {t | Z < |t|} + (q + 1) *
        ENNReal.ofReal (3 * feel 5 K ^ 2 * (conf.jvar ^ 2 + conf.hvar ^ 2) * (∫ t, (t - ∫ t, t ∂ν) ^ 2 ∂ν) / (L * x ^ 2))) := by
  have hL2 : 2 ≤ L := by omega
  have L0 : (0 : ℝ) < L := by exact_mod_cast (by omega : 0 < L)
  have q0 : (0 : ℝ) < q := by exact_mod_cast hq
  have K0 := K_pos' v Z0 hK
  have κ0 := heatLow_pos 5 K hj0
  have l01 : 0 ≤ l0 ∧ l0 ≤ 5 := by rcases hl with rfl | rfl <;> norm_num
  have V0 : 0 ≤ ∫ t, (t - ∫ t, t ∂ν) ^ 2 ∂ν := integral_nonneg fun t => sq_nonneg _
  have P0 : 0 ≤ perSite 5 K * K ^ 2 := by
    unfold perSite
    positivity
  set M := typicalEnergy conf u0 L ν Z with hM
  set node : ℕ → ℝ := fun j => l0 + (5 - l0) * j / q with hnode
  set ε := x + perSite 5 K * K ^ 2 * 5 / q with hε
  have ε0 : 0 ≤ ε := by positivity
  set A : Set (Fin (6 * L) → ℝ) := {z | ¬ ∀ i, |z i| ≤ Z} ∪ ⋃ j ∈ range (q + 1),
    {z | x ≤ |drawnEnergy conf u0 L (node j) (fun i => trim Z (z i)) - M (node j)|} with hA
  have node_mem : ∀ j ∈ range (q + 1), node j ∈ Set.Icc l0 5 := fun j hj => by
    have hj' : (j : ℝ) ≤ q := by exact_mod_cast (by have := mem_range.1 hj; omega : j ≤ q)
    have h1 : (5 - l0) * j / q ≤ 5 - l0 := by
      rw [div_le_iff₀ q0]
      exact mul_le_mul_of_nonneg_left hj' (by linarith)
    have h2 : 0 ≤ (5 - l0) * j / q := div_nonneg (mul_nonneg (by linarith) (Nat.cast_nonneg _)) q0.le
    exact ⟨by rw [hnode]; linarith, by rw [hnode]; linarith⟩
  have PA : drawLaw ν L A ≤ 6 * L * ν {t | Z < |t|} + (q + 1) *
        ENNReal.ofReal (3 * feel 5 K ^ 2 * (conf.jvar ^ 2 + conf.hvar ^ 2) * (∫ t, (t - ∫ t, t ∂ν) ^ 2 ∂ν) / (L * x ^ 2)) := by
    refine (measure_union_le _ _).trans (add_le_add (tail_union ν L Z) ?_)
    have each : ∀ j ∈ range (q + 1), drawLaw ν L {z | x ≤ |drawnEnergy conf u0 L (node j) (fun i => trim Z (z i)) - M (node j)|}
        ≤ ENNReal.ofReal (3 * feel 5 K ^ 2 * (conf.jvar ^ 2 + conf.hvar ^ 2) * (∫ t, (t - ∫ t, t ∂ν) ^ 2 ∂ν) / (L * x ^ 2)) := fun j hj => by
      refine (drawn_chebyshev v h2 Z0 hK (node j) hx).trans (ENNReal.ofReal_le_ofReal ?_)
      have m := node_mem j hj
      have f1 := feel_mono (b := node j) (b' := 5) (abs_le.2 ⟨by linarith [m.1], m.2⟩) K0
      have f2 := pow_le_pow_left₀ (feel_pos K0 (node j)).le f1 2
      gcongr
    refine (measure_biUnion_finset_le _ _).trans ((sum_le_sum each).trans ?_)
    rw [sum_const, card_range, nsmul_eq_mul]
    push_cast
    exact le_rfl
  refine le_trans (measure_mono fun z hz => ?_) (search_union ν L A _ PA)
  by_contra hne
  refine hz ?_
  have good : ∀ k, z k ∉ A := fun k hk => hne ⟨k, hk⟩
  have within : ∀ k i, |z k i| ≤ Z := fun k => by
    by_contra h
    exact good k (Or.inl h)
  have close : ∀ k, ∀ j ∈ range (q + 1), |drawnEnergy conf u0 L (node j) (z k) - M (node j)| < x := fun k j hj => by
    by_contra h
    refine good k (Or.inr ?_)
    simp only [Set.mem_iUnion]
    refine ⟨j, hj, ?_⟩
    show x ≤ |drawnEnergy conf u0 L (node j) (fun i => trim Z (z k i)) - M (node j)|
    rw [trim_all (within k)]
    exact not_lt.1 h
  have ex : ∀ k, ∃ y, SpinChain.new conf 0 u0 (searchJ z k) (searchH z k) = .ok y := fun k => by
    obtain ⟨y, hy, -⟩ := C11_new_wf' conf 0 u0 (searchJ z k) (searchH z k) L s v.hsize v.L_lt v.ssize v.s_lt v.hfield v.hs v.jvar v.hvar
    exact ⟨y, hy⟩
  choose ck hck using ex
  have eJ : ∀ k (h : k < 16), searchJ z k = forJ (z ⟨k, h⟩) ∧ searchH z k = forH (z ⟨k, h⟩) := fun k h => by
    unfold searchJ searchH
    rw [dif_pos h, dif_pos h]
    exact ⟨rfl, rfl⟩
  have wJ : ∀ k < 16, DrawsWithin Z L (searchJ z k) := fun k h => by
    rw [(eJ k h).1]
    exact within_J (within _)
  have wH : ∀ k < 16, DrawsWithin Z L (searchH z k) := fun k h => by
    rw [(eJ k h).2]
    exact within_H (within _)
  have eE : ∀ k (h : k < 16) b, drawnEnergy conf u0 L b (z ⟨k, h⟩) = energyAt (ck k) L b := fun k h b => by
    unfold drawnEnergy
    rw [← (eJ k h).1, ← (eJ k h).2, hck k]
  have slope := fun b1 b2 => typical_slope (ν := ν) v Z0 hK hL hj0 hj 5 b1 b2
  have near : ∀ k < 16, ∀ b ∈ Set.Icc l0 5, |energyAt (ck k) L b - M b| ≤ ε := fun k hk b hb => by
    have sk := C129_slope (ck k) L s (new_wf v (hck k)) hL K j0 (hK _ _ _ (wJ k hk) (wH k hk) (hck k)) hj0.le
      (hj _ _ _ (wJ k hk) (wH k hk) (hck k)) 5
    refine (net_close (f := energyAt (ck k) L) (g := M) (x := x) hq l01.2 P0 (fun a ha b hb hab => ?_) (fun a ha b hb hab => ?_)
      (fun j hj => ?_) b hb).trans ?_
    · have := (sk a b (by linarith [ha.1]) hab hb.2).1
      have : 0 ≤ heatLow 5 K j0 * (b - a) := mul_nonneg κ0.le (by linarith)
      linarith
    · exact (slope a b (by linarith [ha.1]) hab hb.2).2
    · have := close ⟨k, hk⟩ j hj
      rw [eE k hk] at this
      exact this.le
    · rw [hε]
      have : perSite 5 K * K ^ 2 * (5 - l0) / q ≤ perSite 5 K * K ^ 2 * 5 / q := by
        gcongr
        linarith [l01.1]
      linarith
  have e1 := (slope l0 bs (by linarith) hbs.1 hbs.2).1
  have e2 := (slope bs 5 (by linarith [hbs.1]) hbs.2 le_rfl).1
  have q1 : 0 ≤ heatLow 5 K j0 * (bs - l0) := mul_nonneg κ0.le (by linarith [hbs.1])
  have q2 : 0 ≤ heatLow 5 K j0 * (5 - bs) := mul_nonneg κ0.le (by linarith [hbs.2])
  refine le_trans (measure_mono fun r hr => ?_) (search_drawn conf L s v hb0 u0 (searchJ z) (searchH z) ck (fun k _ => hck k) K
    (fun k hk => hK _ _ _ (wJ k hk) (wH k hk) (hck k)) per n hper hn δ ε p hδ hδK ε0 hp hp1 hs l0 hl M
    (typical_cont v Z0 hK) near (M bs) (by linarith) (by linarith))
  rintro ⟨b, h1, beta, hb, h2, h3⟩
  refine hr ⟨b, h1, ?_⟩
  have h4 : heatLow 5 K j0 * |beta - bs| ≤ δ + ε := by
    refine le_trans ?_ h3
    rcases le_total beta bs with h | h
    · have := (slope beta bs (by linarith [hb.1]) h hbs.2).1
      rw [abs_of_nonpos (by linarith)]
      refine le_trans (le_of_eq (by ring)) (this.trans (le_abs_self _))
    · have := (slope bs beta (by linarith [hbs.1]) h hb.2).1
      rw [abs_of_nonneg (by linarith)]
      refine this.trans ?_
      rw [abs_sub_comm]
      exact le_abs_self _
  have h5 : |beta - bs| ≤ (δ + ε) / heatLow 5 K j0 := by
    rw [le_div_iff₀ κ0, mul_comm]
    exact h4
  have h6 : |b.mid - bs| ≤ |beta - b.mid| + |beta - bs| := by
    rw [abs_sub_comm beta b.mid]
    calc |b.mid - bs| = |(b.mid - beta) + (beta - bs)| := by ring_nf
      _ ≤ _ := abs_add_le _ _
  linarith

/-- non-vacuity: the default configuration, with its disorder and inverse temperature one, draws cut off at five, and enough samples -/
example : ∃ (conf : Config ℝ), ValidConf conf 512 8 ∧ conf.jvar = (Config.default : Config ℝ).jvar ∧ conf.jvar ≠ 0 ∧ conf.beta ≠ 0 ∧
    ∀ u0 : ℕ → ℝ, ∃ K,
      (∀ zj zh x, DrawsWithin 5 512 zj → DrawsWithin 5 512 zh → SpinChain.new conf 0 u0 zj zh = .ok x →
        ∀ i < 512, len (J x i) + len (H0 x i) ≤ K) ∧
      (∀ zj zh x, DrawsWithin 5 512 zj → DrawsWithin 5 512 zh → SpinChain.new conf 0 u0 zj zh = .ok x → ∀ i < 512, 1 / 2 ≤ len (J x i)) ∧
      (1 / 10 : ℝ) ≤ K ∧
      (∃ n : ℕ, 1 ≤ n ∧ 16 * K ^ 2 * samplesWorth 5 K 512 1000 * (17 + 8 * ((|conf.beta| / 2 + 5 * K) * (512 : ℕ)))
        / (1 / 100 * (1 / 10) ^ 2) ≤ n) ∧ MemLp (id : ℝ → ℝ) 2 (gaussianReal 0 1) := by
  let conf : Config ℝ := { (Config.default : Config ℝ) with
    beta := 1 }
  have v : ValidConf conf 512 8 := by constructor <;> first | rfl | norm_num
  have hjv : conf.jvar = 0.001 := rfl
  refine ⟨conf, v, rfl, by rw [hjv]; norm_num, one_ne_zero, fun u0 => ?_⟩
  have z0 : DrawsWithin 5 512 fun _ => 0 := fun x _ => by norm_num
  obtain ⟨c, h, w⟩ := C11_new_wf' conf 0 u0 (fun _ => 0) (fun _ => 0) 512 8 v.hsize v.L_lt v.ssize v.s_lt v.hfield v.hs v.jvar v.hvar
  have D0 : 0 ≤ 4 * (|conf.jvar| + |conf.hvar|) * 5 := by positivity
  set K := ∑ i ∈ range 512, (len (J c i) + len (H0 c i)) + 4 * (|conf.jvar| + |conf.hvar|) * 5 with hK
  obtain ⟨n, hn⟩ := exists_nat_ge (16 * K ^ 2 * samplesWorth 5 K 512 1000 * (17 + 8 * ((|conf.beta| / 2 + 5 * K)
    * (512 : ℕ))) / (1 / 100 * (1 / 10) ^ 2))
  have one : ∀ i < 512, len (J c i) + len (H0 c i) ≤ ∑ i ∈ range 512, (len (J c i) + len (H0 c i)) := fun i hi =>
    single_le_sum (f := fun i => len (J c i) + len (H0 c i))
        (fun j _ => add_nonneg (Real.sqrt_nonneg _) (Real.sqrt_nonneg _)) (mem_range.2 hi)
  have hj : ∀ zj zh x, DrawsWithin 5 512 zj → DrawsWithin 5 512 zh → SpinChain.new conf 0 u0 zj zh = .ok x →
      ∀ i < 512, 1 / 2 ≤ len (J x i) := fun zj zh x z1 z2 hx i hi => by
    have e := drawn_x v hx i hi
    have b := abs_le.1 (z1 (3 * i) (by omega))
    have g : 1 / 2 ≤ (J x i).x := by
      rw [e, hjv]
      linarith [b.1]
    refine Real.le_sqrt_of_sq_le ?_
    simp only [dot]
    nlinarith [mul_self_nonneg (J x i).y, mul_self_nonneg (J x i).z]
  refine ⟨K, fun zj zh x z3 z4 hx i hi => ?_, hj, ?_, ⟨n + 1, by omega, hn.trans (by push_cast; linarith)⟩,
    memLp_id_gaussianReal' 2 (by simp)⟩
  · have := drawn_change v h hx z0 z0 z3 z4 i hi
    have := change_bound (x := c) (y := x) i
    have := one i hi
    linarith
  · have := one 0 (by omega)
    have := hj _ _ c z0 z0 h 0 (by omega)
    have := len_nonneg (H0 c 0)
    linarith

end

end Verif.Props
