/-
Helper lemmas: a sampler whose update is a Metropolis decision for the energy `E` is the Markov chain
of `Verif.Lemmas.Markov`.
-/
import Verif.Spec.Markov
import Verif.Lemmas.Markov
import Verif.Lemmas.Balance

namespace Verif

set_option linter.unusedSectionVars false

open Spec
open Finset hiding expect
open MeasureTheory Function Markov
open scoped ENNReal

theorem measurable_xyz : Measurable fun v : V3 ℝ => (v.x, v.y, v.z) := comap_measurable _

theorem measurable_x : Measurable fun v : V3 ℝ => v.x := measurable_fst.comp measurable_xyz
theorem measurable_y : Measurable fun v : V3 ℝ => v.y := measurable_fst.comp (measurable_snd.comp measurable_xyz)
theorem measurable_z : Measurable fun v : V3 ℝ => v.z := measurable_snd.comp (measurable_snd.comp measurable_xyz)

theorem measurable_v3 {α : Type} [MeasurableSpace α] {g : α → V3 ℝ} (hx : Measurable fun a => (g a).x)
    (hy : Measurable fun a => (g a).y) (hz : Measurable fun a => (g a).z) : Measurable g :=
  measurable_comap_iff.2 (hx.prodMk (hy.prodMk hz))

theorem measurable_spherePoint : Measurable fun p : ℝ × ℝ => spherePoint p.1 p.2 := by
  have c1 : Measurable fun p : ℝ × ℝ => 1 - 2 * p.2 := measurable_const.sub (measurable_snd.const_mul 2)
  have c2 : Measurable fun p : ℝ × ℝ => Real.sqrt (1 - (1 - 2 * p.2) ^ 2) :=
    (measurable_const.sub (c1.pow_const 2)).sqrt
  have c3 : Measurable fun p : ℝ × ℝ => 2 * Real.pi * p.1 := measurable_fst.const_mul _
  exact measurable_v3 (c2.mul (Real.measurable_cos.comp c3)) (c2.mul (Real.measurable_sin.comp c3)) c1

instance : IsProbabilityMeasure (volume.restrict (Set.Ico (0 : ℝ) 1)) := ⟨by simp⟩

instance : IsProbabilityMeasure sphereMeasure :=
  Measure.isProbabilityMeasure_map measurable_spherePoint.aemeasurable

/-- the unit sphere -/
def Sph : Set (V3 ℝ) := {x | len x = 1}

theorem measurable_len : Measurable len := by
  unfold len dot
  exact (((measurable_x.mul measurable_x).add (measurable_y.mul measurable_y)).add
    (measurable_z.mul measurable_z)).sqrt

theorem sphere_ae : ∀ᵐ x ∂sphereMeasure, x ∈ Sph := by
  unfold sphereMeasure
  have hS : MeasurableSet {x | x ∈ Sph} := measurable_len (measurableSet_singleton 1)
  rw [ae_map_iff measurable_spherePoint.aemeasurable hS]
  rw [Measure.prod_restrict]
  refine (ae_restrict_mem (measurableSet_Ico.prod measurableSet_Ico)).mono fun p hp => ?_
  exact sphere_unit hp.2.1 hp.2.2.le

theorem lintegral_sphere {h : V3 ℝ → ℝ≥0∞} (hh : Measurable h) :
    ∫⁻ u1 in Set.Ico (0 : ℝ) 1, ∫⁻ u2 in Set.Ico (0 : ℝ) 1, h (spherePoint u1 u2) = ∫⁻ x, h x ∂sphereMeasure := by
  unfold sphereMeasure
  have hm : Measurable fun p : ℝ × ℝ => h (spherePoint p.1 p.2) := hh.comp measurable_spherePoint
  rw [lintegral_map hh measurable_spherePoint, lintegral_prod _ hm.aemeasurable]

/-! ### The chain with given spins -/

variable {c : SpinChain ℝ} {L s : ℕ}

theorem withSpins_wf (w : WF c L s) (v : Fin L → V3 ℝ) : WF (withSpins c v) L s :=
  ⟨w.hsize, w.ssize, w.L_lt, w.s_lt, by simp [withSpins], w.j, w.h, w.hs⟩

theorem S_withSpins (c : SpinChain ℝ) (v : Fin L → V3 ℝ) (i : ℕ) :
    S (withSpins c v) i = if h : i < L then v ⟨i, h⟩ else zero := by
  unfold S withSpins
  by_cases h : i < L
  · simp [h]
  · simp [h]

theorem replace_withSpins (c : SpinChain ℝ) (v : Fin L → V3 ℝ) (i : Fin L) (x : V3 ℝ) :
    replace (withSpins c v) i x = withSpins c (update v i x) := by
  unfold replace withSpins
  congr 1
  apply List.ext_getElem?
  intro k
  by_cases hk : k < L
  · by_cases hki : k = i
    · subst hki
      simp
    · rw [List.getElem?_set_ne (fun h => hki h.symm)]
      have : (⟨k, hk⟩ : Fin L) ≠ i := fun h => hki (by rw [← h])
      simp [hk, update_of_ne this]
  · have hki : ¬ (i : ℕ) = k := by omega
    rw [List.getElem?_set_ne hki]
    simp [hk]

theorem withSpins_self (w : WF c L s) : withSpins c (fun i : Fin L => S c i) = c := by
  unfold withSpins
  have : (List.ofFn fun i : Fin L => (⟨S c i⟩ : Spin ℝ)) = c.spins := by
    apply List.ext_getElem?
    intro k
    by_cases hk : k < L
    · have : k < c.spins.length := by rw [w.spins]; exact hk
      simp [hk, S, this]
    · have : ¬ k < c.spins.length := by rw [w.spins]; exact hk
      simp [hk]
      omega
  rw [this]

/-! ### One decision averaged over the acceptance number -/

theorem mean_decision {beta dE : ℝ} (hb : 0 ≤ beta) (A B : ℝ≥0∞) (g : SpinChain ℝ → ℝ≥0∞) (c c' : SpinChain ℝ)
    (hA : g c' = A) (hB : g c = B) :
    ∫⁻ u in Set.Ico (0 : ℝ) 1, g (metropolis beta dE u c c')
      = ENNReal.ofReal (min 1 (Real.exp (-(beta * dE)))) * A
        + (1 - ENNReal.ofReal (min 1 (Real.exp (-(beta * dE))))) * B := by
  set e := Real.exp (-(beta * dE)) with he
  have he0 : 0 < e := Real.exp_pos _
  have hcond : ∀ u ∈ Set.Ico (0 : ℝ) 1, g (metropolis beta dE u c c')
      = (Set.Iio e).indicator (fun _ => A) u + (Set.Ici e).indicator (fun _ => B) u := by
    intro u hu
    by_cases h : u < e
    · have : metropolis beta dE u c c' = c' := by
        unfold metropolis
        rw [if_pos (Or.inr h)]
      rw [this, hA, Set.indicator_of_mem (Set.mem_Iio.2 h), Set.indicator_of_notMem (by simpa using h), add_zero]
    · have hd : ¬ dE < 0 := by
        intro hd
        have : 1 ≤ e := by
          rw [he, ← Real.exp_zero, Real.exp_le_exp]
          nlinarith
        exact h (hu.2.trans_le this)
      have : metropolis beta dE u c c' = c := by
        unfold metropolis
        rw [if_neg]
        rintro (h' | h')
        · exact hd h'
        · exact h h'
      rw [this, hB, Set.indicator_of_notMem (by simpa using h), Set.indicator_of_mem (Set.mem_Ici.2 (not_lt.1 h)),
        zero_add]
  rw [setLIntegral_congr_fun measurableSet_Ico hcond, lintegral_add_left (measurable_const.indicator measurableSet_Iio),
    lintegral_indicator_const measurableSet_Iio, lintegral_indicator_const measurableSet_Ici,
    Measure.restrict_apply measurableSet_Iio, Measure.restrict_apply measurableSet_Ici]
  have v1 : Set.Iio e ∩ Set.Ico (0 : ℝ) 1 = Set.Ico 0 (min 1 e) := by
    ext x
    simp only [Set.mem_inter_iff, Set.mem_Iio, Set.mem_Ico, lt_min_iff]
    tauto
  have v2 : Set.Ici e ∩ Set.Ico (0 : ℝ) 1 = Set.Ico (min 1 e) 1 := by
    ext x
    simp only [Set.mem_inter_iff, Set.mem_Ici, Set.mem_Ico, min_le_iff]
    constructor
    · rintro ⟨h1, h2, h3⟩
      exact ⟨Or.inr h1, h3⟩
    · rintro ⟨h1 | h1, h2⟩
      · exact absurd h2 (not_lt.2 h1)
      · exact ⟨h1, he0.le.trans h1, h2⟩
  rw [v1, v2, Real.volume_Ico, Real.volume_Ico, sub_zero, mul_comm A, mul_comm B,
    ENNReal.ofReal_sub _ (le_min zero_le_one he0.le), ENNReal.ofReal_one]

/-! ### The sampler as a Markov chain -/

variable {upd : SpinChain ℝ → Draw ℝ → R (SpinChain ℝ)} {E : SpinChain ℝ → ℝ}

theorem expect_eq
    (hupd : ∀ (c : SpinChain ℝ) (i : ℕ) (u1 u2 u : ℝ), WF c L s → i < L → 0 ≤ u2 → u2 < 1 →
      upd c ⟨i, u1, u2, u⟩ = .ok (metropolis c.vars.beta
        (E (replace c i (spherePoint u1 u2)) - E c) u c (replace c i (spherePoint u1 u2))))
    (w : WF c L s) (hb : 0 ≤ c.vars.beta) (hE : Measurable fun v : Fin L → V3 ℝ => E (withSpins c v))
    {f : SpinChain ℝ → ℝ≥0∞} (hf : Observable c L f) (n : ℕ) (v : Fin L → V3 ℝ) :
    expect upd L f n (withSpins c v)
      = (Pm sphereMeasure c.vars.beta (fun v => E (withSpins c v)))^[n] (fun v => f (withSpins c v)) v := by
  induction n generalizing v with
  | zero => rfl
  | succ n ih =>
    rw [iterate_succ_apply']
    have hm := measurable_iter (σ := sphereMeasure) (β := c.vars.beta) hE hf n
    generalize (Pm sphereMeasure c.vars.beta (fun v => E (withSpins c v)))^[n] (fun v => f (withSpins c v)) = G
      at ih hm ⊢
    unfold Spec.expect Pm
    congr 1
    rw [Finset.sum_range]
    refine Finset.sum_congr rfl fun i _ => ?_
    have hl := measurable_line (β := c.vars.beta) hE i hm v
    unfold Qs
    rw [← lintegral_sphere hl]
    refine setLIntegral_congr_fun measurableSet_Ico fun u1 _ => ?_
    refine setLIntegral_congr_fun measurableSet_Ico fun u2 h2 => ?_
    have hu : ∀ u3 : ℝ, (match upd (withSpins c v) ⟨i, u1, u2, u3⟩ with
        | .ok c' => expect upd L f n c'
        | .error _ => 0) = expect upd L f n (metropolis c.vars.beta
          (E (withSpins c (update v i (spherePoint u1 u2))) - E (withSpins c v)) u3 (withSpins c v)
          (withSpins c (update v i (spherePoint u1 u2)))) := by
      intro u3
      rw [hupd _ i u1 u2 u3 (withSpins_wf w v) i.2 h2.1 h2.2, replace_withSpins]
      rfl
    refine (lintegral_congr hu).trans ?_
    exact mean_decision hb _ _ _ _ _ (ih _) (ih _)

theorem boltzmann_stationary
    (hupd : ∀ (c : SpinChain ℝ) (i : ℕ) (u1 u2 u : ℝ), WF c L s → i < L → 0 ≤ u2 → u2 < 1 →
      upd c ⟨i, u1, u2, u⟩ = .ok (metropolis c.vars.beta
        (E (replace c i (spherePoint u1 u2)) - E c) u c (replace c i (spherePoint u1 u2))))
    (w : WF c L s) (hL : 1 ≤ L) (hb : 0 ≤ c.vars.beta) (hE : Measurable fun v : Fin L → V3 ℝ => E (withSpins c v))
    {f : SpinChain ℝ → ℝ≥0∞} (hf : Observable c L f) (n : ℕ) :
    boltzmannSum c L E (expect upd L f n) = boltzmannSum c L E f := by
  unfold boltzmannSum
  simp only [expect_eq hupd w hb hE hf n]
  exact stationary_iter hL hE hf n

theorem boltzmann_converges
    (hupd : ∀ (c : SpinChain ℝ) (i : ℕ) (u1 u2 u : ℝ), WF c L s → i < L → 0 ≤ u2 → u2 < 1 →
      upd c ⟨i, u1, u2, u⟩ = .ok (metropolis c.vars.beta
        (E (replace c i (spherePoint u1 u2)) - E c) u c (replace c i (spherePoint u1 u2))))
    (w : WF c L s) (hL : 1 ≤ L) (hb : 0 ≤ c.vars.beta) (hE : Measurable fun v : Fin L → V3 ℝ => E (withSpins c v))
    {D : ℝ} (hD : ∀ v : Fin L → V3 ℝ, Good Sph v → |E (withSpins c v)| ≤ D) :
    ∃ ε : ℝ, 0 < ε ∧ ε ≤ 1 ∧ ∀ f : SpinChain ℝ → ℝ≥0∞, Observable c L f → (∀ c, f c ≤ 1) →
      ∀ v : Fin L → V3 ℝ, Good Sph v → ∀ n : ℕ,
      |(expect upd L f n (withSpins c v)).toReal - (boltzmannMean c L E f).toReal| ≤ (1 - ε) ^ (n / L) := by
  obtain ⟨ε, h0, h1, h⟩ := converges hL sphere_ae hE hb hD
  refine ⟨ε, h0, h1, fun f hf hf1 v hv n => ?_⟩
  rw [expect_eq hupd w hb hE hf n]
  have := h _ hf (fun v _ => hf1 _) v hv n
  unfold boltzmannMean boltzmannSum
  simp only [mul_one]
  exact this

/-! ### Functions of the spins that are measurable and bounded on unit spins -/

/-- measurable, and bounded on unit spins -/
structure Tame (g : (Fin L → V3 ℝ) → ℝ) : Prop where
  meas : Measurable g
  bound : ∃ D, ∀ v, Good Sph v → |g v| ≤ D

theorem Tame.const (k : ℝ) : Tame fun _ : Fin L → V3 ℝ => k := ⟨measurable_const, |k|, fun _ _ => le_rfl⟩

variable {g h : (Fin L → V3 ℝ) → ℝ}

theorem Tame.add (hg : Tame g) (hh : Tame h) : Tame fun v => g v + h v := by
  obtain ⟨m1, D1, b1⟩ := hg
  obtain ⟨m2, D2, b2⟩ := hh
  exact ⟨m1.add m2, D1 + D2, fun v hv => (abs_add_le _ _).trans (add_le_add (b1 v hv) (b2 v hv))⟩

theorem Tame.mul (hg : Tame g) (hh : Tame h) : Tame fun v => g v * h v := by
  obtain ⟨m1, D1, b1⟩ := hg
  obtain ⟨m2, D2, b2⟩ := hh
  refine ⟨m1.mul m2, D1 * D2, fun v hv => ?_⟩
  rw [abs_mul]
  exact mul_le_mul (b1 v hv) (b2 v hv) (abs_nonneg _) ((abs_nonneg _).trans (b1 v hv))

theorem Tame.neg (hg : Tame g) : Tame fun v => -g v := by
  obtain ⟨m1, D1, b1⟩ := hg
  exact ⟨m1.neg, D1, fun v hv => by rw [abs_neg]; exact b1 v hv⟩

theorem Tame.sub (hg : Tame g) (hh : Tame h) : Tame fun v => g v - h v := by
  have := hg.add hh.neg
  simpa only [← sub_eq_add_neg] using this

theorem Tame.div (hg : Tame g) (k : ℝ) : Tame fun v => g v / k := by
  have := hg.mul (Tame.const k⁻¹)
  simpa only [← div_eq_mul_inv] using this

theorem Tame.sq (hg : Tame g) : Tame fun v => g v ^ 2 := by
  have := hg.mul hg
  simpa only [← _root_.sq] using this

theorem Tame.sum {n : ℕ} {g : ℕ → (Fin L → V3 ℝ) → ℝ} (hg : ∀ i, Tame (g i)) :
    Tame fun v => ∑ i ∈ range n, g i v := by
  induction n with
  | zero => simpa using Tame.const 0
  | succ n ih =>
    have := ih.add (hg n)
    simpa only [sum_range_succ] using this

theorem comp_le (a : V3 ℝ) : |a.x| ≤ len a ∧ |a.y| ≤ len a ∧ |a.z| ≤ len a := by
  refine ⟨?_, ?_, ?_⟩ <;> unfold len dot <;>
    exact Real.abs_le_sqrt (by nlinarith [mul_self_nonneg a.x, mul_self_nonneg a.y, mul_self_nonneg a.z])

theorem tame_S (c : SpinChain ℝ) (i : ℕ) :
    Tame (fun v : Fin L → V3 ℝ => (S (withSpins c v) i).x) ∧
    Tame (fun v : Fin L → V3 ℝ => (S (withSpins c v) i).y) ∧
    Tame (fun v : Fin L → V3 ℝ => (S (withSpins c v) i).z) := by
  simp only [S_withSpins]
  by_cases hi : i < L
  · simp only [hi, dite_true]
    refine ⟨⟨measurable_x.comp (measurable_pi_apply _), 1, fun v hv => ?_⟩,
      ⟨measurable_y.comp (measurable_pi_apply _), 1, fun v hv => ?_⟩,
      ⟨measurable_z.comp (measurable_pi_apply _), 1, fun v hv => ?_⟩⟩ <;>
    have h1 : len (v ⟨i, hi⟩) = 1 := hv _
    · exact h1 ▸ (comp_le (v ⟨i, hi⟩)).1
    · exact h1 ▸ (comp_le (v ⟨i, hi⟩)).2.1
    · exact h1 ▸ (comp_le (v ⟨i, hi⟩)).2.2
  · simp only [hi, dite_false, zero]
    exact ⟨Tame.const 0, Tame.const 0, Tame.const 0⟩

theorem tame_ring (c : SpinChain ℝ) (J B : ℕ → V3 ℝ) (n : ℕ) :
    Tame fun v : Fin L → V3 ℝ => ringEnergy n (S (withSpins c v)) J B := by
  unfold ringEnergy dot had
  refine Tame.sum fun i => ?_
  obtain ⟨a1, a2, a3⟩ := tame_S (L := L) c i
  obtain ⟨b1, b2, b3⟩ := tame_S (L := L) c ((i + 1) % n)
  have k := fun r => Tame.const (L := L) r
  exact (((a1.mul ((k _).mul b1)).add (a2.mul ((k _).mul b2))).add (a3.mul ((k _).mul b3))).neg.add
    ((((k _).mul a1).add ((k _).mul a2)).add ((k _).mul a3))

theorem tame_corr (c : SpinChain ℝ) (J : ℕ → V3 ℝ) (n : ℕ) (kb kt : ℝ) :
    Tame fun v : Fin L → V3 ℝ => corr n kb kt (S (withSpins c v)) J := by
  unfold corr bondCorr tripCorr
  have k := fun r => Tame.const (L := L) r
  refine ((k kb).mul (Tame.sum fun i => ?_)).add ((k kt).mul (Tame.sum fun i => ?_))
  · obtain ⟨a1, a2, a3⟩ := tame_S (L := L) c i
    obtain ⟨b1, b2, b3⟩ := tame_S (L := L) c (right n i)
    exact (k _).mul ((b3.mul (a1.sq.add a2.sq)).add (a3.mul (b1.sq.add b2.sq)))
  · obtain ⟨a1, a2, a3⟩ := tame_S (L := L) c i
    obtain ⟨b1, b2, b3⟩ := tame_S (L := L) c (right n i)
    obtain ⟨d1, d2, d3⟩ := tame_S (L := L) c (left n i)
    exact ((k _).mul a3).mul ((d1.mul b1).add (d2.mul b2))

theorem tame_maglab (c : SpinChain ℝ) (J : ℕ → V3 ℝ) (n : ℕ) (om kb kt : ℝ) :
    Tame fun v : Fin L → V3 ℝ => maglabE n om kb kt (S (withSpins c v)) J :=
  (tame_ring c _ _ n).sub ((tame_corr c J n kb kt).div _)

theorem tame_rot (c : SpinChain ℝ) (J : ℕ → V3 ℝ) (n s : ℕ) (om kb kt : ℝ) :
    Tame fun v : Fin L → V3 ℝ => rotE n s om kb kt (S (withSpins c v)) J :=
  (tame_ring c _ _ n).sub ((tame_corr c J n kb kt).div _)

end Verif
