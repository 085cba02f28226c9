/-
Helper lemmas: a Markov chain whose law after `N` steps, from every good start, contains a fixed part of a
fixed distribution, has one stationary distribution and converges to it geometrically (Doeblin).
-/
import Verif.Lemmas.Ergodic
import Mathlib.MeasureTheory.Integral.Layercake

namespace Verif.Doeblin

set_option linter.unusedSectionVars false

open MeasureTheory Finset Function
open scoped ENNReal

section
variable {Y D : Type} [MeasurableSpace Y] [MeasurableSpace D]

/-- mean after one step -/
noncomputable def T (ν : Measure D) (step : Y → D → Y) (f : Y → ℝ≥0∞) (y : Y) : ℝ≥0∞ := ∫⁻ d, f (step y d) ∂ν

variable {ν : Measure D} [IsProbabilityMeasure ν] {step : Y → D → Y}
  (hstep : Measurable fun p : Y × D => step p.1 p.2)

include hstep

theorem meas_T {f : Y → ℝ≥0∞} (hf : Measurable f) : Measurable (T ν step f) := by
  have h : Measurable fun p : Y × D => f (step p.1 p.2) := hf.comp hstep
  exact h.lintegral_prod_right'

theorem meas_iter {f : Y → ℝ≥0∞} (hf : Measurable f) (n : ℕ) : Measurable ((T ν step)^[n] f) := by
  induction n with
  | zero => exact hf
  | succ n ih => rw [iterate_succ_apply']; exact meas_T hstep ih

theorem T_add {f : Y → ℝ≥0∞} (hf : Measurable f) (g : Y → ℝ≥0∞) :
    T ν step (f + g) = T ν step f + T ν step g := by
  funext y
  exact lintegral_add_left (hf.comp (Ergodic.meas_step hstep y)) _

theorem iter_add {f : Y → ℝ≥0∞} (hf : Measurable f) (g : Y → ℝ≥0∞) (n : ℕ) :
    (T ν step)^[n] (f + g) = (T ν step)^[n] f + (T ν step)^[n] g := by
  induction n with
  | zero => rfl
  | succ n ih =>
    simp only [iterate_succ_apply']
    rw [ih, T_add hstep (meas_iter hstep hf n)]

omit hstep in
theorem iter_const (k : ℝ≥0∞) (n : ℕ) : (T ν step)^[n] (fun _ => k) = fun _ => k := by
  induction n with
  | zero => rfl
  | succ n ih =>
    rw [iterate_succ_apply', ih]
    funext y
    simp [T]

omit hstep in
theorem iter_mono {G : Set Y} (hG : ∀ᵐ d ∂ν, ∀ y ∈ G, step y d ∈ G) {f g : Y → ℝ≥0∞}
    (h : ∀ y ∈ G, f y ≤ g y) (n : ℕ) : ∀ y ∈ G, (T ν step)^[n] f y ≤ (T ν step)^[n] g y := by
  induction n with
  | zero => exact h
  | succ n ih =>
    simp only [iterate_succ_apply']
    intro y hy
    exact lintegral_mono_ae (hG.mono fun d hd => ih _ (hd y hy))

omit hstep in
theorem iter_congr {G : Set Y} (hG : ∀ᵐ d ∂ν, ∀ y ∈ G, step y d ∈ G) {f g : Y → ℝ≥0∞}
    (h : ∀ y ∈ G, f y = g y) (n : ℕ) (y : Y) (hy : y ∈ G) : (T ν step)^[n] f y = (T ν step)^[n] g y :=
  le_antisymm (iter_mono hG (fun y hy => (h y hy).le) n y hy) (iter_mono hG (fun y hy => (h y hy).ge) n y hy)

variable {G : Set Y} (hG : ∀ᵐ d ∂ν, ∀ y ∈ G, step y d ∈ G) {μ : Measure Y} [IsProbabilityMeasure μ]
  (hμ : ∀ᵐ y ∂μ, y ∈ G) {ε : ℝ} (hε : 0 ≤ ε) (hε1 : ε ≤ 1) {N : ℕ}
  (hmin : ∀ f : Y → ℝ≥0∞, Measurable f → ∀ y ∈ G, ENNReal.ofReal ε * ∫⁻ u, f u ∂μ ≤ (T ν step)^[N] f y)

include hG hμ hε hε1 hmin

/-- `N` steps shrink the range of a function by a fixed factor -/
theorem contract {f : Y → ℝ≥0∞} (hf : Measurable f) {a b : ℝ} (ha : 0 ≤ a) (hab : a ≤ b)
    (h : ∀ y ∈ G, ENNReal.ofReal a ≤ f y ∧ f y ≤ ENNReal.ofReal b) :
    ∃ a' b' : ℝ, 0 ≤ a' ∧ a' ≤ b' ∧ b' - a' = (1 - ε) * (b - a) ∧
      ∀ y ∈ G, ENNReal.ofReal a' ≤ (T ν step)^[N] f y ∧ (T ν step)^[N] f y ≤ ENNReal.ofReal b' := by
  have hg : Measurable fun y => f y - ENNReal.ofReal a := hf.sub measurable_const
  have hh : Measurable fun y => ENNReal.ofReal b - f y := measurable_const.sub hf
  have hν1 : ∫⁻ y, f y ∂μ = ∫⁻ y, (f y - ENNReal.ofReal a) ∂μ + ENNReal.ofReal a := by
    have : ∫⁻ y, f y ∂μ = ∫⁻ y, ((f y - ENNReal.ofReal a) + ENNReal.ofReal a) ∂μ :=
      lintegral_congr_ae (hμ.mono fun y hy => (tsub_add_cancel_of_le (h y hy).1).symm)
    rw [this, lintegral_add_left hg, lintegral_const, measure_univ, mul_one]
  have hν2 : ∫⁻ y, f y ∂μ + ∫⁻ y, (ENNReal.ofReal b - f y) ∂μ = ENNReal.ofReal b := by
    rw [← lintegral_add_left hf]
    have : ∫⁻ y, (f y + (ENNReal.ofReal b - f y)) ∂μ = ∫⁻ _, ENNReal.ofReal b ∂μ :=
      lintegral_congr_ae (hμ.mono fun y hy => add_tsub_cancel_of_le (h y hy).2)
    rw [this, lintegral_const, measure_univ, mul_one]
  have h1g := hmin _ hg
  have h1h := hmin _ hh
  set F := ∫⁻ y, f y ∂μ with hF
  set A := ∫⁻ y, (f y - ENNReal.ofReal a) ∂μ with hA
  set H := ∫⁻ y, (ENNReal.ofReal b - f y) ∂μ with hH
  have hFb : F ≤ ENNReal.ofReal b := by rw [← hν2]; exact le_self_add
  have hFt : F ≠ ⊤ := ne_top_of_le_ne_top ENNReal.ofReal_ne_top hFb
  obtain ⟨m, hm0, hm⟩ : ∃ m : ℝ, 0 ≤ m ∧ F = ENNReal.ofReal m :=
    ⟨F.toReal, ENNReal.toReal_nonneg, (ENNReal.ofReal_toReal hFt).symm⟩
  have hb0 : 0 ≤ b := ha.trans hab
  have hmb : m ≤ b := (ENNReal.ofReal_le_ofReal_iff hb0).1 (hm ▸ hFb)
  have ham : a ≤ m := by
    apply (ENNReal.ofReal_le_ofReal_iff hm0).1
    rw [← hm, hν1]
    exact le_add_self
  have hAe : A = ENNReal.ofReal (m - a) := by
    rw [ENNReal.ofReal_sub _ ha, ← hm, hν1, ENNReal.add_sub_cancel_right ENNReal.ofReal_ne_top]
  have hHe : H = ENNReal.ofReal (b - m) := by
    rw [ENNReal.ofReal_sub _ hm0, ← hν2, ← hm, ENNReal.add_sub_cancel_left hFt]
  have e1 : 0 ≤ ε * (m - a) := mul_nonneg hε (by linarith)
  have e2 : 0 ≤ ε * (b - m) := mul_nonneg hε (by linarith)
  refine ⟨a + ε * (m - a), b - ε * (b - m), by linarith, ?_, by ring, fun y hy => ⟨?_, ?_⟩⟩
  · have : 0 ≤ (1 - ε) * (b - a) := mul_nonneg (by linarith) (by linarith)
    linarith
  · have h1 : (T ν step)^[N] f y = (T ν step)^[N] (fun y => f y - ENNReal.ofReal a) y + ENNReal.ofReal a := by
      rw [iter_congr hG (g := (fun y => f y - ENNReal.ofReal a) + fun _ => ENNReal.ofReal a)
        (fun y hy => (tsub_add_cancel_of_le (h y hy).1).symm) N y hy, iter_add hstep hg, Pi.add_apply,
        iter_const]
    have h2 := h1g y hy
    rw [h1, add_comm a, ENNReal.ofReal_add e1 ha, ENNReal.ofReal_mul hε, ← hAe]
    gcongr
  · have h1 : (T ν step)^[N] f y + (T ν step)^[N] (fun y => ENNReal.ofReal b - f y) y = ENNReal.ofReal b := by
      have := iter_congr (ν := ν) (step := step) hG (f := f + fun y => ENNReal.ofReal b - f y)
        (g := fun _ => ENNReal.ofReal b)
        (fun y hy => add_tsub_cancel_of_le (h y hy).2) N y hy
      rwa [iter_add hstep hf, Pi.add_apply, iter_const] at this
    have h2 := h1h y hy
    rw [ENNReal.ofReal_sub _ e2]
    refine ENNReal.le_sub_of_add_le_right ENNReal.ofReal_ne_top ?_
    rw [ENNReal.ofReal_mul hε, ← hHe, ← h1]
    gcongr

/-- geometric convergence of the range -/
theorem ranges {f : Y → ℝ≥0∞} (hf : Measurable f) (hf1 : ∀ y ∈ G, f y ≤ 1) (q r : ℕ) :
    ∃ a b : ℝ, 0 ≤ a ∧ a ≤ b ∧ b - a = (1 - ε) ^ q ∧ ∀ y ∈ G,
      ENNReal.ofReal a ≤ (T ν step)^[q * N + r] f y ∧ (T ν step)^[q * N + r] f y ≤ ENNReal.ofReal b := by
  induction q with
  | zero =>
    refine ⟨0, 1, le_rfl, zero_le_one, by simp, fun y hy => ⟨by simp, ?_⟩⟩
    rw [zero_mul, zero_add, ENNReal.ofReal_one]
    have := iter_mono (ν := ν) hG (f := f) (g := fun _ => 1) hf1 r y hy
    rwa [iter_const] at this
  | succ q ih =>
    obtain ⟨a, b, h1, h2, h3, h4⟩ := ih
    obtain ⟨a', b', k1, k2, k3, k4⟩ := contract hstep hG hμ hε hε1 hmin (meas_iter hstep hf (q * N + r)) h1 h2 h4
    refine ⟨a', b', k1, k2, by rw [k3, h3, pow_succ]; ring, ?_⟩
    rw [show (q + 1) * N + r = N + (q * N + r) by ring, iterate_add_apply]
    exact k4

/-- means after `n` steps from any start and after at least `n` steps from any other start are close -/
theorem close {f : Y → ℝ≥0∞} (hf : Measurable f) (hf1 : ∀ y ∈ G, f y ≤ 1) (n k : ℕ) {y z : Y} (hy : y ∈ G)
    (hz : z ∈ G) :
    (T ν step)^[n] f y ≤ (T ν step)^[n + k] f z + ENNReal.ofReal ((1 - ε) ^ (n / N)) ∧
    (T ν step)^[n + k] f z ≤ (T ν step)^[n] f y + ENNReal.ofReal ((1 - ε) ^ (n / N)) := by
  obtain ⟨a, b, h1, h2, h3, h4⟩ := ranges hstep hG hμ hε hε1 hmin hf hf1 (n / N) (n % N)
  rw [Nat.mul_comm, Nat.div_add_mod] at h4
  have hk : ENNReal.ofReal a ≤ (T ν step)^[n + k] f z ∧ (T ν step)^[n + k] f z ≤ ENNReal.ofReal b := by
    rw [Nat.add_comm, iterate_add_apply]
    have m1 := iter_mono (ν := ν) hG (f := fun _ => ENNReal.ofReal a) (fun y hy => (h4 y hy).1) k z hz
    have m2 := iter_mono (ν := ν) hG (g := fun _ => ENNReal.ofReal b) (fun y hy => (h4 y hy).2) k z hz
    rw [iter_const] at m1 m2
    exact ⟨m1, m2⟩
  have hb : ENNReal.ofReal b = ENNReal.ofReal a + ENNReal.ofReal ((1 - ε) ^ (n / N)) := by
    rw [← h3, ← ENNReal.ofReal_add h1 (by linarith)]
    congr 1
    ring
  constructor
  · exact (h4 y hy).2.trans (hb ▸ add_le_add_left hk.1 _)
  · exact hk.2.trans (hb ▸ add_le_add_left (h4 y hy).1 _)

end

/-! ### Limits of measures -/

section
variable {Y : Type} [MeasurableSpace Y]

/-- measures that converge uniformly on all measurable sets have a limit that is a measure -/
theorem limit_measure {l : ℕ → Measure Y} {r : ℕ → ℝ≥0∞} (hr : Filter.Tendsto r Filter.atTop (nhds 0))
    (h : ∀ n k A, MeasurableSet A → l n A ≤ l (n + k) A + r n ∧ l (n + k) A ≤ l n A + r n) :
    ∃ π : Measure Y, ∀ A, MeasurableSet A → ∀ n, l n A ≤ π A + r n ∧ π A ≤ l n A + r n := by
  -- the limit of each set
  let p : Set Y → ℝ≥0∞ := fun A => Filter.limsup (fun n => l n A) Filter.atTop
  have hp : ∀ A, MeasurableSet A → ∀ n, l n A ≤ p A + r n ∧ p A ≤ l n A + r n := by
    intro A hA n
    constructor
    · refine tsub_le_iff_right.1 ?_
      refine Filter.le_limsup_of_frequently_le (Filter.Eventually.frequently ?_)
      refine (Filter.eventually_ge_atTop n).mono fun m hm => ?_
      obtain ⟨k, rfl⟩ := Nat.exists_eq_add_of_le hm
      exact tsub_le_iff_right.2 (h n k A hA).1
    · refine Filter.limsup_le_of_le (by isBoundedDefault) ?_
      refine (Filter.eventually_ge_atTop n).mono fun m hm => ?_
      obtain ⟨k, rfl⟩ := Nat.exists_eq_add_of_le hm
      exact (h n k A hA).2
  have le_of : ∀ {a b : ℝ≥0∞}, (∀ n, a ≤ b + r n) → a ≤ b := by
    intro a b hab
    have : Filter.Tendsto (fun n => b + r n) Filter.atTop (nhds b) := by
      simpa using tendsto_const_nhds.add hr
    exact ge_of_tendsto' this hab
  have hr2 : Filter.Tendsto (fun n => r n + r n) Filter.atTop (nhds 0) := by simpa using hr.add hr
  have le_of2 : ∀ {a b : ℝ≥0∞}, (∀ n, a ≤ b + (r n + r n)) → a ≤ b := by
    intro a b hab
    have : Filter.Tendsto (fun n => b + (r n + r n)) Filter.atTop (nhds b) := by
      simpa using tendsto_const_nhds.add hr2
    exact ge_of_tendsto' this hab
  have hmono : ∀ A B, MeasurableSet A → MeasurableSet B → A ⊆ B → p A ≤ p B := by
    intro A B hA hB hAB
    refine le_of2 fun n => ?_
    calc p A ≤ l n A + r n := (hp A hA n).2
      _ ≤ l n B + r n := by gcongr
      _ ≤ p B + r n + r n := by gcongr; exact (hp B hB n).1
      _ = _ := add_assoc _ _ _
  have h0 : p ∅ = 0 := by
    refine le_antisymm (le_of fun n => ?_) zero_le
    have := (hp ∅ MeasurableSet.empty n).2
    rwa [measure_empty] at this
  have hadd : ∀ A B, MeasurableSet A → MeasurableSet B → Disjoint A B → p (A ∪ B) = p A + p B := by
    intro A B hA hB hd
    have hr3 : Filter.Tendsto (fun n => r n + r n + r n) Filter.atTop (nhds 0) := by simpa using hr2.add hr
    have le_of3 : ∀ {a b : ℝ≥0∞}, (∀ n, a ≤ b + (r n + r n + r n)) → a ≤ b := by
      intro a b hab
      have : Filter.Tendsto (fun n => b + (r n + r n + r n)) Filter.atTop (nhds b) := by
        simpa using tendsto_const_nhds.add hr3
      exact ge_of_tendsto' this hab
    refine le_antisymm (le_of3 fun n => ?_) (le_of3 fun n => ?_)
    · calc p (A ∪ B) ≤ l n (A ∪ B) + r n := (hp _ (hA.union hB) n).2
        _ = l n A + l n B + r n := by rw [measure_union hd hB]
        _ ≤ (p A + r n) + (p B + r n) + r n := by
            gcongr
            · exact (hp A hA n).1
            · exact (hp B hB n).1
        _ = _ := by ring
    · calc p A + p B ≤ (l n A + r n) + (l n B + r n) := add_le_add (hp A hA n).2 (hp B hB n).2
        _ = l n (A ∪ B) + (r n + r n) := by rw [measure_union hd hB]; ring
        _ ≤ p (A ∪ B) + r n + (r n + r n) := by gcongr; exact (hp _ (hA.union hB) n).1
        _ = _ := by ring
  have hfin : ∀ (A : ℕ → Set Y), (∀ i, MeasurableSet (A i)) → Pairwise (Disjoint on A) → ∀ k,
      p (⋃ i ∈ range k, A i) = ∑ i ∈ range k, p (A i) := by
    intro A hA hd k
    induction k with
    | zero => simp [h0]
    | succ k ih =>
      have e : (⋃ i ∈ range (k + 1), A i) = (⋃ i ∈ range k, A i) ∪ A k := by
        ext y
        simp only [Set.mem_iUnion, mem_range, Set.mem_union, exists_prop]
        constructor
        · rintro ⟨i, hi, hy⟩
          rcases Nat.lt_succ_iff_lt_or_eq.1 hi with h | rfl
          · exact Or.inl ⟨i, h, hy⟩
          · exact Or.inr hy
        · rintro (⟨i, hi, hy⟩ | hy)
          · exact ⟨i, by omega, hy⟩
          · exact ⟨k, by omega, hy⟩
      rw [e, hadd _ _ (Finset.measurableSet_biUnion _ fun i _ => hA i) (hA k) ?_, ih, sum_range_succ]
      rw [Set.disjoint_iUnion₂_left]
      intro i hi
      exact hd (by have := mem_range.1 hi; omega)
  have hU : ∀ (A : ℕ → Set Y), (∀ i, MeasurableSet (A i)) → Pairwise (Disjoint on A) →
      p (⋃ i, A i) = ∑' i, p (A i) := by
    intro A hA hd
    have hm : MeasurableSet (⋃ i, A i) := MeasurableSet.iUnion hA
    refine le_antisymm ?_ ?_
    · refine le_of2 fun n => ?_
      have h1 : l n (⋃ i, A i) ≤ ∑' i, p (A i) + r n := by
        rw [measure_iUnion hd hA, ENNReal.tsum_eq_iSup_nat]
        refine iSup_le fun k => ?_
        have h2 : ∑ i ∈ range k, l n (A i) = l n (⋃ i ∈ range k, A i) := by
          rw [measure_biUnion_finset (fun i _ j _ hij => hd hij) fun i _ => hA i]
        rw [h2]
        refine (hp _ (Finset.measurableSet_biUnion _ fun i _ => hA i) n).1.trans ?_
        gcongr
        rw [hfin A hA hd]
        exact ENNReal.sum_le_tsum _
      calc p (⋃ i, A i) ≤ l n (⋃ i, A i) + r n := (hp _ hm n).2
        _ ≤ ∑' i, p (A i) + r n + r n := by gcongr
        _ = _ := add_assoc _ _ _
    · rw [ENNReal.tsum_eq_iSup_nat]
      refine iSup_le fun k => ?_
      rw [← hfin A hA hd]
      refine hmono _ _ (Finset.measurableSet_biUnion _ fun i _ => hA i) hm ?_
      exact Set.iUnion₂_subset fun i _ => Set.subset_iUnion A i
  refine ⟨Measure.ofMeasurable (fun A _ => p A) h0 fun A hA hd => hU A hA hd, fun A hA n => ?_⟩
  rw [Measure.ofMeasurable_apply A hA]
  exact hp A hA n

/-- uniform distance of two measures bounds the distance of the means of functions with values in `[0, 1]` -/
theorem integral_close {l π : Measure Y} {r : ℝ≥0∞} (h : ∀ A, MeasurableSet A → l A ≤ π A + r) {f : Y → ℝ≥0∞}
    (hf : Measurable f) (hf1 : ∀ y, f y ≤ 1) : ∫⁻ y, f y ∂l ≤ ∫⁻ y, f y ∂π + r := by
  have ht : ∀ y, f y ≠ ⊤ := fun y => ne_top_of_le_ne_top ENNReal.one_ne_top (hf1 y)
  have hm : Measurable fun y => (f y).toReal := hf.ennreal_toReal
  have e : ∀ ρ : Measure Y, ∫⁻ y, f y ∂ρ = ∫⁻ t in Set.Ioi (0 : ℝ), ρ {y | t < (f y).toReal} := by
    intro ρ
    rw [← lintegral_eq_lintegral_meas_lt ρ (Filter.Eventually.of_forall fun y => ENNReal.toReal_nonneg)
      hm.aemeasurable]
    exact lintegral_congr fun y => (ENNReal.ofReal_toReal (ht y)).symm
  rw [e l, e π]
  have hle : ∀ t : ℝ, l {y | t < (f y).toReal} ≤ π {y | t < (f y).toReal} + (Set.Iio 1).indicator (fun _ => r) t := by
    intro t
    by_cases h1 : t < 1
    · rw [Set.indicator_of_mem (Set.mem_Iio.2 h1)]
      exact h _ (measurableSet_lt measurable_const hm)
    · have : {y | t < (f y).toReal} = ∅ := by
        ext y
        simp only [Set.mem_ofPred_eq, Set.mem_empty_iff_false, iff_false, not_lt]
        have : (f y).toReal ≤ 1 := ENNReal.toReal_le_of_le_ofReal zero_le_one (by simpa using hf1 y)
        linarith
      rw [this]
      simp
  refine (lintegral_mono hle).trans ?_
  have hi : Measurable ((Set.Iio (1 : ℝ)).indicator fun _ => r) := measurable_const.indicator measurableSet_Iio
  rw [lintegral_add_right _ hi, lintegral_indicator_const measurableSet_Iio, Measure.restrict_apply measurableSet_Iio]
  have : Set.Iio (1 : ℝ) ∩ Set.Ioi 0 = Set.Ioo 0 1 := by
    ext x
    simp [and_comm]
  rw [this]
  simp

end

/-! ### The stationary distribution -/

section
variable {Y D : Type} [MeasurableSpace Y] [MeasurableSpace D] {ν : Measure D} [IsProbabilityMeasure ν]
  {step : Y → D → Y} (hstep : Measurable fun p : Y × D => step p.1 p.2)

include hstep

theorem lintegral_run (n : ℕ) {h : Y → ℝ≥0∞} (hh : Measurable h) (y : Y) :
    ∫⁻ w, h (Ergodic.run step n y w) ∂(Measure.pi fun _ => ν) = (T ν step)^[n] h y := by
  induction n generalizing y with
  | zero => simp [Ergodic.run]
  | succ n ih =>
    have hm : Measurable fun w : Fin (n + 1) → D => h (Ergodic.run step (n + 1) y w) :=
      hh.comp ((Ergodic.meas_run hstep (n + 1)).comp (measurable_const.prodMk measurable_id))
    rw [lintegral_cons _ n hm, iterate_succ_apply']
    refine lintegral_congr fun d => ?_
    rw [← ih]
    rfl

/-- the distribution after `n` steps -/
noncomputable def law (ν : Measure D) (step : Y → D → Y) (y : Y) (n : ℕ) : Measure Y :=
  Measure.map (Ergodic.run step n y) (Measure.pi fun _ : Fin n => ν)

theorem lintegral_law (n : ℕ) {h : Y → ℝ≥0∞} (hh : Measurable h) (y : Y) :
    ∫⁻ z, h z ∂(law ν step y n) = (T ν step)^[n] h y := by
  unfold law
  have hm : Measurable (Ergodic.run step n y) :=
    (Ergodic.meas_run hstep n).comp (measurable_const.prodMk measurable_id)
  rw [lintegral_map hh hm]
  exact lintegral_run hstep n hh y

theorem law_apply (n : ℕ) {A : Set Y} (hA : MeasurableSet A) (y : Y) :
    law ν step y n A = (T ν step)^[n] (A.indicator fun _ => 1) y := by
  rw [← lintegral_law hstep n (measurable_const.indicator hA), lintegral_indicator_const hA, one_mul]

variable {G : Set Y} (mG : MeasurableSet G) (hG : ∀ᵐ d ∂ν, ∀ y ∈ G, step y d ∈ G) {μ : Measure Y}
  [IsProbabilityMeasure μ] (hμ : ∀ᵐ y ∂μ, y ∈ G) {ε : ℝ} (hε : 0 < ε) (hε1 : ε ≤ 1) {N : ℕ} (hN : 1 ≤ N)
  (hmin : ∀ f : Y → ℝ≥0∞, Measurable f → ∀ y ∈ G, ENNReal.ofReal ε * ∫⁻ u, f u ∂μ ≤ (T ν step)^[N] f y)

omit hstep in
theorem rate_tendsto (hε : 0 < ε) (hε1 : ε ≤ 1) (hN : 1 ≤ N) :
    Filter.Tendsto (fun n => ENNReal.ofReal ((1 - ε) ^ (n / N))) Filter.atTop (nhds 0) := by
  rw [← ENNReal.ofReal_zero]
  refine (ENNReal.continuous_ofReal.tendsto 0).comp ?_
  have h1 : Filter.Tendsto (fun q : ℕ => (1 - ε) ^ q) Filter.atTop (nhds 0) :=
    tendsto_pow_atTop_nhds_zero_of_lt_one (by linarith) (by linarith)
  exact h1.comp (Nat.tendsto_div_const_atTop (by omega))

include mG hG hμ hε hε1 hN hmin

/-- there is a stationary distribution, and the chain converges to it -/
theorem exists_stationary : ∃ π : Measure Y, IsProbabilityMeasure π ∧ (∀ᵐ y ∂π, y ∈ G) ∧
    (∀ f : Y → ℝ≥0∞, Measurable f → ∫⁻ y, T ν step f y ∂π = ∫⁻ y, f y ∂π) ∧
    (∀ f : Y → ℝ≥0∞, Measurable f → (∀ y, f y ≤ 1) → ∀ y ∈ G, ∀ n,
      (T ν step)^[n] f y ≤ ∫⁻ y, f y ∂π + ENNReal.ofReal ((1 - ε) ^ (n / N)) ∧
      ∫⁻ y, f y ∂π ≤ (T ν step)^[n] f y + ENNReal.ofReal ((1 - ε) ^ (n / N))) ∧
    ∀ A, MeasurableSet A → ENNReal.ofReal ε * μ A ≤ π A := by
  obtain ⟨y0, hy0⟩ := hμ.exists
  have hr := rate_tendsto hε hε1 hN
  have hind : ∀ A : Set Y, ∀ y ∈ G, A.indicator (fun _ => (1 : ℝ≥0∞)) y ≤ 1 := fun A y _ =>
    Set.indicator_le_self' (fun _ _ => zero_le) y
  have hcl : ∀ n k A, MeasurableSet A →
      law ν step y0 n A ≤ law ν step y0 (n + k) A + ENNReal.ofReal ((1 - ε) ^ (n / N)) ∧
      law ν step y0 (n + k) A ≤ law ν step y0 n A + ENNReal.ofReal ((1 - ε) ^ (n / N)) := by
    intro n k A hA
    rw [law_apply hstep _ hA, law_apply hstep _ hA]
    exact close hstep hG hμ hε.le hε1 hmin (measurable_const.indicator hA) (hind A) n k hy0 hy0
  obtain ⟨π, hπ⟩ := limit_measure hr hcl
  have le_of : ∀ {a b : ℝ≥0∞}, (∀ n, a ≤ b + ENNReal.ofReal ((1 - ε) ^ (n / N))) → a ≤ b := by
    intro a b hab
    have : Filter.Tendsto (fun n => b + ENNReal.ofReal ((1 - ε) ^ (n / N))) Filter.atTop (nhds b) := by
      simpa using tendsto_const_nhds.add hr
    exact ge_of_tendsto' this hab
  have le_of2 : ∀ {a b : ℝ≥0∞}, (∀ n, a ≤ b + (ENNReal.ofReal ((1 - ε) ^ (n / N))
      + ENNReal.ofReal ((1 - ε) ^ (n / N)))) → a ≤ b := by
    intro a b hab
    have : Filter.Tendsto (fun n => b + (ENNReal.ofReal ((1 - ε) ^ (n / N)) + ENNReal.ofReal ((1 - ε) ^ (n / N))))
        Filter.atTop (nhds b) := by
      simpa using tendsto_const_nhds.add (hr.add hr)
    exact ge_of_tendsto' this hab
  have hone : ∀ A, MeasurableSet A → (∀ y ∈ G, y ∈ A) → π A = 1 := by
    intro A hA hGA
    have hl : ∀ n, law ν step y0 n A = 1 := by
      intro n
      rw [law_apply hstep n hA, iter_congr hG (g := fun _ => 1) (fun y hy => Set.indicator_of_mem (hGA y hy) _) n y0 hy0,
        iter_const]
    refine le_antisymm (le_of fun n => ?_) (le_of fun n => ?_)
    · have := (hπ A hA n).2
      rwa [hl] at this
    · have := (hπ A hA n).1
      rwa [hl] at this
  have hprob : IsProbabilityMeasure π := ⟨hone _ MeasurableSet.univ fun _ _ => trivial⟩
  have hπG : ∀ᵐ y ∂π, y ∈ G := by
    rw [ae_iff]
    have h1 := hone G mG fun _ h => h
    have h2 := prob_compl_eq_zero_iff (μ := π) mG
    exact h2.2 h1
  -- the rate from `y0`, then from any start
  have hc0 : ∀ f : Y → ℝ≥0∞, Measurable f → (∀ y, f y ≤ 1) → ∀ n,
      (T ν step)^[n] f y0 ≤ ∫⁻ y, f y ∂π + ENNReal.ofReal ((1 - ε) ^ (n / N)) ∧
      ∫⁻ y, f y ∂π ≤ (T ν step)^[n] f y0 + ENNReal.ofReal ((1 - ε) ^ (n / N)) := by
    intro f hf hf1 n
    rw [← lintegral_law hstep n hf]
    exact ⟨integral_close (fun A hA => (hπ A hA n).1) hf hf1, integral_close (fun A hA => (hπ A hA n).2) hf hf1⟩
  have hlim : ∀ f : Y → ℝ≥0∞, Measurable f → (∀ y, f y ≤ 1) →
      Filter.Tendsto (fun n => (T ν step)^[n] f y0) Filter.atTop (nhds (∫⁻ y, f y ∂π)) := by
    intro f hf hf1
    have hI : ∫⁻ y, f y ∂π ≠ ⊤ := by
      refine ne_top_of_le_ne_top ENNReal.one_ne_top ((lintegral_mono hf1).trans ?_)
      simp
    have lo : Filter.Tendsto (fun n => ∫⁻ y, f y ∂π - ENNReal.ofReal ((1 - ε) ^ (n / N))) Filter.atTop
        (nhds (∫⁻ y, f y ∂π)) := by
      have := ENNReal.Tendsto.sub (tendsto_const_nhds (x := ∫⁻ y, f y ∂π) (f := Filter.atTop)) hr (Or.inl hI)
      simpa using this
    have hi : Filter.Tendsto (fun n => ∫⁻ y, f y ∂π + ENNReal.ofReal ((1 - ε) ^ (n / N))) Filter.atTop
        (nhds (∫⁻ y, f y ∂π)) := by
      simpa using (tendsto_const_nhds (x := ∫⁻ y, f y ∂π)).add hr
    exact tendsto_of_tendsto_of_tendsto_of_le_of_le lo hi
      (fun n => tsub_le_iff_right.2 (hc0 f hf hf1 n).2) fun n => (hc0 f hf hf1 n).1
  have hcy : ∀ f : Y → ℝ≥0∞, Measurable f → (∀ y, f y ≤ 1) → ∀ y ∈ G, ∀ n,
      (T ν step)^[n] f y ≤ ∫⁻ y, f y ∂π + ENNReal.ofReal ((1 - ε) ^ (n / N)) ∧
      ∫⁻ y, f y ∂π ≤ (T ν step)^[n] f y + ENNReal.ofReal ((1 - ε) ^ (n / N)) := by
    intro f hf hf1 y hy n
    have hc := fun k => close hstep hG hμ hε.le hε1 hmin hf (fun y _ => hf1 y) n k hy hy0
    have hl := (hlim f hf hf1).comp (Filter.tendsto_add_atTop_nat n)
    constructor
    · refine ge_of_tendsto' (hl.add tendsto_const_nhds) fun k => ?_
      have := (hc k).1
      rw [Nat.add_comm] at this
      exact this
    · refine le_of_tendsto' hl fun k => ?_
      have := (hc k).2
      rw [Nat.add_comm] at this
      exact this
  -- stationarity for functions with values in `[0, 1]`, then for all
  have hst1 : ∀ f : Y → ℝ≥0∞, Measurable f → (∀ y, f y ≤ 1) → ∫⁻ y, T ν step f y ∂π = ∫⁻ y, f y ∂π := by
    intro f hf hf1
    have hT1 : ∀ y, T ν step f y ≤ 1 := fun y => by
      refine (lintegral_mono fun d => hf1 (step y d)).trans ?_
      simp
    have l1 := hlim _ (meas_T (ν := ν) hstep hf) hT1
    have l2 := (hlim f hf hf1).comp (Filter.tendsto_add_atTop_nat 1)
    exact tendsto_nhds_unique l1 l2
  have hmap : Measure.map (fun p : Y × D => step p.1 p.2) (π.prod ν) = π := by
    ext A hA
    rw [Measure.map_apply hstep hA]
    have hi : Measurable (A.indicator fun _ => (1 : ℝ≥0∞)) := measurable_const.indicator hA
    have := hst1 _ hi fun y => Set.indicator_le_self' (fun _ _ => zero_le) y
    rw [lintegral_indicator_const hA, one_mul] at this
    rw [← this, Measure.prod_apply (hstep hA)]
    refine lintegral_congr fun y => ?_
    unfold T
    have e : ∀ d, A.indicator (fun _ => (1 : ℝ≥0∞)) (step y d) = (step y ⁻¹' A).indicator (fun _ => 1) d := fun d => rfl
    simp only [e]
    rw [lintegral_indicator_const (Ergodic.meas_step hstep y hA), one_mul]
    rfl
  refine ⟨π, hprob, hπG, fun f hf => ?_, hcy, fun A hA => ?_⟩
  · conv_rhs => rw [← hmap]
    have hc : Measurable fun p : Y × D => f (step p.1 p.2) := hf.comp hstep
    rw [lintegral_map hf hstep, lintegral_prod _ hc.aemeasurable]
    rfl
  · have hi : Measurable (A.indicator fun _ => (1 : ℝ≥0∞)) := measurable_const.indicator hA
    have h1 := hmin _ hi
    rw [lintegral_indicator_const hA, one_mul] at h1
    refine ge_of_tendsto (hlim _ hi fun y => Set.indicator_le_self' (fun _ _ => zero_le) y) ?_ |>.trans ?_
    · refine (Filter.eventually_ge_atTop N).mono fun n hn => ?_
      obtain ⟨k, rfl⟩ := Nat.exists_eq_add_of_le hn
      rw [Nat.add_comm, iterate_add_apply]
      have := iter_mono (ν := ν) hG (f := fun _ => ENNReal.ofReal ε * μ A) h1 k y0 hy0
      rwa [iter_const] at this
    · rw [lintegral_indicator_const hA, one_mul]

/-- a distribution of good states that one step does not change is the limit -/
theorem stationary_unique {π π' : Measure Y} [IsProbabilityMeasure π'] (hπ' : ∀ᵐ y ∂π', y ∈ G)
    (hst : ∀ f : Y → ℝ≥0∞, Measurable f → (∀ y, f y ≤ 1) → ∫⁻ y, T ν step f y ∂π' = ∫⁻ y, f y ∂π')
    (hc : ∀ f : Y → ℝ≥0∞, Measurable f → (∀ y, f y ≤ 1) → ∀ y ∈ G, ∀ n,
      (T ν step)^[n] f y ≤ ∫⁻ y, f y ∂π + ENNReal.ofReal ((1 - ε) ^ (n / N)) ∧
      ∫⁻ y, f y ∂π ≤ (T ν step)^[n] f y + ENNReal.ofReal ((1 - ε) ^ (n / N))) : π' = π := by
  have hr := rate_tendsto hε hε1 hN
  ext A hA
  have hi : Measurable (A.indicator fun _ => (1 : ℝ≥0∞)) := measurable_const.indicator hA
  have hi1 : ∀ y, A.indicator (fun _ => (1 : ℝ≥0∞)) y ≤ 1 := fun y => Set.indicator_le_self' (fun _ _ => zero_le) y
  have hA' : ∀ ρ : Measure Y, ρ A = ∫⁻ y, A.indicator (fun _ => (1 : ℝ≥0∞)) y ∂ρ := fun ρ => by
    rw [lintegral_indicator_const hA, one_mul]
  rw [hA', hA']
  set f := A.indicator (fun _ => (1 : ℝ≥0∞)) with hf
  have hle1 : ∀ n y, (T ν step)^[n] f y ≤ 1 := by
    intro n y
    have := iter_mono (ν := ν) (step := step) (G := Set.univ) (by simp) (f := f) (g := fun _ => 1) (fun y _ => hi1 y) n y trivial
    rwa [iter_const] at this
  have hn : ∀ n, ∫⁻ y, (T ν step)^[n] f y ∂π' = ∫⁻ y, f y ∂π' := by
    intro n
    induction n with
    | zero => rfl
    | succ n ih =>
      simp only [iterate_succ_apply']
      rw [hst _ (meas_iter hstep hi n) (hle1 n), ih]
  have le_of : ∀ {a b : ℝ≥0∞}, (∀ n, a ≤ b + ENNReal.ofReal ((1 - ε) ^ (n / N))) → a ≤ b := by
    intro a b hab
    have : Filter.Tendsto (fun n => b + ENNReal.ofReal ((1 - ε) ^ (n / N))) Filter.atTop (nhds b) := by
      simpa using tendsto_const_nhds.add hr
    exact ge_of_tendsto' this hab
  refine le_antisymm (le_of fun n => ?_) (le_of fun n => ?_)
  · rw [← hn n]
    refine (lintegral_mono_ae (hπ'.mono fun y hy => (hc f hi hi1 y hy n).1)).trans ?_
    rw [lintegral_const, measure_univ, mul_one]
  · rw [← hn n]
    have := lintegral_mono_ae (μ := π') (hπ'.mono fun y hy => (hc f hi hi1 y hy n).2)
    rw [lintegral_const, measure_univ, mul_one, lintegral_add_right _ measurable_const, lintegral_const, measure_univ,
      mul_one] at this
    exact this

end

/-! ### The error of an average -/

section
open Ergodic
variable {Y D : Type} [MeasurableSpace Y] [MeasurableSpace D] {ν : Measure D} [IsProbabilityMeasure ν]
  {step : Y → D → Y} (hstep : Measurable fun p : Y × D => step p.1 p.2)

include hstep

theorem Q_run (per : ℕ) {f : Y → ℝ} (hf : Measurable f) (h0 : ∀ y, 0 ≤ f y) (h1 : ∀ y, f y ≤ 1) (k : ℕ) (y : Y) :
    (Q (Measure.pi fun _ => ν) (run step per))^[k] f y
      = ((T ν step)^[per * k] (fun y => ENNReal.ofReal (f y)) y).toReal := by
  have hr := meas_run hstep per
  induction k generalizing y with
  | zero => simp [h0]
  | succ k ih =>
    rw [iterate_succ_apply', show per * (k + 1) = per + per * k by ring, iterate_add_apply,
      ← lintegral_run hstep per (meas_iter hstep hf.ennreal_ofReal _)]
    have hp := iter_props (ν := Measure.pi fun _ => ν) hr hf (M := 1)
      (fun y => abs_le.2 ⟨by linarith [h0 y], h1 y⟩) k
    have hm : Measurable fun w => (Q (Measure.pi fun _ => ν) (run step per))^[k] f (run step per y w) :=
      hp.1.comp (meas_step hr y)
    show ∫ w, (Q (Measure.pi fun _ => ν) (run step per))^[k] f (run step per y w) ∂(Measure.pi fun _ => ν) = _
    rw [integral_eq_lintegral_of_nonneg_ae (Filter.Eventually.of_forall fun w => by
      show (0 : ℝ) ≤ _
      rw [ih]; exact ENNReal.toReal_nonneg) hm.aestronglyMeasurable]
    congr 1
    refine lintegral_congr fun w => ?_
    rw [ih, ENNReal.ofReal_toReal]
    have hle : ∀ y ∈ (Set.univ : Set Y), ENNReal.ofReal (f y) ≤ 1 := fun y _ => by
      rw [← ENNReal.ofReal_one]; exact ENNReal.ofReal_le_ofReal (h1 y)
    have := iter_mono (ν := ν) (step := step) (G := Set.univ) (by simp) (g := fun _ => 1) hle (per * k)
      (run step per y w) trivial
    rw [iter_const] at this
    exact ne_top_of_le_ne_top ENNReal.one_ne_top this

omit hstep in
theorem run_good {G : Set Y} (n : ℕ) {y : Y} (hy : y ∈ G) {b : Fin n → D} (hb : ∀ k, ∀ y ∈ G, step y (b k) ∈ G) :
    run step n y b ∈ G := by
  induction n generalizing y with
  | zero => exact hy
  | succ n ih => exact ih (hb 0 y hy) fun k => hb k.succ

omit hstep in
theorem total_congr {G : Set Y} {f g : Y → ℝ} (h : ∀ y ∈ G, f y = g y) {per : ℕ} (n : ℕ) {y : Y} (hy : y ∈ G)
    {w : Fin n → Fin per → D} (hw : ∀ i k, ∀ y ∈ G, step y (w i k) ∈ G) :
    total (run step per) f n y w = total (run step per) g n y w := by
  induction n generalizing y with
  | zero => rfl
  | succ n ih =>
    have h1 := run_good per hy (hw 0)
    unfold total
    rw [h _ h1, ih h1 fun i => hw i.succ]

omit hstep in
theorem good_block {G : Set Y} (hG : ∀ᵐ d ∂ν, ∀ y ∈ G, step y d ∈ G) (per : ℕ) :
    ∀ᵐ b ∂(Measure.pi fun _ : Fin per => ν), ∀ k, ∀ y ∈ G, step y (b k) ∈ G := by
  rw [ae_all_iff]
  intro k
  exact (Measure.quasiMeasurePreserving_eval (fun _ : Fin per => ν) k).ae hG

omit hstep in
theorem good_blocks {G : Set Y} (hG : ∀ᵐ d ∂ν, ∀ y ∈ G, step y d ∈ G) (per n : ℕ) :
    ∀ᵐ w ∂(Measure.pi fun _ : Fin n => Measure.pi fun _ : Fin per => ν), ∀ i k, ∀ y ∈ G, step y (w i k) ∈ G := by
  rw [ae_all_iff]
  intro i
  exact (Measure.quasiMeasurePreserving_eval (fun _ : Fin n => Measure.pi fun _ : Fin per => ν) i).ae
    (good_block hG per)

/-- the mean square of the error of an average over `n` observations is at most of order `1 / n` -/
theorem average_error {G : Set Y} (hG : ∀ᵐ d ∂ν, ∀ y ∈ G, step y d ∈ G) {π : Measure Y} [IsProbabilityMeasure π]
    (hπ : ∀ᵐ y ∂π, y ∈ G) {ε : ℝ} (e0 : 0 < ε) (e1 : ε ≤ 1) {N : ℕ} (hN : 1 ≤ N)
    (hc : ∀ f : Y → ℝ≥0∞, Measurable f → (∀ y, f y ≤ 1) → ∀ y ∈ G, ∀ n,
      (T ν step)^[n] f y ≤ ∫⁻ y, f y ∂π + ENNReal.ofReal ((1 - ε) ^ (n / N)) ∧
      ∫⁻ y, f y ∂π ≤ (T ν step)^[n] f y + ENNReal.ofReal ((1 - ε) ^ (n / N)))
    {f : Y → ℝ} {M : ℝ} (hf : Measurable f) (hM : ∀ y ∈ G, |f y| ≤ M) {y : Y} (hy : y ∈ G) {per n : ℕ}
    (hper : 1 ≤ per) (hn : 1 ≤ n) :
    ∫⁻ w, ENNReal.ofReal ((total (run step per) f n y w / n - ∫ y, f y ∂π) ^ 2)
        ∂(Measure.pi fun _ : Fin n => Measure.pi fun _ : Fin per => ν)
      ≤ ENNReal.ofReal (4 * (1 + 2 * (N / ε)) * M ^ 2 / n) := by
  have hN0 : (0 : ℝ) < N := by exact_mod_cast hN
  have hM0 : 0 ≤ M := (abs_nonneg _).trans (hM y hy)
  have hn0 : (0 : ℝ) < n := by exact_mod_cast hn
  rcases hM0.eq_or_lt with rfl | hMp
  · have z : ∀ y ∈ G, f y = 0 := fun v hv => abs_nonpos_iff.1 (hM v hv)
    have za : ∫ y, f y ∂π = 0 := integral_eq_zero_of_ae (hπ.mono fun v hv => z v hv)
    have zt : ∀ (n : ℕ) (v : Y) (w : Fin n → Fin per → D),
        total (run step per) (fun _ => (0 : ℝ)) n v w = 0 := by
      intro n
      induction n with
      | zero => intro v w; rfl
      | succ n ih => intro v w; unfold total; rw [ih, add_zero]
    have : ∫⁻ w, ENNReal.ofReal ((total (run step per) f n y w / n - ∫ y, f y ∂π) ^ 2)
        ∂(Measure.pi fun _ : Fin n => Measure.pi fun _ : Fin per => ν) = 0 := by
      rw [← lintegral_zero (μ := Measure.pi fun _ : Fin n => Measure.pi fun _ : Fin per => ν)]
      refine lintegral_congr_ae ((good_blocks hG per n).mono fun w hw => ?_)
      dsimp only
      rw [total_congr z n hy hw, zt, za]
      simp
    rw [this]
    exact zero_le
  -- normalised observable
  set F : Y → ℝ := fun v => (max (-M) (min M (f v)) + M) / (2 * M) with hF
  have mF : Measurable F := ((measurable_const.max (measurable_const.min hf)).add measurable_const).div_const _
  have F0 : ∀ v, 0 ≤ F v := fun v => div_nonneg (by linarith [le_max_left (-M) (min M (f v))]) (by linarith)
  have F1 : ∀ v, F v ≤ 1 := fun v => by
    rw [hF]
    dsimp only
    rw [div_le_one (by linarith)]
    have : max (-M) (min M (f v)) ≤ M := max_le (by linarith) (min_le_left _ _)
    linarith
  have Ff : ∀ v ∈ G, F v = (f v + M) / (2 * M) := fun v hv => by
    have h := abs_le.1 (hM v hv)
    rw [hF]
    dsimp only
    rw [min_eq_right h.2, max_eq_right h.1]
  have FI : Integrable F π := int_bdd mF (M := 1) fun v => abs_le.2 ⟨by linarith [F0 v], F1 v⟩
  have fI : Integrable f π := Integrable.of_bound hf.aestronglyMeasurable M (hπ.mono fun v hv => by
    rw [Real.norm_eq_abs]; exact hM v hv)
  set m := ∫ y, F y ∂π with hm
  have hmf : m = ((∫ y, f y ∂π) + M) / (2 * M) := by
    rw [hm, integral_congr_ae (hπ.mono fun v hv => Ff v hv), integral_div, integral_add fI (integrable_const _)]
    simp
  have mE : ∫⁻ y, ENNReal.ofReal (F y) ∂π = ENNReal.ofReal m :=
    (ofReal_integral_eq_lintegral_ofReal FI (Filter.Eventually.of_forall F0)).symm
  have m01 : 0 ≤ m ∧ m ≤ 1 := by
    refine ⟨integral_nonneg F0, ?_⟩
    have := integral_mono FI (integrable_const 1) F1
    simpa using this
  have hq : ∀ v ∈ G, ∀ k : ℕ, |(Q (Measure.pi fun _ => ν) (run step per))^[k] F v - m| ≤ (1 - ε) ^ (per * k / N) := by
    intro v hv k
    rw [Q_run hstep per mF F0 F1]
    obtain ⟨c1, c2⟩ := hc _ mF.ennreal_ofReal (fun v => by
      rw [← ENNReal.ofReal_one]
      exact ENNReal.ofReal_le_ofReal (F1 v)) v hv (per * k)
    rw [mE] at c1 c2
    have r0 : 0 ≤ (1 - ε) ^ (per * k / N) := pow_nonneg (by linarith) _
    rw [← ENNReal.ofReal_add m01.1 r0] at c1
    have ht : (T ν step)^[per * k] (fun y => ENNReal.ofReal (F y)) v ≠ ⊤ :=
      ne_top_of_le_ne_top ENNReal.ofReal_ne_top c1
    rw [← ENNReal.ofReal_toReal ht, ← ENNReal.ofReal_add ENNReal.toReal_nonneg r0] at c2
    have d1 := ENNReal.toReal_le_of_le_ofReal (add_nonneg m01.1 r0) c1
    have d2 := (ENNReal.ofReal_le_ofReal_iff (add_nonneg ENNReal.toReal_nonneg r0)).1 c2
    exact abs_le.2 ⟨by linarith, by linarith⟩
  have hr := meas_run hstep per
  -- the deviation
  have mg : Measurable fun v => F v - m := mF.sub measurable_const
  have g1 : ∀ v, |F v - m| ≤ 1 := fun v => abs_le.2 ⟨by linarith [F0 v, m01.2], by linarith [F1 v, m01.1]⟩
  have hqg : ∀ k v, (Q (Measure.pi fun _ => ν) (run step per))^[k] (fun v => F v - m) v
      = (Q (Measure.pi fun _ => ν) (run step per))^[k] F v - m := by
    intro k
    induction k with
    | zero => intro v; rfl
    | succ k ih =>
      intro v
      rw [iterate_succ_apply', iterate_succ_apply']
      have hp := iter_props (ν := Measure.pi fun _ => ν) hr mF (M := 1)
        (fun v => abs_le.2 ⟨by linarith [F0 v], F1 v⟩) k
      show ∫ d, _ ∂_ = (∫ d, _ ∂_) - m
      simp only [ih]
      have hi : Integrable (fun d => (Q (Measure.pi fun _ => ν) (run step per))^[k] F (run step per v d))
          (Measure.pi fun _ => ν) :=
        int_bdd (hp.1.comp (meas_step hr v)) fun d => hp.2 _
      rw [integral_sub hi (integrable_const _)]
      simp
  have key := mean_square (ν := Measure.pi fun _ : Fin per => ν) hr mg (M := 1) (K := N / ε) g1 (fun y => y ∈ G)
    ((good_block hG per).mono fun b hb v hv => run_good per hv hb) (fun v hv n => by
      refine (abs_sum_le_sum_abs _ _).trans (le_trans (sum_le_sum fun k _ => ?_)
        (geometric e0 e1 hN hper n))
      rw [hqg]
      exact hq v hv (k + 1)) n y hy
  have mt : Measurable fun w : Fin n → Fin per → D => total (run step per) (fun v => F v - m) n y w :=
    (meas_total hr mg n).comp (measurable_const.prodMk measurable_id)
  have tot : ∀ᵐ w ∂(Measure.pi fun _ : Fin n => Measure.pi fun _ : Fin per => ν),
      ENNReal.ofReal ((total (run step per) f n y w / n - ∫ y, f y ∂π) ^ 2)
      = ENNReal.ofReal (4 * M ^ 2 / n ^ 2) *
        ENNReal.ofReal (total (run step per) (fun v => F v - m) n y w ^ 2) := by
    refine (good_blocks hG per n).mono fun w hw => ?_
    rw [← ENNReal.ofReal_mul (by positivity)]
    congr 1
    have lin : ∀ (n : ℕ) (v : Y) (w : Fin n → Fin per → D),
        total (run step per) (fun v => (f v + M) / (2 * M) - m) n v w
          = (total (run step per) f n v w + n * M) / (2 * M) - n * m := by
      intro n
      induction n with
      | zero => intro v w; simp [total]
      | succ n ih =>
        intro v w
        unfold total
        rw [ih]
        push_cast
        field_simp
        ring
    rw [total_congr (f := fun v => F v - m) (g := fun v => (f v + M) / (2 * M) - m) (fun v hv => by rw [Ff v hv]) n hy hw, lin, hmf]
    field_simp
    ring
  rw [lintegral_congr_ae tot, lintegral_const_mul' _ _ ENNReal.ofReal_ne_top]
  have hint : ∫⁻ w, ENNReal.ofReal (total (run step per) (fun v => F v - m) n y w ^ 2)
        ∂(Measure.pi fun _ : Fin n => Measure.pi fun _ : Fin per => ν)
      = ENNReal.ofReal (∫ w, total (run step per) (fun v => F v - m) n y w ^ 2
        ∂(Measure.pi fun _ : Fin n => Measure.pi fun _ : Fin per => ν)) := by
    rw [ofReal_integral_eq_lintegral_ofReal]
    · refine int_bdd (mt.pow_const 2) (M := ((n : ℝ) * 1) ^ 2) fun w => ?_
      rw [abs_pow]
      exact pow_le_pow_left₀ (abs_nonneg _) (total_le g1 n y w) 2
    · exact Filter.Eventually.of_forall fun w => sq_nonneg _
  rw [hint, ← ENNReal.ofReal_mul (by positivity)]
  apply ENNReal.ofReal_le_ofReal
  have key' : ∫ w, total (run step per) (fun v => F v - m) n y w ^ 2
        ∂(Measure.pi fun _ : Fin n => Measure.pi fun _ : Fin per => ν)
      ≤ n * (1 + 2 * (N / ε)) := by
    refine key.trans (le_of_eq ?_)
    ring
  calc _ ≤ 4 * M ^ 2 / n ^ 2 * (n * (1 + 2 * (N / ε))) := mul_le_mul_of_nonneg_left key' (by positivity)
    _ = _ := by field_simp

end

end Verif.Doeblin
