/-
Birkhoff's pointwise ergodic theorem for bounded functions on a finite measure space. General
mathematics, used for property C99 (/repo/src/spinchain.rs `update`); nothing here is about the code.
-/
import Mathlib.Dynamics.Ergodic.MeasurePreserving
import Mathlib.Dynamics.BirkhoffSum.NormedSpace
import Mathlib.MeasureTheory.Integral.DominatedConvergence
import Mathlib.MeasureTheory.Integral.Bochner.Set
import Mathlib.MeasureTheory.Constructions.BorelSpace.Metrizable
import Mathlib.Topology.Order.LiminfLimsup
import Mathlib.Topology.Instances.Real.Lemmas

namespace Verif.Birkhoff

open MeasureTheory Filter Topology

variable {α : Type*}

/-- the largest of the first `n` partial sums of `f` along the orbit, or zero -/
noncomputable def peak (T : α → α) (f : α → ℝ) : ℕ → α → ℝ
  | 0 => fun _ => 0
  | n + 1 => fun x => max 0 (f x + peak T f n (T x))

theorem peak_nonneg (T : α → α) (f : α → ℝ) (n : ℕ) (x : α) : 0 ≤ peak T f n x := by
  cases n with
  | zero => exact le_rfl
  | succ n => exact le_max_left _ _

theorem peak_le_succ (T : α → α) (f : α → ℝ) (n : ℕ) (x : α) : peak T f n x ≤ peak T f (n + 1) x := by
  induction n generalizing x with
  | zero => exact peak_nonneg T f 1 x
  | succ n ih => exact max_le_max le_rfl (by linarith [ih (T x)])

theorem peak_mono (T : α → α) (f : α → ℝ) (x : α) : Monotone fun n => peak T f n x :=
  monotone_nat_of_le_succ fun n => peak_le_succ T f n x

theorem sum_le_peak (T : α → α) (f : α → ℝ) (n : ℕ) (x : α) : birkhoffSum T f n x ≤ peak T f n x := by
  induction n generalizing x with
  | zero => simp [peak]
  | succ n ih =>
    rw [birkhoffSum_succ']
    exact le_trans (by linarith [ih (T x)]) (le_max_right _ _)

theorem peak_le {T : α → α} {f : α → ℝ} {M : ℝ} (hM : 0 ≤ M) (hf : ∀ x, |f x| ≤ M) (n : ℕ) (x : α) :
    peak T f n x ≤ n * M := by
  induction n generalizing x with
  | zero => simp [peak]
  | succ n ih =>
    have h1 := ih (T x)
    have h2 := (abs_le.1 (hf x)).2
    refine max_le (by positivity) ?_
    push_cast
    linarith

variable [MeasurableSpace α] {μ : Measure α} [IsFiniteMeasure μ] {T : α → α} {f : α → ℝ} {M : ℝ}

theorem measurable_peak (hT : Measurable T) (hf : Measurable f) (n : ℕ) : Measurable (peak T f n) := by
  induction n with
  | zero => exact measurable_const
  | succ n ih => exact measurable_const.max (hf.add (ih.comp hT))

theorem integrable_of_bound (hf : Measurable f) (hM : ∀ x, |f x| ≤ M) : Integrable f μ :=
  Integrable.of_bound hf.aestronglyMeasurable M (Eventually.of_forall hM)

/-- the maximal ergodic theorem -/
theorem maximal (hT : MeasurePreserving T μ μ) (hf : Measurable f) (hM : ∀ x, |f x| ≤ M) (n : ℕ) :
    0 ≤ ∫ x in {x | 0 < peak T f n x}, f x ∂μ := by
  by_cases hne : IsEmpty α
  · exact integral_nonneg fun x => (hne.false x).elim
  have hα : Nonempty α := not_isEmpty_iff.1 hne
  have hM0 : 0 ≤ M := (abs_nonneg _).trans (hM hα.some)
  cases n with
  | zero => simp [peak]
  | succ n =>
    have hpm := measurable_peak hT.measurable hf (n + 1)
    have hpi : Integrable (peak T f (n + 1)) μ := integrable_of_bound (M := (n + 1 : ℕ) * M) hpm fun x => by
      rw [abs_of_nonneg (peak_nonneg _ _ _ _)]
      exact peak_le hM0 hM _ _
    have hpT : Integrable (fun x => peak T f (n + 1) (T x)) μ :=
      (hT.integrable_comp hpm.aestronglyMeasurable).2 hpi
    have hA : MeasurableSet {x | 0 < peak T f (n + 1) x} := measurableSet_lt measurable_const hpm
    have hfi := integrable_of_bound (μ := μ) hf hM
    have e1 : ∫ x in {x | 0 < peak T f (n + 1) x}, peak T f (n + 1) x ∂μ = ∫ x, peak T f (n + 1) x ∂μ := by
      apply setIntegral_eq_integral_of_forall_compl_eq_zero
      intro x hx
      exact le_antisymm (not_lt.1 hx) (peak_nonneg _ _ _ _)
    have e2 : ∫ x in {x | 0 < peak T f (n + 1) x}, peak T f (n + 1) (T x) ∂μ
        ≤ ∫ x, peak T f (n + 1) (T x) ∂μ :=
      setIntegral_le_integral hpT (Eventually.of_forall fun x => peak_nonneg _ _ _ _)
    have e3 : ∫ x, peak T f (n + 1) (T x) ∂μ = ∫ x, peak T f (n + 1) x ∂μ := by
      rw [← hT.map_eq]
      conv_lhs => rw [hT.map_eq]
      exact (integral_map hT.measurable.aemeasurable hpm.aestronglyMeasurable).symm
    have e4 : ∫ x in {x | 0 < peak T f (n + 1) x}, (peak T f (n + 1) x - peak T f (n + 1) (T x)) ∂μ
        ≤ ∫ x in {x | 0 < peak T f (n + 1) x}, f x ∂μ := by
      refine setIntegral_mono_on (hpi.sub hpT).integrableOn hfi.integrableOn hA fun x hx => ?_
      have hx' : 0 < peak T f (n + 1) x := hx
      have h1 : peak T f (n + 1) x = f x + peak T f n (T x) := by
        have hmax : peak T f (n + 1) x = max 0 (f x + peak T f n (T x)) := rfl
        rcases max_choice 0 (f x + peak T f n (T x)) with h | h
        · rw [hmax, h] at hx'; exact absurd hx' (lt_irrefl _)
        · rw [hmax, h]
      have h2 := peak_le_succ T f n (T x)
      linarith
    rw [integral_sub hpi.integrableOn hpT.integrableOn, e1] at e4
    linarith

/-- on an invariant set where some partial sum is positive, the function has a non-negative integral -/
theorem invariant_nonneg (hT : MeasurePreserving T μ μ) (hf : Measurable f) (hM : ∀ x, |f x| ≤ M)
    {E : Set α} (hE : MeasurableSet E) (hinv : ∀ x, T x ∈ E ↔ x ∈ E)
    (hpos : ∀ x ∈ E, ∃ n, 0 < birkhoffSum T f n x) : 0 ≤ ∫ x in E, f x ∂μ := by
  have hgm : Measurable (E.indicator f) := hf.indicator hE
  have hgM : ∀ x, |E.indicator f x| ≤ M := by
    intro x
    by_cases hx : x ∈ E
    · rw [Set.indicator_of_mem hx]; exact hM x
    · rw [Set.indicator_of_notMem hx, abs_zero]
      exact (abs_nonneg _).trans (hM x)
  have hit : ∀ (n : ℕ) (x : α), T^[n] x ∈ E ↔ x ∈ E := by
    intro n
    induction n with
    | zero => intro x; rfl
    | succ n ih => intro x; rw [Function.iterate_succ_apply, ih, hinv]
  have hsum : ∀ n, ∀ x ∈ E, birkhoffSum T (E.indicator f) n x = birkhoffSum T f n x := by
    intro n x hx
    refine Finset.sum_congr rfl fun k _ => ?_
    rw [Set.indicator_of_mem ((hit k x).2 hx)]
  have hout : ∀ n, ∀ x, x ∉ E → peak T (E.indicator f) n x = 0 := by
    intro n
    induction n with
    | zero => intro x _; rfl
    | succ n ih =>
      intro x hx
      show max 0 _ = _
      rw [Set.indicator_of_notMem hx, ih (T x) (fun h => hx ((hinv x).1 h))]
      simp
  have hU : (⋃ n, {x | 0 < peak T (E.indicator f) n x}) = E := by
    ext x
    rw [Set.mem_iUnion]
    constructor
    · rintro ⟨n, hn⟩
      by_contra hx
      have hn' : 0 < peak T (E.indicator f) n x := hn
      rw [hout n x hx] at hn'
      exact lt_irrefl _ hn'
    · intro hx
      obtain ⟨n, hn⟩ := hpos x hx
      refine ⟨n, lt_of_lt_of_le ?_ (sum_le_peak T (E.indicator f) n x)⟩
      rw [hsum n x hx]
      exact hn
  have hlim := tendsto_setIntegral_of_monotone (μ := μ) (f := E.indicator f)
    (s := fun n => {x | 0 < peak T (E.indicator f) n x})
    (fun n => measurableSet_lt measurable_const (measurable_peak hT.measurable hgm n))
    (fun a b hab x hx => lt_of_lt_of_le hx (peak_mono T _ x hab))
    (integrable_of_bound hgm hgM).integrableOn
  rw [hU] at hlim
  have h0 : 0 ≤ ∫ x in E, E.indicator f x ∂μ := ge_of_tendsto' hlim fun n => maximal hT hgm hgM n
  rwa [setIntegral_congr_fun hE (fun x hx => Set.indicator_of_mem hx f)] at h0

/-- the orbits whose averages keep dropping below something smaller than `a` -/
def below (T : α → α) (f : α → ℝ) (a : ℝ) : Set α :=
  {x | ∃ q : ℚ, (q : ℝ) < a ∧ ∃ᶠ n in atTop, birkhoffAverage ℝ T f n x < q}

omit [MeasurableSpace α] in
theorem average_neg (T : α → α) (f : α → ℝ) (n : ℕ) (x : α) :
    birkhoffAverage ℝ T (fun y => -f y) n x = -birkhoffAverage ℝ T f n x := by
  simp [birkhoffAverage, birkhoffSum]

theorem measurable_average (hT : Measurable T) (hf : Measurable f) (n : ℕ) :
    Measurable (birkhoffAverage ℝ T f n) := by
  show Measurable fun x => (n : ℝ)⁻¹ * ∑ k ∈ Finset.range n, f (T^[k] x)
  exact (Finset.measurable_fun_sum _ fun k _ => hf.comp (hT.iterate k)).const_mul _

theorem measurable_below (hT : Measurable T) (hf : Measurable f) (a : ℝ) : MeasurableSet (below T f a) := by
  have : below T f a = ⋃ q : ℚ, {x | (q : ℝ) < a} ∩ ⋂ N : ℕ, ⋃ n : ℕ, {x | N ≤ n} ∩
      {x | birkhoffAverage ℝ T f n x < q} := by
    ext x
    simp only [below, Set.mem_ofPred_eq, Set.mem_iUnion, Set.mem_inter_iff, Set.mem_iInter, frequently_atTop]
  rw [this]
  refine MeasurableSet.iUnion fun q => (MeasurableSet.const _).inter (MeasurableSet.iInter fun N =>
    MeasurableSet.iUnion fun n => (MeasurableSet.const _).inter ?_)
  exact measurableSet_lt (measurable_average hT hf n) measurable_const

omit [MeasurableSpace α] in
theorem frequently_shift {u w : ℕ → ℝ} (h : Tendsto (fun n => u n - w n) atTop (𝓝 0)) {p q : ℝ} (hpq : p < q)
    (hu : ∃ᶠ n in atTop, w n < p) : ∃ᶠ n in atTop, u n < q := by
  have h1 : ∀ᶠ n in atTop, u n - w n < q - p := h.eventually (eventually_lt_nhds (by linarith))
  exact (hu.and_eventually h1).mono fun n hn => by linarith [hn.1, hn.2]

omit [MeasurableSpace α] in
theorem below_invariant (hM : ∀ x, |f x| ≤ M) (a : ℝ) (x : α) : T x ∈ below T f a ↔ x ∈ below T f a := by
  have hb : Bornology.IsBounded (Set.range f) := by
    rw [isBounded_iff_forall_norm_le]
    exact ⟨M, by rintro _ ⟨y, rfl⟩; exact hM y⟩
  have h1 := tendsto_birkhoffAverage_apply_sub_birkhoffAverage' ℝ hb T x
  have h2 : Tendsto (fun n => birkhoffAverage ℝ T f n x - birkhoffAverage ℝ T f n (T x)) atTop (𝓝 0) := by
    simpa using h1.neg
  constructor
  · rintro ⟨q, hq, hx⟩
    obtain ⟨r, hr1, hr2⟩ := exists_rat_btwn hq
    exact ⟨r, hr2, frequently_shift h2 hr1 hx⟩
  · rintro ⟨q, hq, hx⟩
    obtain ⟨r, hr1, hr2⟩ := exists_rat_btwn hq
    exact ⟨r, hr2, frequently_shift h1 hr1 hx⟩

omit [MeasurableSpace α] in
theorem sum_const_sub (T : α → α) (f : α → ℝ) (a : ℝ) {n : ℕ} (hn : 0 < n) (x : α) :
    birkhoffSum T (fun y => a - f y) n x = n * (a - birkhoffAverage ℝ T f n x) := by
  have : (n : ℝ) ≠ 0 := by exact_mod_cast hn.ne'
  simp only [birkhoffAverage, birkhoffSum, Finset.sum_sub_distrib, Finset.sum_const, Finset.card_range,
    nsmul_eq_mul, smul_eq_mul]
  field_simp

/-- on an invariant subset of `below`, the mean of the function is at most `a` -/
theorem below_le (hT : MeasurePreserving T μ μ) (hf : Measurable f) (hM : ∀ x, |f x| ≤ M) (a : ℝ)
    {E : Set α} (hE : MeasurableSet E) (hinv : ∀ x, T x ∈ E ↔ x ∈ E) (hsub : E ⊆ below T f a) :
    ∫ x in E, f x ∂μ ≤ a * μ.real E := by
  have hb : ∀ x, |a - f x| ≤ |a| + M := fun x => (abs_sub _ _).trans (by linarith [hM x])
  have h := invariant_nonneg (μ := μ) (f := fun x => a - f x) hT (measurable_const.sub hf) hb hE hinv (by
    intro x hx
    obtain ⟨q, hq, hfr⟩ := hsub hx
    obtain ⟨n, hn, hlt⟩ := (frequently_atTop.1 hfr) 1
    refine ⟨n, ?_⟩
    rw [sum_const_sub T f a hn x]
    have : (0 : ℝ) < n := by exact_mod_cast hn
    exact mul_pos this (by linarith))
  rw [integral_sub (integrable_const a) (integrable_of_bound hf hM).integrableOn, setIntegral_const,
    smul_eq_mul] at h
  linarith

/-- almost no orbit has averages that keep dropping below `a` and rising above `b > a` -/
theorem crossing_null (hT : MeasurePreserving T μ μ) (hf : Measurable f) (hM : ∀ x, |f x| ≤ M) {a b : ℝ}
    (hab : a < b) : μ (below T f a ∩ below T (fun y => -f y) (-b)) = 0 := by
  have hM' : ∀ x, |-f x| ≤ M := fun x => by rw [abs_neg]; exact hM x
  have hfn : Measurable fun y => -f y := hf.neg
  have hE := (measurable_below hT.measurable hf a).inter (measurable_below hT.measurable hfn (-b))
  have hinv : ∀ x, T x ∈ below T f a ∩ below T (fun y => -f y) (-b) ↔
      x ∈ below T f a ∩ below T (fun y => -f y) (-b) := fun x =>
    and_congr (below_invariant hM a x) (below_invariant hM' (-b) x)
  have h1 := below_le (μ := μ) hT hf hM a hE hinv Set.inter_subset_left
  have h2 := below_le (μ := μ) hT hfn hM' (-b) hE hinv Set.inter_subset_right
  have e : ∫ x in below T f a ∩ below T (fun y => -f y) (-b), -f x ∂μ
      = -∫ x in below T f a ∩ below T (fun y => -f y) (-b), f x ∂μ := integral_neg _
  rw [e] at h2
  have h0 := measureReal_nonneg (μ := μ) (s := below T f a ∩ below T (fun y => -f y) (-b))
  have : μ.real (below T f a ∩ below T (fun y => -f y) (-b)) = 0 := by nlinarith
  exact (measureReal_eq_zero_iff).1 this

omit [MeasurableSpace α] in
theorem average_abs (hM0 : 0 ≤ M) (hM : ∀ x, |f x| ≤ M) (n : ℕ) (x : α) : |birkhoffAverage ℝ T f n x| ≤ M := by
  unfold birkhoffAverage birkhoffSum
  rw [smul_eq_mul, abs_mul, abs_of_nonneg (by positivity)]
  have h : |∑ k ∈ Finset.range n, f (T^[k] x)| ≤ n * M := by
    refine (Finset.abs_sum_le_sum_abs _ _).trans ?_
    refine (Finset.sum_le_sum fun k _ => hM _).trans ?_
    simp
  rcases Nat.eq_zero_or_pos n with rfl | hn
  · simpa using hM0
  · have hn' : (0 : ℝ) < n := by exact_mod_cast hn
    rw [inv_mul_le_iff₀ hn']
    exact h

/-- Birkhoff's theorem: time averages of a bounded function converge along almost every orbit, and the
limit has the same mean -/
theorem birkhoff (hT : MeasurePreserving T μ μ) (hf : Measurable f) (hM : ∀ x, |f x| ≤ M) :
    ∃ g : α → ℝ, Measurable g ∧ (∀ᵐ x ∂μ, Tendsto (fun n => birkhoffAverage ℝ T f n x) atTop (𝓝 (g x))) ∧
      ∫ x, g x ∂μ = ∫ x, f x ∂μ := by
  by_cases hne : IsEmpty α
  · exact ⟨f, hf, Eventually.of_forall fun x => (hne.false x).elim, rfl⟩
  have hα : Nonempty α := not_isEmpty_iff.1 hne
  have hM0 : 0 ≤ M := (abs_nonneg _).trans (hM hα.some)
  have hconv : ∀ᵐ x ∂μ, ∃ l, Tendsto (fun n => birkhoffAverage ℝ T f n x) atTop (𝓝 l) := by
    have h : ∀ᵐ x ∂μ, ∀ a b : ℚ, a < b → x ∉ below T f a ∩ below T (fun y => -f y) (-b) := by
      simp only [ae_all_iff]
      intro a b hab
      exact measure_eq_zero_iff_ae_notMem.1 (crossing_null hT hf hM (by exact_mod_cast hab))
    filter_upwards [h] with x hx
    refine tendsto_of_no_upcrossings Rat.isDenseEmbedding_coe_real.dense ?_ ?_ ?_
    · rintro _ ⟨a, rfl⟩ _ ⟨b, rfl⟩ hab ⟨h1, h2⟩
      obtain ⟨p, hp1, hp2⟩ := exists_rat_btwn hab
      obtain ⟨q, hq1, hq2⟩ := exists_rat_btwn hp2
      refine hx p q (by exact_mod_cast hq1) ⟨⟨a, hp1, h1⟩, ⟨-b, ?_, ?_⟩⟩
      · push_cast; linarith
      · refine h2.mono fun n hn => ?_
        rw [average_neg]
        push_cast
        linarith
    · exact isBoundedUnder_of ⟨M, fun n => (abs_le.1 (average_abs hM0 hM n x)).2⟩
    · exact isBoundedUnder_of ⟨-M, fun n => (abs_le.1 (average_abs hM0 hM n x)).1⟩
  obtain ⟨g, hg, hlim⟩ := measurable_limit_of_tendsto_metrizable_ae
    (fun n => (measurable_average hT.measurable hf n).aemeasurable) hconv
  refine ⟨g, hg, hlim, ?_⟩
  have h1 : Tendsto (fun n => ∫ x, birkhoffAverage ℝ T f n x ∂μ) atTop (𝓝 (∫ x, g x ∂μ)) :=
    tendsto_integral_of_dominated_convergence (fun _ => M)
      (fun n => (measurable_average hT.measurable hf n).aestronglyMeasurable) (integrable_const M)
      (fun n => Eventually.of_forall fun x => average_abs hM0 hM n x) hlim
  have h2 : ∀ n : ℕ, 0 < n → ∫ x, birkhoffAverage ℝ T f n x ∂μ = ∫ x, f x ∂μ := by
    intro n hn
    have hn' : (n : ℝ) ≠ 0 := by exact_mod_cast hn.ne'
    have hfi := integrable_of_bound (μ := μ) hf hM
    have hk : ∀ k, ∫ x, f (T^[k] x) ∂μ = ∫ x, f x ∂μ := by
      intro k
      have hTk := hT.iterate k
      have := integral_map (μ := μ) hTk.measurable.aemeasurable
        (f := f) (by rw [hTk.map_eq]; exact hf.aestronglyMeasurable)
      rw [hTk.map_eq] at this
      exact this.symm
    simp only [birkhoffAverage, birkhoffSum, smul_eq_mul]
    have hki : ∀ k ∈ Finset.range n, Integrable (fun x => f (T^[k] x)) μ := fun k _ =>
      ((hT.iterate k).integrable_comp hf.aestronglyMeasurable).2 hfi
    rw [integral_const_mul, integral_finsetSum _ hki, Finset.sum_congr rfl fun k _ => hk k]
    simp only [Finset.sum_const, Finset.card_range, nsmul_eq_mul]
    field_simp
  refine tendsto_nhds_unique h1 ?_
  refine tendsto_const_nhds.congr' ?_
  filter_upwards [eventually_gt_atTop 0] with n hn
  exact (h2 n hn).symm

end Verif.Birkhoff
