/-
Correlations in a ring of variables with positive nearest-neighbour weights (for C124): integrating out a stretch of
the ring makes its two ends nearly independent, at a rate set by the ratio of the smallest and the largest weight.
-/
import Mathlib.MeasureTheory.Constructions.Pi
import Mathlib.MeasureTheory.Integral.Prod
import Mathlib.Algebra.BigOperators.Intervals
import Mathlib.Tactic.Linarith
import Mathlib.Tactic.Positivity
import Mathlib.Tactic.FieldSimp

set_option linter.unusedSectionVars false

namespace Verif.Cluster

open MeasureTheory Finset

variable {X : Type*} [MeasurableSpace X] {μ : Measure X} [IsProbabilityMeasure μ] {L : ℕ}

/-- `u` on the sites of `A`, `w` on the others -/
def merge (A : Fin L → Bool) (u w : Fin L → X) : Fin L → X := fun i => if A i then u i else w i

theorem merge_pres (A : Fin L → Bool) : MeasurePreserving (fun p : (Fin L → X) × (Fin L → X) => merge A p.1 p.2)
    ((Measure.pi fun _ => μ).prod (Measure.pi fun _ => μ)) (Measure.pi fun _ => μ) := by
  have h1 := (measurePreserving_arrowProdEquivProdArrow X X (Fin L) (fun _ => μ) (fun _ => μ)).symm
  have h2 : MeasurePreserving (fun (q : Fin L → X × X) i => if A i then (q i).1 else (q i).2)
      (Measure.pi fun _ => μ.prod μ) (Measure.pi fun _ => μ) := by
    refine measurePreserving_pi (fun _ => μ.prod μ) (fun _ => μ) (f := fun i q => if A i then q.1 else q.2) fun i => ?_
    by_cases h : A i
    · simp only [h, if_true]
      exact measurePreserving_fst
    · simp only [h]
      exact measurePreserving_snd
  exact h2.comp h1

/-- exchanging the values on `A` between two copies -/
theorem swap_pres (A : Fin L → Bool) :
    MeasurePreserving (fun p : (Fin L → X) × (Fin L → X) => (merge A p.2 p.1, merge A p.1 p.2))
      ((Measure.pi fun _ => μ).prod (Measure.pi fun _ => μ)) ((Measure.pi fun _ => μ).prod (Measure.pi fun _ => μ)) := by
  have h1 := measurePreserving_arrowProdEquivProdArrow X X (Fin L) (fun _ => μ) (fun _ => μ)
  have h2 : MeasurePreserving (fun (q : Fin L → X × X) i => if A i then (q i).swap else q i)
      (Measure.pi fun _ => μ.prod μ) (Measure.pi fun _ => μ.prod μ) := by
    refine measurePreserving_pi (fun _ => μ.prod μ) (fun _ => μ.prod μ) (f := fun i q => if A i then q.swap else q)
      fun i => ?_
    by_cases h : A i
    · simp only [h, if_true]
      exact Measure.measurePreserving_swap
    · simp only [h]
      exact MeasurePreserving.id _
  have h3 := (h1.comp h2).comp h1.symm
  have e : (fun p : (Fin L → X) × (Fin L → X) => (merge A p.2 p.1, merge A p.1 p.2)) =
      (MeasurableEquiv.arrowProdEquivProdArrow X X (Fin L) ∘
        fun (q : Fin L → X × X) i => if A i then (q i).swap else q i) ∘
          (MeasurableEquiv.arrowProdEquivProdArrow X X (Fin L)).symm := by
    funext p
    refine Prod.ext ?_ ?_
    all_goals
      funext i
      by_cases h : A i
      · simp [merge, h, MeasurableEquiv.arrowProdEquivProdArrow, Equiv.arrowProdEquivProdArrow]
      · simp [merge, h, MeasurableEquiv.arrowProdEquivProdArrow, Equiv.arrowProdEquivProdArrow]
  rw [e]
  exact h3

theorem merge_meas (A : Fin L → Bool) :
    Measurable (fun p : (Fin L → X) × (Fin L → X) => merge A p.1 p.2) := by
  refine measurable_pi_iff.2 fun i => ?_
  by_cases h : A i
  · simp only [merge, h, if_true]
    fun_prop
  · simp only [merge, h]
    exact (measurable_pi_apply i).comp measurable_snd

theorem bi {Ω : Type*} [MeasurableSpace Ω] {ν : Measure Ω} [IsFiniteMeasure ν] {F : Ω → ℝ} {D : ℝ} (h : Measurable F)
    (b : ∀ v, |F v| ≤ D) : Integrable F ν :=
  Integrable.of_bound h.aestronglyMeasurable D (Filter.Eventually.of_forall b)

theorem cov_swap (A : Fin L → Bool) {V f g : (Fin L → X) → ℝ} {C C' D η : ℝ} (mV : Measurable V) (mf : Measurable f)
    (mg : Measurable g) (V0 : ∀ v, 0 ≤ V v) (bV : ∀ v, V v ≤ D) (bf : ∀ v, |f v| ≤ C) (bg : ∀ v, |g v| ≤ C')
    (hf : ∀ u w, f (merge A u w) = f u) (hg : ∀ u w, g (merge A u w) = g w)
    (hc : ∀ v w, |V v * V w - V (merge A w v) * V (merge A v w)| ≤ η * (V v * V w)) :
    |(∫ v, V v * (f v * g v) ∂(Measure.pi fun _ => μ)) * (∫ v, V v ∂(Measure.pi fun _ => μ)) -
        (∫ v, V v * f v ∂(Measure.pi fun _ => μ)) * ∫ v, V v * g v ∂(Measure.pi fun _ => μ)| ≤
      η * C * C' * (∫ v, V v ∂(Measure.pi fun _ => μ)) ^ 2 := by
  set π : Measure (Fin L → X) := Measure.pi fun _ => μ with hπ
  have bV' : ∀ v, |V v| ≤ D := fun v => by rw [abs_of_nonneg (V0 v)]; exact bV v
  have iV : Integrable V π := bi mV bV'
  have bb : ∀ {a b x y : ℝ}, |a| ≤ x → |b| ≤ y → |a * b| ≤ x * y := fun {a b x y} h1 h2 => by
    rw [abs_mul]
    exact mul_le_mul h1 h2 (abs_nonneg _) ((abs_nonneg _).trans h1)
  have iVf : Integrable (fun v => V v * f v) π := bi (mV.mul mf) fun v => bb (bV' v) (bf v)
  have iVg : Integrable (fun v => V v * g v) π := bi (mV.mul mg) fun v => bb (bV' v) (bg v)
  have iVfg : Integrable (fun v => V v * (f v * g v)) π :=
    bi (mV.mul (mf.mul mg)) fun v => bb (bV' v) (bb (bf v) (bg v))
  let Φ : (Fin L → X) × (Fin L → X) → ℝ := fun p => V p.1 * V p.2 * ((f p.1 - f p.2) * (g p.1 - g p.2))
  let Ψ : (Fin L → X) × (Fin L → X) → ℝ := fun p =>
    V (merge A p.2 p.1) * V (merge A p.1 p.2) * ((f p.1 - f p.2) * (g p.1 - g p.2))
  have m1 : Measurable fun p : (Fin L → X) × (Fin L → X) => merge A p.1 p.2 := merge_meas A
  have m2 : Measurable fun p : (Fin L → X) × (Fin L → X) => merge A p.2 p.1 := m1.comp measurable_swap
  have md : Measurable fun p : (Fin L → X) × (Fin L → X) => (f p.1 - f p.2) * (g p.1 - g p.2) :=
    ((mf.comp measurable_fst).sub (mf.comp measurable_snd)).mul ((mg.comp measurable_fst).sub (mg.comp measurable_snd))
  have bd : ∀ p : (Fin L → X) × (Fin L → X), |(f p.1 - f p.2) * (g p.1 - g p.2)| ≤ 2 * C * (2 * C') := fun p => by
    refine bb ?_ ?_
    · exact (abs_sub _ _).trans (by linarith [bf p.1, bf p.2])
    · exact (abs_sub _ _).trans (by linarith [bg p.1, bg p.2])
  have iΦ : Integrable Φ (π.prod π) :=
    bi (((mV.comp measurable_fst).mul (mV.comp measurable_snd)).mul md) fun p => bb (bb (bV' _) (bV' _)) (bd p)
  have iΨ : Integrable Ψ (π.prod π) :=
    bi (((mV.comp m2).mul (mV.comp m1)).mul md) fun p => bb (bb (bV' _) (bV' _)) (bd p)
  have e1 : ∫ p, Φ p ∂(π.prod π) = 2 * ((∫ v, V v * (f v * g v) ∂π) * (∫ v, V v ∂π) -
      (∫ v, V v * f v ∂π) * ∫ v, V v * g v ∂π) := by
    have h : Φ = fun p => ((V p.1 * (f p.1 * g p.1)) * V p.2 - (V p.1 * f p.1) * (V p.2 * g p.2)) +
        (V p.1 * (V p.2 * (f p.2 * g p.2)) - (V p.1 * g p.1) * (V p.2 * f p.2)) := by
      funext p
      simp only [Φ]
      ring
    rw [h, integral_add, integral_sub, integral_sub,
      integral_prod_mul (fun v => V v * (f v * g v)) V, integral_prod_mul (fun v => V v * f v) (fun v => V v * g v),
      integral_prod_mul V (fun v => V v * (f v * g v)), integral_prod_mul (fun v => V v * g v) (fun v => V v * f v)]
    · ring
    · exact iV.mul_prod iVfg
    · exact iVg.mul_prod iVf
    · exact iVfg.mul_prod iV
    · exact iVf.mul_prod iVg
    · exact (iVfg.mul_prod iV).sub (iVf.mul_prod iVg)
    · exact (iV.mul_prod iVfg).sub (iVg.mul_prod iVf)
  have e2 : ∫ p, Φ p ∂(π.prod π) = -∫ p, Ψ p ∂(π.prod π) := by
    have h := (swap_pres (μ := μ) A).map_eq
    have h' : ∫ p, Φ p ∂(π.prod π) = ∫ p, Φ (merge A p.2 p.1, merge A p.1 p.2) ∂(π.prod π) := by
      conv_lhs => rw [hπ, ← h]
      rw [integral_map (swap_pres (μ := μ) A).measurable.aemeasurable]
      rw [h]
      exact iΦ.aestronglyMeasurable
    rw [h', ← integral_neg]
    congr 1
    funext p
    simp only [Φ, Ψ, hf, hg]
    ring
  have e3 : ∫ p, (Φ p - Ψ p) ∂(π.prod π) = 2 * ∫ p, Φ p ∂(π.prod π) := by
    rw [integral_sub iΦ iΨ]
    linarith
  have e4 : |∫ p, (Φ p - Ψ p) ∂(π.prod π)| ≤ η * (2 * C * (2 * C')) * (∫ v, V v ∂π) ^ 2 := by
    have h : ∫ p : (Fin L → X) × (Fin L → X), η * (2 * C * (2 * C')) * (V p.1 * V p.2) ∂(π.prod π) =
        η * (2 * C * (2 * C')) * (∫ v, V v ∂π) ^ 2 := by
      rw [integral_const_mul, integral_prod_mul V V]
      ring
    rw [← h]
    refine (abs_integral_le_integral_abs).trans (integral_mono (iΦ.sub iΨ).abs ((iV.mul_prod iV).const_mul _) fun p => ?_)
    have h1 : Φ p - Ψ p = (V p.1 * V p.2 - V (merge A p.2 p.1) * V (merge A p.1 p.2)) *
        ((f p.1 - f p.2) * (g p.1 - g p.2)) := by
      simp only [Φ, Ψ]
      ring
    have h2 := bb (hc p.1 p.2) (bd p)
    show |Φ p - Ψ p| ≤ _
    rw [h1]
    refine h2.trans (le_of_eq ?_)
    ring
  rw [e3, e1] at e4
  rw [abs_mul, abs_mul] at e4
  norm_num at e4
  nlinarith [e4]

/-! ### Integrating out a stretch of sites -/

variable {k : ℕ → X → X → ℝ} {m M : ℝ}

/-- weight of the bonds `i, …, i + n` when the sites `i + 1, …, i + n` carry `ζ` and the ends carry `x` and `y` -/
def path (k : ℕ → X → X → ℝ) : ℕ → ℕ → X → (ℕ → X) → X → ℝ
  | i, 0, x, _, y => k i x y
  | i, n + 1, x, ζ, y => k i x (ζ (i + 1)) * path k (i + 1) n (ζ (i + 1)) ζ y

/-- the same with the sites in between integrated out -/
noncomputable def link (μ : Measure X) (k : ℕ → X → X → ℝ) : ℕ → ℕ → X → X → ℝ
  | i, 0, x, y => k i x y
  | i, n + 1, x, y => ∫ u, k i x u * link μ k (i + 1) n u y ∂μ

theorem path_prod (i n : ℕ) (ξ : ℕ → X) :
    ∏ j ∈ Ico i (i + n + 1), k j (ξ j) (ξ (j + 1)) = path k i n (ξ i) ξ (ξ (i + n + 1)) := by
  induction n generalizing i with
  | zero => simp [path]
  | succ n ih =>
    rw [Finset.prod_eq_prod_Ico_succ_bot (by omega), path]
    have h := ih (i + 1)
    rw [show i + 1 + n + 1 = i + (n + 1) + 1 by omega] at h
    rw [h]

theorem path_congr (i n : ℕ) {ζ ξ : ℕ → X} (x y : X) (h : ∀ j, i < j → j ≤ i + n → ζ j = ξ j) :
    path k i n x ζ y = path k i n x ξ y := by
  induction n generalizing i x with
  | zero => rfl
  | succ n ih =>
    rw [path, path, h (i + 1) (by omega) (by omega)]
    rw [ih (i + 1) _ fun j h1 h2 => h j (by omega) (by omega)]

/-- the kernels are measurable and lie between `m` and `M` -/
structure Kernels (k : ℕ → X → X → ℝ) (m M : ℝ) : Prop where
  meas : ∀ i, Measurable fun p : X × X => k i p.1 p.2
  pos : 0 < m
  lo : ∀ i x y, m ≤ k i x y
  hi : ∀ i x y, k i x y ≤ M

theorem Kernels.le (K : Kernels k m M) [Nonempty X] : m ≤ M :=
  (K.lo 0 (Classical.arbitrary X) (Classical.arbitrary X)).trans (K.hi _ _ _)

theorem Kernels.abs (K : Kernels k m M) (i : ℕ) (x y : X) : |k i x y| ≤ M := by
  rw [abs_of_pos (K.pos.trans_le (K.lo i x y))]
  exact K.hi i x y

theorem path_nonneg (K : Kernels k m M) (i n : ℕ) (x : X) (ζ : ℕ → X) (y : X) : 0 < path k i n x ζ y := by
  induction n generalizing i x with
  | zero => exact K.pos.trans_le (K.lo i x y)
  | succ n ih => exact mul_pos (K.pos.trans_le (K.lo i _ _)) (ih _ _)

theorem path_le (K : Kernels k m M) (i n : ℕ) (x : X) (ζ : ℕ → X) (y : X) : path k i n x ζ y ≤ M ^ (n + 1) := by
  have M0 : 0 ≤ M := K.pos.le.trans ((K.lo i x x).trans (K.hi _ _ _))
  induction n generalizing i x with
  | zero => simpa [path] using K.hi i x y
  | succ n ih =>
    rw [path, pow_succ' M]
    exact mul_le_mul (K.hi _ _ _) (ih _ _) (path_nonneg K _ _ _ _ _).le M0

/-- the value at site `j` of the ring -/
def at' (hL : 0 < L) (v : Fin L → X) (j : ℕ) : X := v ⟨j % L, Nat.mod_lt _ hL⟩

theorem path_meas (K : Kernels k m M) (hL : 0 < L) (i n : ℕ) :
    Measurable fun p : X × (Fin L → X) × X => path k i n p.1 (at' hL p.2.1) p.2.2 := by
  induction n generalizing i with
  | zero => exact (K.meas i).comp (measurable_fst.prodMk (measurable_snd.comp measurable_snd))
  | succ n ih =>
    have h : Measurable fun p : X × (Fin L → X) × X => at' hL p.2.1 (i + 1) :=
      (measurable_pi_apply _).comp (measurable_fst.comp measurable_snd)
    exact ((K.meas i).comp (measurable_fst.prodMk h)).mul ((ih (i + 1)).comp (h.prodMk measurable_snd))

theorem link_meas (K : Kernels k m M) (i n : ℕ) : Measurable fun p : X × X => link μ k i n p.1 p.2 := by
  induction n generalizing i with
  | zero => exact K.meas i
  | succ n ih =>
    have h : Measurable fun q : (X × X) × X => k i q.1.1 q.2 * link μ k (i + 1) n q.2 q.1.2 :=
      ((K.meas i).comp ((measurable_fst.comp measurable_fst).prodMk measurable_snd)).mul
        ((ih (i + 1)).comp (measurable_snd.prodMk (measurable_snd.comp measurable_fst)))
    exact (h.stronglyMeasurable.integral_prod_right (ν := μ)).measurable

theorem link_step_meas (K : Kernels k m M) (i n : ℕ) (x y : X) : Measurable fun u => k i x u * link μ k (i + 1) n u y :=
  ((K.meas i).comp (measurable_const.prodMk measurable_id)).mul
    ((link_meas K (i + 1) n).comp (measurable_id.prodMk measurable_const))

theorem link_bound (K : Kernels k m M) (i n : ℕ) (x y : X) :
    m ^ (n + 1) ≤ link μ k i n x y ∧ link μ k i n x y ≤ M ^ (n + 1) := by
  have M0 : 0 ≤ M := K.pos.le.trans ((K.lo i x x).trans (K.hi _ _ _))
  induction n generalizing i x with
  | zero => simpa [link] using ⟨K.lo i x y, K.hi i x y⟩
  | succ n ih =>
    have lo : ∀ u, m ^ (n + 2) ≤ k i x u * link μ k (i + 1) n u y := fun u => by
      rw [pow_succ' m (n + 1)]
      exact mul_le_mul (K.lo _ _ _) (ih (i + 1) u).1 (pow_nonneg K.pos.le _) (K.pos.le.trans (K.lo _ _ _))
    have hi : ∀ u, k i x u * link μ k (i + 1) n u y ≤ M ^ (n + 2) := fun u => by
      rw [pow_succ' M (n + 1)]
      exact mul_le_mul (K.hi _ _ _) (ih (i + 1) u).2 ((pow_nonneg K.pos.le _).trans (ih (i + 1) u).1) M0
    have it : Integrable (fun u => k i x u * link μ k (i + 1) n u y) μ :=
      bi (D := M ^ (n + 2)) (link_step_meas K i n x y) fun u => by
        rw [abs_of_nonneg ((pow_nonneg K.pos.le _).trans (lo u))]
        exact hi u
    have h1 := integral_mono (integrable_const (m ^ (n + 2))) it lo
    have h2 := integral_mono it (integrable_const (M ^ (n + 2))) hi
    simp only [integral_const, probReal_univ, smul_eq_mul, one_mul] at h1 h2
    exact ⟨h1, h2⟩

theorem link_pos (K : Kernels k m M) (i n : ℕ) (x y : X) : 0 < link μ k i n x y :=
  (pow_pos K.pos _).trans_le (link_bound K i n x y).1

theorem link_abs (K : Kernels k m M) (i n : ℕ) (x y : X) : |link μ k i n x y| ≤ M ^ (n + 1) := by
  rw [abs_of_pos (link_pos K i n x y)]
  exact (link_bound K i n x y).2

theorem mul_abs {a b x y : ℝ} (h1 : |a| ≤ x) (h2 : |b| ≤ y) : |a * b| ≤ x * y := by
  rw [abs_mul]
  exact mul_le_mul h1 h2 (abs_nonneg _) ((abs_nonneg _).trans h1)

theorem link_step_int (K : Kernels k m M) (i n : ℕ) (x y : X) : Integrable (fun u => k i x u * link μ k (i + 1) n u y) μ :=
  bi (link_step_meas K i n x y) fun u => mul_abs (K.abs i x u) (link_abs K (i + 1) n u y)

/-- integrating the sites `i + 1, …, i + n` out of the path -/
theorem path_int (K : Kernels k m M) (hL : 0 < L) (i n : ℕ) (h : i + n < L) (x y : X) :
    ∫ z : Fin L → X, path k i n x (at' hL z) y ∂(Measure.pi fun _ => μ) = link μ k i n x y := by
  induction n generalizing i x with
  | zero => simp [path, link]
  | succ n ih =>
    have mp : Measurable fun z : Fin L → X => path k i (n + 1) x (at' hL z) y :=
      (path_meas K hL i (n + 1)).comp (measurable_const.prodMk (measurable_id.prodMk measurable_const))
    let A : Fin L → Bool := fun j => j.1 = i + 1
    have h0 := merge_pres (μ := μ) A
    have e1 : ∫ z : Fin L → X, path k i (n + 1) x (at' hL z) y ∂(Measure.pi fun _ => μ) =
        ∫ p : (Fin L → X) × (Fin L → X), path k i (n + 1) x (at' hL (merge A p.1 p.2)) y
          ∂((Measure.pi fun _ => μ).prod (Measure.pi fun _ => μ)) := by
      conv_lhs => rw [← h0.map_eq]
      rw [integral_map h0.measurable.aemeasurable mp.aestronglyMeasurable]
    let q : Fin L := ⟨i + 1, by omega⟩
    have e2 : ∀ p : (Fin L → X) × (Fin L → X), path k i (n + 1) x (at' hL (merge A p.1 p.2)) y =
        k i x (p.1 q) * path k (i + 1) n (p.1 q) (at' hL p.2) y := fun p => by
      have hq : at' hL (merge A p.1 p.2) (i + 1) = p.1 q := by
        have : (i + 1) % L = i + 1 := Nat.mod_eq_of_lt (by omega)
        simp [at', merge, A, q, this]
      rw [path, hq]
      congr 1
      refine path_congr _ _ _ _ fun j h1 h2 => ?_
      have : j % L = j := Nat.mod_eq_of_lt (by omega)
      simp only [at', merge, A, this]
      rw [if_neg (by simp; omega)]
    simp only [e2] at e1
    have mQ : Measurable fun r : X × (Fin L → X) => k i x r.1 * path k (i + 1) n r.1 (at' hL r.2) y :=
      ((K.meas i).comp (measurable_const.prodMk measurable_fst)).mul
        ((path_meas K hL (i + 1) n).comp (measurable_fst.prodMk (measurable_snd.prodMk measurable_const)))
    have iQ : Integrable (fun r : X × (Fin L → X) => k i x r.1 * path k (i + 1) n r.1 (at' hL r.2) y)
        (μ.prod (Measure.pi fun _ => μ)) := bi mQ fun r => mul_abs (K.abs _ _ _) (y := M ^ (n + 1)) (by
          rw [abs_of_pos (path_nonneg K _ _ _ _ _)]
          exact path_le K _ _ _ _ _)
    have h3 : MeasurePreserving (fun p : (Fin L → X) × (Fin L → X) => (p.1 q, p.2))
        ((Measure.pi fun _ => μ).prod (Measure.pi fun _ => μ)) (μ.prod (Measure.pi fun _ => μ)) :=
      (measurePreserving_eval (fun _ : Fin L => μ) q).prod (MeasurePreserving.id _)
    have e3 : ∫ p : (Fin L → X) × (Fin L → X), k i x (p.1 q) * path k (i + 1) n (p.1 q) (at' hL p.2) y
          ∂((Measure.pi fun _ => μ).prod (Measure.pi fun _ => μ)) =
        ∫ r : X × (Fin L → X), k i x r.1 * path k (i + 1) n r.1 (at' hL r.2) y ∂(μ.prod (Measure.pi fun _ => μ)) := by
      rw [← h3.map_eq, integral_map h3.measurable.aemeasurable mQ.aestronglyMeasurable]
    rw [e1, e3, integral_prod _ iQ, link]
    congr 1
    funext u
    dsimp only
    rw [integral_const_mul, ih (i + 1) (by omega)]

/-- the ratio of the links to two right ends varies less and less with the left end -/
theorem link_ratio (K : Kernels k m M) (i n : ℕ) (y y' : X) :
    ∃ lo hi : ℝ, hi - lo ≤ (1 - m / M) ^ n * (M / m) ∧
      ∀ x, lo * link μ k i n x y' ≤ link μ k i n x y ∧ link μ k i n x y ≤ hi * link μ k i n x y' := by
  have M0 : 0 < M := K.pos.trans_le ((K.lo i y y).trans (K.hi _ _ _))
  have m0 := K.pos
  induction n generalizing i with
  | zero =>
    refine ⟨0, M / m, by simp, fun x => ⟨?_, ?_⟩⟩
    · rw [zero_mul]
      exact (link_pos K i 0 x y).le
    · refine (K.hi i x y).trans ?_
      calc M = M / m * m := by field_simp
        _ ≤ _ := mul_le_mul_of_nonneg_left (K.lo i x y') (by positivity)
  | succ n ih =>
    obtain ⟨lo, hi, hd, hb⟩ := ih (i + 1)
    let D : X → ℝ := fun u => link μ k (i + 1) n u y'
    let N : X → ℝ := fun u => link μ k (i + 1) n u y
    have iD : Integrable D μ := bi ((link_meas K (i + 1) n).comp (measurable_id.prodMk measurable_const)) fun u => link_abs K _ _ _ _
    have iN : Integrable N μ := bi ((link_meas K (i + 1) n).comp (measurable_id.prodMk measurable_const)) fun u => link_abs K _ _ _ _
    set b := ∫ u, D u ∂μ with hbdef
    set a := ∫ u, N u ∂μ with hadef
    have b0 : 0 < b := by
      have h := integral_mono (integrable_const (m ^ (n + 1))) iD fun u => (link_bound K (i + 1) n u y').1
      simp only [integral_const, probReal_univ, smul_eq_mul, one_mul] at h
      exact (pow_pos m0 _).trans_le h
    have a1 : lo * b ≤ a := by
      have h := integral_mono (iD.const_mul lo) iN fun u => (hb u).1
      rwa [integral_const_mul] at h
    have a2 : a ≤ hi * b := by
      have h := integral_mono iN (iD.const_mul hi) fun u => (hb u).2
      rwa [integral_const_mul] at h
    refine ⟨lo + m / M * ((a - lo * b) / b), hi - m / M * ((hi * b - a) / b), ?_, fun x => ?_⟩
    · have e : hi - m / M * ((hi * b - a) / b) - (lo + m / M * ((a - lo * b) / b)) = (1 - m / M) * (hi - lo) := by
        field_simp
        ring
      have q0 : 0 ≤ 1 - m / M := by
        rw [sub_nonneg, div_le_one M0]
        exact (K.lo i y y).trans (K.hi _ _ _)
      rw [e, pow_succ', mul_assoc]
      exact mul_le_mul_of_nonneg_left hd q0
    · have iKD := link_step_int (μ := μ) K i n x y'
      have iKN := link_step_int (μ := μ) K i n x y
      have up : link μ k i (n + 1) x y' ≤ M * b := by
        rw [link, hbdef, ← integral_const_mul]
        exact integral_mono iKD (iD.const_mul M) fun u => mul_le_mul_of_nonneg_right (K.hi _ _ _) (link_pos K _ _ _ _).le
      have l1 : m * (a - lo * b) ≤ link μ k i (n + 1) x y - lo * link μ k i (n + 1) x y' := by
        rw [link, link, hbdef, hadef, ← integral_const_mul, ← integral_sub iN (iD.const_mul lo), ← integral_const_mul,
          ← integral_const_mul, ← integral_sub iKN (iKD.const_mul lo)]
        refine integral_mono ((iN.sub (iD.const_mul lo)).const_mul m) (iKN.sub (iKD.const_mul lo)) fun u => ?_
        have h1 := (hb u).1
        have h2 := K.lo i x u
        have h3 : 0 ≤ link μ k (i + 1) n u y - lo * link μ k (i + 1) n u y' := by linarith
        have h4 := mul_le_mul_of_nonneg_right h2 h3
        simp only [D, N]
        calc m * (link μ k (i + 1) n u y - lo * link μ k (i + 1) n u y') ≤ _ := h4
          _ = _ := by ring
      have l2 : m * (hi * b - a) ≤ hi * link μ k i (n + 1) x y' - link μ k i (n + 1) x y := by
        rw [link, link, hbdef, hadef, ← integral_const_mul, ← integral_sub (iD.const_mul hi) iN, ← integral_const_mul,
          ← integral_const_mul, ← integral_sub (iKD.const_mul hi) iKN]
        refine integral_mono (((iD.const_mul hi).sub iN).const_mul m) ((iKD.const_mul hi).sub iKN) fun u => ?_
        have h1 := (hb u).2
        have h2 := K.lo i x u
        have h3 : 0 ≤ hi * link μ k (i + 1) n u y' - link μ k (i + 1) n u y := by linarith
        have h4 := mul_le_mul_of_nonneg_right h2 h3
        simp only [D, N]
        calc m * (hi * link μ k (i + 1) n u y' - link μ k (i + 1) n u y) ≤ _ := h4
          _ = _ := by ring
      have key : ∀ t, 0 ≤ t → m / M * (t / b) * link μ k i (n + 1) x y' ≤ m * t := fun t t0 => by
        calc m / M * (t / b) * link μ k i (n + 1) x y' ≤ m / M * (t / b) * (M * b) :=
              mul_le_mul_of_nonneg_left up (by positivity)
          _ = m * t := by field_simp
      have k1 := key (a - lo * b) (by linarith)
      have k2 := key (hi * b - a) (by linarith)
      constructor
      · rw [add_mul]
        linarith
      · rw [sub_mul]
        linarith

theorem link_swap (K : Kernels k m M) (i n : ℕ) (x y y' : X) : link μ k i n x y' ≤ M / m * link μ k i n x y := by
  have M0 : 0 < M := K.pos.trans_le ((K.lo i y y).trans (K.hi _ _ _))
  have m0 := K.pos
  induction n generalizing i x with
  | zero =>
    refine (K.hi i x y').trans ?_
    calc M = M / m * m := by field_simp
      _ ≤ _ := mul_le_mul_of_nonneg_left (K.lo i x y) (by positivity)
  | succ n ih =>
    rw [link, link, ← integral_const_mul]
    refine integral_mono (link_step_int K i n x y') ((link_step_int K i n x y).const_mul _) fun u => ?_
    calc k i x u * link μ k (i + 1) n u y' ≤ k i x u * (M / m * link μ k (i + 1) n u y) :=
          mul_le_mul_of_nonneg_left (ih (i + 1) u) (m0.le.trans (K.lo _ _ _))
      _ = _ := by ring

/-- how far the two ends of a stretch of `n` integrated sites are from independent -/
noncomputable def slack (m M : ℝ) (n : ℕ) : ℝ := (M / m) ^ 2 * (1 - m / M) ^ n

theorem link_cross (K : Kernels k m M) (i n : ℕ) (x x' y y' : X) :
    link μ k i n x y * link μ k i n x' y' ≤ (1 + slack m M n) * (link μ k i n x y' * link μ k i n x' y) := by
  obtain ⟨lo, hi, hd, hb⟩ := link_ratio (μ := μ) K i n y y'
  have M0 : 0 < M := K.pos.trans_le ((K.lo i y y).trans (K.hi _ _ _))
  have m0 := K.pos
  have q0 : 0 ≤ 1 - m / M := by
    rw [sub_nonneg, div_le_one M0]
    exact (K.lo i y y).trans (K.hi _ _ _)
  have p1 := link_pos (μ := μ) K i n x y'
  have p2 := link_pos (μ := μ) K i n x' y'
  have p3 := link_pos (μ := μ) K i n x' y
  have h1 := mul_le_mul_of_nonneg_right (hb x).2 p2.le
  have h2 := mul_le_mul_of_nonneg_right (hb x').1 p1.le
  have h3 := mul_le_mul_of_nonneg_right hd (mul_pos p1 p2).le
  have h4 := link_swap (μ := μ) K i n x' y y'
  have h5 : (1 - m / M) ^ n * (M / m) * (link μ k i n x y' * link μ k i n x' y') ≤
      (1 - m / M) ^ n * (M / m) * (link μ k i n x y' * (M / m * link μ k i n x' y)) :=
    mul_le_mul_of_nonneg_left (mul_le_mul_of_nonneg_left h4 p1.le) (by positivity)
  have h6 : (1 - m / M) ^ n * (M / m) * (link μ k i n x y' * (M / m * link μ k i n x' y)) =
      slack m M n * (link μ k i n x y' * link μ k i n x' y) := by
    rw [slack]
    ring
  nlinarith [h1, h2, h3, h5, h6]

/-! ### The ring -/

/-- weight of the whole ring -/
def ring (k : ℕ → X → X → ℝ) (hL : 0 < L) (v : Fin L → X) : ℝ := ∏ j ∈ range L, k j (at' hL v j) (at' hL v (j + 1))

/-- weight of the bonds from `i` to `j` -/
def arc (k : ℕ → X → X → ℝ) (hL : 0 < L) (i j : ℕ) (v : Fin L → X) : ℝ := ∏ l ∈ Ico i j, k l (at' hL v l) (at' hL v (l + 1))

theorem arc_meas (K : Kernels k m M) (hL : 0 < L) (i j : ℕ) : Measurable (arc k hL i j) := by
  refine Finset.measurable_prod _ fun l _ => ?_
  have ma : ∀ j, Measurable fun v : Fin L → X => at' hL v j := fun j => measurable_pi_apply _
  exact (K.meas l).comp ((ma l).prodMk (ma (l + 1)))

theorem arc_pos (K : Kernels k m M) (hL : 0 < L) (i j : ℕ) (v : Fin L → X) : 0 < arc k hL i j v :=
  Finset.prod_pos fun l _ => K.pos.trans_le (K.lo l _ _)

theorem arc_abs (K : Kernels k m M) (hL : 0 < L) (i j : ℕ) (v : Fin L → X) : |arc k hL i j v| ≤ M ^ (j - i) := by
  rw [abs_of_pos (arc_pos K hL i j v), ← Nat.card_Ico i j, ← Finset.prod_const]
  exact Finset.prod_le_prod (fun l _ => (K.pos.trans_le (K.lo l _ _)).le) fun l _ => K.hi l _ _

theorem arc_congr (hL : 0 < L) {i j : ℕ} {v w : Fin L → X} (h : ∀ l, i ≤ l → l ≤ j → at' hL v l = at' hL w l) :
    arc k hL i j v = arc k hL i j w := by
  refine Finset.prod_congr rfl fun l hl => ?_
  rw [mem_Ico] at hl
  rw [h l hl.1 (by omega), h (l + 1) (by omega) (by omega)]

theorem at_merge (hL : 0 < L) (A : Fin L → Bool) (u w : Fin L → X) (j : ℕ) :
    at' hL (merge A u w) j = if A ⟨j % L, Nat.mod_lt _ hL⟩ then at' hL u j else at' hL w j := rfl

/-- the weight left when the two gaps, of `n` and of `r` sites, are integrated out: the blocks have `p` and `q` sites -/
noncomputable def cut (μ : Measure X) (k : ℕ → X → X → ℝ) (hL : 0 < L) (p n q r : ℕ) (v : Fin L → X) : ℝ :=
  arc k hL 0 (p - 1) v * arc k hL (p + n) (p + n + q - 1) v *
    (link μ k (p - 1) n (at' hL v (p - 1)) (at' hL v (p + n)) *
      link μ k (p + n + q - 1) r (at' hL v (p + n + q - 1)) (at' hL v L))

theorem ring_split (hL : 0 < L) {p n q r : ℕ} (p0 : 0 < p) (q0 : 0 < q) (e : p + n + q + r = L) (v : Fin L → X) :
    ring k hL v = arc k hL 0 (p - 1) v * arc k hL (p + n) (p + n + q - 1) v *
      (path k (p - 1) n (at' hL v (p - 1)) (at' hL v) (at' hL v (p + n)) *
        path k (p + n + q - 1) r (at' hL v (p + n + q - 1)) (at' hL v) (at' hL v L)) := by
  have h1 := path_prod (k := k) (p - 1) n (at' hL v)
  have h2 := path_prod (k := k) (p + n + q - 1) r (at' hL v)
  rw [show p - 1 + n + 1 = p + n by omega] at h1
  rw [show p + n + q - 1 + r + 1 = L by omega] at h2
  rw [← h1, ← h2, ring, range_eq_Ico, ← Finset.prod_Ico_consecutive _ (Nat.zero_le (p - 1)) (show p - 1 ≤ L by omega),
    ← Finset.prod_Ico_consecutive _ (show p - 1 ≤ p + n by omega) (show p + n ≤ L by omega),
    ← Finset.prod_Ico_consecutive _ (show p + n ≤ p + n + q - 1 by omega) (show p + n + q - 1 ≤ L by omega)]
  simp only [arc]
  ring

theorem int_merge (G : Fin L → Bool) {F : (Fin L → X) → ℝ} (mF : Measurable F) :
    ∫ v, F v ∂(Measure.pi fun _ => μ) =
      ∫ p : (Fin L → X) × (Fin L → X), F (merge G p.2 p.1) ∂((Measure.pi fun _ => μ).prod (Measure.pi fun _ => μ)) := by
  have h0 := (merge_pres (μ := μ) (L := L) G).comp Measure.measurePreserving_swap
  conv_lhs => rw [← h0.map_eq]
  rw [integral_map h0.measurable.aemeasurable mF.aestronglyMeasurable]
  rfl

theorem gaps_int (K : Kernels k m M) (hL : 0 < L) {p n q r : ℕ} (p0 : 0 < p) (q0 : 0 < q) (e : p + n + q + r = L)
    (x y x' y' : X) :
    ∫ z : Fin L → X, path k (p - 1) n x (at' hL z) y * path k (p + n + q - 1) r x' (at' hL z) y'
        ∂(Measure.pi fun _ => μ) = link μ k (p - 1) n x y * link μ k (p + n + q - 1) r x' y' := by
  have mp : ∀ i n (x y : X), Measurable fun z : Fin L → X => path k i n x (at' hL z) y := fun i n x y =>
    (path_meas K hL i n).comp (measurable_const.prodMk (measurable_id.prodMk measurable_const))
  rw [int_merge (F := fun z => path k (p - 1) n x (at' hL z) y * path k (p + n + q - 1) r x' (at' hL z) y')
      (fun j => decide (p + n ≤ j.1)) ((mp _ _ _ _).mul (mp _ _ _ _)),
    ← path_int (μ := μ) K hL (p - 1) n (by omega) x y, ← path_int (μ := μ) K hL (p + n + q - 1) r (by omega) x' y',
    ← integral_prod_mul]
  congr 1
  funext z
  congr 1
  · refine path_congr _ _ _ _ fun j h1 h2 => ?_
    have : j % L = j := Nat.mod_eq_of_lt (by omega)
    rw [at_merge, if_neg]
    simp only [this, decide_eq_true_eq]
    omega
  · refine path_congr _ _ _ _ fun j h1 h2 => ?_
    have : j % L = j := Nat.mod_eq_of_lt (by omega)
    rw [at_merge, if_pos]
    simp only [this, decide_eq_true_eq]
    omega

/-- the sites of the two gaps -/
def gaps (L p n q : ℕ) : Fin L → Bool := fun j => (decide (p ≤ j.1) && decide (j.1 < p + n)) || decide (p + n + q ≤ j.1)

theorem at_gaps (hL : 0 < L) {p n q r : ℕ} (p0 : 0 < p) (e : p + n + q + r = L) (z v : Fin L → X) {j : ℕ}
    (h : j < p ∨ (p + n ≤ j ∧ j < p + n + q) ∨ j = L) : at' hL (merge (gaps L p n q) z v) j = at' hL v j := by
  rw [at_merge, if_neg]
  simp only [gaps]
  rcases h with h | h | h
  · have : j % L = j := Nat.mod_eq_of_lt (by omega)
    simp [this]
    omega
  · have : j % L = j := Nat.mod_eq_of_lt (by omega)
    simp [this]
    omega
  · subst h
    simp
    omega

theorem at_gaps' (hL : 0 < L) {p n q r : ℕ} (e : p + n + q + r = L) (z v : Fin L → X) {j : ℕ}
    (h : (p ≤ j ∧ j < p + n) ∨ (p + n + q ≤ j ∧ j < L)) : at' hL (merge (gaps L p n q) z v) j = at' hL z j := by
  have : j % L = j := Nat.mod_eq_of_lt (by omega)
  rw [at_merge, if_pos]
  simp only [gaps, this]
  rcases h with h | h
  · simp [h]
  · simp [h]

theorem ring_meas (K : Kernels k m M) (hL : 0 < L) : Measurable (ring k hL) := by
  have h : ring k hL = arc k hL 0 L := by
    funext v
    rw [ring, arc, range_eq_Ico]
  rw [h]
  exact arc_meas K hL 0 L

theorem ring_int (K : Kernels k m M) (hL : 0 < L) {p n q r : ℕ} (p0 : 0 < p) (q0 : 0 < q) (e : p + n + q + r = L)
    {φ : (Fin L → X) → ℝ} {C : ℝ} (mφ : Measurable φ) (bφ : ∀ v, |φ v| ≤ C) (hφ : ∀ z v, φ (merge (gaps L p n q) z v) = φ v) :
    ∫ v, ring k hL v * φ v ∂(Measure.pi fun _ => μ) = ∫ v, cut μ k hL p n q r v * φ v ∂(Measure.pi fun _ => μ) := by
  have key : ∀ z v : Fin L → X, ring k hL (merge (gaps L p n q) z v) * φ (merge (gaps L p n q) z v) =
      arc k hL 0 (p - 1) v * arc k hL (p + n) (p + n + q - 1) v * φ v *
        (path k (p - 1) n (at' hL v (p - 1)) (at' hL z) (at' hL v (p + n)) *
          path k (p + n + q - 1) r (at' hL v (p + n + q - 1)) (at' hL z) (at' hL v L)) := fun z v => by
    rw [hφ, ring_split hL p0 q0 e, at_gaps hL p0 e z v (j := p - 1) (by omega), at_gaps hL p0 e z v (j := p + n) (by omega),
      at_gaps hL p0 e z v (j := p + n + q - 1) (by omega), at_gaps hL p0 e z v (j := L) (by omega),
      arc_congr (k := k) hL (v := merge (gaps L p n q) z v) (w := v) (i := 0) (j := p - 1) fun l _ h =>
        at_gaps hL p0 e z v (by omega),
      arc_congr (k := k) hL (v := merge (gaps L p n q) z v) (w := v) (i := p + n) (j := p + n + q - 1) fun l _ h =>
        at_gaps hL p0 e z v (by omega),
      path_congr (k := k) (p - 1) n (ζ := at' hL (merge (gaps L p n q) z v)) (ξ := at' hL z) _ _ fun j h1 h2 =>
        at_gaps' hL e z v (by omega),
      path_congr (k := k) (p + n + q - 1) r (ζ := at' hL (merge (gaps L p n q) z v)) (ξ := at' hL z) _ _ fun j h1 h2 =>
        at_gaps' hL e z v (by omega)]
    ring
  have mR := ring_meas K hL
  have bR : ∀ v, |ring k hL v| ≤ M ^ L := fun v => by
    have h : ring k hL v = arc k hL 0 L v := by rw [ring, arc, range_eq_Ico]
    rw [h]
    simpa using arc_abs K hL 0 L v
  have mm : Measurable fun p' : (Fin L → X) × (Fin L → X) => merge (gaps L p n q) p'.2 p'.1 :=
    (merge_meas _).comp measurable_swap
  have iF : Integrable (fun p' : (Fin L → X) × (Fin L → X) =>
      ring k hL (merge (gaps L p n q) p'.2 p'.1) * φ (merge (gaps L p n q) p'.2 p'.1))
      ((Measure.pi fun _ => μ).prod (Measure.pi fun _ => μ)) :=
    bi ((mR.comp mm).mul (mφ.comp mm)) fun v => mul_abs (bR _) (bφ _)
  rw [int_merge (F := fun v => ring k hL v * φ v) (gaps L p n q) (mR.mul mφ), integral_prod _ iF]
  congr 1
  funext v
  simp only [key]
  rw [integral_const_mul, gaps_int K hL p0 q0 e, cut]
  ring

theorem ring_cov (K : Kernels k m M) (hL : 0 < L) {p n q r : ℕ} (p0 : 0 < p) (q0 : 0 < q) (e : p + n + q + r = L)
    {f g : (Fin L → X) → ℝ} {C C' : ℝ} (mf : Measurable f) (mg : Measurable g) (bf : ∀ v, |f v| ≤ C) (bg : ∀ v, |g v| ≤ C')
    (hf : ∀ v w : Fin L → X, (∀ i : Fin L, p + n ≤ i.1 → i.1 < p + n + q → v i = w i) → f v = f w)
    (hg : ∀ v w : Fin L → X, (∀ i : Fin L, i.1 < p → v i = w i) → g v = g w) :
    |(∫ v, ring k hL v * (f v * g v) ∂(Measure.pi fun _ => μ)) * (∫ v, ring k hL v ∂(Measure.pi fun _ => μ)) -
        (∫ v, ring k hL v * f v ∂(Measure.pi fun _ => μ)) * ∫ v, ring k hL v * g v ∂(Measure.pi fun _ => μ)| ≤
      ((1 + slack m M n) * (1 + slack m M r) - 1) * C * C' * (∫ v, ring k hL v ∂(Measure.pi fun _ => μ)) ^ 2 := by
  have fG : ∀ z v, f (merge (gaps L p n q) z v) = f v := fun z v => hf _ _ fun i h1 h2 => by
    rw [merge, if_neg]
    simp [gaps]
    omega
  have gG : ∀ z v, g (merge (gaps L p n q) z v) = g v := fun z v => hg _ _ fun i h1 => by
    rw [merge, if_neg]
    simp [gaps]
    omega
  have e1 := ring_int (μ := μ) K hL p0 q0 e (φ := fun v => f v * g v) (mf.mul mg) (fun v => mul_abs (bf v) (bg v))
    fun z v => by rw [fG, gG]
  have e2 := ring_int (μ := μ) K hL p0 q0 e mf bf fG
  have e3 := ring_int (μ := μ) K hL p0 q0 e mg bg gG
  have e4 := ring_int (μ := μ) K hL p0 q0 e (φ := fun _ => 1) (C := 1) measurable_const (fun _ => by simp) fun _ _ => rfl
  simp only [mul_one] at e4
  rw [e1, e2, e3, e4]
  have ma : ∀ j, Measurable fun v : Fin L → X => at' hL v j := fun j => measurable_pi_apply _
  refine cov_swap (μ := μ) (fun j => decide (p + n ≤ j.1) && decide (j.1 < p + n + q)) (V := cut μ k hL p n q r)
    (D := M ^ (p - 1 - 0) * M ^ (p + n + q - 1 - (p + n)) * (M ^ (n + 1) * M ^ (r + 1)))
    (((arc_meas K hL _ _).mul (arc_meas K hL _ _)).mul
      (((link_meas K _ _).comp ((ma _).prodMk (ma _))).mul ((link_meas K _ _).comp ((ma _).prodMk (ma _)))))
    mf mg ?_ ?_ bf bg ?_ ?_ ?_
  · intro v
    exact mul_nonneg (mul_nonneg (arc_pos K hL _ _ _).le (arc_pos K hL _ _ _).le)
      (mul_nonneg (link_pos K _ _ _ _).le (link_pos K _ _ _ _).le)
  · intro v
    exact (le_abs_self _).trans (mul_abs (mul_abs (arc_abs K hL _ _ _) (arc_abs K hL _ _ _))
      (mul_abs (link_abs K _ _ _ _) (link_abs K _ _ _ _)))
  · intro u w
    refine hf _ _ fun i h1 h2 => ?_
    rw [merge, if_pos]
    simp [h1, h2]
  · intro u w
    refine hg _ _ fun i h1 => ?_
    rw [merge, if_neg]
    simp
    omega
  · intro v w
    have inA : ∀ (v w : Fin L → X) (j : ℕ), p + n ≤ j → j < p + n + q →
        at' hL (merge (fun j : Fin L => decide (p + n ≤ j.1) && decide (j.1 < p + n + q)) v w) j = at' hL v j :=
      fun v w j h1 h2 => by
        have : j % L = j := Nat.mod_eq_of_lt (by omega)
        rw [at_merge, if_pos]
        simp [this, h1, h2]
    have inB : ∀ (v w : Fin L → X) (j : ℕ), j < p →
        at' hL (merge (fun j : Fin L => decide (p + n ≤ j.1) && decide (j.1 < p + n + q)) v w) j = at' hL w j :=
      fun v w j h1 => by
        have : j % L = j := Nat.mod_eq_of_lt (by omega)
        rw [at_merge, if_neg]
        simp [this]
        omega
    have inL : ∀ (v w : Fin L → X),
        at' hL (merge (fun j : Fin L => decide (p + n ≤ j.1) && decide (j.1 < p + n + q)) v w) L = at' hL w L :=
      fun v w => by
        rw [at_merge, if_neg]
        simp
        omega
    have s0 : ∀ n, 0 ≤ slack m M n := fun n => by
      have M0 : 0 < M := K.pos.trans_le ((K.lo 0 (v ⟨0, hL⟩) (v ⟨0, hL⟩)).trans (K.hi _ _ _))
      have q0 : 0 ≤ 1 - m / M := by
        rw [sub_nonneg, div_le_one M0]
        exact (K.lo 0 (v ⟨0, hL⟩) (v ⟨0, hL⟩)).trans (K.hi _ _ _)
      rw [slack]
      positivity
    have cut_eq : ∀ v w : Fin L → X,
        cut μ k hL p n q r (merge (fun j : Fin L => decide (p + n ≤ j.1) && decide (j.1 < p + n + q)) w v) =
          arc k hL 0 (p - 1) v * arc k hL (p + n) (p + n + q - 1) w *
            (link μ k (p - 1) n (at' hL v (p - 1)) (at' hL w (p + n)) *
              link μ k (p + n + q - 1) r (at' hL w (p + n + q - 1)) (at' hL v L)) := fun v w => by
      rw [cut, inA w v (p + n) (by omega) (by omega), inA w v (p + n + q - 1) (by omega) (by omega),
        inB w v (p - 1) (by omega), inL,
        arc_congr (k := k) hL (w := v) (i := 0) (j := p - 1) fun l _ h => inB w v l (by omega),
        arc_congr (k := k) hL (w := w) (i := p + n) (j := p + n + q - 1) fun l _ h => inA w v l (by omega) (by omega)]
    rw [cut_eq, cut_eq, cut, cut]
    have pa := arc_pos K hL 0 (p - 1) v
    have pb := arc_pos K hL 0 (p - 1) w
    have pc := arc_pos K hL (p + n) (p + n + q - 1) v
    have pd := arc_pos K hL (p + n) (p + n + q - 1) w
    set a1 := arc k hL 0 (p - 1) v
    set a2 := arc k hL 0 (p - 1) w
    set a3 := arc k hL (p + n) (p + n + q - 1) v
    set a4 := arc k hL (p + n) (p + n + q - 1) w
    have c1 := link_cross (μ := μ) K (p - 1) n (at' hL v (p - 1)) (at' hL w (p - 1)) (at' hL v (p + n)) (at' hL w (p + n))
    have c2 := link_cross (μ := μ) K (p - 1) n (at' hL v (p - 1)) (at' hL w (p - 1)) (at' hL w (p + n)) (at' hL v (p + n))
    have c3 := link_cross (μ := μ) K (p + n + q - 1) r (at' hL v (p + n + q - 1)) (at' hL w (p + n + q - 1)) (at' hL v L)
      (at' hL w L)
    have c4 := link_cross (μ := μ) K (p + n + q - 1) r (at' hL v (p + n + q - 1)) (at' hL w (p + n + q - 1)) (at' hL w L)
      (at' hL v L)
    have P := fun x y => link_pos (μ := μ) K (p - 1) n x y
    have Q := fun x y => link_pos (μ := μ) K (p + n + q - 1) r x y
    set x1 := link μ k (p - 1) n (at' hL v (p - 1)) (at' hL v (p + n))
    set x2 := link μ k (p - 1) n (at' hL w (p - 1)) (at' hL w (p + n))
    set x3 := link μ k (p - 1) n (at' hL v (p - 1)) (at' hL w (p + n))
    set x4 := link μ k (p - 1) n (at' hL w (p - 1)) (at' hL v (p + n))
    set y1 := link μ k (p + n + q - 1) r (at' hL v (p + n + q - 1)) (at' hL v L)
    set y2 := link μ k (p + n + q - 1) r (at' hL w (p + n + q - 1)) (at' hL w L)
    set y3 := link μ k (p + n + q - 1) r (at' hL v (p + n + q - 1)) (at' hL w L)
    set y4 := link μ k (p + n + q - 1) r (at' hL w (p + n + q - 1)) (at' hL v L)
    have x1p : 0 < x1 := P _ _
    have x2p : 0 < x2 := P _ _
    have x3p : 0 < x3 := P _ _
    have x4p : 0 < x4 := P _ _
    have y1p : 0 < y1 := Q _ _
    have y2p : 0 < y2 := Q _ _
    have y3p : 0 < y3 := Q _ _
    have y4p : 0 < y4 := Q _ _
    set s := slack m M n
    set t := slack m M r
    have hs : 0 ≤ s := s0 n
    have ht : 0 ≤ t := s0 r
    have d1 : (x1 * x2) * (y1 * y2) ≤ ((1 + s) * (1 + t)) * ((x3 * x4) * (y3 * y4)) := by
      refine (mul_le_mul c1 c3 (by positivity) (by positivity)).trans (le_of_eq ?_)
      ring
    have d2 : (x3 * x4) * (y3 * y4) ≤ ((1 + s) * (1 + t)) * ((x1 * x2) * (y1 * y2)) := by
      refine (mul_le_mul c2 c4 (by positivity) (by positivity)).trans (le_of_eq ?_)
      ring
    have w0 : 0 < a1 * a2 * (a3 * a4) := by positivity
    have g1 : a1 * a3 * (x1 * y1) * (a2 * a4 * (x2 * y2)) - a1 * a4 * (x3 * y4) * (a2 * a3 * (x4 * y3)) =
        a1 * a2 * (a3 * a4) * ((x1 * x2) * (y1 * y2) - (x3 * x4) * (y3 * y4)) := by ring
    have g2 : ((1 + s) * (1 + t) - 1) * (a1 * a3 * (x1 * y1) * (a2 * a4 * (x2 * y2))) =
        a1 * a2 * (a3 * a4) * (((1 + s) * (1 + t) - 1) * ((x1 * x2) * (y1 * y2))) := by ring
    rw [g1, g2, abs_mul, abs_of_pos w0]
    refine mul_le_mul_of_nonneg_left ?_ w0.le
    have z1 : 0 < (x1 * x2) * (y1 * y2) := by positivity
    have z2 : 0 < (x3 * x4) * (y3 * y4) := by positivity
    set A := (x1 * x2) * (y1 * y2)
    set B := (x3 * x4) * (y3 * y4)
    have c1' : 1 ≤ (1 + s) * (1 + t) := by nlinarith
    rw [abs_le]
    constructor
    · linarith
    · rcases le_total A B with h | h
      · nlinarith
      · nlinarith

end Verif.Cluster
