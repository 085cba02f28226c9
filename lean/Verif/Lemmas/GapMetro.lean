/-
Helper lemmas: the Metropolis update with independent proposals is a positive self-adjoint operator; when the variance is
controlled by the squared changes of single entries it contracts by a fixed factor in the mean square.
-/
import Verif.Lemmas.Gap
import Mathlib.MeasureTheory.Measure.Lebesgue.Basic
import Mathlib.Algebra.QuadraticDiscriminant

set_option linter.unusedSectionVars false

namespace Verif.Gap

open MeasureTheory Function

section
variable {X : Type} [MeasurableSpace X] {L : ℕ} {σ : Measure X} [IsProbabilityMeasure σ] {W : (Fin L → X) → ℝ}

/-- acceptance probability -/
noncomputable def ac (W : (Fin L → X) → ℝ) (v v' : Fin L → X) : ℝ := min 1 (W v' / W v)

/-- one attempted move at site `i` -/
noncomputable def Q (σ : Measure X) (W : (Fin L → X) → ℝ) (i : Fin L) (f : (Fin L → X) → ℝ) (v : Fin L → X) : ℝ :=
  ∫ x, (ac W v (update v i x) * f (update v i x) + (1 - ac W v (update v i x)) * f v) ∂σ

/-- one attempted move at a random site -/
noncomputable def P (σ : Measure X) (W : (Fin L → X) → ℝ) (f : (Fin L → X) → ℝ) (v : Fin L → X) : ℝ := (∑ i, Q σ W i f v) / L

/-- the kernel `min` is positive definite -/
theorem min_pos {A : Type} [MeasurableSpace A] {μ : Measure A} [IsProbabilityMeasure μ] {w φ : A → ℝ} (hw : Nice w) (w0 : ∀ x, 0 ≤ w x)
    (hφ : Nice φ) : 0 ≤ ∫ x, ∫ y, min (w x) (w y) * (φ x * φ y) ∂μ ∂μ := by
  obtain ⟨C, hC⟩ := hw.bdd
  set M := max C 1 with hM
  have M0 : 0 < M := lt_of_lt_of_le one_pos (le_max_right _ _)
  have hwM : ∀ x, w x ≤ M := fun x => (le_abs_self _).trans ((hC x).trans (le_max_left _ _))
  set lam : Measure ℝ := volume.restrict (Set.Ioc 0 M) with hlam
  have : IsFiniteMeasure lam := ⟨by rw [hlam, Measure.restrict_apply_univ, Real.volume_Ioc]; exact ENNReal.ofReal_lt_top⟩
  set ind : ℝ → A → ℝ := fun t x => if t ≤ w x then 1 else 0 with hind
  have hmin : ∀ x y, min (w x) (w y) = ∫ t, ind t x * ind t y ∂lam := fun x y => by
    have e : ∀ t, ind t x * ind t y = (Set.Iic (min (w x) (w y))).indicator (fun _ => (1 : ℝ)) t := fun t => by
      rw [hind]
      dsimp only
      by_cases h1 : t ≤ w x <;> by_cases h2 : t ≤ w y <;> simp [h1, h2]
    simp only [e]
    rw [integral_indicator_const _ measurableSet_Iic, hlam, measureReal_restrict_apply measurableSet_Iic]
    have e2 : Set.Iic (min (w x) (w y)) ∩ Set.Ioc 0 M = Set.Ioc 0 (min (w x) (w y)) := by
      ext t
      simp only [Set.mem_inter_iff, Set.mem_Iic, Set.mem_Ioc]
      constructor
      · rintro ⟨h1, h2, _⟩
        exact ⟨h2, h1⟩
      · rintro ⟨h1, h2⟩
        exact ⟨h2, h1, h2.trans ((min_le_left _ _).trans (hwM x))⟩
    rw [e2, measureReal_def, Real.volume_Ioc, sub_zero, ENNReal.toReal_ofReal (le_min (w0 x) (w0 y))]
    simp
  have n1 : Nice fun r : ℝ × A => ind r.1 r.2 := by
    refine ⟨Measurable.ite (measurableSet_le measurable_fst (hw.meas.comp measurable_snd)) measurable_const measurable_const, 1, fun r => ?_⟩
    rw [hind]
    dsimp only
    split_ifs <;> simp
  have e1 : ∀ x y, min (w x) (w y) * (φ x * φ y) = ∫ t, (ind t x * φ x) * (ind t y * φ y) ∂lam := fun x y => by
    rw [hmin, ← integral_mul_const]
    congr 1
    funext t
    ring
  simp only [e1]
  have n2 : Nice fun r : ℝ × A => ind r.1 r.2 * φ r.2 := n1.mul (hφ.comp measurable_snd)
  have n3 : Nice fun r : (A × A) × ℝ => (ind r.2 r.1.1 * φ r.1.1) * (ind r.2 r.1.2 * φ r.1.2) := by
    have b1 : Measurable fun r : (A × A) × ℝ => (r.2, r.1.1) := measurable_snd.prodMk (measurable_fst.comp measurable_fst)
    have b2 : Measurable fun r : (A × A) × ℝ => (r.2, r.1.2) := measurable_snd.prodMk (measurable_snd.comp measurable_fst)
    exact (n2.comp b1).mul (n2.comp b2)
  have e2 : ∫ x, ∫ y, ∫ t, (ind t x * φ x) * (ind t y * φ y) ∂lam ∂μ ∂μ
      = ∫ q : A × A, ∫ t, (ind t q.1 * φ q.1) * (ind t q.2 * φ q.2) ∂lam ∂(μ.prod μ) := by
    rw [integral_prod]
    exact (n3.int ((μ.prod μ).prod lam)).integral_prod_left
  rw [e2, integral_integral_swap (f := fun (q : A × A) t => (ind t q.1 * φ q.1) * (ind t q.2 * φ q.2)) (n3.int ((μ.prod μ).prod lam))]
  refine integral_nonneg fun t => ?_
  show 0 ≤ ∫ q : A × A, (ind t q.1 * φ q.1) * (ind t q.2 * φ q.2) ∂(μ.prod μ)
  rw [integral_prod_mul (fun x => ind t x * φ x) (fun x => ind t x * φ x)]
  exact mul_self_nonneg _

variable (hW : Nice W) (W0 : ∀ v, 0 < W v)
include hW W0

theorem ac_nice (i : Fin L) : Nice fun q : (Fin L → X) × X => ac W q.1 (update q.1 i q.2) := by
  refine ⟨measurable_const.min ((hW.meas.comp (upd_meas i)).div (hW.meas.comp measurable_fst)), 1, fun q => ?_⟩
  unfold ac
  rw [abs_of_nonneg (le_min zero_le_one (div_pos (W0 _) (W0 _)).le)]
  exact min_le_left _ _

omit hW in
theorem ac_W (v v' : Fin L → X) : W v * ac W v v' = min (W v) (W v') := by
  rw [ac, mul_min_of_nonneg _ _ (W0 v).le, mul_one, mul_div_cancel₀ _ (W0 v).ne']

omit hW in
theorem ac_le (v v' : Fin L → X) : ac W v v' ≤ 1 := min_le_left _ _

omit hW in
theorem ac_nonneg (v v' : Fin L → X) : 0 ≤ ac W v v' := le_min zero_le_one (div_pos (W0 _) (W0 _)).le

theorem Q_nice {f : (Fin L → X) → ℝ} (hf : Nice f) (i : Fin L) : Nice (Q σ W i f) := by
  have n1 := ac_nice hW W0 i
  exact ((n1.mul (hf.comp (upd_meas i))).add (((Nice.const 1).sub n1).mul (hf.comp measurable_fst)) :
    Nice fun q : (Fin L → X) × X => ac W q.1 (update q.1 i q.2) * f (update q.1 i q.2) + (1 - ac W q.1 (update q.1 i q.2)) * f q.1).integral σ

omit hW W0 in
theorem Nice.sum {A B : Type} [MeasurableSpace A] {s : Finset B} {g : B → A → ℝ} (h : ∀ i ∈ s, Nice (g i)) : Nice fun x => ∑ i ∈ s, g i x := by
  classical
  induction s using Finset.induction_on with
  | empty => simpa using Nice.const (A := A) 0
  | insert b s hb ih =>
    have := (h b (Finset.mem_insert_self b s)).add (ih fun i hi => h i (Finset.mem_insert_of_mem hi))
    simpa only [Finset.sum_insert hb] using this

theorem P_nice {f : (Fin L → X) → ℝ} (hf : Nice f) : Nice (P σ W f) := by
  have h : Nice fun v => ∑ i, Q σ W i f v := Nice.sum fun i _ => Q_nice hW W0 hf i
  have e : P σ W f = fun v => (L : ℝ)⁻¹ * ∑ i, Q σ W i f v := by
    funext v
    rw [P, div_eq_inv_mul]
  rw [e]
  exact (Nice.const _).mul h

/-- inner product -/
noncomputable def ip (σ : Measure X) (W : (Fin L → X) → ℝ) (f g : (Fin L → X) → ℝ) : ℝ := ∫ v, W v * (f v * g v) ∂(Measure.pi fun _ => σ)

/-- energy form -/
noncomputable def fm (σ : Measure X) (W : (Fin L → X) → ℝ) (i : Fin L) (f g : (Fin L → X) → ℝ) : ℝ :=
  ∫ v, ∫ x, min (W v) (W (update v i x)) * ((f (update v i x) - f v) * (g (update v i x) - g v)) ∂σ ∂(Measure.pi fun _ => σ)

/-- the part of the update that moves -/
theorem Q_ip {f g : (Fin L → X) → ℝ} (hf : Nice f) (hg : Nice g) (i : Fin L) :
    ip σ W g (Q σ W i f) = ip σ W g f - 1 / 2 * fm σ W i f g := by
  set π : Measure (Fin L → X) := Measure.pi fun _ => σ with hπ
  have nm : Nice fun r : (Fin L → X) × (Fin L → X) => min (W r.1) (W r.2) := by
    obtain ⟨C, hC⟩ := hW.bdd
    refine ⟨(hW.meas.comp measurable_fst).min (hW.meas.comp measurable_snd), C, fun r => ?_⟩
    rw [abs_of_nonneg (le_min (W0 _).le (W0 _).le)]
    exact (min_le_left _ _).trans ((le_abs_self _).trans (hC _))
  have hu : Measurable fun q : (Fin L → X) × X => (q.1, update q.1 i q.2) := measurable_fst.prodMk (upd_meas i)
  -- F v v' = min · g v · (f v' - f v)
  set F : (Fin L → X) × (Fin L → X) → ℝ := fun r => min (W r.1) (W r.2) * (g r.1 * (f r.2 - f r.1)) with hF
  have nF : Nice F := nm.mul ((hg.comp measurable_fst).mul ((hf.comp measurable_snd).sub (hf.comp measurable_fst)))
  have h1 : ip σ W g (Q σ W i f) = ip σ W g f + ∫ v, ∫ x, F (v, update v i x) ∂σ ∂π := by
    have nF' : Nice fun v => ∫ x, F (v, update v i x) ∂σ := (nF.comp hu).integral σ
    unfold ip
    rw [← hπ, ← integral_add ((hW.mul (hg.mul hf)).int π) (nF'.int π)]
    congr 1
    funext v
    have n1 := (ac_nice hW W0 i).comp (u := fun x => (v, x)) (measurable_const.prodMk measurable_id)
    have e : Q σ W i f v = f v + ∫ x, ac W v (update v i x) * (f (update v i x) - f v) ∂σ := by
      have n2 : Nice fun x => ac W v (update v i x) * (f (update v i x) - f v) := n1.mul ((hf.slice v i).sub (Nice.const _))
      have e3 : ∀ x, ac W v (update v i x) * f (update v i x) + (1 - ac W v (update v i x)) * f v
          = f v + ac W v (update v i x) * (f (update v i x) - f v) := fun x => by ring
      unfold Q
      simp only [e3]
      rw [integral_add ((Nice.const _).int σ) (n2.int σ)]
      simp
    rw [e, mul_add, mul_add]
    congr 1
    rw [← mul_assoc, ← integral_const_mul]
    congr 1
    funext x
    rw [hF]
    dsimp only
    rw [← ac_W W0]
    ring
  have h2 := swap_real (σ := σ) nF i
  rw [← hπ] at h2
  have h3 : fm σ W i f g = -(∫ v, ∫ x, F (v, update v i x) ∂σ ∂π) - ∫ v, ∫ x, F (update v i x, v) ∂σ ∂π := by
    have hu' : Measurable fun q : (Fin L → X) × X => (update q.1 i q.2, q.1) := (upd_meas i).prodMk measurable_fst
    have a1 : Nice fun v => ∫ x, F (v, update v i x) ∂σ := (nF.comp hu).integral σ
    have a2 : Nice fun v => ∫ x, F (update v i x, v) ∂σ := (nF.comp hu').integral σ
    have a1' : Nice fun v => -∫ x, F (v, update v i x) ∂σ := by simpa only [neg_one_mul] using (Nice.const (-1)).mul a1
    rw [← integral_neg, ← integral_sub (a1'.int π) (a2.int π)]
    unfold fm
    congr 1
    funext v
    have b1 : Nice fun x => F (v, update v i x) := (nF.comp hu).comp (u := fun x => (v, x)) (measurable_const.prodMk measurable_id)
    have b2 : Nice fun x => F (update v i x, v) := (nF.comp hu').comp (u := fun x => (v, x)) (measurable_const.prodMk measurable_id)
    have b1' : Nice fun x => -F (v, update v i x) := by simpa only [neg_one_mul] using (Nice.const (-1)).mul b1
    rw [← integral_neg, ← integral_sub (b1'.int σ) (b2.int σ)]
    congr 1
    funext x
    rw [hF]
    dsimp only
    rw [min_comm (W (update v i x))]
    ring
  rw [h1, h3, ← h2]
  ring

omit hW W0 in
theorem fm_comm (f g : (Fin L → X) → ℝ) (i : Fin L) : fm σ W i f g = fm σ W i g f := by
  unfold fm
  simp only [mul_comm]

omit hW W0 in
theorem ip_comm (f g : (Fin L → X) → ℝ) : ip σ W f g = ip σ W g f := by
  unfold ip
  simp only [mul_comm]

/-- one attempted move is a positive operator -/
theorem Q_pos {f : (Fin L → X) → ℝ} (hf : Nice f) (i : Fin L) : 0 ≤ ip σ W f (Q σ W i f) := by
  set π : Measure (Fin L → X) := Measure.pi fun _ => σ with hπ
  have na := ac_nice hW W0 i
  have hu : Measurable fun q : (Fin L → X) × X => (q.1, update q.1 i q.2) := measurable_fst.prodMk (upd_meas i)
  have nmove : Nice fun v => ∫ x, min (W v) (W (update v i x)) * (f v * f (update v i x)) ∂σ := by
    have nm : Nice fun r : (Fin L → X) × X => min (W r.1) (W (update r.1 i r.2)) := by
      obtain ⟨C, hC⟩ := hW.bdd
      refine ⟨(hW.meas.comp measurable_fst).min (hW.meas.comp (upd_meas i)), C, fun r => ?_⟩
      rw [abs_of_nonneg (le_min (W0 _).le (W0 _).le)]
      exact (min_le_left _ _).trans ((le_abs_self _).trans (hC _))
    exact (nm.mul ((hf.comp measurable_fst).mul (hf.comp (upd_meas i)))).integral σ
  have nstay : Nice fun v => ∫ x, W v * ((1 - ac W v (update v i x)) * f v ^ 2) ∂σ :=
    ((hW.comp measurable_fst).mul (((Nice.const 1).sub na).mul (hf.sq.comp measurable_fst)) :
      Nice fun q : (Fin L → X) × X => W q.1 * ((1 - ac W q.1 (update q.1 i q.2)) * f q.1 ^ 2)).integral σ
  have e : ip σ W f (Q σ W i f) = ∫ v, ∫ x, min (W v) (W (update v i x)) * (f v * f (update v i x)) ∂σ ∂π
      + ∫ v, ∫ x, W v * ((1 - ac W v (update v i x)) * f v ^ 2) ∂σ ∂π := by
    rw [← integral_add (nmove.int π) (nstay.int π)]
    unfold ip
    congr 1
    funext v
    have n1 := na.comp (u := fun x => (v, x)) (measurable_const.prodMk measurable_id)
    have n2 : Nice fun x => ac W v (update v i x) * f (update v i x) := n1.mul (hf.slice v i)
    have n3 : Nice fun x => (1 - ac W v (update v i x)) * f v := ((Nice.const 1).sub n1).mul (Nice.const _)
    unfold Q
    rw [integral_add (n2.int σ) (n3.int σ), mul_add, mul_add, ← integral_const_mul, ← integral_const_mul, ← integral_const_mul, ← integral_const_mul]
    congr 1
    · congr 1
      funext x
      rw [← ac_W W0]
      ring
    · congr 1
      funext x
      ring
  rw [e]
  refine add_nonneg ?_ (integral_nonneg fun v => integral_nonneg fun x =>
    mul_nonneg (W0 v).le (mul_nonneg (sub_nonneg.2 (ac_le W0 _ _)) (sq_nonneg _)))
  rw [← resample_real nmove i]
  refine integral_nonneg fun v => ?_
  simp only [update_idem]
  exact min_pos (hW.slice v i) (fun x => (W0 _).le) (hf.slice v i)

omit hW W0 in
/-- linear combinations -/
theorem ip_add (hW : Nice W) {f g h : (Fin L → X) → ℝ} (hf : Nice f) (hg : Nice g) (hh : Nice h) :
    ip σ W h (fun v => f v + g v) = ip σ W h f + ip σ W h g := by
  unfold ip
  rw [← integral_add ((hW.mul (hh.mul hf)).int _) ((hW.mul (hh.mul hg)).int _)]
  simp only [mul_add]

omit hW W0 in
theorem ip_mul (c : ℝ) (f h : (Fin L → X) → ℝ) : ip σ W h (fun v => c * f v) = c * ip σ W h f := by
  unfold ip
  rw [← integral_const_mul]
  congr 1
  funext v
  ring

/-- the update at a random site -/
theorem P_ip {f g : (Fin L → X) → ℝ} (hL : 0 < L) (hf : Nice f) (hg : Nice g) :
    ip σ W g (P σ W f) = ip σ W g f - 1 / (2 * L) * ∑ i, fm σ W i f g := by
  have L0 : (0 : ℝ) < L := by exact_mod_cast hL
  have e : P σ W f = fun v => (L : ℝ)⁻¹ * ∑ i, Q σ W i f v := by
    funext v
    rw [P, div_eq_inv_mul]
  have h1 : ∀ s : Finset (Fin L), ip σ W g (fun v => ∑ i ∈ s, Q σ W i f v) = ∑ i ∈ s, ip σ W g (Q σ W i f) := fun s => by
    induction s using Finset.induction_on with
    | empty =>
      unfold ip
      simp
    | insert b s hb ih =>
      simp only [Finset.sum_insert hb]
      rw [ip_add hW (Q_nice hW W0 hf b) (Nice.sum fun i _ => Q_nice hW W0 hf i) hg, ih]
  rw [e, ip_mul, h1, Finset.sum_congr rfl fun i _ => Q_ip hW W0 hf hg i, Finset.sum_sub_distrib, ← Finset.mul_sum, Finset.sum_const,
    Finset.card_univ, Fintype.card_fin, nsmul_eq_mul]
  field_simp

theorem P_symm {f g : (Fin L → X) → ℝ} (hL : 0 < L) (hf : Nice f) (hg : Nice g) : ip σ W g (P σ W f) = ip σ W f (P σ W g) := by
  rw [P_ip hW W0 hL hf hg, P_ip hW W0 hL hg hf, ip_comm]
  simp only [fm_comm f g]

theorem P_pos {f : (Fin L → X) → ℝ} (hL : 0 < L) (hf : Nice f) : 0 ≤ ip σ W f (P σ W f) := by
  have L0 : (0 : ℝ) < L := by exact_mod_cast hL
  have h1 : ∑ i, ip σ W f (Q σ W i f) = L * ip σ W f (P σ W f) := by
    rw [P_ip hW W0 hL hf hf, Finset.sum_congr rfl fun i _ => Q_ip hW W0 hf hf i, Finset.sum_sub_distrib, ← Finset.mul_sum, Finset.sum_const,
      Finset.card_univ, Fintype.card_fin, nsmul_eq_mul]
    field_simp
  have h2 : 0 ≤ ∑ i, ip σ W f (Q σ W i f) := Finset.sum_nonneg fun i _ => Q_pos hW W0 hf i
  rw [h1] at h2
  exact nonneg_of_mul_nonneg_right h2 L0

theorem Q_lin {f g : (Fin L → X) → ℝ} (hf : Nice f) (hg : Nice g) (t : ℝ) (i : Fin L) (v : Fin L → X) :
    Q σ W i (fun v => f v + t * g v) v = Q σ W i f v + t * Q σ W i g v := by
  have n1 := (ac_nice hW W0 i).comp (u := fun x => (v, x)) (measurable_const.prodMk measurable_id)
  have n2 : ∀ {f : (Fin L → X) → ℝ}, Nice f → Nice fun x => ac W v (update v i x) * f (update v i x) + (1 - ac W v (update v i x)) * f v :=
    fun hf => (n1.mul (hf.slice v i)).add (((Nice.const 1).sub n1).mul (Nice.const _))
  unfold Q
  rw [← integral_const_mul, ← integral_add ((n2 hf).int σ) (((Nice.const t).mul (n2 hg)).int σ)]
  congr 1
  funext x
  ring

theorem P_lin {f g : (Fin L → X) → ℝ} (hf : Nice f) (hg : Nice g) (t : ℝ) :
    P σ W (fun v => f v + t * g v) = fun v => P σ W f v + t * P σ W g v := by
  funext v
  unfold P
  rw [Finset.sum_congr rfl fun i _ => Q_lin hW W0 hf hg t i v, Finset.sum_add_distrib, ← Finset.mul_sum]
  ring

/-- Cauchy-Schwarz inequality for the update -/
theorem P_cs {f g : (Fin L → X) → ℝ} (hL : 0 < L) (hf : Nice f) (hg : Nice g) :
    ip σ W f (P σ W g) ^ 2 ≤ ip σ W f (P σ W f) * ip σ W g (P σ W g) := by
  have h : ∀ t : ℝ, 0 ≤ ip σ W g (P σ W g) * (t * t) + 2 * ip σ W f (P σ W g) * t + ip σ W f (P σ W f) := fun t => by
    have nt : Nice fun v => t * g v := (Nice.const t).mul hg
    have nPt : Nice fun v => t * P σ W g v := (Nice.const t).mul (P_nice hW W0 hg)
    have h0 := P_pos (σ := σ) hW W0 hL (hf.add nt)
    rw [P_lin hW W0 hf hg, ip_add hW (P_nice hW W0 hf) nPt (hf.add nt), ip_mul, ip_comm _ (P σ W f), ip_comm _ (P σ W g),
      ip_add hW hf nt (P_nice hW W0 hf), ip_add hW hf nt (P_nice hW W0 hg), ip_mul, ip_mul, ip_comm (P σ W f) f, ip_comm (P σ W f) g,
      ip_comm (P σ W g) f, ip_comm (P σ W g) g, P_symm hW W0 hL hf hg] at h0
    linarith
  have := discrim_le_zero h
  unfold discrim at this
  linarith

/-- Cauchy-Schwarz -/
theorem ip_cs {f g : (Fin L → X) → ℝ} (hf : Nice f) (hg : Nice g) : ip σ W f g ^ 2 ≤ ip σ W f f * ip σ W g g := by
  have h : ∀ t : ℝ, 0 ≤ ip σ W g g * (t * t) + 2 * ip σ W f g * t + ip σ W f f := fun t => by
    have nt : Nice fun v => t * g v := (Nice.const t).mul hg
    have h0 : 0 ≤ ip σ W (fun v => f v + t * g v) (fun v => f v + t * g v) :=
      integral_nonneg fun v => mul_nonneg (W0 v).le (mul_self_nonneg _)
    rw [ip_add hW hf nt (hf.add nt), ip_mul, ip_comm _ f, ip_comm _ g, ip_add hW hf nt hf, ip_add hW hf nt hg, ip_mul, ip_mul,
      ip_comm g f] at h0
    linarith
  have := discrim_le_zero h
  unfold discrim at this
  linarith

/-- the update keeps means -/
theorem P_mean {f : (Fin L → X) → ℝ} (hL : 0 < L) (hf : Nice f) :
    ∫ v, W v * P σ W f v ∂(Measure.pi fun _ => σ) = ∫ v, W v * f v ∂(Measure.pi fun _ => σ) := by
  have h := P_ip (σ := σ) hW W0 hL hf (Nice.const 1)
  have e : ∀ i, fm σ W i f (fun _ => 1) = 0 := fun i => by
    unfold fm
    simp
  simp only [e, Finset.sum_const_zero, mul_zero, sub_zero] at h
  unfold ip at h
  simpa only [one_mul] using h

/-- contraction in the mean square -/
theorem P_contract (hL : 0 < L) {γ : ℝ} (γ1 : γ ≤ 1)
    (gap : ∀ f : (Fin L → X) → ℝ, Nice f → ∫ v, W v * f v ∂(Measure.pi fun _ => σ) = 0 → γ * ip σ W f f ≤ ip σ W f f - ip σ W f (P σ W f))
    {f : (Fin L → X) → ℝ} (hf : Nice f) (f0 : ∫ v, W v * f v ∂(Measure.pi fun _ => σ) = 0) :
    ip σ W (P σ W f) (P σ W f) ≤ (1 - γ) ^ 2 * ip σ W f f := by
  have nP := P_nice (σ := σ) hW W0 hf
  have pos : ∀ g : (Fin L → X) → ℝ, 0 ≤ ip σ W g g := fun g => integral_nonneg fun v => mul_nonneg (W0 v).le (mul_self_nonneg _)
  have h1 := P_cs (σ := σ) hW W0 hL hf nP
  rw [P_symm hW W0 hL nP hf] at h1
  have h2 := gap f hf f0
  have h3 := gap (P σ W f) nP ((P_mean hW W0 hL hf).trans f0)
  have p2 := P_pos (σ := σ) hW W0 hL nP
  set A := ip σ W (P σ W f) (P σ W f) with hA
  set N := ip σ W f f
  have h4 : ip σ W f (P σ W f) ≤ (1 - γ) * N := by linarith
  have h5 : ip σ W (P σ W f) (P σ W (P σ W f)) ≤ (1 - γ) * A := by linarith
  have A0 : 0 ≤ A := pos _
  have N0 : 0 ≤ N := pos _
  have h6 : A ^ 2 ≤ (1 - γ) ^ 2 * N * A := by
    have g0 : 0 ≤ 1 - γ := by linarith
    calc A ^ 2 ≤ _ := h1
      _ ≤ ((1 - γ) * N) * ((1 - γ) * A) := mul_le_mul h4 h5 p2 (mul_nonneg g0 N0)
      _ = _ := by ring
  rcases eq_or_lt_of_le A0 with h | h
  · rw [← h]
    positivity
  · rw [sq] at h6
    exact le_of_mul_le_mul_right h6 h

theorem P_iter (hL : 0 < L) {γ : ℝ} (γ1 : γ ≤ 1)
    (gap : ∀ f : (Fin L → X) → ℝ, Nice f → ∫ v, W v * f v ∂(Measure.pi fun _ => σ) = 0 → γ * ip σ W f f ≤ ip σ W f f - ip σ W f (P σ W f))
    {f : (Fin L → X) → ℝ} (hf : Nice f) (f0 : ∫ v, W v * f v ∂(Measure.pi fun _ => σ) = 0) (n : ℕ) :
    Nice ((P σ W)^[n] f) ∧ ∫ v, W v * (P σ W)^[n] f v ∂(Measure.pi fun _ => σ) = 0 ∧
    ip σ W ((P σ W)^[n] f) ((P σ W)^[n] f) ≤ ((1 - γ) ^ n) ^ 2 * ip σ W f f := by
  induction n with
  | zero => exact ⟨hf, f0, by simp⟩
  | succ n ih =>
    obtain ⟨h1, h2, h3⟩ := ih
    rw [iterate_succ_apply']
    refine ⟨P_nice hW W0 h1, (P_mean hW W0 hL h1).trans h2, ?_⟩
    refine (P_contract hW W0 hL γ1 gap h1 h2).trans ?_
    calc (1 - γ) ^ 2 * ip σ W ((P σ W)^[n] f) ((P σ W)^[n] f) ≤ (1 - γ) ^ 2 * (((1 - γ) ^ n) ^ 2 * ip σ W f f) :=
          mul_le_mul_of_nonneg_left h3 (sq_nonneg _)
      _ = _ := by ring

/-- from squared changes of single entries to the gap -/
theorem gap_of (hL : 0 < L) {C r : ℝ} (C0 : 0 < C) (r0 : 0 < r) (hr : ∀ v (i : Fin L) x, r * W v ≤ W (update v i x)) (r1 : r ≤ 1)
    (hp : ∀ f : (Fin L → X) → ℝ, Nice f → ∫ v, W v * f v ∂(Measure.pi fun _ => σ) = 0 →
      ∫ v, W v * f v ^ 2 ∂(Measure.pi fun _ => σ) ≤ C * ∑ i, ∫ v, W v * G σ i f v ∂(Measure.pi fun _ => σ))
    (f : (Fin L → X) → ℝ) (hf : Nice f) (f0 : ∫ v, W v * f v ∂(Measure.pi fun _ => σ) = 0) :
    r / (2 * C * L) * ip σ W f f ≤ ip σ W f f - ip σ W f (P σ W f) := by
  have L0 : (0 : ℝ) < L := by exact_mod_cast hL
  have h1 := hp f hf f0
  have h2 : ∀ i, r * ∫ v, W v * G σ i f v ∂(Measure.pi fun _ => σ) ≤ fm σ W i f f := fun i => by
    rw [← integral_const_mul]
    have nm : Nice fun q : (Fin L → X) × X => min (W q.1) (W (update q.1 i q.2)) := by
      obtain ⟨C, hC⟩ := hW.bdd
      refine ⟨(hW.meas.comp measurable_fst).min (hW.meas.comp (upd_meas i)), C, fun r => ?_⟩
      rw [abs_of_nonneg (le_min (W0 _).le (W0 _).le)]
      exact (min_le_left _ _).trans ((le_abs_self _).trans (hC _))
    have nd : Nice fun q : (Fin L → X) × X => f (update q.1 i q.2) - f q.1 := (hf.comp (upd_meas i)).sub (hf.comp measurable_fst)
    have nn := (nm.mul (nd.mul nd)).integral σ
    refine integral_mono (((Nice.const r).mul (hW.mul (G_nice hf i))).int _) (nn.int _) fun v => ?_
    show r * (W v * ∫ y, (f (update v i y) - f v) ^ 2 ∂σ) ≤ ∫ x, min (W v) (W (update v i x)) * ((f (update v i x) - f v) * (f (update v i x) - f v)) ∂σ
    rw [← mul_assoc, ← integral_const_mul]
    have n1 : Nice fun x => f (update v i x) - f v := (hf.slice v i).sub (Nice.const _)
    have n2 := nm.comp (u := fun x => (v, x)) (measurable_const.prodMk measurable_id)
    refine integral_mono (((Nice.const _).mul n1.sq).int σ) ((n2.mul (n1.mul n1)).int σ) fun x => ?_
    show r * W v * (f (update v i x) - f v) ^ 2 ≤ min (W v) (W (update v i x)) * ((f (update v i x) - f v) * (f (update v i x) - f v))
    rw [sq]
    refine mul_le_mul_of_nonneg_right (le_min ?_ (hr v i x)) (mul_self_nonneg _)
    have := mul_le_mul_of_nonneg_right r1 (W0 v).le
    linarith
  have h3 : r * ∑ i, ∫ v, W v * G σ i f v ∂(Measure.pi fun _ => σ) ≤ ∑ i, fm σ W i f f := by
    rw [Finset.mul_sum]
    exact Finset.sum_le_sum fun i _ => h2 i
  have e : ip σ W f f = ∫ v, W v * f v ^ 2 ∂(Measure.pi fun _ => σ) := by
    unfold ip
    simp only [sq]
  rw [← e] at h1
  rw [P_ip hW W0 hL hf hf]
  have h4 : r * ip σ W f f ≤ C * ∑ i, fm σ W i f f := by
    calc r * ip σ W f f ≤ r * (C * ∑ i, ∫ v, W v * G σ i f v ∂(Measure.pi fun _ => σ)) := mul_le_mul_of_nonneg_left h1 r0.le
      _ = C * (r * ∑ i, ∫ v, W v * G σ i f v ∂(Measure.pi fun _ => σ)) := by ring
      _ ≤ _ := mul_le_mul_of_nonneg_left h3 C0.le
  have h5 : r / (2 * C * L) * ip σ W f f = 1 / (2 * L) * (r * ip σ W f f / C) := by field_simp
  have h6 : r * ip σ W f f / C ≤ ∑ i, fm σ W i f f := by
    rw [div_le_iff₀ C0, mul_comm]
    linarith
  have h7 := mul_le_mul_of_nonneg_left h6 (by positivity : (0 : ℝ) ≤ 1 / (2 * L))
  rw [h5]
  linarith

end

end Verif.Gap
