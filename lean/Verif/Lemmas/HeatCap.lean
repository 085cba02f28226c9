/-
Helper lemmas: a lower bound on the fluctuations of the energy, from the fluctuations due to single entries that do not
interact with one another.
-/
import Verif.Lemmas.GapMetro
import Verif.Lemmas.Thermal
import Verif.Lemmas.Order

set_option linter.unusedSectionVars false

namespace Verif.HeatCap

open MeasureTheory Function Gap

section
variable {X : Type} [MeasurableSpace X] {L : ℕ} {σ : Measure X} [IsProbabilityMeasure σ] {E : (Fin L → X) → ℝ} {β : ℝ}

/-- weights -/
noncomputable def wt (β : ℝ) (E : (Fin L → X) → ℝ) (v : Fin L → X) : ℝ := Real.exp (-(β * E v))

/-- mean over entry `i` -/
noncomputable def cm (σ : Measure X) (β : ℝ) (E : (Fin L → X) → ℝ) (i : Fin L) (v : Fin L → X) : ℝ :=
  (∫ y, wt β E (update v i y) * E (update v i y) ∂σ) / ∫ y, wt β E (update v i y) ∂σ

/-- deviation from the mean over entry `i` -/
noncomputable def dv (σ : Measure X) (β : ℝ) (E : (Fin L → X) → ℝ) (i : Fin L) (v : Fin L → X) : ℝ := E v - cm σ β E i v

theorem wt_pos (v : Fin L → X) : 0 < wt β E v := Real.exp_pos _

variable (hE : Nice E)
include hE

theorem wt_nice : Nice (wt β E) := by
  obtain ⟨C, hC⟩ := hE.bdd
  refine ⟨(hE.meas.const_mul β).neg.exp, Real.exp (|β| * C), fun v => ?_⟩
  rw [abs_of_pos (wt_pos v)]
  refine Real.exp_le_exp.2 ((neg_le_abs _).trans ?_)
  rw [abs_mul]
  exact mul_le_mul_of_nonneg_left (hC v) (abs_nonneg _)

theorem nrm_pos (i : Fin L) (v : Fin L → X) : 0 < ∫ y, wt β E (update v i y) ∂σ := by
  rw [integral_pos_iff_support_of_nonneg (fun y => (wt_pos _).le) (((wt_nice hE).slice v i).int σ)]
  have : support (fun y => wt β E (update v i y)) = Set.univ := by
    ext y
    simpa using (wt_pos (β := β) (E := E) (update v i y)).ne'
  rw [this]
  simp

theorem cm_nice (i : Fin L) : Nice (cm σ β E i) := by
  obtain ⟨C, hC⟩ := hE.bdd
  have n1 : Nice fun v => ∫ y, wt β E (update v i y) * E (update v i y) ∂σ :=
    (((wt_nice hE).mul hE).comp (upd_meas i) : Nice fun q : (Fin L → X) × X => wt β E (update q.1 i q.2) * E (update q.1 i q.2)).integral σ
  have n2 : Nice fun v => ∫ y, wt β E (update v i y) ∂σ :=
    ((wt_nice hE).comp (upd_meas i) : Nice fun q : (Fin L → X) × X => wt β E (update q.1 i q.2)).integral σ
  refine ⟨n1.meas.div n2.meas, C, fun v => ?_⟩
  unfold cm
  rw [abs_div, abs_of_pos (nrm_pos hE i v), div_le_iff₀ (nrm_pos hE i v), ← integral_const_mul]
  refine abs_integral_le_integral_abs.trans (integral_mono ?_ ?_ fun y => ?_)
  · exact ((((wt_nice hE).mul hE).slice v i).int σ).abs
  · exact ((Nice.const C).mul ((wt_nice hE).slice v i)).int σ
  · show |_| ≤ _
    rw [abs_mul, abs_of_pos (wt_pos _), mul_comm]
    exact mul_le_mul_of_nonneg_right (hC _) (wt_pos _).le

theorem dv_nice (i : Fin L) : Nice (dv σ β E i) := hE.sub (cm_nice hE i)

omit hE in
theorem cm_update (i : Fin L) (v : Fin L → X) (x : X) : cm σ β E i (update v i x) = cm σ β E i v := by
  unfold cm
  simp only [update_idem]

/-- deviations have no mean -/
theorem dv_mean (i : Fin L) (v : Fin L → X) : ∫ x, wt β E (update v i x) * dv σ β E i (update v i x) ∂σ = 0 := by
  unfold dv
  simp only [cm_update, mul_sub]
  rw [integral_sub ((((wt_nice hE).mul hE).slice v i).int σ) ((((wt_nice hE).slice v i).mul (Nice.const _)).int σ), integral_mul_const, cm,
    mul_div_cancel₀ _ (nrm_pos hE i v).ne', sub_self]

/-- deviations do not correlate with what does not depend on the entry -/
theorem dv_orth (i : Fin L) {h : (Fin L → X) → ℝ} (hh : Nice h) (hi : ∀ v x, h (update v i x) = h v) :
    ip σ (wt β E) h (dv σ β E i) = 0 := by
  unfold ip
  rw [← resample_real ((wt_nice hE).mul (hh.mul (dv_nice hE i))) i]
  have e : ∀ v, ∫ x, wt β E (update v i x) * (h (update v i x) * dv σ β E i (update v i x)) ∂σ = 0 := fun v => by
    have e1 : ∀ x, wt β E (update v i x) * (h (update v i x) * dv σ β E i (update v i x))
        = h v * (wt β E (update v i x) * dv σ β E i (update v i x)) := fun x => by
      rw [hi]
      ring
    simp only [e1]
    rw [integral_const_mul, dv_mean hE, mul_zero]
  simp only [e]
  simp

/-- deviations due to one entry do not depend on another that does not interact with it -/
theorem dv_apart {i j : Fin L} (ha : ∀ v x y, E (update (update v i x) j y) - E (update v i x) = E (update v j y) - E v) (v : Fin L → X) (x : X) :
    dv σ β E j (update v i x) = dv σ β E j v := by
  have key : ∀ v, dv σ β E j v = -((∫ y, Real.exp (-(β * (E (update v j y) - E v))) * (E (update v j y) - E v) ∂σ)
      / ∫ y, Real.exp (-(β * (E (update v j y) - E v))) ∂σ) := fun v => by
    have hw : ∀ y, Real.exp (-(β * (E (update v j y) - E v))) = (wt β E v)⁻¹ * wt β E (update v j y) := fun y => by
      unfold wt
      rw [← Real.exp_neg, ← Real.exp_add]
      congr 1
      ring
    simp only [hw, mul_assoc]
    rw [integral_const_mul, integral_const_mul]
    simp only [mul_sub]
    rw [integral_sub, integral_mul_const, dv, cm]
    · have h1 := (nrm_pos (β := β) (σ := σ) hE j v).ne'
      have h2 := (wt_pos (β := β) (E := E) v).ne'
      field_simp
      ring
    · exact (((wt_nice hE).mul hE).slice v j).int σ
    · exact (((wt_nice hE).slice v j).mul (Nice.const _)).int σ
  rw [key, key]
  simp only [ha]

theorem ip_sum {W : (Fin L → X) → ℝ} (hW : Nice W) {h : (Fin L → X) → ℝ} (hh : Nice h) {g : Fin L → (Fin L → X) → ℝ} (hg : ∀ i, Nice (g i))
    (s : Finset (Fin L)) : ip σ W h (fun v => ∑ i ∈ s, g i v) = ∑ i ∈ s, ip σ W h (g i) := by
  induction s using Finset.induction_on with
  | empty =>
    unfold ip
    simp
  | insert b s hb ih =>
    simp only [Finset.sum_insert hb]
    rw [ip_add hW (hg b) (Nice.sum fun i _ => hg i) hh, ih]

/-- the fluctuations due to entries that do not interact with one another add up to at most the fluctuations of the energy -/
theorem bessel (A : Finset (Fin L)) (m : ℝ)
    (ha : ∀ i ∈ A, ∀ j ∈ A, i ≠ j → ∀ v x y, E (update (update v i x) j y) - E (update v i x) = E (update v j y) - E v) :
    ∑ i ∈ A, ip σ (wt β E) (dv σ β E i) (dv σ β E i) ≤ ip σ (wt β E) (fun v => E v - m) (fun v => E v - m) := by
  have nW := wt_nice (β := β) hE
  have nd := fun i => dv_nice (β := β) (σ := σ) hE i
  have nf : Nice fun v => E v - m := hE.sub (Nice.const m)
  set f := fun v => E v - m with hf
  set g := fun v => ∑ i ∈ A, dv σ β E i v with hg
  have ng : Nice g := Nice.sum fun i _ => nd i
  set T := ∑ i ∈ A, ip σ (wt β E) (dv σ β E i) (dv σ β E i) with hT
  have h1 : ∀ i, ip σ (wt β E) f (dv σ β E i) = ip σ (wt β E) (dv σ β E i) (dv σ β E i) := fun i => by
    have e : f = fun v => (cm σ β E i v - m) + dv σ β E i v := by
      funext v
      rw [hf, dv]
      ring
    have n1 : Nice fun v => cm σ β E i v - m := (cm_nice hE i).sub (Nice.const m)
    rw [e, ip_comm, ip_add nW n1 (nd i) (nd i), ip_comm, dv_orth hE i n1 (fun v x => by rw [cm_update]), zero_add]
  have h2 : ip σ (wt β E) f g = T := by
    rw [hg, ip_sum hE nW nf nd]
    exact Finset.sum_congr rfl fun i _ => h1 i
  have h3 : ip σ (wt β E) g g = T := by
    rw [hg, ip_sum hE nW ng nd]
    refine Finset.sum_congr rfl fun i hi => ?_
    rw [ip_comm, ip_sum hE nW (nd i) nd, Finset.sum_eq_single i]
    · intro j hj hji
      refine dv_orth hE j (nd i) fun v x => ?_
      exact dv_apart hE (ha j hj i hi hji) v x
    · exact fun h => absurd hi h
  have n' : Nice fun v => -1 * g v := (Nice.const _).mul ng
  have h0 : 0 ≤ ip σ (wt β E) (fun v => f v + -1 * g v) (fun v => f v + -1 * g v) :=
    integral_nonneg fun v => mul_nonneg (wt_pos v).le (mul_self_nonneg _)
  rw [ip_add nW nf n' (nf.add n'), ip_mul, ip_comm _ f, ip_comm _ g, ip_add nW nf n' nf, ip_add nW nf n' ng, ip_mul, ip_mul, ip_comm g f,
    h2, h3] at h0
  linarith

/-- replacing one entry changes the weight by at most a factor -/
theorem wt_update {δ : ℝ} {i : Fin L} {v : Fin L → X} {x : X} (h : |E (update v i x) - E v| ≤ δ) :
    Real.exp (-(|β| * δ)) * wt β E v ≤ wt β E (update v i x) := by
  unfold wt
  rw [← Real.exp_add]
  refine Real.exp_le_exp.2 ?_
  have h1 : |β * (E (update v i x) - E v)| ≤ |β| * δ := by
    rw [abs_mul]
    exact mul_le_mul_of_nonneg_left h (abs_nonneg _)
  have h2 := (abs_le.1 h1).2
  linarith

/-- fluctuations due to one entry -/
theorem dv_ge {δ : ℝ} {i : Fin L} (hδ : ∀ v x, |E (update v i x) - E v| ≤ δ) {q : (Fin L → X) → ℝ} (hq : Nice q)
    (h : ∀ v m, q v ≤ ∫ x, (E (update v i x) - m) ^ 2 ∂σ) :
    Real.exp (-(|β| * δ)) * ∫ v, wt β E v * q v ∂(Measure.pi fun _ => σ) ≤ ip σ (wt β E) (dv σ β E i) (dv σ β E i) := by
  have nW := wt_nice (β := β) hE
  have nd := dv_nice (β := β) (σ := σ) hE i
  have n1 := nW.mul (nd.mul nd)
  unfold ip
  rw [← resample_real n1 i, ← integral_const_mul]
  refine integral_mono (((Nice.const _).mul (nW.mul hq)).int _)
    ((n1.comp (upd_meas i) : Nice fun p : (Fin L → X) × X => wt β E (update p.1 i p.2) * (dv σ β E i (update p.1 i p.2)
      * dv σ β E i (update p.1 i p.2))).integral σ |>.int _) fun v => ?_
  show _ ≤ ∫ x, wt β E (update v i x) * (dv σ β E i (update v i x) * dv σ β E i (update v i x)) ∂σ
  have n2 : Nice fun x => (E (update v i x) - cm σ β E i v) ^ 2 := ((hE.slice v i).sub (Nice.const _)).sq
  calc Real.exp (-(|β| * δ)) * (wt β E v * q v)
      ≤ Real.exp (-(|β| * δ)) * (wt β E v * ∫ x, (E (update v i x) - cm σ β E i v) ^ 2 ∂σ) := by
        have := h v (cm σ β E i v)
        have := wt_pos (β := β) (E := E) v
        gcongr
    _ = ∫ x, (Real.exp (-(|β| * δ)) * wt β E v) * (E (update v i x) - cm σ β E i v) ^ 2 ∂σ := by
        rw [integral_const_mul]
        ring
    _ ≤ _ := by
        refine integral_mono (((Nice.const _).mul n2).int σ) ((n1.slice v i).int σ) fun x => ?_
        show _ ≤ wt β E (update v i x) * (dv σ β E i (update v i x) * dv σ β E i (update v i x))
        rw [← sq, dv, cm_update]
        exact mul_le_mul_of_nonneg_right (wt_update hE (hδ v x)) (sq_nonneg _)

/-- averaging a nonnegative quantity over one entry -/
theorem avg_ge {δ κ : ℝ} {i : Fin L} (hδ : ∀ v x, |E (update v i x) - E v| ≤ δ) {q : (Fin L → X) → ℝ} (hq : Nice q) (q0 : ∀ v, 0 ≤ q v)
    (h : ∀ v, κ ≤ ∫ x, q (update v i x) ∂σ) :
    Real.exp (-(|β| * δ)) * κ * ∫ v, wt β E v ∂(Measure.pi fun _ => σ) ≤ ∫ v, wt β E v * q v ∂(Measure.pi fun _ => σ) := by
  have nW := wt_nice (β := β) hE
  have n1 := nW.mul hq
  rw [← resample_real n1 i, ← integral_const_mul]
  refine integral_mono (((Nice.const _).mul nW).int _)
    ((n1.comp (upd_meas i) : Nice fun p : (Fin L → X) × X => wt β E (update p.1 i p.2) * q (update p.1 i p.2)).integral σ |>.int _) fun v => ?_
  show _ ≤ ∫ x, wt β E (update v i x) * q (update v i x) ∂σ
  calc Real.exp (-(|β| * δ)) * κ * wt β E v ≤ Real.exp (-(|β| * δ)) * (∫ x, q (update v i x) ∂σ) * wt β E v := by
        have := h v
        have := wt_pos (β := β) (E := E) v
        gcongr
    _ = ∫ x, (Real.exp (-(|β| * δ)) * wt β E v) * q (update v i x) ∂σ := by
        rw [integral_const_mul]
        ring
    _ ≤ _ := by
        refine integral_mono (((Nice.const _).mul (hq.slice v i)).int σ) ((n1.slice v i).int σ) fun x => ?_
        exact mul_le_mul_of_nonneg_right (wt_update hE (hδ v x)) (q0 _)

end

/-! ### Second moments of a random direction -/

open Spec Thermal

theorem orth_pres' {O : V3 ℝ → V3 ℝ} (h : Orthogonal O) : MeasurePreserving O sphereMeasure sphereMeasure :=
  ⟨h.measurable, by
    ext s hs
    rw [Measure.map_apply h.measurable hs, ← lintegral_indicator_one hs, ← lintegral_indicator_one (h.measurable hs)]
    exact sphere_invariant h (measurable_one.indicator hs)⟩

theorem turn_int {O : V3 ℝ → V3 ℝ} (h : Orthogonal O) {f : V3 ℝ → ℝ} (hf : Measurable f) :
    ∫ x, f (O x) ∂sphereMeasure = ∫ x, f x ∂sphereMeasure := by
  conv_rhs => rw [← (orth_pres' h).map_eq]
  rw [integral_map h.measurable.aemeasurable hf.aestronglyMeasurable]

theorem odd_int {O : V3 ℝ → V3 ℝ} (h : Orthogonal O) {f : V3 ℝ → ℝ} (hf : Measurable f) (ho : ∀ x, f (O x) = -f x) :
    ∫ x, f x ∂sphereMeasure = 0 := by
  have e := turn_int h hf
  simp only [ho] at e
  rw [integral_neg] at e
  linarith

theorem co_ae : ∀ᵐ x : V3 ℝ ∂sphereMeasure, |x.x| ≤ 1 ∧ |x.y| ≤ 1 ∧ |x.z| ≤ 1 ∧ x.x * x.x + x.y * x.y + x.z * x.z = 1 := by
  filter_upwards [sphere_ae] with x hx
  have h : x.x * x.x + x.y * x.y + x.z * x.z = 1 := by
    have h1 := len_sq x
    rw [show len x = 1 from hx] at h1
    unfold dot at h1
    linarith
  refine ⟨?_, ?_, ?_, h⟩ <;> rw [abs_le] <;> constructor <;> nlinarith [mul_self_nonneg x.x, mul_self_nonneg x.y, mul_self_nonneg x.z]

theorem int_of {f : V3 ℝ → ℝ} (hf : Measurable f) (h : ∀ x : V3 ℝ, |x.x| ≤ 1 → |x.y| ≤ 1 → |x.z| ≤ 1 → |f x| ≤ 1) :
    Integrable f sphereMeasure :=
  Integrable.of_bound hf.aestronglyMeasurable 1 (co_ae.mono fun x hx => h x hx.1 hx.2.1 hx.2.2.1)

theorem int_x : Integrable (fun x : V3 ℝ => x.x) sphereMeasure := int_of measurable_x fun _ h _ _ => h
theorem int_y : Integrable (fun x : V3 ℝ => x.y) sphereMeasure := int_of measurable_y fun _ _ h _ => h
theorem int_z : Integrable (fun x : V3 ℝ => x.z) sphereMeasure := int_of measurable_z fun _ _ _ h => h

theorem abs_mul_one {a b : ℝ} (ha : |a| ≤ 1) (hb : |b| ≤ 1) : |a * b| ≤ 1 := by
  rw [abs_mul]
  exact mul_le_one₀ ha (abs_nonneg _) hb

/-- mean of a polynomial of degree two of a random direction -/
theorem quad (a b c d e f g h i k : ℝ) :
    ∫ x : V3 ℝ, (a * (x.x * x.x) + b * (x.y * x.y) + c * (x.z * x.z) + d * (x.x * x.y) + e * (x.y * x.z) + f * (x.z * x.x)
      + g * x.x + h * x.y + i * x.z + k) ∂sphereMeasure = (a + b + c) / 3 + k := by
  have ixx : Integrable (fun x : V3 ℝ => x.x * x.x) sphereMeasure := int_of (measurable_x.mul measurable_x) fun _ h _ _ => abs_mul_one h h
  have iyy : Integrable (fun x : V3 ℝ => x.y * x.y) sphereMeasure := int_of (measurable_y.mul measurable_y) fun _ _ h _ => abs_mul_one h h
  have izz : Integrable (fun x : V3 ℝ => x.z * x.z) sphereMeasure := int_of (measurable_z.mul measurable_z) fun _ _ _ h => abs_mul_one h h
  have ixy : Integrable (fun x : V3 ℝ => x.x * x.y) sphereMeasure := int_of (measurable_x.mul measurable_y) fun _ h h' _ => abs_mul_one h h'
  have iyz : Integrable (fun x : V3 ℝ => x.y * x.z) sphereMeasure := int_of (measurable_y.mul measurable_z) fun _ _ h h' => abs_mul_one h h'
  have izx : Integrable (fun x : V3 ℝ => x.z * x.x) sphereMeasure := int_of (measurable_z.mul measurable_x) fun _ h _ h' => abs_mul_one h' h
  have mx : ∫ x : V3 ℝ, x.x ∂sphereMeasure = 0 := odd_int axisX.orth measurable_x fun _ => rfl
  have my : ∫ x : V3 ℝ, x.y ∂sphereMeasure = 0 := odd_int axisY.orth measurable_y fun _ => rfl
  have mz : ∫ x : V3 ℝ, x.z ∂sphereMeasure = 0 := odd_int axisZ.orth measurable_z fun _ => rfl
  have mxy : ∫ x : V3 ℝ, x.x * x.y ∂sphereMeasure = 0 :=
    odd_int axisX.orth (measurable_x.mul measurable_y) fun x => by simp [axisX]
  have myz : ∫ x : V3 ℝ, x.y * x.z ∂sphereMeasure = 0 :=
    odd_int axisY.orth (measurable_y.mul measurable_z) fun x => by simp [axisY]
  have mzx : ∫ x : V3 ℝ, x.z * x.x ∂sphereMeasure = 0 :=
    odd_int axisZ.orth (measurable_z.mul measurable_x) fun x => by simp [axisZ]
  have e1 : ∫ x : V3 ℝ, x.y * x.y ∂sphereMeasure = ∫ x : V3 ℝ, x.x * x.x ∂sphereMeasure :=
    turn_int perm_orthogonal (f := fun x => x.x * x.x) (measurable_x.mul measurable_x)
  have e2 : ∫ x : V3 ℝ, x.z * x.z ∂sphereMeasure = ∫ x : V3 ℝ, x.y * x.y ∂sphereMeasure :=
    turn_int perm_orthogonal (f := fun x => x.y * x.y) (measurable_y.mul measurable_y)
  have e3 : ∫ x : V3 ℝ, x.x * x.x ∂sphereMeasure + ∫ x : V3 ℝ, x.y * x.y ∂sphereMeasure + ∫ x : V3 ℝ, x.z * x.z ∂sphereMeasure = 1 := by
    rw [← integral_add ixx iyy, ← integral_add (show Integrable (fun x : V3 ℝ => x.x * x.x + x.y * x.y) sphereMeasure from ixx.add iyy) izz]
    rw [integral_congr_ae (g := fun _ => (1 : ℝ)) (co_ae.mono fun x hx => by simpa using hx.2.2.2)]
    simp
  have j1 := (ixx.const_mul a).add (iyy.const_mul b)
  have j2 := j1.add (izz.const_mul c)
  have j3 := j2.add (ixy.const_mul d)
  have j4 := j3.add (iyz.const_mul e)
  have j5 := j4.add (izx.const_mul f)
  have j6 := j5.add (int_x.const_mul g)
  have j7 := j6.add (int_y.const_mul h)
  have j8 := j7.add (int_z.const_mul i)
  have := integral_add j8 (integrable_const (μ := sphereMeasure) k)
  rw [integral_add' j7 (int_z.const_mul i), integral_add' j6 (int_y.const_mul h), integral_add' j5 (int_x.const_mul g),
    integral_add' j4 (izx.const_mul f), integral_add' j3 (iyz.const_mul e), integral_add' j2 (ixy.const_mul d),
    integral_add' j1 (izz.const_mul c), integral_add' (ixx.const_mul a) (iyy.const_mul b)] at this
  simp only [integral_const_mul, mx, my, mz, mxy, myz, mzx, e2, e1, integral_const, probReal_univ, one_smul, Pi.add_apply] at this
  refine Eq.trans ?_ (this.trans ?_)
  · rfl
  · rw [e2, e1] at e3
    have : ∫ x : V3 ℝ, x.x * x.x ∂sphereMeasure = 1 / 3 := by linarith
    rw [this]
    ring

/-- fluctuations of a component of a random direction -/
theorem dot_var (a : V3 ℝ) (m : ℝ) : len a ^ 2 / 3 ≤ ∫ x, (m - dot a x) ^ 2 ∂sphereMeasure := by
  have e : ∀ x : V3 ℝ, (m - dot a x) ^ 2 = a.x ^ 2 * (x.x * x.x) + a.y ^ 2 * (x.y * x.y) + a.z ^ 2 * (x.z * x.z)
      + (2 * (a.x * a.y)) * (x.x * x.y) + (2 * (a.y * a.z)) * (x.y * x.z) + (2 * (a.z * a.x)) * (x.z * x.x)
      + (-(2 * m * a.x)) * x.x + (-(2 * m * a.y)) * x.y + (-(2 * m * a.z)) * x.z + m ^ 2 := fun x => by
    unfold dot
    ring
  simp only [e]
  rw [quad, sq (len a), len_sq, dot]
  nlinarith [sq_nonneg m]

theorem had_var (j c : V3 ℝ) : len j ^ 2 / 3 ≤ ∫ x, len (add (had j x) c) ^ 2 ∂sphereMeasure := by
  have e : ∀ x : V3 ℝ, len (add (had j x) c) ^ 2 = j.x ^ 2 * (x.x * x.x) + j.y ^ 2 * (x.y * x.y) + j.z ^ 2 * (x.z * x.z)
      + 0 * (x.x * x.y) + 0 * (x.y * x.z) + 0 * (x.z * x.x)
      + (2 * (j.x * c.x)) * x.x + (2 * (j.y * c.y)) * x.y + (2 * (j.z * c.z)) * x.z + (c.x ^ 2 + c.y ^ 2 + c.z ^ 2) := fun x => by
    rw [sq (len _), len_sq]
    simp only [dot, add, had]
    ring
  simp only [e]
  rw [quad, sq (len j), len_sq, dot]
  nlinarith [sq_nonneg c.x, sq_nonneg c.y, sq_nonneg c.z]

end Verif.HeatCap
