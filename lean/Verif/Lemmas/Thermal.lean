/-
Helper lemmas: the thermal mean of the energy as a function of the inverse temperature.
-/
import Verif.Lemmas.Ergodic
import Verif.Lemmas.Liouville
import Mathlib.MeasureTheory.Integral.DominatedConvergence

namespace Verif.Thermal

set_option linter.unusedSectionVars false

open MeasureTheory Finset Spec Markov Function
open scoped ENNReal

section
variable {Ω : Type} [MeasurableSpace Ω] {μ : Measure Ω} [IsProbabilityMeasure μ] {E : Ω → ℝ} {D : ℝ}
  (hE : Measurable E) (hD : ∀ᵐ v ∂μ, |E v| ≤ D)

include hE hD

theorem exp_int (β : ℝ) {f : Ω → ℝ} (hf : Measurable f) {M : ℝ} (hM : ∀ᵐ v ∂μ, |f v| ≤ M) :
    Integrable (fun v => Real.exp (-(β * E v)) * f v) μ := by
  have me : Measurable fun v => Real.exp (-(β * E v)) := Real.measurable_exp.comp (hE.const_mul β).neg
  refine Integrable.of_bound (me.mul hf).aestronglyMeasurable (Real.exp (|β| * D) * M) ?_
  filter_upwards [hD, hM] with v h1 h2
  rw [Real.norm_eq_abs, abs_mul, Real.abs_exp]
  refine mul_le_mul (Real.exp_le_exp.2 ?_) h2 (abs_nonneg _) (Real.exp_pos _).le
  calc -(β * E v) ≤ |β * E v| := neg_le_abs _
    _ = |β| * |E v| := abs_mul _ _
    _ ≤ |β| * D := mul_le_mul_of_nonneg_left h1 (abs_nonneg _)

theorem exp_int1 (β : ℝ) : Integrable (fun v => Real.exp (-(β * E v))) μ := by
  simpa using exp_int hE hD β (f := fun _ => 1) measurable_const (M := 1) (by simp)

theorem part_pos (β : ℝ) : 0 < ∫ v, Real.exp (-(β * E v)) ∂μ := by
  rw [integral_pos_iff_support_of_nonneg (fun v => (Real.exp_pos _).le) (exp_int1 hE hD β)]
  have : support (fun v : Ω => Real.exp (-(β * E v))) = Set.univ := by
    ext v
    simp [Real.exp_ne_zero]
  rw [this]
  simp

/-- mean energy -/
noncomputable def U (μ : Measure Ω) (E : Ω → ℝ) (β : ℝ) : ℝ :=
  (∫ v, Real.exp (-(β * E v)) * E v ∂μ) / ∫ v, Real.exp (-(β * E v)) ∂μ

/-- the mean energy falls -/
theorem U_lt (hne : ∀ k, ¬ ∀ᵐ v ∂μ, E v = k) {β1 β2 : ℝ} (h : β1 < β2) : U μ E β2 < U μ E β1 := by
  set m := U μ E β1 with hm
  have Z1 := part_pos hE hD β1
  have Z2 := part_pos hE hD β2
  have i1 := exp_int hE hD β1 hE hD
  have i2 := exp_int hE hD β2 hE hD
  have j1 := exp_int1 hE hD β1
  have j2 := exp_int1 hE hD β2
  have e1 : ∫ v, Real.exp (-(β1 * E v)) * (E v - m) ∂μ = 0 := by
    simp only [mul_sub]
    rw [integral_sub i1 (j1.mul_const m), integral_mul_const, hm]
    unfold U
    field_simp
    ring
  have k1 : Integrable (fun v => Real.exp (-(β1 * E v)) * (E v - m)) μ := by
    simp only [mul_sub]
    exact i1.sub (j1.mul_const m)
  have k2 : Integrable (fun v => Real.exp (-(β2 * E v)) * (E v - m)) μ := by
    simp only [mul_sub]
    exact i2.sub (j2.mul_const m)
  set r := Real.exp (-((β2 - β1) * m)) with hr
  have e2 : ∫ v, Real.exp (-(β2 * E v)) * (E v - m) ∂μ
      = ∫ v, -((r * Real.exp (-(β1 * E v)) - Real.exp (-(β2 * E v))) * (E v - m)) ∂μ := by
    have : ∀ v, -((r * Real.exp (-(β1 * E v)) - Real.exp (-(β2 * E v))) * (E v - m))
        = Real.exp (-(β2 * E v)) * (E v - m) - r * (Real.exp (-(β1 * E v)) * (E v - m)) := fun v => by ring
    simp only [this]
    rw [integral_sub k2 (k1.const_mul r), integral_const_mul, e1]
    ring
  have hfac : ∀ v, Real.exp (-(β2 * E v)) = Real.exp (-(β1 * E v)) * Real.exp (-((β2 - β1) * E v)) := by
    intro v
    rw [← Real.exp_add]
    congr 1
    ring
  have pos : ∀ v, 0 ≤ (r * Real.exp (-(β1 * E v)) - Real.exp (-(β2 * E v))) * (E v - m) := by
    intro v
    rw [hfac, mul_comm r, ← mul_sub, mul_assoc]
    refine mul_nonneg (Real.exp_pos _).le ?_
    rcases le_total m (E v) with hc | hc
    · refine mul_nonneg (sub_nonneg.2 (Real.exp_le_exp.2 ?_)) (by linarith)
      nlinarith
    · refine mul_nonneg_of_nonpos_of_nonpos (sub_nonpos.2 (Real.exp_le_exp.2 ?_)) (by linarith)
      nlinarith
  have zero_iff : ∀ v, (r * Real.exp (-(β1 * E v)) - Real.exp (-(β2 * E v))) * (E v - m) = 0 → E v = m := by
    intro v hv
    rcases mul_eq_zero.1 hv with h0 | h0
    · rw [hfac, mul_comm r, ← mul_sub] at h0
      rcases mul_eq_zero.1 h0 with h1 | h1
      · exact absurd h1 (Real.exp_ne_zero _)
      · have := Real.exp_injective (sub_eq_zero.1 h1)
        have h3 : β2 - β1 ≠ 0 := by linarith
        exact (mul_left_cancel₀ h3 (neg_injective this)).symm
    · linarith
  have ki : Integrable (fun v => (r * Real.exp (-(β1 * E v)) - Real.exp (-(β2 * E v))) * (E v - m)) μ := by
    have : ∀ v, (r * Real.exp (-(β1 * E v)) - Real.exp (-(β2 * E v))) * (E v - m)
        = r * (Real.exp (-(β1 * E v)) * (E v - m)) - Real.exp (-(β2 * E v)) * (E v - m) := fun v => by ring
    simp only [this]
    exact (k1.const_mul r).sub k2
  have neg : ∫ v, Real.exp (-(β2 * E v)) * (E v - m) ∂μ < 0 := by
    rw [e2, integral_neg, neg_lt_zero]
    refine lt_of_le_of_ne (integral_nonneg pos) fun h0 => ?_
    have := (integral_eq_zero_iff_of_nonneg pos ki).1 h0.symm
    exact hne m (this.mono fun v hv => zero_iff v hv)
  have : ∫ v, Real.exp (-(β2 * E v)) * (E v - m) ∂μ
      = (∫ v, Real.exp (-(β2 * E v)) * E v ∂μ) - m * ∫ v, Real.exp (-(β2 * E v)) ∂μ := by
    simp only [mul_sub]
    rw [integral_sub i2 (j2.mul_const m), integral_mul_const, mul_comm m]
  unfold U
  rw [div_lt_iff₀ Z2]
  linarith

/-- means are continuous -/
theorem mean_cont {f : Ω → ℝ} (hf : Measurable f) {M : ℝ} (hM : ∀ᵐ v ∂μ, |f v| ≤ M) :
    Continuous fun β => (∫ v, Real.exp (-(β * E v)) * f v ∂μ) / ∫ v, Real.exp (-(β * E v)) ∂μ := by
  have key : ∀ {f : Ω → ℝ}, Measurable f → ∀ {M : ℝ}, (∀ᵐ v ∂μ, |f v| ≤ M) →
      Continuous fun β => ∫ v, Real.exp (-(β * E v)) * f v ∂μ := by
    intro f hf M hM
    rw [continuous_iff_continuousAt]
    intro β0
    refine continuousAt_of_dominated (bound := fun _ => Real.exp ((|β0| + 1) * D) * M) ?_ ?_ (integrable_const _) ?_
    · refine Filter.Eventually.of_forall fun β => ?_
      exact ((Real.measurable_exp.comp (hE.const_mul β).neg).mul hf).aestronglyMeasurable
    · have hn : ∀ᶠ β in nhds β0, |β - β0| < 1 := by
        have : Continuous fun β => |β - β0| := by fun_prop
        exact this.continuousAt.eventually_lt_const (by simp)
      filter_upwards [hn] with β hβ
      filter_upwards [hD, hM] with v h1 h2
      have hb : |β| ≤ |β0| + 1 := by
        have := abs_sub_abs_le_abs_sub β β0
        linarith
      rw [Real.norm_eq_abs, abs_mul, Real.abs_exp]
      refine mul_le_mul (Real.exp_le_exp.2 ?_) h2 (abs_nonneg _) (Real.exp_pos _).le
      calc -(β * E v) ≤ |β * E v| := neg_le_abs _
        _ = |β| * |E v| := abs_mul _ _
        _ ≤ (|β0| + 1) * D := mul_le_mul hb h1 (abs_nonneg _) (by positivity)
    · refine Filter.Eventually.of_forall fun v => ?_
      have : Continuous fun β => Real.exp (-(β * E v)) * f v := by fun_prop
      exact this.continuousAt
  have k1 := key hf hM
  have k2 := key (f := fun _ => 1) measurable_const (M := 1) (by simp)
  simp only [mul_one] at k2
  exact k1.div k2 fun β => (part_pos hE hD β).ne'

/-- the mean energy is continuous -/
theorem U_cont : Continuous (U μ E) := mean_cont hE hD hE hD

/-- never below a lower bound of the energy -/
theorem U_ge {m : ℝ} (hm : ∀ᵐ v ∂μ, m ≤ E v) (β : ℝ) : m ≤ U μ E β := by
  unfold U
  rw [le_div_iff₀ (part_pos hE hD β), ← integral_const_mul]
  refine integral_mono_ae ((exp_int1 hE hD β).const_mul m) (exp_int hE hD β hE hD) (hm.mono fun v hv => ?_)
  show m * Real.exp (-(β * E v)) ≤ Real.exp (-(β * E v)) * E v
  rw [mul_comm]
  exact mul_le_mul_of_nonneg_left hv (Real.exp_pos _).le

/-- at low temperature the mean energy comes down to any energy near which there are configurations -/
theorem U_low {a0 : ℝ} (ha : ∀ a, a0 < a → 0 < μ {v | E v < a}) {ε : ℝ} (he : 0 < ε) :
    ∀ᶠ β in Filter.atTop, U μ E β ≤ a0 + ε := by
  set a := a0 + ε / 2 with hadef
  set b := a0 + ε / 4 with hbdef
  set p := μ.real {v | E v < b} with hp
  have hp0 : 0 < p := ENNReal.toReal_pos (ha b (by linarith)).ne' (measure_ne_top _ _)
  have hD0 : 0 ≤ D := by
    obtain ⟨v, hv⟩ := hD.exists
    exact (abs_nonneg _).trans hv
  have ms : MeasurableSet {v | E v < b} := hE measurableSet_Iio
  have lim : Filter.Tendsto (fun β : ℝ => (D + |a|) / p * Real.exp (-(β * (ε / 4)))) Filter.atTop (nhds 0) := by
    have := (Real.tendsto_exp_neg_atTop_nhds_zero.comp
      (Filter.Tendsto.atTop_mul_const (show 0 < ε / 4 by linarith) Filter.tendsto_id)).const_mul ((D + |a|) / p)
    simpa using this
  filter_upwards [lim.eventually_lt_const (show (0 : ℝ) < ε / 2 by linarith), Filter.eventually_ge_atTop 0]
    with β h1 hβ
  have Z := part_pos hE hD β
  have i0 := exp_int1 hE hD β
  have i1 := exp_int hE hD β hE hD
  have up : ∫ v, Real.exp (-(β * E v)) * (E v - a) ∂μ ≤ (D + |a|) * Real.exp (-(β * a)) := by
    calc ∫ v, Real.exp (-(β * E v)) * (E v - a) ∂μ ≤ ∫ _, (D + |a|) * Real.exp (-(β * a)) ∂μ := by
          refine integral_mono_ae ?_ (integrable_const _) (hD.mono fun v hv => ?_)
          · simp only [mul_sub]
            exact i1.sub (i0.mul_const a)
          · show Real.exp (-(β * E v)) * (E v - a) ≤ (D + |a|) * Real.exp (-(β * a))
            rcases le_total a (E v) with h | h
            · rw [mul_comm]
              refine mul_le_mul ?_ (Real.exp_le_exp.2 (by nlinarith)) (Real.exp_pos _).le (by positivity)
              linarith [le_abs_self (E v), neg_abs_le a]
            · refine (mul_nonpos_of_nonneg_of_nonpos (Real.exp_pos _).le (by linarith)).trans ?_
              positivity
      _ = (D + |a|) * Real.exp (-(β * a)) := by simp
  have low : p * Real.exp (-(β * b)) ≤ ∫ v, Real.exp (-(β * E v)) ∂μ := by
    calc p * Real.exp (-(β * b)) = ∫ _ in {v | E v < b}, Real.exp (-(β * b)) ∂μ := by
          rw [setIntegral_const, smul_eq_mul]
      _ ≤ ∫ v in {v | E v < b}, Real.exp (-(β * E v)) ∂μ := by
          refine setIntegral_mono_on (integrable_const _).integrableOn i0.integrableOn ms fun v hv => ?_
          have hv : E v < b := hv
          exact Real.exp_le_exp.2 (by nlinarith)
      _ ≤ _ := setIntegral_le_integral i0 (Filter.Eventually.of_forall fun v => (Real.exp_pos _).le)
  have e1 : ∫ v, Real.exp (-(β * E v)) * (E v - a) ∂μ
      = (∫ v, Real.exp (-(β * E v)) * E v ∂μ) - a * ∫ v, Real.exp (-(β * E v)) ∂μ := by
    simp only [mul_sub]
    rw [integral_sub i1 (i0.mul_const a), integral_mul_const, mul_comm a]
  have hfac : (D + |a|) * Real.exp (-(β * a)) ≤ ε / 2 * ∫ v, Real.exp (-(β * E v)) ∂μ := by
    have : Real.exp (-(β * a)) = Real.exp (-(β * b)) * Real.exp (-(β * (ε / 4))) := by
      rw [← Real.exp_add]
      congr 1
      rw [hadef, hbdef]
      ring
    calc (D + |a|) * Real.exp (-(β * a)) = (D + |a|) / p * Real.exp (-(β * (ε / 4))) * (p * Real.exp (-(β * b))) := by
          rw [this]
          field_simp
      _ ≤ ε / 2 * ∫ v, Real.exp (-(β * E v)) ∂μ := mul_le_mul h1.le low (by positivity) (by linarith)
  unfold U
  rw [div_le_iff₀ Z]
  have : a0 + ε = a + ε / 2 := by rw [hadef]; ring
  rw [this, add_mul]
  linarith

end

/-! ### The energy is not constant -/

/-- a coordinate and the reflection that reverses it -/
structure Axis where
  co : V3 ℝ → ℝ
  fl : V3 ℝ → V3 ℝ
  meas : Measurable co
  orth : Orthogonal fl
  dots : ∀ w x, dot w x - dot w (fl x) = 2 * (co w * co x)
  null : sphereMeasure {x | co x = 0} = 0
  hads : ∀ a b, co (had a b) = co a * co b
  adds : ∀ a b, co (add a b) = co a + co b
  subs : ∀ a b, co (sub a b) = co a - co b
  flip : ∀ x, co (fl x) = -co x

def axisX : Axis where
  co v := v.x
  fl v := ⟨-v.x, v.y, v.z⟩
  meas := measurable_x
  orth := ⟨fun a b => by ext <;> simp only [add, neg_add], fun r a => by ext <;> simp [smul], fun a => by simp [len, dot]⟩
  dots w x := by simp only [dot]; ring
  null := (coord_null 0).2.1
  hads _ _ := rfl
  adds _ _ := rfl
  subs _ _ := rfl
  flip _ := rfl

def axisY : Axis where
  co v := v.y
  fl v := ⟨v.x, -v.y, v.z⟩
  meas := measurable_y
  orth := ⟨fun a b => by ext <;> simp only [add, neg_add], fun r a => by ext <;> simp [smul], fun a => by simp [len, dot]⟩
  dots w x := by simp only [dot]; ring
  null := (coord_null 0).2.2
  hads _ _ := rfl
  adds _ _ := rfl
  subs _ _ := rfl
  flip _ := rfl

def axisZ : Axis where
  co v := v.z
  fl v := ⟨v.x, v.y, -v.z⟩
  meas := measurable_z
  orth := ⟨fun a b => by ext <;> simp only [add, neg_add], fun r a => by ext <;> simp [smul], fun a => by simp [len, dot]⟩
  dots w x := by simp only [dot]; ring
  null := (coord_null 0).1
  hads _ _ := rfl
  adds _ _ := rfl
  subs _ _ := rfl
  flip _ := rfl

section
variable {L : ℕ}

theorem flip_preserving (a : Axis) (i : Fin L) :
    MeasurePreserving (fun v : Fin L → V3 ℝ => update v i (a.fl (v i))) (Measure.pi fun _ => sphereMeasure)
      (Measure.pi fun _ => sphereMeasure) :=
  site_preserving (g := fun _ x => a.fl x) i (a.orth.measurable.comp measurable_snd) (fun _ _ _ => rfl)
    fun _ _ hh => sphere_invariant a.orth hh

theorem site_ae (a : Axis) (i : Fin L) :
    ∀ᵐ v ∂(Measure.pi fun _ : Fin L => sphereMeasure), a.co (v i) ≠ 0 := by
  have h : ∀ᵐ x ∂sphereMeasure, a.co x ≠ 0 := by
    rw [ae_iff]
    simpa using a.null
  exact (Measure.quasiMeasurePreserving_eval (fun _ : Fin L => sphereMeasure) i).ae h

theorem fld_update (v : Fin L → V3 ℝ) (i : Fin L) (x : V3 ℝ) : fld (update v i x) = update (fld v) i x := by
  funext k
  by_cases h : k = i
  · subst h
    rw [update_self, fld_val, update_self]
  · rw [update_of_ne h, fld_update_ne v i x h]

/-- if the energy is constant, so the local fields vanish -/
theorem omega_zero (hL : 2 ≤ L) {J B : ℕ → V3 ℝ} {k : ℝ}
    (h : ∀ᵐ v ∂(Measure.pi fun _ : Fin L => sphereMeasure), ringEnergy L (fld v) J B = k) (a : Axis) (i : Fin L) :
    ∀ᵐ v ∂(Measure.pi fun _ : Fin L => sphereMeasure), a.co (omega L (fld v) J B i) = 0 := by
  have h2 := (flip_preserving a i).quasiMeasurePreserving.ae h
  filter_upwards [h, h2, site_ae a i] with v e1 e2 e3
  have e := ringEnergy_replace hL i.2 (fld v) J B (a.fl (v i))
  rw [← fld_update, e1, e2, sub_self, fld_val] at e
  have hd := a.dots (omega L (fld v) J B i) (v i)
  have : dot (omega L (fld v) J B i) (Spec.sub (a.fl (v i)) (v i))
      = dot (omega L (fld v) J B i) (a.fl (v i)) - dot (omega L (fld v) J B i) (v i) := by
    simp only [dot, Spec.sub]
    ring
  have h0 : a.co (omega L (fld v) J B i) * a.co (v i) = 0 := by linarith
  exact (mul_eq_zero.1 h0).resolve_right e3

theorem co_omega (a : Axis) (S J B : ℕ → V3 ℝ) (i : ℕ) : a.co (omega L S J B i)
    = a.co (J (left L i)) * a.co (S (left L i)) + a.co (J i) * a.co (S (right L i)) - a.co (B i) := by
  unfold omega
  rw [a.subs, a.adds, a.hads, a.hads]

theorem coupling_zero (hL : 3 ≤ L) {J B : ℕ → V3 ℝ} {k : ℝ}
    (h : ∀ᵐ v ∂(Measure.pi fun _ : Fin L => sphereMeasure), ringEnergy L (fld v) J B = k) (a : Axis) (i : Fin L) :
    a.co (J i) = 0 := by
  have hr : right L i < L := Nat.mod_lt _ (by omega)
  have hne : left L i ≠ right L i := by
    have hi := i.2
    unfold left right
    by_cases h0 : (i : ℕ) = 0
    · rw [h0, left_zero (by omega), right_lt (by omega)]
      omega
    · rw [left_pos (by omega) hi]
      by_cases h1 : (i : ℕ) + 1 = L
      · rw [right_last h1]
        omega
      · rw [right_lt (by omega)]
        omega
  have h1 := omega_zero (by omega) h a i
  have h2 := (flip_preserving a ⟨right L i, hr⟩).quasiMeasurePreserving.ae h1
  obtain ⟨v, e1, e2, e3⟩ := (h1.and (h2.and (site_ae a ⟨right L i, hr⟩))).exists
  rw [co_omega] at e1 e2
  rw [fld_update, update_of_ne hne, update_self, a.flip] at e2
  have hv : fld v (right L i) = v ⟨right L i, hr⟩ := fld_val v ⟨right L i, hr⟩
  rw [hv] at e1
  have h0 : a.co (J i) * a.co (v ⟨right L i, hr⟩) = 0 := by linarith
  exact (mul_eq_zero.1 h0).resolve_right e3

/-- the energy is constant only when there are neither couplings nor fields -/
theorem not_constant (hL : 3 ≤ L) {J B : ℕ → V3 ℝ} (hne : ∃ i < L, J i ≠ zero ∨ B i ≠ zero) (k : ℝ) :
    ¬ ∀ᵐ v ∂(Measure.pi fun _ : Fin L => sphereMeasure), ringEnergy L (fld v) J B = k := by
  intro h
  have hJ : ∀ (a : Axis) (i : ℕ), i < L → a.co (J i) = 0 := fun a i hi => coupling_zero hL h a ⟨i, hi⟩
  have hB : ∀ (a : Axis) (i : ℕ), i < L → a.co (B i) = 0 := by
    intro a i hi
    obtain ⟨v, e⟩ := (omega_zero (by omega) h a ⟨i, hi⟩).exists
    rw [co_omega, hJ a i hi, hJ a (left L i) (Nat.mod_lt _ (by omega))] at e
    linarith
  obtain ⟨i, hi, h1 | h1⟩ := hne
  · exact h1 (by ext; exacts [hJ axisX i hi, hJ axisY i hi, hJ axisZ i hi])
  · exact h1 (by ext; exacts [hB axisX i hi, hB axisY i hi, hB axisZ i hi])

/-- any chain; only its spins are used below -/
noncomputable def chain0 : SpinChain ℝ :=
  { j_couple := []
    static_h := []
    spins := []
    t := 0
    vars := Config.default
    file := none }

/-! ### Mean energy without weights, and positive weight near every configuration -/

theorem neg_orthogonal : Orthogonal fun x : V3 ℝ => ⟨-x.x, -x.y, -x.z⟩ :=
  ⟨fun a b => by ext <;> simp only [add, neg_add], fun r a => by ext <;> simp [smul], fun a => by simp [len, dot]⟩

theorem odd_zero (i : Fin L) {f : (Fin L → V3 ℝ) → ℝ} (hf : Measurable f)
    (ho : ∀ v, f (update v i ⟨-(v i).x, -(v i).y, -(v i).z⟩) = -f v) :
    ∫ v, f v ∂(Measure.pi fun _ : Fin L => sphereMeasure) = 0 := by
  have mp : MeasurePreserving (fun v : Fin L → V3 ℝ => update v i ⟨-(v i).x, -(v i).y, -(v i).z⟩)
      (Measure.pi fun _ => sphereMeasure) (Measure.pi fun _ => sphereMeasure) :=
    site_preserving (g := fun _ x => ⟨-x.x, -x.y, -x.z⟩) i (neg_orthogonal.measurable.comp measurable_snd)
      (fun _ _ _ => rfl) fun _ _ hh => sphere_invariant neg_orthogonal hh
  have e := integral_map (μ := Measure.pi fun _ : Fin L => sphereMeasure) mp.measurable.aemeasurable (f := f)
    hf.aestronglyMeasurable
  rw [mp.map_eq] at e
  simp only [ho, integral_neg] at e
  linarith

/-- the mean energy of unweighted configurations -/
theorem ring_mean (hL : 2 ≤ L) (J B : ℕ → V3 ℝ) :
    ∫ v, ringEnergy L (fld v) J B ∂(Measure.pi fun _ : Fin L => sphereMeasure) = 0 := by
  have m : ∀ i, Measurable fun v : Fin L → V3 ℝ => -dot (fld v i) (had (J i) (fld v ((i + 1) % L))) + dot (B i) (fld v i) :=
    fun i => (meas_dot (meas_fld i) (meas_had measurable_const (meas_fld _))).neg.add
      (meas_dot measurable_const (meas_fld i))
  unfold ringEnergy
  rw [integral_finsetSum]
  · refine sum_eq_zero fun i hi => ?_
    have hi : i < L := mem_range.1 hi
    have hr : (i + 1) % L ≠ i := by
      by_cases h : i + 1 = L
      · rw [right_last h]
        omega
      · rw [right_lt (by omega)]
        omega
    refine odd_zero ⟨i, hi⟩ (m i) fun v => ?_
    rw [fld_update, update_self, update_of_ne hr, show fld v i = v ⟨i, hi⟩ from fld_val v ⟨i, hi⟩]
    simp only [dot, had]
    ring
  · intro i _
    have t : Tame fun v : Fin L → V3 ℝ => -dot (fld v i) (had (J i) (fld v ((i + 1) % L))) + dot (B i) (fld v i) := by
      have tc : ∀ k, Tame (fun v : Fin L → V3 ℝ => (fld v k).x) ∧ Tame (fun v : Fin L → V3 ℝ => (fld v k).y) ∧
          Tame fun v : Fin L → V3 ℝ => (fld v k).z := by
        intro k
        have := tame_S (L := L) chain0 k
        simpa only [S_fld] using this
      obtain ⟨a1, a2, a3⟩ := tc i
      obtain ⟨b1, b2, b3⟩ := tc ((i + 1) % L)
      have k := fun r => Tame.const (L := L) r
      exact (((a1.mul ((k _).mul b1)).add (a2.mul ((k _).mul b2))).add (a3.mul ((k _).mul b3))).neg.add
        ((((k _).mul a1).add ((k _).mul a2)).add ((k _).mul a3))
    obtain ⟨M, hM⟩ := t.bound
    exact Integrable.of_bound t.meas.aestronglyMeasurable M ((good_ae sphere_ae).mono fun v hv => hM v hv)

/-- every neighbourhood, in the drawn numbers, of a configuration has weight -/
theorem open_weight {P : (Fin L → V3 ℝ) → Prop} (mP : MeasurableSet {v | P v})
    (hP : IsOpen {p : Fin L → ℝ × ℝ | P fun i => spherePoint (p i).1 (p i).2}) {p : Fin L → ℝ × ℝ}
    (hp : ∀ i, p i ∈ Set.Icc (0 : ℝ) 1 ×ˢ Set.Icc (0 : ℝ) 1) (h : P fun i => spherePoint (p i).1 (p i).2) :
    0 < (Measure.pi fun _ : Fin L => sphereMeasure) {v | P v} := by
  have msp : Measurable fun q : ℝ × ℝ => spherePoint q.1 q.2 := measurable_spherePoint
  have mp : MeasurePreserving (fun (q : Fin L → ℝ × ℝ) i => spherePoint (q i).1 (q i).2)
      (Measure.pi fun _ => (volume.restrict (Set.Ico (0 : ℝ) 1)).prod (volume.restrict (Set.Ico (0 : ℝ) 1)))
      (Measure.pi fun _ => sphereMeasure) :=
    measurePreserving_pi _ _ (f := fun _ (q : ℝ × ℝ) => spherePoint q.1 q.2) fun _ => ⟨msp, rfl⟩
  rw [← mp.measure_preimage mP.nullMeasurableSet, Measure.prod_restrict, ← Measure.restrict_pi_pi,
    Measure.restrict_apply (mp.measurable mP)]
  have cl : p ∈ closure (Set.univ.pi fun _ : Fin L => Set.Ioo (0 : ℝ) 1 ×ˢ Set.Ioo (0 : ℝ) 1) := by
    rw [closure_pi_set]
    simp only [closure_prod_eq, closure_Ioo zero_ne_one]
    exact fun i _ => hp i
  obtain ⟨q, hq1, hq2⟩ := mem_closure_iff.1 cl _ hP h
  have ho : IsOpen ({p : Fin L → ℝ × ℝ | P fun i => spherePoint (p i).1 (p i).2} ∩
      Set.univ.pi fun _ : Fin L => Set.Ioo (0 : ℝ) 1 ×ˢ Set.Ioo (0 : ℝ) 1) :=
    hP.inter (isOpen_set_pi Set.finite_univ fun _ _ => isOpen_Ioo.prod isOpen_Ioo)
  refine (ho.measure_pos _ ⟨q, hq1, hq2⟩).trans_le (measure_mono ?_)
  refine Set.inter_subset_inter (fun _ hx => hx) (Set.pi_mono fun _ _ => ?_)
  exact Set.prod_mono Set.Ioo_subset_Ico_self Set.Ioo_subset_Ico_self

/-- there is weight at every energy above that of a configuration -/
theorem energy_weight (J B : ℕ → V3 ℝ) {p : Fin L → ℝ × ℝ}
    (hp : ∀ i, p i ∈ Set.Icc (0 : ℝ) 1 ×ˢ Set.Icc (0 : ℝ) 1) {a : ℝ}
    (ha : ringEnergy L (fld fun i => spherePoint (p i).1 (p i).2) J B < a) :
    0 < (Measure.pi fun _ : Fin L => sphereMeasure) {v | ringEnergy L (fld v) J B < a} := by
  have mr : Measurable fun v : Fin L → V3 ℝ => ringEnergy L (fld v) J B := by
    have := (tame_ring (L := L) chain0 J B L).meas
    simpa only [S_fld] using this
  refine open_weight (mr measurableSet_Iio) ?_ hp ha
  have cc : ∀ k, (Continuous fun p : Fin L → ℝ × ℝ => (fld (fun i => spherePoint (p i).1 (p i).2) k).x) ∧
      (Continuous fun p : Fin L → ℝ × ℝ => (fld (fun i => spherePoint (p i).1 (p i).2) k).y) ∧
      Continuous fun p : Fin L → ℝ × ℝ => (fld (fun i => spherePoint (p i).1 (p i).2) k).z := by
    intro k
    unfold fld
    by_cases h : k < L
    · simp only [h, dite_true]
      unfold spherePoint
      refine ⟨?_, ?_, ?_⟩ <;> fun_prop
    · simp only [h, dite_false]
      exact ⟨continuous_const, continuous_const, continuous_const⟩
  refine isOpen_lt ?_ continuous_const
  unfold ringEnergy dot had
  refine continuous_finsetSum _ fun i _ => ?_
  obtain ⟨a1, a2, a3⟩ := cc i
  obtain ⟨b1, b2, b3⟩ := cc ((i + 1) % L)
  fun_prop

end

end Verif.Thermal
