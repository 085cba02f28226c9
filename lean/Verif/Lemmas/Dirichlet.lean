/-
Helper lemmas: a Metropolis chain whose moves are balanced with respect to an energy other than `E` does
not leave the Boltzmann distribution of `E` unchanged.
-/
import Verif.Lemmas.Markov

namespace Verif.Markov

set_option linter.unusedSectionVars false

open MeasureTheory Function Finset
open scoped ENNReal

section
variable {X : Type} [MeasurableSpace X] {L : ℕ} {σ : Measure X} [IsProbabilityMeasure σ] {β : ℝ}

/-- exchanging the old and the new entry -/
theorem swap_line {F : (Fin L → X) → (Fin L → X) → ℝ≥0∞}
    (hF : Measurable fun p : (Fin L → X) × (Fin L → X) => F p.1 p.2) (i : Fin L) :
    ∫⁻ v, ∫⁻ x, F v (update v i x) ∂σ ∂(Measure.pi fun _ => σ)
      = ∫⁻ v, ∫⁻ x, F (update v i x) v ∂σ ∂(Measure.pi fun _ => σ) := by
  have hu : Measurable fun p : (Fin L → X) × X => update p.1 i p.2 := measurable_update'
  have h1 : Measurable fun p : (Fin L → X) × X => F p.1 (update p.1 i p.2) := by
    have := Measurable.comp (g := fun p : (Fin L → X) × (Fin L → X) => F p.1 p.2) hF (measurable_fst.prodMk hu)
    exact this
  have h2 : Measurable fun p : (Fin L → X) × X => F (update p.1 i p.2) p.1 := by
    have := Measurable.comp (g := fun p : (Fin L → X) × (Fin L → X) => F p.1 p.2) hF (hu.prodMk measurable_fst)
    exact this
  refine lintegral_eq_of_lmarginal_eq {i} h1.lintegral_prod_right' h2.lintegral_prod_right' ?_
  funext v
  rw [lmarginal_singleton, lmarginal_singleton]
  simp only [update_idem]
  have h3 : Measurable fun p : X × X => F (update v i p.1) (update v i p.2) := by
    have := Measurable.comp (g := fun p : (Fin L → X) × (Fin L → X) => F p.1 p.2) hF
      (((measurable_update v).comp measurable_fst).prodMk ((measurable_update v).comp measurable_snd) :
        Measurable fun p : X × X => (update v i p.1, update v i p.2))
    exact this
  rw [lintegral_lintegral_swap h3.aemeasurable]

/-- replacing an entry by an independent one does not change averages -/
theorem resample {f : (Fin L → X) → ℝ≥0∞} (hf : Measurable f) (i : Fin L) :
    ∫⁻ v, ∫⁻ x, f (update v i x) ∂σ ∂(Measure.pi fun _ => σ) = ∫⁻ v, f v ∂(Measure.pi fun _ => σ) := by
  rw [swap_line (F := fun _ v' => f v') (hf.comp measurable_snd) i]
  simp

theorem resample_ae {P : (Fin L → X) → Prop} (hP : MeasurableSet {v | P v})
    (h : ∀ᵐ v ∂(Measure.pi fun _ : Fin L => σ), P v) (i : Fin L) :
    ∀ᵐ v ∂(Measure.pi fun _ : Fin L => σ), ∀ᵐ x ∂σ, P (update v i x) := by
  have hm : Measurable ({v | P v}ᶜ.indicator fun _ => (1 : ℝ≥0∞)) := measurable_const.indicator hP.compl
  have h0 := resample (σ := σ) hm i
  have hz : (Measure.pi fun _ : Fin L => σ) {v | P v}ᶜ = 0 := ae_iff.1 h
  rw [lintegral_indicator_const hP.compl, one_mul, hz] at h0
  have hm2 : Measurable fun p : (Fin L → X) × X => {v | P v}ᶜ.indicator (fun _ => (1 : ℝ≥0∞)) (update p.1 i p.2) :=
    hm.comp measurable_update'
  have h1 := (lintegral_eq_zero_iff hm2.lintegral_prod_right').1 h0
  refine h1.mono fun v hv => ?_
  have h2 := (lintegral_eq_zero_iff (hm.comp (measurable_update v))).1 hv
  refine h2.mono fun x hx => ?_
  by_contra hc
  have : {v | P v}ᶜ.indicator (fun _ => (1 : ℝ≥0∞)) (update v i x) = 1 := Set.indicator_of_mem hc _
  rw [show ({v | P v}ᶜ.indicator (fun _ => (1 : ℝ≥0∞)) ∘ update v i) x = _ from this] at hx
  exact one_ne_zero hx

theorem two_le_cosh (t : ℝ) : 2 ≤ Real.exp t + Real.exp (-t) := by
  have h := Real.add_one_le_exp (t / 2)
  have e1 : Real.exp t = Real.exp (t / 2) ^ 2 := by rw [← Real.exp_nat_mul]; congr 1; push_cast; ring
  have e2 : Real.exp (-t) = Real.exp (-(t / 2)) ^ 2 := by rw [← Real.exp_nat_mul]; congr 1; push_cast; ring
  have e3 : Real.exp (t / 2) * Real.exp (-(t / 2)) = 1 := by rw [← Real.exp_add]; simp
  rw [e1, e2]
  nlinarith [sq_nonneg (Real.exp (t / 2) - Real.exp (-(t / 2)))]

theorem cosh_eq {t : ℝ} (h : Real.exp t + Real.exp (-t) = 2) : t = 0 := by
  have e1 : Real.exp t = Real.exp (t / 2) ^ 2 := by rw [← Real.exp_nat_mul]; congr 1; push_cast; ring
  have e2 : Real.exp (-t) = Real.exp (-(t / 2)) ^ 2 := by rw [← Real.exp_nat_mul]; congr 1; push_cast; ring
  have e3 : Real.exp (t / 2) * Real.exp (-(t / 2)) = 1 := by rw [← Real.exp_add]; simp
  rw [e1, e2] at h
  have h1 : (Real.exp (t / 2) - Real.exp (-(t / 2))) ^ 2 = 0 := by nlinarith
  have h2 : Real.exp (t / 2) = Real.exp (-(t / 2)) := by
    have := pow_eq_zero_iff (two_ne_zero) |>.1 h1
    linarith
  have := Real.exp_injective h2
  linarith

variable {E E0 h : (Fin L → X) → ℝ}

/-- One attempted move at site `i`, balanced with respect to `E0`, never lowers the mean of `exp h` in the Boltzmann
distribution of `E`, where `h = beta (E - E0)`; it leaves it unchanged only if `h` does not depend on entry `i`. -/
theorem dirichlet {U : Set X} (hU : ∀ᵐ x ∂σ, x ∈ U) (mE : Measurable E0) (mh : Measurable h)
    (heq : ∀ v, β * E v = β * E0 v + h v) {D : ℝ} (hD : ∀ v, Good U v → |β * E0 v| ≤ D) (i : Fin L) :
    (∫⁻ v, wt β E v * ENNReal.ofReal (Real.exp (h v)) ∂(Measure.pi fun _ => σ)
      ≤ ∫⁻ v, wt β E v * Qs σ β E0 i (fun v => ENNReal.ofReal (Real.exp (h v))) v ∂(Measure.pi fun _ => σ)) ∧
    (∫⁻ v, wt β E v * Qs σ β E0 i (fun v => ENNReal.ofReal (Real.exp (h v))) v ∂(Measure.pi fun _ => σ)
        ≤ ∫⁻ v, wt β E v * ENNReal.ofReal (Real.exp (h v)) ∂(Measure.pi fun _ => σ) →
      ∀ᵐ v ∂(Measure.pi fun _ : Fin L => σ), ∀ᵐ x ∂σ, h (update v i x) = h v) := by
  set μ := Measure.pi fun _ : Fin L => σ with hμ
  -- rates
  have hwt : ∀ v, wt β E v * ENNReal.ofReal (Real.exp (h v)) = wt β E0 v := by
    intro v
    unfold wt
    rw [← ENNReal.ofReal_mul (Real.exp_pos _).le, ← Real.exp_add]
    congr 2
    linarith [heq v]
  have hwt' : ∀ v v', wt β E v * ENNReal.ofReal (Real.exp (h v')) = wt β E0 v * ENNReal.ofReal (Real.exp (h v' - h v)) := by
    intro v v'
    unfold wt
    rw [← ENNReal.ofReal_mul (Real.exp_pos _).le, ← Real.exp_add, ← ENNReal.ofReal_mul (Real.exp_pos _).le, ← Real.exp_add]
    congr 2
    linarith [heq v]
  let r : (Fin L → X) → (Fin L → X) → ℝ≥0∞ := fun v v' => wt β E0 v * acc β E0 v v'
  have rs : ∀ v v', r v v' = r v' v := fun v v' => wt_acc v v'
  let e : (Fin L → X) → (Fin L → X) → ℝ≥0∞ := fun v v' => ENNReal.ofReal (Real.exp (h v' - h v))
  have mr : Measurable fun p : (Fin L → X) × (Fin L → X) => r p.1 p.2 := by
    have ma : Measurable fun p : (Fin L → X) × (Fin L → X) => acc β E0 p.1 p.2 := by
      unfold acc
      exact (measurable_const.min (Real.measurable_exp.comp
        (((mE.comp measurable_snd).sub (mE.comp measurable_fst)).const_mul β).neg)).ennreal_ofReal
    exact ((measurable_wt mE).comp measurable_fst).mul ma
  have me : Measurable fun p : (Fin L → X) × (Fin L → X) => e p.1 p.2 :=
    (Real.measurable_exp.comp ((mh.comp measurable_snd).sub (mh.comp measurable_fst))).ennreal_ofReal
  have me' : Measurable fun p : (Fin L → X) × (Fin L → X) => e p.2 p.1 :=
    (Real.measurable_exp.comp ((mh.comp measurable_fst).sub (mh.comp measurable_snd))).ennreal_ofReal
  have hu : Measurable fun p : (Fin L → X) × X => update p.1 i p.2 := measurable_update'
  have line : ∀ {F : (Fin L → X) → (Fin L → X) → ℝ≥0∞},
      (Measurable fun p : (Fin L → X) × (Fin L → X) => F p.1 p.2) →
      Measurable fun p : (Fin L → X) × X => F p.1 (update p.1 i p.2) := by
    intro F hF
    have := Measurable.comp (g := fun p : (Fin L → X) × (Fin L → X) => F p.1 p.2) hF
      (measurable_fst.prodMk hu)
    exact this
  have mre : Measurable fun p : (Fin L → X) × (Fin L → X) => r p.1 p.2 * e p.1 p.2 := mr.mul me
  -- the three integrals
  set A := ∫⁻ v, ∫⁻ x, r v (update v i x) * e v (update v i x) ∂σ ∂μ with hA
  set B := ∫⁻ v, ∫⁻ x, r v (update v i x) ∂σ ∂μ with hB
  set C := ∫⁻ v, ∫⁻ x, wt β E0 v * (1 - acc β E0 v (update v i x)) ∂σ ∂μ with hC
  have macc := measurable_acc (β := β) mE i
  have mC : Measurable fun p : (Fin L → X) × X => wt β E0 p.1 * (1 - acc β E0 p.1 (update p.1 i p.2)) :=
    ((measurable_wt mE).comp measurable_fst).mul (measurable_const.sub macc)
  have sec : ∀ {G : (Fin L → X) × X → ℝ≥0∞}, Measurable G → ∀ v, Measurable fun x => G (v, x) :=
    fun hG v => hG.comp (measurable_const.prodMk measurable_id)
  have mA : Measurable fun v => ∫⁻ x, r v (update v i x) * e v (update v i x) ∂σ :=
    (line (F := fun v v' => r v v' * e v v') mre).lintegral_prod_right'
  have mB : Measurable fun v => ∫⁻ x, r v (update v i x) ∂σ := (line (F := r) mr).lintegral_prod_right'
  have e1 : ∫⁻ v, wt β E v * Qs σ β E0 i (fun v => ENNReal.ofReal (Real.exp (h v))) v ∂μ = A + C := by
    rw [hA, hC, ← lintegral_add_left mA]
    refine lintegral_congr fun v => ?_
    have s1 := sec (line (F := fun v v' => r v v' * e v v') mre) v
    dsimp only at s1
    unfold Qs
    rw [← lintegral_const_mul' _ _ (by unfold wt; exact ENNReal.ofReal_ne_top), ← lintegral_add_left s1]
    refine lintegral_congr fun x => ?_
    show _ = wt β E0 v * acc β E0 v (update v i x) * ENNReal.ofReal (Real.exp (h (update v i x) - h v)) + _
    have a1 := hwt v
    have a2 := hwt' v (update v i x)
    calc _ = acc β E0 v (update v i x) * (wt β E v * ENNReal.ofReal (Real.exp (h (update v i x))))
        + (1 - acc β E0 v (update v i x)) * (wt β E v * ENNReal.ofReal (Real.exp (h v))) := by ring
      _ = _ := by rw [a1, a2]; ring
  have e2 : ∫⁻ v, wt β E v * ENNReal.ofReal (Real.exp (h v)) ∂μ = B + C := by
    rw [hB, hC, ← lintegral_add_left mB]
    refine lintegral_congr fun v => ?_
    have s1 := sec (line (F := r) mr) v
    dsimp only at s1
    rw [← lintegral_add_left s1, hwt]
    have : ∀ x, r v (update v i x) + wt β E0 v * (1 - acc β E0 v (update v i x)) = wt β E0 v := by
      intro x
      show wt β E0 v * acc β E0 v (update v i x) + _ = _
      rw [← mul_add, add_tsub_cancel_of_le (acc_le_one _ _), mul_one]
    simp only [this]
    simp
  have e3 : ∫⁻ v, ∫⁻ x, r v (update v i x) * e (update v i x) v ∂σ ∂μ = A := by
    rw [hA, swap_line (σ := σ) (F := fun v v' => r v v' * e v v') mre i]
    refine lintegral_congr fun v => lintegral_congr fun x => ?_
    rw [rs]
  have e4 : ∫⁻ v, ∫⁻ x, r v (update v i x) * (e v (update v i x) + e (update v i x) v) ∂σ ∂μ = A + A := by
    have h2 : A + A = A + ∫⁻ v, ∫⁻ x, r v (update v i x) * e (update v i x) v ∂σ ∂μ := by rw [e3]
    rw [h2, hA, ← lintegral_add_left mA]
    refine lintegral_congr fun v => ?_
    have s1 := sec (line (F := fun v v' => r v v' * e v v') mre) v
    dsimp only at s1
    rw [← lintegral_add_left s1]
    refine lintegral_congr fun x => mul_add _ _ _
  have e5 : ∫⁻ v, ∫⁻ x, r v (update v i x) * 2 ∂σ ∂μ = B + B := by
    rw [hB, ← lintegral_add_left mB]
    refine lintegral_congr fun v => ?_
    have s1 := sec (line (F := r) mr) v
    dsimp only at s1
    rw [← lintegral_add_left s1]
    refine lintegral_congr fun x => mul_two _
  have two : ∀ v v', 2 ≤ e v v' + e v' v := by
    intro v v'
    show 2 ≤ ENNReal.ofReal (Real.exp (h v' - h v)) + ENNReal.ofReal (Real.exp (h v - h v'))
    rw [← ENNReal.ofReal_add (Real.exp_pos _).le (Real.exp_pos _).le, ← neg_sub (h v') (h v)]
    have := ENNReal.ofReal_le_ofReal (two_le_cosh (h v' - h v))
    simpa using this
  have hle : ∀ v, ∫⁻ x, r v (update v i x) * 2 ∂σ
      ≤ ∫⁻ x, r v (update v i x) * (e v (update v i x) + e (update v i x) v) ∂σ :=
    fun v => lintegral_mono fun x => mul_le_mul_right (two _ _) _
  have hBA : B + B ≤ A + A := by
    rw [← e4, ← e5]
    exact lintegral_mono hle
  -- everything is finite
  have hwb : ∀ v, Good U v → wt β E0 v ≤ ENNReal.ofReal (Real.exp D) := by
    intro v hv
    unfold wt
    exact ENNReal.ofReal_le_ofReal (Real.exp_le_exp.2 (by linarith [(abs_le.1 (hD v hv)).1]))
  have hrb : ∀ v v', Good U v → r v v' ≤ ENNReal.ofReal (Real.exp D) := fun v v' hv =>
    (mul_le_of_le_one_right zero_le (acc_le_one _ _)).trans (hwb v hv)
  have hBt : B ≠ ⊤ := by
    refine ne_top_of_le_ne_top ENNReal.ofReal_ne_top (b := ENNReal.ofReal (Real.exp D)) ?_
    have : B ≤ ∫⁻ _, ∫⁻ _, ENNReal.ofReal (Real.exp D) ∂σ ∂μ :=
      lintegral_mono_ae ((good_ae hU).mono fun v hv => lintegral_mono fun x => hrb v _ hv)
    simpa using this
  have hCt : C ≠ ⊤ := by
    refine ne_top_of_le_ne_top ENNReal.ofReal_ne_top (b := ENNReal.ofReal (Real.exp D)) ?_
    have : C ≤ ∫⁻ _, ∫⁻ _, ENNReal.ofReal (Real.exp D) ∂σ ∂μ :=
      lintegral_mono_ae ((good_ae hU).mono fun v hv => lintegral_mono fun x =>
        (mul_le_of_le_one_right zero_le tsub_le_self).trans (hwb v hv))
    simpa using this
  have hBA' : B ≤ A := by
    by_contra hc
    have := ENNReal.add_lt_add (not_le.1 hc) (not_le.1 hc)
    exact absurd hBA (not_le.2 this)
  constructor
  · rw [e1, e2]
    gcongr
  · intro hcon
    rw [e1, e2] at hcon
    have hAB : A ≤ B := (ENNReal.add_le_add_iff_right hCt).1 hcon
    have hAA : A + A ≤ B + B := add_le_add hAB hAB
    rw [← e4, ← e5] at hAA
    have m4 := line (F := fun v v' => r v v' * (e v v' + e v' v)) (mr.mul (me.add me'))
    have f5 : ∫⁻ v, ∫⁻ x, r v (update v i x) * 2 ∂σ ∂μ ≠ ⊤ := by
      rw [e5]
      exact ENNReal.add_ne_top.2 ⟨hBt, hBt⟩
    have q1 := ae_eq_of_ae_le_of_lintegral_le (Filter.Eventually.of_forall hle) f5
      m4.lintegral_prod_right'.aemeasurable hAA
    filter_upwards [q1, good_ae (L := L) hU] with v hv hg
    have f6 : ∫⁻ x, r v (update v i x) * 2 ∂σ ≠ ⊤ := by
      refine ne_top_of_le_ne_top (b := ENNReal.ofReal (Real.exp D) * 2) (by finiteness) ?_
      have : ∫⁻ x, r v (update v i x) * 2 ∂σ ≤ ∫⁻ _, ENNReal.ofReal (Real.exp D) * 2 ∂σ :=
        lintegral_mono fun x => mul_le_mul_left (hrb v _ hg) _
      simpa using this
    have q2 := ae_eq_of_ae_le_of_lintegral_le (μ := σ) (f := fun x => r v (update v i x) * 2)
      (g := fun x => r v (update v i x) * (e v (update v i x) + e (update v i x) v))
      (Filter.Eventually.of_forall fun x => mul_le_mul_right (two _ _) _) f6 (sec m4 v).aemeasurable hv.ge
    filter_upwards [q2] with x hx
    have r0 : r v (update v i x) ≠ 0 := by
      show wt β E0 v * acc β E0 v (update v i x) ≠ 0
      unfold wt acc
      refine mul_ne_zero ?_ ?_ <;> simp [Real.exp_pos]
    have rt : r v (update v i x) ≠ ⊤ := by
      show wt β E0 v * acc β E0 v (update v i x) ≠ ⊤
      unfold wt acc
      exact ENNReal.mul_ne_top ENNReal.ofReal_ne_top ENNReal.ofReal_ne_top
    have hx' := (ENNReal.mul_right_inj r0 rt).1 hx
    have hx2 : ENNReal.ofReal (Real.exp (h (update v i x) - h v) + Real.exp (-(h (update v i x) - h v)))
        = ENNReal.ofReal 2 := by
      rw [ENNReal.ofReal_add (Real.exp_pos _).le (Real.exp_pos _).le, neg_sub]
      rw [show ENNReal.ofReal 2 = 2 by simp]
      exact hx'.symm
    have := (ENNReal.ofReal_eq_ofReal_iff (by positivity) (by norm_num)).1 hx2
    linarith [cosh_eq this]

end

end Verif.Markov
