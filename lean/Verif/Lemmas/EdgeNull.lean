/-
Helper lemmas: a Langevin sub-step maps no set of positive measure to a null set.
-/
import Verif.Lemmas.KickRegular
import Mathlib.MeasureTheory.Measure.Hausdorff
import Mathlib.MeasureTheory.Measure.QuasiMeasurePreserving

namespace Verif

set_option linter.unusedSectionVars false

open Spec Function MeasureTheory ProbabilityTheory
open scoped ENNReal

/-! ### three normal numbers -/

/-- distribution of three independent standard normal numbers -/
noncomputable def normal3 : Measure (ℝ × ℝ × ℝ) := (gaussianReal 0 1).prod ((gaussianReal 0 1).prod (gaussianReal 0 1))

instance : IsProbabilityMeasure normal3 := by
  unfold normal3
  infer_instance

theorem normal3_ac : normal3 ≪ volume := by
  have h : gaussianReal 0 1 ≪ volume := gaussianReal_absolutelyContinuous 0 (by norm_num)
  exact h.prod (h.prod h)

theorem normal3_ac' : (volume : Measure (ℝ × ℝ × ℝ)) ≪ normal3 := by
  have h : volume ≪ gaussianReal 0 1 := gaussianReal_absolutelyContinuous' 0 (by norm_num)
  exact h.prod (h.prod h)

instance haar3 : (volume : Measure (ℝ × ℝ × ℝ)).IsAddHaarMeasure :=
  have : (volume : Measure (ℝ × ℝ)).IsAddHaarMeasure :=
    inferInstanceAs ((volume : Measure ℝ).prod (volume : Measure ℝ)).IsAddHaarMeasure
  inferInstanceAs ((volume : Measure ℝ).prod (volume : Measure (ℝ × ℝ))).IsAddHaarMeasure

/-- null sets are pulled back to null sets by maps that do not contract too much -/
theorem anti_null {f : ℝ × ℝ × ℝ → ℝ × ℝ × ℝ} {k : NNReal} (hf : AntilipschitzWith k f) {s : Set (ℝ × ℝ × ℝ)}
    (hs : volume s = 0) : volume (f ⁻¹' s) = 0 := by
  have h1 : (volume : Measure (ℝ × ℝ × ℝ)) ≪ Measure.hausdorffMeasure (Module.finrank ℝ (ℝ × ℝ × ℝ)) :=
    Measure.absolutelyContinuous_isAddHaarMeasure _ _
  have h2 : Measure.hausdorffMeasure (Module.finrank ℝ (ℝ × ℝ × ℝ)) ≪ (volume : Measure (ℝ × ℝ × ℝ)) :=
    Measure.absolutelyContinuous_isAddHaarMeasure _ _
  refine h1 (le_antisymm ?_ zero_le)
  refine (hf.hausdorffMeasure_preimage_le (by positivity) s).trans ?_
  rw [h2 hs, mul_zero]

theorem dist_le_len (p q : ℝ × ℝ × ℝ) : dist p q ≤ len (Spec.sub (ofP p) (ofP q)) := by
  obtain ⟨h1, h2, h3⟩ := abs_le_len (Spec.sub (ofP p) (ofP q))
  simp only [Spec.sub, ofP] at h1 h2 h3
  rw [Prod.dist_eq, Prod.dist_eq, Real.dist_eq, Real.dist_eq, Real.dist_eq]
  exact max_le h1 (max_le h2 h3)

theorem len_le_dist (p q : ℝ × ℝ × ℝ) : len (Spec.sub (ofP p) (ofP q)) ≤ 2 * dist p q := by
  have h1 : |p.1 - q.1| ≤ dist p q := by rw [Prod.dist_eq, Real.dist_eq]; exact le_max_left _ _
  have h2 : |p.2.1 - q.2.1| ≤ dist p q := by
    rw [Prod.dist_eq, Prod.dist_eq, Real.dist_eq, Real.dist_eq]; exact (le_max_left _ _).trans (le_max_right _ _)
  have h3 : |p.2.2 - q.2.2| ≤ dist p q := by
    rw [Prod.dist_eq, Prod.dist_eq, Real.dist_eq, Real.dist_eq]; exact (le_max_right _ _).trans (le_max_right _ _)
  have d0 : 0 ≤ dist p q := dist_nonneg
  unfold len dot
  rw [show 2 * dist p q = Real.sqrt ((2 * dist p q) ^ 2) from (Real.sqrt_sq (by positivity)).symm]
  refine Real.sqrt_le_sqrt ?_
  simp only [Spec.sub, ofP]
  have s1 := sq_le_sq' (by linarith [abs_nonneg (p.1 - q.1)]) h1
  have s2 := sq_le_sq' (by linarith [abs_nonneg (p.2.1 - q.2.1)]) h2
  have s3 := sq_le_sq' (by linarith [abs_nonneg (p.2.2 - q.2.2)]) h3
  rw [sq_abs] at s1 s2 s3
  nlinarith

theorem ofP_toP (v : V3 ℝ) : ofP (toP v) = v := rfl
theorem toP_ofP (p : ℝ × ℝ × ℝ) : toP (ofP p) = p := rfl

/-- a criterion in terms of lengths -/
theorem anti_of_len {f : ℝ × ℝ × ℝ → ℝ × ℝ × ℝ} {a : ℝ} (ha : 0 < a)
    (h : ∀ p q, a * len (Spec.sub (ofP p) (ofP q)) ≤ len (Spec.sub (ofP (f p)) (ofP (f q)))) :
    AntilipschitzWith (Real.toNNReal (2 / a)) f := by
  refine AntilipschitzWith.of_le_mul_dist fun p q => ?_
  rw [Real.coe_toNNReal _ (by positivity)]
  have h1 := h p q
  have h2 := dist_le_len p q
  have h3 := len_le_dist (f p) (f q)
  rw [div_mul_eq_mul_div, le_div_iff₀ ha]
  nlinarith

theorem precess_neg (v w : V3 ℝ) (t : ℝ) : precess v w (-t) = precess v (smul (-1) w) t := by
  have hl : len (smul (-1) w) = len w := by rw [len_smul]; norm_num
  unfold precess
  simp only [hl, mul_neg, Real.cos_neg, Real.sin_neg]
  ext <;> simp only [Spec.sub, Spec.add, smul, cross, dot] <;> ring

theorem precess_back (v w : V3 ℝ) (t : ℝ) : precess (precess v w t) w (-t) = v := by
  rw [precess_precess, add_neg_cancel, precess_zero]

theorem precess_forth (v w : V3 ℝ) (t : ℝ) : precess (precess v w (-t)) w t = v := by
  rw [precess_precess, neg_add_cancel, precess_zero]

theorem precess_pres (w : V3 ℝ) (t : ℝ) : MeasurePreserving (fun x => precess x w t) sphereMeasure sphereMeasure := by
  have hm : Measurable fun x : V3 ℝ => precess x w t := (precess_orthogonal w t).measurable
  exact ⟨hm, Measure.ext_of_lintegral _ fun f hf => by
    rw [lintegral_map hf hm, sphere_invariant (precess_orthogonal w t) hf]⟩

theorem meas_ofP : Measurable ofP := measurable_mk measurable_fst measurable_snd.fst measurable_snd.snd

theorem meas_toP : Measurable toP := measurable_x.prodMk (measurable_y.prodMk measurable_z)

/-! ### the move of an edge spin -/

/-- deterministic part of the field on an edge -/
def pull (γ : ℝ) (Ω x : V3 ℝ) : V3 ℝ := Spec.sub Ω (smul γ (cross x Ω))

theorem meas_pull {α : Type} [MeasurableSpace α] {Ω x : α → V3 ℝ} (hΩ : Measurable Ω) (hx : Measurable x) (γ : ℝ) :
    Measurable fun t => pull γ (Ω t) (x t) :=
  meas_sub hΩ (meas_smul measurable_const (meas_cross hx hΩ))

theorem pull_lip (γ : ℝ) (Ω x y : V3 ℝ) : len (Spec.sub (pull γ Ω x) (pull γ Ω y)) ≤ |γ| * len Ω * len (Spec.sub x y) := by
  rw [show Spec.sub (pull γ Ω x) (pull γ Ω y) = smul (-γ) (cross (Spec.sub x y) Ω) by
    unfold pull
    ext <;> simp only [Spec.sub, smul, cross] <;> ring, len_smul, abs_neg]
  have := len_cross_le (Spec.sub x y) Ω
  nlinarith [abs_nonneg γ]

/-- the edge spin and its noise after the move -/
noncomputable def edgeMove (γ c t : ℝ) (Ω : V3 ℝ) (p : V3 ℝ × (ℝ × ℝ × ℝ)) : V3 ℝ × (ℝ × ℝ × ℝ) :=
  (precess p.1 (Spec.sub (pull γ Ω p.1) (smul c (ofP p.2))) t, p.2)

theorem meas_edgeMove (γ c t : ℝ) (Ω : V3 ℝ) : Measurable (edgeMove γ c t Ω) :=
  (meas_precess measurable_fst (meas_sub (meas_pull measurable_const measurable_fst γ)
    (meas_smul measurable_const (meas_ofP.comp measurable_snd))) t).prodMk measurable_snd

theorem edgeMove_null {γ c t : ℝ} {Ω : V3 ℝ} (hc : 0 < c) (ht : 0 ≤ t) (hd : |γ| * len Ω * t < 1) :
    Measure.QuasiMeasurePreserving (edgeMove γ c t Ω) (sphereMeasure.prod normal3) (sphereMeasure.prod normal3) := by
  have hM := meas_edgeMove γ c t Ω
  refine ⟨hM, Measure.AbsolutelyContinuous.mk fun A hA h0 => ?_⟩
  rw [Measure.map_apply hM hA]
  have hcne : c ≠ 0 := hc.ne'
  -- Lebesgue measure instead of normal numbers
  have hA0 : (sphereMeasure.prod (volume : Measure (ℝ × ℝ × ℝ))) A = 0 :=
    (Measure.AbsolutelyContinuous.rfl.prod normal3_ac') h0
  refine (Measure.AbsolutelyContinuous.rfl.prod normal3_ac) (?_ : (sphereMeasure.prod (volume : Measure (ℝ × ℝ × ℝ))) _ = 0)
  rw [Measure.measure_prod_null (hM hA)]
  -- in terms of the total field
  have mg : Measurable fun p : V3 ℝ × (ℝ × ℝ × ℝ) => toP (smul (1 / c) (Spec.sub (pull γ Ω p.1) (ofP p.2))) :=
    meas_toP.comp (meas_smul measurable_const (meas_sub (meas_pull measurable_const measurable_fst γ) (meas_ofP.comp measurable_snd)))
  have mp : Measurable fun p : V3 ℝ × (ℝ × ℝ × ℝ) => precess p.1 (ofP p.2) t :=
    meas_precess measurable_fst (meas_ofP.comp measurable_snd) t
  have mp' : Measurable fun p : V3 ℝ × (ℝ × ℝ × ℝ) => precess p.1 (ofP p.2) (-t) :=
    meas_precess measurable_fst (meas_ofP.comp measurable_snd) (-t)
  have hE : MeasurableSet {p : V3 ℝ × (ℝ × ℝ × ℝ) |
      ¬(precess p.1 (ofP p.2) t, toP (smul (1 / c) (Spec.sub (pull γ Ω p.1) (ofP p.2)))) ∈ A} :=
    ((mp.prodMk mg) hA).compl
  have hE' : MeasurableSet {p : V3 ℝ × (ℝ × ℝ × ℝ) |
      ¬(p.1, toP (smul (1 / c) (Spec.sub (pull γ Ω (precess p.1 (ofP p.2) (-t))) (ofP p.2)))) ∈ A} :=
    ((measurable_fst.prodMk (mg.comp (mp'.prodMk measurable_snd))) hA).compl
  have key : ∀ᵐ x ∂sphereMeasure, ∀ᵐ w : ℝ × ℝ × ℝ,
      ¬(precess x (ofP w) t, toP (smul (1 / c) (Spec.sub (pull γ Ω x) (ofP w)))) ∈ A := by
    rw [Measure.ae_ae_comm (p := fun (x : V3 ℝ) (w : ℝ × ℝ × ℝ) =>
      ¬(precess x (ofP w) t, toP (smul (1 / c) (Spec.sub (pull γ Ω x) (ofP w)))) ∈ A) hE]
    have key' : ∀ᵐ w : ℝ × ℝ × ℝ, ∀ᵐ y ∂sphereMeasure,
        ¬(y, toP (smul (1 / c) (Spec.sub (pull γ Ω (precess y (ofP w) (-t))) (ofP w)))) ∈ A := by
      rw [← Measure.ae_ae_comm (p := fun (y : V3 ℝ) (w : ℝ × ℝ × ℝ) =>
        ¬(y, toP (smul (1 / c) (Spec.sub (pull γ Ω (precess y (ofP w) (-t))) (ofP w)))) ∈ A) hE']
      rw [Measure.measure_prod_null hA] at hA0
      filter_upwards [hA0, sphere_ae] with y hy h1
      refine measure_eq_zero_iff_ae_notMem.1 (anti_null (s := Prod.mk y ⁻¹' A)
        (f := fun w => toP (smul (1 / c) (Spec.sub (pull γ Ω (precess y (ofP w) (-t))) (ofP w))))
        (anti_of_len (a := (1 - |γ| * len Ω * t) / c) (by have : 0 < 1 - |γ| * len Ω * t := by linarith
                                                          positivity) fun p q => ?_) hy)
      rw [ofP_toP, ofP_toP, show Spec.sub (smul (1 / c) (Spec.sub (pull γ Ω (precess y (ofP p) (-t))) (ofP p)))
          (smul (1 / c) (Spec.sub (pull γ Ω (precess y (ofP q) (-t))) (ofP q)))
        = smul (1 / c) (Spec.sub (Spec.sub (pull γ Ω (precess y (ofP p) (-t))) (pull γ Ω (precess y (ofP q) (-t))))
          (Spec.sub (ofP p) (ofP q))) by ext <;> simp only [Spec.sub, smul] <;> ring, len_smul, abs_of_pos (show 0 < 1 / c by positivity)]
      have l1 := pull_lip γ Ω (precess y (ofP p) (-t)) (precess y (ofP q) (-t))
      have l2 : len (Spec.sub (precess y (ofP p) (-t)) (precess y (ofP q) (-t))) ≤ len (Spec.sub (ofP p) (ofP q)) * t := by
        rw [precess_neg, precess_neg]
        refine (precess_dist _ _ _ _ ht).trans ?_
        rw [show Spec.sub y y = zero by ext <;> simp [Spec.sub, zero], len_zero, zero_add, h1, one_mul,
          show Spec.sub (smul (-1) (ofP p)) (smul (-1) (ofP q)) = smul (-1) (Spec.sub (ofP p) (ofP q)) by
            ext <;> simp only [Spec.sub, smul] <;> ring, len_smul]
        norm_num
      have l3 : len (Spec.sub (ofP p) (ofP q)) ≤ len (Spec.sub (Spec.sub (pull γ Ω (precess y (ofP p) (-t)))
          (pull γ Ω (precess y (ofP q) (-t)))) (Spec.sub (ofP p) (ofP q)))
          + len (Spec.sub (pull γ Ω (precess y (ofP p) (-t))) (pull γ Ω (precess y (ofP q) (-t)))) := by
        have := len_sub_le (Spec.sub (pull γ Ω (precess y (ofP p) (-t))) (pull γ Ω (precess y (ofP q) (-t))))
          (Spec.sub (Spec.sub (pull γ Ω (precess y (ofP p) (-t)))
          (pull γ Ω (precess y (ofP q) (-t)))) (Spec.sub (ofP p) (ofP q)))
        rw [show ∀ a b : V3 ℝ, Spec.sub a (Spec.sub a b) = b from fun a b => by ext <;> simp [Spec.sub]] at this
        linarith
      have l4 : |γ| * len Ω * len (Spec.sub (precess y (ofP p) (-t)) (precess y (ofP q) (-t)))
          ≤ |γ| * len Ω * (len (Spec.sub (ofP p) (ofP q)) * t) :=
        mul_le_mul_of_nonneg_left l2 (mul_nonneg (abs_nonneg _) (len_nonneg _))
      rw [div_mul_eq_mul_div, one_div, ← div_eq_inv_mul]
      refine div_le_div_of_nonneg_right ?_ hc.le
      linarith
    filter_upwards [key'] with w hw
    have := (precess_pres (ofP w) t).quasiMeasurePreserving.ae hw
    filter_upwards [this] with x hx
    rwa [precess_back] at hx
  filter_upwards [key] with x hx
  have hx' : volume {w : ℝ × ℝ × ℝ | (precess x (ofP w) t, toP (smul (1 / c) (Spec.sub (pull γ Ω x) (ofP w)))) ∈ A} = 0 :=
    measure_eq_zero_iff_ae_notMem.2 hx
  have := anti_null (f := fun z => toP (Spec.sub (pull γ Ω x) (smul c (ofP z))))
    (anti_of_len (a := c) hc fun p q => by
      rw [ofP_toP, ofP_toP, show Spec.sub (Spec.sub (pull γ Ω x) (smul c (ofP p))) (Spec.sub (pull γ Ω x) (smul c (ofP q)))
        = smul (-c) (Spec.sub (ofP p) (ofP q)) by ext <;> simp only [Spec.sub, smul] <;> ring, len_smul, abs_neg,
        abs_of_pos hc]) hx'
  refine measure_mono_null (fun z hz => ?_) this
  have hz' : (precess x (Spec.sub (pull γ Ω x) (smul c (ofP z))) t, z) ∈ A := hz
  have e : toP (smul (1 / c) (Spec.sub (pull γ Ω x) (Spec.sub (pull γ Ω x) (smul c (ofP z))))) = z := by
    unfold toP
    simp only [Spec.sub, smul, ofP]
    ext <;> dsimp only <;> field_simp <;> ring
  show (precess x (ofP (toP (Spec.sub (pull γ Ω x) (smul c (ofP z))))) t,
    toP (smul (1 / c) (Spec.sub (pull γ Ω x) (ofP (toP (Spec.sub (pull γ Ω x) (smul c (ofP z)))))))) ∈ A
  rw [ofP_toP, e]
  exact hz'

/-! ### drawing some coordinates again -/

/-- a map that, after drawing part of the coordinates again, acts only on that part -/
theorem resample_null {X Y : Type} [MeasurableSpace X] [MeasurableSpace Y] {μ : Measure X} {ν : Measure Y} [SFinite μ]
    [SFinite ν] {R : X × Y → X} (hR : MeasurePreserving R (μ.prod ν) μ) {T : X → X} (hT : Measurable T) {t : X → Y → Y}
    (hc : ∀ x y, T (R (x, y)) = R (x, t x y)) (ht : ∀ᵐ x ∂μ, Measure.QuasiMeasurePreserving (t x) ν ν) :
    Measure.QuasiMeasurePreserving T μ μ := by
  refine ⟨hT, Measure.AbsolutelyContinuous.mk fun A hA h0 => ?_⟩
  rw [Measure.map_apply hT hA, ← hR.measure_preimage (hT hA).nullMeasurableSet, Measure.measure_prod_null (hR.1 (hT hA))]
  rw [← hR.measure_preimage hA.nullMeasurableSet, Measure.measure_prod_null (hR.1 hA)] at h0
  filter_upwards [h0, ht] with x hx htx
  have := htx.preimage_null hx
  refine measure_mono_null (fun y hy => ?_) this
  show R (x, t x y) ∈ A
  rw [← hc]
  exact hy

theorem redraw_lintegral {n : ℕ} {X : Type} [MeasurableSpace X] {σ : Measure X} [IsProbabilityMeasure σ] (i : Fin n)
    {f : (Fin n → X) → ℝ≥0∞} (hf : Measurable f) :
    ∫⁻ v, ∫⁻ x, f (update v i x) ∂σ ∂(Measure.pi fun _ : Fin n => σ) = ∫⁻ v, f v ∂(Measure.pi fun _ : Fin n => σ) := by
  have h2 : Measurable fun p : (Fin n → X) × X => f (update p.1 i p.2) := hf.comp measurable_update'
  refine lintegral_eq_of_lmarginal_eq {i} h2.lintegral_prod_right' hf ?_
  funext v
  rw [lmarginal_singleton, lmarginal_singleton]
  simp only [update_idem, lintegral_const, measure_univ, mul_one]

/-- three of the noise numbers replaced -/
def put (k : Fin 3 → Fin 6) (ζ : Fin 6 → ℝ) (z : ℝ × ℝ × ℝ) : Fin 6 → ℝ :=
  update (update (update ζ (k 0) z.1) (k 1) z.2.1) (k 2) z.2.2

theorem meas_put (k : Fin 3 → Fin 6) : Measurable fun p : (Fin 6 → ℝ) × (ℝ × ℝ × ℝ) => put k p.1 p.2 :=
  measurable_update'.comp ((measurable_update'.comp ((measurable_update'.comp
    (measurable_fst.prodMk measurable_snd.fst)).prodMk measurable_snd.snd.fst)).prodMk measurable_snd.snd.snd)

theorem put_lintegral (k : Fin 3 → Fin 6) {f : (Fin 6 → ℝ) → ℝ≥0∞} (hf : Measurable f) :
    ∫⁻ ζ, ∫⁻ z, f (put k ζ z) ∂normal3 ∂normals = ∫⁻ ζ, f ζ ∂normals := by
  have h3 : Measurable fun p : (Fin 6 → ℝ) × ℝ => f (update p.1 (k 2) p.2) := hf.comp measurable_update'
  have h2 : Measurable fun p : (Fin 6 → ℝ) × ℝ => ∫⁻ c, f (update (update p.1 (k 1) p.2) (k 2) c) ∂gaussianReal 0 1 :=
    h3.lintegral_prod_right'.comp measurable_update'
  have e : ∀ ζ, ∫⁻ z, f (put k ζ z) ∂normal3 = ∫⁻ a, ∫⁻ b, ∫⁻ c, f (update (update (update ζ (k 0) a) (k 1) b) (k 2) c)
      ∂gaussianReal 0 1 ∂gaussianReal 0 1 ∂gaussianReal 0 1 := by
    intro ζ
    have hm : Measurable fun z => f (put k ζ z) := hf.comp ((meas_put k).comp (measurable_const.prodMk measurable_id))
    unfold normal3
    rw [lintegral_prod _ hm.aemeasurable]
    refine lintegral_congr fun a => ?_
    have hm2 : Measurable fun y : ℝ × ℝ => f (put k ζ (a, y)) := hm.comp (measurable_const.prodMk measurable_id)
    rw [lintegral_prod _ hm2.aemeasurable]
    rfl
  simp only [e]
  unfold normals
  rw [redraw_lintegral (k 0) (f := fun ζ => ∫⁻ b, ∫⁻ c, f (update (update ζ (k 1) b) (k 2) c)
      ∂gaussianReal 0 1 ∂gaussianReal 0 1) h2.lintegral_prod_right',
    redraw_lintegral (k 1) (f := fun ζ => ∫⁻ c, f (update ζ (k 2) c) ∂gaussianReal 0 1) h3.lintegral_prod_right',
    redraw_lintegral (k 2) hf]

section
variable {L : ℕ}

/-- noise and spins -/
noncomputable abbrev both (L : ℕ) : Measure ((Fin 6 → ℝ) × (Fin L → V3 ℝ)) :=
  normals.prod (Measure.pi fun _ : Fin L => sphereMeasure)

instance : IsProbabilityMeasure normals := by
  unfold normals
  infer_instance

theorem redraw_preserving (k : Fin 3 → Fin 6) (i : Fin L) :
    MeasurePreserving (fun p : ((Fin 6 → ℝ) × (Fin L → V3 ℝ)) × (V3 ℝ × (ℝ × ℝ × ℝ)) =>
      (put k p.1.1 p.2.2, update p.1.2 i p.2.1)) ((both L).prod (sphereMeasure.prod normal3)) (both L) := by
  have hm : Measurable fun p : ((Fin 6 → ℝ) × (Fin L → V3 ℝ)) × (V3 ℝ × (ℝ × ℝ × ℝ)) =>
      (put k p.1.1 p.2.2, update p.1.2 i p.2.1) :=
    ((meas_put k).comp (measurable_fst.fst.prodMk measurable_snd.snd)).prodMk
      (measurable_update'.comp (measurable_fst.snd.prodMk measurable_snd.fst))
  refine ⟨hm, Measure.ext_of_lintegral _ fun f hf => ?_⟩
  have hfm : Measurable fun p : ((Fin 6 → ℝ) × (Fin L → V3 ℝ)) × (V3 ℝ × (ℝ × ℝ × ℝ)) =>
      f (put k p.1.1 p.2.2, update p.1.2 i p.2.1) := hf.comp hm
  rw [lintegral_map hf hm, lintegral_prod _ hfm.aemeasurable]
  have i1 : ∀ p : (Fin 6 → ℝ) × (Fin L → V3 ℝ), ∫⁻ q, f (put k p.1 q.2, update p.2 i q.1) ∂(sphereMeasure.prod normal3)
      = ∫⁻ x, ∫⁻ z, f (put k p.1 z, update p.2 i x) ∂normal3 ∂sphereMeasure := by
    intro p
    rw [lintegral_prod]
    exact (hf.comp (hm.comp (measurable_const (a := p) |>.prodMk measurable_id))).aemeasurable
  simp only [i1]
  have m1 : Measurable fun p : ((Fin 6 → ℝ) × (Fin L → V3 ℝ)) × V3 ℝ =>
      ∫⁻ z, f (put k p.1.1 z, update p.1.2 i p.2) ∂normal3 := by
    refine Measurable.lintegral_prod_right' (f := fun q : (((Fin 6 → ℝ) × (Fin L → V3 ℝ)) × V3 ℝ) × (ℝ × ℝ × ℝ) =>
      f (put k q.1.1.1 q.2, update q.1.1.2 i q.1.2)) ?_
    exact hf.comp (hm.comp (measurable_fst.fst.prodMk (measurable_fst.snd.prodMk measurable_snd)))
  rw [lintegral_prod _ m1.lintegral_prod_right'.aemeasurable]
  -- redraw the spin
  have s1 : ∀ ζ, ∫⁻ v, ∫⁻ x, ∫⁻ z, f (put k ζ z, update v i x) ∂normal3 ∂sphereMeasure ∂(Measure.pi fun _ : Fin L => sphereMeasure)
      = ∫⁻ v, ∫⁻ z, f (put k ζ z, v) ∂normal3 ∂(Measure.pi fun _ : Fin L => sphereMeasure) := by
    intro ζ
    refine redraw_lintegral i (f := fun v => ∫⁻ z, f (put k ζ z, v) ∂normal3) ?_
    refine Measurable.lintegral_prod_right' (f := fun q : (Fin L → V3 ℝ) × (ℝ × ℝ × ℝ) => f (put k ζ q.2, q.1)) ?_
    exact hf.comp (((meas_put k).comp (measurable_const.prodMk measurable_snd)).prodMk measurable_fst)
  simp only [s1]
  have m2 : Measurable fun q : ((Fin 6 → ℝ) × (Fin L → V3 ℝ)) × (ℝ × ℝ × ℝ) => f (put k q.1.1 q.2, q.1.2) :=
    hf.comp (((meas_put k).comp (measurable_fst.fst.prodMk measurable_snd)).prodMk measurable_fst.snd)
  rw [lintegral_lintegral_swap m2.lintegral_prod_right'.aemeasurable, lintegral_prod _ hf.aemeasurable,
    lintegral_lintegral_swap (f := fun ζ v => f (ζ, v)) (by exact hf.aemeasurable)]
  refine lintegral_congr fun v => ?_
  exact put_lintegral k (f := fun ζ => f (ζ, v)) (hf.comp (measurable_id.prodMk measurable_const))

/-! ### sub-steps -/

variable {m : ℕ} {γ β dt K : ℝ} {J B : ℕ → V3 ℝ}

theorem meas_noise_both (i : ℕ) : Measurable fun p : (Fin 6 → ℝ) × (Fin L → V3 ℝ) => noiseField m γ β dt (noiseOf p.1) i :=
  meas_noiseField measurable_fst β dt i

theorem meas_fld_both (i : ℕ) : Measurable fun p : (Fin 6 → ℝ) × (Fin L → V3 ℝ) => fld p.2 i :=
  (meas_fld i).comp measurable_snd

theorem meas_lang_both (i : ℕ) : Measurable fun p : (Fin 6 → ℝ) × (Fin L → V3 ℝ) =>
    langField m γ J B (noiseField m γ β dt (noiseOf p.1)) (fld p.2) i :=
  meas_langField meas_noise_both meas_fld_both i

/-- the edge `i` moves -/
noncomputable def edgePair (m : ℕ) (γ β dt : ℝ) (J B : ℕ → V3 ℝ) (t : ℝ) (i : Fin L)
    (p : (Fin 6 → ℝ) × (Fin L → V3 ℝ)) : (Fin 6 → ℝ) × (Fin L → V3 ℝ) :=
  (p.1, update p.2 i (precess (p.2 i) (langField m γ J B (noiseField m γ β dt (noiseOf p.1)) (fld p.2) i) t))

theorem edgePair_null (hγ : 0 < γ) (hβ : 0 < β) (h0 : 0 < dt) (hJ : ∀ i, len (J i) ≤ K) (hB : ∀ i, len (B i) ≤ K)
    {t : ℝ} (ht : 0 ≤ t) (hd : 3 * K * γ * t < 1) (i : Fin L) (he : (i : ℕ) = 0 ∨ (i : ℕ) + 1 = m) :
    Measure.QuasiMeasurePreserving (edgePair m γ β dt J B t i) (both L) (both L) := by
  have hc : 0 < Real.sqrt (2 * γ * dt / β) / dt := div_pos (Real.sqrt_pos.2 (by positivity)) h0
  obtain ⟨c, ec⟩ : ∃ c, c = Real.sqrt (2 * γ * dt / β) / dt := ⟨_, rfl⟩
  rw [← ec] at hc
  obtain ⟨k, hk⟩ : ∃ k : Fin 3 → Fin 6, ∀ ζ z, noiseField m γ β dt (noiseOf (put k ζ z)) i = smul c (ofP z) := by
    by_cases h : (i : ℕ) = 0
    · refine ⟨![0, 1, 2], fun ζ z => ?_⟩
      unfold noiseField
      rw [if_pos h, ec]
      simp [noiseOf, put, ofP, update]
    · refine ⟨![3, 4, 5], fun ζ z => ?_⟩
      unfold noiseField
      rw [if_neg h, if_pos (by omega), ec]
      simp [noiseOf, put, ofP, update]
  refine resample_null (redraw_preserving k i) ?_ (t := fun p => edgeMove γ c t (openOmega m (fld p.2) J B i)) ?_ ?_
  · exact measurable_fst.prodMk (measurable_update'.comp (measurable_snd.prodMk
      (meas_precess ((measurable_pi_apply i).comp measurable_snd) (meas_lang_both i) t)))
  · rintro ⟨ζ, v⟩ ⟨x, z⟩
    unfold edgePair edgeMove
    dsimp only
    rw [update_self, update_idem]
    have e1 : openOmega m (fld (update v i x)) J B i = openOmega m (fld v) J B i :=
      openOmega_congr (fun h => fld_update_ne v i x (by omega)) (fld_update_ne v i x (by omega))
    have e2 : langField m γ J B (noiseField m γ β dt (noiseOf (put k ζ z))) (fld (update v i x)) i
        = Spec.sub (pull γ (openOmega m (fld v) J B i) x) (smul c (ofP z)) := by
      unfold langField pull
      rw [if_pos he, e1, hk, fld_update_self]
      ext <;> simp only [Spec.sub, Spec.add] <;> ring
    rw [e2]
  · have hu := Measure.quasiMeasurePreserving_snd (μ := normals) |>.ae (unit_ae (L := L))
    filter_upwards [hu] with p hp
    refine edgeMove_null hc ht ?_
    have := openOmega_len (m := m) hJ hB (S := fld p.2) (atSite_len hp) i
    rw [abs_of_pos hγ]
    have : γ * len (openOmega m (fld p.2) J B i) * t ≤ γ * (3 * K) * t :=
      mul_le_mul_of_nonneg_right (mul_le_mul_of_nonneg_left this hγ.le) ht
    linarith

/-- a sub-step -/
noncomputable def subPair (m : ℕ) (γ β dt : ℝ) (J B : ℕ → V3 ℝ) (par : ℕ) (t : ℝ)
    (p : (Fin 6 → ℝ) × (Fin L → V3 ℝ)) : (Fin 6 → ℝ) × (Fin L → V3 ℝ) :=
  (p.1, fun i => subStepG (langField m γ J B (noiseField m γ β dt (noiseOf p.1))) m par t (fld p.2) i)

/-- inner sites of one parity -/
abbrev InnerPar (m par i : ℕ) : Prop := (0 < i ∧ i + 1 < m) ∧ i % 2 = par

theorem innerPair_preserving (par : ℕ) (t : ℝ) :
    MeasurePreserving (fun p : (Fin 6 → ℝ) × (Fin L → V3 ℝ) => (p.1, fun i : Fin L =>
      if InnerPar m par i then precess (p.2 i) (langField m γ J B (noiseField m γ β dt (noiseOf p.1)) (fld p.2) i) t
      else p.2 i)) (both L) (both L) := by
  refine MeasurePreserving.skew_product (MeasurePreserving.id normals)
    (g := fun (ζ : Fin 6 → ℝ) (v : Fin L → V3 ℝ) (i : Fin L) =>
      if InnerPar m par i then precess (v i) (langField m γ J B (noiseField m γ β dt (noiseOf ζ)) (fld v) i) t
      else v i) ?_ (Filter.Eventually.of_forall fun ζ => ?_)
  · refine measurable_pi_lambda _ fun i => ?_
    unfold uncurry
    dsimp only
    split
    · exact meas_precess ((measurable_pi_apply i).comp measurable_snd) (meas_lang_both i) t
    · exact (measurable_pi_apply i).comp measurable_snd
  · refine (some_preserving (L := L) (P := InnerPar m par) (f := langField m γ J B (noiseField m γ β dt (noiseOf ζ)))
      (fun i => meas_lang_fld i) (fun i hi S S' hS => ?_) t).map_eq
    rw [langField_inner hi.1.1 hi.1.2, langField_inner hi.1.1 hi.1.2, hS _ (by omega), hS _ (by omega)]

theorem subPair_null (hγ : 0 < γ) (hβ : 0 < β) (h0 : 0 < dt) (hJ : ∀ i, len (J i) ≤ K) (hB : ∀ i, len (B i) ≤ K)
    {t : ℝ} (ht : 0 ≤ t) (hd : 3 * K * γ * t < 1) (h2 : 2 ≤ m) (he : m % 2 = 0) (hm : m ≤ L) {par : ℕ} (hp : par < 2) :
    Measure.QuasiMeasurePreserving (subPair m γ β dt J B par t) (both L) (both L) := by
  obtain ⟨k, hk⟩ : ∃ k : Fin L, (k : ℕ) = if par = 0 then 0 else m - 1 := ⟨⟨if par = 0 then 0 else m - 1, by split <;> omega⟩, rfl⟩
  have kp : (k : ℕ) % 2 = par := by rw [hk]; split <;> omega
  have ke : (k : ℕ) = 0 ∨ (k : ℕ) + 1 = m := by rw [hk]; split <;> omega
  have ks : ∀ i : ℕ, i < m → i % 2 = par → i ≠ k → InnerPar m par i := by
    intro i h1 h2 h3
    rw [hk] at h3
    split at h3 <;> exact ⟨by omega, h2⟩
  have km : (k : ℕ) < m := by omega
  have kn : ¬InnerPar m par k := by omega
  have := (edgePair_null (J := J) (B := B) hγ hβ h0 hJ hB ht hd k ke).comp
    (innerPair_preserving (L := L) (m := m) (γ := γ) (β := β) (dt := dt) (J := J) (B := B) par t).quasiMeasurePreserving
  convert this using 1
  funext p
  obtain ⟨ζ, v⟩ := p
  unfold subPair edgePair
  rw [comp_apply]
  dsimp only
  have e : ∀ j, ¬InnerPar m par j → fld (fun i : Fin L => if InnerPar m par i then
      precess (v i) (langField m γ J B (noiseField m γ β dt (noiseOf ζ)) (fld v) i) t else v i) j = fld v j := by
    intro j hj
    unfold fld
    split
    · exact if_neg hj
    · rfl
  refine Prod.ext rfl (funext fun i => ?_)
  dsimp only
  unfold subStepG
  by_cases hi : i = k
  · rw [hi, update_self, if_pos ⟨km, kp⟩, if_neg kn, fld_val]
    congr 1
    exact langField_congr (fun h => (e _ (by omega)).symm) (e _ kn).symm (e _ (by omega)).symm
  · rw [update_of_ne hi]
    by_cases hin : InnerPar m par i
    · rw [if_pos ⟨by omega, hin.2⟩, if_pos hin, fld_val]
    · rw [if_neg hin, if_neg, fld_val]
      rintro ⟨h1, h2⟩
      exact hin (ks i h1 h2 fun h => hi (Fin.ext h))

theorem fld_subPair (hm : m ≤ L) (par : ℕ) (t : ℝ) (p : (Fin 6 → ℝ) × (Fin L → V3 ℝ)) :
    fld (subPair m γ β dt J B par t p).2
      = subStepG (langField m γ J B (noiseField m γ β dt (noiseOf p.1))) m par t (fld p.2) := by
  funext i
  by_cases hi : i < L
  · rw [show fld (subPair m γ β dt J B par t p).2 i = (subPair m γ β dt J B par t p).2 ⟨i, hi⟩ from fld_val _ ⟨i, hi⟩]
    rfl
  · unfold subStepG
    rw [if_neg (by omega)]
    unfold fld
    rw [dif_neg hi, dif_neg hi]

/-- no field of one parity vanishes -/
theorem now_regular (hγ : 0 < γ) (hβ : 0 < β) (h0 : 0 < dt) (h2 : 2 ≤ m) (hm : m ≤ L)
    (hJ0 : ∀ i, 0 < i → i + 1 < m → J i ≠ zero) :
    ∀ᵐ p ∂both L, ∀ i < m, langField m γ J B (noiseField m γ β dt (noiseOf p.1)) (fld p.2) i ≠ zero := by
  have : ∀ i : ℕ, ∀ᵐ p ∂both L, i < m → langField m γ J B (noiseField m γ β dt (noiseOf p.1)) (fld p.2) i ≠ zero := by
    intro i
    by_cases hi : i < m
    · have hms : MeasurableSet {p : (Fin 6 → ℝ) × (Fin L → V3 ℝ) |
          i < m → langField m γ J B (noiseField m γ β dt (noiseOf p.1)) (fld p.2) i ≠ zero} := by
        simp only [hi, true_imp_iff]
        exact (meas_zero (meas_lang_both i)).compl
      by_cases he : i = 0 ∨ i + 1 = m
      · have hms' := hms
        rw [Measure.ae_prod_iff_ae_ae hms, Measure.ae_ae_comm (p := fun (ζ : Fin 6 → ℝ) (v : Fin L → V3 ℝ) =>
          i < m → langField m γ J B (noiseField m γ β dt (noiseOf ζ)) (fld v) i ≠ zero) hms']
        refine Filter.Eventually.of_forall fun v => ?_
        have hc : 0 < Real.sqrt (2 * γ * dt / β) / dt := div_pos (Real.sqrt_pos.2 (by positivity)) h0
        have hn : ∀ i, Measurable fun ζ => noiseField m γ β dt (noiseOf ζ) i := fun i => meas_noiseField measurable_id β dt i
        have : normals {ζ | langField m γ J B (noiseField m γ β dt (noiseOf ζ)) (fld v) i = zero} = 0 := by
          by_cases hi0 : i = 0
          · rw [hi0]
            exact edge_first hγ hβ h0 v
          · have n3 := noise_last (γ := γ) (β := β) (dt := dt) h2
            refine normal_section_null (meas_zero (meas_langField hn (S := fun _ => fld v) (fun k => measurable_const) i)) 3
              fun ζ x y hx hy => ?_
            have hx' : langField m γ J B (noiseField m γ β dt (noiseOf (update ζ 3 x))) (fld v) i = zero := hx
            have hy' : langField m γ J B (noiseField m γ β dt (noiseOf (update ζ 3 y))) (fld v) i = zero := hy
            have im : i = m - 1 := by omega
            rw [langField_drift he, im, n3] at hx' hy'
            have ax := congrArg V3.x hx'
            have ay := congrArg V3.x hy'
            simp only [Spec.sub, smul, zero] at ax ay
            have : Real.sqrt (2 * γ * dt / β) / dt * x = Real.sqrt (2 * γ * dt / β) / dt * y := by linarith
            exact mul_left_cancel₀ hc.ne' this
        filter_upwards [measure_eq_zero_iff_ae_notMem.1 this] with ζ hζ _
        exact hζ
      · rw [Measure.ae_prod_iff_ae_ae hms]
        refine Filter.Eventually.of_forall fun ζ => ?_
        filter_upwards [measure_eq_zero_iff_ae_notMem.1 (inner_first (L := L) (γ := γ) (J := J) (B := B)
          (η := noiseField m γ β dt (noiseOf ζ)) hm (i := i) (by omega) (by omega) (hJ0 i (by omega) (by omega)))] with v hv _
        exact hv
    · exact Filter.Eventually.of_forall fun p h => absurd h hi
  filter_upwards [ae_all_iff.2 this] with p hp i hi
  exact hp i hi

/-- no field vanishes in a step, for almost all spins and noise -/
theorem step_regular (hγ : 0 < γ) (hβ : 0 < β) (h0 : 0 < dt) (hJ : ∀ i, len (J i) ≤ K) (hB : ∀ i, len (B i) ≤ K)
    (hd : 3 * K * γ * dt < 1) (h2 : 2 ≤ m) (he : m % 2 = 0) (hm : m ≤ L)
    (hJ0 : ∀ i, 0 < i → i + 1 < m → J i ≠ zero) :
    ∀ᵐ p ∂both L, RegularG (langField m γ J B (noiseField m γ β dt (noiseOf p.1))) m dt (fld p.2) := by
  have K0 : 0 ≤ K := (len_nonneg _).trans (hJ 0)
  have hd' : 3 * K * γ * (dt / 2) < 1 := by
    have : 0 ≤ 3 * K * γ * dt := by positivity
    linarith
  have r := now_regular (L := L) (J := J) (B := B) hγ hβ h0 h2 hm hJ0
  have q0 := subPair_null (L := L) (m := m) (γ := γ) (β := β) (J := J) (B := B) hγ hβ h0 hJ hB (t := dt / 2) (by positivity)
    hd' h2 he hm (par := 0) (by norm_num)
  have q1 := subPair_null (L := L) (m := m) (γ := γ) (β := β) (J := J) (B := B) hγ hβ h0 hJ hB h0.le
    hd h2 he hm (par := 1) (by norm_num)
  filter_upwards [r, q0.ae r, q0.ae (q1.ae r)] with p a1 a2 a3
  refine ⟨fun i hi _ => a1 i hi, fun i hi _ => ?_, fun i hi _ => ?_⟩
  · have := a2 i hi
    rwa [fld_subPair hm] at this
  · have := a3 i hi
    rwa [fld_subPair hm, fld_subPair hm] at this

/-- a step pulls null sets back to null sets -/
theorem step_null (hγ : 0 < γ) (hβ : 0 < β) (h0 : 0 < dt) (hJ : ∀ i, len (J i) ≤ K) (hB : ∀ i, len (B i) ≤ K)
    (hd : 3 * K * γ * dt < 1) (h2 : 2 ≤ m) (he : m % 2 = 0) (hm : m ≤ L) :
    Measure.QuasiMeasurePreserving (fun p : (Fin 6 → ℝ) × (Fin L → V3 ℝ) => afterStep m γ β J B dt p.2 p.1) (both L)
      (Measure.pi fun _ : Fin L => sphereMeasure) := by
  have K0 : 0 ≤ K := (len_nonneg _).trans (hJ 0)
  have hd' : 3 * K * γ * (dt / 2) < 1 := by
    have : 0 ≤ 3 * K * γ * dt := by positivity
    linarith
  have q0 := subPair_null (L := L) (m := m) (γ := γ) (β := β) (J := J) (B := B) hγ hβ h0 hJ hB (t := dt / 2) (by positivity)
    hd' h2 he hm (par := 0) (by norm_num)
  have q1 := subPair_null (L := L) (m := m) (γ := γ) (β := β) (J := J) (B := B) hγ hβ h0 hJ hB h0.le
    hd h2 he hm (par := 1) (by norm_num)
  have := (Measure.quasiMeasurePreserving_snd (μ := normals) (ν := Measure.pi fun _ : Fin L => sphereMeasure)).comp
    (q0.comp (q1.comp q0))
  convert this using 1
  funext p
  simp only [comp_apply]
  funext i
  unfold afterStep
  rw [subPair, fld_subPair hm, fld_subPair hm]
  rfl

end

end Verif
