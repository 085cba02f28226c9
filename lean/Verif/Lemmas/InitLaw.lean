/-
Helper lemmas: the distribution of the spins of a freshly generated chain.
-/
import Verif.Spec.InitLaw
import Verif.Lemmas.Init
import Verif.Lemmas.Liouville
import Mathlib.Analysis.SpecialFunctions.Trigonometric.DerivHyp
import Mathlib.MeasureTheory.Integral.Prod

namespace Verif

set_option linter.unusedSectionVars false

open Spec MeasureTheory
open scoped ENNReal

/-! ### Measurability -/

section meas
variable {α : Type} [MeasurableSpace α] {f g : α → V3 ℝ} {r : α → ℝ}

theorem meas_turn (hf : Measurable f) (hg : Measurable g) (hr : Measurable r) :
    Measurable fun a => turn (f a) (g a) (r a) := by
  have h1 : Measurable fun a => sub (g a) (smul (dot (g a) (f a)) (f a)) := meas_sub hg (meas_smul (meas_dot hg hf) hf)
  have h2 : Measurable fun a => perpUnit (f a) (g a) :=
    meas_smul (measurable_const.div (measurable_len.comp h1)) h1
  exact meas_add (meas_smul (Real.measurable_cos.comp hr) hf)
    (meas_smul (Real.measurable_sin.comp hr) (meas_cross h2 hf))

theorem meas_point {r q : α → ℝ} (hr : Measurable r) (hq : Measurable q) :
    Measurable fun a => spherePoint (r a) (q a) := by
  have h : Measurable fun a => (r a, q a) := hr.prodMk hq
  have := Measurable.comp (g := fun p : ℝ × ℝ => spherePoint p.1 p.2) measurable_spherePoint h
  exact this

theorem meas_overlap (b : ℝ) : Measurable (overlap b) := by
  unfold overlap
  exact (Real.measurable_log.comp (measurable_const.sub (measurable_id.mul_const _))).div_const _

end meas

/-! ### Rotations taking the third axis to a given direction -/

/-- rotation with the orthonormal frame `p`, `d × p`, `d` -/
def frame (p d : V3 ℝ) (v : V3 ℝ) : V3 ℝ := add (add (smul v.x p) (smul v.y (cross d p))) (smul v.z d)

theorem frame_orthogonal {p d : V3 ℝ} (hp : dot p p = 1) (hd : dot d d = 1) (h : dot d p = 0) :
    Orthogonal (frame p d) := by
  have hc : dot (cross d p) (cross d p) = 1 := by rw [lagrange, hp, hd, h]; norm_num
  have h1 := cross_dot_left d p
  have h2 := cross_dot_right d p
  refine ⟨fun a b => ?_, fun r a => ?_, fun a => ?_⟩
  · ext <;> simp only [frame, add, smul] <;> ring
  · ext <;> simp only [frame, add, smul] <;> ring
  · unfold len
    congr 1
    have : dot (frame p d a) (frame p d a) = a.x ^ 2 * dot p p + a.y ^ 2 * dot (cross d p) (cross d p)
        + a.z ^ 2 * dot d d + 2 * a.x * a.y * dot (cross d p) p + 2 * a.x * a.z * dot d p
        + 2 * a.y * a.z * dot (cross d p) d := by
      simp only [frame, dot, add, smul]
      ring
    rw [this, hp, hd, hc, h, h1, h2]
    simp only [dot]
    ring

theorem frame_cross {p d : V3 ℝ} (hp : dot p p = 1) (hd : dot d d = 1) (h : dot d p = 0) (a b : V3 ℝ) :
    cross (frame p d a) (frame p d b) = frame p d (cross a b) := by
  have e1 : cross p (cross d p) = d := by
    have : cross p (cross d p) = sub (smul (dot p p) d) (smul (dot d p) p) := by
      ext <;> simp only [cross, sub, smul, dot] <;> ring
    rw [this, hp, h]
    ext <;> simp [sub, smul]
  have e2 : cross (cross d p) d = p := by
    have : cross (cross d p) d = sub (smul (dot d d) p) (smul (dot d p) d) := by
      ext <;> simp only [cross, sub, smul, dot] <;> ring
    rw [this, hd, h]
    ext <;> simp [sub, smul]
  have e3 : cross (frame p d a) (frame p d b) = add (add
      (smul (a.x * b.y - a.y * b.x) (cross p (cross d p))) (smul (a.y * b.z - a.z * b.y) (cross (cross d p) d)))
      (smul (a.z * b.x - a.x * b.z) (cross d p)) := by
    ext <;> simp only [frame, cross, add, smul] <;> ring
  rw [e3, e1, e2]
  ext <;> simp only [frame, cross, add, smul] <;> ring

theorem frame_axis (p d : V3 ℝ) : frame p d ⟨0, 0, 1⟩ = d := by
  ext <;> simp [frame, add, smul]

theorem turn_frame {p d : V3 ℝ} (hp : dot p p = 1) (hd : dot d d = 1) (h : dot d p = 0) (e r : V3 ℝ) (a : ℝ) :
    turn (frame p d e) (frame p d r) a = frame p d (turn e r a) := by
  have ho := frame_orthogonal hp hd h
  have hsub : ∀ x y, frame p d (sub x y) = sub (frame p d x) (frame p d y) := by
    intro x y
    ext <;> simp only [frame, add, sub, smul] <;> ring
  have hperp : perpUnit (frame p d e) (frame p d r) = frame p d (perpUnit e r) := by
    unfold perpUnit
    rw [ho.dot, ← ho.smul, ← hsub, ho.len, ← ho.smul]
  unfold turn
  rw [hperp, frame_cross hp hd h, ← ho.smul, ← ho.smul, ← ho.add]

theorem exists_perp {d : V3 ℝ} (hd : dot d d = 1) : ∃ p, dot p p = 1 ∧ dot d p = 0 := by
  have : cross d ⟨1, 0, 0⟩ ≠ zero ∨ cross d ⟨0, 1, 0⟩ ≠ zero := by
    by_contra hc
    push Not at hc
    obtain ⟨h1, h2⟩ := hc
    have a1 := congrArg V3.y h1
    have a2 := congrArg V3.z h1
    have a3 := congrArg V3.z h2
    simp only [cross, zero] at a1 a2 a3
    have b1 : d.z = 0 := by linarith
    have b2 : d.y = 0 := by linarith
    have b3 : d.x = 0 := by linarith
    rw [dot, b1, b2, b3] at hd
    norm_num at hd
  rcases this with h | h
  · exact ⟨_, perpUnit_props hd h⟩
  · exact ⟨_, perpUnit_props hd h⟩

/-! ### One step of the generator -/

/-- one step from `d` with the draws `t` -/
noncomputable def hop (b : ℝ) (d : V3 ℝ) (t : ℝ × ℝ × ℝ) : V3 ℝ :=
  turn d (spherePoint t.1 t.2.1) (Real.arccos (overlap b t.2.2))

theorem meas_hop (b : ℝ) : Measurable fun q : V3 ℝ × ℝ × ℝ × ℝ => hop b q.1 q.2 := by
  have m1 : Measurable fun q : V3 ℝ × ℝ × ℝ × ℝ => q.2.1 := measurable_fst.comp measurable_snd
  have m2 : Measurable fun q : V3 ℝ × ℝ × ℝ × ℝ => q.2.2.1 := measurable_fst.comp (measurable_snd.comp measurable_snd)
  have m3 : Measurable fun q : V3 ℝ × ℝ × ℝ × ℝ => q.2.2.2 := measurable_snd.comp (measurable_snd.comp measurable_snd)
  have h2 : Measurable fun q : V3 ℝ × ℝ × ℝ × ℝ => Real.arccos (overlap b q.2.2.2) :=
    Real.measurable_arccos.comp ((meas_overlap b).comp m3)
  have h0 : Measurable fun q : V3 ℝ × ℝ × ℝ × ℝ => q.1 := measurable_fst
  have h3 := meas_turn h0 (meas_point m1 m2) h2
  unfold hop
  exact h3

theorem meas_hop' (b : ℝ) (d : V3 ℝ) : Measurable fun t : ℝ × ℝ × ℝ => hop b d t := by
  have h : Measurable fun t : ℝ × ℝ × ℝ => (d, t) := measurable_const.prodMk measurable_id
  have := Measurable.comp (g := fun q : V3 ℝ × ℝ × ℝ × ℝ => hop b q.1 q.2) (meas_hop b) h
  exact this

/-- normalised Boltzmann weight of a spin `x` attached to `d` -/
noncomputable def bond (b : ℝ) (d x : V3 ℝ) : ℝ≥0∞ :=
  ENNReal.ofReal (b / Real.sinh b * Real.exp (b * dot d x))

theorem meas_bond {α : Type} [MeasurableSpace α] {f g : α → V3 ℝ} (b : ℝ) (hf : Measurable f) (hg : Measurable g) :
    Measurable fun a => bond b (f a) (g a) :=
  ((Real.measurable_exp.comp ((meas_dot hf hg).const_mul b)).const_mul _).ennreal_ofReal

/-- the height of the new direction -/
theorem overlap_height {b : ℝ} (hb : b ≠ 0) (h : ℝ → ℝ≥0∞) :
    ∫⁻ u in Set.Ico (0 : ℝ) 1, h ((1 - overlap b u) / 2)
      = ∫⁻ v in Set.Ico (0 : ℝ) 1, ENNReal.ofReal (b / Real.sinh b * Real.exp (b * (1 - 2 * v))) * h v := by
  have hD := sub_exp_neg_ne hb
  set D := Real.exp b - Real.exp (-b) with hDdef
  have hsinh : Real.sinh b = D / 2 := by rw [Real.sinh_eq]
  -- the inverse function
  set g : ℝ → ℝ := fun v => (Real.exp b - Real.exp (b * (1 - 2 * v))) / D with hg
  have hDpos : 0 < b / D := by
    rcases lt_or_gt_of_ne hb with h | h
    · refine div_pos_of_neg_of_neg h ?_
      rw [hDdef, sub_neg, Real.exp_lt_exp]; linarith
    · refine div_pos h ?_
      rw [hDdef, sub_pos, Real.exp_lt_exp]; linarith
  have hg' : ∀ v, HasDerivAt g (b / Real.sinh b * Real.exp (b * (1 - 2 * v))) v := by
    intro v
    have h1 : HasDerivAt (fun v : ℝ => b * (1 - 2 * v)) (b * (-(2 * 1))) v :=
      (((hasDerivAt_id v).const_mul 2).const_sub 1).const_mul b
    have h2 := (h1.exp.const_sub (Real.exp b)).div_const D
    refine h2.congr_deriv ?_
    rw [hsinh]
    field_simp
  have hinv : ∀ u ∈ Set.Icc (0 : ℝ) 1, g ((1 - overlap b u) / 2) = u := by
    intro u hu
    simp only [hg]
    rw [show b * (1 - 2 * ((1 - overlap b u) / 2)) = b * overlap b u by ring, exp_overlap hb hu.1 hu.2]
    field_simp
    ring
  have hmono : StrictMono g := by
    intro x y hxy
    simp only [hg]
    rcases lt_or_gt_of_ne hb with h | h
    · have : D < 0 := by rw [hDdef, sub_neg, Real.exp_lt_exp]; linarith
      rw [div_lt_div_right_of_neg this]
      have : Real.exp (b * (1 - 2 * x)) < Real.exp (b * (1 - 2 * y)) := Real.exp_lt_exp.2 (by nlinarith)
      linarith
    · have : 0 < D := by rw [hDdef, sub_pos, Real.exp_lt_exp]; linarith
      rw [div_lt_div_iff_of_pos_right this]
      have : Real.exp (b * (1 - 2 * y)) < Real.exp (b * (1 - 2 * x)) := Real.exp_lt_exp.2 (by nlinarith)
      linarith
  have g0 : g 0 = 0 := by simp [hg]
  have g1 : g 1 = 1 := by
    simp only [hg]
    rw [show b * (1 - 2 * 1) = -b by ring]
    exact div_self hD
  have himg : g '' Set.Ico 0 1 = Set.Ico 0 1 := by
    ext u
    simp only [Set.mem_image, Set.mem_Ico]
    constructor
    · rintro ⟨v, ⟨h0, h1⟩, rfl⟩
      exact ⟨by rw [← g0]; exact hmono.monotone h0, by rw [← g1]; exact hmono h1⟩
    · rintro ⟨h0, h1⟩
      have hm := overlap_mem hb h0 h1.le
      have hi := hinv u ⟨h0, h1.le⟩
      refine ⟨(1 - overlap b u) / 2, ⟨by linarith [hm.2], ?_⟩, hi⟩
      rw [← hmono.lt_iff_lt, hi, g1]
      exact h1
  have h4 := lintegral_image_eq_lintegral_abs_deriv_mul (s := Set.Ico (0 : ℝ) 1) (f := g)
    (f' := fun v => b / Real.sinh b * Real.exp (b * (1 - 2 * v))) measurableSet_Ico
    (fun v _ => (hg' v).hasDerivWithinAt) hmono.injective.injOn (fun u => h ((1 - overlap b u) / 2))
  rw [himg] at h4
  rw [h4]
  refine setLIntegral_congr_fun measurableSet_Ico fun v hv => ?_
  have hpos : 0 < b / Real.sinh b * Real.exp (b * (1 - 2 * v)) := by
    have : b / Real.sinh b = 2 * (b / D) := by rw [hsinh]; field_simp
    rw [this]
    have := Real.exp_pos (b * (1 - 2 * v))
    positivity
  have hgv : g v ∈ Set.Icc (0 : ℝ) 1 :=
    ⟨by rw [← g0]; exact hmono.monotone hv.1, by rw [← g1]; exact hmono.monotone hv.2.le⟩
  rw [abs_of_pos hpos, hmono.injective (hinv _ hgv)]

/-- a quarter turn about the third axis -/
theorem quarter_orthogonal : Orthogonal fun v => ⟨v.y, -v.x, v.z⟩ :=
  ⟨fun a b => by simp only [add]; congr 1; ring, fun r a => by simp only [smul]; congr 1; ring, fun a => by
    unfold len dot
    congr 1
    ring⟩

theorem turn_axis {b u1 u2 u3 : ℝ} (hb : b ≠ 0) (h2 : 0 < u2) (h2' : u2 < 1) (h3 : 0 ≤ u3) (h3' : u3 ≤ 1) :
    hop b ⟨0, 0, 1⟩ (u1, u2, u3)
      = (fun v : V3 ℝ => (⟨v.y, -v.x, v.z⟩ : V3 ℝ)) (spherePoint u1 ((1 - overlap b u3) / 2)) := by
  have hm := overlap_mem hb h3 h3'
  set q := Real.sqrt (1 - (1 - 2 * u2) ^ 2) with hq
  have hqpos : 0 < q := Real.sqrt_pos.2 (by nlinarith)
  have e1 : sub (spherePoint u1 u2) (smul (dot (spherePoint u1 u2) ⟨0, 0, 1⟩) ⟨0, 0, 1⟩)
      = ⟨q * Real.cos (2 * Real.pi * u1), q * Real.sin (2 * Real.pi * u1), 0⟩ := by
    ext <;> simp [sub, smul, dot, spherePoint, hq]
  have e2 : len ⟨q * Real.cos (2 * Real.pi * u1), q * Real.sin (2 * Real.pi * u1), 0⟩ = q := by
    unfold len dot
    rw [Real.sqrt_eq_iff_mul_self_eq_of_pos hqpos]
    dsimp only
    linear_combination (-q ^ 2) * Real.sin_sq_add_cos_sq (2 * Real.pi * u1)
  have e3 : perpUnit ⟨0, 0, 1⟩ (spherePoint u1 u2)
      = ⟨Real.cos (2 * Real.pi * u1), Real.sin (2 * Real.pi * u1), 0⟩ := by
    unfold perpUnit
    rw [e1, e2]
    ext <;> simp only [smul] <;> field_simp
    simp
  unfold hop turn
  dsimp only
  rw [e3, Real.cos_arccos hm.1 hm.2, Real.sin_arccos]
  unfold spherePoint
  rw [show 1 - 2 * ((1 - overlap b u3) / 2) = overlap b u3 by ring]
  ext <;> simp [add, smul, cross]

theorem lintegral_triple {h : ℝ × ℝ × ℝ → ℝ≥0∞} (hh : Measurable h) :
    ∫⁻ t, h t ∂tripleMeasure = ∫⁻ u1 in Set.Ico (0 : ℝ) 1, ∫⁻ u2 in Set.Ico (0 : ℝ) 1, ∫⁻ u3 in Set.Ico (0 : ℝ) 1,
      h (u1, u2, u3) := by
  unfold tripleMeasure
  rw [lintegral_prod _ hh.aemeasurable]
  refine lintegral_congr fun u1 => ?_
  rw [lintegral_prod]
  exact (hh.comp (measurable_const.prodMk measurable_id)).aemeasurable

/-- from the third axis -/
theorem hop_axis {b : ℝ} (hb : b ≠ 0) {f : V3 ℝ → ℝ≥0∞} (hf : Measurable f) :
    ∫⁻ t, f (hop b ⟨0, 0, 1⟩ t) ∂tripleMeasure = ∫⁻ x, bond b ⟨0, 0, 1⟩ x * f x ∂sphereMeasure := by
  have hm : Measurable fun t => f (hop b ⟨0, 0, 1⟩ t) :=
    hf.comp (meas_hop' b _)
  rw [lintegral_triple hm]
  have hfq : Measurable fun v : V3 ℝ => f ⟨v.y, -v.x, v.z⟩ := hf.comp quarter_orthogonal.measurable
  have hw : Measurable fun v : V3 ℝ => bond b ⟨0, 0, 1⟩ v * f ⟨v.y, -v.x, v.z⟩ :=
    (meas_bond b measurable_const measurable_id).mul hfq
  have e1 : ∀ u1 : ℝ, ∫⁻ u2 in Set.Ico (0 : ℝ) 1, ∫⁻ u3 in Set.Ico (0 : ℝ) 1, f (hop b ⟨0, 0, 1⟩ (u1, u2, u3))
      = ∫⁻ v in Set.Ico (0 : ℝ) 1, bond b ⟨0, 0, 1⟩ (spherePoint u1 v)
          * (fun v : V3 ℝ => f ⟨v.y, -v.x, v.z⟩) (spherePoint u1 v) := by
    intro u1
    have e2 : ∀ u2 ∈ Set.Ioo (0 : ℝ) 1, ∫⁻ u3 in Set.Ico (0 : ℝ) 1, f (hop b ⟨0, 0, 1⟩ (u1, u2, u3))
        = ∫⁻ v in Set.Ico (0 : ℝ) 1, bond b ⟨0, 0, 1⟩ (spherePoint u1 v)
          * (fun v : V3 ℝ => f ⟨v.y, -v.x, v.z⟩) (spherePoint u1 v) := by
      intro u2 h2
      rw [setLIntegral_congr_fun measurableSet_Ico (g := fun u3 =>
        (fun v => (fun v : V3 ℝ => f ⟨v.y, -v.x, v.z⟩) (spherePoint u1 v)) ((1 - overlap b u3) / 2))
        fun u3 h3 => by dsimp only; rw [turn_axis hb h2.1 h2.2 h3.1 h3.2.le]]
      rw [overlap_height hb fun v => (fun v : V3 ℝ => f ⟨v.y, -v.x, v.z⟩) (spherePoint u1 v)]
      refine lintegral_congr fun v => ?_
      unfold bond
      congr 4
      simp [dot, spherePoint]
    rw [setLIntegral_congr Ioo_ae_eq_Ico.symm, setLIntegral_congr_fun measurableSet_Ioo e2, setLIntegral_const]
    simp
  simp only [e1]
  rw [lintegral_sphere hw]
  have hm2 : Measurable fun x => bond b ⟨0, 0, 1⟩ x * f x := (meas_bond b measurable_const measurable_id).mul hf
  rw [← sphere_invariant quarter_orthogonal hm2]
  refine lintegral_congr fun v => ?_
  congr 1
  unfold bond
  simp [dot]

/-- One step of the generator: given the previous spin `d`, the next has density `∝ e^{b d·x}` on the sphere. -/
theorem hop_law {b : ℝ} (hb : b ≠ 0) {d : V3 ℝ} (hd : dot d d = 1) {f : V3 ℝ → ℝ≥0∞} (hf : Measurable f) :
    ∫⁻ t, f (hop b d t) ∂tripleMeasure = ∫⁻ x, bond b d x * f x ∂sphereMeasure := by
  obtain ⟨p, hp, hdp⟩ := exists_perp hd
  have ho := frame_orthogonal hp hd hdp
  have hfO : Measurable fun x => f (frame p d x) := hf.comp ho.measurable
  have e0 := hop_axis hb hfO
  have e1 : ∫⁻ x, bond b ⟨0, 0, 1⟩ x * f (frame p d x) ∂sphereMeasure = ∫⁻ x, bond b d x * f x ∂sphereMeasure := by
    have hm : Measurable fun x => bond b d x * f x := (meas_bond b measurable_const measurable_id).mul hf
    rw [← sphere_invariant ho hm]
    refine lintegral_congr fun x => ?_
    congr 1
    unfold bond
    congr 3
    conv_rhs => rw [← frame_axis p d]
    rw [frame_axis p d, ← ho.dot, frame_axis]
  rw [← e1, ← e0]
  have mh : ∀ (g : V3 ℝ → ℝ≥0∞) (e : V3 ℝ), Measurable g → Measurable fun q : V3 ℝ × ℝ =>
      g (turn e q.1 (Real.arccos (overlap b q.2))) := by
    intro g e hg
    exact hg.comp (meas_turn measurable_const measurable_fst
      (Real.measurable_arccos.comp ((meas_overlap b).comp measurable_snd)))
  have mr : ∀ (g : V3 ℝ → ℝ≥0∞) (e : V3 ℝ), Measurable g → ∫⁻ t, g (hop b e t) ∂tripleMeasure
      = ∫⁻ r, (∫⁻ u3 in Set.Ico (0 : ℝ) 1, g (turn e r (Real.arccos (overlap b u3)))) ∂sphereMeasure := by
    intro g e hg
    have hm : Measurable fun t => g (hop b e t) := hg.comp (meas_hop' b e)
    rw [lintegral_triple hm]
    exact lintegral_sphere (mh g e hg).lintegral_prod_right'
  rw [mr f d hf, mr _ _ hfO, ← sphere_invariant ho (mh f d hf).lintegral_prod_right']
  refine lintegral_congr fun r => lintegral_congr fun u3 => ?_
  dsimp only
  rw [← turn_frame hp hd hdp, frame_axis]

instance : IsProbabilityMeasure tripleMeasure := by
  unfold tripleMeasure
  infer_instance

theorem bond_total {b : ℝ} (hb : b ≠ 0) {d : V3 ℝ} (hd : dot d d = 1) : ∫⁻ x, bond b d x ∂sphereMeasure = 1 := by
  have := hop_law hb hd (f := fun _ => 1) measurable_const
  simpa using this.symm

/-! ### The whole chain -/

/-- the spins generated from the direction `d` with the draws `w` -/
noncomputable def path (b : ℝ) : (n : ℕ) → V3 ℝ → (Fin n → ℝ × ℝ × ℝ) → Fin n → V3 ℝ
  | 0, _, _ => Fin.elim0
  | n + 1, d, w => Fin.cons (hop b d (w 0)) (path b n (hop b d (w 0)) (fun i => w i.succ))

theorem meas_cons {α X : Type} [MeasurableSpace α] [MeasurableSpace X] {n : ℕ} {f : α → X} {g : α → Fin n → X}
    (hf : Measurable f) (hg : Measurable g) : Measurable fun a => (Fin.cons (f a) (g a) : Fin (n + 1) → X) := by
  refine measurable_pi_iff.2 fun i => ?_
  refine Fin.cases ?_ (fun j => ?_) i
  · simpa using hf
  · simp only [Fin.cons_succ]
    exact (measurable_pi_apply j).comp hg

theorem meas_path (b : ℝ) (n : ℕ) : Measurable fun q : V3 ℝ × (Fin n → ℝ × ℝ × ℝ) => path b n q.1 q.2 := by
  induction n with
  | zero => exact measurable_pi_iff.2 fun i => i.elim0
  | succ n ih =>
    have h0 : Measurable fun q : V3 ℝ × (Fin (n + 1) → ℝ × ℝ × ℝ) => q.2 0 :=
      (measurable_pi_apply 0).comp measurable_snd
    have h1 : Measurable fun q : V3 ℝ × (Fin (n + 1) → ℝ × ℝ × ℝ) => (q.1, q.2 0) := measurable_fst.prodMk h0
    have h2 : Measurable fun q : V3 ℝ × (Fin (n + 1) → ℝ × ℝ × ℝ) => hop b q.1 (q.2 0) := by
      have := Measurable.comp (g := fun q : V3 ℝ × ℝ × ℝ × ℝ => hop b q.1 q.2) (meas_hop b) h1
      exact this
    have h3 : Measurable fun q : V3 ℝ × (Fin (n + 1) → ℝ × ℝ × ℝ) => fun i : Fin n => q.2 i.succ :=
      measurable_pi_iff.2 fun i => (measurable_pi_apply i.succ).comp measurable_snd
    have h4 : Measurable fun q : V3 ℝ × (Fin (n + 1) → ℝ × ℝ × ℝ) =>
        path b n (hop b q.1 (q.2 0)) (fun i => q.2 i.succ) := by
      have := Measurable.comp (g := fun q : V3 ℝ × (Fin n → ℝ × ℝ × ℝ) => path b n q.1 q.2) ih (h2.prodMk h3)
      exact this
    exact meas_cons h2 h4

/-- weight of the spins attached to `d`, site by site -/
noncomputable def pathWeight (b : ℝ) : (n : ℕ) → V3 ℝ → (Fin n → V3 ℝ) → ℝ≥0∞
  | 0, _, _ => 1
  | n + 1, d, v => bond b d (v 0) * pathWeight b n (v 0) (fun i => v i.succ)

theorem meas_pathWeight (b : ℝ) (n : ℕ) : Measurable fun q : V3 ℝ × (Fin n → V3 ℝ) => pathWeight b n q.1 q.2 := by
  induction n with
  | zero => exact measurable_const
  | succ n ih =>
    have h0 : Measurable fun q : V3 ℝ × (Fin (n + 1) → V3 ℝ) => q.2 0 := (measurable_pi_apply 0).comp measurable_snd
    have h3 : Measurable fun q : V3 ℝ × (Fin (n + 1) → V3 ℝ) => fun i : Fin n => q.2 i.succ :=
      measurable_pi_iff.2 fun i => (measurable_pi_apply i.succ).comp measurable_snd
    have h4 : Measurable fun q : V3 ℝ × (Fin (n + 1) → V3 ℝ) => pathWeight b n (q.2 0) (fun i => q.2 i.succ) := by
      have := Measurable.comp (g := fun q : V3 ℝ × (Fin n → V3 ℝ) => pathWeight b n q.1 q.2) ih (h0.prodMk h3)
      exact this
    exact (meas_bond b measurable_fst h0).mul h4

theorem lintegral_cons {X : Type} [MeasurableSpace X] (μ : Measure X) [SigmaFinite μ] (n : ℕ)
    {f : (Fin (n + 1) → X) → ℝ≥0∞} (hf : Measurable f) :
    ∫⁻ w, f w ∂(Measure.pi fun _ => μ) = ∫⁻ x, ∫⁻ w, f (Fin.cons x w) ∂(Measure.pi fun _ : Fin n => μ) ∂μ := by
  have m : Measurable fun p : X × (Fin n → X) => f (Fin.cons p.1 p.2) := hf.comp (meas_cons measurable_fst measurable_snd)
  have e := (measurePreserving_piFinSuccAbove (fun _ : Fin (n + 1) => μ) 0).lintegral_comp m
  rw [lintegral_prod _ m.aemeasurable] at e
  rw [← e]
  refine lintegral_congr fun w => ?_
  congr 1
  funext i
  refine Fin.cases ?_ (fun j => ?_) i
  · rfl
  · rfl

/-- what holds for almost all directions holds for almost all generated spins -/
theorem hop_ae {b : ℝ} (hb : b ≠ 0) {d : V3 ℝ} (hd : dot d d = 1) {P : V3 ℝ → Prop} (hs : MeasurableSet {x | P x})
    (hP : ∀ᵐ x ∂sphereMeasure, P x) : ∀ᵐ t ∂tripleMeasure, P (hop b d t) := by
  have mi : Measurable ({x | P x}ᶜ.indicator (1 : V3 ℝ → ℝ≥0∞)) := measurable_one.indicator hs.compl
  have hz : ∫⁻ t, ({x | P x}ᶜ.indicator 1) (hop b d t) ∂tripleMeasure = 0 := by
    rw [hop_law hb hd mi]
    have m : Measurable fun x => bond b d x * {x | P x}ᶜ.indicator 1 x :=
      (meas_bond b measurable_const measurable_id).mul mi
    rw [lintegral_eq_zero_iff m]
    filter_upwards [hP] with x hx
    rw [Set.indicator_of_notMem (show x ∉ {x | P x}ᶜ from fun h => h hx), mul_zero]
    rfl
  have m2 : Measurable fun t => ({x | P x}ᶜ.indicator (1 : V3 ℝ → ℝ≥0∞)) (hop b d t) := mi.comp (meas_hop' b d)
  rw [lintegral_eq_zero_iff m2] at hz
  filter_upwards [hz] with t ht
  by_contra hc
  rw [Set.indicator_of_mem (show hop b d t ∈ {x | P x}ᶜ from hc)] at ht
  simp at ht

theorem hop_unit {b : ℝ} (hb : b ≠ 0) {d : V3 ℝ} (hd : dot d d = 1) :
    ∀ᵐ t ∂tripleMeasure, dot (hop b d t) (hop b d t) = 1 := by
  refine hop_ae hb hd (P := fun x => dot x x = 1)
    ((meas_dot measurable_id measurable_id) (measurableSet_singleton 1)) ?_
  filter_upwards [sphere_ae] with x hx
  have hx : len x = 1 := hx
  rw [← len_sq, hx, one_mul]

/-- Distribution of the generated spins. -/
theorem path_law {b : ℝ} (hb : b ≠ 0) (n : ℕ) : ∀ {d : V3 ℝ}, dot d d = 1 → ∀ {f : (Fin n → V3 ℝ) → ℝ≥0∞},
    Measurable f → ∫⁻ w, f (path b n d w) ∂(Measure.pi fun _ => tripleMeasure)
      = ∫⁻ v, pathWeight b n d v * f v ∂(Measure.pi fun _ => sphereMeasure) := by
  induction n with
  | zero =>
    intro d hd f hf
    have h1 : ∀ w, f (path b 0 d w) = f Fin.elim0 := fun w => rfl
    have h2 : ∀ v : Fin 0 → V3 ℝ, pathWeight b 0 d v * f v = f Fin.elim0 := by
      intro v
      rw [pathWeight, one_mul]
      congr 1
      funext i
      exact i.elim0
    simp only [h1, h2]
    simp
  | succ n ih =>
    intro d hd f hf
    have mp : Measurable fun w : Fin (n + 1) → ℝ × ℝ × ℝ => f (path b (n + 1) d w) := by
      have h : Measurable fun w : Fin (n + 1) → ℝ × ℝ × ℝ => (d, w) := measurable_const.prodMk measurable_id
      have := Measurable.comp (g := fun q : V3 ℝ × (Fin (n + 1) → ℝ × ℝ × ℝ) => path b (n + 1) q.1 q.2)
        (meas_path b (n + 1)) h
      exact hf.comp this
    have mw : Measurable fun v : Fin (n + 1) → V3 ℝ => pathWeight b (n + 1) d v * f v := by
      have h : Measurable fun w : Fin (n + 1) → V3 ℝ => (d, w) := measurable_const.prodMk measurable_id
      have := Measurable.comp (g := fun q : V3 ℝ × (Fin (n + 1) → V3 ℝ) => pathWeight b (n + 1) q.1 q.2)
        (meas_pathWeight b (n + 1)) h
      exact this.mul hf
    have mg : Measurable fun q : V3 ℝ × (Fin n → V3 ℝ) => pathWeight b n q.1 q.2 * f (Fin.cons q.1 q.2) :=
      (meas_pathWeight b n).mul (hf.comp (meas_cons measurable_fst measurable_snd))
    have mG : Measurable fun x : V3 ℝ => ∫⁻ v, pathWeight b n x v * f (Fin.cons x v)
        ∂(Measure.pi fun _ : Fin n => sphereMeasure) := mg.lintegral_prod_right'
    rw [lintegral_cons _ n mp, lintegral_cons _ n mw]
    have e1 : ∫⁻ t, ∫⁻ w, f (path b (n + 1) d (Fin.cons t w)) ∂(Measure.pi fun _ : Fin n => tripleMeasure) ∂tripleMeasure
        = ∫⁻ t, (fun x => ∫⁻ v, pathWeight b n x v * f (Fin.cons x v) ∂(Measure.pi fun _ : Fin n => sphereMeasure))
            (hop b d t) ∂tripleMeasure := by
      refine lintegral_congr_ae ?_
      filter_upwards [hop_unit hb hd] with t ht
      have hfc : Measurable fun v : Fin n → V3 ℝ => f (Fin.cons (hop b d t) v) :=
        hf.comp (meas_cons measurable_const measurable_id)
      exact ih ht hfc
    rw [e1, hop_law hb hd mG]
    refine lintegral_congr fun x => ?_
    rw [← lintegral_const_mul]
    · refine lintegral_congr fun v => ?_
      simp only [pathWeight, Fin.cons_zero, Fin.cons_succ]
      rw [mul_assoc]
    · have h : Measurable fun w : Fin n → V3 ℝ => (x, w) := measurable_const.prodMk measurable_id
      have := Measurable.comp (g := fun q : V3 ℝ × (Fin n → V3 ℝ) => pathWeight b n q.1 q.2 * f (Fin.cons q.1 q.2)) mg h
      exact this

theorem pathWeight_eq {b : ℝ} (hb : b ≠ 0) (n : ℕ) : ∀ (d : V3 ℝ) (v : Fin n → V3 ℝ),
    pathWeight b n d v = ENNReal.ofReal ((b / Real.sinh b) ^ n * Real.exp (-(b * hungEnergy d v))) := by
  have hpos : 0 < b / Real.sinh b := by
    rcases lt_or_gt_of_ne hb with h | h
    · exact div_pos_of_neg_of_neg h (Real.sinh_neg_iff.2 h)
    · exact div_pos h (Real.sinh_pos_iff.2 h)
  induction n with
  | zero =>
    intro d v
    simp [pathWeight, hungEnergy]
  | succ n ih =>
    intro d v
    have hb0 : before d v 0 = d := by simp [before]
    have hbs : ∀ i : Fin n, before d v i.succ = before (v 0) (fun i => v i.succ) i := by
      intro i
      unfold before
      rw [dif_neg (by simp)]
      by_cases h : (i : ℕ) = 0
      · rw [dif_pos h]
        congr 1
        ext
        simp [h]
      · rw [dif_neg h]
        congr 1
        ext
        simp
        omega
    have he : hungEnergy d v = -dot d (v 0) + hungEnergy (v 0) (fun i => v i.succ) := by
      unfold hungEnergy
      rw [Fin.sum_univ_succ, hb0]
      simp only [hbs]
      ring
    rw [pathWeight, ih, bond, ← ENNReal.ofReal_mul (by positivity), he]
    congr 1
    rw [show -(b * (-dot d (v 0) + hungEnergy (v 0) (fun i => v i.succ)))
      = b * dot d (v 0) + -(b * hungEnergy (v 0) (fun i => v i.succ)) by ring, Real.exp_add, pow_succ]
    ring

/-! ### Degenerate draws -/

/-- no degenerate direction among the generated spins -/
def Clean (b : ℝ) : (n : ℕ) → V3 ℝ → (Fin n → ℝ × ℝ × ℝ) → Prop
  | 0, _, _ => True
  | n + 1, d, w => (cross d (spherePoint (w 0).1 (w 0).2.1) ≠ zero ∧ (hop b d (w 0)).x ≠ 0) ∧
      Clean b n (hop b d (w 0)) (fun i => w i.succ)

theorem measSet_clean (b : ℝ) (n : ℕ) : MeasurableSet {q : V3 ℝ × (Fin n → ℝ × ℝ × ℝ) | Clean b n q.1 q.2} := by
  induction n with
  | zero => exact MeasurableSet.univ
  | succ n ih =>
    have h0 : Measurable fun q : V3 ℝ × (Fin (n + 1) → ℝ × ℝ × ℝ) => q.2 0 :=
      (measurable_pi_apply 0).comp measurable_snd
    have h1 : Measurable fun q : V3 ℝ × (Fin (n + 1) → ℝ × ℝ × ℝ) => (q.1, q.2 0) := measurable_fst.prodMk h0
    have h2 : Measurable fun q : V3 ℝ × (Fin (n + 1) → ℝ × ℝ × ℝ) => hop b q.1 (q.2 0) := by
      have := Measurable.comp (g := fun q : V3 ℝ × ℝ × ℝ × ℝ => hop b q.1 q.2) (meas_hop b) h1
      exact this
    have h3 : Measurable fun q : V3 ℝ × (Fin (n + 1) → ℝ × ℝ × ℝ) => fun i : Fin n => q.2 i.succ :=
      measurable_pi_iff.2 fun i => (measurable_pi_apply i.succ).comp measurable_snd
    have h5 : Measurable fun q : V3 ℝ × (Fin (n + 1) → ℝ × ℝ × ℝ) =>
        cross q.1 (spherePoint (q.2 0).1 (q.2 0).2.1) :=
      meas_cross measurable_fst (meas_point (measurable_fst.comp h0) (measurable_fst.comp (measurable_snd.comp h0)))
    have s1 : MeasurableSet {q : V3 ℝ × (Fin (n + 1) → ℝ × ℝ × ℝ) |
        cross q.1 (spherePoint (q.2 0).1 (q.2 0).2.1) ≠ zero} := (h5 (measurableSet_v3 zero)).compl
    have s2 : MeasurableSet {q : V3 ℝ × (Fin (n + 1) → ℝ × ℝ × ℝ) | (hop b q.1 (q.2 0)).x ≠ 0} :=
      ((measurable_x.comp h2) (measurableSet_singleton 0)).compl
    have s3 : MeasurableSet {q : V3 ℝ × (Fin (n + 1) → ℝ × ℝ × ℝ) |
        Clean b n (hop b q.1 (q.2 0)) (fun i => q.2 i.succ)} := (h2.prodMk h3) ih
    exact (s1.inter s2).inter s3

theorem parallel_null {d : V3 ℝ} (hd : dot d d = 1) : ∀ᵐ r ∂sphereMeasure, cross d r ≠ zero := by
  have h1 : ∀ᵐ r ∂sphereMeasure, r.x ≠ d.x := by
    have := (coord_null d.x).2.1
    rwa [measure_eq_zero_iff_ae_notMem] at this
  have h2 : ∀ᵐ r ∂sphereMeasure, r.x ≠ -d.x := by
    have := (coord_null (-d.x)).2.1
    rwa [measure_eq_zero_iff_ae_notMem] at this
  filter_upwards [h1, h2, sphere_ae] with r a1 a2 hr hc
  have hr : len r = 1 := hr
  have hr : dot r r = 1 := by rw [← len_sq, hr, one_mul]
  have hl := lagrange d r
  rw [hc, hd, hr] at hl
  have hk : dot d r * dot d r = 1 := by
    simp only [dot, zero] at hl ⊢
    linarith
  have hx : r.x = dot d r * d.x := by
    have c2 := congrArg V3.y hc
    have c3 := congrArg V3.z hc
    simp only [cross, zero] at c2 c3
    simp only [dot] at hd ⊢
    linear_combination (-r.x) * hd + d.z * c2 - d.y * c3
  rcases mul_self_eq_one_iff.1 hk with h | h
  · exact a1 (by rw [hx, h, one_mul])
  · exact a2 (by rw [hx, h, neg_one_mul])

theorem clean_ae {b : ℝ} (hb : b ≠ 0) (n : ℕ) : ∀ {d : V3 ℝ}, dot d d = 1 →
    ∀ᵐ w ∂(Measure.pi fun _ : Fin n => tripleMeasure), Clean b n d w := by
  induction n with
  | zero => intro d hd; exact Filter.Eventually.of_forall fun w => trivial
  | succ n ih =>
    intro d hd
    have hd' : Measurable fun w : Fin (n + 1) → ℝ × ℝ × ℝ => (d, w) := measurable_const.prodMk measurable_id
    have hs : MeasurableSet {w : Fin (n + 1) → ℝ × ℝ × ℝ | Clean b (n + 1) d w} := hd' (measSet_clean b (n + 1))
    have hc : ∀ᵐ t ∂tripleMeasure, cross d (spherePoint t.1 t.2.1) ≠ zero := by
      have hP := parallel_null hd
      have m : MeasurableSet {r : V3 ℝ | cross d r ≠ zero} :=
        ((meas_cross measurable_const measurable_id) (measurableSet_v3 zero)).compl
      have m1 : Measurable fun t : ℝ × ℝ × ℝ => spherePoint t.1 t.2.1 :=
        meas_point measurable_fst (measurable_fst.comp measurable_snd)
      have mi : Measurable ({r : V3 ℝ | cross d r ≠ zero}ᶜ.indicator (1 : V3 ℝ → ℝ≥0∞)) :=
        measurable_one.indicator m.compl
      have m2 : Measurable fun t : ℝ × ℝ × ℝ =>
        {r : V3 ℝ | cross d r ≠ zero}ᶜ.indicator (1 : V3 ℝ → ℝ≥0∞) (spherePoint t.1 t.2.1) := mi.comp m1
      have hz : ∫⁻ t, {r : V3 ℝ | cross d r ≠ zero}ᶜ.indicator (1 : V3 ℝ → ℝ≥0∞) (spherePoint t.1 t.2.1)
          ∂tripleMeasure = 0 := by
        rw [lintegral_triple m2]
        simp only [lintegral_const, Measure.restrict_apply MeasurableSet.univ, Set.univ_inter, Real.volume_Ico,
          sub_zero, ENNReal.ofReal_one, mul_one]
        rw [lintegral_sphere mi, lintegral_eq_zero_iff mi]
        filter_upwards [hP] with x hx
        rw [Set.indicator_of_notMem (show x ∉ {r : V3 ℝ | cross d r ≠ zero}ᶜ from fun h => h hx)]
        rfl
      rw [lintegral_eq_zero_iff m2] at hz
      filter_upwards [hz] with t ht
      by_contra hcc
      rw [Set.indicator_of_mem (show spherePoint t.1 t.2.1 ∈ {r : V3 ℝ | cross d r ≠ zero}ᶜ from fun h => h hcc)] at ht
      simp at ht
    have hx : ∀ᵐ t ∂tripleMeasure, (hop b d t).x ≠ 0 := by
      refine hop_ae hb hd (P := fun x => x.x ≠ 0) (measurable_x (measurableSet_singleton 0)).compl ?_
      have := (coord_null 0).2.1
      rwa [measure_eq_zero_iff_ae_notMem] at this
    have mi : Measurable ({w : Fin (n + 1) → ℝ × ℝ × ℝ | Clean b (n + 1) d w}ᶜ.indicator (1 : (Fin (n + 1) → ℝ × ℝ × ℝ) → ℝ≥0∞)) :=
      measurable_one.indicator hs.compl
    have hz : ∫⁻ w, {w : Fin (n + 1) → ℝ × ℝ × ℝ | Clean b (n + 1) d w}ᶜ.indicator (1 : (Fin (n + 1) → ℝ × ℝ × ℝ) → ℝ≥0∞) w
        ∂(Measure.pi fun _ => tripleMeasure) = 0 := by
      rw [lintegral_cons _ n mi]
      refine (lintegral_congr_ae (g := fun _ => 0) ?_).trans lintegral_zero
      filter_upwards [hc, hx, hop_unit hb hd] with t h1 h2 h3
      refine (lintegral_congr_ae (g := fun _ => 0) ?_).trans lintegral_zero
      filter_upwards [ih h3] with w hw
      have : Clean b (n + 1) d (Fin.cons t w) := ⟨⟨h1, h2⟩, hw⟩
      rw [Set.indicator_of_notMem]
      exact fun h => h this
    rw [lintegral_eq_zero_iff mi] at hz
    filter_upwards [hz] with w hw
    by_contra hcc
    rw [Set.indicator_of_mem (show w ∈ {w : Fin (n + 1) → ℝ × ℝ × ℝ | Clean b (n + 1) d w}ᶜ from hcc)] at hw
    simp at hw

/-! ### The walk -/

theorem path_step (b : ℝ) (n : ℕ) : ∀ (d : V3 ℝ) (w : Fin n → ℝ × ℝ × ℝ) (i : Fin n),
    path b n d w i = hop b (before d (path b n d w) i) (w i) := by
  induction n with
  | zero => intro d w i; exact i.elim0
  | succ n ih =>
    intro d w i
    refine Fin.cases ?_ (fun j => ?_) i
    · simp [path, before]
    · have := ih (hop b d (w 0)) (fun i => w i.succ) j
      have e : before d (path b (n + 1) d w) j.succ
          = before (hop b d (w 0)) (path b n (hop b d (w 0)) (fun i => w i.succ)) j := by
        unfold before
        rw [dif_neg (by simp)]
        by_cases h : (j : ℕ) = 0
        · rw [dif_pos h]
          have : (⟨(j.succ : ℕ) - 1, by omega⟩ : Fin (n + 1)) = 0 := by
            ext
            simp [h]
          rw [this]
          rfl
        · rw [dif_neg h]
          have : (⟨(j.succ : ℕ) - 1, by omega⟩ : Fin (n + 1)) = Fin.succ ⟨(j : ℕ) - 1, by omega⟩ := by
            ext
            simp
            omega
          rw [this]
          rfl
      rw [e]
      exact this

theorem clean_step (b : ℝ) (n : ℕ) : ∀ (d : V3 ℝ) (w : Fin n → ℝ × ℝ × ℝ), Clean b n d w → ∀ (i : Fin n),
    cross (before d (path b n d w) i) (spherePoint (w i).1 (w i).2.1) ≠ zero ∧ (path b n d w i).x ≠ 0 := by
  induction n with
  | zero => intro d w _ i; exact i.elim0
  | succ n ih =>
    intro d w hc i
    refine Fin.cases ?_ (fun j => ?_) i
    · have : before d (path b (n + 1) d w) 0 = d := by simp [before]
      rw [this]
      exact hc.1
    · have := ih (hop b d (w 0)) (fun i => w i.succ) hc.2 j
      have e : before d (path b (n + 1) d w) j.succ
          = before (hop b d (w 0)) (path b n (hop b d (w 0)) (fun i => w i.succ)) j := by
        unfold before
        rw [dif_neg (by simp)]
        by_cases h : (j : ℕ) = 0
        · rw [dif_pos h]
          have : (⟨(j.succ : ℕ) - 1, by omega⟩ : Fin (n + 1)) = 0 := by
            ext
            simp [h]
          rw [this]
          rfl
        · rw [dif_neg h]
          have : (⟨(j.succ : ℕ) - 1, by omega⟩ : Fin (n + 1)) = Fin.succ ⟨(j : ℕ) - 1, by omega⟩ := by
            ext
            simp
            omega
          rw [this]
          rfl
      rw [e]
      exact this

theorem drawsOf_at {L : ℕ} (w : Fin L → ℝ × ℝ × ℝ) (i : Fin L) :
    drawsOf w (3 * i) = (w i).1 ∧ drawsOf w (3 * i + 1) = (w i).2.1 ∧ drawsOf w (3 * i + 2) = (w i).2.2 := by
  have e0 : (3 * (i : ℕ)) / 3 = i := by omega
  have e1 : (3 * (i : ℕ) + 1) / 3 = i := by omega
  have e2 : (3 * (i : ℕ) + 2) / 3 = i := by omega
  have f1 : (3 * (i : ℕ) + 1) % 3 = 1 := by omega
  have f2 : (3 * (i : ℕ) + 2) % 3 = 2 := by omega
  refine ⟨?_, ?_, ?_⟩ <;> unfold drawsOf
  · simp [e0]
  · simp [e1, f1]
  · simp [e2, f2]

theorem walk_path (b : ℝ) {L : ℕ} (w : Fin L → ℝ × ℝ × ℝ) : ∀ (i : ℕ) (hi : i < L),
    walk b (drawsOf w) i = before startDir (path b L startDir w) ⟨i, hi⟩ ∧
    walk b (drawsOf w) (i + 1) = path b L startDir w ⟨i, hi⟩ := by
  intro i
  induction i with
  | zero =>
    intro hi
    have h0 : walk b (drawsOf w) 0 = before startDir (path b L startDir w) ⟨0, hi⟩ := by
      simp [walk, before, startDir]
    refine ⟨h0, ?_⟩
    obtain ⟨d0, d1, d2⟩ := drawsOf_at w ⟨0, hi⟩
    rw [path_step, ← h0]
    dsimp only at d0 d1 d2
    show turn _ (spherePoint (drawsOf w (3 * 0)) (drawsOf w (3 * 0 + 1))) _ = _
    rw [d0, d1, d2]
    rfl
  | succ i ih =>
    intro hi
    have h0 : walk b (drawsOf w) (i + 1) = before startDir (path b L startDir w) ⟨i + 1, hi⟩ := by
      rw [(ih (by omega)).2]
      simp [before]
    refine ⟨h0, ?_⟩
    obtain ⟨d0, d1, d2⟩ := drawsOf_at w ⟨i + 1, hi⟩
    rw [path_step, ← h0, walk]
    dsimp only at d0 d1 d2
    rw [d0, d1, d2]
    rfl

theorem startDir_unit : dot startDir startDir = 1 := by
  simp only [startDir, dot]
  linear_combination Real.sin_sq_add_cos_sq (1 / 100)

theorem nonDegenerate_ae {b : ℝ} (hb : b ≠ 0) (L : ℕ) :
    ∀ᵐ w ∂(Measure.pi fun _ : Fin L => tripleMeasure), NonDegenerate b (drawsOf w) L := by
  filter_upwards [clean_ae hb L startDir_unit] with w hw
  intro x hx
  have h := clean_step b L startDir w hw ⟨x, hx⟩
  obtain ⟨e1, e2⟩ := walk_path b w x hx
  obtain ⟨d0, d1, -⟩ := drawsOf_at w ⟨x, hx⟩
  dsimp only at d0 d1
  rw [e1, e2, d0, d1]
  exact h

theorem unitDraws_ae (L : ℕ) : ∀ᵐ w ∂(Measure.pi fun _ : Fin L => tripleMeasure), UnitDraws (drawsOf w) := by
  have h1 : ∀ᵐ t ∂tripleMeasure, (0 ≤ t.1 ∧ t.1 < 1) ∧ (0 ≤ t.2.1 ∧ t.2.1 < 1) ∧ (0 ≤ t.2.2 ∧ t.2.2 < 1) := by
    unfold tripleMeasure
    rw [Measure.prod_restrict, Measure.prod_restrict]
    refine (ae_restrict_mem (measurableSet_Ico.prod (measurableSet_Ico.prod measurableSet_Ico))).mono fun p hp => ?_
    exact ⟨hp.1, hp.2.1, hp.2.2⟩
  have h2 : ∀ᵐ w ∂(Measure.pi fun _ : Fin L => tripleMeasure), ∀ i, (0 ≤ (w i).1 ∧ (w i).1 < 1) ∧
      (0 ≤ (w i).2.1 ∧ (w i).2.1 < 1) ∧ (0 ≤ (w i).2.2 ∧ (w i).2.2 < 1) := by
    rw [ae_all_iff]
    intro i
    exact (Measure.quasiMeasurePreserving_eval (μ := fun _ : Fin L => tripleMeasure) i).ae h1
  filter_upwards [h2] with w hw k
  unfold drawsOf
  split_ifs with a1 a2 a3
  · exact (hw _).1
  · exact (hw _).2.1
  · exact (hw _).2.2
  · norm_num

/-! ### Means -/

/-- the Langevin function -/
noncomputable def lang (b : ℝ) : ℝ := Real.cosh b / Real.sinh b - 1 / b

theorem dot_add_right (a x y : V3 ℝ) : dot a (add x y) = dot a x + dot a y := by
  simp only [dot, add]; ring

theorem dot_smul_right (r : ℝ) (a x : V3 ℝ) : dot a (smul r x) = r * dot a x := by
  simp only [dot, smul]; ring

theorem abs_dot_le {a x : V3 ℝ} (hx : dot x x = 1) : |dot a x| ≤ len a := by
  have := dot_sq_le a x
  rw [hx, mul_one] at this
  rw [len]
  exact Real.abs_le_sqrt (by rw [pow_two]; exact this)

theorem hop_dot {b : ℝ} (hb : b ≠ 0) {d : V3 ℝ} (hd : dot d d = 1) {t : ℝ × ℝ × ℝ} (h0 : 0 ≤ t.2.2) (h1 : t.2.2 ≤ 1) :
    dot d (hop b d t) = overlap b t.2.2 := by
  have hm := overlap_mem hb h0 h1
  rw [dot_comm, hop, turn_dot hd, Real.cos_arccos hm.1 hm.2]

theorem integrable_dot_hop {b : ℝ} (hb : b ≠ 0) {d : V3 ℝ} (hd : dot d d = 1) (a : V3 ℝ) :
    Integrable (fun t => dot a (hop b d t)) tripleMeasure := by
  refine Integrable.of_bound ((meas_dot measurable_const (meas_hop' b d)).aestronglyMeasurable) (len a) ?_
  filter_upwards [hop_unit hb hd] with t ht
  rw [Real.norm_eq_abs]
  exact abs_dot_le ht

/-- the mean projection on the previous spin -/
theorem hop_mean_self {b : ℝ} (hb : b ≠ 0) {d : V3 ℝ} (hd : dot d d = 1) :
    ∫ t, dot d (hop b d t) ∂tripleMeasure = lang b := by
  have h1 : ∀ᵐ t ∂tripleMeasure, dot d (hop b d t) = overlap b t.2.2 := by
    unfold tripleMeasure
    rw [Measure.prod_restrict, Measure.prod_restrict]
    refine (ae_restrict_mem (measurableSet_Ico.prod (measurableSet_Ico.prod measurableSet_Ico))).mono fun p hp => ?_
    exact hop_dot hb hd hp.2.2.1 hp.2.2.2.le
  rw [integral_congr_ae h1]
  have h2 : ∫ t, overlap b t.2.2 ∂tripleMeasure = ∫ u in Set.Ico (0 : ℝ) 1, overlap b u := by
    have mp : MeasurePreserving (fun t : ℝ × ℝ × ℝ => t.2.2) tripleMeasure (volume.restrict (Set.Ico (0 : ℝ) 1)) := by
      unfold tripleMeasure
      exact measurePreserving_snd.comp measurePreserving_snd
    exact (mp.map_eq ▸ integral_map mp.measurable.aemeasurable (meas_overlap b).aestronglyMeasurable).symm
  rw [h2, integral_Ico_eq_integral_Ioc, ← intervalIntegral.integral_of_le zero_le_one, overlap_mean hb, lang]

/-- what has zero integral by a symmetry of the sphere fixing the previous spin -/
theorem hop_mean_perp {b : ℝ} (hb : b ≠ 0) {d a : V3 ℝ} (hd : dot d d = 1) (ha : dot d a = 0) :
    ∫ t, dot a (hop b d t) ∂tripleMeasure = 0 := by
  by_cases haz : a = zero
  · subst haz
    simp [dot, zero]
  have hla := len_pos haz
  -- the map fixing `d` and reversing `a`
  set k : ℝ := 2 / dot a a with hk
  have hkk : k * dot a a = 2 := by
    rw [hk]
    field_simp [(dot_self_pos haz).ne']
  set O : V3 ℝ → V3 ℝ := fun x => sub x (smul (k * dot a x) a) with hO
  have ho : Orthogonal O := by
    refine ⟨fun x y => ?_, fun r x => ?_, fun x => ?_⟩
    · ext <;> simp only [hO, sub, smul, add, dot] <;> ring
    · ext <;> simp only [hO, sub, smul, dot] <;> ring
    · unfold len
      congr 1
      have : dot (O x) (O x) = dot x x - 2 * k * dot a x * dot a x + (k * dot a x) ^ 2 * dot a a := by
        simp only [hO, sub, smul, dot]; ring
      rw [this]
      linear_combination (k * dot a x ^ 2) * hkk
  have hOa : ∀ x, dot a (O x) = -dot a x := by
    intro x
    have : dot a (O x) = dot a x - k * dot a x * dot a a := by
      simp only [hO, sub, smul, dot]; ring
    rw [this]
    linear_combination (-dot a x) * hkk
  have hOd : ∀ x, dot d (O x) = dot d x := by
    intro x
    have : dot d (O x) = dot d x - k * dot a x * dot d a := by
      simp only [hO, sub, smul, dot]; ring
    rw [this, ha, mul_zero, sub_zero]
  -- positive and negative parts have the same mean
  have hpos : ∀ s : ℝ, ∫⁻ t, ENNReal.ofReal (s * dot a (hop b d t)) ∂tripleMeasure
      = ∫⁻ t, ENNReal.ofReal (-(s * dot a (hop b d t))) ∂tripleMeasure := by
    intro s
    have m1 : Measurable fun x => ENNReal.ofReal (s * dot a x) :=
      ((meas_dot measurable_const measurable_id).const_mul s).ennreal_ofReal
    have m2 : Measurable fun x => ENNReal.ofReal (-(s * dot a x)) :=
      ((meas_dot measurable_const measurable_id).const_mul s).neg.ennreal_ofReal
    rw [hop_law hb hd m1, hop_law hb hd m2]
    have mb : Measurable fun x => bond b d x * ENNReal.ofReal (s * dot a x) :=
      (meas_bond b measurable_const measurable_id).mul m1
    rw [← sphere_invariant ho mb]
    refine lintegral_congr fun x => ?_
    unfold bond
    rw [hOa, hOd, mul_neg]
  have h1 := hpos 1
  simp only [one_mul] at h1
  rw [integral_eq_lintegral_pos_part_sub_lintegral_neg_part (integrable_dot_hop hb hd a), h1, sub_self]

/-- the mean of the next spin -/
theorem hop_mean {b : ℝ} (hb : b ≠ 0) {d : V3 ℝ} (hd : dot d d = 1) (a : V3 ℝ) :
    ∫ t, dot a (hop b d t) ∂tripleMeasure = lang b * dot a d := by
  have e : ∀ x, dot a x = dot a d * dot d x + dot (sub a (smul (dot a d) d)) x := by
    intro x
    simp only [dot, sub, smul]; ring
  have hp : dot d (sub a (smul (dot a d) d)) = 0 := by
    have : dot d (sub a (smul (dot a d) d)) = dot a d - dot a d * dot d d := by
      simp only [dot, sub, smul]; ring
    rw [this, hd]; ring
  have h1 : ∀ t, dot a (hop b d t) = dot a d * dot d (hop b d t) + dot (sub a (smul (dot a d) d)) (hop b d t) :=
    fun t => e _
  simp only [h1]
  rw [integral_add ((integrable_dot_hop hb hd d).const_mul _) (integrable_dot_hop hb hd _), integral_const_mul,
    hop_mean_self hb hd, hop_mean_perp hb hd hp]
  ring

theorem path_unit {b : ℝ} (hb : b ≠ 0) (n : ℕ) {d : V3 ℝ} (hd : dot d d = 1) :
    ∀ᵐ w ∂(Measure.pi fun _ : Fin n => tripleMeasure), ∀ i, dot (path b n d w i) (path b n d w i) = 1 := by
  filter_upwards [clean_ae hb n hd] with w hw
  have key : ∀ (k : ℕ) (hk : k < n), dot (path b n d w ⟨k, hk⟩) (path b n d w ⟨k, hk⟩) = 1 := by
    intro k
    induction k with
    | zero =>
      intro hk
      have h := (clean_step b n d w hw ⟨0, hk⟩).1
      rw [path_step]
      have e : before d (path b n d w) ⟨0, hk⟩ = d := by simp [before]
      rw [e] at h ⊢
      exact turn_unit hd h _
    | succ k ih =>
      intro hk
      have h := (clean_step b n d w hw ⟨k + 1, hk⟩).1
      rw [path_step]
      have e : before d (path b n d w) ⟨k + 1, hk⟩ = path b n d w ⟨k, by omega⟩ := by simp [before]
      rw [e] at h ⊢
      exact turn_unit (ih (by omega)) h _
  exact fun i => key i i.2

theorem meas_path' (b : ℝ) (n : ℕ) (d : V3 ℝ) : Measurable fun w : Fin n → ℝ × ℝ × ℝ => path b n d w := by
  have h : Measurable fun w : Fin n → ℝ × ℝ × ℝ => (d, w) := measurable_const.prodMk measurable_id
  have := Measurable.comp (g := fun q : V3 ℝ × (Fin n → ℝ × ℝ × ℝ) => path b n q.1 q.2) (meas_path b n) h
  exact this

theorem integral_cons {X : Type} [MeasurableSpace X] (μ : Measure X) [SigmaFinite μ] (n : ℕ)
    {f : (Fin (n + 1) → X) → ℝ} (hf : Measurable f) (hi : Integrable f (Measure.pi fun _ => μ)) :
    ∫ w, f w ∂(Measure.pi fun _ => μ) = ∫ x, ∫ w, f (Fin.cons x w) ∂(Measure.pi fun _ : Fin n => μ) ∂μ := by
  have m : Measurable fun p : X × (Fin n → X) => f (Fin.cons p.1 p.2) := hf.comp (meas_cons measurable_fst measurable_snd)
  have mp := measurePreserving_piFinSuccAbove (fun _ : Fin (n + 1) => μ) 0
  have hcons : ∀ w : Fin (n + 1) → X, (Fin.cons (MeasurableEquiv.piFinSuccAbove (fun _ => X) 0 w).1
      (MeasurableEquiv.piFinSuccAbove (fun _ => X) 0 w).2 : Fin (n + 1) → X) = w := by
    intro w
    funext i
    refine Fin.cases ?_ (fun j => ?_) i
    · rfl
    · rfl
  have e := mp.integral_comp (MeasurableEquiv.measurableEmbedding _) (fun p : X × (Fin n → X) => f (Fin.cons p.1 p.2))
  simp only [hcons] at e
  have hi2 : Integrable (fun p : X × (Fin n → X) => f (Fin.cons p.1 p.2)) (μ.prod (Measure.pi fun _ : Fin n => μ)) := by
    have := mp.integrable_comp (g := fun p : X × (Fin n → X) => f (Fin.cons p.1 p.2)) m.aestronglyMeasurable
    rw [← this]
    refine hi.congr (Filter.Eventually.of_forall fun w => ?_)
    simp only [Function.comp_apply, hcons]
  rw [e]
  exact integral_prod _ hi2

/-- the mean of the spin at site `i` -/
theorem path_mean {b : ℝ} (hb : b ≠ 0) (n : ℕ) : ∀ {d : V3 ℝ}, dot d d = 1 → ∀ (a : V3 ℝ) (i : Fin n),
    ∫ w, dot a (path b n d w i) ∂(Measure.pi fun _ => tripleMeasure) = lang b ^ ((i : ℕ) + 1) * dot a d := by
  induction n with
  | zero => intro d _ a i; exact i.elim0
  | succ n ih =>
    intro d hd a i
    have m : Measurable fun w : Fin (n + 1) → ℝ × ℝ × ℝ => dot a (path b (n + 1) d w i) :=
      meas_dot measurable_const ((measurable_pi_apply i).comp (meas_path' b (n + 1) d))
    have hi : Integrable (fun w => dot a (path b (n + 1) d w i)) (Measure.pi fun _ : Fin (n + 1) => tripleMeasure) := by
      refine Integrable.of_bound m.aestronglyMeasurable (len a) ?_
      filter_upwards [path_unit hb (n + 1) hd] with w hw
      exact abs_dot_le (hw i)
    rw [integral_cons _ n m hi]
    refine Fin.cases ?_ (fun j => ?_) i
    · have e : ∀ t : ℝ × ℝ × ℝ, ∫ w, dot a (path b (n + 1) d (Fin.cons t w) 0)
          ∂(Measure.pi fun _ : Fin n => tripleMeasure) = dot a (hop b d t) := by
        intro t
        simp [path]
      simp only [e]
      rw [hop_mean hb hd]
      simp
    · have e : ∀ᵐ t ∂tripleMeasure, ∫ w, dot a (path b (n + 1) d (Fin.cons t w) j.succ)
          ∂(Measure.pi fun _ : Fin n => tripleMeasure) = lang b ^ ((j : ℕ) + 1) * dot a (hop b d t) := by
        filter_upwards [hop_unit hb hd] with t ht
        have := ih ht a j
        simpa [path] using this
      rw [integral_congr_ae e, integral_const_mul, hop_mean hb hd, Fin.val_succ, pow_succ _ ((j : ℕ) + 1)]
      ring

/-- correlations -/
theorem path_corr {b : ℝ} (hb : b ≠ 0) (n : ℕ) : ∀ {d : V3 ℝ}, dot d d = 1 → ∀ (i j : Fin n), i ≤ j →
    ∫ w, dot (path b n d w i) (path b n d w j) ∂(Measure.pi fun _ => tripleMeasure) = lang b ^ ((j : ℕ) - i) := by
  induction n with
  | zero => intro d _ i; exact i.elim0
  | succ n ih =>
    intro d hd i j hij
    have m : Measurable fun w : Fin (n + 1) → ℝ × ℝ × ℝ => dot (path b (n + 1) d w i) (path b (n + 1) d w j) :=
      meas_dot ((measurable_pi_apply i).comp (meas_path' b (n + 1) d))
        ((measurable_pi_apply j).comp (meas_path' b (n + 1) d))
    have hi : Integrable (fun w => dot (path b (n + 1) d w i) (path b (n + 1) d w j))
        (Measure.pi fun _ : Fin (n + 1) => tripleMeasure) := by
      refine Integrable.of_bound m.aestronglyMeasurable 1 ?_
      filter_upwards [path_unit hb (n + 1) hd] with w hw
      refine (abs_dot_le (hw j)).trans ?_
      rw [len, hw i, Real.sqrt_one]
    rw [integral_cons _ n m hi]
    revert hij
    refine Fin.cases ?_ (fun i' => ?_) i
    · intro hij
      refine Fin.cases ?_ (fun j' => ?_) j
      · have e : ∀ᵐ t ∂tripleMeasure, ∫ w, dot (path b (n + 1) d (Fin.cons t w) 0) (path b (n + 1) d (Fin.cons t w) 0)
            ∂(Measure.pi fun _ : Fin n => tripleMeasure) = 1 := by
          filter_upwards [hop_unit hb hd] with t ht
          simp [path, ht]
        rw [integral_congr_ae e]
        simp
      · have e : ∀ᵐ t ∂tripleMeasure, ∫ w, dot (path b (n + 1) d (Fin.cons t w) 0)
            (path b (n + 1) d (Fin.cons t w) j'.succ) ∂(Measure.pi fun _ : Fin n => tripleMeasure)
            = lang b ^ ((j' : ℕ) + 1) := by
          filter_upwards [hop_unit hb hd] with t ht
          have := path_mean hb n ht (hop b d t) j'
          rw [ht, mul_one] at this
          simpa [path] using this
        rw [integral_congr_ae e]
        simp
    · intro hij
      obtain ⟨j', rfl⟩ : ∃ j' : Fin n, j = j'.succ := by
        refine ⟨j.pred ?_, (Fin.succ_pred j _).symm⟩
        rintro rfl
        exact absurd hij (by simp)
      have e : ∀ᵐ t ∂tripleMeasure, ∫ w, dot (path b (n + 1) d (Fin.cons t w) i'.succ)
          (path b (n + 1) d (Fin.cons t w) j'.succ) ∂(Measure.pi fun _ : Fin n => tripleMeasure)
          = lang b ^ ((j' : ℕ) - i') := by
        filter_upwards [hop_unit hb hd] with t ht
        have := ih ht i' j' (by simpa using hij)
        simpa [path] using this
      rw [integral_congr_ae e]
      simp

end Verif
