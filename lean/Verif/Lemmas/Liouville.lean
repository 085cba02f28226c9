/-
Helper lemmas: the time-step preserves the uniform distribution of the spins, and for almost all spins
no local field ever vanishes.
-/
import Verif.Lemmas.Uniform
import Verif.Lemmas.Regular

namespace Verif

set_option linter.unusedSectionVars false

open Spec MeasureTheory Function
open scoped ENNReal

/-! ### Changing one coordinate by a map that preserves its distribution -/

section
variable {X : Type} [MeasurableSpace X] {L : ℕ} {σ : Measure X} [IsProbabilityMeasure σ]

theorem site_preserving {g : (Fin L → X) → X → X} (i : Fin L)
    (hg : Measurable fun p : (Fin L → X) × X => g p.1 p.2) (hi : ∀ v y x, g (update v i y) x = g v x)
    (hp : ∀ v, ∀ h : X → ℝ≥0∞, Measurable h → ∫⁻ x, h (g v x) ∂σ = ∫⁻ x, h x ∂σ) :
    MeasurePreserving (fun v => update v i (g v (v i))) (Measure.pi fun _ => σ) (Measure.pi fun _ => σ) := by
  have hm : Measurable fun v : Fin L → X => update v i (g v (v i)) :=
    measurable_update'.comp (measurable_id.prodMk (hg.comp (measurable_id.prodMk (measurable_pi_apply i))))
  refine ⟨hm, Measure.ext_of_lintegral _ fun f hf => ?_⟩
  rw [lintegral_map hf hm]
  refine lintegral_eq_of_lmarginal_eq {i} (hf.comp hm) hf ?_
  funext v
  rw [lmarginal_singleton, lmarginal_singleton]
  simp only [update_idem, update_self, hi]
  exact hp v (fun x => f (update v i x)) (hf.comp (measurable_update v))

end

/-! ### Precession -/

section
variable {α : Type} [MeasurableSpace α] {a b : α → V3 ℝ}

theorem meas_add (ha : Measurable a) (hb : Measurable b) : Measurable fun t => Spec.add (a t) (b t) :=
  measurable_mk ((measurable_x.comp ha).add (measurable_x.comp hb))
    ((measurable_y.comp ha).add (measurable_y.comp hb)) ((measurable_z.comp ha).add (measurable_z.comp hb))

theorem meas_sub (ha : Measurable a) (hb : Measurable b) : Measurable fun t => Spec.sub (a t) (b t) :=
  measurable_mk ((measurable_x.comp ha).sub (measurable_x.comp hb))
    ((measurable_y.comp ha).sub (measurable_y.comp hb)) ((measurable_z.comp ha).sub (measurable_z.comp hb))

theorem meas_had (ha : Measurable a) (hb : Measurable b) : Measurable fun t => had (a t) (b t) :=
  measurable_mk ((measurable_x.comp ha).mul (measurable_x.comp hb))
    ((measurable_y.comp ha).mul (measurable_y.comp hb)) ((measurable_z.comp ha).mul (measurable_z.comp hb))

theorem meas_smul {r : α → ℝ} (hr : Measurable r) (hb : Measurable b) : Measurable fun t => Spec.smul (r t) (b t) :=
  measurable_mk (hr.mul (measurable_x.comp hb)) (hr.mul (measurable_y.comp hb)) (hr.mul (measurable_z.comp hb))

theorem meas_dot (ha : Measurable a) (hb : Measurable b) : Measurable fun t => dot (a t) (b t) :=
  (((measurable_x.comp ha).mul (measurable_x.comp hb)).add
    ((measurable_y.comp ha).mul (measurable_y.comp hb))).add ((measurable_z.comp ha).mul (measurable_z.comp hb))

theorem meas_cross (ha : Measurable a) (hb : Measurable b) : Measurable fun t => cross (a t) (b t) := by
  have a1 := measurable_x.comp ha
  have a2 := measurable_y.comp ha
  have a3 := measurable_z.comp ha
  have b1 := measurable_x.comp hb
  have b2 := measurable_y.comp hb
  have b3 := measurable_z.comp hb
  exact measurable_mk ((a2.mul b3).sub (a3.mul b2)) ((a3.mul b1).sub (a1.mul b3)) ((a1.mul b2).sub (a2.mul b1))

theorem meas_precess (ha : Measurable a) (hb : Measurable b) (t : ℝ) :
    Measurable fun x => precess (a x) (b x) t := by
  unfold precess
  have hl : Measurable fun x => len (b x) := measurable_len.comp hb
  have hn : Measurable fun x => Spec.smul (1 / len (b x)) (b x) := meas_smul (measurable_const.div hl) hb
  have hc : Measurable fun x => Real.cos (len (b x) * t) := Real.measurable_cos.comp (hl.mul_const t)
  have hs : Measurable fun x => Real.sin (len (b x) * t) := Real.measurable_sin.comp (hl.mul_const t)
  exact meas_sub (meas_add (meas_smul hc ha) (meas_smul ((measurable_const.sub hc).mul (meas_dot hn ha)) hn))
    (meas_smul hs (meas_cross hn ha))

end

theorem precess_orthogonal (Ω : V3 ℝ) (t : ℝ) : Orthogonal fun v => precess v Ω t := by
  refine ⟨fun a b => ?_, fun r a => ?_, fun a => len_precess a Ω t⟩
  · unfold precess
    ext <;> simp only [Spec.add, Spec.sub, Spec.smul, cross, dot] <;> ring
  · unfold precess
    ext <;> simp only [Spec.add, Spec.sub, Spec.smul, cross, dot] <;> ring

/-! ### Sub-steps -/

section
variable {L : ℕ}

/-- the spins as a function of the site number -/
def fld (v : Fin L → V3 ℝ) (i : ℕ) : V3 ℝ := if h : i < L then v ⟨i, h⟩ else zero

theorem fld_val (v : Fin L → V3 ℝ) (i : Fin L) : fld v i = v i := by
  unfold fld
  rw [dif_pos i.2]

theorem fld_update_ne (v : Fin L → V3 ℝ) (k : Fin L) (x : V3 ℝ) {i : ℕ} (h : i ≠ k) :
    fld (update v k x) i = fld v i := by
  unfold fld
  by_cases hi : i < L
  · rw [dif_pos hi, dif_pos hi, update_of_ne]
    intro e
    exact h (by rw [← e])
  · rw [dif_neg hi, dif_neg hi]

theorem fld_update_self (v : Fin L → V3 ℝ) (k : Fin L) (x : V3 ℝ) : fld (update v k x) k = x := by
  rw [fld_val, update_self]

theorem S_fld (c : SpinChain ℝ) (v : Fin L → V3 ℝ) : S (withSpins c v) = fld v := by
  funext i
  exact S_withSpins c v i

theorem meas_fld (i : ℕ) : Measurable fun v : Fin L → V3 ℝ => fld v i := by
  unfold fld
  by_cases h : i < L
  · simp only [h, dite_true]
    exact measurable_pi_apply _
  · simp only [h, dite_false]
    exact measurable_const

theorem meas_omega (m : ℕ) (J B : ℕ → V3 ℝ) (i : ℕ) : Measurable fun v : Fin L → V3 ℝ => omega m (fld v) J B i :=
  meas_sub (meas_add (meas_had measurable_const (meas_fld _)) (meas_had measurable_const (meas_fld _)))
    measurable_const

/-- all moving sites below `n` done -/
noncomputable def part (m par : ℕ) (J B : ℕ → V3 ℝ) (dt : ℝ) (n : ℕ) (v : Fin L → V3 ℝ) : Fin L → V3 ℝ :=
  fun i => if (i : ℕ) < n ∧ (i : ℕ) < m ∧ (i : ℕ) % 2 = par then precess (v i) (omega m (fld v) J B i) dt else v i

theorem fld_part_other {m par : ℕ} {J B : ℕ → V3 ℝ} {dt : ℝ} {n : ℕ} (v : Fin L → V3 ℝ) {i : ℕ} (h : i % 2 ≠ par) :
    fld (part m par J B dt n v) i = fld v i := by
  unfold fld part
  by_cases hi : i < L
  · rw [dif_pos hi, dif_pos hi, if_neg (fun hh => h hh.2.2)]
  · rw [dif_neg hi, dif_neg hi]

theorem part_preserving (l par : ℕ) (hl : 2 * l ≤ L) (J B : ℕ → V3 ℝ) (dt : ℝ) (n : ℕ) :
    MeasurePreserving (part (L := L) (2 * l) par J B dt n) (Measure.pi fun _ => sphereMeasure)
      (Measure.pi fun _ => sphereMeasure) := by
  induction n with
  | zero =>
    have : part (L := L) (2 * l) par J B dt 0 = id := by
      funext v i
      simp [part]
    rw [this]
    exact MeasurePreserving.id _
  | succ n ih =>
    by_cases hn : n < 2 * l ∧ n % 2 = par
    · have hnL : n < L := by omega
      have hleft : left (2 * l) n ≠ n := by have := left_par hn.1; omega
      have hright : right (2 * l) n ≠ n := by have := right_par hn.1; omega
      have h1 := site_preserving (L := L) (σ := sphereMeasure) (i := ⟨n, hnL⟩)
        (g := fun v x => precess x (omega (2 * l) (fld v) J B n) dt)
        (meas_precess measurable_snd ((meas_omega (2 * l) J B n).comp measurable_fst) dt)
        (fun v y x => by
          congr 1
          exact omega_congr (fld_update_ne v ⟨n, hnL⟩ y hleft) (fld_update_ne v ⟨n, hnL⟩ y hright))
        (fun v h hh => sphere_invariant (precess_orthogonal _ dt) hh)
      have h2 := h1.comp ih
      convert h2 using 1
      funext v i
      by_cases hin : i = ⟨n, hnL⟩
      · subst hin
        rw [comp_apply, update_self]
        have e : omega (2 * l) (fld (part (2 * l) par J B dt n v)) J B n = omega (2 * l) (fld v) J B n := by
          apply omega_congr
          · exact fld_part_other v (by have := left_par hn.1; omega)
          · exact fld_part_other v (by have := right_par hn.1; omega)
        rw [e]
        simp [part, hn.1, hn.2]
      · have hne : (i : ℕ) ≠ n := fun h => hin (Fin.ext h)
        rw [comp_apply, update_of_ne hin]
        unfold part
        by_cases hc : (i : ℕ) < n ∧ (i : ℕ) < 2 * l ∧ (i : ℕ) % 2 = par
        · rw [if_pos hc, if_pos ⟨by omega, hc.2⟩]
        · rw [if_neg hc, if_neg (fun h => hc ⟨by omega, h.2⟩)]
    · have : part (L := L) (2 * l) par J B dt (n + 1) = part (2 * l) par J B dt n := by
        funext v i
        unfold part
        by_cases hc : (i : ℕ) < n ∧ (i : ℕ) < 2 * l ∧ (i : ℕ) % 2 = par
        · rw [if_pos hc, if_pos ⟨by omega, hc.2⟩]
        · rw [if_neg hc, if_neg (fun h => hc ⟨by
            have : (i : ℕ) ≠ n := fun e => hn ⟨e ▸ h.2.1, e ▸ h.2.2⟩
            omega, h.2⟩)]
      rw [this]
      exact ih

/-- a sub-step on configurations -/
noncomputable def subFin (m par : ℕ) (J B : ℕ → V3 ℝ) (dt : ℝ) (v : Fin L → V3 ℝ) : Fin L → V3 ℝ :=
  fun i => subStep m par J B dt (fld v) i

theorem subFin_preserving (l par : ℕ) (hl : 2 * l ≤ L) (J B : ℕ → V3 ℝ) (dt : ℝ) :
    MeasurePreserving (subFin (L := L) (2 * l) par J B dt) (Measure.pi fun _ => sphereMeasure)
      (Measure.pi fun _ => sphereMeasure) := by
  have h := part_preserving (L := L) l par hl J B dt L
  convert h using 1
  funext v i
  unfold subFin part subStep
  simp only [i.2, true_and, fld_val]

theorem fld_subFin {l par : ℕ} (hl : 2 * l ≤ L) (J B : ℕ → V3 ℝ) (dt : ℝ) (v : Fin L → V3 ℝ) :
    fld (subFin (2 * l) par J B dt v) = subStep (2 * l) par J B dt (fld v) := by
  funext i
  by_cases hi : i < L
  · rw [show fld (subFin (2 * l) par J B dt v) i = subFin (2 * l) par J B dt v ⟨i, hi⟩ from
      fld_val _ ⟨i, hi⟩]
    rfl
  · rw [subStep_neg (by omega)]
    unfold fld
    rw [dif_neg hi, dif_neg hi]

/-- a time-step on configurations -/
noncomputable def stepFin (m : ℕ) (J B : ℕ → V3 ℝ) (dt : ℝ) (v : Fin L → V3 ℝ) : Fin L → V3 ℝ :=
  fun i => step m J B dt (fld v) i

theorem stepFin_eq {l : ℕ} (hl : 2 * l ≤ L) (J B : ℕ → V3 ℝ) (dt : ℝ) :
    stepFin (L := L) (2 * l) J B dt
      = subFin (2 * l) 0 J B (dt / 2) ∘ subFin (2 * l) 1 J B dt ∘ subFin (2 * l) 0 J B (dt / 2) := by
  funext v i
  unfold stepFin step
  rw [← fld_subFin hl, ← fld_subFin hl]
  rfl

theorem fld_stepFin {l : ℕ} (hl : 2 * l ≤ L) (J B : ℕ → V3 ℝ) (dt : ℝ) (v : Fin L → V3 ℝ) :
    fld (stepFin (2 * l) J B dt v) = step (2 * l) J B dt (fld v) := by
  rw [stepFin_eq hl]
  simp only [comp_apply, fld_subFin hl]
  rfl

theorem stepFin_preserving (l : ℕ) (hl : 2 * l ≤ L) (J B : ℕ → V3 ℝ) (dt : ℝ) :
    MeasurePreserving (stepFin (L := L) (2 * l) J B dt) (Measure.pi fun _ => sphereMeasure)
      (Measure.pi fun _ => sphereMeasure) := by
  rw [stepFin_eq hl]
  exact (subFin_preserving l 0 hl J B (dt / 2)).comp
    ((subFin_preserving l 1 hl J B dt).comp (subFin_preserving l 0 hl J B (dt / 2)))

/-! ### Local fields vanish only on a null set -/

theorem height_null (a : ℝ) : sphereMeasure {x | x.z = a} = 0 := by
  have hm : MeasurableSet {x : V3 ℝ | x.z = a} := measurable_z (measurableSet_singleton a)
  rw [← lintegral_indicator_one hm, ← lintegral_sphere (measurable_one.indicator hm)]
  have : ∀ u1 : ℝ, ∫⁻ u2 in Set.Ico (0 : ℝ) 1, ({x : V3 ℝ | x.z = a}).indicator 1 (spherePoint u1 u2) = 0 := by
    intro u1
    refine le_antisymm ?_ zero_le
    calc ∫⁻ u2 in Set.Ico (0 : ℝ) 1, ({x : V3 ℝ | x.z = a}).indicator 1 (spherePoint u1 u2)
        ≤ ∫⁻ u2 : ℝ, ({(1 - a) / 2} : Set ℝ).indicator 1 u2 := by
          refine (setLIntegral_le_lintegral _ _).trans (lintegral_mono fun u2 => ?_)
          by_cases h : spherePoint u1 u2 ∈ {x : V3 ℝ | x.z = a}
          · have h' : 1 - 2 * u2 = a := h
            have : u2 = (1 - a) / 2 := by linarith
            rw [Set.indicator_of_mem h, Set.indicator_of_mem (by simp [this])]
            simp
          · rw [Set.indicator_of_notMem h]
            exact zero_le
      _ = 0 := by
          rw [lintegral_indicator_one (measurableSet_singleton _)]
          simp
  simp only [this]
  simp

theorem perm_orthogonal : Orthogonal fun v => ⟨v.y, v.z, v.x⟩ :=
  ⟨fun _ _ => rfl, fun _ _ => rfl, fun a => by
    unfold len dot
    congr 1
    ring⟩

theorem shift_null {P : V3 ℝ → Prop} (hP : MeasurableSet {x | P x}) (h : sphereMeasure {x | P x} = 0) :
    sphereMeasure {x : V3 ℝ | P ⟨x.y, x.z, x.x⟩} = 0 := by
  have hm : MeasurableSet {x : V3 ℝ | P ⟨x.y, x.z, x.x⟩} := perm_orthogonal.measurable hP
  have e := sphere_invariant perm_orthogonal (measurable_one.indicator hP)
  rw [lintegral_indicator_one hP, h] at e
  rw [← lintegral_indicator_one hm]
  exact e

theorem coord_null (a : ℝ) : sphereMeasure {x | x.z = a} = 0 ∧ sphereMeasure {x | x.x = a} = 0
    ∧ sphereMeasure {x | x.y = a} = 0 := by
  have hz := height_null a
  have hx := shift_null (P := fun x => x.z = a) (measurable_z (measurableSet_singleton a)) hz
  have hy := shift_null (P := fun x => x.x = a) (measurable_x (measurableSet_singleton a)) hx
  exact ⟨hz, hx, hy⟩

/-- an equation `j x = w` has almost no solutions -/
theorem affine_null {j : V3 ℝ} (hj : j ≠ zero) (w : V3 ℝ) : sphereMeasure {x | had j x = w} = 0 := by
  by_cases h1 : j.x = 0
  · by_cases h2 : j.y = 0
    · have h3 : j.z ≠ 0 := fun h3 => hj (by ext <;> assumption)
      refine measure_mono_null (fun x hx => ?_) (coord_null (w.z / j.z)).1
      have : j.z * x.z = w.z := congrArg V3.z hx
      show x.z = w.z / j.z
      rw [← this]
      field_simp
    · refine measure_mono_null (fun x hx => ?_) (coord_null (w.y / j.y)).2.2
      have : j.y * x.y = w.y := congrArg V3.y hx
      show x.y = w.y / j.y
      rw [← this]
      field_simp
  · refine measure_mono_null (fun x hx => ?_) (coord_null (w.x / j.x)).2.1
    have : j.x * x.x = w.x := congrArg V3.x hx
    show x.x = w.x / j.x
    rw [← this]
    field_simp

theorem measurableSet_v3 (w : V3 ℝ) : MeasurableSet ({w} : Set (V3 ℝ)) := by
  have : ({w} : Set (V3 ℝ)) = ({x | x.x = w.x} ∩ {x | x.y = w.y}) ∩ {x | x.z = w.z} := by
    ext x
    simp only [Set.mem_singleton_iff, Set.mem_inter_iff, Set.mem_ofPred_eq]
    constructor
    · rintro rfl
      exact ⟨⟨rfl, rfl⟩, rfl⟩
    · rintro ⟨⟨h1, h2⟩, h3⟩
      ext <;> assumption
  rw [this]
  exact ((measurable_x (measurableSet_singleton _)).inter (measurable_y (measurableSet_singleton _))).inter
    (measurable_z (measurableSet_singleton _))

theorem field_null {l : ℕ} (hl : 2 * l ≤ L) (h2 : 2 ≤ l) {J B : ℕ → V3 ℝ} {i : ℕ} (hi : i < 2 * l)
    (hJ : J i ≠ zero) : (Measure.pi fun _ : Fin L => sphereMeasure) {v | omega (2 * l) (fld v) J B i = zero} = 0 := by
  have hr : right (2 * l) i < L := (right_lt' (by omega)).trans_le hl
  have hne : left (2 * l) i ≠ right (2 * l) i := by
    unfold left right
    by_cases h0 : i = 0
    · subst h0
      rw [left_zero (by omega), right_lt (by omega)]
      omega
    · rw [left_pos (by omega) hi]
      by_cases h1 : i + 1 = 2 * l
      · rw [h1, Nat.mod_self]
        omega
      · rw [right_lt (by omega)]
        omega
  have hm : MeasurableSet {v : Fin L → V3 ℝ | omega (2 * l) (fld v) J B i = zero} :=
    meas_omega (2 * l) J B i (measurableSet_v3 zero)
  rw [← lintegral_indicator_one hm]
  have key : ∫⁻ v, ({v : Fin L → V3 ℝ | omega (2 * l) (fld v) J B i = zero}).indicator 1 v
      ∂(Measure.pi fun _ : Fin L => sphereMeasure) = ∫⁻ v, (0 : ℝ≥0∞) ∂(Measure.pi fun _ : Fin L => sphereMeasure) := by
    refine lintegral_eq_of_lmarginal_eq {⟨right (2 * l) i, hr⟩} (measurable_one.indicator hm) measurable_const ?_
    funext v
    rw [lmarginal_singleton, lmarginal_singleton, lintegral_zero]
    have hset : (fun x => ({v : Fin L → V3 ℝ | omega (2 * l) (fld v) J B i = zero}).indicator
        (1 : (Fin L → V3 ℝ) → ℝ≥0∞) (update v ⟨right (2 * l) i, hr⟩ x))
        = ({x | had (J i) x = Spec.sub (B i) (had (J (left (2 * l) i)) (fld v (left (2 * l) i)))} :
          Set (V3 ℝ)).indicator 1 := by
      funext x
      have hiff : update v ⟨right (2 * l) i, hr⟩ x ∈ {v : Fin L → V3 ℝ | omega (2 * l) (fld v) J B i = zero}
          ↔ x ∈ {x | had (J i) x = Spec.sub (B i) (had (J (left (2 * l) i)) (fld v (left (2 * l) i)))} := by
        show omega (2 * l) (fld (update v ⟨right (2 * l) i, hr⟩ x)) J B i = zero ↔ had (J i) x = _
        unfold omega
        rw [fld_update_ne v ⟨right (2 * l) i, hr⟩ x hne, fld_update_self v ⟨right (2 * l) i, hr⟩ x]
        constructor
        · intro h
          have hx := congrArg V3.x h
          have hy := congrArg V3.y h
          have hz := congrArg V3.z h
          simp only [Spec.sub, Spec.add, had, zero] at hx hy hz ⊢
          ext <;> dsimp only <;> linarith
        · intro h
          have hx := congrArg V3.x h
          have hy := congrArg V3.y h
          have hz := congrArg V3.z h
          simp only [Spec.sub, Spec.add, had, zero] at hx hy hz ⊢
          ext <;> dsimp only <;> linarith
      by_cases hc : update v ⟨right (2 * l) i, hr⟩ x ∈ {v : Fin L → V3 ℝ | omega (2 * l) (fld v) J B i = zero}
      · rw [Set.indicator_of_mem hc, Set.indicator_of_mem (hiff.1 hc)]
        rfl
      · rw [Set.indicator_of_notMem hc, Set.indicator_of_notMem (fun h => hc (hiff.2 h))]
    dsimp only
    rw [hset, lintegral_indicator_one, affine_null hJ]
    exact (meas_had (measurable_const (a := J i)) measurable_id) (measurableSet_v3 _)
  rw [key, lintegral_zero]

/-- almost every configuration meets no vanishing field in a step -/
theorem regular_ae {l : ℕ} (hl : 2 * l ≤ L) (h2 : 2 ≤ l) {J B : ℕ → V3 ℝ} (hJ : ∀ i < 2 * l, J i ≠ zero) (dt : ℝ) :
    ∀ᵐ v ∂(Measure.pi fun _ : Fin L => sphereMeasure), Regular (2 * l) J B dt (fld v) := by
  have h0 : ∀ᵐ v ∂(Measure.pi fun _ : Fin L => sphereMeasure), ∀ i < 2 * l, omega (2 * l) (fld v) J B i ≠ zero := by
    rw [ae_all_iff]
    intro i
    by_cases hi : i < 2 * l
    · have := field_null (B := B) hl h2 hi (hJ i hi)
      exact (measure_eq_zero_iff_ae_notMem.1 this).mono fun v hv _ => hv
    · exact Filter.Eventually.of_forall fun v h => absurd h hi
  have p1 := subFin_preserving (L := L) l 0 hl J B (dt / 2)
  have p2 := (subFin_preserving (L := L) l 1 hl J B dt).comp p1
  filter_upwards [h0, p1.quasiMeasurePreserving.ae h0, p2.quasiMeasurePreserving.ae h0] with v a1 a2 a3
  simp only [comp_apply, fld_subFin hl] at a2 a3
  exact ⟨fun i hi _ => a1 i hi, fun i hi _ => a2 i hi, fun i hi _ => a3 i hi⟩

end

end Verif
