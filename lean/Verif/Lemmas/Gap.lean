/-
Helper lemmas: the variance of a function of a Markov chain with bounded transition densities is at most a constant
times the sum of the squared changes under independent replacement of single entries, whatever the length of the chain.
-/
import Verif.Lemmas.Dirichlet
import Mathlib.MeasureTheory.Constructions.Pi
import Mathlib.MeasureTheory.Integral.Prod
import Mathlib.MeasureTheory.Integral.Pi
import Mathlib.Tactic.Linarith
import Mathlib.Tactic.FieldSimp
import Mathlib.Tactic.Positivity

set_option linter.unusedSectionVars false

namespace Verif.Gap

open MeasureTheory Function

section
variable {ι X : Type} [DecidableEq ι] [MeasurableSpace X] {σ : Measure X} [IsProbabilityMeasure σ]

/-- bounded and measurable -/
structure Nice {A : Type} [MeasurableSpace A] (f : A → ℝ) : Prop where
  meas : Measurable f
  bdd : ∃ C, ∀ x, |f x| ≤ C

section nice
variable {A B : Type} [MeasurableSpace A] [MeasurableSpace B] {f g : A → ℝ}

theorem Nice.int (h : Nice f) (μ : Measure A) [IsFiniteMeasure μ] : Integrable f μ := by
  obtain ⟨C, hC⟩ := h.bdd
  exact Integrable.of_bound h.meas.aestronglyMeasurable C (Filter.Eventually.of_forall hC)

theorem Nice.const (c : ℝ) : Nice fun _ : A => c := ⟨measurable_const, |c|, fun _ => le_rfl⟩

theorem Nice.add (hf : Nice f) (hg : Nice g) : Nice fun x => f x + g x := by
  obtain ⟨C, hC⟩ := hf.bdd
  obtain ⟨D, hD⟩ := hg.bdd
  exact ⟨hf.meas.add hg.meas, C + D, fun x => (abs_add_le _ _).trans (add_le_add (hC x) (hD x))⟩

theorem Nice.mul (hf : Nice f) (hg : Nice g) : Nice fun x => f x * g x := by
  obtain ⟨C, hC⟩ := hf.bdd
  obtain ⟨D, hD⟩ := hg.bdd
  refine ⟨hf.meas.mul hg.meas, C * D, fun x => ?_⟩
  rw [abs_mul]
  exact mul_le_mul (hC x) (hD x) (abs_nonneg _) ((abs_nonneg _).trans (hC x))

theorem Nice.sub (hf : Nice f) (hg : Nice g) : Nice fun x => f x - g x := by
  have h := hf.add ((Nice.const (-1)).mul hg)
  have e : (fun x => f x - g x) = fun x => f x + -1 * g x := by
    funext x
    ring
  rw [e]
  exact h

theorem Nice.sq (hf : Nice f) : Nice fun x => f x ^ 2 := by
  have e : (fun x => f x ^ 2) = fun x => f x * f x := by
    funext x
    ring
  rw [e]
  exact hf.mul hf

theorem Nice.comp (hf : Nice f) {u : B → A} (hu : Measurable u) : Nice fun x => f (u x) := by
  obtain ⟨C, hC⟩ := hf.bdd
  exact ⟨hf.meas.comp hu, C, fun x => hC _⟩

theorem Nice.integral {F : A × B → ℝ} (hF : Nice F) (μ : Measure B) [IsProbabilityMeasure μ] : Nice fun x => ∫ y, F (x, y) ∂μ := by
  obtain ⟨C, hC⟩ := hF.bdd
  refine ⟨(hF.meas.stronglyMeasurable.integral_prod_right' (ν := μ)).measurable, C, fun x => ?_⟩
  have := norm_integral_le_of_norm_le_const (μ := μ) (f := fun y => F (x, y)) (C := C) (Filter.Eventually.of_forall fun y => hC (x, y))
  simpa using this

end nice

/-- weighted Cauchy-Schwarz inequality -/
theorem weighted_sq {A : Type} [MeasurableSpace A] {μ : Measure A} [IsProbabilityMeasure μ] {g φ : A → ℝ} (hg : Nice g) (hφ : Nice φ)
    (g0 : ∀ x, 0 ≤ g x) : (∫ x, g x * φ x ∂μ) ^ 2 ≤ (∫ x, g x ∂μ) * ∫ x, g x * φ x ^ 2 ∂μ := by
  set m := ∫ x, g x ∂μ with hm
  set b := ∫ x, g x * φ x ∂μ with hb
  set d := ∫ x, g x * φ x ^ 2 ∂μ with hd
  have m0 : 0 ≤ m := integral_nonneg g0
  have d0 : 0 ≤ d := integral_nonneg fun x => mul_nonneg (g0 x) (sq_nonneg _)
  have key : ∀ t : ℝ, 0 ≤ d - 2 * t * b + t ^ 2 * m := fun t => by
    have h0 : 0 ≤ ∫ x, g x * (φ x - t) ^ 2 ∂μ := integral_nonneg fun x => mul_nonneg (g0 x) (sq_nonneg _)
    have e : ∫ x, g x * (φ x - t) ^ 2 ∂μ = d - 2 * t * b + t ^ 2 * m := by
      have e1 : ∀ x, g x * (φ x - t) ^ 2 = (g x * φ x ^ 2 + (-(2 * t)) * (g x * φ x)) + t ^ 2 * g x := fun x => by ring
      simp only [e1]
      rw [integral_add, integral_add, integral_const_mul, integral_const_mul]
      · ring
      · exact (hg.mul hφ.sq).int μ
      · exact ((Nice.const _).mul (hg.mul hφ)).int μ
      · exact ((hg.mul hφ.sq).add ((Nice.const _).mul (hg.mul hφ))).int μ
      · exact ((Nice.const _).mul hg).int μ
    rwa [e] at h0
  rcases eq_or_lt_of_le m0 with h | h
  · have h1 := key (d + 1)
    have h2 := key (-(d + 1))
    rw [← h] at h1 h2 ⊢
    have hb0 : b = 0 := by
      by_contra hne
      have k1 := key ((d + 1) / b)
      rw [← h, mul_zero, add_zero, mul_assoc, div_mul_cancel₀ _ hne] at k1
      linarith
    rw [hb0]
    simp
  · have := key (b / m)
    have e : d - 2 * (b / m) * b + (b / m) ^ 2 * m = d - b ^ 2 / m := by field_simp; ring
    rw [e, sub_nonneg, div_le_iff₀ h] at this
    linarith

/-- transition densities between `p` and `1/p` -/
structure Kern (σ : Measure X) (p : ℝ) (K : ι → (ι → X) → X → ℝ) : Prop where
  p0 : 0 < p
  p1 : p ≤ 1 / 2
  meas : ∀ i, Measurable fun q : (ι → X) × X => K i q.1 q.2
  lo : ∀ i x y, p ≤ K i x y
  hi : ∀ i x y, K i x y ≤ p⁻¹
  one : ∀ i x, ∫ y, K i x y ∂σ = 1

/-- conditional mean over entry `i` -/
noncomputable def E (σ : Measure X) (K : ι → (ι → X) → X → ℝ) (i : ι) (f : (ι → X) → ℝ) (x : ι → X) : ℝ :=
  ∫ y, K i x y * f (update x i y) ∂σ

/-- conditional mean over the entries in `l`, the first one being drawn first -/
noncomputable def T (σ : Measure X) (K : ι → (ι → X) → X → ℝ) (l : List ι) (f : (ι → X) → ℝ) : (ι → X) → ℝ :=
  l.foldr (fun i g => E σ K i g) f

/-- mean squared change when entry `i` is replaced by an independent one -/
noncomputable def G (σ : Measure X) (i : ι) (f : (ι → X) → ℝ) (x : ι → X) : ℝ := ∫ y, (f (update x i y) - f x) ^ 2 ∂σ

/-- the transition to `i` does not depend on entry `j` -/
def Free (K : ι → (ι → X) → X → ℝ) (i j : ι) : Prop := ∀ x z, K i (update x j z) = K i x

/-- `l` is a line of entries: the transition to one depends on the one before it only (and on entries outside `l`) -/
def Line (K : ι → (ι → X) → X → ℝ) : List ι → Prop
  | [] => True
  | i :: l => i ∉ l ∧ (∀ j ∈ i :: l, Free K i j) ∧ (∀ m ∈ l.tail, Free K m i) ∧ Line K l

variable {K : ι → (ι → X) → X → ℝ} {p : ℝ}

theorem T_cons (i : ι) (l : List ι) (f : (ι → X) → ℝ) : T σ K (i :: l) f = E σ K i (T σ K l f) := rfl

theorem Nice.slice {f : (ι → X) → ℝ} (hf : Nice f) (x : ι → X) (i : ι) : Nice fun y => f (update x i y) :=
  hf.comp (measurable_update x)

theorem upd_meas (i : ι) : Measurable fun q : (ι → X) × X => update q.1 i q.2 := measurable_update'

variable (H : Kern σ p K)
include H

theorem Kern.nice (i : ι) : Nice fun q : (ι → X) × X => K i q.1 q.2 :=
  ⟨H.meas i, p⁻¹, fun q => by
    rw [abs_of_nonneg (H.p0.le.trans (H.lo i _ _))]
    exact H.hi i _ _⟩

theorem Kern.nice' (i : ι) (x : ι → X) : Nice (K i x) := (H.nice i).comp (measurable_const.prodMk measurable_id)

theorem Kern.nonneg (i : ι) (x : ι → X) (y : X) : 0 ≤ K i x y := H.p0.le.trans (H.lo i x y)

theorem E_nice {f : (ι → X) → ℝ} (hf : Nice f) (i : ι) : Nice (E σ K i f) :=
  Nice.integral (F := fun q : (ι → X) × X => K i q.1 q.2 * f (update q.1 i q.2)) ((H.nice i).mul (hf.comp (upd_meas i))) σ

theorem T_nice {f : (ι → X) → ℝ} (hf : Nice f) (l : List ι) : Nice (T σ K l f) := by
  induction l with
  | nil => exact hf
  | cons i l ih => exact E_nice H ih i

omit H in
theorem G_nice {f : (ι → X) → ℝ} (hf : Nice f) (i : ι) : Nice (G σ i f) :=
  Nice.integral (F := fun q : (ι → X) × X => (f (update q.1 i q.2) - f q.1) ^ 2) ((hf.comp (upd_meas i)).sub (hf.comp measurable_fst)).sq σ

theorem E_int {f : (ι → X) → ℝ} (hf : Nice f) (i : ι) (x : ι → X) : Integrable (fun y => K i x y * f (update x i y)) σ :=
  ((H.nice' i x).mul (hf.slice x i)).int σ

theorem E_add {f g : (ι → X) → ℝ} (hf : Nice f) (hg : Nice g) (i : ι) (x : ι → X) :
    E σ K i (fun x => f x + g x) x = E σ K i f x + E σ K i g x := by
  unfold E
  rw [← integral_add (E_int H hf i x) (E_int H hg i x)]
  simp only [mul_add]

omit H in
theorem E_mul (c : ℝ) (f : (ι → X) → ℝ) (i : ι) (x : ι → X) : E σ K i (fun x => c * f x) x = c * E σ K i f x := by
  unfold E
  rw [← integral_const_mul]
  congr 1
  funext y
  ring

theorem E_sub {f g : (ι → X) → ℝ} (hf : Nice f) (hg : Nice g) (i : ι) (x : ι → X) :
    E σ K i (fun x => f x - g x) x = E σ K i f x - E σ K i g x := by
  unfold E
  rw [← integral_sub (E_int H hf i x) (E_int H hg i x)]
  simp only [mul_sub]

theorem E_mono {f g : (ι → X) → ℝ} (hf : Nice f) (hg : Nice g) (h : ∀ x, f x ≤ g x) (i : ι) (x : ι → X) :
    E σ K i f x ≤ E σ K i g x :=
  integral_mono (E_int H hf i x) (E_int H hg i x) fun y => mul_le_mul_of_nonneg_left (h _) (H.nonneg i x y)

theorem E_sq {f : (ι → X) → ℝ} (hf : Nice f) (i : ι) (x : ι → X) : E σ K i f x ^ 2 ≤ E σ K i (fun x => f x ^ 2) x := by
  have := weighted_sq (μ := σ) (H.nice' i x) (hf.slice x i) (H.nonneg i x)
  rwa [H.one, one_mul] at this

theorem T_add {f g : (ι → X) → ℝ} (hf : Nice f) (hg : Nice g) (l : List ι) (x : ι → X) :
    T σ K l (fun x => f x + g x) x = T σ K l f x + T σ K l g x := by
  induction l generalizing x with
  | nil => rfl
  | cons i l ih =>
    rw [T_cons, T_cons, T_cons, ← E_add H (T_nice H hf l) (T_nice H hg l)]
    unfold E
    simp only [ih]

theorem T_sub {f g : (ι → X) → ℝ} (hf : Nice f) (hg : Nice g) (l : List ι) (x : ι → X) :
    T σ K l (fun x => f x - g x) x = T σ K l f x - T σ K l g x := by
  induction l generalizing x with
  | nil => rfl
  | cons i l ih =>
    rw [T_cons, T_cons, T_cons, ← E_sub H (T_nice H hf l) (T_nice H hg l)]
    unfold E
    simp only [ih]

theorem T_mono {f g : (ι → X) → ℝ} (hf : Nice f) (hg : Nice g) (h : ∀ x, f x ≤ g x) (l : List ι) (x : ι → X) :
    T σ K l f x ≤ T σ K l g x := by
  induction l generalizing x with
  | nil => exact h x
  | cons i l ih => exact E_mono H (T_nice H hf l) (T_nice H hg l) ih i x

theorem T_sq {f : (ι → X) → ℝ} (hf : Nice f) (l : List ι) (x : ι → X) : T σ K l f x ^ 2 ≤ T σ K l (fun x => f x ^ 2) x := by
  induction l generalizing x with
  | nil => exact le_rfl
  | cons i l ih => exact (E_sq H (T_nice H hf l) i x).trans (E_mono H (T_nice H hf l).sq (T_nice H hf.sq l) ih i x)

/-- conditional means of a mean over a parameter -/
theorem T_fubini {F : (ι → X) × X → ℝ} (hF : Nice F) (l : List ι) :
    (Nice fun q : (ι → X) × X => T σ K l (fun x => F (x, q.2)) q.1) ∧
    ∀ x, T σ K l (fun x => ∫ y, F (x, y) ∂σ) x = ∫ y, T σ K l (fun x => F (x, y)) x ∂σ := by
  induction l with
  | nil => exact ⟨hF, fun _ => rfl⟩
  | cons i l ih =>
    obtain ⟨h1, h2⟩ := ih
    have m3 : Nice fun r : ((ι → X) × X) × X => K i r.1.1 r.2 * T σ K l (fun x => F (x, r.1.2)) (update r.1.1 i r.2) := by
      have a1 : Measurable fun r : ((ι → X) × X) × X => (r.1.1, r.2) := (measurable_fst.comp measurable_fst).prodMk measurable_snd
      have a2 : Measurable fun r : ((ι → X) × X) × X => (update r.1.1 i r.2, r.1.2) :=
        ((upd_meas i).comp a1).prodMk (measurable_snd.comp measurable_fst)
      exact ((H.nice i).comp a1).mul (h1.comp a2)
    refine ⟨m3.integral σ, fun x => ?_⟩
    rw [T_cons]
    show ∫ z, K i x z * T σ K l (fun x => ∫ y, F (x, y) ∂σ) (update x i z) ∂σ
      = ∫ y, ∫ z, K i x z * T σ K l (fun x => F (x, y)) (update x i z) ∂σ ∂σ
    have m2 : Nice fun r : X × X => K i x r.2 * T σ K l (fun x => F (x, r.1)) (update x i r.2) :=
      m3.comp (u := fun r : X × X => ((x, r.1), r.2)) ((measurable_const.prodMk measurable_fst).prodMk measurable_snd)
    rw [integral_integral_swap (m2.int (σ.prod σ))]
    congr 1
    funext z
    rw [h2, ← integral_const_mul]

omit H in
theorem T_free {i : ι} {l : List ι} (h : ∀ m ∈ l, Free K m i) (hi : i ∉ l) (f : (ι → X) → ℝ) (x : ι → X) (y : X) :
    T σ K l f (update x i y) = T σ K l (fun x => f (update x i y)) x := by
  induction l generalizing x with
  | nil => rfl
  | cons m l ih =>
    have hm : m ≠ i := fun e => hi (by rw [e]; exact List.mem_cons_self)
    have := ih (fun m' hm' => h m' (List.mem_cons_of_mem _ hm')) fun hh => hi (List.mem_cons_of_mem _ hh)
    rw [T_cons, T_cons]
    unfold E
    congr 1
    funext z
    rw [h m List.mem_cons_self, update_comm hm.symm, this]

/-- the rate at which influences fade -/
noncomputable def fade (p : ℝ) : ℝ := 1 - p / 2

/-- squared changes of the entries of `l`, with fading weights -/
noncomputable def Ab (σ : Measure X) (K : ι → (ι → X) → X → ℝ) (p : ℝ) (f : (ι → X) → ℝ) : List ι → (ι → X) → ℝ
  | [] => fun _ => 0
  | i :: l => E σ K i fun x => T σ K l (G σ i f) x + fade p * Ab σ K p f l x

theorem Ab_nice {f : (ι → X) → ℝ} (hf : Nice f) (l : List ι) : Nice (Ab σ K p f l) := by
  induction l with
  | nil => exact Nice.const 0
  | cons i l ih => exact E_nice H ((T_nice H (G_nice hf i) l).add ((Nice.const _).mul ih)) i

/-- what replacing the first entry of a line does to the conditional mean over the others -/
theorem head_change {f : (ι → X) → ℝ} (hf : Nice f) {i : ι} {l : List ι} (hl : Line K (i :: l)) {ρ : X → ℝ} (hρ : Nice ρ)
    (ρ0 : ∀ y, 0 ≤ ρ y) (ρ1 : ∫ y, ρ y ∂σ = 1) (ρM : ∀ y, ρ y ≤ 2 / p) (x : ι → X) :
    ∫ y, ρ y * (T σ K l f (update x i y) - T σ K l f x) ^ 2 ∂σ
      ≤ 6 / p ^ 4 * (T σ K l (G σ i f) x + fade p * Ab σ K p f l x) := by
  have p0 := H.p0
  have p1 := H.p1
  have hC : 2 / p ≤ 6 / p ^ 4 := by
    rw [div_le_div_iff₀ p0 (by positivity)]
    have : p ^ 3 ≤ 1 := pow_le_one₀ p0.le (by linarith)
    nlinarith
  induction l generalizing i ρ x with
  | nil =>
    have h1 : ∫ y, ρ y * (f (update x i y) - f x) ^ 2 ∂σ ≤ ∫ y, 2 / p * (f (update x i y) - f x) ^ 2 ∂σ := by
      have n1 : Nice fun y => (f (update x i y) - f x) ^ 2 := ((hf.slice x i).sub (Nice.const _)).sq
      exact integral_mono ((hρ.mul n1).int σ) (((Nice.const _).mul n1).int σ) fun y => mul_le_mul_of_nonneg_right (ρM y) (sq_nonneg _)
    rw [integral_const_mul] at h1
    refine h1.trans ?_
    show 2 / p * G σ i f x ≤ 6 / p ^ 4 * (G σ i f x + fade p * 0)
    rw [mul_zero, add_zero]
    exact mul_le_mul_of_nonneg_right hC (integral_nonneg fun y => sq_nonneg _)
  | cons j l ih =>
    obtain ⟨hi, hfi, hm, hl'⟩ := hl
    have hij : i ≠ j := fun e => hi (by rw [e]; exact List.mem_cons_self)
    have hil : i ∉ l := fun e => hi (List.mem_cons_of_mem _ e)
    -- the pieces
    set Hh : X → ℝ := fun z => T σ K l f (update x j z) with hHh
    have nH : Nice Hh := (T_nice H hf l).slice x j
    have nT := T_nice H hf l
    have nU : Nice fun r : X × X => T σ K l f (update (update x i r.1) j r.2) :=
      nT.comp ((upd_meas j).comp (((measurable_update x).comp measurable_fst).prodMk measurable_snd) :
        Measurable fun r : X × X => update (update x i r.1) j r.2)
    have nK : Nice fun r : X × X => K j (update x i r.1) r.2 :=
      (H.nice j).comp (((measurable_update x).comp measurable_fst).prodMk measurable_snd :
        Measurable fun r : X × X => (update x i r.1, r.2))
    have nD : Nice fun r : X × X => T σ K l f (update (update x i r.1) j r.2) - Hh r.2 := nU.sub (nH.comp measurable_snd)
    have sl : ∀ {F : X × X → ℝ}, Nice F → ∀ y, Nice fun z => F (y, z) := fun hF y => hF.comp (measurable_const.prodMk measurable_id)
    set a : X → ℝ := fun y => ∫ z, K j (update x i y) z * (T σ K l f (update (update x i y) j z) - Hh z) ∂σ with ha
    set b : X → ℝ := fun y => ∫ z, (K j (update x i y) z - K j x z) * Hh z ∂σ with hb
    have na : Nice a := (nK.mul nD).integral σ
    have nb : Nice b := ((nK.sub ((H.nice' j x).comp measurable_snd)).mul (nH.comp measurable_snd) :
      Nice fun r : X × X => (K j (update x i r.1) r.2 - K j x r.2) * Hh r.2).integral σ
    have hu : ∀ y, T σ K (j :: l) f (update x i y) - T σ K (j :: l) f x = a y + b y := fun y => by
      show ∫ z, K j (update x i y) z * T σ K l f (update (update x i y) j z) ∂σ - ∫ z, K j x z * T σ K l f (update x j z) ∂σ = a y + b y
      rw [ha, hb]
      dsimp only
      rw [← integral_sub ((sl (nK.mul nU) y).int σ) (((H.nice' j x).mul nH).int σ),
        ← integral_add ((sl (nK.mul nD) y).int σ) ((((sl nK y).sub (H.nice' j x)).mul nH).int σ)]
      congr 1
      funext z
      ring
    -- the change of the entry itself
    have nF : Nice fun q : (ι → X) × X => (f (update q.1 i q.2) - f q.1) ^ 2 := ((hf.comp (upd_meas i)).sub (hf.comp measurable_fst)).sq
    have ha2 : ∀ y, a y ^ 2 ≤ p⁻¹ ^ 2 * T σ K (j :: l) (fun x => (f (update x i y) - f x) ^ 2) x := fun y => by
      have w1 := weighted_sq (μ := σ) (sl nK y) (sl nD y) (fun z => H.nonneg j _ z)
      dsimp only at w1
      rw [H.one, one_mul] at w1
      refine w1.trans ?_
      rw [T_cons]
      unfold E
      rw [← integral_const_mul]
      have nS : Nice (T σ K l fun x => (f (update x i y) - f x) ^ 2) :=
        T_nice H (nF.comp (measurable_id.prodMk measurable_const) : Nice fun x : ι → X => (f (update x i y) - f x) ^ 2) l
      refine integral_mono (((sl nK y).mul (sl nD y).sq).int σ) (((Nice.const _).mul ((H.nice' j x).mul (nS.slice x j))).int σ) fun z => ?_
      have e1 : T σ K l f (update (update x i y) j z) - Hh z = T σ K l (fun x => f (update x i y) - f x) (update x j z) := by
        have n1 : Nice fun x : ι → X => f (update x i y) :=
          hf.comp ((upd_meas i).comp (measurable_id.prodMk measurable_const) : Measurable fun x : ι → X => update x i y)
        rw [T_sub H n1 hf,
          update_comm hij, T_free (l := l) (fun m hm' => hm m hm') hil]
      have e2 : (T σ K l f (update (update x i y) j z) - Hh z) ^ 2 ≤ T σ K l (fun x => (f (update x i y) - f x) ^ 2) (update x j z) := by
        rw [e1]
        exact T_sq H ((hf.comp ((upd_meas i).comp (measurable_id.prodMk measurable_const) :
          Measurable fun x : ι → X => update x i y)).sub hf) l _
      have e3 : K j (update x i y) z ≤ p⁻¹ ^ 2 * K j x z := by
        have h1 := H.hi j (update x i y) z
        have h2 := H.lo j x z
        have h3 : p⁻¹ = p⁻¹ ^ 2 * p := by field_simp
        rw [h3] at h1
        exact h1.trans (mul_le_mul_of_nonneg_left h2 (by positivity))
      rw [← mul_assoc]
      exact mul_le_mul e3 e2 (sq_nonneg _) (mul_nonneg (by positivity) (H.nonneg j x z))
    have A1 : ∫ y, ρ y * a y ^ 2 ∂σ ≤ 2 / p * (p⁻¹ ^ 2 * T σ K (j :: l) (G σ i f) x) := by
      obtain ⟨f1, f2⟩ := T_fubini H nF (j :: l)
      have e : T σ K (j :: l) (G σ i f) x = ∫ y, T σ K (j :: l) (fun x => (f (update x i y) - f x) ^ 2) x ∂σ := f2 x
      rw [e, ← integral_const_mul, ← integral_const_mul]
      have n1 : Nice fun y => T σ K (j :: l) (fun x => (f (update x i y) - f x) ^ 2) x := f1.comp (measurable_const.prodMk measurable_id)
      refine integral_mono ((hρ.mul na.sq).int σ) (((Nice.const _).mul ((Nice.const _).mul n1)).int σ) fun y => ?_
      exact mul_le_mul (ρM y) (ha2 y) (sq_nonneg _) (by positivity)
    -- the change of the law of the next one
    have hb2 : ∀ y, b y ^ 2 ≤ ∫ z', K j x z' * ∫ z, (K j (update x i y) z - p) * (Hh z - Hh z') ^ 2 ∂σ ∂σ := fun y => by
      set k := K j (update x i y) with hk
      set k0 := K j x with hk0
      have nk : Nice fun z => k z - p := (H.nice' j _).sub (Nice.const p)
      have nk0 : Nice fun z => k0 z - p := (H.nice' j _).sub (Nice.const p)
      have k_p : ∀ z, 0 ≤ k z - p := fun z => sub_nonneg.2 (H.lo j _ z)
      have k0_p : ∀ z, 0 ≤ k0 z - p := fun z => sub_nonneg.2 (H.lo j _ z)
      have mk : ∫ z, (k z - p) ∂σ = 1 - p := by
        rw [integral_sub ((H.nice' j _).int σ) ((Nice.const p).int σ), H.one]
        simp
      have mk0 : ∫ z, (k0 z - p) ∂σ = 1 - p := by
        rw [integral_sub ((H.nice' j _).int σ) ((Nice.const p).int σ), H.one]
        simp
      have q0 : 0 < 1 - p := by linarith
      set cc : X → ℝ := fun z' => ∫ z, (k z - p) * (Hh z - Hh z') ∂σ with hcc
      have nd : Nice fun r : X × X => Hh r.2 - Hh r.1 := (nH.comp measurable_snd).sub (nH.comp measurable_fst)
      have nc : Nice cc := ((nk.comp measurable_snd).mul nd : Nice fun r : X × X => (k r.2 - p) * (Hh r.2 - Hh r.1)).integral σ
      have ecc : ∀ z', cc z' = (∫ z, (k z - p) * Hh z ∂σ) - (1 - p) * Hh z' := fun z' => by
        rw [hcc]
        simp only [mul_sub]
        rw [integral_sub ((nk.mul nH).int σ) ((nk.mul (Nice.const _)).int σ), integral_mul_const, mk]
      have eb : (1 - p) * b y = ∫ z', (k0 z' - p) * cc z' ∂σ := by
        simp only [ecc, mul_sub]
        rw [integral_sub ((nk0.mul (Nice.const _)).int σ) ((nk0.mul ((Nice.const _).mul nH)).int σ), integral_mul_const, mk0]
        have e1 : ∀ z', (k0 z' - p) * ((1 - p) * Hh z') = (1 - p) * ((k0 z' - p) * Hh z') := fun z' => by ring
        simp only [e1]
        rw [integral_const_mul, ← mul_sub, ← integral_sub ((nk.mul nH).int σ) ((nk0.mul nH).int σ), hb]
        dsimp only
        congr 2
        funext z
        ring
      have w1 := weighted_sq (μ := σ) nk0 nc k0_p
      rw [← eb, mk0] at w1
      have w2 : ∀ z', cc z' ^ 2 ≤ (1 - p) * ∫ z, (k z - p) * (Hh z - Hh z') ^ 2 ∂σ := fun z' => by
        have := weighted_sq (μ := σ) nk (sl nd z') k_p
        rwa [mk] at this
      have nI : Nice fun z' => ∫ z, (k z - p) * (Hh z - Hh z') ^ 2 ∂σ :=
        ((nk.comp measurable_snd).mul nd.sq : Nice fun r : X × X => (k r.2 - p) * (Hh r.2 - Hh r.1) ^ 2).integral σ
      have w3 : ∫ z', (k0 z' - p) * cc z' ^ 2 ∂σ ≤ (1 - p) * ∫ z', k0 z' * ∫ z, (k z - p) * (Hh z - Hh z') ^ 2 ∂σ ∂σ := by
        rw [← integral_const_mul]
        refine integral_mono ((nk0.mul nc.sq).int σ) (((Nice.const _).mul ((H.nice' j x).mul nI)).int σ) fun z' => ?_
        have i0 : 0 ≤ ∫ z, (k z - p) * (Hh z - Hh z') ^ 2 ∂σ := integral_nonneg fun z => mul_nonneg (k_p z) (sq_nonneg _)
        calc (k0 z' - p) * cc z' ^ 2 ≤ k0 z' * ((1 - p) * ∫ z, (k z - p) * (Hh z - Hh z') ^ 2 ∂σ) :=
              mul_le_mul (by linarith) (w2 z') (sq_nonneg _) (H.nonneg j x z')
          _ = _ := by ring
      have w4 := w1.trans (mul_le_mul_of_nonneg_left w3 q0.le)
      have e : ((1 - p) * b y) ^ 2 = (1 - p) * ((1 - p) * b y ^ 2) := by ring
      rw [e] at w4
      exact le_of_mul_le_mul_left (le_of_mul_le_mul_left w4 q0) q0
    -- averaged over the replacement
    set ρ' : X → ℝ := fun z => (1 - p)⁻¹ * ∫ y, ρ y * (K j (update x i y) z - p) ∂σ with hρ'
    have q0 : 0 < 1 - p := by linarith
    have nKs : Nice fun r : X × X => ρ r.2 * (K j (update x i r.2) r.1 - p) :=
      (hρ.comp measurable_snd).mul ((nK.comp (u := fun r : X × X => (r.2, r.1)) (measurable_snd.prodMk measurable_fst)).sub (Nice.const p))
    have nKs' : Nice fun r : X × X => ρ r.1 * (K j (update x i r.1) r.2 - p) :=
      (hρ.comp measurable_fst).mul (nK.sub (Nice.const p))
    have nρ' : Nice ρ' := (Nice.const _).mul (nKs.integral σ)
    have ρ'0 : ∀ z, 0 ≤ ρ' z := fun z =>
      mul_nonneg (inv_nonneg.2 q0.le) (integral_nonneg fun y => mul_nonneg (ρ0 y) (sub_nonneg.2 (H.lo j _ z)))
    have ρ'1 : ∫ z, ρ' z ∂σ = 1 := by
      rw [hρ', integral_const_mul, integral_integral_swap (nKs.int (σ.prod σ))]
      have e : ∀ y, ∫ z, ρ y * (K j (update x i y) z - p) ∂σ = ρ y * (1 - p) := fun y => by
        rw [integral_const_mul, integral_sub ((H.nice' j _).int σ) ((Nice.const p).int σ), H.one]
        simp
      simp only [e]
      rw [integral_mul_const, ρ1, one_mul, inv_mul_cancel₀ q0.ne']
    have ρ'M : ∀ z, ρ' z ≤ 2 / p := fun z => by
      have h1 : ∫ y, ρ y * (K j (update x i y) z - p) ∂σ ≤ ∫ y, ρ y * p⁻¹ ∂σ :=
        integral_mono ((sl nKs z).int σ) ((hρ.mul (Nice.const _)).int σ) fun y =>
          mul_le_mul_of_nonneg_left (by have := H.hi j (update x i y) z; linarith) (ρ0 y)
      rw [integral_mul_const, ρ1, one_mul] at h1
      have h2 : (1 - p)⁻¹ ≤ 2 := by
        rw [inv_le_comm₀ q0 two_pos]
        linarith
      calc ρ' z ≤ 2 * p⁻¹ := mul_le_mul h2 h1 (integral_nonneg fun y => mul_nonneg (ρ0 y) (sub_nonneg.2 (H.lo j _ z))) two_pos.le
        _ = 2 / p := by ring
    have nd : Nice fun r : X × X => Hh r.2 - Hh r.1 := (nH.comp measurable_snd).sub (nH.comp measurable_fst)
    have A2 : ∫ y, ρ y * b y ^ 2 ∂σ ≤ (1 - p) * ∫ z', K j x z' * ∫ z, ρ' z * (Hh z - Hh z') ^ 2 ∂σ ∂σ := by
      -- three variables: y, z', z
      have n3 : Nice fun r : (X × X) × X => (K j (update x i r.1.1) r.2 - p) * (Hh r.2 - Hh r.1.2) ^ 2 := by
        have b1 : Measurable fun r : (X × X) × X => (r.1.1, r.2) := (measurable_fst.comp measurable_fst).prodMk measurable_snd
        have b2 : Measurable fun r : (X × X) × X => (r.1.2, r.2) := (measurable_snd.comp measurable_fst).prodMk measurable_snd
        exact ((nK.sub (Nice.const p)).comp b1).mul (nd.sq.comp b2)
      have n2 : Nice fun r : X × X => ∫ z, (K j (update x i r.1) z - p) * (Hh z - Hh r.2) ^ 2 ∂σ := n3.integral σ
      have n1 : Nice fun r : X × X => K j x r.2 * ∫ z, (K j (update x i r.1) z - p) * (Hh z - Hh r.2) ^ 2 ∂σ :=
        ((H.nice' j x).comp measurable_snd).mul n2
      have s1 : ∫ y, ρ y * b y ^ 2 ∂σ
          ≤ ∫ y, ρ y * ∫ z', K j x z' * ∫ z, (K j (update x i y) z - p) * (Hh z - Hh z') ^ 2 ∂σ ∂σ ∂σ :=
        integral_mono ((hρ.mul nb.sq).int σ) ((hρ.mul (n1.integral σ)).int σ) fun y => mul_le_mul_of_nonneg_left (hb2 y) (ρ0 y)
      refine s1.trans (le_of_eq ?_)
      have s2 : ∀ y, ρ y * ∫ z', K j x z' * ∫ z, (K j (update x i y) z - p) * (Hh z - Hh z') ^ 2 ∂σ ∂σ
          = ∫ z', ρ y * (K j x z' * ∫ z, (K j (update x i y) z - p) * (Hh z - Hh z') ^ 2 ∂σ) ∂σ := fun y => by
        rw [integral_const_mul]
      simp only [s2]
      rw [integral_integral_swap (((hρ.comp measurable_fst).mul n1).int (σ.prod σ)), ← integral_const_mul]
      congr 1
      funext z'
      rw [mul_left_comm]
      have s3 : ∀ y, ρ y * (K j x z' * ∫ z, (K j (update x i y) z - p) * (Hh z - Hh z') ^ 2 ∂σ)
          = K j x z' * ∫ z, ρ y * (K j (update x i y) z - p) * (Hh z - Hh z') ^ 2 ∂σ := fun y => by
        rw [mul_left_comm, ← integral_const_mul]
        simp only [mul_assoc]
      simp only [s3]
      rw [integral_const_mul]
      have n4 : Nice fun r : X × X => ρ r.1 * (K j (update x i r.1) r.2 - p) * (Hh r.2 - Hh z') ^ 2 :=
        nKs'.mul ((nH.sub (Nice.const _)).sq.comp measurable_snd)
      congr 1
      rw [integral_integral_swap (n4.int (σ.prod σ)), ← integral_const_mul]
      congr 1
      funext z
      rw [integral_mul_const, hρ']
      dsimp only
      field_simp
    -- assembly
    have IH : ∀ z', ∫ z, ρ' z * (Hh z - Hh z') ^ 2 ∂σ ≤ 6 / p ^ 4 * (T σ K l (G σ j f) (update x j z') + fade p * Ab σ K p f l (update x j z')) :=
      fun z' => by
      have := ih (i := j) hl' nρ' ρ'0 ρ'1 ρ'M (update x j z')
      simpa only [update_idem] using this
    have nA : Nice fun x => T σ K l (G σ j f) x + fade p * Ab σ K p f l x := (T_nice H (G_nice hf j) l).add ((Nice.const _).mul (Ab_nice H hf l))
    have A3 : ∫ z', K j x z' * ∫ z, ρ' z * (Hh z - Hh z') ^ 2 ∂σ ∂σ ≤ 6 / p ^ 4 * Ab σ K p f (j :: l) x := by
      show _ ≤ 6 / p ^ 4 * ∫ z', K j x z' * (T σ K l (G σ j f) (update x j z') + fade p * Ab σ K p f l (update x j z')) ∂σ
      rw [← integral_const_mul]
      have n1 : Nice fun z' => ∫ z, ρ' z * (Hh z - Hh z') ^ 2 ∂σ :=
        ((nρ'.comp measurable_snd).mul nd.sq : Nice fun r : X × X => ρ' r.2 * (Hh r.2 - Hh r.1) ^ 2).integral σ
      refine integral_mono (((H.nice' j x).mul n1).int σ) (((Nice.const _).mul ((H.nice' j x).mul (nA.slice x j))).int σ) fun z' => ?_
      calc K j x z' * ∫ z, ρ' z * (Hh z - Hh z') ^ 2 ∂σ
          ≤ K j x z' * (6 / p ^ 4 * (T σ K l (G σ j f) (update x j z') + fade p * Ab σ K p f l (update x j z'))) :=
            mul_le_mul_of_nonneg_left (IH z') (H.nonneg j x z')
        _ = _ := by ring
    have A4 : ∫ y, ρ y * (T σ K (j :: l) f (update x i y) - T σ K (j :: l) f x) ^ 2 ∂σ
        ≤ 3 / p * ∫ y, ρ y * a y ^ 2 ∂σ + (1 + p / 2) * ∫ y, ρ y * b y ^ 2 ∂σ := by
      rw [← integral_const_mul, ← integral_const_mul,
        ← integral_add (((Nice.const _).mul (hρ.mul na.sq)).int σ) (((Nice.const _).mul (hρ.mul nb.sq)).int σ)]
      simp only [hu]
      refine integral_mono ((hρ.mul (na.add nb).sq).int σ)
        ((((Nice.const _).mul (hρ.mul na.sq)).add ((Nice.const _).mul (hρ.mul nb.sq))).int σ) fun y => ?_
      have h1 : (a y + b y) ^ 2 ≤ 3 / p * a y ^ 2 + (1 + p / 2) * b y ^ 2 := by
        have h2 : 0 ≤ (a y - p / 2 * b y) ^ 2 := sq_nonneg _
        have h3 : 2 * (a y * b y) ≤ 2 / p * a y ^ 2 + p / 2 * b y ^ 2 := by
          rw [div_mul_eq_mul_div, ← sub_nonneg]
          have : 2 * a y ^ 2 / p + p / 2 * b y ^ 2 - 2 * (a y * b y) = 2 / p * (a y - p / 2 * b y) ^ 2 := by field_simp; ring
          rw [this]
          positivity
        have h4 : 1 + 2 / p ≤ 3 / p := by
          rw [show 3 / p = 1 / p + 2 / p by ring]
          have : 1 ≤ 1 / p := by
            rw [le_div_iff₀ p0]
            linarith
          linarith
        have h5 := mul_le_mul_of_nonneg_right h4 (sq_nonneg (a y))
        nlinarith
      calc ρ y * (a y + b y) ^ 2 ≤ ρ y * (3 / p * a y ^ 2 + (1 + p / 2) * b y ^ 2) := mul_le_mul_of_nonneg_left h1 (ρ0 y)
        _ = _ := by ring
    have i0 : 0 ≤ ∫ z', K j x z' * ∫ z, ρ' z * (Hh z - Hh z') ^ 2 ∂σ ∂σ :=
      integral_nonneg fun z' => mul_nonneg (H.nonneg j x z') (integral_nonneg fun z => mul_nonneg (ρ'0 z) (sq_nonneg _))
    have A5 : (1 + p / 2) * ∫ y, ρ y * b y ^ 2 ∂σ ≤ fade p * ∫ z', K j x z' * ∫ z, ρ' z * (Hh z - Hh z') ^ 2 ∂σ ∂σ := by
      refine (mul_le_mul_of_nonneg_left A2 (by positivity)).trans ?_
      rw [← mul_assoc]
      refine mul_le_mul_of_nonneg_right ?_ i0
      unfold fade
      nlinarith
    have f0 : 0 ≤ fade p := by
      unfold fade
      linarith
    have A6 := mul_le_mul_of_nonneg_left A3 f0
    have A7 := mul_le_mul_of_nonneg_left A1 (by positivity : (0 : ℝ) ≤ 3 / p)
    have e : 3 / p * (2 / p * (p⁻¹ ^ 2 * T σ K (j :: l) (G σ i f) x)) = 6 / p ^ 4 * T σ K (j :: l) (G σ i f) x := by
      field_simp
      ring
    rw [e] at A7
    linarith

/-- the conditional variance over a line -/
noncomputable def Bb (σ : Measure X) (K : ι → (ι → X) → X → ℝ) (p : ℝ) (f : (ι → X) → ℝ) : List ι → (ι → X) → ℝ
  | [] => fun _ => 0
  | i :: l => fun x => Ab σ K p f (i :: l) x + E σ K i (Bb σ K p f l) x

theorem Bb_nice {f : (ι → X) → ℝ} (hf : Nice f) (l : List ι) : Nice (Bb σ K p f l) := by
  induction l with
  | nil => exact Nice.const 0
  | cons i l ih => exact (Ab_nice H hf (i :: l)).add (E_nice H ih i)

theorem variance_le {f : (ι → X) → ℝ} (hf : Nice f) {l : List ι} (hl : Line K l) (x : ι → X) :
    T σ K l (fun x => f x ^ 2) x - T σ K l f x ^ 2 ≤ 6 / p ^ 4 * Bb σ K p f l x := by
  have p0 := H.p0
  have p1 := H.p1
  induction l generalizing x with
  | nil =>
    show f x ^ 2 - f x ^ 2 ≤ 6 / p ^ 4 * 0
    simp
  | cons i l ih =>
    have nT := T_nice H hf l
    have nS := T_nice H hf.sq l
    have nA : Nice fun x => T σ K l (G σ i f) x + fade p * Ab σ K p f l x := (T_nice H (G_nice hf i) l).add ((Nice.const _).mul (Ab_nice H hf l))
    set h : X → ℝ := fun z => T σ K l f (update x i z) with hh
    have nh : Nice h := nT.slice x i
    set m := ∫ z, h z ∂σ with hm
    -- variance given the earlier entries
    have v1 : E σ K i (fun x => T σ K l f x ^ 2) x - E σ K i (T σ K l f) x ^ 2 ≤ ∫ z, K i x z * (h z - m) ^ 2 ∂σ := by
      have e : ∫ z, K i x z * (h z - m) ^ 2 ∂σ
          = ∫ z, K i x z * h z ^ 2 ∂σ - 2 * m * ∫ z, K i x z * h z ∂σ + m ^ 2 := by
        have e1 : ∀ z, K i x z * (h z - m) ^ 2 = (K i x z * h z ^ 2 - 2 * m * (K i x z * h z)) + m ^ 2 * K i x z := fun z => by ring
        simp only [e1]
        rw [integral_add, integral_sub, integral_const_mul, integral_const_mul, H.one, mul_one]
        · exact ((H.nice' i x).mul nh.sq).int σ
        · exact ((Nice.const _).mul ((H.nice' i x).mul nh)).int σ
        · exact (((H.nice' i x).mul nh.sq).sub ((Nice.const _).mul ((H.nice' i x).mul nh))).int σ
        · exact ((Nice.const _).mul (H.nice' i x)).int σ
      rw [e]
      show ∫ z, K i x z * h z ^ 2 ∂σ - (∫ z, K i x z * h z ∂σ) ^ 2 ≤ _
      nlinarith [sq_nonneg (∫ z, K i x z * h z ∂σ - m)]
    have nd : Nice fun r : X × X => h r.2 - h r.1 := (nh.comp measurable_snd).sub (nh.comp measurable_fst)
    have v2 : ∀ z, (h z - m) ^ 2 ≤ ∫ y, 1 * (h y - h z) ^ 2 ∂σ := fun z => by
      have n1 : Nice fun y => h y - h z := nh.sub (Nice.const _)
      have := weighted_sq (μ := σ) (Nice.const 1) n1 (fun _ => zero_le_one)
      simp only [one_mul, integral_const, probReal_univ, smul_eq_mul, mul_one] at this ⊢
      rw [integral_sub (nh.int σ) ((Nice.const _).int σ)] at this
      simp only [integral_const, probReal_univ, smul_eq_mul, one_mul] at this
      calc (h z - m) ^ 2 = (m - h z) ^ 2 := by ring
        _ ≤ _ := this
    have v3 : ∀ z, ∫ y, 1 * (h y - h z) ^ 2 ∂σ ≤ 6 / p ^ 4 * (T σ K l (G σ i f) (update x i z) + fade p * Ab σ K p f l (update x i z)) := fun z => by
      have := head_change H hf hl (ρ := fun _ => 1) (Nice.const 1) (fun _ => zero_le_one) (by simp)
        (fun _ => by rw [le_div_iff₀ p0]; linarith) (update x i z)
      simpa only [update_idem] using this
    have v4 : ∫ z, K i x z * (h z - m) ^ 2 ∂σ ≤ 6 / p ^ 4 * Ab σ K p f (i :: l) x := by
      show _ ≤ 6 / p ^ 4 * ∫ z, K i x z * (T σ K l (G σ i f) (update x i z) + fade p * Ab σ K p f l (update x i z)) ∂σ
      rw [← integral_const_mul]
      refine integral_mono (((H.nice' i x).mul (nh.sub (Nice.const m)).sq).int σ)
        (((Nice.const _).mul ((H.nice' i x).mul (nA.slice x i))).int σ) fun z => ?_
      calc K i x z * (h z - m) ^ 2
          ≤ K i x z * (6 / p ^ 4 * (T σ K l (G σ i f) (update x i z) + fade p * Ab σ K p f l (update x i z))) :=
            mul_le_mul_of_nonneg_left ((v2 z).trans (v3 z)) (H.nonneg i x z)
        _ = _ := by ring
    have v5 : E σ K i (T σ K l fun x => f x ^ 2) x - E σ K i (fun x => T σ K l f x ^ 2) x ≤ 6 / p ^ 4 * E σ K i (Bb σ K p f l) x := by
      rw [← E_sub H nS nT.sq, ← E_mul]
      exact E_mono H (nS.sub nT.sq) ((Nice.const _).mul (Bb_nice H hf l)) (fun x => ih hl.2.2.2 x) i x
    rw [T_cons, T_cons]
    show _ ≤ 6 / p ^ 4 * (Ab σ K p f (i :: l) x + E σ K i (Bb σ K p f l) x)
    linarith

theorem sum_eq {f : (ι → X) → ℝ} (hf : Nice f) (l : List ι) (x : ι → X) :
    Bb σ K p f l x + (2 / p - 1) * Ab σ K p f l x = 2 / p * (l.map fun m => T σ K l (G σ m f) x).sum := by
  have p0 := H.p0
  induction l generalizing x with
  | nil =>
    show (0 : ℝ) + (2 / p - 1) * 0 = 2 / p * 0
    ring
  | cons i l ih =>
    have nS : ∀ l' : List ι, Nice fun x => (l'.map fun m => T σ K l (G σ m f) x).sum := fun l' => by
      induction l' with
      | nil => exact Nice.const 0
      | cons j l' ih' => exact (T_nice H (G_nice hf j) l).add ih'
    have eS : ∀ l' : List ι, E σ K i (fun x => (l'.map fun m => T σ K l (G σ m f) x).sum) x
        = (l'.map fun m => T σ K (i :: l) (G σ m f) x).sum := fun l' => by
      induction l' with
      | nil => simp [E]
      | cons j l' ih' =>
        rw [List.map_cons, List.sum_cons, ← ih', T_cons, ← E_add H (T_nice H (G_nice hf j) l) (nS l')]
        simp only [List.map_cons, List.sum_cons]
    have h1 : E σ K i (Bb σ K p f l) x + (2 / p - 1) * E σ K i (Ab σ K p f l) x
        = 2 / p * (l.map fun m => T σ K (i :: l) (G σ m f) x).sum := by
      rw [← eS, ← E_mul, ← E_mul, ← E_add H (Bb_nice H hf l) ((Nice.const _).mul (Ab_nice H hf l))]
      unfold E
      simp only [ih]
    have h2 : Ab σ K p f (i :: l) x = T σ K (i :: l) (G σ i f) x + fade p * E σ K i (Ab σ K p f l) x := by
      show E σ K i (fun x => T σ K l (G σ i f) x + fade p * Ab σ K p f l x) x = _
      rw [E_add H (T_nice H (G_nice hf i) l) ((Nice.const _).mul (Ab_nice H hf l)), E_mul, T_cons]
    have h3 : Bb σ K p f (i :: l) x = Ab σ K p f (i :: l) x + E σ K i (Bb σ K p f l) x := rfl
    rw [h3, List.map_cons, List.sum_cons, mul_add, ← h1, h2]
    unfold fade
    field_simp
    ring

theorem Ab_nonneg {f : (ι → X) → ℝ} (l : List ι) (x : ι → X) : 0 ≤ Ab σ K p f l x := by
  have p0 := H.p0
  have p1 := H.p1
  have hT : ∀ (l : List ι) (g : (ι → X) → ℝ), (∀ x, 0 ≤ g x) → ∀ x, 0 ≤ T σ K l g x := fun l g hg => by
    induction l with
    | nil => exact hg
    | cons i l ih => exact fun x => integral_nonneg fun y => mul_nonneg (H.nonneg i x y) (ih _)
  induction l generalizing x with
  | nil => exact le_rfl
  | cons i l ih =>
    refine integral_nonneg fun y => mul_nonneg (H.nonneg i x y) (add_nonneg (hT l _ (fun x => integral_nonneg fun y => sq_nonneg _) _) ?_)
    refine mul_nonneg ?_ (ih _)
    unfold fade
    linarith

/-- the variance over a line is at most a constant times the sum of the mean squared changes of its entries -/
theorem line_poincare {f : (ι → X) → ℝ} (hf : Nice f) {l : List ι} (hl : Line K l) (x : ι → X) :
    T σ K l (fun x => f x ^ 2) x - T σ K l f x ^ 2 ≤ 12 / p ^ 5 * (l.map fun m => T σ K l (G σ m f) x).sum := by
  have p0 := H.p0
  have p1 := H.p1
  refine (variance_le H hf hl x).trans ?_
  have h1 := sum_eq H hf l x
  have h2 : Bb σ K p f l x ≤ 2 / p * (l.map fun m => T σ K l (G σ m f) x).sum := by
    rw [← h1]
    have : 0 ≤ 2 / p - 1 := by
      rw [sub_nonneg, le_div_iff₀ p0]
      linarith
    have := mul_nonneg this (Ab_nonneg H (f := f) l x)
    linarith
  calc 6 / p ^ 4 * Bb σ K p f l x ≤ 6 / p ^ 4 * (2 / p * (l.map fun m => T σ K l (G σ m f) x).sum) :=
        mul_le_mul_of_nonneg_left h2 (by positivity)
    _ = _ := by
      field_simp
      ring

omit H in
/-- conditional means do not depend on the entries they average over -/
theorem T_indep {l : List ι} (hl : Line K l) (f : (ι → X) → ℝ) {m : ι} (hm : m ∈ l) (x : ι → X) (y : X) :
    T σ K l f (update x m y) = T σ K l f x := by
  induction l generalizing x with
  | nil => simp at hm
  | cons i l ih =>
    rw [T_cons]
    unfold E
    congr 1
    funext z
    rw [hl.2.1 m hm]
    by_cases e : m = i
    · rw [e, update_idem]
    · rw [update_comm e, ih hl.2.2.2 ((List.mem_cons.1 hm).resolve_left e)]

omit H in
/-- factors that do not involve the entries averaged over come out -/
theorem T_factor {l : List ι} (g f : (ι → X) → ℝ) (hg : ∀ m ∈ l, ∀ x y, g (update x m y) = g x) (x : ι → X) :
    T σ K l (fun x => g x * f x) x = g x * T σ K l f x := by
  induction l generalizing x with
  | nil => rfl
  | cons i l ih =>
    rw [T_cons, T_cons]
    unfold E
    rw [← integral_const_mul]
    congr 1
    funext z
    rw [ih (fun m hm => hg m (List.mem_cons_of_mem _ hm)), hg i List.mem_cons_self]
    ring

end

section
variable {X : Type} [MeasurableSpace X] {L : ℕ} {σ : Measure X} [IsProbabilityMeasure σ]
  {K : Fin L → (Fin L → X) → X → ℝ} {p : ℝ}

/-- exchanging the old and the new entry -/
theorem swap_real {F : (Fin L → X) × (Fin L → X) → ℝ} (hF : Nice F) (i : Fin L) :
    ∫ v, ∫ x, F (v, update v i x) ∂σ ∂(Measure.pi fun _ => σ) = ∫ v, ∫ x, F (update v i x, v) ∂σ ∂(Measure.pi fun _ => σ) := by
  set π : Measure (Fin L → X) := Measure.pi fun _ => σ with hπ
  have u1 : Measurable fun q : (Fin L → X) × X => (q.1, update q.1 i q.2) := measurable_fst.prodMk (upd_meas i)
  have u2 : Measurable fun q : (Fin L → X) × X => (update q.1 i q.2, q.1) := (upd_meas i).prodMk measurable_fst
  have e : (π.prod σ).map (fun q => (q.1, update q.1 i q.2)) = (π.prod σ).map (fun q => (update q.1 i q.2, q.1)) := by
    ext s hs
    rw [Measure.map_apply u1 hs, Measure.map_apply u2 hs, ← lintegral_indicator_one (u1 hs), ← lintegral_indicator_one (u2 hs)]
    have m1 : Measurable (((fun q : (Fin L → X) × X => (q.1, update q.1 i q.2)) ⁻¹' s).indicator (1 : (Fin L → X) × X → ENNReal)) :=
      measurable_one.indicator (u1 hs)
    have m2 : Measurable (((fun q : (Fin L → X) × X => (update q.1 i q.2, q.1)) ⁻¹' s).indicator (1 : (Fin L → X) × X → ENNReal)) :=
      measurable_one.indicator (u2 hs)
    rw [lintegral_prod _ m1.aemeasurable, lintegral_prod _ m2.aemeasurable]
    exact Markov.swap_line (σ := σ) (F := fun v v' => s.indicator (1 : (Fin L → X) × (Fin L → X) → ENNReal) (v, v')) (measurable_one.indicator hs) i
  have i1 : ∫ v, ∫ x, F (v, update v i x) ∂σ ∂π = ∫ r, F r ∂((π.prod σ).map fun q => (q.1, update q.1 i q.2)) := by
    rw [integral_map u1.aemeasurable hF.meas.aestronglyMeasurable, integral_prod _ ((hF.comp u1).int _)]
  have i2 : ∫ v, ∫ x, F (update v i x, v) ∂σ ∂π = ∫ r, F r ∂((π.prod σ).map fun q => (update q.1 i q.2, q.1)) := by
    rw [integral_map u2.aemeasurable hF.meas.aestronglyMeasurable, integral_prod _ ((hF.comp u2).int _)]
  rw [i1, i2, e]

/-- replacing one entry by an independent one leaves the product measure unchanged -/
theorem resample_real {f : (Fin L → X) → ℝ} (hf : Nice f) (i : Fin L) :
    ∫ v, ∫ x, f (update v i x) ∂σ ∂(Measure.pi fun _ => σ) = ∫ v, f v ∂(Measure.pi fun _ => σ) := by
  rw [swap_real (F := fun r => f r.2) (hf.comp measurable_snd) i]
  simp

theorem T_integral (H : Kern σ p K) {f : (Fin L → X) → ℝ} (hf : Nice f) {l : List (Fin L)} (hl : Line K l) :
    ∫ v, T σ K l f v ∂(Measure.pi fun _ => σ) = ∫ v, (l.map fun i => K i v (v i)).prod * f v ∂(Measure.pi fun _ => σ) := by
  induction l generalizing f with
  | nil => simp [T]
  | cons i l ih =>
    have nk : Nice fun v : Fin L → X => K i v (v i) := (H.nice i).comp (measurable_id.prodMk (measurable_pi_apply i))
    have nT := T_nice H hf l
    have e1 : ∀ v x, K i v x * T σ K l f (update v i x) = K i (update v i x) (update v i x i) * T σ K l f (update v i x) := fun v x => by
      rw [hl.2.1 i List.mem_cons_self, update_self]
    have e2 : ∀ v, K i v (v i) * T σ K l f v = T σ K l (fun v => K i v (v i) * f v) v := fun v => by
      refine (T_factor (fun v => K i v (v i)) f (fun m hm x y => ?_) v).symm
      rw [hl.2.1 m (List.mem_cons_of_mem _ hm), update_of_ne]
      intro e
      exact hl.1 (e ▸ hm)
    rw [T_cons]
    unfold E
    simp only [e1]
    rw [resample_real (f := fun v => K i v (v i) * T σ K l f v) (nk.mul nT)]
    simp only [e2]
    rw [ih (nk.mul hf) hl.2.2.2]
    congr 1
    funext v
    rw [List.map_cons, List.prod_cons]
    ring

/-- over all entries: the conditional mean is the mean with the joint density -/
theorem T_all (H : Kern σ p K) {f : (Fin L → X) → ℝ} (hf : Nice f) {l : List (Fin L)} (hl : Line K l) (all : ∀ i, i ∈ l) (x : Fin L → X) :
    T σ K l f x = ∫ v, (l.map fun i => K i v (v i)).prod * f v ∂(Measure.pi fun _ => σ) := by
  rw [← T_integral H hf hl]
  have h : ∀ v, T σ K l f v = T σ K l f x := fun v => by
    have : ∀ s : Finset (Fin L), T σ K l f (fun i => if i ∈ s then v i else x i) = T σ K l f x := fun s => by
      induction s using Finset.induction_on with
      | empty => simp
      | insert a s ha ih =>
        rw [← ih, ← T_indep hl f (all a) (fun i => if i ∈ s then v i else x i) (v a)]
        congr 1
        funext i
        by_cases e : i = a
        · subst e
          simp
        · rw [update_of_ne e]
          simp [Finset.mem_insert, e]
    simpa using this Finset.univ
  simp only [h]
  simp

/-- the variance under the joint density of a line of transitions -/
theorem poincare (H : Kern σ p K) {f : (Fin L → X) → ℝ} (hf : Nice f) {l : List (Fin L)} (hl : Line K l) (all : ∀ i, i ∈ l) :
    (∫ v, (l.map fun i => K i v (v i)).prod * f v ^ 2 ∂(Measure.pi fun _ => σ))
        - (∫ v, (l.map fun i => K i v (v i)).prod * f v ∂(Measure.pi fun _ => σ)) ^ 2
      ≤ 12 / p ^ 5 * (l.map fun m => ∫ v, (l.map fun i => K i v (v i)).prod * G σ m f v ∂(Measure.pi fun _ => σ)).sum := by
  obtain ⟨x⟩ : Nonempty (Fin L → X) := by
    have : Nonempty X := by
      by_contra h
      rw [not_nonempty_iff] at h
      have := measure_univ (μ := σ)
      rw [Set.univ_eq_empty_iff.2 h, measure_empty] at this
      exact zero_ne_one this
    infer_instance
  have h := line_poincare H hf hl x
  rw [T_all H hf.sq hl all, T_all H hf hl all] at h
  simp only [T_all H (G_nice hf _) hl all] at h
  exact h

end

end Verif.Gap
