/-
The mean of an observable of a block does not depend much on what lies beyond `d` sites on either side (for C125).
-/
import Verif.Lemmas.Cluster

set_option linter.unusedSectionVars false

namespace Verif.Cluster

open MeasureTheory Finset

variable {X : Type*} [MeasurableSpace X] {μ : Measure X} [IsProbabilityMeasure μ] {L L' : ℕ} {k k' : ℕ → X → X → ℝ} {m M : ℝ}

theorem proj_pres {q : ℕ} (σ : Fin q → Fin L) (hσ : Function.Injective σ) :
    MeasurePreserving (fun (v : Fin L → X) j => v (σ j)) (Measure.pi fun _ => μ) (Measure.pi fun _ => μ) := by
  have hm : Measurable fun (v : Fin L → X) j => v (σ j) := measurable_pi_iff.2 fun j => measurable_pi_apply _
  refine ⟨hm, (Measure.pi_eq fun s hs => ?_).symm⟩
  rw [Measure.map_apply hm (MeasurableSet.univ_pi hs)]
  have e : (fun (v : Fin L → X) j => v (σ j)) ⁻¹' Set.univ.pi s = Set.univ.pi (Function.extend σ s fun _ => Set.univ) := by
    ext v
    simp only [Set.mem_preimage, Set.mem_univ_pi]
    constructor
    · intro h i
      by_cases hi : ∃ j, σ j = i
      · obtain ⟨j, rfl⟩ := hi
        rw [hσ.extend_apply]
        exact h j
      · rw [Function.extend_apply' _ _ _ hi]
        exact Set.mem_univ _
    · intro h j
      have := h (σ j)
      rwa [hσ.extend_apply] at this
  rw [e, Measure.pi_pi]
  symm
  refine Fintype.prod_of_injective σ hσ _ _ (fun i hi => ?_) fun j => ?_
  · rw [Function.extend_apply' _ _ _ fun ⟨j, hj⟩ => hi ⟨j, hj⟩]
    exact measure_univ
  · rw [hσ.extend_apply]

theorem link_shift {i i' n : ℕ} (h : ∀ j ≤ n, k (i + j) = k' (i' + j)) : link μ k i n = link μ k' i' n := by
  induction n generalizing i i' with
  | zero =>
    have := h 0 le_rfl
    simp only [add_zero] at this
    funext x y
    simp only [link, this]
  | succ n ih =>
    have h0 := h 0 (Nat.zero_le _)
    simp only [add_zero] at h0
    have h1 := ih (i := i + 1) (i' := i' + 1) fun j hj => by
      have := h (j + 1) (by omega)
      rwa [show i + 1 + j = i + (j + 1) by ring, show i' + 1 + j = i' + (j + 1) by ring]
    funext x y
    simp only [link, h0, h1]

/-- weight of the bonds inside a block of `q` sites whose first bond is number `i` -/
def inner (k : ℕ → X → X → ℝ) (i : ℕ) {q : ℕ} (hq : 0 < q) (y : Fin q → X) : ℝ :=
  ∏ l ∈ range (q - 1), k (i + l) (at' hq y l) (at' hq y (l + 1))

/-- weight of a block of `q` sites between two fixed ends, `d` integrated sites away from it on either side; the bond to
the right of the left end is number `i` -/
noncomputable def between (μ : Measure X) (k : ℕ → X → X → ℝ) (i d : ℕ) {q : ℕ} (hq : 0 < q) (x x' : X) (y : Fin q → X) : ℝ :=
  inner k (i + d + 1) hq y * (link μ k i d x (at' hq y 0) * link μ k (i + d + q) d (at' hq y (q - 1)) x')

theorem inner_pos (K : Kernels k m M) (i : ℕ) {q : ℕ} (hq : 0 < q) (y : Fin q → X) : 0 < inner k i hq y :=
  Finset.prod_pos fun _ _ => K.pos.trans_le (K.lo _ _ _)

theorem inner_abs (K : Kernels k m M) (i : ℕ) {q : ℕ} (hq : 0 < q) (y : Fin q → X) : |inner k i hq y| ≤ M ^ (q - 1) := by
  have e : M ^ (q - 1) = ∏ _l ∈ range (q - 1), M := by simp
  rw [abs_of_pos (inner_pos K i hq y), e]
  exact Finset.prod_le_prod (fun _ _ => (K.pos.trans_le (K.lo _ _ _)).le) fun _ _ => K.hi _ _ _

theorem inner_meas (K : Kernels k m M) (i : ℕ) {q : ℕ} (hq : 0 < q) : Measurable (inner k i hq) := by
  refine Finset.measurable_prod _ fun l _ => ?_
  have ma : ∀ j, Measurable fun v : Fin q → X => at' hq v j := fun j => measurable_pi_apply _
  exact (K.meas _).comp ((ma l).prodMk (ma (l + 1)))

theorem between_pos (K : Kernels k m M) (i d : ℕ) {q : ℕ} (hq : 0 < q) (x x' : X) (y : Fin q → X) :
    0 < between μ k i d hq x x' y :=
  mul_pos (inner_pos K _ hq y) (mul_pos (link_pos K _ _ _ _) (link_pos K _ _ _ _))

/-- bound of a block weight -/
def cap (M : ℝ) (d q : ℕ) : ℝ := M ^ (q - 1) * (M ^ (d + 1) * M ^ (d + 1))

theorem between_abs (K : Kernels k m M) (i d : ℕ) {q : ℕ} (hq : 0 < q) (x x' : X) (y : Fin q → X) :
    |between μ k i d hq x x' y| ≤ cap M d q :=
  mul_abs (inner_abs K _ hq y) (mul_abs (link_abs K _ _ _ _) (link_abs K _ _ _ _))

theorem between_meas (K : Kernels k m M) (i d : ℕ) {q : ℕ} (hq : 0 < q) :
    Measurable fun r : (X × X) × (Fin q → X) => between μ k i d hq r.1.1 r.1.2 r.2 := by
  have ma : ∀ j, Measurable fun r : (X × X) × (Fin q → X) => at' hq r.2 j := fun j => (measurable_pi_apply _).comp measurable_snd
  exact ((inner_meas K _ hq).comp measurable_snd).mul
    (((link_meas K _ _).comp ((measurable_fst.comp measurable_fst).prodMk (ma 0))).mul
      ((link_meas K _ _).comp ((ma (q - 1)).prodMk (measurable_snd.comp measurable_fst))))

theorem between_meas' (K : Kernels k m M) (i d : ℕ) {q : ℕ} (hq : 0 < q) (x x' : X) :
    Measurable fun y : Fin q → X => between μ k i d hq x x' y := by
  have h : Measurable fun y : Fin q → X => ((x, x'), y) := measurable_const.prodMk measurable_id
  exact (between_meas (μ := μ) K i d hq).comp h

/-- exchanging the blocks between two pairs of ends -/
theorem between_cross (K : Kernels k m M) (i d : ℕ) {q : ℕ} (hq : 0 < q) (x x' z z' : X) (y t : Fin q → X) :
    |between μ k i d hq x x' y * between μ k i d hq z z' t - between μ k i d hq x x' t * between μ k i d hq z z' y|
      ≤ ((1 + slack m M d) ^ 2 - 1) * (between μ k i d hq x x' y * between μ k i d hq z z' t) := by
  have c1 := link_cross (μ := μ) K i d x z (at' hq y 0) (at' hq t 0)
  have c2 := link_cross (μ := μ) K i d x z (at' hq t 0) (at' hq y 0)
  have c3 := link_cross (μ := μ) K (i + d + q) d (at' hq y (q - 1)) (at' hq t (q - 1)) x' z'
  have c4 := link_cross (μ := μ) K (i + d + q) d (at' hq y (q - 1)) (at' hq t (q - 1)) z' x'
  have P := fun x y => link_pos (μ := μ) K i d x y
  have Q := fun x y => link_pos (μ := μ) K (i + d + q) d x y
  have pa := inner_pos K (i + d + 1) hq y
  have pb := inner_pos K (i + d + 1) hq t
  have s0 : 0 ≤ slack m M d := by
    have M0 : 0 < M := K.pos.trans_le ((K.lo 0 x x).trans (K.hi _ _ _))
    have q0 : 0 ≤ 1 - m / M := by
      rw [sub_nonneg, div_le_one M0]
      exact (K.lo 0 x x).trans (K.hi _ _ _)
    have := K.pos
    rw [slack]
    positivity
  unfold between
  set a1 := inner k (i + d + 1) hq y
  set a2 := inner k (i + d + 1) hq t
  have x1p := P x (at' hq y 0)
  have x2p := P z (at' hq t 0)
  have x3p := P x (at' hq t 0)
  have x4p := P z (at' hq y 0)
  have y1p := Q (at' hq y (q - 1)) x'
  have y2p := Q (at' hq t (q - 1)) z'
  have y3p := Q (at' hq t (q - 1)) x'
  have y4p := Q (at' hq y (q - 1)) z'
  set x1 := link μ k i d x (at' hq y 0)
  set x2 := link μ k i d z (at' hq t 0)
  set x3 := link μ k i d x (at' hq t 0)
  set x4 := link μ k i d z (at' hq y 0)
  set y1 := link μ k (i + d + q) d (at' hq y (q - 1)) x'
  set y2 := link μ k (i + d + q) d (at' hq t (q - 1)) z'
  set y3 := link μ k (i + d + q) d (at' hq t (q - 1)) x'
  set y4 := link μ k (i + d + q) d (at' hq y (q - 1)) z'
  set s := slack m M d
  have d1 : (x1 * x2) * (y1 * y2) ≤ (1 + s) ^ 2 * ((x3 * x4) * (y3 * y4)) := by
    refine (mul_le_mul c1 c3 (by positivity) (by positivity)).trans (le_of_eq ?_)
    ring
  have d2 : (x3 * x4) * (y3 * y4) ≤ (1 + s) ^ 2 * ((x1 * x2) * (y1 * y2)) := by
    have c4' : y4 * y3 ≤ (1 + s) * (y1 * y2) := c4
    have : y3 * y4 ≤ (1 + s) * (y1 * y2) := by linarith [mul_comm y3 y4]
    refine (mul_le_mul c2 this (by positivity) (by positivity)).trans (le_of_eq ?_)
    ring
  have w0 : 0 < a1 * a2 := by positivity
  have g1 : a1 * (x1 * y1) * (a2 * (x2 * y2)) - a2 * (x3 * y3) * (a1 * (x4 * y4)) =
      a1 * a2 * ((x1 * x2) * (y1 * y2) - (x3 * x4) * (y3 * y4)) := by ring
  have g2 : ((1 + s) ^ 2 - 1) * (a1 * (x1 * y1) * (a2 * (x2 * y2))) =
      a1 * a2 * (((1 + s) ^ 2 - 1) * ((x1 * x2) * (y1 * y2))) := by ring
  rw [g1, g2, abs_mul, abs_of_pos w0]
  refine mul_le_mul_of_nonneg_left ?_ w0.le
  have z1 : 0 < (x1 * x2) * (y1 * y2) := by positivity
  have z2 : 0 < (x3 * x4) * (y3 * y4) := by positivity
  set A := (x1 * x2) * (y1 * y2)
  set B := (x3 * x4) * (y3 * y4)
  have c1' : 1 ≤ (1 + s) ^ 2 := by nlinarith
  rw [abs_le]
  constructor
  · linarith
  · rcases le_total A B with h | h
    · nlinarith
    · nlinarith

/-- sum of `F` over the block between two fixed ends -/
noncomputable def blk (μ : Measure X) (k : ℕ → X → X → ℝ) (i d : ℕ) {q : ℕ} (hq : 0 < q) (F : (Fin q → X) → ℝ) (x x' : X) : ℝ :=
  ∫ y, between μ k i d hq x x' y * F y ∂(Measure.pi fun _ => μ)

theorem blk_cross (K : Kernels k m M) (i d : ℕ) {q : ℕ} (hq : 0 < q) {F : (Fin q → X) → ℝ} {C : ℝ} (mF : Measurable F)
    (bF : ∀ y, |F y| ≤ C) (x x' z z' : X) :
    |blk μ k i d hq F x x' * blk μ k i d hq (fun _ => 1) z z' - blk μ k i d hq F z z' * blk μ k i d hq (fun _ => 1) x x'|
      ≤ ((1 + slack m M d) ^ 2 - 1) * C * (blk μ k i d hq (fun _ => 1) x x' * blk μ k i d hq (fun _ => 1) z z') := by
  set π : Measure (Fin q → X) := Measure.pi fun _ => μ
  have mb : ∀ x x' : X, Measurable fun y : Fin q → X => between μ k i d hq x x' y := between_meas' K i d hq
  have ib : ∀ x x' : X, Integrable (fun y : Fin q → X => between μ k i d hq x x' y) π := fun x x' =>
    bi (mb x x') (between_abs K i d hq x x')
  have iF : ∀ x x' : X, Integrable (fun y : Fin q → X => between μ k i d hq x x' y * F y) π := fun x x' =>
    bi ((mb x x').mul mF) fun y => mul_abs (between_abs K i d hq x x' y) (bF y)
  unfold blk
  simp only [mul_one]
  let a := fun y => between μ k i d hq x x' y
  let b := fun y => between μ k i d hq z z' y
  have e1 : (∫ y, a y * F y ∂π) * (∫ y, b y ∂π) = ∫ r : (Fin q → X) × (Fin q → X), (a r.1 * F r.1) * b r.2 ∂(π.prod π) :=
    (integral_prod_mul (fun y => a y * F y) b).symm
  have e2 : (∫ y, b y * F y ∂π) * (∫ y, a y ∂π) = ∫ r : (Fin q → X) × (Fin q → X), (b r.1 * F r.1) * a r.2 ∂(π.prod π) :=
    (integral_prod_mul (fun y => b y * F y) a).symm
  have e3 : (∫ y, a y ∂π) * (∫ y, b y ∂π) = ∫ r : (Fin q → X) × (Fin q → X), a r.1 * b r.2 ∂(π.prod π) :=
    (integral_prod_mul a b).symm
  rw [e1, e2, e3, ← integral_sub ((iF x x').mul_prod (ib z z')) ((iF z z').mul_prod (ib x x')), ← integral_const_mul]
  refine (abs_integral_le_integral_abs).trans (integral_mono
    (((iF x x').mul_prod (ib z z')).sub ((iF z z').mul_prod (ib x x'))).abs (((ib x x').mul_prod (ib z z')).const_mul _) fun r => ?_)
  have h1 := mul_abs (between_cross (μ := μ) K i d hq x x' z z' r.1 r.2) (bF r.1)
  show |a r.1 * F r.1 * b r.2 - b r.1 * F r.1 * a r.2| ≤ _
  have h2 : a r.1 * F r.1 * b r.2 - b r.1 * F r.1 * a r.2 = (a r.1 * b r.2 - a r.2 * b r.1) * F r.1 := by ring
  rw [h2]
  refine h1.trans (le_of_eq ?_)
  show _ = ((1 + slack m M d) ^ 2 - 1) * C * (a r.1 * b r.2)
  ring

/-- the sites of a block of `q` sites from position `a` on -/
def blockAt (hL : 0 < L) (a q : ℕ) (v : Fin L → X) : Fin q → X := fun j => at' hL v (a + j)

/-- the ring as a sum over what lies outside -/
theorem ring_blk (K : Kernels k m M) (hL : 0 < L) {p d q : ℕ} (p0 : 0 < p) (q0 : 0 < q) (e : p + d + q + d = L)
    {F : (Fin q → X) → ℝ} {C : ℝ} (mF : Measurable F) (bF : ∀ y, |F y| ≤ C) :
    ∫ v, ring k hL v * F (blockAt hL (p + d) q v) ∂(Measure.pi fun _ => μ)
      = ∫ v, arc k hL 0 (p - 1) v * blk μ k (p - 1) d q0 F (at' hL v (p - 1)) (at' hL v 0) ∂(Measure.pi fun _ => μ) := by
  have mB : Measurable (blockAt hL (p + d) q : (Fin L → X) → Fin q → X) := measurable_pi_iff.2 fun j => measurable_pi_apply _
  have ma : ∀ j, Measurable fun v : Fin L → X => at' hL v j := fun j => measurable_pi_apply _
  rw [ring_int (μ := μ) K hL p0 q0 e (φ := fun v => F (blockAt hL (p + d) q v)) (mF.comp mB) (fun v => bF _) fun z v => by
    congr 1
    funext j
    exact at_gaps hL p0 e z v (by omega)]
  have mC : Measurable fun v : Fin L → X => cut μ k hL p d q d v * F (blockAt hL (p + d) q v) :=
    (((arc_meas K hL _ _).mul (arc_meas K hL _ _)).mul
      (((link_meas K _ _).comp ((ma _).prodMk (ma _))).mul ((link_meas K _ _).comp ((ma _).prodMk (ma _))))).mul (mF.comp mB)
  rw [int_merge (fun j => decide (p ≤ j.1)) mC]
  have aL : ∀ v : Fin L → X, at' hL v L = at' hL v 0 := fun v => by
    simp [at']
  have key : ∀ v u : Fin L → X, cut μ k hL p d q d (merge (fun j : Fin L => decide (p ≤ j.1)) u v)
        * F (blockAt hL (p + d) q (merge (fun j : Fin L => decide (p ≤ j.1)) u v))
      = arc k hL 0 (p - 1) v *
        (between μ k (p - 1) d q0 (at' hL v (p - 1)) (at' hL v 0) (blockAt hL (p + d) q u) * F (blockAt hL (p + d) q u)) := by
    intro v u
    have lo : ∀ j < p, at' hL (merge (fun j : Fin L => decide (p ≤ j.1)) u v) j = at' hL v j := fun j hj => by
      have : j % L = j := Nat.mod_eq_of_lt (by omega)
      rw [at_merge, if_neg]
      simp [this]
      omega
    have hi : ∀ j, p ≤ j → j < L → at' hL (merge (fun j : Fin L => decide (p ≤ j.1)) u v) j = at' hL u j := fun j h1 h2 => by
      have : j % L = j := Nat.mod_eq_of_lt h2
      rw [at_merge, if_pos]
      simp [this, h1]
    have eB : blockAt hL (p + d) q (merge (fun j : Fin L => decide (p ≤ j.1)) u v) = blockAt hL (p + d) q u := by
      funext j
      exact hi _ (by omega) (by omega)
    have eA : arc k hL (p + d) (p + d + q - 1) u = inner k (p + d) q0 (blockAt hL (p + d) q u) := by
      unfold arc inner
      rw [Finset.prod_Ico_eq_prod_range, show p + d + q - 1 - (p + d) = q - 1 by omega]
      refine Finset.prod_congr rfl fun l hl => ?_
      rw [mem_range] at hl
      have h1 : at' q0 (blockAt hL (p + d) q u) l = at' hL u (p + d + l) := by
        show at' hL u (p + d + l % q) = _
        rw [Nat.mod_eq_of_lt (by omega)]
      have h2 : at' q0 (blockAt hL (p + d) q u) (l + 1) = at' hL u (p + d + l + 1) := by
        show at' hL u (p + d + (l + 1) % q) = _
        rw [Nat.mod_eq_of_lt (by omega)]
        rfl
      rw [h1, h2]
    have b0 : at' q0 (blockAt hL (p + d) q u) 0 = at' hL u (p + d) := by
      show at' hL u (p + d + 0 % q) = _
      simp
    have bq : at' q0 (blockAt hL (p + d) q u) (q - 1) = at' hL u (p + d + q - 1) := by
      show at' hL u (p + d + (q - 1) % q) = _
      rw [Nat.mod_eq_of_lt (by omega)]
      congr 1
      omega
    rw [eB, cut, between, b0, bq, show p - 1 + d + 1 = p + d by omega, show p - 1 + d + q = p + d + q - 1 by omega, ← eA,
      aL, lo 0 p0, lo (p - 1) (by omega), hi (p + d) (by omega) (by omega), hi (p + d + q - 1) (by omega) (by omega),
      arc_congr (k := k) hL (w := v) (i := 0) (j := p - 1) fun l _ h => lo l (by omega),
      arc_congr (k := k) hL (w := u) (i := p + d) (j := p + d + q - 1) fun l _ h => hi l (by omega) (by omega)]
    ring
  simp only [key]
  have mI : Measurable fun r : (Fin L → X) × (Fin L → X) => arc k hL 0 (p - 1) r.1 *
      (between μ k (p - 1) d q0 (at' hL r.1 (p - 1)) (at' hL r.1 0) (blockAt hL (p + d) q r.2) * F (blockAt hL (p + d) q r.2)) :=
    ((arc_meas K hL _ _).comp measurable_fst).mul (((between_meas K (p - 1) d q0).comp
      ((((ma _).comp measurable_fst).prodMk ((ma _).comp measurable_fst)).prodMk (mB.comp measurable_snd))).mul
        ((mF.comp mB).comp measurable_snd))
  have iI : Integrable (fun r : (Fin L → X) × (Fin L → X) => arc k hL 0 (p - 1) r.1 *
      (between μ k (p - 1) d q0 (at' hL r.1 (p - 1)) (at' hL r.1 0) (blockAt hL (p + d) q r.2) * F (blockAt hL (p + d) q r.2)))
      ((Measure.pi fun _ => μ).prod (Measure.pi fun _ => μ)) :=
    bi mI fun r => mul_abs (arc_abs K hL _ _ _) (mul_abs (between_abs K _ _ _ _ _ _) (bF _))
  rw [integral_prod _ iI]
  congr 1
  funext v
  dsimp only
  rw [integral_const_mul]
  congr 1
  let σ : Fin q → Fin L := fun j => ⟨(p + d + j) % L, Nat.mod_lt _ hL⟩
  have hσ : Function.Injective σ := fun j j' h => by
    have h' : (p + d + j) % L = (p + d + j') % L := congrArg Fin.val h
    rw [Nat.mod_eq_of_lt (by omega), Nat.mod_eq_of_lt (by omega)] at h'
    exact Fin.ext (by omega)
  have hp := proj_pres (μ := μ) σ hσ
  have mG : Measurable fun y : Fin q → X => between μ k (p - 1) d q0 (at' hL v (p - 1)) (at' hL v 0) y * F y :=
    (between_meas' K (p - 1) d q0 _ _).mul mF
  rw [blk]
  conv_rhs => rw [← hp.map_eq]
  rw [integral_map hp.measurable.aemeasurable mG.aestronglyMeasurable]
  rfl

theorem blk_meas (K : Kernels k m M) (i d : ℕ) {q : ℕ} (hq : 0 < q) {F : (Fin q → X) → ℝ} (mF : Measurable F) :
    Measurable fun r : X × X => blk μ k i d hq F r.1 r.2 := by
  have h : Measurable fun r : (X × X) × (Fin q → X) => between μ k i d hq r.1.1 r.1.2 r.2 * F r.2 :=
    (between_meas K i d hq).mul (mF.comp measurable_snd)
  exact (h.stronglyMeasurable.integral_prod_right (ν := Measure.pi fun _ => μ)).measurable

theorem blk_abs (K : Kernels k m M) (i d : ℕ) {q : ℕ} (hq : 0 < q) {F : (Fin q → X) → ℝ} {C : ℝ}
    (bF : ∀ y, |F y| ≤ C) (x x' : X) : |blk μ k i d hq F x x'| ≤ cap M d q * C := by
  have := norm_integral_le_of_norm_le_const (μ := Measure.pi fun _ : Fin q => μ) (f := fun y => between μ k i d hq x x' y * F y)
    (C := cap M d q * C) (Filter.Eventually.of_forall fun y => mul_abs (between_abs K i d hq x x' y) (bF y))
  unfold blk
  simpa using this

theorem blk_shift {i i' d q : ℕ} (hq : 0 < q) (h : ∀ j ≤ d + q + d, k (i + j) = k' (i' + j)) (F : (Fin q → X) → ℝ) :
    blk μ k i d hq F = blk μ k' i' d hq F := by
  have h1 : link μ k i d = link μ k' i' d := link_shift fun j hj => h j (by omega)
  have h2 : link μ k (i + d + q) d = link μ k' (i' + d + q) d := link_shift fun j hj => by
    have := h (d + q + j) (by omega)
    rwa [show i + d + q + j = i + (d + q + j) by ring, show i' + d + q + j = i' + (d + q + j) by ring]
  have h3 : inner k (i + d + 1) hq = inner k' (i' + d + 1) hq := by
    funext y
    refine Finset.prod_congr rfl fun l hl => ?_
    rw [mem_range] at hl
    have := h (d + 1 + l) (by omega)
    rw [show i + d + 1 + l = i + (d + 1 + l) by ring, show i' + d + 1 + l = i' + (d + 1 + l) by ring, this]
  funext x x'
  unfold blk between
  rw [h1, h2, h3]

/-- two rings with the same weights on a block and `d` sites on either side give nearly the same mean of the block -/
theorem ring_bath (K : Kernels k m M) (K' : Kernels k' m M) (hL : 0 < L) (hL' : 0 < L') {p p' d q : ℕ} (p0 : 0 < p) (p0' : 0 < p')
    (q0 : 0 < q) (e : p + d + q + d = L) (e' : p' + d + q + d = L') (h : ∀ j ≤ d + q + d, k (p - 1 + j) = k' (p' - 1 + j))
    {F : (Fin q → X) → ℝ} {C : ℝ} (mF : Measurable F) (bF : ∀ y, |F y| ≤ C) :
    |(∫ v, ring k hL v * F (blockAt hL (p + d) q v) ∂(Measure.pi fun _ => μ)) * (∫ v, ring k' hL' v ∂(Measure.pi fun _ => μ)) -
        (∫ v, ring k' hL' v * F (blockAt hL' (p' + d) q v) ∂(Measure.pi fun _ => μ)) * ∫ v, ring k hL v ∂(Measure.pi fun _ => μ)| ≤
      ((1 + slack m M d) ^ 2 - 1) * C * ((∫ v, ring k hL v ∂(Measure.pi fun _ => μ)) * ∫ v, ring k' hL' v ∂(Measure.pi fun _ => μ)) := by
  have b1 : ∀ y : Fin q → X, |(fun _ => 1 : (Fin q → X) → ℝ) y| ≤ 1 := fun _ => by simp
  have e1 := ring_blk (μ := μ) K hL p0 q0 e mF bF
  have e2 := ring_blk (μ := μ) K' hL' p0' q0 e' mF bF
  have e3 := ring_blk (μ := μ) K hL p0 q0 e (F := fun _ => 1) measurable_const b1
  have e4 := ring_blk (μ := μ) K' hL' p0' q0 e' (F := fun _ => 1) measurable_const b1
  simp only [mul_one] at e3 e4
  rw [e1, e2, e3, e4, ← blk_shift (μ := μ) q0 h F, ← blk_shift (μ := μ) q0 h fun _ => 1]
  have ma : ∀ j, Measurable fun v : Fin L → X => at' hL v j := fun j => measurable_pi_apply _
  have ma' : ∀ j, Measurable fun v : Fin L' → X => at' hL' v j := fun j => measurable_pi_apply _
  let a : (Fin L → X) → ℝ := fun v => arc k hL 0 (p - 1) v * blk μ k (p - 1) d q0 F (at' hL v (p - 1)) (at' hL v 0)
  let b : (Fin L → X) → ℝ := fun v => arc k hL 0 (p - 1) v * blk μ k (p - 1) d q0 (fun _ => 1) (at' hL v (p - 1)) (at' hL v 0)
  let a' : (Fin L' → X) → ℝ := fun v => arc k' hL' 0 (p' - 1) v * blk μ k (p - 1) d q0 F (at' hL' v (p' - 1)) (at' hL' v 0)
  let b' : (Fin L' → X) → ℝ := fun v => arc k' hL' 0 (p' - 1) v * blk μ k (p - 1) d q0 (fun _ => 1) (at' hL' v (p' - 1)) (at' hL' v 0)
  have ia : Integrable a (Measure.pi fun _ => μ) := bi ((arc_meas K hL _ _).mul ((blk_meas K _ d q0 mF).comp ((ma _).prodMk (ma _))))
    fun v => mul_abs (arc_abs K hL _ _ _) (blk_abs K _ d q0 bF _ _)
  have ib : Integrable b (Measure.pi fun _ => μ) := bi ((arc_meas K hL _ _).mul ((blk_meas K _ d q0 measurable_const).comp ((ma _).prodMk (ma _))))
    fun v => mul_abs (arc_abs K hL _ _ _) (blk_abs K _ d q0 b1 _ _)
  have ia' : Integrable a' (Measure.pi fun _ => μ) := bi ((arc_meas K' hL' _ _).mul ((blk_meas K _ d q0 mF).comp ((ma' _).prodMk (ma' _))))
    fun v => mul_abs (arc_abs K' hL' _ _ _) (blk_abs K _ d q0 bF _ _)
  have ib' : Integrable b' (Measure.pi fun _ => μ) := bi ((arc_meas K' hL' _ _).mul ((blk_meas K _ d q0 measurable_const).comp ((ma' _).prodMk (ma' _))))
    fun v => mul_abs (arc_abs K' hL' _ _ _) (blk_abs K _ d q0 b1 _ _)
  show |(∫ v, a v ∂_) * (∫ v, b' v ∂_) - (∫ v, a' v ∂_) * (∫ v, b v ∂_)| ≤ _ * ((∫ v, b v ∂_) * (∫ v, b' v ∂_))
  rw [mul_comm (∫ v, a' v ∂_), ← integral_prod_mul a b', ← integral_prod_mul b a', ← integral_prod_mul b b',
    ← integral_sub (ia.mul_prod ib') (ib.mul_prod ia'), ← integral_const_mul]
  refine (abs_integral_le_integral_abs).trans (integral_mono ((ia.mul_prod ib').sub (ib.mul_prod ia')).abs
    ((ib.mul_prod ib').const_mul _) fun r => ?_)
  have h1 := blk_cross (μ := μ) K (p - 1) d q0 mF bF (at' hL r.1 (p - 1)) (at' hL r.1 0) (at' hL' r.2 (p' - 1)) (at' hL' r.2 0)
  have w0 := mul_pos (arc_pos K hL 0 (p - 1) r.1) (arc_pos K' hL' 0 (p' - 1) r.2)
  have h2 := mul_le_mul_of_nonneg_left h1 w0.le
  rw [← abs_of_pos w0, ← abs_mul, abs_of_pos w0] at h2
  show |a r.1 * b' r.2 - b r.1 * a' r.2| ≤ ((1 + slack m M d) ^ 2 - 1) * C * (b r.1 * b' r.2)
  refine le_trans (le_of_eq ?_) (h2.trans (le_of_eq ?_))
  · congr 1
    simp only [a, b, a', b']
    ring
  · simp only [b, b']
    ring

end Verif.Cluster
