/-
C124: thermal correlations along the chain (/repo/src/spinchain.rs `metropolis_update`, `mc_total_energy`).
-/
import Verif.Spec.Cluster
import Verif.Lemmas.Cluster
import Verif.Props.SecondLaw
import Verif.Lemmas.Order
import Verif.Lemmas.Response
import Mathlib.Algebra.Order.Ring.GeomSum

set_option linter.unusedSectionVars false

namespace Verif.Props

open Spec MeasureTheory
open Finset hiding expect

section
variable {c : SpinChain ℝ} {L s : ℕ}

/-- energy of a bond and of the field at its left end -/
noncomputable def bondAt (c : SpinChain ℝ) (i : ℕ) (x y : V3 ℝ) : ℝ := -dot x (had (J c i) y) + dot (H0 c i) x

theorem bondAt_bound {K : ℝ} {i : ℕ} (h : len (J c i) + len (H0 c i) ≤ K) {x y : V3 ℝ} (hx : len x = 1) (hy : len y = 1) :
    |bondAt c i x y| ≤ K := by
  have h1 := abs_dot_le_len x (had (J c i) y)
  have h2 := len_had_le (J c i) y
  have h3 := abs_dot_le_len (H0 c i) x
  rw [hx, one_mul] at h1
  rw [hy, mul_one] at h2
  rw [hx, mul_one] at h3
  unfold bondAt
  refine (abs_add_le _ _).trans ?_
  rw [abs_neg]
  linarith

theorem bondAt_meas (c : SpinChain ℝ) (i : ℕ) : Measurable fun p : V3 ℝ × V3 ℝ => bondAt c i p.1 p.2 := by
  have x1 : Measurable fun p : V3 ℝ × V3 ℝ => p.1.x := measurable_x.comp measurable_fst
  have y1 : Measurable fun p : V3 ℝ × V3 ℝ => p.1.y := measurable_y.comp measurable_fst
  have z1 : Measurable fun p : V3 ℝ × V3 ℝ => p.1.z := measurable_z.comp measurable_fst
  have x2 : Measurable fun p : V3 ℝ × V3 ℝ => p.2.x := measurable_x.comp measurable_snd
  have y2 : Measurable fun p : V3 ℝ × V3 ℝ => p.2.y := measurable_y.comp measurable_snd
  have z2 : Measurable fun p : V3 ℝ × V3 ℝ => p.2.z := measurable_z.comp measurable_snd
  unfold bondAt dot had
  fun_prop

/-- `x` kept between `-C` and `C` -/
noncomputable def clip (lo hi x : ℝ) : ℝ := max lo (min hi x)

theorem clip_eq {lo hi x : ℝ} (h1 : lo ≤ x) (h2 : x ≤ hi) : clip lo hi x = x := by
  rw [clip, min_eq_right h2, max_eq_right h1]

/-- weight of the bond at position `j`, counted from site `a`; off the unit sphere kept between the bounds that hold there -/
noncomputable def kern (c : SpinChain ℝ) (L a : ℕ) (K : ℝ) (j : ℕ) (x y : V3 ℝ) : ℝ :=
  clip (Real.exp (-(|c.vars.beta| * K))) (Real.exp (|c.vars.beta| * K)) (Real.exp (-(c.vars.beta * bondAt c ((a + j) % L) x y)))

theorem kern_kernels (c : SpinChain ℝ) (L a : ℕ) {K : ℝ} (K0 : 0 ≤ K) :
    Cluster.Kernels (kern c L a K) (Real.exp (-(|c.vars.beta| * K))) (Real.exp (|c.vars.beta| * K)) := by
  refine ⟨fun i => ?_, Real.exp_pos _, fun i x y => le_max_left _ _, fun i x y => ?_⟩
  · unfold kern clip
    have := bondAt_meas c ((a + i) % L)
    fun_prop
  · refine max_le ?_ (min_le_left _ _)
    rw [Real.exp_le_exp]
    have := mul_nonneg (abs_nonneg c.vars.beta) K0
    linarith

theorem kern_eq {a : ℕ} {K : ℝ} {j : ℕ} (h : len (J c ((a + j) % L)) + len (H0 c ((a + j) % L)) ≤ K) {x y : V3 ℝ}
    (hx : len x = 1) (hy : len y = 1) : kern c L a K j x y = Real.exp (-(c.vars.beta * bondAt c ((a + j) % L) x y)) := by
  have h1 := bondAt_bound h hx hy
  have h2 : |c.vars.beta * bondAt c ((a + j) % L) x y| ≤ |c.vars.beta| * K := by
    rw [abs_mul]
    exact mul_le_mul_of_nonneg_left h1 (abs_nonneg _)
  rw [abs_le] at h2
  exact clip_eq (by rw [Real.exp_le_exp]; linarith) (by rw [Real.exp_le_exp]; linarith)

/-- site at position `j` counted from site `a` -/
def turnEquiv (hL : 0 < L) (a : ℕ) : Fin L ≃ Fin L :=
  haveI : NeZero L := ⟨hL.ne'⟩
  Equiv.addLeft (Fin.ofNat L a)

theorem turn_val (hL : 0 < L) (a : ℕ) (j : Fin L) : ((turnEquiv hL a j : Fin L) : ℕ) = (a + j) % L := by
  have : NeZero L := ⟨hL.ne'⟩
  show ((Fin.ofNat L a + j : Fin L) : ℕ) = _
  rw [Fin.val_add]
  simp [Fin.ofNat]

theorem sum_turn (hL : 0 < L) (a : ℕ) (g : ℕ → ℝ) : ∑ i ∈ range L, g i = ∑ j ∈ range L, g ((a + j) % L) := by
  rw [← Fin.sum_univ_eq_sum_range, ← Fin.sum_univ_eq_sum_range (fun j => g ((a + j) % L)),
    ← Equiv.sum_comp (turnEquiv hL a)]
  refine Finset.sum_congr rfl fun j _ => ?_
  rw [turn_val]

/-- the spins on the ring when `u j` sits at position `j` counted from site `a` -/
def turned (hL : 0 < L) (a : ℕ) (u : Fin L → V3 ℝ) : Fin L → V3 ℝ := fun i => u ((turnEquiv hL a).symm i)

theorem turned_pres (hL : 0 < L) (a : ℕ) : MeasurePreserving (turned hL a) (Measure.pi fun _ : Fin L => sphereMeasure)
    (Measure.pi fun _ : Fin L => sphereMeasure) := by
  have h := measurePreserving_piCongrLeft (fun _ : Fin L => sphereMeasure) (turnEquiv hL a)
  have e : (MeasurableEquiv.piCongrLeft (fun _ : Fin L => V3 ℝ) (turnEquiv hL a) : (Fin L → V3 ℝ) → Fin L → V3 ℝ)
      = turned hL a := by
    funext u i
    obtain ⟨j, rfl⟩ := (turnEquiv hL a).surjective i
    rw [MeasurableEquiv.coe_piCongrLeft, Equiv.piCongrLeft_apply_apply]
    simp [turned]
  rw [e] at h
  exact h

theorem fld_turned (hL : 0 < L) (a : ℕ) (u : Fin L → V3 ℝ) (j : ℕ) : fld (turned hL a u) ((a + j) % L) = Cluster.at' hL u j := by
  have h1 : (a + j) % L = ((turnEquiv hL a ⟨j % L, Nat.mod_lt _ hL⟩ : Fin L) : ℕ) := by
    rw [turn_val]
    simp
  rw [h1, fld_val, turned, Equiv.symm_apply_apply]
  rfl

theorem whole_turned (w : WF c L s) (hL : 2 ≤ L) (a : ℕ) (u : Fin L → V3 ℝ) :
    wholeEnergy L (withSpins c (turned (by omega) a u))
      = ∑ j ∈ range L, bondAt c ((a + j) % L) (Cluster.at' (by omega) u j) (Cluster.at' (by omega) u (j + 1)) := by
  have hL0 : 0 < L := by omega
  rw [whole_ring w hL, ringEnergy, sum_turn hL0 a]
  refine Finset.sum_congr rfl fun j _ => ?_
  rw [show ((a + j) % L + 1) % L = (a + (j + 1)) % L by rw [Nat.mod_add_mod]; rfl, fld_turned hL0, fld_turned hL0]
  rfl

theorem weight_turned (w : WF c L s) (hL : 2 ≤ L) (a : ℕ) {K : ℝ} (hK : ∀ i < L, len (J c i) + len (H0 c i) ≤ K)
    {u : Fin L → V3 ℝ} (hu : ∀ i, len (u i) = 1) :
    Real.exp (-(c.vars.beta * wholeEnergy L (withSpins c (turned (by omega) a u))))
      = Cluster.ring (kern c L a K) (by omega) u := by
  rw [whole_turned w hL, Cluster.ring, Finset.mul_sum, ← Finset.sum_neg_distrib, Real.exp_sum]
  refine Finset.prod_congr rfl fun j _ => ?_
  exact (kern_eq (hK _ (Nat.mod_lt _ (by omega))) (hu _) (hu _)).symm

theorem good_turned (hL : 0 < L) (a : ℕ) {u : Fin L → V3 ℝ} (hu : ∀ i, len (u i) = 1) : ∀ i, len (turned hL a u i) = 1 :=
  fun _ => hu _

/-- an observable as a function of the positions counted from site `a`, cut off off the unit sphere -/
noncomputable def seen (c : SpinChain ℝ) (hL : 0 < L) (a : ℕ) (C : ℝ) (f : SpinChain ℝ → ℝ) (u : Fin L → V3 ℝ) : ℝ :=
  clip (-C) C (f (withSpins c (turned hL a u)))

theorem seen_meas {C : ℝ} {f : SpinChain ℝ → ℝ} (hL : 0 < L) (a : ℕ) (hf : BoundedBy c L C f) : Measurable (seen c hL a C f) := by
  have := hf.meas.comp (turned_pres hL a).measurable
  exact measurable_const.max (measurable_const.min this)

theorem seen_abs {C : ℝ} {f : SpinChain ℝ → ℝ} (hL : 0 < L) (a : ℕ) (C0 : 0 ≤ C) (u : Fin L → V3 ℝ) : |seen c hL a C f u| ≤ C := by
  rw [abs_le]
  exact ⟨le_max_left _ _, max_le (by linarith) (min_le_left _ _)⟩

theorem seen_eq {C : ℝ} {f : SpinChain ℝ → ℝ} (hL : 0 < L) (a : ℕ) (hf : BoundedBy c L C f) {u : Fin L → V3 ℝ}
    (hu : ∀ i, len (u i) = 1) : seen c hL a C f u = f (withSpins c (turned hL a u)) := by
  have := abs_le.1 (hf.bound _ (good_turned hL a hu))
  exact clip_eq this.1 this.2

theorem _root_.Verif.Spec.BoundedBy.nonneg {C : ℝ} {f : SpinChain ℝ → ℝ} (hf : BoundedBy c L C f) : 0 ≤ C :=
  (abs_nonneg _).trans (hf.bound (fun _ => ⟨0, 0, 1⟩) fun _ => by simp [len, dot])

theorem units_ae : ∀ᵐ u ∂(Measure.pi fun _ : Fin L => sphereMeasure), ∀ i, len (u i) = 1 := Markov.good_ae sphere_ae

/-- sums over the Boltzmann distribution in the positions counted from site `a` -/
theorem weight_int (w : WF c L s) (hL : 2 ≤ L) (a : ℕ) {K : ℝ} (hK : ∀ i < L, len (J c i) + len (H0 c i) ≤ K)
    {F : SpinChain ℝ → ℝ} {G : (Fin L → V3 ℝ) → ℝ} (mF : Measurable fun v : Fin L → V3 ℝ => F (withSpins c v))
    (h : ∀ u : Fin L → V3 ℝ, (∀ i, len (u i) = 1) → F (withSpins c (turned (by omega) a u)) = G u) :
    ∫ v : Fin L → V3 ℝ, Real.exp (-(c.vars.beta * wholeEnergy L (withSpins c v))) * F (withSpins c v)
        ∂(Measure.pi fun _ => sphereMeasure)
      = ∫ u, Cluster.ring (kern c L a K) (by omega) u * G u ∂(Measure.pi fun _ => sphereMeasure) := by
  have hL0 : 0 < L := by omega
  have hp := turned_pres hL0 a
  have mW : Measurable fun v : Fin L → V3 ℝ => Real.exp (-(c.vars.beta * wholeEnergy L (withSpins c v))) :=
    ((whole_tame w hL).meas.const_mul _).neg.exp
  conv_lhs => rw [← hp.map_eq]
  rw [integral_map hp.measurable.aemeasurable
    (f := fun v => Real.exp (-(c.vars.beta * wholeEnergy L (withSpins c v))) * F (withSpins c v)) (mW.mul mF).aestronglyMeasurable]
  refine integral_congr_ae ?_
  filter_upwards [units_ae] with u hu
  rw [weight_turned w hL a hK hu, h u hu]

theorem weight_norm (w : WF c L s) (hL : 2 ≤ L) (a : ℕ) {K : ℝ} (hK : ∀ i < L, len (J c i) + len (H0 c i) ≤ K) :
    ∫ v : Fin L → V3 ℝ, Real.exp (-(c.vars.beta * wholeEnergy L (withSpins c v))) ∂(Measure.pi fun _ => sphereMeasure)
      = ∫ u, Cluster.ring (kern c L a K) (by omega) u ∂(Measure.pi fun _ : Fin L => sphereMeasure) := by
  have h := weight_int w hL a hK (F := fun _ => 1) (G := fun _ => 1) measurable_const fun _ _ => rfl
  simpa using h

theorem K_nonneg (hL : 2 ≤ L) {K : ℝ} (hK : ∀ i < L, len (J c i) + len (H0 c i) ≤ K) : 0 ≤ K :=
  (add_nonneg (len_nonneg _) (len_nonneg _)).trans (hK 0 (by omega))

theorem ring_pos {a : ℕ} {K : ℝ} (hL : 0 < L) (K0 : 0 ≤ K) :
    0 < ∫ u, Cluster.ring (kern c L a K) hL u ∂(Measure.pi fun _ : Fin L => sphereMeasure) := by
  have Kk := kern_kernels c L a K0
  have e : Cluster.ring (kern c L a K) hL = Cluster.arc (kern c L a K) hL 0 L := by
    funext v
    rw [Cluster.ring, Cluster.arc, range_eq_Ico]
  rw [e, integral_pos_iff_support_of_nonneg (fun u => (Cluster.arc_pos Kk hL 0 L u).le)
    (Cluster.bi (Cluster.arc_meas Kk hL 0 L) fun u => Cluster.arc_abs Kk hL 0 L u)]
  have : Function.support (Cluster.arc (kern c L a K) hL 0 L) = Set.univ := by
    ext u
    simpa using (Cluster.arc_pos Kk hL 0 L u).ne'
  rw [this]
  simp

theorem slack_influence (b K : ℝ) (n : ℕ) :
    Cluster.slack (Real.exp (-(|b| * K))) (Real.exp (|b| * K)) n = influence b K n := by
  unfold Cluster.slack influence
  rw [← Real.exp_sub, ← Real.exp_sub, ← Real.exp_nat_mul]
  congr 2
  · push_cast
    ring
  · congr 2
    ring

/-- C124: the correlation of observables of two blocks of the chain, separated by `n` sites on one side and by `r` on the
other, dies out exponentially with the separation.  The rate depends on the temperature and the size of the couplings and
fields only: neither on the length of the chain nor on the blocks. -/
theorem C124_correlations (c : SpinChain ℝ) (L s : ℕ) (w : WF c L s) (hL : 2 ≤ L) (K : ℝ)
    (hK : ∀ i < L, len (J c i) + len (H0 c i) ≤ K) (a p n q r : ℕ) (p0 : 0 < p) (q0 : 0 < q) (e : p + n + q + r = L)
    (f g : SpinChain ℝ → ℝ) (C C' : ℝ) (hf : BoundedBy c L C f) (hg : BoundedBy c L C' g)
    (rf : ReadsBlock L a p f) (rg : ReadsBlock L (a + p + n) q g) :
    |thermalCov c L (wholeEnergy L) f g|
      ≤ ((1 + influence c.vars.beta K n) * (1 + influence c.vars.beta K r) - 1) * (C * C') := by
  have hL0 : 0 < L := by omega
  have K0 := K_nonneg hL hK
  have Z := ring_pos (c := c) (a := a) hL0 K0
  have key := Cluster.ring_cov (μ := sphereMeasure) (kern_kernels c L a K0) hL0 p0 q0 e (seen_meas hL0 a hg) (seen_meas hL0 a hf)
    (seen_abs hL0 a hg.nonneg) (seen_abs hL0 a hf.nonneg)
    (fun v v' h => by
      unfold seen
      rw [rg (withSpins c (turned hL0 a v)) (withSpins c (turned hL0 a v')) fun j hj => ?_]
      rw [S_fld, S_fld, show a + p + n + j = a + (p + n + j) by ring, fld_turned, fld_turned]
      have : (p + n + j) % L = p + n + j := Nat.mod_eq_of_lt (by omega)
      refine h _ ?_ ?_
      · show p + n ≤ (p + n + j) % L
        omega
      · show (p + n + j) % L < _
        omega)
    (fun v v' h => by
      unfold seen
      rw [rf (withSpins c (turned hL0 a v)) (withSpins c (turned hL0 a v')) fun j hj => ?_]
      rw [S_fld, S_fld, fld_turned, fld_turned]
      have : j % L = j := Nat.mod_eq_of_lt (by omega)
      refine h _ ?_
      show j % L < p
      omega)
  unfold thermalCov thermalMean
  rw [weight_norm w hL a hK, weight_int w hL a hK (F := fun x => f x * g x) (G := fun u => seen c hL0 a C' g u * seen c hL0 a C f u)
      (hf.meas.mul hg.meas) fun u hu => by rw [seen_eq hL0 a hf hu, seen_eq hL0 a hg hu, mul_comm],
    weight_int w hL a hK (F := f) (G := seen c hL0 a C f) hf.meas fun u hu => (seen_eq hL0 a hf hu).symm,
    weight_int w hL a hK (F := g) (G := seen c hL0 a C' g) hg.meas fun u hu => (seen_eq hL0 a hg hu).symm]
  rw [slack_influence, slack_influence] at key
  set z := ∫ u, Cluster.ring (kern c L a K) hL0 u ∂(Measure.pi fun _ : Fin L => sphereMeasure)
  set x := ∫ u, Cluster.ring (kern c L a K) hL0 u * (seen c hL0 a C' g u * seen c hL0 a C f u) ∂(Measure.pi fun _ : Fin L => sphereMeasure)
  set y1 := ∫ u, Cluster.ring (kern c L a K) hL0 u * seen c hL0 a C' g u ∂(Measure.pi fun _ : Fin L => sphereMeasure)
  set y2 := ∫ u, Cluster.ring (kern c L a K) hL0 u * seen c hL0 a C f u ∂(Measure.pi fun _ : Fin L => sphereMeasure)
  have h1 : x / z - y2 / z * (y1 / z) = (x * z - y1 * y2) / z ^ 2 := by
    field_simp
  rw [h1, abs_div, abs_of_pos (pow_pos Z 2), div_le_iff₀ (pow_pos Z 2)]
  refine key.trans (le_of_eq ?_)
  ring

theorem influence_nonneg (b : ℝ) {K : ℝ} (K0 : 0 ≤ K) (n : ℕ) : 0 ≤ influence b K n := by
  have h : Real.exp (-(2 * (|b| * K))) ≤ 1 := by
    rw [Real.exp_le_one_iff]
    have := mul_nonneg (abs_nonneg b) K0
    linarith
  exact mul_nonneg (Real.exp_pos _).le (pow_nonneg (by linarith) _)

theorem influence_anti (b : ℝ) {K : ℝ} (K0 : 0 ≤ K) {d n : ℕ} (h : d ≤ n) : influence b K n ≤ influence b K d := by
  have h1 : Real.exp (-(2 * (|b| * K))) ≤ 1 := by
    rw [Real.exp_le_one_iff]
    have := mul_nonneg (abs_nonneg b) K0
    linarith
  have h2 := Real.exp_pos (-(2 * (|b| * K)))
  exact mul_le_mul_of_nonneg_left (pow_le_pow_of_le_one (by linarith) (by linarith) h) (Real.exp_pos _).le

/-- C124: the same with one distance: blocks at least `d` sites apart on either side. -/
theorem C124_distance (c : SpinChain ℝ) (L s : ℕ) (w : WF c L s) (hL : 2 ≤ L) (K : ℝ)
    (hK : ∀ i < L, len (J c i) + len (H0 c i) ≤ K) (d : ℕ) (a p n q r : ℕ) (p0 : 0 < p) (q0 : 0 < q) (e : p + n + q + r = L)
    (hn : d ≤ n) (hr : d ≤ r) (f g : SpinChain ℝ → ℝ) (C C' : ℝ) (hf : BoundedBy c L C f) (hg : BoundedBy c L C' g)
    (rf : ReadsBlock L a p f) (rg : ReadsBlock L (a + p + n) q g) :
    |thermalCov c L (wholeEnergy L) f g|
      ≤ 3 * Real.exp (8 * (|c.vars.beta| * K)) * (1 - Real.exp (-(2 * (|c.vars.beta| * K)))) ^ d * (C * C') := by
  have K0 := K_nonneg hL hK
  refine (C124_correlations c L s w hL K hK a p n q r p0 q0 e f g C C' hf hg rf rg).trans
    (mul_le_mul_of_nonneg_right ?_ (mul_nonneg hf.nonneg hg.nonneg))
  have h1 := influence_anti c.vars.beta K0 hn
  have h2 := influence_anti c.vars.beta K0 hr
  have h0 := influence_nonneg c.vars.beta K0 n
  have h0' := influence_nonneg c.vars.beta K0 r
  have hd := influence_nonneg c.vars.beta K0 d
  have hA : influence c.vars.beta K d ≤ Real.exp (4 * (|c.vars.beta| * K)) := by
    have := influence_anti c.vars.beta K0 (Nat.zero_le d)
    simpa [influence] using this
  have h8 : Real.exp (8 * (|c.vars.beta| * K)) = Real.exp (4 * (|c.vars.beta| * K)) * Real.exp (4 * (|c.vars.beta| * K)) := by
    rw [← Real.exp_add]
    ring_nf
  have hA1 : 1 ≤ Real.exp (4 * (|c.vars.beta| * K)) := by
    rw [Real.one_le_exp_iff]
    have := mul_nonneg (abs_nonneg c.vars.beta) K0
    linarith
  have h9 : 3 * Real.exp (8 * (|c.vars.beta| * K)) * (1 - Real.exp (-(2 * (|c.vars.beta| * K)))) ^ d
      = 3 * Real.exp (4 * (|c.vars.beta| * K)) * influence c.vars.beta K d := by
    rw [h8, influence]
    ring
  rw [h9]
  set x := influence c.vars.beta K d
  set A := Real.exp (4 * (|c.vars.beta| * K))
  have h3 : influence c.vars.beta K n * influence c.vars.beta K r ≤ x * x := mul_le_mul h1 h2 h0' hd
  nlinarith [mul_le_mul_of_nonneg_right hA hd, mul_le_mul_of_nonneg_right hA1 hd]

/-! ### Fluctuations of sums -/

theorem thermal_mean_eq (c : SpinChain ℝ) (L : ℕ) (E f : SpinChain ℝ → ℝ) : thermalMean c L E f =
    Response.mean (Measure.pi fun _ : Fin L => sphereMeasure) c.vars.beta (fun v => E (withSpins c v)) fun v => f (withSpins c v) :=
  rfl

theorem thermal_cov_eq (c : SpinChain ℝ) (L : ℕ) (E f g : SpinChain ℝ → ℝ) : thermalCov c L E f g =
    Response.cov (Measure.pi fun _ : Fin L => sphereMeasure) c.vars.beta (fun v => E (withSpins c v)) (fun v => f (withSpins c v))
      fun v => g (withSpins c v) :=
  rfl

theorem BoundedBy_ae {C : ℝ} {f : SpinChain ℝ → ℝ} (hf : BoundedBy c L C f) :
    ∀ᵐ v ∂(Measure.pi fun _ : Fin L => sphereMeasure), |f (withSpins c v)| ≤ C :=
  units_ae.mono fun v hv => hf.bound v hv

theorem whole_ae (w : WF c L s) (hL : 2 ≤ L) : ∃ D, ∀ᵐ v ∂(Measure.pi fun _ : Fin L => sphereMeasure),
    |wholeEnergy L (withSpins c v)| ≤ D := by
  obtain ⟨D, hD⟩ := (whole_tame w hL).bound
  exact ⟨D, units_ae.mono fun v hv => hD v hv⟩

theorem bounded_mul {C C' : ℝ} {f g : SpinChain ℝ → ℝ} (hf : BoundedBy c L C f) (hg : BoundedBy c L C' g) :
    BoundedBy c L (C * C') fun x => f x * g x :=
  ⟨hf.meas.mul hg.meas, fun v hv => Cluster.mul_abs (hf.bound v hv) (hg.bound v hv)⟩

theorem bounded_sum {C : ℝ} {f : ℕ → SpinChain ℝ → ℝ} (n : ℕ) (hf : ∀ i < n, BoundedBy c L C (f i)) :
    BoundedBy c L (n * C) fun x => ∑ i ∈ range n, f i x := by
  constructor
  · exact Finset.measurable_sum _ fun i hi => (hf i (mem_range.1 hi)).meas
  · intro v hv
    refine (Finset.abs_sum_le_sum_abs _ _).trans ?_
    refine (Finset.sum_le_sum fun i hi => (hf i (mem_range.1 hi)).bound v hv).trans (le_of_eq ?_)
    simp

theorem thermal_mean_sum (w : WF c L s) (hL : 2 ≤ L) {C : ℝ} {f : ℕ → SpinChain ℝ → ℝ} (n : ℕ) (hf : ∀ i < n, BoundedBy c L C (f i)) :
    thermalMean c L (wholeEnergy L) (fun x => ∑ i ∈ range n, f i x) = ∑ i ∈ range n, thermalMean c L (wholeEnergy L) (f i) := by
  obtain ⟨D, hD⟩ := whole_ae w hL
  induction n with
  | zero =>
    simp only [Finset.range_zero, Finset.sum_empty]
    exact Response.mean_const _ 0 (whole_tame w hL).meas hD
  | succ n ih =>
    simp only [Finset.sum_range_succ]
    rw [← ih fun i hi => hf i (by omega)]
    exact Response.mean_add _ (whole_tame w hL).meas hD (bounded_sum n fun i hi => hf i (by omega)).meas (hf n (by omega)).meas
      (BoundedBy_ae (bounded_sum n fun i hi => hf i (by omega))) (BoundedBy_ae (hf n (by omega)))

theorem thermal_cov_sum (w : WF c L s) (hL : 2 ≤ L) {C C' : ℝ} {f : ℕ → SpinChain ℝ → ℝ} {g : SpinChain ℝ → ℝ} (n : ℕ)
    (hf : ∀ i < n, BoundedBy c L C (f i)) (hg : BoundedBy c L C' g) :
    thermalCov c L (wholeEnergy L) (fun x => ∑ i ∈ range n, f i x) g = ∑ i ∈ range n, thermalCov c L (wholeEnergy L) (f i) g := by
  unfold thermalCov
  simp only [Finset.sum_mul]
  rw [thermal_mean_sum w hL n hf, thermal_mean_sum (f := fun i x => f i x * g x) w hL n fun i hi => bounded_mul (hf i hi) hg,
    Finset.sum_sub_distrib, Finset.sum_mul]

theorem thermal_cov_comm (f g : SpinChain ℝ → ℝ) : thermalCov c L (wholeEnergy L) f g = thermalCov c L (wholeEnergy L) g f := by
  unfold thermalCov
  rw [mul_comm (thermalMean c L (wholeEnergy L) f)]
  simp only [mul_comm]

theorem thermal_mean_abs (w : WF c L s) (hL : 2 ≤ L) {C : ℝ} {f : SpinChain ℝ → ℝ} (hf : BoundedBy c L C f) :
    |thermalMean c L (wholeEnergy L) f| ≤ C := by
  obtain ⟨D, hD⟩ := whole_ae w hL
  have Z := SecondLaw.weight_pos c.vars.beta (whole_tame w hL).meas hD
  unfold thermalMean
  rw [abs_div, abs_of_pos Z, div_le_iff₀ Z, ← integral_const_mul]
  refine (abs_integral_le_integral_abs).trans (integral_mono_ae ?_ ?_ ?_)
  · exact (SecondLaw.integrable_mul c.vars.beta (whole_tame w hL).meas hD hf.meas (BoundedBy_ae hf)).abs
  · have := (SecondLaw.integrable_mul c.vars.beta (whole_tame w hL).meas hD (measurable_const (a := (1 : ℝ)))
      (K := 1) (Filter.Eventually.of_forall fun _ => by simp)).const_mul C
    simpa using this
  · filter_upwards [BoundedBy_ae hf] with v hv
    show |_| ≤ _
    rw [abs_mul, abs_of_pos (Real.exp_pos _), mul_comm]
    exact mul_le_mul_of_nonneg_right hv (Real.exp_pos _).le

theorem thermal_cov_abs (w : WF c L s) (hL : 2 ≤ L) {C C' : ℝ} {f g : SpinChain ℝ → ℝ} (hf : BoundedBy c L C f)
    (hg : BoundedBy c L C' g) : |thermalCov c L (wholeEnergy L) f g| ≤ 2 * (C * C') := by
  have h1 := thermal_mean_abs w hL (bounded_mul hf hg)
  have h2 := Cluster.mul_abs (thermal_mean_abs w hL hf) (thermal_mean_abs w hL hg)
  unfold thermalCov
  refine (abs_sub _ _).trans ?_
  linarith

theorem influence_sum (b : ℝ) {K : ℝ} (K0 : 0 ≤ K) (n : ℕ) : ∑ m ∈ range n, influence b K m ≤ Real.exp (6 * (|b| * K)) := by
  unfold influence
  rw [← Finset.mul_sum]
  set q := Real.exp (-(2 * (|b| * K))) with hq
  have q0 : 0 < q := Real.exp_pos _
  have h1 := mul_neg_geom_sum (1 - q) n
  have h2 : Real.exp (6 * (|b| * K)) = Real.exp (4 * (|b| * K)) * q⁻¹ := by
    rw [hq, ← Real.exp_neg, ← Real.exp_add]
    ring_nf
  rw [h2]
  refine mul_le_mul_of_nonneg_left ?_ (Real.exp_pos _).le
  have q1 : q ≤ 1 := by
    rw [hq, Real.exp_le_one_iff]
    have := mul_nonneg (abs_nonneg b) K0
    linarith
  have h3 : 0 ≤ (1 - q) ^ n := pow_nonneg (by linarith) _
  rw [← one_div, le_div_iff₀ q0]
  linarith

theorem cov_offset (w : WF c L s) (hL : 2 ≤ L) {K : ℝ} (hK : ∀ i < L, len (J c i) + len (H0 c i) ≤ K) {C : ℝ}
    {f : ℕ → SpinChain ℝ → ℝ} (hf : ∀ i < L, BoundedBy c L C (f i)) (rf : ∀ i < L, ReadsBlock L i 2 (f i)) {i m l : ℕ} (hi : i < L)
    (hm : m < l) (hl : l + 3 = L) :
    |thermalCov c L (wholeEnergy L) (f ((i + (m + 2)) % L)) (f i)| ≤ (influence c.vars.beta K m +
      (1 + Real.exp (4 * (|c.vars.beta| * K))) * influence c.vars.beta K (l - 1 - m)) * (C * C) := by
  have K0 := K_nonneg hL hK
  have hj : (i + (m + 2)) % L < L := Nat.mod_lt _ (by omega)
  have rg : ReadsBlock L (i + 2 + m) 2 (f ((i + (m + 2)) % L)) := fun x x' h => rf _ hj x x' fun j hj => by
    have := h j hj
    rw [Nat.mod_add_mod]
    rwa [show i + (m + 2) + j = i + 2 + m + j by ring]
  rw [thermal_cov_comm]
  refine (C124_correlations c L s w hL K hK i 2 m 2 (l - 1 - m) (by omega) (by omega) (by omega) _ _ C C (hf i hi) (hf _ hj)
    (rf i hi) rg).trans (mul_le_mul_of_nonneg_right ?_ (mul_self_nonneg C))
  have h1 : influence c.vars.beta K m ≤ Real.exp (4 * (|c.vars.beta| * K)) := by
    have := influence_anti c.vars.beta K0 (Nat.zero_le m)
    simpa [influence] using this
  have h2 := mul_le_mul_of_nonneg_right h1 (influence_nonneg c.vars.beta K0 (l - 1 - m))
  linarith

theorem cov_row (w : WF c L s) (hL : 2 ≤ L) {K : ℝ} (hK : ∀ i < L, len (J c i) + len (H0 c i) ≤ K) {C : ℝ}
    {f : ℕ → SpinChain ℝ → ℝ} (hf : ∀ i < L, BoundedBy c L C (f i)) (rf : ∀ i < L, ReadsBlock L i 2 (f i)) {i : ℕ} (hi : i < L) :
    |∑ j ∈ range L, thermalCov c L (wholeEnergy L) (f j) (f i)| ≤ perSite c.vars.beta K * (C * C) := by
  have K0 := K_nonneg hL hK
  have C0 : 0 ≤ C * C := mul_self_nonneg C
  have triv : ∀ m, |thermalCov c L (wholeEnergy L) (f ((i + m) % L)) (f i)| ≤ 2 * (C * C) := fun m =>
    thermal_cov_abs w hL (hf _ (Nat.mod_lt _ (by omega))) (hf i hi)
  have A0 := Real.exp_pos (4 * (|c.vars.beta| * K))
  have B0 := Real.exp_pos (6 * (|c.vars.beta| * K))
  rw [sum_turn (by omega : 0 < L) i]
  refine (Finset.abs_sum_le_sum_abs _ _).trans ?_
  rcases Nat.lt_or_ge L 3 with h3 | h3
  · obtain rfl : L = 2 := by omega
    rw [Finset.sum_range_succ, Finset.sum_range_succ, Finset.sum_range_zero]
    have h1 := triv 0
    have h2 := triv 1
    have h4 : 6 * (C * C) ≤ perSite c.vars.beta K * (C * C) := by
      refine mul_le_mul_of_nonneg_right ?_ C0
      unfold perSite
      nlinarith
    linarith
  · obtain ⟨l, hl⟩ : ∃ l, l + 3 = L := ⟨L - 3, by omega⟩
    have h5 : ∑ m ∈ range L, |thermalCov c L (wholeEnergy L) (f ((i + m) % L)) (f i)| =
        ∑ m ∈ range l, |thermalCov c L (wholeEnergy L) (f ((i + (m + 2)) % L)) (f i)| +
          |thermalCov c L (wholeEnergy L) (f ((i + (l + 2)) % L)) (f i)| + |thermalCov c L (wholeEnergy L) (f ((i + 1) % L)) (f i)|
            + |thermalCov c L (wholeEnergy L) (f ((i + 0) % L)) (f i)| := by
      have : ∀ g : ℕ → ℝ, ∑ m ∈ range L, g m = ∑ m ∈ range l, g (m + 2) + g (l + 2) + g 1 + g 0 := fun g => by
        rw [← hl, Finset.sum_range_succ', Finset.sum_range_succ', Finset.sum_range_succ]
      exact this fun m => |thermalCov c L (wholeEnergy L) (f ((i + m) % L)) (f i)|
    rw [h5]
    have h6 : ∑ m ∈ range l, |thermalCov c L (wholeEnergy L) (f ((i + (m + 2)) % L)) (f i)| ≤
        (2 + Real.exp (4 * (|c.vars.beta| * K))) * Real.exp (6 * (|c.vars.beta| * K)) * (C * C) := by
      refine (Finset.sum_le_sum fun m hm => cov_offset w hL hK hf rf hi (mem_range.1 hm) hl).trans ?_
      rw [← Finset.sum_mul, Finset.sum_add_distrib, ← Finset.mul_sum,
        Finset.sum_range_reflect (fun m => influence c.vars.beta K m) l]
      refine mul_le_mul_of_nonneg_right ?_ C0
      have := influence_sum c.vars.beta K0 l
      nlinarith [mul_le_mul_of_nonneg_left this A0.le]
    have h7 := triv 0
    have h8 := triv 1
    have h9 := triv (l + 2)
    unfold perSite
    nlinarith

/-- C124: the variance of a sum of terms that each read a site and its right neighbour grows at most in proportion to the
length of the chain. -/
theorem C124_fluctuations (c : SpinChain ℝ) (L s : ℕ) (w : WF c L s) (hL : 2 ≤ L) (K : ℝ)
    (hK : ∀ i < L, len (J c i) + len (H0 c i) ≤ K) (f : ℕ → SpinChain ℝ → ℝ) (C : ℝ) (hf : ∀ i < L, BoundedBy c L C (f i))
    (rf : ∀ i < L, ReadsBlock L i 2 (f i)) :
    thermalCov c L (wholeEnergy L) (fun x => ∑ i ∈ range L, f i x) (fun x => ∑ i ∈ range L, f i x)
      ≤ L * (perSite c.vars.beta K * C ^ 2) := by
  rw [thermal_cov_sum w hL L hf (bounded_sum L hf)]
  have h : ∀ i ∈ range L, thermalCov c L (wholeEnergy L) (f i) (fun x => ∑ i ∈ range L, f i x) ≤ perSite c.vars.beta K * C ^ 2 := by
    intro i hi
    rw [mem_range] at hi
    rw [thermal_cov_comm, thermal_cov_sum w hL L hf (hf i hi), pow_two]
    exact (le_abs_self _).trans (cov_row w hL hK hf rf hi)
  refine (Finset.sum_le_sum h).trans (le_of_eq ?_)
  simp

/-- the terms of the energy -/
noncomputable def energyTerm (c : SpinChain ℝ) (L i : ℕ) (x : SpinChain ℝ) : ℝ := bondAt c i (S x i) (S x ((i + 1) % L))

theorem energyTerm_reads (c : SpinChain ℝ) (L : ℕ) {i : ℕ} (hi : i < L) : ReadsBlock L i 2 (energyTerm c L i) := fun x x' h => by
  have h0 := h 0 (by omega)
  have h1 := h 1 (by omega)
  rw [add_zero, Nat.mod_eq_of_lt hi] at h0
  unfold energyTerm
  rw [h0, h1]

theorem energyTerm_bounded {K : ℝ} (hK : ∀ i < L, len (J c i) + len (H0 c i) ≤ K) {i : ℕ} (hi : i < L) :
    BoundedBy c L K (energyTerm c L i) := by
  have hj : (i + 1) % L < L := Nat.mod_lt _ (by omega)
  have e : ∀ v : Fin L → V3 ℝ, energyTerm c L i (withSpins c v) = bondAt c i (v ⟨i, hi⟩) (v ⟨(i + 1) % L, hj⟩) := fun v => by
    unfold energyTerm
    rw [S_fld]
    unfold fld
    rw [dif_pos hi, dif_pos hj]
  constructor
  · simp only [e]
    have ma : ∀ k : Fin L, Measurable fun v : Fin L → V3 ℝ => v k := fun k => measurable_pi_apply k
    exact (bondAt_meas c i).comp ((ma _).prodMk (ma _))
  · intro v hv
    rw [e]
    exact bondAt_bound (hK i hi) (hv _) (hv _)

theorem whole_terms (w : WF c L s) (hL : 2 ≤ L) (v : Fin L → V3 ℝ) :
    wholeEnergy L (withSpins c v) = ∑ i ∈ range L, energyTerm c L i (withSpins c v) := by
  rw [whole_ring w hL, ringEnergy]
  refine Finset.sum_congr rfl fun i _ => ?_
  unfold energyTerm
  rw [S_fld]
  rfl

theorem thermal_cov_congr {f f' g g' : SpinChain ℝ → ℝ} (h : ∀ v : Fin L → V3 ℝ, f (withSpins c v) = f' (withSpins c v))
    (h' : ∀ v : Fin L → V3 ℝ, g (withSpins c v) = g' (withSpins c v)) (E : SpinChain ℝ → ℝ) :
    thermalCov c L E f g = thermalCov c L E f' g' := by
  unfold thermalCov thermalMean
  simp only [h, h']

/-- C124: the variance of the energy grows at most in proportion to the length of the chain. -/
theorem C124_energy (c : SpinChain ℝ) (L s : ℕ) (w : WF c L s) (hL : 2 ≤ L) (K : ℝ)
    (hK : ∀ i < L, len (J c i) + len (H0 c i) ≤ K) :
    thermalCov c L (wholeEnergy L) (wholeEnergy L) (wholeEnergy L) ≤ L * (perSite c.vars.beta K * K ^ 2) := by
  have h := C124_fluctuations c L s w hL K hK (energyTerm c L) K (fun i hi => energyTerm_bounded hK hi)
    fun i hi => energyTerm_reads c L hi
  rwa [thermal_cov_congr (f' := fun x => ∑ i ∈ range L, energyTerm c L i x) (g' := fun x => ∑ i ∈ range L, energyTerm c L i x)
    (whole_terms w hL) (whole_terms w hL)]

theorem chebyshev (w : WF c L s) (hL : 2 ≤ L) {D : ℝ} {F : SpinChain ℝ → ℝ} (hF : BoundedBy c L D F) {x : ℝ} (x0 : 0 < x) :
    thermalMean c L (wholeEnergy L) (fun c' => if x ≤ |F c' - thermalMean c L (wholeEnergy L) F| then 1 else 0)
      ≤ thermalCov c L (wholeEnergy L) F F / x ^ 2 := by
  obtain ⟨DE, hD⟩ := whole_ae w hL
  have mE := (whole_tame w hL).meas
  have Z := SecondLaw.weight_pos c.vars.beta mE hD
  set m := thermalMean c L (wholeEnergy L) F with hm
  have hc : thermalCov c L (wholeEnergy L) F F = thermalMean c L (wholeEnergy L) fun c' => (F c' - m) * (F c' - m) :=
    Response.cov_centre c.vars.beta mE hD hF.meas hF.meas (BoundedBy_ae hF) (BoundedBy_ae hF)
  have bd : ∀ᵐ v ∂(Measure.pi fun _ : Fin L => sphereMeasure), |(F (withSpins c v) - m) * (F (withSpins c v) - m)| ≤ (D + |m|) * (D + |m|) := by
    filter_upwards [BoundedBy_ae hF] with v hv
    have : |F (withSpins c v) - m| ≤ D + |m| := (abs_sub _ _).trans (by linarith)
    exact Cluster.mul_abs this this
  have md : Measurable fun v : Fin L → V3 ℝ => F (withSpins c v) - m := hF.meas.sub_const m
  have mi : Measurable fun v : Fin L → V3 ℝ => (if x ≤ |F (withSpins c v) - m| then 1 else 0 : ℝ) :=
    Measurable.ite (measurableSet_le measurable_const md.abs) measurable_const measurable_const
  rw [hc, le_div_iff₀ (by positivity)]
  unfold thermalMean
  rw [div_mul_eq_mul_div, div_le_div_iff_of_pos_right Z, ← integral_mul_const]
  refine integral_mono_ae ((SecondLaw.integrable_mul c.vars.beta mE hD mi (K := 1) (Filter.Eventually.of_forall fun v => ?_)).mul_const _)
    (SecondLaw.integrable_mul c.vars.beta mE hD (md.mul md) bd) (Filter.Eventually.of_forall fun v => ?_)
  · split_ifs <;> simp
  · show Real.exp _ * _ * x ^ 2 ≤ Real.exp _ * _
    rw [mul_assoc]
    refine mul_le_mul_of_nonneg_left ?_ (Real.exp_pos _).le
    dsimp only
    split_ifs with h
    · have := mul_le_mul h h x0.le (abs_nonneg _)
      rw [abs_mul_abs_self] at this
      rw [one_mul, pow_two]
      exact this
    · rw [zero_mul]
      exact mul_self_nonneg _

/-- C124: averages over the chain are sharp.  The probability that the average over the sites of terms reading a site and
its right neighbour is off its thermal mean by `x` or more is at most a constant over the length of the chain, and the
constant depends on the temperature and the size of the couplings and fields only. -/
theorem C124_typical (c : SpinChain ℝ) (L s : ℕ) (w : WF c L s) (hL : 2 ≤ L) (K : ℝ)
    (hK : ∀ i < L, len (J c i) + len (H0 c i) ≤ K) (f : ℕ → SpinChain ℝ → ℝ) (C : ℝ) (hf : ∀ i < L, BoundedBy c L C (f i))
    (rf : ∀ i < L, ReadsBlock L i 2 (f i)) (x : ℝ) (hx : 0 < x) :
    thermalMean c L (wholeEnergy L) (fun c' => if x ≤ |(∑ i ∈ range L, f i c') / L
        - thermalMean c L (wholeEnergy L) (fun c' => (∑ i ∈ range L, f i c') / L)| then 1 else 0)
      ≤ perSite c.vars.beta K * C ^ 2 / (L * x ^ 2) := by
  have L0 : (0 : ℝ) < L := by exact_mod_cast (by omega : 0 < L)
  have h1 := chebyshev w hL (bounded_sum L hf) (x := L * x) (by positivity)
  have h2 := C124_fluctuations c L s w hL K hK f C hf rf
  have e1 : thermalMean c L (wholeEnergy L) (fun c' => (∑ i ∈ range L, f i c') / L)
      = thermalMean c L (wholeEnergy L) (fun c' => ∑ i ∈ range L, f i c') / L := by
    have := Response.mean_smul (μ := Measure.pi fun _ : Fin L => sphereMeasure) (E := fun v => wholeEnergy L (withSpins c v))
      (g := fun v => ∑ i ∈ range L, f i (withSpins c v)) c.vars.beta ((L : ℝ)⁻¹)
    rw [thermal_mean_eq, thermal_mean_eq, div_eq_inv_mul, ← this]
    congr 1
    funext v
    rw [div_eq_inv_mul]
  have e2 : ∀ c', (x ≤ |(∑ i ∈ range L, f i c') / L - thermalMean c L (wholeEnergy L) (fun c' => (∑ i ∈ range L, f i c') / L)|)
      = (L * x ≤ |(∑ i ∈ range L, f i c') - thermalMean c L (wholeEnergy L) (fun c' => ∑ i ∈ range L, f i c')|) := fun c' => by
    rw [e1, ← sub_div, abs_div, abs_of_pos L0, le_div_iff₀ L0, mul_comm x]
  simp only [e2]
  refine h1.trans ?_
  rw [div_le_div_iff₀ (by positivity) (by positivity)]
  calc _ ≤ L * (perSite c.vars.beta K * C ^ 2) * (L * x ^ 2) := mul_le_mul_of_nonneg_right h2 (by positivity)
    _ = _ := by ring

/-- C124 for the program: however the unit spins start, after enough `metropolis_update`s the energy density that
`mc_total_energy` reports is within `x` of one fixed value, the thermal mean, but for a probability of a constant over the
length of the chain. -/
theorem C124_sampled (c : SpinChain ℝ) (L s : ℕ) (w : WF c L s) (hL : 2 ≤ L) (hb : 0 ≤ c.vars.beta) (K : ℝ)
    (hK : ∀ i < L, len (J c i) + len (H0 c i) ≤ K) (x : ℝ) (hx : 0 < x) :
    ∃ ε : ℝ, 0 < ε ∧ ε ≤ 1 ∧ ∀ v : Fin L → V3 ℝ, (∀ i, len (v i) = 1) → ∀ n : ℕ,
      (expect (fun c d => c.metropolis_update d) L
          (fun c' => match c'.mc_total_energy with
            | .ok y => if x ≤ |y - thermalMean c L (wholeEnergy L) (wholeEnergy L) / L| then 1 else 0
            | .error _ => 1) n (withSpins c v)).toReal
        ≤ perSite c.vars.beta K * K ^ 2 / (L * x ^ 2) + (1 - ε) ^ (n / L) := by
  have L0 : (0 : ℝ) < L := by exact_mod_cast (by omega : 0 < L)
  obtain ⟨ε, h1, h2, h3⟩ := C89_converges c L s w hL hb
  have hf : ∀ i < L, BoundedBy c L K (energyTerm c L i) := fun i hi => energyTerm_bounded hK hi
  have ht := C124_typical c L s w hL K hK (energyTerm c L) K hf (fun i hi => energyTerm_reads c L hi) x hx
  have e1 : thermalMean c L (wholeEnergy L) (wholeEnergy L) / L
      = thermalMean c L (wholeEnergy L) fun c' => (∑ i ∈ range L, energyTerm c L i c') / L := by
    have := Response.mean_smul (μ := Measure.pi fun _ : Fin L => sphereMeasure) (E := fun v => wholeEnergy L (withSpins c v))
      (g := fun v => wholeEnergy L (withSpins c v)) c.vars.beta ((L : ℝ)⁻¹)
    rw [thermal_mean_eq, thermal_mean_eq, div_eq_inv_mul, ← this]
    congr 1
    funext v
    rw [whole_terms w hL, div_eq_inv_mul]
  rw [e1]
  set e := thermalMean c L (wholeEnergy L) fun c' => (∑ i ∈ range L, energyTerm c L i c') / L
  refine ⟨ε, h1, h2, fun v hv n => ?_⟩
  have hval : ∀ u : Fin L → V3 ℝ, (match (withSpins c u).mc_total_energy with
      | .ok y => if x ≤ |y - e| then (1 : ENNReal) else 0
      | .error _ => 1) = ENNReal.ofReal (if x ≤ |(∑ i ∈ range L, energyTerm c L i (withSpins c u)) / L - e| then 1 else 0) := fun u => by
    rw [mc_total_energy_eq (withSpins_wf w u) (by omega), ← whole_terms w hL, whole_eq_ring (withSpins_wf w u) (by omega)]
    dsimp only
    split_ifs <;> simp
  have mi : Measurable fun u : Fin L → V3 ℝ =>
      (if x ≤ |(∑ i ∈ range L, energyTerm c L i (withSpins c u)) / L - e| then 1 else 0 : ℝ) :=
    Measurable.ite (measurableSet_le measurable_const (((bounded_sum L hf).meas.div_const _).sub_const e).abs) measurable_const
      measurable_const
  have hk := h3 (fun c' => match c'.mc_total_energy with
    | .ok y => if x ≤ |y - e| then 1 else 0
    | .error _ => 1) (by
      unfold Observable
      simp only [hval]
      exact mi.ennreal_ofReal) (fun c' => by
      split
      · split_ifs <;> simp
      · exact le_rfl) v hv n
  have hbm : (boltzmannMean c L (wholeEnergy L) fun c' => match c'.mc_total_energy with
      | .ok y => if x ≤ |y - e| then (1 : ENNReal) else 0
      | .error _ => 1).toReal = thermalMean c L (wholeEnergy L)
        (fun c' => if x ≤ |(∑ i ∈ range L, energyTerm c L i c') / L - e| then 1 else 0) := by
    rw [← mean_toReal (whole_tame w hL).meas mi fun u => by split_ifs <;> simp]
    unfold boltzmannMean boltzmannSum
    simp only [hval]
  rw [hbm] at hk
  have := (abs_le.1 hk).2
  linarith

end

/-! ### the hypotheses are met -/

theorem demo_strength : ∀ i < 4, len (J demo i) + len (H0 demo i) ≤ 4 := by
  have h : ∀ v : V3 ℝ, dot v v ≤ 4 → len v ≤ 2 := fun v hv => by
    unfold len
    rw [Real.sqrt_le_left (by norm_num)]
    linarith
  intro i hi
  have h1 : len (J demo i) ≤ 2 := h _ (by interval_cases i <;> norm_num [J, demo, dot])
  have h2 : len (H0 demo i) ≤ 2 := h _ (by interval_cases i <;> norm_num [H0, demo, dot])
  linarith

/-- the z-component of one spin is an observable of a block of one site -/
theorem spinz_bounded (c : SpinChain ℝ) {L i : ℕ} (hi : i < L) : BoundedBy c L 1 (fun x => (S x i).z) := by
  have e : ∀ v : Fin L → V3 ℝ, S (withSpins c v) i = v ⟨i, hi⟩ := fun v => by
    rw [S_fld]
    unfold fld
    rw [dif_pos hi]
  constructor
  · simp only [e]
    exact measurable_z.comp (measurable_pi_apply _)
  · intro v hv
    rw [e]
    exact (comp_le (hv _)).2.2

theorem spinz_reads {L i : ℕ} (hi : i < L) : ReadsBlock L i 1 (fun x => (S x i).z) := fun x x' h => by
  have := h 0 one_pos
  rw [add_zero, Nat.mod_eq_of_lt hi] at this
  exact congrArg V3.z this

/-- the spins of sites 0 and 2 of the demonstration chain, with one site in between on either side -/
example : WF demo 4 2 ∧ (∀ i < 4, len (J demo i) + len (H0 demo i) ≤ 4) ∧ 1 + 1 + 1 + 1 = 4 ∧
    BoundedBy demo 4 1 (fun x => (S x 0).z) ∧ BoundedBy demo 4 1 (fun x => (S x (0 + 1 + 1)).z) ∧
    ReadsBlock 4 0 1 (fun x => (S x 0).z) ∧ ReadsBlock 4 (0 + 1 + 1) 1 (fun x => (S x (0 + 1 + 1)).z) :=
  ⟨demo_wf, demo_strength, rfl, spinz_bounded demo (by norm_num), spinz_bounded demo (by norm_num), spinz_reads (by norm_num),
    spinz_reads (by norm_num)⟩

/-- the terms of the energy of the demonstration chain -/
example : WF demo 4 2 ∧ (∀ i < 4, len (J demo i) + len (H0 demo i) ≤ 4) ∧ (∀ i < 4, BoundedBy demo 4 4 (energyTerm demo 4 i)) ∧
    ∀ i < 4, ReadsBlock 4 i 2 (energyTerm demo 4 i) :=
  ⟨demo_wf, demo_strength, fun _ hi => energyTerm_bounded demo_strength hi, fun _ hi => energyTerm_reads demo 4 hi⟩

end Verif.Props
