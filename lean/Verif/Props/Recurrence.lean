/-
Property C99: returns and time averages of long runs (/repo/src/spinchain.rs `update`; used by
/repo/src/obs.rs `trajectory_mean_e`, `gen_single_traj`, `run_sim`).
-/
import Verif.Spec.Recurrence
import Verif.Lemmas.Birkhoff
import Verif.Props.Liouville
import Verif.Props.Work
import Verif.Lemmas.EnergyModel
import Verif.Props.Trajectories
import Mathlib.Dynamics.Ergodic.Conservative
import Mathlib.MeasureTheory.Function.Floor

namespace Verif.Props

open Spec MeasureTheory Filter Topology
open scoped ENNReal

/-! ### Helper lemmas -/

theorem B_period {c : SpinChain ℝ} {p : ℕ}
    (hper : ∀ t, drive c.vars (t + p * c.vars.dt) = drive c.vars t) (s : ℕ) (t : ℝ) :
    B c s (t + p * c.vars.dt) = B c s t := by
  funext i
  unfold B
  rw [hper]

theorem flow_add {c : SpinChain ℝ} {p : ℕ} (hper : ∀ t, drive c.vars (t + p * c.vars.dt) = drive c.vars t)
    (L s k : ℕ) (v : Fin L → V3 ℝ) : flow c L s (p + k) v = flow c L s k (flow c L s p v) := by
  induction k with
  | zero => rfl
  | succ k ih =>
    show stepFin _ _ (B c s (c.t + (p + k : ℕ) * c.vars.dt + c.vars.dt / 2)) _ (flow c L s (p + k) v) = _
    rw [ih, show c.t + (p + k : ℕ) * c.vars.dt + c.vars.dt / 2
      = (c.t + k * c.vars.dt + c.vars.dt / 2) + p * c.vars.dt by push_cast; ring, B_period hper]
    rfl

theorem flow_iterate {c : SpinChain ℝ} {p : ℕ} (hper : ∀ t, drive c.vars (t + p * c.vars.dt) = drive c.vars t)
    (L s k j : ℕ) (v : Fin L → V3 ℝ) :
    flow c L s (k * p + j) v = flow c L s j ((flow c L s p)^[k] v) := by
  induction k generalizing v with
  | zero => simp
  | succ k ih =>
    rw [show (k + 1) * p + j = p + (k * p + j) by ring, flow_add hper, ih, Function.iterate_succ_apply]

/-- the whole state after `n` updates -/
theorem run_chain {c : SpinChain ℝ} {L s n : ℕ} (w : WF c L s) (hL : 2 ≤ L) {v : Fin L → V3 ℝ}
    (hv : ∀ i, len (v i) = 1) (hr : RegularRun (withSpins c v) L s n) :
    (withSpins c v).updates n = .ok (chainAt c (flow c L s n v) (c.t + n * c.vars.dt)) := by
  obtain ⟨c', h1, h2⟩ := run_flow w hL hv hr
  obtain ⟨w', _⟩ := updates_unit (withSpins_wf w v) hL (unit_withSpins hv) hr h1
  obtain ⟨a1, a2, a3, a4, _, _⟩ := updates_frame h1
  have ht := C25_time _ _ n h1
  rw [h1]
  congr 1
  have hs : c'.spins = (withSpins c (flow c L s n v)).spins := by
    have hself := withSpins_self w'
    have : c'.spins = List.ofFn fun i : Fin L => (⟨S c' i⟩ : Spin ℝ) := by
      conv_lhs => rw [← hself]
      rfl
    rw [this]
    show _ = List.ofFn fun i => _
    congr 1
    funext i
    rw [h2, fld_val]
  cases c'
  simp only at a1 a2 a3 a4 hs ht
  unfold chainAt
  subst a1 a2 a3 a4 hs ht
  rfl

theorem later_eq {c : SpinChain ℝ} {L s k : ℕ} (w : WF c L s) (hL : 2 ≤ L) {v : Fin L → V3 ℝ}
    (hv : ∀ i, len (v i) = 1) (hr : RegularRun (withSpins c v) L s k) (f : SpinChain ℝ → ℝ) :
    later c f v k = f (chainAt c (flow c L s k v) (c.t + k * c.vars.dt)) := by
  unfold later
  rw [run_chain w hL hv hr]

theorem periodic_time {c : SpinChain ℝ} {L p : ℕ} {f : SpinChain ℝ → ℝ}
    (hf : ∀ (v : Fin L → V3 ℝ) t, f (chainAt c v (t + p * c.vars.dt)) = f (chainAt c v t)) (k : ℕ)
    (v : Fin L → V3 ℝ) (t : ℝ) : f (chainAt c v (t + k * (p * c.vars.dt))) = f (chainAt c v t) := by
  induction k with
  | zero => simp
  | succ k ih =>
    rw [show t + (k + 1 : ℕ) * (p * c.vars.dt) = t + k * (p * c.vars.dt) + p * c.vars.dt by push_cast; ring,
      hf, ih]

/-! ### C99 -/

/-- When the drive repeats after `p` updates: it is constant, or `p` updates last a whole number of
periods. -/
theorem C99_period (c : SpinChain ℝ) (p : ℕ)
    (h : c.vars.drive = .none ∨ c.vars.drive = .staticfield ∨
      (c.vars.tau ≠ 0 ∧ ∃ m : ℤ, p * c.vars.dt = m * c.vars.tau)) (t : ℝ) :
    drive c.vars (t + p * c.vars.dt) = drive c.vars t := by
  rcases h with h | h | ⟨ht, m, hm⟩
  · simp [drive, h]
  · simp [drive, h]
  · have e : 2 * Real.pi * (t + p * c.vars.dt) / c.vars.tau
        = 2 * Real.pi * t / c.vars.tau + m * (2 * Real.pi) := by
      rw [hm]
      field_simp
    unfold drive
    simp only [e, Real.cos_add_int_mul_two_pi, Real.sin_add_int_mul_two_pi]

/-- C99, recurrence: if the drive repeats after `p` updates, almost all starting spins are approached again
arbitrarily closely and arbitrarily often. -/
theorem C99_recurrence (c : SpinChain ℝ) (L s p : ℕ) (w : WF c L s) (hL : 4 ≤ L)
    (hJ : ∀ i < 2 * (L / 2), J c i ≠ zero)
    (hper : ∀ t, drive c.vars (t + p * c.vars.dt) = drive c.vars t) :
    ∀ᵐ v ∂(Measure.pi fun _ : Fin L => sphereMeasure), Recurrent c L p v := by
  have hcon := (flow_preserving c L s p).conservative
  let q : ℕ → (Fin L → V3 ℝ) → (Fin L → ℤ × ℤ × ℤ) := fun K v i =>
    (⌊(K + 1 : ℝ) * (v i).x⌋, ⌊(K + 1 : ℝ) * (v i).y⌋, ⌊(K + 1 : ℝ) * (v i).z⌋)
  have hq : ∀ K, Measurable (q K) := by
    intro K
    rw [measurable_pi_iff]
    intro i
    have e : Measurable fun v : Fin L → V3 ℝ => v i := measurable_pi_apply i
    exact (Int.measurable_floor.comp ((measurable_x.comp e).const_mul _)).prodMk
      ((Int.measurable_floor.comp ((measurable_y.comp e).const_mul _)).prodMk
        (Int.measurable_floor.comp ((measurable_z.comp e).const_mul _)))
  have hret : ∀ᵐ v ∂(Measure.pi fun _ : Fin L => sphereMeasure), ∀ (K : ℕ) (z : Fin L → ℤ × ℤ × ℤ),
      v ∈ q K ⁻¹' {z} → ∃ᶠ n in atTop, (flow c L s p)^[n] v ∈ q K ⁻¹' {z} := by
    rw [ae_all_iff]
    intro K
    rw [ae_all_iff]
    intro z
    exact hcon.ae_mem_imp_frequently_image_mem (hq K (measurableSet_singleton z)).nullMeasurableSet
  filter_upwards [hret, C86_generic c L s w hL hJ] with v h1 h2
  intro ε hε N
  obtain ⟨K, hK⟩ := exists_nat_gt (2 / ε)
  obtain ⟨n, hn, hz⟩ := (frequently_atTop.1 (h1 K (q K v) rfl)) N
  refine ⟨n, hn, _, run_chain w (by omega) h2.1 (h2.2 (n * p)), fun i => ?_⟩
  have hS : S (chainAt c (flow c L s (n * p) v) (c.t + (n * p : ℕ) * c.vars.dt)) i
      = (flow c L s p)^[n] v i := by
    have : S (chainAt c (flow c L s (n * p) v) (c.t + (n * p : ℕ) * c.vars.dt)) i
      = S (withSpins c (flow c L s (n * p) v)) i := rfl
    rw [this, S_fld, fld_val]
    exact congrFun (flow_iterate hper L s n 0 v) i
  rw [hS]
  have hqi : q K ((flow c L s p)^[n] v) i = q K v i := congrFun hz i
  obtain ⟨u, hu⟩ : ∃ u, (flow c L s p)^[n] v i = u := ⟨_, rfl⟩
  have hK1 : (0 : ℝ) < K + 1 := by positivity
  have cell : ∀ a b : ℝ, ⌊(K + 1 : ℝ) * a⌋ = ⌊(K + 1 : ℝ) * b⌋ → |a - b| ≤ 1 / (K + 1) := by
    intro a b hab
    have h := Int.abs_sub_lt_one_of_floor_eq_floor hab
    rw [← mul_sub, abs_mul, abs_of_pos hK1] at h
    rw [le_div_iff₀ hK1]
    linarith
  simp only [q, hu, Prod.mk.injEq] at hqi
  rw [hu]
  have hx := cell _ _ hqi.1
  have hy := cell _ _ hqi.2.1
  have hz' := cell _ _ hqi.2.2
  have hd : 2 * (1 / (K + 1 : ℝ)) < ε := by
    rw [div_lt_iff₀ hε] at hK
    rw [mul_one_div, div_lt_iff₀ hK1]
    nlinarith
  have hd0 : 0 < 1 / (K + 1 : ℝ) := by positivity
  have hsq : len (sub u (v i)) ^ 2 < ε ^ 2 := by
    rw [sq, len_sq]
    have e1 := sq_le_sq' (abs_le.1 hx).1 (abs_le.1 hx).2
    have e2 := sq_le_sq' (abs_le.1 hy).1 (abs_le.1 hy).2
    have e3 := sq_le_sq' (abs_le.1 hz').1 (abs_le.1 hz').2
    simp only [dot, sub]
    nlinarith
  exact lt_of_pow_lt_pow_left₀ 2 hε.le hsq

/-- C99, averages at a fixed phase of the drive: along almost every trajectory the mean of a bounded
observable over the updates `j`, `j + p`, `j + 2 p`, … converges, and the mean of the limit over all starting
spins is the mean of the observable. -/
theorem C99_phase (c : SpinChain ℝ) (L s p j : ℕ) (w : WF c L s) (hL : 4 ≤ L)
    (hJ : ∀ i < 2 * (L / 2), J c i ≠ zero)
    (hper : ∀ t, drive c.vars (t + p * c.vars.dt) = drive c.vars t)
    (f : SpinChain ℝ → ℝ) (M : ℝ)
    (hm : Measurable fun v : Fin L → V3 ℝ => f (chainAt c v (c.t + j * c.vars.dt)))
    (hb : ∀ v : Fin L → V3 ℝ, (∀ i, len (v i) = 1) → |f (chainAt c v (c.t + j * c.vars.dt))| ≤ M)
    (ht : ∀ (v : Fin L → V3 ℝ) t, f (chainAt c v (t + p * c.vars.dt)) = f (chainAt c v t)) :
    ∃ g : (Fin L → V3 ℝ) → ℝ, Measurable g ∧
      (∀ᵐ v ∂(Measure.pi fun _ : Fin L => sphereMeasure),
        Tendsto (fun n => timeMean c f p j n v) atTop (𝓝 (g v))) ∧
      ∫ v, g v ∂(Measure.pi fun _ : Fin L => sphereMeasure)
        = ∫ v : Fin L → V3 ℝ, f (chainAt c v (c.t + j * c.vars.dt)) ∂(Measure.pi fun _ => sphereMeasure) := by
  have hpres := flow_preserving c L s p
  have hj := flow_preserving c L s j
  have hunit : ∀ᵐ v ∂(Measure.pi fun _ : Fin L => sphereMeasure), ∀ i, len (v i) = 1 :=
    Markov.good_ae (L := L) sphere_ae
  let F : (Fin L → V3 ℝ) → ℝ := fun v => max (-|M|) (min |M| (f (chainAt c v (c.t + j * c.vars.dt))))
  have hF : Measurable F := measurable_const.max (measurable_const.min hm)
  have hFb : ∀ v, |F v| ≤ |M| := fun v =>
    abs_le.2 ⟨le_max_left _ _, max_le (by linarith [abs_nonneg M]) (min_le_left _ _)⟩
  have hFu : ∀ v : Fin L → V3 ℝ, (∀ i, len (v i) = 1) → F v = f (chainAt c v (c.t + j * c.vars.dt)) := by
    intro v hv
    have h := abs_le.1 ((hb v hv).trans (le_abs_self M))
    show max _ (min _ _) = _
    rw [min_eq_right h.2, max_eq_right h.1]
  obtain ⟨g, hg, hlim, hint⟩ := Birkhoff.birkhoff (f := fun v => F (flow c L s j v)) (M := |M|) hpres
    (hF.comp hj.measurable) (fun v => hFb _)
  refine ⟨g, hg, ?_, ?_⟩
  · filter_upwards [hlim, C86_generic c L s w hL hJ, ae_all_iff.2 fun k => (hj.comp (hpres.iterate k)).quasiMeasurePreserving.ae hunit]
      with v h1 h2 h3
    refine h1.congr fun n => ?_
    unfold timeMean birkhoffAverage birkhoffSum
    rw [smul_eq_mul, div_eq_inv_mul]
    congr 1
    refine Finset.sum_congr rfl fun k _ => ?_
    rw [later_eq w (by omega) h2.1 (h2.2 _), flow_iterate hper]
    refine (hFu _ (h3 k)).trans ?_
    rw [show c.t + (k * p + j : ℕ) * c.vars.dt = c.t + j * c.vars.dt + k * (p * c.vars.dt) by push_cast; ring,
      periodic_time ht]
    rfl
  · rw [hint]
    have e := integral_map (μ := Measure.pi fun _ : Fin L => sphereMeasure) hj.measurable.aemeasurable (f := F)
      (by rw [hj.map_eq]; exact hF.aestronglyMeasurable)
    rw [hj.map_eq] at e
    rw [← e]
    exact integral_congr_ae (hunit.mono fun v hv => hFu v hv)

theorem sum_blocks (a : ℕ → ℝ) (p m : ℕ) :
    ∑ k ∈ Finset.range (m * p), a k = ∑ j ∈ Finset.range p, ∑ k ∈ Finset.range m, a (k * p + j) := by
  induction m with
  | zero => simp
  | succ m ih =>
    rw [Nat.succ_mul, Finset.sum_range_add, ih, ← Finset.sum_add_distrib]
    exact Finset.sum_congr rfl fun j _ => (Finset.sum_range_succ _ _).symm

/-- averages along a bounded sequence converge if they do along every residue class -/
theorem mean_of_phases {a : ℕ → ℝ} {M : ℝ} (hM : ∀ k, |a k| ≤ M) {p : ℕ} (hp : 0 < p) {g : ℕ → ℝ}
    (h : ∀ j < p, Tendsto (fun n : ℕ => (∑ k ∈ Finset.range n, a (k * p + j)) / n) atTop (𝓝 (g j))) :
    Tendsto (fun n : ℕ => (∑ k ∈ Finset.range n, a (k * 1 + 0)) / n) atTop (𝓝 ((∑ j ∈ Finset.range p, g j) / p)) := by
  have hM0 : 0 ≤ M := (abs_nonneg _).trans (hM 0)
  have hp' : (0 : ℝ) < p := by exact_mod_cast hp
  have h1 : Tendsto (fun m : ℕ => (∑ j ∈ Finset.range p, (∑ k ∈ Finset.range m, a (k * p + j)) / m) / p) atTop
      (𝓝 ((∑ j ∈ Finset.range p, g j) / p)) :=
    (tendsto_finsetSum _ fun j hj => h j (Finset.mem_range.1 hj)).div_const _
  have h2 := h1.comp (Nat.tendsto_div_const_atTop hp.ne')
  have h3 : Tendsto (fun n : ℕ => 2 * (p * M) / n) atTop (𝓝 0) :=
    tendsto_const_nhds.div_atTop tendsto_natCast_atTop_atTop
  refine tendsto_of_tendsto_of_dist h2 ?_
  refine squeeze_zero' (Eventually.of_forall fun n => dist_nonneg) ?_ h3
  filter_upwards [eventually_ge_atTop p] with n hn
  have hn0 : (0 : ℝ) < n := by exact_mod_cast lt_of_lt_of_le hp hn
  have hq : 0 < n / p := Nat.div_pos hn hp
  have hq' : (0 : ℝ) < (n / p : ℕ) := by exact_mod_cast hq
  obtain ⟨q, hqd⟩ : ∃ q, n / p = q := ⟨_, rfl⟩
  have hsplit : n = q * p + n % p := by rw [← hqd]; exact (Nat.div_add_mod' n p).symm
  have hr : n % p < p := Nat.mod_lt _ hp
  obtain ⟨r, hrd⟩ : ∃ r, n % p = r := ⟨_, rfl⟩
  rw [hrd] at hsplit hr
  rw [Real.dist_eq]
  simp only [Function.comp_apply, hqd, mul_one, add_zero]
  rw [hqd] at hq'
  have habs : ∀ (m b : ℕ), |∑ k ∈ Finset.range m, a (b + k)| ≤ m * M := fun m b =>
    (Finset.abs_sum_le_sum_abs _ _).trans ((Finset.sum_le_sum fun k _ => hM _).trans (by simp))
  have eA : (∑ j ∈ Finset.range p, (∑ k ∈ Finset.range q, a (k * p + j)) / (q : ℝ)) / p
      = (∑ k ∈ Finset.range (q * p), a k) / (q * p : ℝ) := by
    rw [sum_blocks, ← Finset.sum_div, div_div]
  have eB : ∑ k ∈ Finset.range n, a k = ∑ k ∈ Finset.range (q * p), a k + ∑ k ∈ Finset.range r, a (q * p + k) := by
    conv_lhs => rw [hsplit]
    exact Finset.sum_range_add _ _ _
  obtain ⟨X, hX⟩ : ∃ X, ∑ k ∈ Finset.range (q * p), a k = X := ⟨_, rfl⟩
  obtain ⟨Y, hY⟩ : ∃ Y, ∑ k ∈ Finset.range r, a (q * p + k) = Y := ⟨_, rfl⟩
  have bX : |X| ≤ q * p * M := by
    have := habs (q * p) 0
    simp only [Nat.zero_add] at this
    rw [hX] at this
    push_cast at this
    exact this
  have bY : |Y| ≤ p * M := by
    have := habs r (q * p)
    rw [hY] at this
    have hrp : (r : ℝ) ≤ p := by exact_mod_cast hr.le
    exact this.trans (mul_le_mul_of_nonneg_right hrp hM0)
  rw [eA, eB, hX, hY]
  have hnr : (n : ℝ) = q * p + r := by exact_mod_cast hsplit
  have hr0 : (0 : ℝ) ≤ r := by positivity
  have hrp : (r : ℝ) ≤ p := by exact_mod_cast hr.le
  have hqp : (0 : ℝ) < q * p := by positivity
  have e : X / (q * p) - (X + Y) / n = (X * (r / (q * p)) - Y) / n := by
    rw [hnr] at hn0 ⊢
    field_simp
    ring
  rw [e, abs_div, abs_of_pos hn0]
  refine div_le_div_of_nonneg_right ?_ hn0.le
  have t1 : |X * (r / (q * p))| ≤ p * M := by
    rw [abs_mul, abs_of_nonneg (by positivity : (0 : ℝ) ≤ r / (q * p))]
    calc |X| * (r / (q * p)) ≤ q * p * M * (r / (q * p)) := mul_le_mul_of_nonneg_right bX (by positivity)
      _ = r * M := by field_simp
      _ ≤ p * M := mul_le_mul_of_nonneg_right hrp hM0
  calc |X * (r / (q * p)) - Y| ≤ |X * (r / (q * p))| + |Y| := abs_sub _ _
    _ ≤ 2 * (p * M) := by linarith

/-- C99, averages over all updates: along almost every trajectory the mean of a bounded observable over the
first `n` updates converges, and the mean of the limit over all starting spins is the mean of the observable
over the spins and over one repetition of the drive. -/
theorem C99_average (c : SpinChain ℝ) (L s p : ℕ) (w : WF c L s) (hL : 4 ≤ L)
    (hJ : ∀ i < 2 * (L / 2), J c i ≠ zero) (hp : 0 < p)
    (hper : ∀ t, drive c.vars (t + p * c.vars.dt) = drive c.vars t)
    (f : SpinChain ℝ → ℝ) (M : ℝ)
    (hm : ∀ t, Measurable fun v : Fin L → V3 ℝ => f (chainAt c v t))
    (hb : ∀ (v : Fin L → V3 ℝ) t, (∀ i, len (v i) = 1) → |f (chainAt c v t)| ≤ M)
    (ht : ∀ (v : Fin L → V3 ℝ) t, f (chainAt c v (t + p * c.vars.dt)) = f (chainAt c v t)) :
    ∃ g : (Fin L → V3 ℝ) → ℝ, Measurable g ∧
      (∀ᵐ v ∂(Measure.pi fun _ : Fin L => sphereMeasure),
        Tendsto (fun n => timeMean c f 1 0 n v) atTop (𝓝 (g v))) ∧
      ∫ v, g v ∂(Measure.pi fun _ : Fin L => sphereMeasure)
        = (∑ j ∈ Finset.range p, ∫ v : Fin L → V3 ℝ, f (chainAt c v (c.t + j * c.vars.dt))
            ∂(Measure.pi fun _ => sphereMeasure)) / p := by
  choose g hg hlim hint using fun j : ℕ =>
    C99_phase c L s p j w hL hJ hper f M (hm _) (fun v hv => hb v _ hv) ht
  have hunit : ∀ᵐ v ∂(Measure.pi fun _ : Fin L => sphereMeasure), ∀ i, len (v i) = 1 :=
    Markov.good_ae (L := L) sphere_ae
  have hbound : ∀ᵐ v ∂(Measure.pi fun _ : Fin L => sphereMeasure), ∀ k, |later c f v k| ≤ M := by
    filter_upwards [C86_generic c L s w hL hJ,
      ae_all_iff.2 fun k => (flow_preserving c L s k).quasiMeasurePreserving.ae hunit] with v h1 h2 k
    rw [later_eq w (by omega) h1.1 (h1.2 k)]
    exact hb _ _ (h2 k)
  have hgb : ∀ j, ∀ᵐ v ∂(Measure.pi fun _ : Fin L => sphereMeasure), |g j v| ≤ |M| := by
    intro j
    filter_upwards [hlim j, hbound] with v h1 h2
    refine le_of_tendsto' h1.abs fun n => ?_
    unfold timeMean
    rw [abs_div, Nat.abs_cast]
    refine div_le_of_le_mul₀ (by positivity) (abs_nonneg M) ?_
    refine (Finset.abs_sum_le_sum_abs _ _).trans ?_
    refine (Finset.sum_le_sum fun k _ => (h2 _).trans (le_abs_self M)).trans ?_
    simp [mul_comm]
  refine ⟨fun v => (∑ j ∈ Finset.range p, g j v) / p,
    (Finset.measurable_fun_sum _ fun j _ => hg j).div_const _, ?_, ?_⟩
  · filter_upwards [ae_all_iff.2 hlim, hbound] with v h1 h2
    exact mean_of_phases h2 hp fun j _ => h1 j
  · rw [integral_div, integral_finsetSum _ fun j _ =>
      Integrable.of_bound (hg j).aestronglyMeasurable |M| (hgb j)]
    congr 1
    exact Finset.sum_congr rfl fun j _ => hint j

/-- energy of the subsystem as `system_energy` reports it, in terms of the Hamiltonian -/
noncomputable def subsystemEnergy (s : ℕ) (c : SpinChain ℝ) : ℝ :=
  (openEnergy s (S c) (J c) (B c s c.t) - dot (B c s c.t (s - 1)) (S c (s - 1))) / ((s : ℝ) - 1)

theorem subsystem_at (c : SpinChain ℝ) (L s : ℕ) (v : Fin L → V3 ℝ) (t : ℝ) :
    subsystemEnergy s (chainAt c v t) = (openEnergy s (S (withSpins c v)) (J c) (B c s t)
      - dot (B c s t (s - 1)) (S (withSpins c v) (s - 1))) / ((s : ℝ) - 1) := rfl

theorem tame_subsystem (c : SpinChain ℝ) (L s : ℕ) (t : ℝ) :
    Tame fun v : Fin L → V3 ℝ => subsystemEnergy s (chainAt c v t) := by
  simp only [subsystem_at]
  unfold openEnergy dot had
  have k := fun r => Tame.const (L := L) r
  have one : ∀ (b : V3 ℝ) i, Tame fun v : Fin L → V3 ℝ => b.x * (S (withSpins c v) i).x
      + b.y * (S (withSpins c v) i).y + b.z * (S (withSpins c v) i).z := by
    intro b i
    obtain ⟨a1, a2, a3⟩ := tame_S (L := L) c i
    exact (((k _).mul a1).add ((k _).mul a2)).add ((k _).mul a3)
  refine (((Tame.sum fun i => ?_).add (Tame.sum fun i => one _ i)).sub (one _ _)).div _
  obtain ⟨a1, a2, a3⟩ := tame_S (L := L) c i
  obtain ⟨b1, b2, b3⟩ := tame_S (L := L) c (i + 1)
  exact (((a1.mul ((k _).mul b1)).add (a2.mul ((k _).mul b2))).add (a3.mul ((k _).mul b3))).neg

/-- C99 for `trajectory_mean_e`: along almost every trajectory the energies it samples (one update after
each period, from the hundredth on; compare C65) have means that converge as the number of periods grows. -/
theorem C99_trajectory (c : SpinChain ℝ) (L s P : ℕ) (w : WF c L s) (hL : 4 ≤ L) (hs : 2 ≤ s) (hsL : s ≤ L)
    (hJ : ∀ i < 2 * (L / 2), J c i ≠ zero) (ht : c.vars.tau ≠ 0) (htau : c.vars.tau = P * c.vars.dt) :
    ∀ᵐ v ∂(Measure.pi fun _ : Fin L => sphereMeasure), ∃ (e : ℕ → ℝ) (a : ℝ),
      (∀ k, ∃ c', (withSpins c v).updates (k * P + 1) = .ok c' ∧ c'.system_energy = .ok (e k)) ∧
      Tendsto (fun K => trajMean ((List.range' 100 K).map e)) atTop (𝓝 a) := by
  have hper := C99_period c P (Or.inr (Or.inr ⟨ht, 1, by rw [htau]; simp⟩))
  obtain ⟨hm, M, hM⟩ := tame_subsystem c L s (c.t + (1 : ℕ) * c.vars.dt)
  obtain ⟨g, _, hlim, _⟩ := C99_phase c L s P 1 w hL hJ hper (subsystemEnergy s) M hm
    (fun v hv => hM v hv) (fun v t => by rw [subsystem_at, subsystem_at, B_period hper])
  filter_upwards [hlim, C86_generic c L s w hL hJ] with v h1 h2
  refine ⟨fun k => later c (subsystemEnergy s) v (k * P + 1), g v, fun k => ?_, ?_⟩
  · have hr := run_chain w (by omega) h2.1 (h2.2 (k * P + 1))
    refine ⟨_, hr, ?_⟩
    dsimp only
    have w' := (updates_unit (withSpins_wf w v) (by omega) (unit_withSpins h2.1) (h2.2 _) hr).1
    rw [system_energy_eq w' (by omega) hsL, later_eq w (by omega) h2.1 (h2.2 _)]
    rfl
  · obtain ⟨e, he⟩ : ∃ e : ℕ → ℝ, (fun k => later c (subsystemEnergy s) v (k * P + 1)) = e := ⟨_, rfl⟩
    have h1' : Tendsto (fun n : ℕ => (∑ k ∈ Finset.range n, e k) / n) atTop (𝓝 (g v)) := by
      rw [← he]; exact h1
    rw [he]
    have h3 : Tendsto (fun K : ℕ => ((∑ k ∈ Finset.range (K + 100), e k) / (K + 100 : ℕ)) * ((K + 100 : ℕ) / K)
        - (∑ k ∈ Finset.range 100, e k) / K) atTop (𝓝 (g v * 1 - 0)) := by
      refine ((h1'.comp (tendsto_add_atTop_nat 100)).mul ?_).sub
        (tendsto_const_nhds.div_atTop tendsto_natCast_atTop_atTop)
      have : Tendsto (fun K : ℕ => 1 + 100 / (K : ℝ)) atTop (𝓝 (1 + 0)) :=
        tendsto_const_nhds.add (tendsto_const_nhds.div_atTop tendsto_natCast_atTop_atTop)
      rw [add_zero] at this
      refine this.congr' ?_
      filter_upwards [eventually_gt_atTop 0] with K hK
      have : (K : ℝ) ≠ 0 := by exact_mod_cast hK.ne'
      push_cast
      field_simp
    rw [mul_one, sub_zero] at h3
    refine h3.congr' ?_
    filter_upwards [eventually_gt_atTop 0] with K hK
    have hK0 : (K : ℝ) ≠ 0 := by exact_mod_cast hK.ne'
    have hK1 : ((K + 100 : ℕ) : ℝ) ≠ 0 := by positivity
    rw [trajMean_eq, List.length_map, List.length_range']
    have hsum : ((List.range' 100 K).map e).sum
        = ∑ k ∈ Finset.range (K + 100), e k - ∑ k ∈ Finset.range 100, e k := by
      rw [Nat.add_comm, Finset.sum_range_add, add_sub_cancel_left]
      rw [List.range'_eq_map_range, List.map_map]
      rfl
    rw [hsum]
    field_simp

/-- What holds for almost all spins, holds with probability one for the spins that any number of calls of
`metropolis_update` leave behind (started from almost any spins): there is a Borel set of such spins that is
missed with probability zero. -/
theorem C99_warm (c : SpinChain ℝ) (L s : ℕ) (w : WF c L s) (hL : 2 ≤ L) (hb : 0 ≤ c.vars.beta)
    (P : (Fin L → V3 ℝ) → Prop) (hP : ∀ᵐ v ∂(Measure.pi fun _ : Fin L => sphereMeasure), P v) :
    ∃ A : Set (Fin L → V3 ℝ), MeasurableSet A ∧ (∀ v ∈ A, P v) ∧
      ∀ᵐ v ∂(Measure.pi fun _ : Fin L => sphereMeasure), ∀ n,
        expect (fun c d => c.metropolis_update d) L (fun c' => Aᶜ.indicator 1 fun i : Fin L => S c' i) n
          (withSpins c v) = 0 := by
  have hnull : (Measure.pi fun _ : Fin L => sphereMeasure) {v | ¬P v} = 0 := hP
  obtain ⟨N, hsub, hN, hN0⟩ := exists_measurable_superset_of_null hnull
  refine ⟨Nᶜ, hN.compl, fun v hv => not_not.1 fun h => hv (hsub h), ae_all_iff.2 fun n => ?_⟩
  rw [compl_compl]
  have hself : ∀ v : Fin L → V3 ℝ, (fun i : Fin L => S (withSpins c v) i) = v := by
    intro v
    funext i
    rw [S_fld, fld_val]
  have hobs : Observable c L fun c' => N.indicator 1 fun i : Fin L => S c' i := by
    unfold Observable
    simp only [hself]
    exact measurable_one.indicator hN
  have hE := (whole_tame w hL).meas
  have h0 : boltzmannSum c L (wholeEnergy L) (fun c' => N.indicator 1 fun i : Fin L => S c' i) = 0 := by
    unfold boltzmannSum
    simp only [hself]
    rw [lintegral_eq_zero_iff' (by
      refine AEMeasurable.mul ?_ (measurable_one.indicator hN).aemeasurable
      exact (Real.measurable_exp.comp (hE.const_mul _).neg).ennreal_ofReal.aemeasurable)]
    filter_upwards [measure_eq_zero_iff_ae_notMem.1 hN0] with v hv
    rw [Set.indicator_of_notMem hv, mul_zero]
    rfl
  have h1 := C88_stationary c L s w hL hb _ hobs n
  rw [h0] at h1
  unfold boltzmannSum at h1
  simp only [expect_eq (plain_upd (s := s) hL) w hb hE hobs n] at h1 ⊢
  rw [lintegral_eq_zero_iff' (by
      refine AEMeasurable.mul ?_ (Markov.measurable_iter hE hobs n).aemeasurable
      exact (Real.measurable_exp.comp (hE.const_mul _).neg).ennreal_ofReal.aemeasurable)] at h1
  filter_upwards [h1] with v hv
  rcases mul_eq_zero.1 hv with h | h
  · rw [ENNReal.ofReal_eq_zero] at h
    exact absurd (Real.exp_pos _) (not_lt.2 h)
  · exact h

/-- in particular, thermalised spins are recurrent with probability one -/
theorem C99_thermalised (c : SpinChain ℝ) (L s p : ℕ) (w : WF c L s) (hL : 4 ≤ L) (hb : 0 ≤ c.vars.beta)
    (hJ : ∀ i < 2 * (L / 2), J c i ≠ zero)
    (hper : ∀ t, drive c.vars (t + p * c.vars.dt) = drive c.vars t) :
    ∃ A : Set (Fin L → V3 ℝ), MeasurableSet A ∧ (∀ v ∈ A, Recurrent c L p v) ∧
      ∀ᵐ v ∂(Measure.pi fun _ : Fin L => sphereMeasure), ∀ n,
        expect (fun c d => c.metropolis_update d) L (fun c' => Aᶜ.indicator 1 fun i : Fin L => S c' i) n
          (withSpins c v) = 0 :=
  C99_warm c L s w (by omega) hb _ (C99_recurrence c L s p w hL hJ hper)

/-- the driven demonstration chain repeats after 500 updates; its energy is a bounded observable that
repeats with the drive -/
example : WF demo 4 2 ∧ (∀ i < 2 * (4 / 2), J demo i ≠ zero) ∧ 0 ≤ demo.vars.beta ∧ demo.vars.tau ≠ 0 ∧
    demo.vars.tau = (500 : ℕ) * demo.vars.dt ∧
    (∀ t, drive demo.vars (t + (500 : ℕ) * demo.vars.dt) = drive demo.vars t) ∧
    (∃ t, drive demo.vars t ≠ drive demo.vars 0) ∧
    ∃ M, ∀ (v : Fin 4 → V3 ℝ) t, (∀ i, len (v i) = 1) → |(S (chainAt demo v t) 0).x| ≤ M := by
  refine ⟨demo_wf, fun i hi h => ?_, by norm_num [demo, demoVars], by norm_num [demo, demoVars],
    by norm_num [demo, demoVars], ?_, ⟨5, fun h => ?_⟩, ?_⟩
  · have hz := congrArg V3.z h
    have : i = 0 ∨ i = 1 ∨ i = 2 ∨ i = 3 := by omega
    rcases this with rfl | rfl | rfl | rfl <;> norm_num [J, demo, zero] at hz
  · exact C99_period demo 500 (Or.inr (Or.inr ⟨by norm_num [demo, demoVars], 1, by norm_num [demo, demoVars]⟩))
  · have hx := congrArg V3.x h
    have e : 2 * Real.pi * 5 / 10 = Real.pi := by ring
    simp [drive, demo, demoVars, e, Config.default] at hx
    norm_num at hx
  · obtain ⟨-, M, hM⟩ := (tame_S (L := 4) demo 0).1
    exact ⟨M, fun v _ hv => hM v hv⟩

end Verif.Props
