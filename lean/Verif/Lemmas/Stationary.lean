/-
Helper lemmas: a sampler that replaces the spin of a random site by a random direction, accepted with any
bounded energy difference, settles in one stationary distribution.
-/
import Verif.Lemmas.Doeblin
import Verif.Spec.Stationary

namespace Verif.Settle

set_option linter.unusedSectionVars false

open Spec Markov Function Doeblin Ergodic
open Finset hiding expect
open MeasureTheory
open scoped ENNReal

section
variable {L : ℕ}

open Classical in
/-- one update of the spins with the energy difference `dE v i x` for replacing spin `i` by `x` -/
noncomputable def mv (β : ℝ) (dE : (Fin L → V3 ℝ) → Fin L → V3 ℝ → ℝ) (v : Fin L → V3 ℝ) (d : Raw L) :
    Fin L → V3 ℝ :=
  let x := spherePoint d.2.1 d.2.2.1
  if dE v d.1 x < 0 ∨ d.2.2.2 < Real.exp (-(β * dE v d.1 x)) then update v d.1 x else v

variable {β : ℝ} {dE : (Fin L → V3 ℝ) → Fin L → V3 ℝ → ℝ}
  (hm : ∀ i, Measurable fun p : (Fin L → V3 ℝ) × V3 ℝ => dE p.1 i p.2)

include hm

theorem meas_mv : Measurable fun p : (Fin L → V3 ℝ) × Raw L => mv β dE p.1 p.2 := by
  have hd : Measurable fun p : (Fin L → V3 ℝ) × Raw L => dE p.1 p.2.1 (spherePoint p.2.2.1 p.2.2.2.1) := by
    have hs : Measurable fun q : ((Fin L → V3 ℝ) × (ℝ × ℝ × ℝ)) × Fin L =>
        dE q.1.1 q.2 (spherePoint q.1.2.1 q.1.2.2.1) := by
      refine measurable_from_prod_countable_left fun i => ?_
      have h1 : Measurable fun q : (Fin L → V3 ℝ) × (ℝ × ℝ × ℝ) => spherePoint q.2.1 q.2.2.1 := by
        have h : Measurable fun q : (Fin L → V3 ℝ) × (ℝ × ℝ × ℝ) => (q.2.1, q.2.2.1) := by fun_prop
        have := Measurable.comp (g := fun p : ℝ × ℝ => spherePoint p.1 p.2) measurable_spherePoint h
        exact this
      have := Measurable.comp (g := fun p : (Fin L → V3 ℝ) × V3 ℝ => dE p.1 i p.2) (hm i)
        (measurable_fst.prodMk h1)
      exact this
    have h2 : Measurable fun p : (Fin L → V3 ℝ) × Raw L => (((p.1, p.2.2), p.2.1) :
        ((Fin L → V3 ℝ) × (ℝ × ℝ × ℝ)) × Fin L) := by fun_prop
    have := Measurable.comp (g := fun q : ((Fin L → V3 ℝ) × (ℝ × ℝ × ℝ)) × Fin L =>
        dE q.1.1 q.2 (spherePoint q.1.2.1 q.1.2.2.1)) hs h2
    exact this
  have hu : Measurable fun p : (Fin L → V3 ℝ) × Raw L => p.2.2.2.2 := by fun_prop
  refine Measurable.ite ?_ meas_upd measurable_fst
  exact (measurableSet_lt hd measurable_const).union
    (measurableSet_lt hu (Real.measurable_exp.comp (hd.const_mul β).neg))

/-- mean after one update -/
theorem T_mv (hb : 0 ≤ β) {h : (Fin L → V3 ℝ) → ℝ≥0∞} (hh : Measurable h) (v : Fin L → V3 ℝ) :
    T (rawLaw L) (mv β dE) h v = (∑ i, ∫⁻ x, (ENNReal.ofReal (min 1 (Real.exp (-(β * dE v i x)))) * h (update v i x)
      + (1 - ENNReal.ofReal (min 1 (Real.exp (-(β * dE v i x))))) * h v) ∂sphereMeasure) / L := by
  have hmm : Measurable fun d : Raw L => h (mv β dE v d) :=
    hh.comp ((meas_mv (β := β) hm).comp (measurable_const (a := v).prodMk measurable_id))
  unfold T rawLaw
  rw [lintegral_prod _ hmm.aemeasurable, lintegral_smul_measure, lintegral_count, tsum_fintype]
  rw [div_eq_mul_inv, mul_comm, smul_eq_mul]
  congr 1
  refine Finset.sum_congr rfl fun i _ => ?_
  have hm1 : Measurable fun p : ℝ × ℝ × ℝ => h (mv β dE v (i, p)) :=
    hmm.comp (measurable_const.prodMk measurable_id)
  rw [lintegral_prod _ hm1.aemeasurable]
  have hl : Measurable fun x => ENNReal.ofReal (min 1 (Real.exp (-(β * dE v i x)))) * h (update v i x)
      + (1 - ENNReal.ofReal (min 1 (Real.exp (-(β * dE v i x))))) * h v := by
    have h0 : Measurable fun x => dE v i x := (hm i).comp (measurable_const.prodMk measurable_id)
    have h1 : Measurable fun x => ENNReal.ofReal (min 1 (Real.exp (-(β * dE v i x)))) :=
      (measurable_const.min (Real.measurable_exp.comp (h0.const_mul β).neg)).ennreal_ofReal
    exact (h1.mul (hh.comp (measurable_update v))).add ((measurable_const.sub h1).mul measurable_const)
  rw [← lintegral_sphere hl]
  refine lintegral_congr fun u1 => ?_
  have hm2 : Measurable fun p : ℝ × ℝ => h (mv β dE v (i, u1, p)) :=
    hm1.comp (measurable_const.prodMk measurable_id)
  rw [lintegral_prod _ hm2.aemeasurable]
  refine lintegral_congr fun u2 => ?_
  have e : ∀ u3 : ℝ, h (mv β dE v (i, u1, u2, u3)) = if dE v i (spherePoint u1 u2) < 0 ∨
      u3 < Real.exp (-(β * dE v i (spherePoint u1 u2))) then h (update v i (spherePoint u1 u2)) else h v := by
    intro u3
    unfold mv
    dsimp only
    split <;> rfl
  simp only [e]
  exact decision hb _ _

omit hm in
theorem mv_good {v : Fin L → V3 ℝ} (hv : Good Sph v) {d : Raw L} (hd : Fair d) : Good Sph (mv β dE v d) := by
  unfold mv
  dsimp only
  split
  · exact good_update hv _ (sphere_unit hd.1 hd.2.le)
  · exact hv

omit hm in
theorem mv_good_ae [NeZero L] : ∀ᵐ d ∂(rawLaw L), ∀ v ∈ {v | Good Sph v}, mv β dE v d ∈ {v : Fin L → V3 ℝ | Good Sph v} :=
  fair_ae.mono fun _ hd _ hv => mv_good hv hd

omit hm in
theorem meas_good : MeasurableSet {v : Fin L → V3 ℝ | Good Sph v} := by
  have : {v : Fin L → V3 ℝ | Good Sph v} = ⋂ i, {v | len (v i) = 1} := by
    ext v
    simp [Good, Sph]
  rw [this]
  refine MeasurableSet.iInter fun i => ?_
  exact (measurable_len.comp (measurable_pi_apply i)) (measurableSet_singleton 1)

variable (hb : 0 ≤ β) {B : ℝ} (hB : ∀ v, Good Sph v → ∀ i, ∀ x ∈ Sph, dE v i x ≤ B) (hB0 : 0 ≤ B)

include hb hB hB0

theorem T_ge {f : (Fin L → V3 ℝ) → ℝ≥0∞} (hf : Measurable f) (i : Fin L) (v : Fin L → V3 ℝ) (hv : Good Sph v) :
    ENNReal.ofReal (Real.exp (-(β * B))) / L * ∫⁻ x, f (update v i x) ∂sphereMeasure
      ≤ T (rawLaw L) (mv β dE) f v := by
  rw [T_mv hm hb hf, mul_comm, ← mul_div_assoc, mul_comm]
  refine ENNReal.div_le_div_right ?_ _
  refine le_trans ?_ (Finset.single_le_sum (f := fun i => ∫⁻ x,
    (ENNReal.ofReal (min 1 (Real.exp (-(β * dE v i x)))) * f (update v i x)
      + (1 - ENNReal.ofReal (min 1 (Real.exp (-(β * dE v i x))))) * f v) ∂sphereMeasure) (fun _ _ => zero_le)
    (Finset.mem_univ i))
  rw [← lintegral_const_mul' _ _ ENNReal.ofReal_ne_top]
  refine lintegral_mono_ae (sphere_ae.mono fun x hx => ?_)
  refine le_trans ?_ (le_add_right le_rfl)
  refine mul_le_mul_left (ENNReal.ofReal_le_ofReal (le_min ?_ ?_)) _
  · rw [← Real.exp_zero]
    exact Real.exp_le_exp.2 (by have := mul_nonneg hb hB0; linarith)
  · exact Real.exp_le_exp.2 (neg_le_neg (mul_le_mul_of_nonneg_left (hB v hv i x hx) hb))

theorem iter_ge {f : (Fin L → V3 ℝ) → ℝ≥0∞} (hf : Measurable f) [NeZero L] (k : ℕ) (hk : k ≤ L) :
    ∀ v, Good Sph v → (ENNReal.ofReal (Real.exp (-(β * B))) / L) ^ k *
      lmarginal (fun _ => sphereMeasure) (Finset.univ.filter fun i : Fin L => i.val < k) f v
        ≤ (T (rawLaw L) (mv β dE))^[k] f v := by
  induction k with
  | zero => intro v _; simp
  | succ k ih =>
    intro v hv
    have hkL : k < L := by omega
    rw [iterate_succ_apply']
    refine le_trans ?_ (T_ge hm hb hB hB0 (meas_iter (meas_mv hm) hf k) ⟨k, hkL⟩ v hv)
    have hs : (Finset.univ.filter fun i : Fin L => i.val < k + 1)
        = insert ⟨k, hkL⟩ (Finset.univ.filter fun i : Fin L => i.val < k) := by
      ext i
      simp only [Finset.mem_filter, Finset.mem_univ, true_and, Finset.mem_insert, Fin.ext_iff]
      omega
    rw [hs, lmarginal_insert f hf (by simp), pow_succ', mul_assoc]
    refine mul_le_mul_right ?_ _
    rw [← lintegral_const_mul']
    · exact lintegral_mono_ae (sphere_ae.mono fun x hx => ih (by omega) _ (good_update hv _ hx))
    · exact ENNReal.pow_ne_top (ENNReal.div_ne_top ENNReal.ofReal_ne_top (by simp; omega))

theorem minor [NeZero L] {f : (Fin L → V3 ℝ) → ℝ≥0∞} (hf : Measurable f) (v : Fin L → V3 ℝ) (hv : Good Sph v) :
    ENNReal.ofReal ((Real.exp (-(β * B)) / L) ^ L) * ∫⁻ u, f u ∂(Measure.pi fun _ => sphereMeasure)
      ≤ (T (rawLaw L) (mv β dE))^[L] f v := by
  have hLr : (0 : ℝ) < L := by exact_mod_cast Nat.pos_of_neZero L
  have := iter_ge hm hb hB hB0 hf L le_rfl v hv
  rwa [show (Finset.univ.filter fun i : Fin L => i.val < L) = Finset.univ by ext i; simp,
    lmarginal_univ, ← ENNReal.ofReal_natCast L, ← ENNReal.ofReal_div_of_pos hLr,
    ← ENNReal.ofReal_pow (div_nonneg (Real.exp_pos _).le hLr.le)] at this

end

/-! ### The sampling loop -/

section
variable {L s : ℕ} {c : SpinChain ℝ} {upd : SpinChain ℝ → Draw ℝ → R (SpinChain ℝ)}
  {m : (Fin L → V3 ℝ) → Raw L → Fin L → V3 ℝ}
  (hmv : ∀ v d, Fair d → upd (withSpins c v) (toDraw d) = .ok (withSpins c (m v d)))

include hmv

theorem range_block (ds : ℕ → Draw ℝ) (per lo : ℕ) (b : Fin per → Raw L)
    (hds : ∀ k : Fin per, ds (lo + k) = toDraw (b k)) (hb : ∀ k, Fair (b k)) (v : Fin L → V3 ℝ) :
    (List.range' lo per).foldlM (fun c k => upd c (ds k)) (withSpins c v) = .ok (withSpins c (run m per v b)) := by
  induction per generalizing lo v with
  | zero => rfl
  | succ n ih =>
    rw [List.range'_succ, List.foldlM_cons]
    have h0 : ds lo = toDraw (b 0) := by simpa using hds 0
    rw [h0, hmv v _ (hb 0), ok_bind]
    refine ih (lo + 1) (fun k => b k.succ) (fun k => ?_) (fun k => hb k.succ) _
    rw [← hds k.succ, Fin.val_succ]
    congr 1
    omega

theorem range_loop {obs : SpinChain ℝ → R ℝ} {f : (Fin L → V3 ℝ) → ℝ} (hobs : ∀ v, obs (withSpins c v) = .ok (f v))
    (ds : ℕ → ℕ → Draw ℝ) (per n lo : ℕ) (b : Fin n → Fin per → Raw L)
    (hds : ∀ (i : Fin n) (k : Fin per), ds (lo + i) k = toDraw (b i k)) (hb : ∀ i k, Fair (b i k))
    (v : Fin L → V3 ℝ) (acc : List ℝ) :
    (List.range' lo n).foldlM (fun (st : SpinChain ℝ × List ℝ) i => do
        let c ← sweeps upd (ds i) per st.1
        let e ← obs c
        return (c, st.2 ++ [e])) (withSpins c v, acc)
      = .ok (withSpins c (run (run m per) n v b), acc ++ vals (run m per) f n v b) := by
  induction n generalizing lo v acc with
  | zero => simp [vals, run]; rfl
  | succ n ih =>
    rw [List.range'_succ, List.foldlM_cons]
    have hs : sweeps upd (ds lo) per (withSpins c v) = .ok (withSpins c (run m per v (b 0))) := by
      unfold sweeps forRange
      exact range_block hmv (ds lo) per 0 (b 0) (fun k => by simpa using hds 0 k) (hb 0) v
    dsimp only
    rw [hs, ok_bind, hobs, ok_bind]
    have := ih (lo + 1) (fun i => b i.succ) (fun i k => by
      rw [← hds i.succ k, Fin.val_succ]
      congr 1
      omega) (fun i => hb i.succ) (run m per v (b 0)) (acc ++ [f (run m per v (b 0))])
    refine this.trans ?_
    simp [vals, run]

theorem loop_eq {obs : SpinChain ℝ → R ℝ} {f : (Fin L → V3 ℝ) → ℝ} (hobs : ∀ v, obs (withSpins c v) = .ok (f v))
    (per n : ℕ) (b : Fin n → Fin per → Raw L) (hb : ∀ i k, Fair (b i k)) (v : Fin L → V3 ℝ) :
    sampleLoop upd per n obs (blockDraws b) (withSpins c v)
      = .ok (withSpins c (run (run m per) n v b), vals (run m per) f n v b) := by
  unfold sampleLoop forRange
  have := range_loop hmv hobs (blockDraws b) per n 0 b (fun i k => by
    unfold blockDraws
    rw [zero_add, dif_pos ⟨i.2, k.2⟩]
    rfl) hb v []
  rw [List.nil_append] at this
  exact this

end

/-! ### Samplers -/

section
variable {L : ℕ} {c : SpinChain ℝ} {upd : SpinChain ℝ → Draw ℝ → R (SpinChain ℝ)}
  {dE : (Fin L → V3 ℝ) → Fin L → V3 ℝ → ℝ}
  (hupd : ∀ (v : Fin L → V3 ℝ) (i : Fin L) (u1 u2 u : ℝ), 0 ≤ u2 → u2 < 1 →
    upd (withSpins c v) ⟨i, u1, u2, u⟩ = .ok (metropolis c.vars.beta (dE v i (spherePoint u1 u2)) u (withSpins c v)
      (withSpins c (update v i (spherePoint u1 u2)))))
  (hm : ∀ i, Measurable fun p : (Fin L → V3 ℝ) × V3 ℝ => dE p.1 i p.2)

include hupd

theorem upd_mv (v : Fin L → V3 ℝ) {d : Raw L} (hd : Fair d) :
    upd (withSpins c v) (toDraw d) = .ok (withSpins c (mv c.vars.beta dE v d)) := by
  unfold toDraw
  rw [hupd _ _ _ _ _ hd.1 hd.2]
  congr 1
  unfold metropolis mv
  dsimp only
  split
  · rfl
  · rfl

include hm

theorem expect_eq (hb : 0 ≤ c.vars.beta) {f : SpinChain ℝ → ℝ≥0∞} (hf : Observable c L f) (n : ℕ) (v : Fin L → V3 ℝ) :
    expect upd L f n (withSpins c v) = (T (rawLaw L) (mv c.vars.beta dE))^[n] (fun v => f (withSpins c v)) v := by
  induction n generalizing v with
  | zero => rfl
  | succ n ih =>
    rw [iterate_succ_apply']
    rcases Nat.eq_zero_or_pos L with rfl | hL
    · have : T (rawLaw 0) (mv c.vars.beta dE) ((T (rawLaw 0) (mv c.vars.beta dE))^[n] fun v => f (withSpins c v)) v = 0 := by
        unfold T rawLaw
        rw [Measure.eq_zero_of_isEmpty ((((0 : ℕ) : ℝ≥0∞)⁻¹ • Measure.count : Measure (Fin 0)).prod _)]
        simp
      rw [this]
      unfold Spec.expect
      simp
    have : NeZero L := ⟨by omega⟩
    have hmn := meas_iter (ν := rawLaw L) (meas_mv (β := c.vars.beta) hm) hf n
    rw [T_mv hm hb hmn]
    generalize (T (rawLaw L) (mv c.vars.beta dE))^[n] (fun v => f (withSpins c v)) = g at ih hmn ⊢
    unfold Spec.expect
    congr 1
    rw [Finset.sum_range]
    refine Finset.sum_congr rfl fun i _ => ?_
    have hl : Measurable fun x => ENNReal.ofReal (min 1 (Real.exp (-(c.vars.beta * dE v i x)))) * g (update v i x)
        + (1 - ENNReal.ofReal (min 1 (Real.exp (-(c.vars.beta * dE v i x))))) * g v := by
      have h0 : Measurable fun x => dE v i x := (hm i).comp (measurable_const.prodMk measurable_id)
      have h1 : Measurable fun x => ENNReal.ofReal (min 1 (Real.exp (-(c.vars.beta * dE v i x)))) :=
        (measurable_const.min (Real.measurable_exp.comp (h0.const_mul _).neg)).ennreal_ofReal
      exact (h1.mul (hmn.comp (measurable_update v))).add ((measurable_const.sub h1).mul measurable_const)
    rw [← lintegral_sphere hl]
    refine setLIntegral_congr_fun measurableSet_Ico fun u1 _ => ?_
    refine setLIntegral_congr_fun measurableSet_Ico fun u2 h2 => ?_
    have hu : ∀ u3 : ℝ, (match upd (withSpins c v) ⟨i, u1, u2, u3⟩ with
        | .ok c' => expect upd L f n c'
        | .error _ => 0) = expect upd L f n (metropolis c.vars.beta (dE v i (spherePoint u1 u2)) u3 (withSpins c v)
          (withSpins c (update v i (spherePoint u1 u2)))) := by
      intro u3
      rw [hupd _ i u1 u2 u3 h2.1 h2.2]
    refine (lintegral_congr hu).trans ?_
    exact mean_decision hb _ _ _ _ _ (ih _) (ih _)

omit hupd hm in
/-- every function of the spins is an observable of the chain -/
theorem lift (c : SpinChain ℝ) (g : (Fin L → V3 ℝ) → ℝ≥0∞) :
    ∃ f : SpinChain ℝ → ℝ≥0∞, ∀ v : Fin L → V3 ℝ, f (withSpins c v) = g v := by
  refine ⟨fun c => g fun i => S c i, fun v => ?_⟩
  show g (fun i => S (withSpins c v) i) = g v
  congr 1
  funext i
  rw [S_withSpins, dif_pos i.2]

theorem settles (hL : 1 ≤ L) (hb : 0 ≤ c.vars.beta) {B : ℝ}
    (hB : ∀ v, Good Sph v → ∀ i, ∀ x ∈ Sph, dE v i x ≤ B) (hB0 : 0 ≤ B) : Settles upd c L := by
  have : NeZero L := ⟨by omega⟩
  have hL0 : (1 : ℝ) ≤ L := by exact_mod_cast hL
  have hLr : (0 : ℝ) < L := by linarith
  have hst := meas_mv (β := c.vars.beta) hm
  have hG := mv_good_ae (β := c.vars.beta) (dE := dE)
  have hμ : ∀ᵐ v ∂(Measure.pi fun _ : Fin L => sphereMeasure), v ∈ {v : Fin L → V3 ℝ | Good Sph v} := good_ae sphere_ae
  set ε := (Real.exp (-(c.vars.beta * B)) / L) ^ L with hεd
  have hq0 : 0 < Real.exp (-(c.vars.beta * B)) / L := div_pos (Real.exp_pos _) hLr
  have e0 : 0 < ε := pow_pos hq0 L
  have e1 : ε ≤ 1 := by
    refine pow_le_one₀ hq0.le ((div_le_one hLr).2 (le_trans ?_ hL0))
    rw [← Real.exp_zero]
    exact Real.exp_le_exp.2 (by have := mul_nonneg hb hB0; linarith)
  have hmin : ∀ f : (Fin L → V3 ℝ) → ℝ≥0∞, Measurable f → ∀ v ∈ {v : Fin L → V3 ℝ | Good Sph v},
      ENNReal.ofReal ε * ∫⁻ u, f u ∂(Measure.pi fun _ => sphereMeasure)
        ≤ (T (rawLaw L) (mv c.vars.beta dE))^[L] f v := fun f hf v hv => minor hm hb hB hB0 hf v hv
  obtain ⟨π, hp, hπ, hinv, hc, hpos⟩ := exists_stationary hst meas_good hG hμ e0 e1 hL hmin
  refine ⟨π, ⟨hp, hπ, fun f hf => ?_⟩, fun π' h' => ?_, fun A hA h0 => ?_, ⟨ε, e0, e1, fun f hf hf1 v hv n => ?_⟩, ?_⟩
  · simp only [expect_eq hupd hm hb hf]
    exact hinv _ hf
  · have := h'.prob
    refine stationary_unique hst meas_good hG hμ e0 e1 hL hmin h'.unit (fun g hg _ => ?_) hc
    obtain ⟨f, hf⟩ := lift c g
    have hfo : Observable c L f := by
      unfold Observable
      simp only [hf]
      exact hg
    have := h'.step f hfo
    simp only [expect_eq hupd hm hb hfo, hf] at this
    exact this
  · refine lt_of_lt_of_le (ENNReal.mul_pos ?_ h0.ne') (hpos A hA)
    simp [e0]
  · rw [expect_eq hupd hm hb hf]
    obtain ⟨c1, c2⟩ := hc _ hf (fun v => hf1 _) v hv n
    have r0 : 0 ≤ (1 - ε) ^ (n / L) := pow_nonneg (by linarith) _
    have hI : ∫⁻ v, f (withSpins c v) ∂π ≠ ⊤ := by
      refine ne_top_of_le_ne_top ENNReal.one_ne_top ((lintegral_mono fun v => hf1 _).trans ?_)
      simp
    rw [← ENNReal.ofReal_toReal hI, ← ENNReal.ofReal_add ENNReal.toReal_nonneg r0] at c1
    have ht := ne_top_of_le_ne_top ENNReal.ofReal_ne_top c1
    rw [← ENNReal.ofReal_toReal ht, ← ENNReal.ofReal_toReal hI, ← ENNReal.ofReal_add ENNReal.toReal_nonneg r0] at c2
    have d1 := ENNReal.toReal_le_of_le_ofReal (add_nonneg ENNReal.toReal_nonneg r0) c1
    have d2 := (ENNReal.ofReal_le_ofReal_iff (add_nonneg ENNReal.toReal_nonneg r0)).1 c2
    exact abs_le.2 ⟨by linarith, by linarith⟩
  · refine ⟨4 * (1 + 2 * (L / ε)), by positivity, fun f obs M hobs hf hM v hv per n hper hn => ?_⟩
    have key := average_error hst hG hπ e0 e1 hL hc hf hM (y := v) hv hper hn
    refine ⟨fun b => total (run (mv c.vars.beta dE) per) (fun v => f (withSpins c v)) n v b / n, ?_, ?_, key⟩
    · exact ((meas_total (meas_run hst per) hf n).comp (measurable_const.prodMk measurable_id)).div_const _
    · refine (fair_blocks per n).mono fun b hb => ⟨_, _, loop_eq (fun v d hd => upd_mv hupd v hd) hobs per n b hb v, ?_⟩
      rw [vals_mean]

end

end Verif.Settle
