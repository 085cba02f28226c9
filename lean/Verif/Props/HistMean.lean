/-
C135: how many rows the histogram of the dynamics needs (/repo/src/obs.rs `gen_hist_dynamics`).
-/
import Verif.Spec.HistMean
import Verif.Props.RunMean
import Verif.Props.Samples

set_option linter.unusedSectionVars false

namespace Verif.Props

open Spec MeasureTheory Finset Function
open scoped ENNReal

section
variable {conf : Config ℝ} {c : SpinChain ℝ} {L s : ℕ}

/-- the columns of the histogram among those of a log -/
def histPlace (k : ℕ) : ℕ := if k = 4 then 2 else k + 2

theorem hist_place {k : ℕ} (k1 : 1 ≤ k) (k4 : k ≤ 4) (c : SpinChain ℝ) : histQuantity s k c = (logCols L s c).getD (histPlace k) 0 := by
  interval_cases k <;> rfl

/-- what holds for almost all spins holds for the spins of a new chain -/
theorem path_ae {b : ℝ} (hb : b ≠ 0) {P : (Fin L → V3 ℝ) → Prop} (hP : ∀ᵐ q ∂(Measure.pi fun _ : Fin L => sphereMeasure), P q) :
    ∀ᵐ x ∂(Measure.pi fun _ : Fin L => tripleMeasure), P (path b L startDir x) := by
  obtain ⟨A, hA1, hA2, hA3⟩ := exists_measurable_superset_of_null (ae_iff.1 hP)
  have h := path_law hb L startDir_unit (f := A.indicator fun _ => 1) (measurable_const.indicator hA2)
  have z : ∫⁻ v, pathWeight b L startDir v * A.indicator (fun _ => 1) v ∂(Measure.pi fun _ : Fin L => sphereMeasure) = 0 := by
    have e : (fun v => pathWeight b L startDir v * A.indicator (fun _ => (1 : ℝ≥0∞)) v) =ᵐ[Measure.pi fun _ : Fin L => sphereMeasure] 0 := by
      have : ∀ᵐ v ∂(Measure.pi fun _ : Fin L => sphereMeasure), v ∉ A := measure_eq_zero_iff_ae_notMem.1 hA3
      filter_upwards [this] with v hv
      rw [Set.indicator_of_notMem hv, mul_zero]
      rfl
    rw [lintegral_congr_ae e]
    simp
  have mi : Measurable fun x : Fin L → ℝ × ℝ × ℝ => A.indicator (fun _ => (1 : ℝ≥0∞)) (path b L startDir x) :=
    (measurable_const.indicator hA2).comp (meas_path' b L startDir)
  rw [z, lintegral_eq_zero_iff mi] at h
  filter_upwards [h] with x hx
  by_contra hn
  have : path b L startDir x ∈ A := hA1 hn
  have h1 : A.indicator (fun _ => (1 : ℝ≥0∞)) (path b L startDir x) = 0 := hx
  rw [Set.indicator_of_mem this] at h1
  exact one_ne_zero h1

/-- one row: its entries are functions of the draws, bounded and with the exact law -/
theorem hist_one (v : ValidConf conf L s) (hb : conf.beta ≠ 0) (hs : 2 ≤ s) (hsL : s ≤ L) (hL : 4 ≤ L) (N : ℕ) {u0 zj zh : ℕ → ℝ}
    (hc : SpinChain.new conf 0 u0 zj zh = .ok c) (hJ : ∀ i < 2 * (L / 2), J c i ≠ zero) :
    ∃ X : ℕ → (Fin L → ℝ × ℝ × ℝ) → ℝ,
      (∀ᵐ x ∂(Measure.pi fun _ : Fin L => tripleMeasure), ∀ k, 1 ≤ k → k ≤ 4 → ∃ c0 c', SpinChain.new conf 0 (drawsOf x) zj zh = .ok c0 ∧
        c0.updates N = .ok c' ∧ histQuantity s k c' = X k x) ∧
      ∀ k, 1 ≤ k → k ≤ 4 → Measurable (X k) ∧
        (∀ K D, (∀ i < L, len (J c i) + len (H0 c i) ≤ K) → (∀ t, len (drive conf t) ≤ D) →
          ∀ᵐ x ∂(Measure.pi fun _ : Fin L => tripleMeasure), |X k x| ≤ if k = 4 then K + D else 1) ∧
        ∀ φ : ℝ → ℝ, newMean conf 0 zj zh L (afterRun N fun y => φ (histQuantity s k y))
          = ∫ x, φ (X k x) ∂(Measure.pi fun _ : Fin L => tripleMeasure) := by
  have hL2 : 2 ≤ L := by omega
  obtain ⟨w, ht, hv⟩ := new_facts v hc
  have b : ∀ k, 1 ≤ k → k ≤ 4 → ∀ K D, (∀ i < L, len (J c i) + len (H0 c i) ≤ K) → len (drive c.vars (c.t + N * c.vars.dt)) ≤ D →
      BoundedBy { c with t := c.t + N * c.vars.dt } L (logSize K D (histPlace k)) fun x => (logCols L s x).getD (histPlace k) 0 :=
    fun k k1 k4 K D hK hD => log_bounded (s := s) (k := histPlace k) { c with t := c.t + N * c.vars.dt } hs hsL hK hD
      (by unfold histPlace; split_ifs <;> omega) (by unfold histPlace; split_ifs <;> omega)
  have main : ∀ᵐ x ∂(Measure.pi fun _ : Fin L => tripleMeasure),
      SpinChain.new conf 0 (drawsOf x) zj zh = .ok (withSpins c (path conf.beta L startDir x)) ∧
      (∀ i, len (flow c L s N (path conf.beta L startDir x) i) = 1) ∧
      ∃ c', (withSpins c (path conf.beta L startDir x)).updates N = .ok c' ∧
        ∀ k, 1 ≤ k → k ≤ 4 → histQuantity s k c'
          = (logCols L s (withSpins { c with t := c.t + N * c.vars.dt } (flow c L s N (path conf.beta L startDir x)))).getD (histPlace k) 0 := by
    filter_upwards [new_same v hb hc, path_ae hb (C86_generic c L s w hL hJ)] with x h1 h2
    obtain ⟨c', e1, e2⟩ := run_flow w hL2 h2.1 (h2.2 N)
    obtain ⟨a1, a2, a3, -, -⟩ := updates_frame e1
    have ht := C25_time _ _ N e1
    have w' := updates_wf (withSpins_wf w (path conf.beta L startDir x)) e1
    obtain ⟨-, u1⟩ := updates_unit (withSpins_wf w _) hL2 (unit_withSpins h2.1) (h2.2 N) e1
    refine ⟨h1, fun i => ?_, c', e1, fun k k1 k4 => ?_⟩
    · have := unit_of w' u1 i.2
      rwa [e2, fld_val] at this
    · rw [hist_place (L := L) k1 k4]
      congr 1
      refine logCols_congr ?_ a1 a2 a3 ht
      rw [e2, S_fld]
  refine ⟨fun k x => (logCols L s (withSpins { c with t := c.t + N * c.vars.dt } (flow c L s N (path conf.beta L startDir x)))).getD (histPlace k) 0,
    ?_, fun k k1 k4 => ⟨?_, fun K D hK hD => ?_, fun φ => ?_⟩⟩
  · filter_upwards [main] with x hx k k1 k4
    obtain ⟨h1, -, c', h2, h3⟩ := hx
    exact ⟨_, c', h1, h2, h3 k k1 k4⟩
  · have hK : ∀ i < L, len (J c i) + len (H0 c i) ≤ ∑ i ∈ range L, (len (J c i) + len (H0 c i)) := fun i hi =>
      Finset.single_le_sum (f := fun i => len (J c i) + len (H0 c i)) (fun i _ => add_nonneg (len_nonneg _) (len_nonneg _)) (mem_range.2 hi)
    exact (b k k1 k4 _ _ hK le_rfl).meas.comp ((flow_preserving c L s N).measurable.comp (meas_path' conf.beta L startDir))
  · filter_upwards [main] with x hx
    refine ((b k k1 k4 K D hK (by rw [hv]; exact hD _)).bound _ hx.2.1).trans (le_of_eq ?_)
    unfold logSize histPlace
    interval_cases k <;> norm_num
  · unfold newMean
    refine integral_congr_ae ?_
    filter_upwards [main] with x hx
    obtain ⟨h1, -, c', h2, h3⟩ := hx
    rw [h1]
    dsimp only
    unfold afterRun
    rw [h2]
    dsimp only
    rw [h3 k k1 k4]

/-- the rows of the histogram, for almost all draws -/
theorem hist_rows (v : ValidConf conf L s) (hs : 2 ≤ s) (hsL : s ≤ L) (hth : 1 ≤ conf.threads) {n : ℕ} (hn : 1 ≤ n) (hdt : 0 < conf.dt)
    {N : ℕ} (hN : WholeSteps conf.t conf.dt N) (hN' : N < 2 ^ 64) {zj zh : ℕ → ℕ → ℝ} {X : Fin n → ℕ → (Fin L → ℝ × ℝ × ℝ) → ℝ}
    (w : Fin n → Fin L → ℝ × ℝ × ℝ)
    (hX : ∀ r : Fin n, ∀ k, 1 ≤ k → k ≤ 4 → ∃ c0 c', SpinChain.new conf 0 (drawsOf (w r)) (zj r) (zh r) = .ok c0 ∧
        c0.updates N = .ok c' ∧ histQuantity s k c' = X r k (w r)) :
    ∃ rows, gen_hist_dynamics conf n (histRand zj zh w) = .ok rows ∧ rows.length = n ∧
      ∀ k, 1 ≤ k → k ≤ 4 → rows.map (fun row => row.getD k 0) = List.ofFn fun r : Fin n => X r k (w r) := by
  obtain ⟨rows, h1, h2, h3⟩ := C78_rows conf v (by omega) hsL hth n hn (histRand zj zh w) hdt N hN hN'
  refine ⟨rows, h1, h2, fun k k1 k4 => ?_⟩
  refine List.ext_getElem (by simp [h2]) fun i p1 p2 => ?_
  have hi : i < n := by simpa using p2
  rw [List.getElem_map, List.getElem_ofFn]
  obtain ⟨c0, c', e, q1, q2, -, q4, q5⟩ := h3 i (by omega)
  obtain ⟨d0, d', r1, r2, r3⟩ := hX ⟨i, hi⟩ k k1 k4
  have hu : (histRand zj zh w i).u = drawsOf (w ⟨i, hi⟩) := by
    unfold histRand
    exact dif_pos hi
  rw [hu] at q1
  have q1' : SpinChain.new conf 0 (drawsOf (w ⟨i, hi⟩)) (zj i) (zh i) = .ok c0 := q1
  have r1' : SpinChain.new conf 0 (drawsOf (w ⟨i, hi⟩)) (zj i) (zh i) = .ok d0 := r1
  rw [q1'] at r1'
  cases r1'
  rw [q2] at r2
  cases r2
  rw [q5, ← r3]
  obtain ⟨w0, -, -⟩ := new_facts v q1'
  have w' := updates_wf w0 q2
  rw [system_energy_eq w' (by omega) hsL] at q4
  rw [← Except.ok.inj q4]
  interval_cases k <;> rfl

theorem share_sum {n : ℕ} (A : Set ℝ) (k : ℕ) {rows : List (List ℝ)} {g : Fin n → ℝ} (hl : rows.length = n)
    (h : rows.map (fun row => row.getD k 0) = List.ofFn g) :
    rowShare rows k A = (∑ r, A.indicator 1 (g r)) / n := by
  classical
  unfold rowShare
  rw [hl]
  congr 1
  have e : (rows.filter fun row => decide (row.getD k 0 ∈ A)).length = ((rows.map fun row => row.getD k 0).filter fun x => decide (x ∈ A)).length := by
    rw [List.filter_map, List.length_map]
    rfl
  have f : ∀ l : List ℝ, ((l.filter fun x => decide (x ∈ A)).length : ℝ) = (l.map (A.indicator 1)).sum := by
    intro l
    induction l with
    | nil => simp
    | cons a l ih =>
      by_cases ha : a ∈ A
      · simp [ha, ← ih, add_comm]
      · simp [ha, ← ih]
  have e' : ((rows.filter fun row => decide (row.getD k 0 ∈ A)).length : ℝ) = (((rows.map fun row => row.getD k 0).filter fun x => decide (x ∈ A)).length : ℝ) := by
    exact_mod_cast e
  refine Eq.trans (by convert e') ?_
  rw [f, h, List.map_ofFn, List.sum_ofFn]
  rfl

/-- means over the rows of functions of the entries, all of them at once -/
theorem hist_close (v : ValidConf conf L s) (hb : conf.beta ≠ 0) (hs : 2 ≤ s) (hsL : s ≤ L) (hL : 4 ≤ L)
    (hth : 1 ≤ conf.threads) (hdt : 0 < conf.dt) {N : ℕ} (hN : WholeSteps conf.t conf.dt N) (hN' : N < 2 ^ 64) {n : ℕ} (hn : 1 ≤ n)
    {u0 zj zh : ℕ → ℕ → ℝ} {c : ℕ → SpinChain ℝ} (hc : ∀ r < n, SpinChain.new conf 0 (u0 r) (zj r) (zh r) = .ok (c r))
    (hJ : ∀ r < n, ∀ i < 2 * (L / 2), J (c r) i ≠ zero)
    {b : ℕ} {col : ℕ → ℕ} (hcol : ∀ j < b, 1 ≤ col j ∧ col j ≤ 4) {φ : ℕ → ℝ → ℝ} (mφ : ∀ j < b, Measurable (φ j))
    {C : ℕ → ℝ} (C0 : ∀ j < b, 0 < C j) (a : ℕ → ℝ)
    (hC : ∀ j < b, (∀ x, |φ j x - a j| ≤ C j) ∨ ∃ K D, (∀ r < n, ∀ i < L, len (J (c r) i) + len (H0 (c r) i) ≤ K) ∧
      (∀ t, len (drive conf t) ≤ D) ∧ ∀ x, |x| ≤ (if col j = 4 then K + D else 1) → |φ j x - a j| ≤ C j) {ε : ℝ} (hε : 0 ≤ ε) :
    histLaw L n {w | ¬ ∃ (rows : List (List ℝ)) (g : ℕ → Fin n → ℝ), gen_hist_dynamics conf n (histRand zj zh w) = .ok rows ∧ rows.length = n ∧
        ∀ j < b, rows.map (fun row => row.getD (col j) 0) = List.ofFn (g j) ∧
          |(∑ r, φ j (g j r)) / n
          - (∑ r : Fin n, newMean conf 0 (zj r) (zh r) L (afterRun N fun y => φ j (histQuantity s (col j) y))) / n| < ε * C j}
      ≤ ENNReal.ofReal (2 * b * Real.exp (-(n * ε ^ 2 / 2))) := by
  have n0 : (0 : ℝ) < n := by exact_mod_cast hn
  have each := fun r : Fin n => hist_one v hb hs hsL hL N (hc r r.2) (hJ r r.2)
  choose X aX bX using each
  have all : ∀ᵐ w ∂(histLaw L n), ∀ r : Fin n, ∀ k, 1 ≤ k → k ≤ 4 → ∃ c0 c', SpinChain.new conf 0 (drawsOf (w r)) (zj r) (zh r) = .ok c0 ∧
        c0.updates N = .ok c' ∧ histQuantity s k c' = X r k (w r) := by
    rw [ae_all_iff]
    intro r
    exact (Measure.quasiMeasurePreserving_eval (fun _ : Fin n => Measure.pi fun _ : Fin L => tripleMeasure) r).ae (aX r)
  set bad : ℕ → Set (Fin n → Fin L → ℝ × ℝ × ℝ) := fun j =>
    {w | ε * C j ≤ |(∑ r, (φ j (X r (col j) (w r)) - a j)) / n
      - (∑ r : Fin n, ∫ x, (φ j (X r (col j) x) - a j) ∂(Measure.pi fun _ : Fin L => tripleMeasure)) / n|} with hbad
  have small : ∀ j < b, ∀ r : Fin n, ∀ᵐ x ∂(Measure.pi fun _ : Fin L => tripleMeasure), |φ j (X r (col j) x) - a j| ≤ C j := by
    intro j hj r
    rcases hC j hj with h | ⟨K, D, hK, hD, h⟩
    · exact Filter.Eventually.of_forall fun x => h _
    · filter_upwards [(bX r (col j) (hcol j hj).1 (hcol j hj).2).2.1 K D (hK r r.2) hD] with x hx
      exact h _ hx
  have meas : ∀ j < b, ∀ r : Fin n, Measurable fun x => φ j (X r (col j) x) - a j := fun j hj r =>
    ((mφ j hj).comp (bX r (col j) (hcol j hj).1 (hcol j hj).2).1).sub_const _
  have bound : ∀ j ∈ range b, histLaw L n (bad j) ≤ ENNReal.ofReal (2 * Real.exp (-(n * ε ^ 2 / 2))) := by
    intro j hj
    have hj := mem_range.1 hj
    exact hoeffding hn (meas j hj) (C0 j hj) (small j hj) hε
  refine le_trans (measure_mono_ae (t := ⋃ j ∈ range b, bad j) ?_) ?_
  · filter_upwards [all] with w hw hnw
    by_contra hnot
    refine (show ¬ _ from hnw) ?_
    obtain ⟨rows, r1, r2, r3⟩ := hist_rows v hs hsL hth hn hdt hN hN' w hw
    refine ⟨rows, fun j r => X r (col j) (w r), r1, r2, fun j hj => ⟨r3 _ (hcol j hj).1 (hcol j hj).2, ?_⟩⟩
    have good : w ∉ bad j := fun hb => hnot (Set.mem_biUnion (Finset.mem_coe.2 (mem_range.2 hj)) hb)
    rw [hbad, Set.mem_ofPred_eq, not_le] at good
    have lt := good
    have e1 : ∀ r : Fin n, ∫ x, (φ j (X r (col j) x) - a j) ∂(Measure.pi fun _ : Fin L => tripleMeasure)
        = newMean conf 0 (zj r) (zh r) L (afterRun N fun y => φ j (histQuantity s (col j) y)) - a j := fun r => by
      rw [(bX r (col j) (hcol j hj).1 (hcol j hj).2).2.2 (φ j)]
      have hi : Integrable (fun x => φ j (X r (col j) x) - a j) (Measure.pi fun _ : Fin L => tripleMeasure) :=
        Integrable.of_bound (meas j hj r).aestronglyMeasurable (C j) (by simpa only [Real.norm_eq_abs] using small j hj r)
      have := integral_add hi (integrable_const (a j))
      simp only [sub_add_cancel, integral_const, probReal_univ, one_smul] at this
      linarith
    simp only [e1, Finset.sum_sub_distrib, sub_div] at lt
    rw [sub_sub_sub_cancel_right] at lt
    exact lt
  · refine (measure_biUnion_finset_le _ _).trans ?_
    refine (Finset.sum_le_sum bound).trans ?_
    rw [Finset.sum_const, card_range, nsmul_eq_mul, ← ENNReal.ofReal_natCast, ← ENNReal.ofReal_mul (by positivity)]
    exact ENNReal.ofReal_le_ofReal (le_of_eq (by ring))

/-- C135, bins: for any finite family of bins of any columns, the shares of the rows of the histogram are all at once closer than `δ` to
the exact probabilities, averaged over the couplings and fields of the chains, except with probability `2 b exp (-2 n δ²)`. -/
theorem C135_bins (conf : Config ℝ) (L s : ℕ) (v : ValidConf conf L s) (hb : conf.beta ≠ 0) (hs : 2 ≤ s) (hsL : s ≤ L) (hL : 4 ≤ L)
    (hth : 1 ≤ conf.threads) (hdt : 0 < conf.dt) (N : ℕ) (hN : WholeSteps conf.t conf.dt N) (hN' : N < 2 ^ 64) (n : ℕ) (hn : 1 ≤ n)
    (u0 zj zh : ℕ → ℕ → ℝ) (c : ℕ → SpinChain ℝ) (hc : ∀ r < n, SpinChain.new conf 0 (u0 r) (zj r) (zh r) = .ok (c r))
    (hJ : ∀ r < n, ∀ i < 2 * (L / 2), J (c r) i ≠ zero)
    (b : ℕ) (col : ℕ → ℕ) (hcol : ∀ j < b, 1 ≤ col j ∧ col j ≤ 4) (A : ℕ → Set ℝ) (hA : ∀ j < b, MeasurableSet (A j)) (δ : ℝ) (hδ : 0 ≤ δ) :
    histLaw L n {w | ¬ ∃ rows, gen_hist_dynamics conf n (histRand zj zh w) = .ok rows ∧ rows.length = n ∧
        ∀ j < b, |rowShare rows (col j) (A j)
          - (∑ r : Fin n, newMean conf 0 (zj r) (zh r) L (afterRun N fun y => (A j).indicator 1 (histQuantity s (col j) y))) / n| < δ}
      ≤ ENNReal.ofReal (2 * b * Real.exp (-(2 * n * δ ^ 2))) := by
  have key := hist_close v hb hs hsL hL hth hdt hN hN' hn hc hJ hcol (φ := fun j => (A j).indicator 1) (C := fun _ => 1 / 2)
    (fun j hj => measurable_one.indicator (hA j hj)) (fun _ _ => by norm_num) (fun _ => 1 / 2) (fun j _ => Or.inl fun x => by
      by_cases hx : x ∈ A j
      · simp only [Set.indicator_of_mem hx, Pi.one_apply]
        norm_num
      · simp only [Set.indicator_of_notMem hx]
        norm_num) (ε := 2 * δ) (by linarith)
  refine (measure_mono fun w hw => ?_).trans (key.trans (le_of_eq ?_))
  · rintro ⟨rows, g, h1, h2, h3⟩
    refine (show ¬ _ from hw) ⟨rows, h1, h2, fun j hj => ?_⟩
    obtain ⟨q1, q2⟩ := h3 j hj
    rw [share_sum (A j) (col j) h2 q1]
    refine q2.trans_le (le_of_eq (by ring))
  · congr 4
    ring

/-- C135, means: the mean over the rows of each of the four columns is closer than `δ` times its size to the exact mean, averaged over the
couplings and fields of the chains, all four at once except with probability `8 exp (-n δ² / 2)`. -/
theorem C135_means (conf : Config ℝ) (L s : ℕ) (v : ValidConf conf L s) (hb : conf.beta ≠ 0) (hs : 2 ≤ s) (hsL : s ≤ L) (hL : 4 ≤ L)
    (hth : 1 ≤ conf.threads) (hdt : 0 < conf.dt) (N : ℕ) (hN : WholeSteps conf.t conf.dt N) (hN' : N < 2 ^ 64) (n : ℕ) (hn : 1 ≤ n)
    (u0 zj zh : ℕ → ℕ → ℝ) (c : ℕ → SpinChain ℝ) (hc : ∀ r < n, SpinChain.new conf 0 (u0 r) (zj r) (zh r) = .ok (c r))
    (hJ : ∀ r < n, ∀ i < 2 * (L / 2), J (c r) i ≠ zero)
    (K D : ℝ) (hK : ∀ r < n, ∀ i < L, len (J (c r) i) + len (H0 (c r) i) ≤ K) (hD : ∀ t, len (drive conf t) ≤ D) (δ : ℝ) (hδ : 0 ≤ δ) :
    histLaw L n {w | ¬ ∃ rows, gen_hist_dynamics conf n (histRand zj zh w) = .ok rows ∧ rows.length = n ∧
        ∀ k, 1 ≤ k → k ≤ 4 → |rowMean rows k
          - (∑ r : Fin n, newMean conf 0 (zj r) (zh r) L (afterRun N (histQuantity s k))) / n| < δ * if k = 4 then K + D else 1}
      ≤ ENNReal.ofReal (8 * Real.exp (-(n * δ ^ 2 / 2))) := by
  have KD : 0 < K + D := by
    have h1 := hJ 0 (by omega) 0 (by omega)
    have h2 := hK 0 (by omega) 0 (by omega)
    have h3 : 0 < len (J (c 0) 0) := len_pos h1
    have h4 : 0 ≤ len (H0 (c 0) 0) := len_nonneg _
    have h5 := hD 0
    have h6 := len_nonneg (drive conf 0)
    linarith
  have key := hist_close v hb hs hsL hL hth hdt hN hN' hn hc hJ (b := 4) (col := fun j => j + 1) (fun j hj => ⟨by omega, by omega⟩)
    (φ := fun _ x => x) (C := fun j => if j + 1 = 4 then K + D else 1)
    (fun j hj => measurable_id) (fun _ _ => by split_ifs <;> linarith) (fun _ => 0) (fun j _ => Or.inr ⟨K, D, hK, hD, fun x hx => by
      rw [sub_zero]
      exact hx⟩) (ε := δ) hδ
  refine (measure_mono fun w hw => ?_).trans (key.trans (le_of_eq ?_))
  · rintro ⟨rows, g, h1, h2, h3⟩
    refine (show ¬ _ from hw) ⟨rows, h1, h2, fun k k1 k4 => ?_⟩
    obtain ⟨j, rfl⟩ := Nat.exists_eq_add_of_le' k1
    obtain ⟨q1, q2⟩ := h3 j (by omega)
    unfold rowMean
    rw [h2, q1, List.sum_ofFn]
    exact q2
  · congr 2
    norm_num

/-- without disorder the normal draws do not enter a new chain -/
theorem new_calm (v : ValidConf conf L s) (hj : conf.jvar = 0) (hv : conf.hvar = 0) (u zj zj' zh zh' : ℕ → ℝ) :
    SpinChain.new conf 0 u zj zh = SpinChain.new conf 0 u zj' zh' := by
  obtain ⟨sp, hsp, hlen⟩ := newSpins_ok conf.beta u L
  obtain ⟨f0, f1, f2, fr, hf⟩ := three_le v.hfield
  obtain ⟨h0, h1, h2, hr, hh⟩ := three_le v.hs
  have a := new_eq v.hsize v.L_lt hf hh v.jvar v.hvar 0 u zj zh hsp
  have b := new_eq v.hsize v.L_lt hf hh v.jvar v.hvar 0 u zj' zh' hsp
  have e1 : coupF conf.lambda conf.jvar zj = coupF conf.lambda conf.jvar zj' := by
    funext x
    simp only [coupF, hj, zero_mul]
  have e2 : fieldN f0 f1 f2 h0 h1 h2 conf.hvar conf.ssize zh = fieldN f0 f1 f2 h0 h1 h2 conf.hvar conf.ssize zh' := by
    funext x
    simp only [fieldN, hv, zero_mul]
  rw [a, b, e1, e2]

/-- C135, number of rows: without disorder, `log (2 b / p) / (2 δ²)` rows give the shares of `b` bins to the accuracy `δ` with probability
`1 - p`. -/
theorem C135_rows (conf : Config ℝ) (L s : ℕ) (v : ValidConf conf L s) (hb : conf.beta ≠ 0) (hj : conf.jvar = 0) (hv : conf.hvar = 0)
    (hs : 2 ≤ s) (hsL : s ≤ L) (hL : 4 ≤ L)
    (hth : 1 ≤ conf.threads) (hdt : 0 < conf.dt) (N : ℕ) (hN : WholeSteps conf.t conf.dt N) (hN' : N < 2 ^ 64) (n : ℕ) (hn : 1 ≤ n)
    (zj zh : ℕ → ℕ → ℝ) (u0 z0 z0' : ℕ → ℝ) (c : SpinChain ℝ) (hc : SpinChain.new conf 0 u0 z0 z0' = .ok c)
    (hJ : ∀ i < 2 * (L / 2), J c i ≠ zero)
    (b : ℕ) (col : ℕ → ℕ) (hcol : ∀ j < b, 1 ≤ col j ∧ col j ≤ 4) (A : ℕ → Set ℝ) (hA : ∀ j < b, MeasurableSet (A j)) (δ p : ℝ) (hδ : 0 < δ)
    (hp : 0 < p) (hrows : Real.log (2 * b / p) / (2 * δ ^ 2) ≤ n) :
    histLaw L n {w | ¬ ∃ rows, gen_hist_dynamics conf n (histRand zj zh w) = .ok rows ∧ rows.length = n ∧
        ∀ j < b, |rowShare rows (col j) (A j)
          - newMean conf 0 z0 z0' L (afterRun N fun y => (A j).indicator 1 (histQuantity s (col j) y))| < δ}
      ≤ ENNReal.ofReal p := by
  have n0 : (0 : ℝ) < n := by exact_mod_cast hn
  have key := C135_bins conf L s v hb hs hsL hL hth hdt N hN hN' n hn (fun _ => u0) zj zh (fun _ => c)
    (fun r _ => by rw [new_calm v hj hv u0 (zj r) z0 (zh r) z0']; exact hc) (fun _ _ => hJ) b col hcol A hA δ hδ.le
  have e : ∀ (r : Fin n) (g : SpinChain ℝ → ℝ), newMean conf 0 (zj r) (zh r) L g = newMean conf 0 z0 z0' L g := fun r g => by
    unfold newMean
    simp only [new_calm v hj hv _ (zj r) z0 (zh r) z0']
  refine (measure_mono fun w hw => ?_).trans (key.trans (ENNReal.ofReal_le_ofReal ?_))
  · rintro ⟨rows, h1, h2, h3⟩
    refine (show ¬ _ from hw) ⟨rows, h1, h2, fun j hj => ?_⟩
    have := h3 j hj
    simp only [e, sum_const, card_univ, Fintype.card_fin, nsmul_eq_mul] at this
    rwa [mul_div_cancel_left₀ _ n0.ne'] at this
  · rcases Nat.eq_zero_or_pos b with rfl | hb0
    · simp only [Nat.cast_zero, mul_zero, zero_mul]
      exact hp.le
    have b0 : (0 : ℝ) < b := by exact_mod_cast hb0
    rw [div_le_iff₀ (by positivity)] at hrows
    have h1 : Real.exp (-(2 * n * δ ^ 2)) ≤ Real.exp (-Real.log (2 * b / p)) := Real.exp_le_exp.2 (by linarith)
    rw [Real.exp_neg (Real.log _), Real.exp_log (by positivity)] at h1
    refine (mul_le_mul_of_nonneg_left h1 (by positivity)).trans (le_of_eq ?_)
    field_simp

/-- non-vacuity: the default configuration without disorder at `t` = 256 (12800 steps); 2000 rows give the shares of 20 bins to a
twentieth, with probability 19/20 -/
example : ∃ (conf : Config ℝ) (c : SpinChain ℝ), ValidConf conf 512 8 ∧ conf.beta ≠ 0 ∧ conf.jvar = 0 ∧ conf.hvar = 0 ∧ 1 ≤ conf.threads ∧
    0 < conf.dt ∧ WholeSteps conf.t conf.dt 12800 ∧ SpinChain.new conf 0 (fun _ => 0) (fun _ => 0) (fun _ => 0) = .ok c ∧
    (∀ i < 2 * (512 / 2), J c i ≠ zero) ∧ (∀ t, len (drive conf t) ≤ 1) ∧ (∀ k < 512, len (J c k) + len (H0 c k) ≤ 2) ∧
    MeasurableSet (Set.Ico (-1 / 20 : ℝ) (1 / 20)) ∧ Real.log (2 * (20 : ℕ) / (1 / 20)) / (2 * (1 / 20) ^ 2) ≤ (2000 : ℕ) := by
  let conf : Config ℝ := { (Config.default : Config ℝ) with jvar := 0 }
  have v : ValidConf conf 512 8 := by constructor <;> first | rfl | norm_num
  obtain ⟨sp, hsp, -⟩ := newSpins_ok conf.beta (fun _ => (0 : ℝ)) 512
  have hc := new_eq v.hsize v.L_lt (show conf.hfield = 0.0 :: 0.0 :: 0.0 :: [] from rfl) (show conf.hs = 0.0 :: 0.0 :: 0.0 :: [] from rfl)
    v.jvar v.hvar 0 (fun _ => 0) (fun _ => 0) (fun _ => 0) hsp
  have i1 : ∀ k < 512, ((List.range 512).map (coupF conf.lambda conf.jvar (fun _ => (0 : ℝ))))[k]? = some (coupF conf.lambda conf.jvar (fun _ => (0 : ℝ)) k) := by
    intro k hk
    rw [List.getElem?_map, List.getElem?_range hk, Option.map_some]
  have i2 : ∀ k < 512, ((List.range 512).map (fieldN (0.0 : ℝ) 0.0 0.0 0.0 0.0 0.0 conf.hvar conf.ssize (fun _ => (0 : ℝ))))[k]?
      = some (fieldN (0.0 : ℝ) 0.0 0.0 0.0 0.0 0.0 conf.hvar conf.ssize (fun _ => (0 : ℝ)) k) := by
    intro k hk
    rw [List.getElem?_map, List.getElem?_range hk, Option.map_some]
  refine ⟨conf, _, v, by norm_num [conf, Config.default], rfl, by norm_num [conf, Config.default], by norm_num [conf, Config.default],
    by norm_num [conf, Config.default], ?_, hc, fun i hi => ?_, fun t => ?_, fun k hk => ?_, measurableSet_Ico, ?_⟩
  · unfold WholeSteps
    norm_num [conf, Config.default]
  · unfold J
    dsimp only
    rw [i1 i (by omega)]
    intro h
    have := congrArg V3.x h
    norm_num [coupF, conf, Config.default, zero] at this
  · show len ⟨Real.cos _, Real.sin _, 0⟩ ≤ 1
    unfold len dot
    rw [Real.sqrt_le_left (by norm_num)]
    dsimp only
    nlinarith [Real.sin_sq_add_cos_sq (2 * Real.pi * t / conf.tau)]
  · have e1 : len (coupF conf.lambda conf.jvar (fun _ => (0 : ℝ)) k) ≤ 2 := by
      unfold len
      rw [Real.sqrt_le_left (by norm_num)]
      norm_num [coupF, dot, conf, Config.default]
    have e2 : len (fieldN (0.0 : ℝ) 0.0 0.0 0.0 0.0 0.0 conf.hvar conf.ssize (fun _ => (0 : ℝ)) k) = 0 := by
      unfold len
      rw [Real.sqrt_eq_zero']
      unfold fieldN
      split_ifs <;> norm_num [dot, conf, Config.default]
    unfold J H0
    dsimp only
    rw [i1 k hk, i2 k hk]
    show len (coupF conf.lambda conf.jvar (fun _ => (0 : ℝ)) k) + len (fieldN (0.0 : ℝ) 0.0 0.0 0.0 0.0 0.0 conf.hvar conf.ssize (fun _ => (0 : ℝ)) k) ≤ 2
    rw [e2]
    linarith
  · have : Real.log (2 * (20 : ℕ) / (1 / 20)) ≤ 7 := by
      rw [Real.log_le_iff_le_exp (by norm_num), show (7 : ℝ) = (7 : ℕ) * 1 by norm_num, Real.exp_nat_mul]
      have := pow_le_pow_left₀ (by norm_num) Real.exp_one_gt_d9.le 7
      norm_num at this ⊢
      linarith
    push_cast at this ⊢
    rw [div_le_iff₀ (by norm_num)]
    linarith

end

end Verif.Props
