/-
C134: how many runs the averages of the dynamics need (/repo/src/obs.rs `run_sim`, `average`).
-/
import Verif.Lemmas.RunMean
import Verif.Props.Runs
import Verif.Props.Averages
import Mathlib.Analysis.Complex.ExponentialBounds

set_option linter.unusedSectionVars false

namespace Verif.Props

open Spec MeasureTheory Finset Function
open scoped ENNReal

section
variable {conf : Config ℝ} {c : SpinChain ℝ} {L s : ℕ}

/-- the numbers of a row of the log -/
noncomputable def logCols (L s : ℕ) (c : SpinChain ℝ) : List ℝ :=
  [c.t, ringEnergy L (S c) (J c) (B c s c.t) / L,
    (openEnergy s (S c) (J c) (B c s c.t) - dot (B c s c.t (s - 1)) (S c (s - 1))) / ((s : ℝ) - 1),
    (∑ i ∈ range s, (S c i).x) / s, (∑ i ∈ range s, (S c i).y) / s,
    (∑ i ∈ range s, (S c i).z) / s, (∑ i ∈ range L, (S c i).z) / L,
    (S c (s / 4)).x, (S c (s / 4)).y, (S c (s / 4)).z,
    (S c (3 * s / 4)).x, (S c (3 * s / 4)).y, (S c (3 * s / 4)).z]

theorem log_cols (w : WF c L s) (hs : 1 ≤ s) (hsL : s ≤ L) (hf : c.file.isSome = true) : c.log = .ok (some (logCols L s c)) := by
  obtain ⟨row, h1, h2, h3, h4⟩ := C42_log_row c L s w hs hsL
  rw [total_energy2_eq w (by omega)] at h2
  rw [system_energy_eq w hs hsL] at h3
  rw [h1, hf, if_pos rfl, h4, ← Except.ok.inj h2, ← Except.ok.inj h3]
  rfl

theorem logged_cols (w : WF c L s) (hs : 1 ≤ s) (hsL : s ≤ L) (hf : c.file.isSome = true) (k : ℕ) : logged k c = (logCols L s c).getD k 0 := by
  unfold logged
  rw [log_cols w hs hsL hf]

theorem logCols_congr {c c' : SpinChain ℝ} (h1 : S c = S c') (h2 : c.j_couple = c'.j_couple) (h3 : c.static_h = c'.static_h)
    (h4 : c.vars = c'.vars) (h5 : c.t = c'.t) : logCols L s c = logCols L s c' := by
  have hB : B c s c.t = B c' s c'.t := by rw [h5]; exact B_congr h3 (by rw [h4])
  unfold logCols
  rw [h1, J_congr h2, hB, h5]

/-- the energy of the subsystem -/
theorem open_bounded (c : SpinChain ℝ) (hs : 2 ≤ s) (hsL : s ≤ L) {B : ℕ → V3 ℝ} {K : ℝ} (hK : ∀ i < L, len (J c i) + len (B i) ≤ K) :
    BoundedBy c L K fun x => (openEnergy s (S x) (J c) B - dot (B (s - 1)) (S x (s - 1))) / ((s : ℝ) - 1) := by
  obtain ⟨n, rfl⟩ : ∃ n, s = n + 2 := ⟨s - 2, by omega⟩
  have n0 : (0 : ℝ) < ((n + 2 : ℕ) : ℝ) - 1 := by push_cast; linarith [(Nat.cast_nonneg n : (0 : ℝ) ≤ n)]
  have e : ∀ x : SpinChain ℝ, openEnergy (n + 2) (S x) (J c) B - dot (B (n + 2 - 1)) (S x (n + 2 - 1))
      = ∑ i ∈ range (n + 1), (-dot (S x i) (had (J c i) (S x (i + 1))) + dot (B i) (S x i)) := fun x => by
    unfold openEnergy
    rw [show n + 2 - 1 = n + 1 by omega, Finset.sum_range_succ _ (n + 1), Finset.sum_add_distrib]
    ring
  simp only [e]
  constructor
  · refine (Finset.measurable_sum _ fun i _ => ?_).div_const _
    exact (meas_dot (S_meas c i) (meas_had measurable_const (S_meas c _))).neg.add (meas_dot measurable_const (S_meas c i))
  · intro v hv
    rw [abs_div, abs_of_pos n0, div_le_iff₀ n0]
    have e : K * (((n + 2 : ℕ) : ℝ) - 1) = ∑ _i ∈ range (n + 1), K := by
      simp only [sum_const, card_range, nsmul_eq_mul]
      push_cast
      ring
    rw [e]
    refine (abs_sum_le_sum_abs _ _).trans (sum_le_sum fun i hi => ?_)
    have hi := mem_range.1 hi
    refine le_trans ?_ (hK i (by omega))
    have h1 := abs_dot_le_len (S (withSpins c v) i) (had (J c i) (S (withSpins c v) (i + 1)))
    have h2 := abs_dot_le_len (B i) (S (withSpins c v) i)
    have h3 := len_had_le (J c i) (S (withSpins c v) (i + 1))
    rw [S_len c hv (by omega)] at h3
    rw [S_len c hv (by omega)] at h1 h2
    refine (abs_add_le _ _).trans ?_
    rw [abs_neg]
    linarith

/-- every column of a log but the time is a bounded observable -/
theorem log_bounded (c : SpinChain ℝ) (hs : 2 ≤ s) (hsL : s ≤ L) {K D : ℝ} (hK : ∀ i < L, len (J c i) + len (H0 c i) ≤ K)
    (hD : len (drive c.vars c.t) ≤ D) {k : ℕ} (k1 : 1 ≤ k) (hk : k < 13) :
    BoundedBy c L (logSize K D k) fun x => (logCols L s x).getD k 0 := by
  have hB : ∀ i < L, len (J c i) + len (B c s c.t i) ≤ K + D := fun i hi => by
    have q := hK i hi
    have d0 : 0 ≤ len (drive c.vars c.t) := Real.sqrt_nonneg _
    unfold B
    split_ifs
    · have := len_add_le (H0 c i) (drive c.vars c.t)
      linarith
    · linarith
  have h0 : BoundedBy c L (K + D) fun x => ringEnergy L (S x) (J c) (B c s c.t) / L := part_bounded c (by omega) le_rfl hB
  have h1 := open_bounded c hs hsL hB
  have q1 := fun i (hi : i < L) => (comp_bounded c hi).1
  have q2 := fun i (hi : i < L) => (comp_bounded c hi).2.1
  have q3 := fun i (hi : i < L) => (comp_bounded c hi).2.2
  interval_cases k
  · exact ⟨h0.meas, h0.bound⟩
  · exact ⟨h1.meas, h1.bound⟩
  · exact mean_bounded (by omega) fun i hi => q1 i (by omega)
  · exact mean_bounded (by omega) fun i hi => q2 i (by omega)
  · exact mean_bounded (by omega) fun i hi => q3 i (by omega)
  · exact mean_bounded (by omega) fun i hi => q3 i (by omega)
  · exact q1 _ (by omega)
  · exact q2 _ (by omega)
  · exact q3 _ (by omega)
  · exact q1 _ (by omega)
  · exact q2 _ (by omega)
  · exact q3 _ (by omega)

/-- what a regular run logs -/
theorem run_logged (w : WF c L s) (hL : 2 ≤ L) (hs : 2 ≤ s) (hsL : s ≤ L) (hf : c.file.isSome = true) {q : Fin L → V3 ℝ} (hq : ∀ i, len (q i) = 1)
    {n : ℕ} (hr : RegularRun (withSpins c q) L s n) (k : ℕ) :
    (∀ i, len (flow c L s n q i) = 1) ∧
    afterRun n (logged k) (withSpins c q)
      = (logCols L s (withSpins { c with t := c.t + n * c.vars.dt } (flow c L s n q))).getD k 0 := by
  obtain ⟨c', h1, h2⟩ := run_flow w hL hq hr
  obtain ⟨a1, a2, a3, a4, -⟩ := updates_frame h1
  have ht := C25_time _ _ n h1
  have w' := updates_wf (withSpins_wf w q) h1
  obtain ⟨-, u1⟩ := updates_unit (withSpins_wf w q) hL (unit_withSpins hq) hr h1
  refine ⟨fun i => ?_, ?_⟩
  · have := unit_of w' u1 i.2
    rwa [h2, fld_val] at this
  · unfold afterRun
    rw [h1]
    dsimp only
    rw [logged_cols w' (by omega) hsL (by rw [a4]; exact hf)]
    congr 1
    refine logCols_congr ?_ a1 a2 a3 ht
    rw [h2, S_fld]

/-- the logged numbers as an observable of the spins after the warm-up -/
theorem run_bounded (w : WF c L s) (hL : 2 ≤ L) (hs : 2 ≤ s) (hsL : s ≤ L) (hf : c.file.isSome = true) {K D : ℝ}
    (hK : ∀ i < L, len (J c i) + len (H0 c i) ≤ K) (hD : ∀ t, len (drive c.vars t) ≤ D) {A : Set (Fin L → V3 ℝ)} (hA : MeasurableSet A)
    (hAP : ∀ q ∈ A, (∀ i, len (q i) = 1) ∧ ∀ n, RegularRun (withSpins c q) L s n) (n : ℕ) {k : ℕ} (k1 : 1 ≤ k) (hk : k < 13) :
    BoundedBy c L (logSize K D k) (within A (afterRun n (logged k))) := by
  have b := log_bounded (s := s) { c with t := c.t + n * c.vars.dt } hs hsL hK (hD _) k1 hk
  constructor
  · refine within_meas hA (b.meas.comp (flow_preserving c L s n).measurable) fun q hq => ?_
    exact (run_logged w hL hs hsL hf (hAP q hq).1 ((hAP q hq).2 n) k).2
  · intro q _
    unfold within
    rw [spins_withSpins]
    split_ifs with h
    · obtain ⟨r1, r2⟩ := run_logged w hL hs hsL hf (hAP q h).1 ((hAP q h).2 n) k
      rw [r2]
      exact b.bound _ r1
    · rw [abs_zero]
      have h0 := b.bound (fun _ => ⟨1, 0, 0⟩) (fun _ => by norm_num [len, dot])
      exact (abs_nonneg _).trans h0

theorem updates_course' {chain : ℕ → SpinChain ℝ} (h0 : chain 0 = c) (h : ∀ i, SpinChain.update (chain i) = .ok (chain (i + 1))) (i : ℕ) :
    c.updates i = .ok (chain i) := by
  induction i with
  | zero => rw [h0]; rfl
  | succ i ih => exact updates_succ'.2 ⟨_, ih, h i⟩

/-- one run: the log it leaves and the mean of each entry -/
theorem run_mean {p : ℕ} (hp : p = warmup) (v : ValidConf conf L s) (hb : 0 < conf.beta) (hs : 2 ≤ s) (hsL : s ≤ L) (hL : 4 ≤ L) (hdt : 0 < conf.dt)
    (hlog : conf.log = true) (hst : conf.strob = false) {N : ℕ} (hN : StepsNeeded (-conf.trel) conf.dt conf.t N)
    {num : ℕ} {u0 zj zh : ℕ → ℝ} (hc : SpinChain.new conf num u0 zj zh = .ok c) (hJ : ∀ i < 2 * (L / 2), J c i ≠ zero)
    {K D : ℝ} (hK : ∀ i < L, len (J c i) + len (H0 c i) ≤ K) (hD : ∀ t, len (drive conf t) ≤ D) :
    ∃ X : ℕ → ℕ → WarmRaw L p → ℝ,
      (∀ᵐ r ∂(warmLaw L p), ∃ c' st, SpinChain.new conf num (drawsOf r.1) zj zh = .ok c' ∧
        simJob c' (warmDraws r.2) N = .ok (some st) ∧ st.rows.length = N + 1 ∧
        ∀ i (h : i < st.rows.length), st.rows[i].length = 13 ∧ st.rows[i].getD 0 0 = -conf.trel + i * conf.dt ∧
          ∀ k, 1 ≤ k → k < 13 → st.rows[i].getD k 0 = X i k r) ∧
      ∀ i k, 1 ≤ k → k < 13 → Measurable (X i k) ∧ (∀ᵐ r ∂(warmLaw L p), |X i k r| ≤ logSize K D k) ∧
        |(∫ r, X i k r ∂(warmLaw L p)) - thermalMean c L (wholeEnergy L) (afterRun i (logged k))|
          ≤ logSize K D k * warmBias conf.beta K L p ∧
        ∀ j, |(∫ r, X i k r * X j k r ∂(warmLaw L p))
            - thermalMean c L (wholeEnergy L) (fun y => afterRun i (logged k) y * afterRun j (logged k) y)|
          ≤ logSize K D k ^ 2 * warmBias conf.beta K L p := by
  have hL2 : 2 ≤ L := by omega
  obtain ⟨w, ht, hv⟩ := new_facts v hc
  have hf : c.file.isSome = true := by
    obtain ⟨c1, h1, -, -, -, h5, -⟩ := valid_new v num u0 zj zh
    rw [hc] at h1
    cases h1
    rw [h5 hlog]
    rfl
  obtain ⟨A, hA, hAP, hAq, hAr⟩ := warm_ae v hb hc hL2 p (C86_generic c L s w hL hJ)
  have hr := warm_run v hb hc hL2 p
  refine ⟨fun i k r => within A (afterRun i (logged k)) (withSpins c (warmSpins c conf.beta r)), ?_, fun i k k1 k2 => ?_⟩
  · filter_upwards [hAr, hr] with r r1 r2
    obtain ⟨r3, r4, r5⟩ := r2
    obtain ⟨c1, c0, N', chain, rows, h1, h2, h3, h4, h5, h6, -, h7, h8⟩ :=
      C56_run_sim conf v (by omega) hsL hdt hlog hst num (drawsOf r.1) zj zh (warmDraws r.2)
    have hNN : N' = N := steps_unique h3 hN
    subst hNN
    rw [r4] at h1
    cases h1
    rw [← hp, r5] at h2
    cases h2
    refine ⟨_, _, r4, h6, h7, fun i h => ?_⟩
    obtain ⟨g1, g2, g3⟩ := h8 i h
    refine ⟨g2, ?_, fun k k1 k2 => ?_⟩
    · rw [List.getD_eq_getElem?_getD, ← List.head?_eq_getElem?, g3]
      rfl
    · show _ = within A (afterRun i (logged k)) (withSpins c (warmSpins c conf.beta r))
      unfold within
      rw [spins_withSpins, if_pos r1]
      unfold afterRun
      rw [updates_course' h4 h5 i]
      dsimp only
      unfold logged
      rw [g1]
  · have b := run_bounded w hL2 hs hsL hf hK (by rw [hv]; exact hD) hA hAP i k1 k2
    refine ⟨b.meas.comp (warm_meas w hL2 conf.beta p), hr.mono fun r h => b.bound _ h.1, ?_, fun j => ?_⟩
    swap
    · have b' := run_bounded w hL2 hs hsL hf hK (by rw [hv]; exact hD) hA hAP j k1 k2
      have bb : BoundedBy c L (logSize K D k ^ 2) fun y => within A (afterRun i (logged k)) y * within A (afterRun j (logged k)) y := by
        refine ⟨b.meas.mul b'.meas, fun q hq => ?_⟩
        rw [abs_mul, sq]
        exact mul_le_mul (b.bound q hq) (b'.bound q hq) (abs_nonneg _) ((abs_nonneg _).trans (b.bound q hq))
      have e : thermalMean c L (wholeEnergy L) (fun y => afterRun i (logged k) y * afterRun j (logged k) y)
          = thermalMean c L (wholeEnergy L) (fun y => within A (afterRun i (logged k)) y * within A (afterRun j (logged k)) y) := by
        unfold thermalMean
        congr 1
        refine integral_congr_ae (hAq.mono fun q hq => ?_)
        dsimp only
        unfold within
        rw [spins_withSpins, if_pos hq, if_pos hq]
      rw [e]
      exact warm_mean v hb hc hL2 hK p bb
    have e : thermalMean c L (wholeEnergy L) (afterRun i (logged k)) = thermalMean c L (wholeEnergy L) (within A (afterRun i (logged k))) := by
      unfold thermalMean
      congr 1
      refine integral_congr_ae (hAq.mono fun q hq => ?_)
      dsimp only
      unfold within
      rw [spins_withSpins, if_pos hq]
    rw [e]
    exact warm_mean v hb hc hL2 hK p b

/-- lines of equally long files -/
theorem lines_of {α : Type} (fs : List (List α)) (i : ℕ) (g : ℕ → α) (h : ∀ r (hr : r < fs.length), (fs[r])[i]? = some (g r)) :
    linesAt fs i = (List.range fs.length).map g := by
  unfold linesAt
  induction fs using List.reverseRecOn with
  | nil => rfl
  | append_singleton fs f ih =>
    rw [List.filterMap_append, ih fun r hr => by
      have := h r (by simp; omega)
      rwa [List.getElem_append_left hr] at this]
    have := h fs.length (by simp)
    rw [List.getElem_append_right le_rfl] at this
    simp only [Nat.sub_self, List.getElem_cons_zero] at this
    simp [this, List.range_succ]

/-- the table of means of logs of equal shape -/
theorem average_logs (conf : Config ℝ) (hcap : ftoNat (conf.t / conf.dt) * 24 < 2 ^ 63) {m N : ℕ} (hm : 1 ≤ m)
    (rows : ℕ → List (List ℝ)) (h1 : ∀ r < m, (rows r).length = N + 1)
    (h2 : ∀ r < m, ∀ i (h : i < (rows r).length), ((rows r)[i]).length = 13) :
    ∃ out, average conf ((List.range m).map fun r => (rows r).map fun row => row.map some) = .ok out ∧ out.length = N ∧
      ∀ i (h : i < out.length), out[i].length = 13 ∧ ∀ k < 13,
        out[i].getD k 0 = (∑ r : Fin m, (((rows r)[i + 1]?).getD []).getD k 0) / m := by
  obtain ⟨out, e1, e2, e3⟩ := C54_mean conf ((List.range m).map fun r => (rows r).map fun row => row.map some) hcap
  set fs := ((List.range m).map fun r => (rows r).map fun row => row.map some).map fun f => (f.drop 1).map fun l => l.filterMap id with hfs
  have hfs' : fs = (List.range m).map fun r => (rows r).drop 1 := by
    rw [hfs, List.map_map]
    refine List.map_congr_left fun r _ => ?_
    simp only [comp_apply, ← List.map_drop, List.map_map]
    refine (List.map_congr_left fun l _ => ?_).trans (List.map_id _)
    simp [List.filterMap_map]
  have hlen : out.length = N := by
    rw [e2]
    refine le_antisymm ?_ ?_
    · by_contra hc
      obtain ⟨f, hf, hi⟩ := lt_longest.1 (not_le.1 hc)
      rw [hfs'] at hf
      obtain ⟨r, hr, rfl⟩ := List.mem_map.1 hf
      rw [List.length_drop, h1 r (List.mem_range.1 hr)] at hi
      omega
    · by_contra hc
      have hi := not_le.1 hc
      have : longest fs < longest fs := by
        refine lt_longest.2 ⟨(rows 0).drop 1, ?_, ?_⟩
        · rw [hfs']
          exact List.mem_map.2 ⟨0, List.mem_range.2 (by omega), rfl⟩
        · rw [List.length_drop, h1 0 (by omega)]
          omega
      exact lt_irrefl _ this
  refine ⟨out, e1, hlen, fun i hi => ?_⟩
  obtain ⟨-, a2, a3⟩ := e3 i hi
  have flen : fs.length = m := by rw [hfs', List.length_map, List.length_range]
  have hl := lines_of fs i (fun r => ((rows r)[i + 1]?).getD []) fun r hr => by
    have hr' : r < m := by rw [flen] at hr; exact hr
    simp only [hfs', List.getElem_map, List.getElem_range, List.getElem?_drop]
    rw [add_comm 1 i, List.getElem?_eq_getElem (by rw [h1 r hr']; omega), Option.getD_some]
  rw [flen] at hl
  have hrow : ∀ r < m, (((rows r)[i + 1]?).getD []).length = 13 := fun r hr => by
    rw [List.getElem?_eq_getElem (by rw [h1 r hr]; omega), Option.getD_some]
    exact h2 r hr _ _
  have h13 : out[i].length = 13 := by
    refine le_antisymm ?_ ?_
    · have := (a2 _).1 le_rfl (((rows 0)[i + 1]?).getD []) (by rw [hl]; exact List.mem_map.2 ⟨0, List.mem_range.2 (by omega), rfl⟩)
      rwa [hrow 0 (by omega)] at this
    · rw [a2]
      intro r hr
      rw [hl] at hr
      obtain ⟨x, hx, rfl⟩ := List.mem_map.1 hr
      rw [hrow x (List.mem_range.1 hx)]
  refine ⟨h13, fun k hk => ?_⟩
  rw [List.getD_eq_getElem?_getD, List.getElem?_eq_getElem (by rw [h13]; exact hk), Option.getD_some, a3 k (by rw [h13]; exact hk), hl,
    List.length_map, List.length_range, List.map_map]
  congr 1
  rw [Fin.sum_univ_eq_sum_range (fun r => (((rows r)[i + 1]?).getD []).getD k 0), Finset.sum_range, ← List.sum_ofFn]
  congr 1
  refine List.ext_getElem (by simp) fun r _ _ => by simp

/-- C134 with a name for the number of updates before a run -/
theorem average_close {p : ℕ} (hp : p = warmup) (v : ValidConf conf L s) (hb : 0 < conf.beta) (hs : 2 ≤ s) (hsL : s ≤ L) (hL : 4 ≤ L)
    (hdt : 0 < conf.dt) (hlog : conf.log = true) (hst : conf.strob = false) {N : ℕ} (hN : StepsNeeded (-conf.trel) conf.dt conf.t N)
    (hcap : ftoNat (conf.t / conf.dt) * 24 < 2 ^ 63) {m : ℕ} (hm : 1 ≤ m) {num : ℕ → ℕ} {u0 zj zh : ℕ → ℕ → ℝ} {c : ℕ → SpinChain ℝ}
    (hc : ∀ r < m, SpinChain.new conf (num r) (u0 r) (zj r) (zh r) = .ok (c r)) (hJ : ∀ r < m, ∀ i < 2 * (L / 2), J (c r) i ≠ zero)
    {K D : ℝ} (hK : ∀ r < m, ∀ i < L, len (J (c r) i) + len (H0 (c r) i) ≤ K) (hD : ∀ t, len (drive conf t) ≤ D) {δ : ℝ} (hδ : 0 ≤ δ) :
    runsLaw L p m {w | ¬ ∃ files out, LogsOf conf N num zj zh w files ∧ average conf files = .ok out ∧ out.length = N ∧
        ∀ i (h : i < out.length), out[i].length = 13 ∧ out[i].getD 0 0 = -conf.trel + (i + 1 : ℕ) * conf.dt ∧
          ∀ k, 1 ≤ k → k < 13 →
            |out[i].getD k 0 - (∑ r : Fin m, thermalMean (c r) L (wholeEnergy L) (afterRun (i + 1) (logged k))) / m|
              < (δ + warmBias conf.beta K L p) * logSize K D k}
      ≤ ENNReal.ofReal (24 * N * Real.exp (-(m * δ ^ 2 / 2))) := by
  have m0 : (0 : ℝ) < m := by exact_mod_cast hm
  have pl : IsProbabilityMeasure (warmLaw L p) := by
    have : NeZero L := ⟨by omega⟩
    unfold warmLaw
    infer_instance
  have each := fun r : Fin m => run_mean hp v hb hs hsL hL hdt hlog hst hN (hc r r.2) (hJ r r.2) (hK r r.2) hD
  choose X aX bX using each
  have D0 : 0 ≤ D := le_trans (Real.sqrt_nonneg _) (hD 0)
  have K0 : 0 < K := by
    have h1 := hJ 0 (by omega) 0 (by omega)
    have h2 := hK 0 (by omega) 0 (by omega)
    have h3 : 0 < len (J (c 0) 0) := len_pos h1
    have h4 : 0 ≤ len (H0 (c 0) 0) := Real.sqrt_nonneg _
    linarith
  have size0 : ∀ k, 0 < logSize K D k := fun k => by
    unfold logSize
    split_ifs <;> linarith
  -- every run writes its log, with probability one
  have all : ∀ᵐ w ∂(runsLaw L p m), ∀ r : Fin m, ∃ c' st, SpinChain.new conf (num r) (drawsOf (w r).1) (zj r) (zh r) = .ok c' ∧
      simJob c' (warmDraws (w r).2) N = .ok (some st) ∧ st.rows.length = N + 1 ∧
      ∀ i (h : i < st.rows.length), st.rows[i].length = 13 ∧ st.rows[i].getD 0 0 = -conf.trel + i * conf.dt ∧
        ∀ k, 1 ≤ k → k < 13 → st.rows[i].getD k 0 = X r i k (w r) := by
    rw [ae_all_iff]
    intro r
    exact (Measure.quasiMeasurePreserving_eval (fun _ : Fin m => warmLaw L p) r).ae (aX r)
  set bad : ℕ × ℕ → Set (Fin m → WarmRaw L p) := fun ik =>
    {w | δ * logSize K D ik.2 ≤ |(∑ r, X r (ik.1 + 1) ik.2 (w r)) / m - (∑ r, ∫ ω, X r (ik.1 + 1) ik.2 ω ∂(warmLaw L p)) / m|} with hbad
  have bound : ∀ ik ∈ range N ×ˢ Ico 1 13, runsLaw L p m (bad ik) ≤ ENNReal.ofReal (2 * Real.exp (-(m * δ ^ 2 / 2))) := by
    rintro ⟨i, k⟩ h
    have hk := Finset.mem_Ico.1 (Finset.mem_product.1 h).2
    exact hoeffding hm (fun r => (bX r (i + 1) k hk.1 hk.2).1) (size0 k) (fun r => (bX r (i + 1) k hk.1 hk.2).2.1) hδ
  refine le_trans (measure_mono_ae (t := ⋃ ik ∈ range N ×ˢ Ico 1 13, bad ik) ?_) ?_
  · filter_upwards [all] with w hw hn
    by_contra hnot
    refine (show ¬ _ from hn) ?_
    choose c' st s1 s2 s3 s4 using hw
    set rows : ℕ → List (List ℝ) := fun r => if h : r < m then (st ⟨r, h⟩).rows else [] with hrows
    have rows_eq : ∀ r : Fin m, rows r = (st r).rows := fun r => by rw [hrows]; exact dif_pos r.2
    obtain ⟨out, o1, o2, o3⟩ := average_logs conf hcap hm rows (fun r hr => by rw [rows_eq ⟨r, hr⟩]; exact s3 _) (fun r hr => by
      rw [rows_eq ⟨r, hr⟩]
      exact fun i h => (s4 _ i h).1)
    refine ⟨_, out, ⟨by simp, fun r h => ⟨c' r, st r, s1 r, s2 r, ?_⟩⟩, o1, o2, fun i hi => ?_⟩
    · rw [Fin.getElem_fin, List.getElem_map, List.getElem_range, rows_eq r]
    · obtain ⟨q1, q2⟩ := o3 i hi
      rw [o2] at hi
      have entry : ∀ r : Fin m, ∃ h : i + 1 < (st r).rows.length, ((rows r)[i + 1]?).getD [] = (st r).rows[i + 1] := fun r => by
        have h : i + 1 < (st r).rows.length := by rw [s3 r]; omega
        refine ⟨h, ?_⟩
        rw [rows_eq r, List.getElem?_eq_getElem h, Option.getD_some]
      refine ⟨q1, ?_, fun k k1 k2 => ?_⟩
      · rw [q2 0 (by norm_num)]
        have : ∀ r : Fin m, (((rows r)[i + 1]?).getD []).getD 0 0 = -conf.trel + (i + 1 : ℕ) * conf.dt := fun r => by
          obtain ⟨h, e⟩ := entry r
          rw [e]
          exact (s4 r (i + 1) h).2.1
        simp only [this, sum_const, card_univ, Fintype.card_fin, nsmul_eq_mul]
        rw [mul_div_cancel_left₀ _ m0.ne']
      · rw [q2 k k2]
        have e : ∀ r : Fin m, (((rows r)[i + 1]?).getD []).getD k 0 = X r (i + 1) k (w r) := fun r => by
          obtain ⟨h, e⟩ := entry r
          rw [e]
          exact (s4 r (i + 1) h).2.2 k k1 k2
        simp only [e]
        have good : w ∉ bad (i, k) := fun hb => hnot (Set.mem_biUnion (Finset.mem_coe.2 (Finset.mem_product.2
          ⟨Finset.mem_range.2 hi, Finset.mem_Ico.2 ⟨k1, k2⟩⟩)) hb)
        have lt : |(∑ r, X r (i + 1) k (w r)) / m - (∑ r, ∫ ω, X r (i + 1) k ω ∂(warmLaw L p)) / m| < δ * logSize K D k := not_le.1 good
        have bias : |(∑ r, ∫ ω, X r (i + 1) k ω ∂(warmLaw L p)) / m
            - (∑ r : Fin m, thermalMean (c r) L (wholeEnergy L) (afterRun (i + 1) (logged k))) / m|
            ≤ logSize K D k * warmBias conf.beta K L p := by
          rw [← sub_div, ← Finset.sum_sub_distrib, abs_div, abs_of_pos m0, div_le_iff₀ m0]
          refine (abs_sum_le_sum_abs _ _).trans ?_
          refine (Finset.sum_le_sum fun r _ => (bX r (i + 1) k k1 k2).2.2.1).trans (le_of_eq ?_)
          simp only [sum_const, card_univ, Fintype.card_fin, nsmul_eq_mul]
          ring
        have := abs_sub_le ((∑ r, X r (i + 1) k (w r)) / m) ((∑ r, ∫ ω, X r (i + 1) k ω ∂(warmLaw L p)) / m)
          ((∑ r : Fin m, thermalMean (c r) L (wholeEnergy L) (afterRun (i + 1) (logged k))) / m)
        nlinarith
  · refine (measure_biUnion_finset_le _ _).trans ?_
    refine (Finset.sum_le_sum bound).trans ?_
    rw [Finset.sum_const, Finset.card_product, card_range, Nat.card_Ico, nsmul_eq_mul, ← ENNReal.ofReal_natCast,
      ← ENNReal.ofReal_mul (by positivity)]
    refine ENNReal.ofReal_le_ofReal (le_of_eq ?_)
    push_cast
    ring

/-- C134: the entries of the table that `average` makes from `m` runs of `run_sim` are, up to `δ` times their size and what is left
of the start, the exact means over the thermal state and over the couplings and fields of the runs, all of them at once except with
probability `24 N exp (-m δ² / 2)`. -/
theorem C134_average (conf : Config ℝ) (L s : ℕ) (v : ValidConf conf L s) (hb : 0 < conf.beta) (hs : 2 ≤ s) (hsL : s ≤ L) (hL : 4 ≤ L)
    (hdt : 0 < conf.dt) (hlog : conf.log = true) (hst : conf.strob = false) (N : ℕ) (hN : StepsNeeded (-conf.trel) conf.dt conf.t N)
    (hcap : ftoNat (conf.t / conf.dt) * 24 < 2 ^ 63) (m : ℕ) (hm : 1 ≤ m) (num : ℕ → ℕ) (u0 zj zh : ℕ → ℕ → ℝ) (c : ℕ → SpinChain ℝ)
    (hc : ∀ r < m, SpinChain.new conf (num r) (u0 r) (zj r) (zh r) = .ok (c r)) (hJ : ∀ r < m, ∀ i < 2 * (L / 2), J (c r) i ≠ zero)
    (K D : ℝ) (hK : ∀ r < m, ∀ i < L, len (J (c r) i) + len (H0 (c r) i) ≤ K) (hD : ∀ t, len (drive conf t) ≤ D) (δ : ℝ) (hδ : 0 ≤ δ) :
    runsLaw L warmup m {w | ¬ ∃ files out, LogsOf conf N num zj zh w files ∧ average conf files = .ok out ∧ out.length = N ∧
        ∀ i (h : i < out.length), out[i].length = 13 ∧ out[i].getD 0 0 = -conf.trel + (i + 1 : ℕ) * conf.dt ∧
          ∀ k, 1 ≤ k → k < 13 →
            |out[i].getD k 0 - (∑ r : Fin m, thermalMean (c r) L (wholeEnergy L) (afterRun (i + 1) (logged k))) / m|
              < (δ + warmBias conf.beta K L warmup) * logSize K D k}
      ≤ ENNReal.ofReal (24 * N * Real.exp (-(m * δ ^ 2 / 2))) :=
  average_close rfl v hb hs hsL hL hdt hlog hst hN hcap hm hc hJ hK hD hδ

/-- the thermal means of what is logged do not depend on the number of the run -/
theorem logged_same (v : ValidConf conf L s) (hlog : conf.log = true) (hj : conf.jvar = 0) (hv : conf.hvar = 0) (hs : 2 ≤ s) (hsL : s ≤ L)
    (hL : 4 ≤ L) {n n' : ℕ} {u u' zj zj' zh zh' : ℕ → ℝ} {c c' : SpinChain ℝ} (hc : SpinChain.new conf n u zj zh = .ok c)
    (hc' : SpinChain.new conf n' u' zj' zh' = .ok c') (hJ : ∀ i < 2 * (L / 2), J c i ≠ zero) :
    J c' = J c ∧ H0 c' = H0 c ∧ ∀ i k, thermalMean c' L (wholeEnergy L) (afterRun i (logged k)) = thermalMean c L (wholeEnergy L) (afterRun i (logged k)) := by
  obtain ⟨x, hx⟩ := new_plain v hj hv hc' hc
  have q := hx fun _ => zero
  have ej : c'.j_couple = c.j_couple := by
    have := congrArg (fun y : SpinChain ℝ => y.j_couple) q
    exact this
  have eh : c'.static_h = c.static_h := by
    have := congrArg (fun y : SpinChain ℝ => y.static_h) q
    exact this
  have eJ : J c' = J c := J_congr ej
  have eH : H0 c' = H0 c := by
    funext i
    unfold H0
    rw [eh]
  obtain ⟨w, ht, hv1⟩ := new_facts v hc
  obtain ⟨w', ht', hv1'⟩ := new_facts v hc'
  have fl : ∀ {num : ℕ} {u zj zh : ℕ → ℝ} {c : SpinChain ℝ}, SpinChain.new conf num u zj zh = .ok c → c.file.isSome = true := by
    intro num u zj zh c hc
    obtain ⟨c1, h1, -, -, -, h5, -⟩ := valid_new v num u zj zh
    rw [hc] at h1
    cases h1
    rw [h5 hlog]
    rfl
  have eB : ∀ t, B c' s t = B c s t := fun t => B_congr eh (by rw [hv1, hv1'])
  have ef : ∀ i, flow c' L s i = flow c L s i := by
    intro i
    induction i with
    | zero => rfl
    | succ i ih =>
      unfold flow
      rw [ih, eJ, ht, ht', hv1, hv1', eB]
  refine ⟨eJ, eH, fun i k => ?_⟩
  unfold thermalMean
  have e1 : ∀ y, wholeEnergy L (withSpins c' y) = wholeEnergy L (withSpins c y) := fun y => by rw [hx y]; rfl
  simp only [e1, hv1, hv1']
  congr 1
  refine integral_congr_ae ?_
  filter_upwards [C86_generic c L s w hL hJ, C86_generic c' L s w' hL (by rw [eJ]; exact hJ)] with y y1 y2
  rw [(run_logged w (by omega) hs hsL (fl hc) y1.1 (y1.2 i) k).2, (run_logged w' (by omega) hs hsL (fl hc') y2.1 (y2.2 i) k).2, ef]
  congr 2
  exact logCols_congr rfl ej eh (by show c'.vars = c.vars; rw [hv1, hv1']) (by show c'.t + i * c'.vars.dt = c.t + i * c.vars.dt; rw [ht, ht', hv1, hv1'])

theorem runs_close {p : ℕ} (hp : p = warmup) (v : ValidConf conf L s) (hb : 0 < conf.beta) (hj : conf.jvar = 0) (hv : conf.hvar = 0)
    (hs : 2 ≤ s) (hsL : s ≤ L) (hL : 4 ≤ L)
    (hdt : 0 < conf.dt) (hlog : conf.log = true) (hst : conf.strob = false) {N : ℕ} (hN : StepsNeeded (-conf.trel) conf.dt conf.t N)
    (hcap : ftoNat (conf.t / conf.dt) * 24 < 2 ^ 63) {m : ℕ} (hm : 1 ≤ m) {num : ℕ → ℕ} {zj zh : ℕ → ℕ → ℝ} {u0 z0 z0' : ℕ → ℝ} {n0 : ℕ}
    (hc : SpinChain.new conf n0 u0 z0 z0' = .ok c) (hJ : ∀ i < 2 * (L / 2), J c i ≠ zero)
    {K D : ℝ} (hK : ∀ i < L, len (J c i) + len (H0 c i) ≤ K) (hD : ∀ t, len (drive conf t) ≤ D) {δ ε : ℝ} (hδ : 0 < δ) (hε : 0 < ε)
    (hbias : warmBias conf.beta K L p ≤ δ) (hruns : 2 * Real.log (24 * N / ε) / δ ^ 2 ≤ m) :
    runsLaw L p m {w | ¬ ∃ files out, LogsOf conf N num zj zh w files ∧ average conf files = .ok out ∧ out.length = N ∧
        ∀ i (h : i < out.length), out[i].length = 13 ∧ out[i].getD 0 0 = -conf.trel + (i + 1 : ℕ) * conf.dt ∧
          ∀ k, 1 ≤ k → k < 13 →
            |out[i].getD k 0 - thermalMean c L (wholeEnergy L) (afterRun (i + 1) (logged k))| < 2 * δ * logSize K D k}
      ≤ ENNReal.ofReal ε := by
  have m0 : (0 : ℝ) < m := by exact_mod_cast hm
  have chains : ∀ r, ∃ c', SpinChain.new conf (num r) u0 (zj r) (zh r) = .ok c' := fun r => by
    obtain ⟨c', h, -⟩ := valid_new v (num r) u0 (zj r) (zh r)
    exact ⟨c', h⟩
  choose c' hc' using chains
  have same := fun r => logged_same v hlog hj hv hs hsL hL hc (hc' r) hJ
  have key := average_close hp v hb hs hsL hL hdt hlog hst hN hcap hm (num := num) (u0 := fun _ => u0) (fun r _ => hc' r)
    (fun r _ i hi => by rw [(same r).1]; exact hJ i hi) (fun r _ i hi => by rw [(same r).1, (same r).2.1]; exact hK i hi) hD hδ.le
  refine (measure_mono fun w hw => ?_).trans (key.trans (ENNReal.ofReal_le_ofReal ?_))
  · rintro ⟨files, out, a1, a2, a3, a4⟩
    refine (show ¬ _ from hw) ⟨files, out, a1, a2, a3, fun i hi => ?_⟩
    obtain ⟨b1, b2, b3⟩ := a4 i hi
    refine ⟨b1, b2, fun k k1 k2 => ?_⟩
    have := b3 k k1 k2
    simp only [(same _).2.2, sum_const, card_univ, Fintype.card_fin, nsmul_eq_mul] at this
    rw [mul_div_cancel_left₀ _ m0.ne'] at this
    refine this.trans_le ?_
    have z : 0 ≤ logSize K D k := by
      have h1 := hK 0 (by omega)
      have h2 := hD 0
      have h3 := len_nonneg (J c 0)
      have h4 := len_nonneg (H0 c 0)
      have h5 := len_nonneg (drive conf 0)
      unfold logSize
      split_ifs <;> linarith
    nlinarith
  · rcases Nat.eq_zero_or_pos N with rfl | hN0
    · simp only [Nat.cast_zero, mul_zero, zero_mul]
      exact hε.le
    have N0 : (0 : ℝ) < N := by exact_mod_cast hN0
    rw [div_le_iff₀ (by positivity)] at hruns
    have h1 : Real.exp (-(m * δ ^ 2 / 2)) ≤ Real.exp (-Real.log (24 * N / ε)) := Real.exp_le_exp.2 (by linarith)
    rw [Real.exp_neg, Real.exp_neg, Real.exp_log (by positivity)] at h1
    rw [Real.exp_neg]
    refine (mul_le_mul_of_nonneg_left h1 (by positivity)).trans (le_of_eq ?_)
    field_simp

/-- C134: without disorder, so many runs give every entry to the accuracy `2 δ` of its size, with probability `1 - ε`. -/
theorem C134_runs (conf : Config ℝ) (L s : ℕ) (v : ValidConf conf L s) (hb : 0 < conf.beta) (hj : conf.jvar = 0) (hv : conf.hvar = 0)
    (hs : 2 ≤ s) (hsL : s ≤ L) (hL : 4 ≤ L)
    (hdt : 0 < conf.dt) (hlog : conf.log = true) (hst : conf.strob = false) (N : ℕ) (hN : StepsNeeded (-conf.trel) conf.dt conf.t N)
    (hcap : ftoNat (conf.t / conf.dt) * 24 < 2 ^ 63) (m : ℕ) (hm : 1 ≤ m) (num : ℕ → ℕ) (zj zh : ℕ → ℕ → ℝ) (u0 z0 z0' : ℕ → ℝ) (n0 : ℕ)
    (c : SpinChain ℝ) (hc : SpinChain.new conf n0 u0 z0 z0' = .ok c) (hJ : ∀ i < 2 * (L / 2), J c i ≠ zero)
    (K D : ℝ) (hK : ∀ i < L, len (J c i) + len (H0 c i) ≤ K) (hD : ∀ t, len (drive conf t) ≤ D) (δ ε : ℝ) (hδ : 0 < δ) (hε : 0 < ε)
    (hbias : warmBias conf.beta K L warmup ≤ δ) (hruns : 2 * Real.log (24 * N / ε) / δ ^ 2 ≤ m) :
    runsLaw L warmup m {w | ¬ ∃ files out, LogsOf conf N num zj zh w files ∧ average conf files = .ok out ∧ out.length = N ∧
        ∀ i (h : i < out.length), out[i].length = 13 ∧ out[i].getD 0 0 = -conf.trel + (i + 1 : ℕ) * conf.dt ∧
          ∀ k, 1 ≤ k → k < 13 →
            |out[i].getD k 0 - thermalMean c L (wholeEnergy L) (afterRun (i + 1) (logged k))| < 2 * δ * logSize K D k}
      ≤ ENNReal.ofReal ε :=
  runs_close rfl v hb hj hv hs hsL hL hdt hlog hst hN hcap hm hc hJ hK hD hδ hε hbias hruns

theorem bias_small {p : ℕ} (hp : p = warmup) : warmBias (1 / 1000) 2 512 p ≤ 1 / 20 := by
  have hp' : (p : ℝ) = 20000000 := by
    rw [hp]
    unfold warmup
    norm_num
  unfold warmBias mixRate
  have e1 : Real.exp (26 * (|(1 / 1000 : ℝ)| * 2)) ≤ 2.7182818286 := by
    refine le_trans (Real.exp_le_exp.2 ?_) Real.exp_one_lt_d9.le
    rw [abs_of_pos (by norm_num)]
    norm_num
  set E := Real.exp (26 * (|(1 / 1000 : ℝ)| * 2)) with hE
  have E0 : 0 < E := Real.exp_pos _
  have E1 : 1 ≤ E := Real.one_le_exp (by positivity)
  rw [Real.exp_neg, ← hE]
  set r := E⁻¹ / (768 * ((512 : ℕ) : ℝ)) with hr
  have r0 : 0 ≤ r := by positivity
  have r1 : r ≤ 1 := by
    rw [hr]
    rw [div_le_one (by norm_num)]
    exact (inv_le_one_of_one_le₀ E1).trans (by norm_num)
  have r2 : 1 / 2000000 ≤ r := by
    rw [hr, div_le_div_iff₀ (by norm_num) (by norm_num), one_mul]
    have : (2.7182818286 : ℝ)⁻¹ ≤ E⁻¹ := inv_anti₀ E0 e1
    norm_num at this ⊢
    linarith
  have h1 : (1 - r) ^ p ≤ Real.exp (-10) := by
    have := Real.one_sub_le_exp_neg r
    refine (pow_le_pow_left₀ (by linarith) this p).trans ?_
    rw [← Real.exp_nat_mul, hp']
    exact Real.exp_le_exp.2 (by linarith)
  refine (mul_le_mul_of_nonneg_left h1 (Real.exp_pos _).le).trans ?_
  rw [← Real.exp_add]
  refine (Real.exp_le_exp.2 (show _ ≤ (-4 : ℝ) by norm_num)).trans ?_
  rw [Real.exp_neg, show (4 : ℝ) = (4 : ℕ) * 1 by norm_num, Real.exp_nat_mul]
  have := Real.exp_one_gt_d9
  have h4 : (20 : ℝ) ≤ Real.exp 1 ^ 4 := by
    have := pow_le_pow_left₀ (by norm_num) this.le 4
    norm_num at this ⊢
    linarith
  rw [one_div]
  exact inv_anti₀ (by norm_num) h4

/-- non-vacuity: the default configuration without disorder, at a high temperature; 20000 runs give all 12800 lines to a tenth of
the size of their entries, with probability 99/100 -/
example : ∃ (conf : Config ℝ) (c : SpinChain ℝ), ValidConf conf 512 8 ∧ 0 < conf.beta ∧ conf.jvar = 0 ∧ conf.hvar = 0 ∧ 0 < conf.dt ∧
    conf.log = true ∧ conf.strob = false ∧ StepsNeeded (-conf.trel) conf.dt conf.t 12800 ∧ ftoNat (conf.t / conf.dt) * 24 < 2 ^ 63 ∧
    SpinChain.new conf 0 (fun _ => 0) (fun _ => 0) (fun _ => 0) = .ok c ∧ (∀ i < 2 * (512 / 2), J c i ≠ zero) ∧
    (∀ k < 512, len (J c k) + len (H0 c k) ≤ 2) ∧ (∀ t, len (drive conf t) ≤ 1) ∧ warmBias conf.beta 2 512 warmup ≤ 1 / 20 ∧
    2 * Real.log (24 * (12800 : ℕ) / (1 / 100)) / (1 / 20) ^ 2 ≤ (20000 : ℕ) := by
  let conf : Config ℝ := { (Config.default : Config ℝ) with
    beta := 1 / 1000
    jvar := 0 }
  have v : ValidConf conf 512 8 := by constructor <;> first | rfl | norm_num
  obtain ⟨sp, hsp, -⟩ := newSpins_ok conf.beta (fun _ => (0 : ℝ)) 512
  have hc := new_eq v.hsize v.L_lt (show conf.hfield = 0.0 :: 0.0 :: 0.0 :: [] from rfl) (show conf.hs = 0.0 :: 0.0 :: 0.0 :: [] from rfl)
    v.jvar v.hvar 0 (fun _ => 0) (fun _ => 0) (fun _ => 0) hsp
  have i1 : ∀ k < 512, ((List.range 512).map (coupF conf.lambda conf.jvar (fun _ => (0 : ℝ))))[k]? = some (coupF conf.lambda conf.jvar (fun _ => (0 : ℝ)) k) := by
    intro k hk
    rw [List.getElem?_map, List.getElem?_range hk, Option.map_some]
  have i2 : ∀ k < 512, ((List.range 512).map (fieldN (0.0 : ℝ) 0.0 0.0 0.0 0.0 0.0 conf.hvar conf.ssize (fun _ => (0 : ℝ))))[k]?
      = some (fieldN (0.0 : ℝ) 0.0 0.0 0.0 0.0 0.0 conf.hvar conf.ssize (fun _ => (0 : ℝ)) k) := by
    intro k hk
    rw [List.getElem?_map, List.getElem?_range hk, Option.map_some]
  refine ⟨conf, _, v, by norm_num [conf], rfl, by norm_num [conf, Config.default], by norm_num [conf, Config.default], rfl, rfl, ⟨fun n hn => ?_, ?_⟩, ?_, hc,
    fun i hi => ?_, fun k hk => ?_, fun t => ?_, bias_small rfl, ?_⟩
  · have : (n : ℝ) < 12800 := by exact_mod_cast hn
    norm_num [conf, Config.default]
    linarith
  · norm_num [conf, Config.default]
  · have : ftoNat (conf.t / conf.dt) = 12800 := by
      norm_num [conf, Config.default, ftoNat]
    rw [this]
    norm_num
  · unfold J
    dsimp only
    rw [i1 i (by omega)]
    intro h
    have := congrArg V3.x h
    norm_num [coupF, conf, Config.default, zero] at this
  · have e1 : len (coupF conf.lambda conf.jvar (fun _ => (0 : ℝ)) k) ≤ 2 := by
      unfold len
      rw [Real.sqrt_le_left (by norm_num)]
      norm_num [coupF, dot, conf, Config.default]
    have e2 : len (fieldN (0.0 : ℝ) 0.0 0.0 0.0 0.0 0.0 conf.hvar conf.ssize (fun _ => (0 : ℝ)) k) = 0 := by
      unfold len
      rw [Real.sqrt_eq_zero']
      unfold fieldN
      split_ifs <;> norm_num [dot, conf, Config.default]
    unfold J H0
    dsimp only
    rw [i1 k hk, i2 k hk]
    show len (coupF conf.lambda conf.jvar (fun _ => (0 : ℝ)) k) + len (fieldN (0.0 : ℝ) 0.0 0.0 0.0 0.0 0.0 conf.hvar conf.ssize (fun _ => (0 : ℝ)) k) ≤ 2
    rw [e2]
    linarith
  · show len ⟨Real.cos _, Real.sin _, 0⟩ ≤ 1
    unfold len dot
    rw [Real.sqrt_le_left (by norm_num)]
    dsimp only
    nlinarith [Real.sin_sq_add_cos_sq (2 * Real.pi * t / conf.tau)]
  · have : Real.log (24 * (12800 : ℕ) / (1 / 100)) ≤ 20 := by
      rw [Real.log_le_iff_le_exp (by norm_num), show (20 : ℝ) = (20 : ℕ) * 1 by norm_num, Real.exp_nat_mul]
      have := pow_le_pow_left₀ (by norm_num) Real.exp_one_gt_d9.le 20
      norm_num at this ⊢
      linarith
    push_cast at this ⊢
    rw [div_le_iff₀ (by norm_num)]
    linarith

end

end Verif.Props
