/-
C137: how many runs the two-point averages of the dynamics need (/repo/src/obs.rs `run_sim`, `two_point_average`).
-/
import Verif.Props.RunMean

set_option linter.unusedSectionVars false

namespace Verif.Props

open Spec MeasureTheory Finset Function
open scoped ENNReal

section
variable {conf : Config ℝ} {c : SpinChain ℝ} {L s : ℕ}

/-- a table of means of `m` files of `N` lines of 13 numbers -/
theorem table_rows {m N : ℕ} (hm : 1 ≤ m) {rows : ℕ → List (List ℝ)} (h1 : ∀ r < m, (rows r).length = N)
    (h2 : ∀ r < m, ∀ l ∈ rows r, l.length = 13) {out : List (List ℝ)} (h : MeanTable ((List.range m).map rows) out) :
    out.length = N ∧ ∀ i (h : i < out.length), out[i].length = 13 ∧ ∀ k < 13,
      out[i].getD k 0 = (∑ r : Fin m, (((rows r)[i]?).getD []).getD k 0) / m := by
  obtain ⟨e2, e3⟩ := h
  set fs := (List.range m).map rows with hfs
  have hlen : out.length = N := by
    rw [e2]
    refine le_antisymm ?_ ?_
    · by_contra hc
      obtain ⟨f, hf, hi⟩ := lt_longest.1 (not_le.1 hc)
      obtain ⟨r, hr, rfl⟩ := List.mem_map.1 hf
      rw [h1 r (List.mem_range.1 hr)] at hi
      omega
    · by_contra hc
      have hi := not_le.1 hc
      have : longest fs < longest fs := by
        refine lt_longest.2 ⟨rows 0, List.mem_map.2 ⟨0, List.mem_range.2 (by omega), rfl⟩, ?_⟩
        rw [h1 0 (by omega)]
        omega
      exact lt_irrefl _ this
  refine ⟨hlen, fun i hi => ?_⟩
  obtain ⟨-, a2, a3⟩ := e3 i hi
  have flen : fs.length = m := by rw [hfs, List.length_map, List.length_range]
  have hl := lines_of fs i (fun r => ((rows r)[i]?).getD []) fun r hr => by
    have hr' : r < m := by rw [flen] at hr; exact hr
    simp only [hfs, List.getElem_map, List.getElem_range]
    rw [List.getElem?_eq_getElem (by rw [h1 r hr']; omega), Option.getD_some]
  rw [flen] at hl
  have hrow : ∀ r < m, (((rows r)[i]?).getD []).length = 13 := fun r hr => by
    rw [List.getElem?_eq_getElem (by rw [h1 r hr]; omega), Option.getD_some]
    exact h2 r hr _ (List.getElem_mem _)
  have h13 : out[i].length = 13 := by
    refine le_antisymm ?_ ?_
    · have := (a2 _).1 le_rfl (((rows 0)[i]?).getD []) (by rw [hl]; exact List.mem_map.2 ⟨0, List.mem_range.2 (by omega), rfl⟩)
      rwa [hrow 0 (by omega)] at this
    · rw [a2]
      intro r hr
      rw [hl] at hr
      obtain ⟨x, hx, rfl⟩ := List.mem_map.1 hr
      rw [hrow x (List.mem_range.1 hx)]
  refine ⟨h13, fun k hk => ?_⟩
  rw [List.getD_eq_getElem?_getD, List.getElem?_eq_getElem (by rw [h13]; exact hk), Option.getD_some, a3 k (by rw [h13]; exact hk), hl,
    List.length_map, List.length_range, List.map_map]
  congr 1
  rw [Fin.sum_univ_eq_sum_range (fun r => (((rows r)[i]?).getD []).getD k 0), Finset.sum_range, ← List.sum_ofFn]
  congr 1
  refine List.ext_getElem (by simp) fun r _ _ => by simp

theorem times_getD (z l : List ℝ) {k : ℕ} (h1 : l.length = 13) (h2 : z.length = 13) (hk : k < 13) :
    (timesLine z l).length = 13 ∧ (timesLine z l).getD k 0 = if k = 0 then l.getD 0 0 else l.getD k 0 * z.getD k 0 := by
  match l, z, h1, h2 with
  | x :: xs, y :: ys, h1, h2 =>
    simp only [List.length_cons] at h1 h2
    unfold timesLine
    refine ⟨by simp; omega, ?_⟩
    cases k with
    | zero => rfl
    | succ k =>
      rw [if_neg (by omega)]
      simp only [List.drop_succ_cons, List.drop_zero, List.getD_cons_succ]
      rw [List.getD_eq_getElem?_getD, List.getD_eq_getElem?_getD, List.getD_eq_getElem?_getD,
        List.getElem?_eq_getElem (by simp; omega), List.getElem?_eq_getElem (by omega), List.getElem?_eq_getElem (by omega),
        Option.getD_some, Option.getD_some, Option.getD_some, List.getElem_zipWith]

/-- the table of two-point means of logs of equal shape whose line `M` is the only one at time zero -/
theorem two_point_logs {m N M : ℕ} (hm : 1 ≤ m) (hM : 1 ≤ M) (hMN : M ≤ N) {dt : ℝ} (hdt : 1 / 10 ^ 5 ≤ dt)
    (rows : ℕ → List (List ℝ)) (h1 : ∀ r < m, (rows r).length = N + 1)
    (h2 : ∀ r < m, ∀ i (h : i < (rows r).length), ((rows r)[i]).length = 13)
    (h3 : ∀ r < m, ∀ i (h : i < (rows r).length), ((rows r)[i]).head? = some (((i : ℝ) - M) * dt)) :
    ∃ out, two_point_average ((List.range m).map fun r => (rows r).map fun row => row.map some) = .ok out ∧ out.length = N ∧
      ∀ i (h : i < out.length), out[i].length = 13 ∧ out[i].getD 0 0 = ((i + 1 : ℕ) - (M : ℝ)) * dt ∧ ∀ k, 1 ≤ k → k < 13 →
        out[i].getD k 0 = (∑ r : Fin m, (((rows r)[i + 1]?).getD []).getD k 0 * (((rows r)[M]?).getD []).getD k 0) / m := by
  have m0 : (0 : ℝ) < m := by exact_mod_cast hm
  have dt0 : 0 < dt := lt_of_lt_of_le (by norm_num) hdt
  have back : ∀ l : List (List ℝ), (l.map fun row => row.map some).map (fun l : List (Option ℝ) => l.filterMap id) = l := fun l => by
    rw [List.map_map]
    refine (List.map_congr_left fun l _ => ?_).trans (List.map_id _)
    simp [List.filterMap_map]
  set num : List (Line ℝ) → List (List ℝ) := fun f => (f.drop 1).map fun l => l.filterMap id with hnum
  set z : List (Line ℝ) → List ℝ := fun f => ((f.map fun l : List (Option ℝ) => l.filterMap id)[M]?).getD [] with hz
  have num_eq : ∀ r, num ((rows r).map fun row => row.map some) = (rows r).drop 1 := fun r => by
    rw [hnum]
    dsimp only
    rw [← List.map_drop, back]
  have z_eq : ∀ r, z ((rows r).map fun row => row.map some) = ((rows r)[M]?).getD [] := fun r => by
    rw [hz]
    dsimp only
    rw [back]
  have zM : ∀ r < m, ∃ h : M < (rows r).length, ((rows r)[M]?).getD [] = (rows r)[M] := fun r hr => by
    have h : M < (rows r).length := by rw [h1 r hr]; omega
    exact ⟨h, by rw [List.getElem?_eq_getElem h, Option.getD_some]⟩
  obtain ⟨out, e1, e2⟩ := C55_mean ((List.range m).map fun r => (rows r).map fun row => row.map some) num (fun _ => rfl) z (by
    intro f hf
    obtain ⟨r, hr, rfl⟩ := List.mem_map.1 hf
    have hr := List.mem_range.1 hr
    obtain ⟨q, hq⟩ := zM r hr
    rw [num_eq, z_eq, hq]
    refine ⟨fun l hl => ?_, ((rows r).drop 1).take (M - 1), (rows r).drop (M + 1), ?_, ⟨_, h3 r hr M q, ?_⟩, fun l hl t ht => ?_⟩
    · obtain ⟨i, hi, rfl⟩ := List.mem_iff_getElem.1 (List.mem_of_mem_drop hl)
      have := h2 r hr i hi
      refine ⟨fun h => ?_, by rw [this, h2 r hr M q]⟩
      rw [h] at this
      cases this
    · have a : (rows r).drop 1 = ((rows r).drop 1).take (M - 1) ++ ((rows r).drop 1).drop (M - 1) := (List.take_append_drop _ _).symm
      have b : ((rows r).drop 1).drop (M - 1) = (rows r)[M] :: (rows r).drop (M + 1) := by
        rw [List.drop_drop, show 1 + (M - 1) = M by omega]
        exact List.drop_eq_getElem_cons q
      rw [← b]
      exact a
    · rw [sub_self, zero_mul, abs_zero]
      norm_num
    · obtain ⟨i, hi, rfl⟩ := List.mem_iff_getElem.1 hl
      rw [List.getElem_drop, h3 r hr] at ht
      cases ht
      push_cast
      have : (0 : ℝ) ≤ i := Nat.cast_nonneg i
      rw [abs_of_nonneg (mul_nonneg (by linarith) dt0.le)]
      nlinarith)
  rw [List.map_map] at e2
  have shape : ∀ r < m, ∀ l ∈ (rows r).drop 1, l.length = 13 := fun r hr l hl => by
    obtain ⟨i, hi, rfl⟩ := List.mem_iff_getElem.1 (List.mem_of_mem_drop hl)
    exact h2 r hr i hi
  have e2' : MeanTable ((List.range m).map fun r => ((rows r).drop 1).map (timesLine (((rows r)[M]?).getD []))) out := by
    have : ((fun f => (num f).map (timesLine (z f))) ∘ fun r => (rows r).map fun row => row.map some)
        = fun r => ((rows r).drop 1).map (timesLine (((rows r)[M]?).getD [])) := by
      funext r
      simp only [comp_apply, num_eq, z_eq]
    rw [this] at e2
    exact e2
  obtain ⟨t1, t2⟩ := table_rows hm (N := N) (fun r hr => by rw [List.length_map, List.length_drop, h1 r hr]; omega) (fun r hr l hl => by
    obtain ⟨l', hl', rfl⟩ := List.mem_map.1 hl
    obtain ⟨q, hq⟩ := zM r hr
    exact (times_getD _ _ (k := 0) (shape r hr l' hl') (by rw [hq]; exact h2 r hr M q) (by norm_num)).1) e2'
  refine ⟨out, e1, t1, fun i hi => ?_⟩
  obtain ⟨u1, u2⟩ := t2 i hi
  rw [t1] at hi
  have entry : ∀ (r : Fin m) (k : ℕ), k < 13 →
      ((((rows r).drop 1).map (timesLine (((rows r)[M]?).getD [])))[i]?.getD []).getD k 0
        = if k = 0 then (((rows r)[i + 1]?).getD []).getD 0 0
          else (((rows r)[i + 1]?).getD []).getD k 0 * (((rows r)[M]?).getD []).getD k 0 := fun r k hk => by
    have hi' : i + 1 < (rows r).length := by rw [h1 r r.2]; omega
    obtain ⟨q, hq⟩ := zM r r.2
    rw [List.getElem?_map, List.getElem?_drop, add_comm 1 i, List.getElem?_eq_getElem hi', Option.map_some, Option.getD_some, Option.getD_some]
    exact (times_getD _ _ (h2 r r.2 _ hi') (by rw [hq]; exact h2 r r.2 M q) hk).2
  refine ⟨u1, ?_, fun k k1 k2 => ?_⟩
  · rw [u2 0 (by norm_num)]
    have : ∀ r : Fin m, ((((rows r).drop 1).map (timesLine (((rows r)[M]?).getD [])))[i]?.getD []).getD 0 0 = ((i + 1 : ℕ) - (M : ℝ)) * dt :=
      fun r => by
        have hi' : i + 1 < (rows r).length := by rw [h1 r r.2]; omega
        rw [entry r 0 (by norm_num), if_pos rfl, List.getElem?_eq_getElem hi', Option.getD_some, List.getD_eq_getElem?_getD,
          ← List.head?_eq_getElem?, h3 r r.2 _ hi', Option.getD_some]
    simp only [this, sum_const, card_univ, Fintype.card_fin, nsmul_eq_mul]
    rw [mul_div_cancel_left₀ _ m0.ne']
  · rw [u2 k k2]
    congr 1
    refine Finset.sum_congr rfl fun r _ => ?_
    rw [entry r k k2, if_neg (by omega)]

/-- C137 with a name for the number of updates before a run -/
theorem pair_close {p : ℕ} (hp : p = warmup) (v : ValidConf conf L s) (hb : 0 < conf.beta) (hs : 2 ≤ s) (hsL : s ≤ L) (hL : 4 ≤ L)
    (hdt : 1 / 10 ^ 5 ≤ conf.dt) (hlog : conf.log = true) (hst : conf.strob = false) {N M : ℕ}
    (hN : StepsNeeded (-conf.trel) conf.dt conf.t N) (hM : 1 ≤ M) (hMN : M ≤ N) (hrel : conf.trel = M * conf.dt)
    {m : ℕ} (hm : 1 ≤ m) {num : ℕ → ℕ} {u0 zj zh : ℕ → ℕ → ℝ} {c : ℕ → SpinChain ℝ}
    (hc : ∀ r < m, SpinChain.new conf (num r) (u0 r) (zj r) (zh r) = .ok (c r)) (hJ : ∀ r < m, ∀ i < 2 * (L / 2), J (c r) i ≠ zero)
    {K D : ℝ} (hK : ∀ r < m, ∀ i < L, len (J (c r) i) + len (H0 (c r) i) ≤ K) (hD : ∀ t, len (drive conf t) ≤ D) {δ : ℝ} (hδ : 0 ≤ δ) :
    runsLaw L p m {w | ¬ ∃ files out, LogsOf conf N num zj zh w files ∧ two_point_average files = .ok out ∧ out.length = N ∧
        ∀ i (h : i < out.length), out[i].length = 13 ∧ out[i].getD 0 0 = ((i + 1 : ℕ) - (M : ℝ)) * conf.dt ∧
          ∀ k, 1 ≤ k → k < 13 →
            |out[i].getD k 0 - (∑ r : Fin m, thermalMean (c r) L (wholeEnergy L)
                fun y => afterRun (i + 1) (logged k) y * afterRun M (logged k) y) / m|
              < (δ + warmBias conf.beta K L p) * logSize K D k ^ 2}
      ≤ ENNReal.ofReal (24 * N * Real.exp (-(m * δ ^ 2 / 2))) := by
  have dt0 : 0 < conf.dt := lt_of_lt_of_le (by norm_num) hdt
  have m0 : (0 : ℝ) < m := by exact_mod_cast hm
  have pl : IsProbabilityMeasure (warmLaw L p) := by
    have : NeZero L := ⟨by omega⟩
    unfold warmLaw
    infer_instance
  have each := fun r : Fin m => run_mean hp v hb hs hsL hL dt0 hlog hst hN (hc r r.2) (hJ r r.2) (hK r r.2) hD
  choose X aX bX using each
  have D0 : 0 ≤ D := le_trans (Real.sqrt_nonneg _) (hD 0)
  have K0 : 0 < K := by
    have h1 := hJ 0 (by omega) 0 (by omega)
    have h2 := hK 0 (by omega) 0 (by omega)
    have h3 : 0 < len (J (c 0) 0) := len_pos h1
    have h4 : 0 ≤ len (H0 (c 0) 0) := Real.sqrt_nonneg _
    linarith
  have size0 : ∀ k, 0 < logSize K D k ^ 2 := fun k => by
    have : 0 < logSize K D k := by
      unfold logSize
      split_ifs <;> linarith
    positivity
  have all : ∀ᵐ w ∂(runsLaw L p m), ∀ r : Fin m, ∃ c' st, SpinChain.new conf (num r) (drawsOf (w r).1) (zj r) (zh r) = .ok c' ∧
      simJob c' (warmDraws (w r).2) N = .ok (some st) ∧ st.rows.length = N + 1 ∧
      ∀ i (h : i < st.rows.length), st.rows[i].length = 13 ∧ st.rows[i].getD 0 0 = -conf.trel + i * conf.dt ∧
        ∀ k, 1 ≤ k → k < 13 → st.rows[i].getD k 0 = X r i k (w r) := by
    rw [ae_all_iff]
    intro r
    exact (Measure.quasiMeasurePreserving_eval (fun _ : Fin m => warmLaw L p) r).ae (aX r)
  set bad : ℕ × ℕ → Set (Fin m → WarmRaw L p) := fun ik =>
    {w | δ * logSize K D ik.2 ^ 2 ≤ |(∑ r, X r (ik.1 + 1) ik.2 (w r) * X r M ik.2 (w r)) / m
      - (∑ r, ∫ ω, X r (ik.1 + 1) ik.2 ω * X r M ik.2 ω ∂(warmLaw L p)) / m|} with hbad
  have bound : ∀ ik ∈ range N ×ˢ Ico 1 13, runsLaw L p m (bad ik) ≤ ENNReal.ofReal (2 * Real.exp (-(m * δ ^ 2 / 2))) := by
    rintro ⟨i, k⟩ h
    have hk := Finset.mem_Ico.1 (Finset.mem_product.1 h).2
    refine hoeffding hm (X := fun r ω => X r (i + 1) k ω * X r M k ω)
      (fun r => (bX r (i + 1) k hk.1 hk.2).1.mul (bX r M k hk.1 hk.2).1) (size0 k) (fun r => ?_) hδ
    filter_upwards [(bX r (i + 1) k hk.1 hk.2).2.1, (bX r M k hk.1 hk.2).2.1] with ω h1 h2
    rw [abs_mul, sq]
    exact mul_le_mul h1 h2 (abs_nonneg _) ((abs_nonneg _).trans h1)
  refine le_trans (measure_mono_ae (t := ⋃ ik ∈ range N ×ˢ Ico 1 13, bad ik) ?_) ?_
  · filter_upwards [all] with w hw hn
    by_contra hnot
    refine (show ¬ _ from hn) ?_
    choose c' st s1 s2 s3 s4 using hw
    set rows : ℕ → List (List ℝ) := fun r => if h : r < m then (st ⟨r, h⟩).rows else [] with hrows
    have rows_eq : ∀ r : Fin m, rows r = (st r).rows := fun r => by rw [hrows]; exact dif_pos r.2
    obtain ⟨out, o1, o2, o3⟩ := two_point_logs hm hM hMN hdt rows (fun r hr => by rw [rows_eq ⟨r, hr⟩]; exact s3 _) (fun r hr => by
      rw [rows_eq ⟨r, hr⟩]
      exact fun i h => (s4 _ i h).1) (fun r hr => by
      rw [rows_eq ⟨r, hr⟩]
      intro i h
      obtain ⟨g1, g2, -⟩ := s4 _ i h
      generalize (st ⟨r, hr⟩).rows[i] = l at g1 g2 ⊢
      cases l with
      | nil => cases g1
      | cons x xs =>
        have g2 : x = _ := g2
        rw [List.head?_cons, g2, hrel]
        congr 1
        ring)
    refine ⟨_, out, ⟨by simp, fun r h => ⟨c' r, st r, s1 r, s2 r, ?_⟩⟩, o1, o2, fun i hi => ?_⟩
    · rw [Fin.getElem_fin, List.getElem_map, List.getElem_range, rows_eq r]
    · obtain ⟨q1, q2, q3⟩ := o3 i hi
      rw [o2] at hi
      refine ⟨q1, q2, fun k k1 k2 => ?_⟩
      rw [q3 k k1 k2]
      have entry : ∀ (r : Fin m) (j : ℕ), j ≤ N → (((rows r)[j]?).getD []).getD k 0 = X r j k (w r) := fun r j hj => by
        have h : j < (st r).rows.length := by rw [s3 r]; omega
        rw [rows_eq r, List.getElem?_eq_getElem h, Option.getD_some]
        exact (s4 r j h).2.2 k k1 k2
      simp only [fun r : Fin m => entry r (i + 1) (by omega), fun r : Fin m => entry r M hMN]
      have good : w ∉ bad (i, k) := fun hb => hnot (Set.mem_biUnion (Finset.mem_coe.2 (Finset.mem_product.2
        ⟨Finset.mem_range.2 hi, Finset.mem_Ico.2 ⟨k1, k2⟩⟩)) hb)
      have lt : |(∑ r, X r (i + 1) k (w r) * X r M k (w r)) / m - (∑ r, ∫ ω, X r (i + 1) k ω * X r M k ω ∂(warmLaw L p)) / m|
        < δ * logSize K D k ^ 2 := not_le.1 good
      have bias : |(∑ r, ∫ ω, X r (i + 1) k ω * X r M k ω ∂(warmLaw L p)) / m
          - (∑ r : Fin m, thermalMean (c r) L (wholeEnergy L) fun y => afterRun (i + 1) (logged k) y * afterRun M (logged k) y) / m|
          ≤ logSize K D k ^ 2 * warmBias conf.beta K L p := by
        rw [← sub_div, ← Finset.sum_sub_distrib, abs_div, abs_of_pos m0, div_le_iff₀ m0]
        refine (abs_sum_le_sum_abs _ _).trans ?_
        refine (Finset.sum_le_sum fun r _ => (bX r (i + 1) k k1 k2).2.2.2 M).trans (le_of_eq ?_)
        simp only [sum_const, card_univ, Fintype.card_fin, nsmul_eq_mul]
        ring
      have := abs_sub_le ((∑ r, X r (i + 1) k (w r) * X r M k (w r)) / m) ((∑ r, ∫ ω, X r (i + 1) k ω * X r M k ω ∂(warmLaw L p)) / m)
        ((∑ r : Fin m, thermalMean (c r) L (wholeEnergy L) fun y => afterRun (i + 1) (logged k) y * afterRun M (logged k) y) / m)
      nlinarith
  · refine (measure_biUnion_finset_le _ _).trans ?_
    refine (Finset.sum_le_sum bound).trans ?_
    rw [Finset.sum_const, Finset.card_product, card_range, Nat.card_Ico, nsmul_eq_mul, ← ENNReal.ofReal_natCast,
      ← ENNReal.ofReal_mul (by positivity)]
    refine ENNReal.ofReal_le_ofReal (le_of_eq ?_)
    push_cast
    ring

/-- C137: with a relaxation time of `M` whole steps, the table that `two_point_average` makes from `m` runs of `run_sim` holds, up to `δ`
times the squares of the sizes of the columns and what is left of the start, the exact means of the products of each logged number with
its value at time zero, all of them at once except with probability `24 N exp (-m δ² / 2)`. -/
theorem C137_correlations (conf : Config ℝ) (L s : ℕ) (v : ValidConf conf L s) (hb : 0 < conf.beta) (hs : 2 ≤ s) (hsL : s ≤ L) (hL : 4 ≤ L)
    (hdt : 1 / 10 ^ 5 ≤ conf.dt) (hlog : conf.log = true) (hst : conf.strob = false) (N M : ℕ)
    (hN : StepsNeeded (-conf.trel) conf.dt conf.t N) (hM : 1 ≤ M) (hMN : M ≤ N) (hrel : conf.trel = M * conf.dt)
    (m : ℕ) (hm : 1 ≤ m) (num : ℕ → ℕ) (u0 zj zh : ℕ → ℕ → ℝ) (c : ℕ → SpinChain ℝ)
    (hc : ∀ r < m, SpinChain.new conf (num r) (u0 r) (zj r) (zh r) = .ok (c r)) (hJ : ∀ r < m, ∀ i < 2 * (L / 2), J (c r) i ≠ zero)
    (K D : ℝ) (hK : ∀ r < m, ∀ i < L, len (J (c r) i) + len (H0 (c r) i) ≤ K) (hD : ∀ t, len (drive conf t) ≤ D) (δ : ℝ) (hδ : 0 ≤ δ) :
    runsLaw L warmup m {w | ¬ ∃ files out, LogsOf conf N num zj zh w files ∧ two_point_average files = .ok out ∧ out.length = N ∧
        ∀ i (h : i < out.length), out[i].length = 13 ∧ out[i].getD 0 0 = ((i + 1 : ℕ) - (M : ℝ)) * conf.dt ∧
          ∀ k, 1 ≤ k → k < 13 →
            |out[i].getD k 0 - (∑ r : Fin m, thermalMean (c r) L (wholeEnergy L)
                fun y => afterRun (i + 1) (logged k) y * afterRun M (logged k) y) / m|
              < (δ + warmBias conf.beta K L warmup) * logSize K D k ^ 2}
      ≤ ENNReal.ofReal (24 * N * Real.exp (-(m * δ ^ 2 / 2))) :=
  pair_close rfl v hb hs hsL hL hdt hlog hst hN hM hMN hrel hm hc hJ hK hD hδ

/-- C137, no relaxation: the line at time zero is then the first one, which is not read, and the program panics as soon as one log of
`run_sim` is among its files. -/
theorem C137_no_relaxation (conf : Config ℝ) (L s : ℕ) (v : ValidConf conf L s) (hs : 1 ≤ s) (hsL : s ≤ L)
    (hdt : 1 / 10 ^ 5 ≤ conf.dt) (hlog : conf.log = true) (hst : conf.strob = false) (hrel : conf.trel = 0) (ht : 0 < conf.t)
    (num : ℕ) (u zj zh : ℕ → ℝ) (ds : ℕ → Draw ℝ) :
    ∃ (c : SpinChain ℝ) (N : ℕ) (st : RunState (SpinChain ℝ) (List ℝ)), SpinChain.new conf num u zj zh = .ok c ∧
      simJob c ds N = .ok (some st) ∧ (∃ l ∈ st.rows.head?, l.head? = some 0) ∧
      ∀ files : List (List (Line ℝ)), (st.rows.map fun row => row.map some) ∈ files → ∃ p, two_point_average files = .error p := by
  have dt0 : 0 < conf.dt := lt_of_lt_of_le (by norm_num) hdt
  obtain ⟨c1, c0, N, chain, rows, h1, h2, h3, h4, h5, h6, -, h7, h8⟩ := C56_run_sim conf v hs hsL dt0 hlog hst num u zj zh ds
  have N1 : 1 ≤ N := by
    by_contra hc
    have : N = 0 := by omega
    have h := h3.2
    rw [this, hrel] at h
    norm_num at h
    linarith
  refine ⟨c1, N, _, h1, h6, ⟨rows[0], ?_, ?_⟩, fun files hf => ?_⟩
  · show rows[0] ∈ rows.head?
    rw [List.head?_eq_getElem?, List.getElem?_eq_getElem (by omega)]
    rfl
  · rw [(h8 0 (by omega)).2.2, hrel]
    norm_num
  · change (rows.map fun row => row.map some) ∈ files at hf
    have ld : ∀ row : List ℝ, lineData (row.map some) = row := fun row => by
      unfold lineData
      simp [List.filterMap_map]
    refine C55_panics files _ hf (Or.inr ⟨fun l hl => ?_, rows[1].map some, ?_, ?_⟩)
    · rw [← List.map_drop] at hl
      obtain ⟨l', hl', rfl⟩ := List.mem_map.1 hl
      obtain ⟨i, hi, rfl⟩ := List.mem_iff_getElem.1 hl'
      rw [List.length_drop] at hi
      rw [List.getElem_drop, ld]
      rintro ⟨t, t1, t2⟩
      rw [(h8 (1 + i) (by omega)).2.2, hrel] at t1
      cases t1
      simp only [flt_real, fabs_real, decide_eq_true_eq] at t2
      push_cast at t2
      have i0 : (0 : ℝ) ≤ i := Nat.cast_nonneg i
      rw [neg_zero, zero_add, abs_of_nonneg (mul_nonneg (by linarith) dt0.le)] at t2
      norm_num at t2 hdt
      nlinarith
    · rw [← List.map_drop]
      refine List.mem_map.2 ⟨_, ?_, rfl⟩
      rw [List.mem_iff_getElem]
      exact ⟨0, by rw [List.length_drop]; omega, by rw [List.getElem_drop]⟩
    · rw [ld, (h8 1 (by omega)).2.1]
      norm_num

/-- non-vacuity of C137_correlations: the default configuration without disorder and with a relaxation time of 500 steps, at a high
temperature -/
example : ∃ (conf : Config ℝ) (c : SpinChain ℝ), ValidConf conf 512 8 ∧ 0 < conf.beta ∧ 1 / 10 ^ 5 ≤ conf.dt ∧
    conf.log = true ∧ conf.strob = false ∧ StepsNeeded (-conf.trel) conf.dt conf.t 13300 ∧ conf.trel = (500 : ℕ) * conf.dt ∧
    SpinChain.new conf 0 (fun _ => 0) (fun _ => 0) (fun _ => 0) = .ok c ∧ (∀ i < 2 * (512 / 2), J c i ≠ zero) ∧
    (∀ k < 512, len (J c k) + len (H0 c k) ≤ 2) ∧ (∀ t, len (drive conf t) ≤ 1) ∧ warmBias conf.beta 2 512 warmup ≤ 1 / 20 ∧
    24 * (13300 : ℕ) * Real.exp (-((20000 : ℕ) * (1 / 20) ^ 2 / 2)) ≤ 1 / 100 := by
  let conf : Config ℝ := { (Config.default : Config ℝ) with
    beta := 1 / 1000
    jvar := 0
    trel := 10 }
  have v : ValidConf conf 512 8 := by constructor <;> first | rfl | norm_num
  obtain ⟨sp, hsp, -⟩ := newSpins_ok conf.beta (fun _ => (0 : ℝ)) 512
  have hc := new_eq v.hsize v.L_lt (show conf.hfield = 0.0 :: 0.0 :: 0.0 :: [] from rfl) (show conf.hs = 0.0 :: 0.0 :: 0.0 :: [] from rfl)
    v.jvar v.hvar 0 (fun _ => 0) (fun _ => 0) (fun _ => 0) hsp
  have i1 : ∀ k < 512, ((List.range 512).map (coupF conf.lambda conf.jvar (fun _ => (0 : ℝ))))[k]? = some (coupF conf.lambda conf.jvar (fun _ => (0 : ℝ)) k) := by
    intro k hk
    rw [List.getElem?_map, List.getElem?_range hk, Option.map_some]
  have i2 : ∀ k < 512, ((List.range 512).map (fieldN (0.0 : ℝ) 0.0 0.0 0.0 0.0 0.0 conf.hvar conf.ssize (fun _ => (0 : ℝ))))[k]?
      = some (fieldN (0.0 : ℝ) 0.0 0.0 0.0 0.0 0.0 conf.hvar conf.ssize (fun _ => (0 : ℝ)) k) := by
    intro k hk
    rw [List.getElem?_map, List.getElem?_range hk, Option.map_some]
  refine ⟨conf, _, v, by norm_num [conf], by norm_num [conf, Config.default], rfl, rfl, ⟨fun n hn => ?_, ?_⟩,
    by norm_num [conf, Config.default], hc, fun i hi => ?_, fun k hk => ?_, fun t => ?_, bias_small rfl, ?_⟩
  · have : (n : ℝ) < 13300 := by exact_mod_cast hn
    norm_num [conf, Config.default]
    linarith
  · norm_num [conf, Config.default]
  · unfold J
    dsimp only
    rw [i1 i (by omega)]
    intro h
    have := congrArg V3.x h
    norm_num [coupF, conf, Config.default, zero] at this
  · have e1 : len (coupF conf.lambda conf.jvar (fun _ => (0 : ℝ)) k) ≤ 2 := by
      unfold len
      rw [Real.sqrt_le_left (by norm_num)]
      norm_num [coupF, dot, conf, Config.default]
    have e2 : len (fieldN (0.0 : ℝ) 0.0 0.0 0.0 0.0 0.0 conf.hvar conf.ssize (fun _ => (0 : ℝ)) k) = 0 := by
      unfold len
      rw [Real.sqrt_eq_zero']
      unfold fieldN
      split_ifs <;> norm_num [dot, conf, Config.default]
    unfold J H0
    dsimp only
    rw [i1 k hk, i2 k hk]
    show len (coupF conf.lambda conf.jvar (fun _ => (0 : ℝ)) k) + len (fieldN (0.0 : ℝ) 0.0 0.0 0.0 0.0 0.0 conf.hvar conf.ssize (fun _ => (0 : ℝ)) k) ≤ 2
    rw [e2]
    linarith
  · show len ⟨Real.cos _, Real.sin _, 0⟩ ≤ 1
    unfold len dot
    rw [Real.sqrt_le_left (by norm_num)]
    dsimp only
    nlinarith [Real.sin_sq_add_cos_sq (2 * Real.pi * t / conf.tau)]
  · rw [show (-((20000 : ℕ) * (1 / 20 : ℝ) ^ 2 / 2)) = -((25 : ℕ) * 1) by norm_num, Real.exp_neg, Real.exp_nat_mul, ← div_eq_mul_inv,
      div_le_iff₀ (by positivity)]
    have := pow_le_pow_left₀ (by norm_num) Real.exp_one_gt_d9.le 25
    norm_num at this ⊢
    linarith

/-- non-vacuity of C137_no_relaxation: the default configuration -/
example : ValidConf (Config.default : Config ℝ) 512 8 ∧ 1 / 10 ^ 5 ≤ (Config.default : Config ℝ).dt ∧ (Config.default : Config ℝ).log = true ∧
    (Config.default : Config ℝ).strob = false ∧ (Config.default : Config ℝ).trel = 0 ∧ 0 < (Config.default : Config ℝ).t := by
  refine ⟨by constructor <;> first | rfl | norm_num, ?_, rfl, rfl, ?_, ?_⟩ <;> norm_num [Config.default]

end

end Verif.Props
