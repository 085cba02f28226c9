/-
C138: how many response runs show the relaxation after the static fields are switched off (/repo/src/obs.rs `run_sim_response`,
`average`).
-/
import Verif.Spec.ResponseMean
import Verif.Props.RunMean
import Verif.Props.Response
import Verif.Props.Recurrence

set_option linter.unusedSectionVars false

namespace Verif.Props

open Spec MeasureTheory Finset Function
open scoped ENNReal

section
variable {conf : Config ℝ} {c : SpinChain ℝ} {L s : ℕ}

/-- the spins after `i` passes of a response run, `m` of them in all fields -/
noncomputable def reflow (c : SpinChain ℝ) (L s m i : ℕ) (q : Fin L → V3 ℝ) : Fin L → V3 ℝ :=
  flow (fieldOff { c with t := -c.vars.t + (min i m : ℕ) * c.vars.dt }) L s (i - m) (flow { c with t := -c.vars.t } L s (min i m) q)

theorem reflow_meas (c : SpinChain ℝ) (L s m i : ℕ) : Measurable (reflow c L s m i) :=
  (flow_preserving _ L s _).measurable.comp (flow_preserving _ L s _).measurable

theorem clock_wf (w : WF c L s) (t : ℝ) : WF ({ c with t } : SpinChain ℝ) L s :=
  ⟨w.hsize, w.ssize, w.L_lt, w.s_lt, w.spins, w.j, w.h, w.hs⟩

/-- spins from which all passes meet no vanishing local field -/
def CalmStart (c : SpinChain ℝ) (L s m : ℕ) (q : Fin L → V3 ℝ) : Prop :=
  (∀ i, len (q i) = 1) ∧ (∀ n, RegularRun (withSpins { c with t := -c.vars.t } q) L s n) ∧
    (∀ i, len (flow { c with t := -c.vars.t } L s m q i) = 1) ∧
    ∀ n, RegularRun (withSpins (fieldOff { c with t := -c.vars.t + m * c.vars.dt }) (flow { c with t := -c.vars.t } L s m q)) L s n

theorem calm_ae (w : WF c L s) (hL : 4 ≤ L) (hJ : ∀ i < 2 * (L / 2), J c i ≠ zero) (m : ℕ) :
    ∀ᵐ q ∂(Measure.pi fun _ : Fin L => sphereMeasure), CalmStart c L s m q := by
  have h1 := C86_generic { c with t := -c.vars.t } L s (clock_wf w _) hL hJ
  have h2 := (flow_preserving { c with t := -c.vars.t } L s m).quasiMeasurePreserving.ae
    (C86_generic (fieldOff { c with t := -c.vars.t + m * c.vars.dt }) L s (fieldOff_wf (clock_wf w _)) hL hJ)
  filter_upwards [h1, h2] with q a b
  exact ⟨a.1, a.2, b.1, b.2⟩

theorem unit_flow (w : WF c L s) (hL : 2 ≤ L) {q : Fin L → V3 ℝ} (hq : ∀ i, len (q i) = 1) {n : ℕ}
    (hr : RegularRun (withSpins c q) L s n) (i : Fin L) : len (flow c L s n q i) = 1 := by
  obtain ⟨c', h1, h2⟩ := run_flow w hL hq hr
  have w' := updates_wf (withSpins_wf w q) h1
  obtain ⟨-, u1⟩ := updates_unit (withSpins_wf w q) hL (unit_withSpins hq) hr h1
  have := unit_of w' u1 i.2
  rwa [h2, fld_val] at this

/-- the chain after `i` passes -/
theorem passes_calm (w : WF c L s) (hL : 2 ≤ L) (hdt : 0 ≤ c.vars.dt) {m : ℕ} (hm : ∀ i < m, -c.vars.t + i * c.vars.dt < 0)
    (h0 : 0 ≤ -c.vars.t + m * c.vars.dt) {q : Fin L → V3 ℝ} (hq : CalmStart c L s m q) (i : ℕ) :
    (∀ j, len (reflow c L s m i q j) = 1) ∧
    passes i (withSpins { c with t := -c.vars.t } q) = .ok (withSpins { c with t := -c.vars.t + i * c.vars.dt } (reflow c L s m i q)) := by
  obtain ⟨q1, q2, q3, q4⟩ := hq
  have wt := clock_wf w (-c.vars.t)
  rcases Nat.lt_or_ge m i with h | h
  · obtain ⟨k, rfl⟩ : ∃ k, i = m + k := ⟨i - m, by omega⟩
    have e1 : m + k - m = k := by omega
    have e2 : min (m + k) m = m := by omega
    unfold reflow
    rw [e1, e2]
    refine ⟨unit_flow (fieldOff_wf (clock_wf w _)) hL q3 (q4 k), ?_⟩
    rw [passes_before _ m k hm, run_chain wt hL q1 (q2 m)]
    show passes k (withSpins { c with t := -c.vars.t + m * c.vars.dt } (flow { c with t := -c.vars.t } L s m q)) = _
    rw [passes_after (withSpins { c with t := -c.vars.t + m * c.vars.dt } (flow { c with t := -c.vars.t } L s m q)) k h0 hdt]
    show ((withSpins (fieldOff { c with t := -c.vars.t + m * c.vars.dt }) _).updates k).map _ = _
    rw [run_chain (fieldOff_wf (clock_wf w _)) hL q3 (q4 k)]
    have : -c.vars.t + m * c.vars.dt + k * c.vars.dt = -c.vars.t + (m + k : ℕ) * c.vars.dt := by push_cast; ring
    rw [← this]
    rfl
  · have e1 : i - m = 0 := by omega
    have e2 : min i m = i := by omega
    unfold reflow
    rw [e1, e2]
    refine ⟨unit_flow wt hL q1 (q2 i), ?_⟩
    have := passes_before (withSpins { c with t := -c.vars.t } q) i 0 fun j hj => hm j (by omega)
    rw [add_zero] at this
    rw [this, run_chain wt hL q1 (q2 i)]
    rfl

/-- the number of passes in all fields -/
theorem negative_passes (T : ℝ) {dt : ℝ} (hdt : 0 < dt) : ∃ m : ℕ, (∀ i < m, -T + i * dt < 0) ∧ 0 ≤ -T + m * dt := by
  classical
  have ex : ∃ m : ℕ, 0 ≤ -T + m * dt := by
    obtain ⟨m, hm⟩ := exists_nat_ge (T / dt)
    rw [div_le_iff₀ hdt] at hm
    exact ⟨m, by linarith⟩
  exact ⟨Nat.find ex, fun i hi => not_le.1 (Nat.find_min ex hi), Nat.find_spec ex⟩

/-- what a calm response run logs -/
theorem responded_calm (w : WF c L s) (hL : 2 ≤ L) (hdt : 0 ≤ c.vars.dt) {m : ℕ} (hm : ∀ i < m, -c.vars.t + i * c.vars.dt < 0)
    (h0 : 0 ≤ -c.vars.t + m * c.vars.dt) {q : Fin L → V3 ℝ} (hq : CalmStart c L s m q) (i : ℕ) (f : SpinChain ℝ → ℝ) :
    responded i f (withSpins c q) = f (withSpins { c with t := -c.vars.t + i * c.vars.dt } (reflow c L s m i q)) := by
  unfold responded
  rw [show ({ withSpins c q with t := -(withSpins c q).vars.t } : SpinChain ℝ) = withSpins { c with t := -c.vars.t } q from rfl,
    (passes_calm w hL hdt hm h0 hq i).2]

/-- the logged numbers as an observable of the spins after the warm-up -/
theorem response_bounded (w : WF c L s) (hL : 2 ≤ L) (hs : 2 ≤ s) (hsL : s ≤ L) (hf : c.file.isSome = true) (hdt : 0 ≤ c.vars.dt) {m : ℕ}
    (hm : ∀ i < m, -c.vars.t + i * c.vars.dt < 0) (h0 : 0 ≤ -c.vars.t + m * c.vars.dt) {K D : ℝ}
    (hK : ∀ i < L, len (J c i) + len (H0 c i) ≤ K) (hD : ∀ t, len (drive c.vars t) ≤ D) {A : Set (Fin L → V3 ℝ)} (hA : MeasurableSet A)
    (hAP : ∀ q ∈ A, CalmStart c L s m q) (i : ℕ) {k : ℕ} (k1 : 1 ≤ k) (hk : k < 13) :
    BoundedBy c L (logSize K D k) (within A (responded i (logged k))) := by
  have b := log_bounded (s := s) { c with t := -c.vars.t + i * c.vars.dt } hs hsL hK (hD _) k1 hk
  have e : ∀ q ∈ A, responded i (logged k) (withSpins c q)
      = (logCols L s (withSpins { c with t := -c.vars.t + i * c.vars.dt } (reflow c L s m i q))).getD k 0 := fun q hq => by
    rw [responded_calm w hL hdt hm h0 (hAP q hq) i]
    exact logged_cols (withSpins_wf (clock_wf w _) _) (by omega) hsL hf k
  constructor
  · exact within_meas hA (b.meas.comp (reflow_meas c L s m i)) e
  · intro q _
    unfold within
    rw [spins_withSpins]
    split_ifs with h
    · rw [e q h]
      exact b.bound _ (passes_calm w hL hdt hm h0 (hAP q h) i).1
    · rw [abs_zero]
      have h0 := b.bound (fun _ => ⟨1, 0, 0⟩) (fun _ => by norm_num [len, dot])
      exact (abs_nonneg _).trans h0

/-- the chains of C75 are those after the passes -/
theorem passes_course {chain : ℕ → SpinChain ℝ} {T dt : ℝ} (hclock : ∀ i, (chain i).t = -T + i * dt)
    (h1 : ∀ i : ℕ, -T + i * dt < 0 → (chain i).update = .ok (chain (i + 1)))
    (h2 : ∀ i : ℕ, 0 ≤ -T + i * dt →
        ({ chain i with static_h := (chain i).static_h.map fun _ => zero } : SpinChain ℝ).update
          = .ok { chain (i + 1) with static_h := (chain (i + 1)).static_h.map fun _ => zero } ∧
        (chain (i + 1)).static_h = (chain i).static_h) (j i : ℕ) : passes i (chain j) = .ok (chain (j + i)) := by
  induction i generalizing j with
  | zero => rfl
  | succ i ih =>
    have step : responseUpdate (chain j) = .ok (chain (j + 1)) := by
      unfold responseUpdate
      rcases lt_or_ge (-T + j * dt) 0 with h | h
      · rw [if_pos (by rw [hclock]; norm_num [flt, FOps.flt]; linarith)]
        exact h1 j h
      · rw [if_neg (by rw [hclock]; norm_num [flt, FOps.flt]; linarith), C31_no_static_field, (h2 j h).1]
        show Except.ok _ = Except.ok _
        congr 1
        rw [← (h2 j h).2]
    show (responseUpdate (chain j)).bind (passes i) = _
    rw [step]
    show passes i (chain (j + 1)) = _
    rw [ih (j + 1), show j + 1 + i = j + (i + 1) by omega]

/-- one run: the log it leaves and the mean of each entry -/
theorem response_mean {p : ℕ} (hp : p = warmup) (v : ValidConf conf L s) (hb : 0 < conf.beta) (hs : 2 ≤ s) (hsL : s ≤ L) (hL : 4 ≤ L) (hdt : 0 < conf.dt)
    (hlog : conf.log = true) (hst : conf.strob = false) {N : ℕ} (hN : StepsNeeded (-conf.t) conf.dt conf.t N)
    {num : ℕ} {u0 zj zh : ℕ → ℝ} (hc : SpinChain.new conf num u0 zj zh = .ok c) (hJ : ∀ i < 2 * (L / 2), J c i ≠ zero)
    {K D : ℝ} (hK : ∀ i < L, len (J c i) + len (H0 c i) ≤ K) (hD : ∀ t, len (drive conf t) ≤ D) :
    ∃ X : ℕ → ℕ → WarmRaw L p → ℝ,
      (∀ᵐ r ∂(warmLaw L p), ∃ c' st, SpinChain.new conf num (drawsOf r.1) zj zh = .ok c' ∧
        responseJob c' (warmDraws r.2) N = .ok (some st) ∧ st.rows.length = N + 1 ∧
        ∀ i (h : i < st.rows.length), st.rows[i].length = 13 ∧ (1 ≤ i → st.rows[i].getD 0 0 = -conf.t + i * conf.dt ∧
          ∀ k, 1 ≤ k → k < 13 → st.rows[i].getD k 0 = X i k r)) ∧
      ∀ i k, 1 ≤ k → k < 13 → Measurable (X i k) ∧ (∀ᵐ r ∂(warmLaw L p), |X i k r| ≤ logSize K D k) ∧
        |(∫ r, X i k r ∂(warmLaw L p)) - thermalMean c L (wholeEnergy L) (responded i (logged k))|
          ≤ logSize K D k * warmBias conf.beta K L p := by
  have hL2 : 2 ≤ L := by omega
  obtain ⟨w, ht, hv⟩ := new_facts v hc
  have hf : c.file.isSome = true := by
    obtain ⟨c1, h1, -, -, -, h5, -⟩ := valid_new v num u0 zj zh
    rw [hc] at h1
    cases h1
    rw [h5 hlog]
    rfl
  have hdt' : 0 ≤ c.vars.dt := by rw [hv]; exact hdt.le
  obtain ⟨m, hm, h0⟩ := negative_passes c.vars.t (dt := c.vars.dt) (by rw [hv]; exact hdt)
  obtain ⟨A, hA, hAP, hAq, hAr⟩ := warm_ae v hb hc hL2 p (calm_ae w hL hJ m)
  have hr := warm_run v hb hc hL2 p
  refine ⟨fun i k r => within A (responded i (logged k)) (withSpins c (warmSpins c conf.beta r)), ?_, fun i k k1 k2 => ?_⟩
  · filter_upwards [hAr, hr] with r r1 r2
    obtain ⟨r3, r4, r5⟩ := r2
    obtain ⟨c1, c0, N', chain, rows, h1, h2, h3, h4, h5, h6, h7, -, h8, h9, h10⟩ :=
      C75_response conf v (by omega) hsL hdt hlog hst num (drawsOf r.1) zj zh (warmDraws r.2)
    have hNN : N' = N := steps_unique h3 hN
    subst hNN
    rw [r4] at h1
    cases h1
    rw [← hp, r5] at h2
    cases h2
    have start : chain 0 = withSpins { c with t := -c.vars.t } (warmSpins c conf.beta r) := by
      rw [h4, ← hv]
      rfl
    have calm := hAP _ r1
    have clock : ∀ i : ℕ, (chain i).t = -conf.t + i * conf.dt ∧ (chain i).vars = conf := by
      intro i
      induction i with
      | zero =>
        rw [start]
        refine ⟨?_, hv⟩
        show -c.vars.t = _
        rw [hv]
        simp
      | succ i ih =>
        obtain ⟨i1, i2⟩ := ih
        rcases lt_or_ge (-conf.t + i * conf.dt) 0 with h | h
        · have q : (chain i).updates 1 = .ok (chain (i + 1)) := by rw [updates_one]; exact h5 i h
          obtain ⟨-, -, a3, -⟩ := updates_frame q
          refine ⟨?_, a3.trans i2⟩
          rw [C25_time _ _ 1 q, i1, i2]
          push_cast
          ring
        · have q : ({ chain i with static_h := (chain i).static_h.map fun _ => zero } : SpinChain ℝ).updates 1
              = .ok { chain (i + 1) with static_h := (chain (i + 1)).static_h.map fun _ => zero } := by rw [updates_one]; exact (h6 i h).1
          obtain ⟨-, -, a3, -⟩ := updates_frame q
          refine ⟨?_, a3.trans i2⟩
          have e := C25_time _ _ 1 q
          dsimp only at e
          rw [e, i1, i2]
          push_cast
          ring
    have there : ∀ i, (chain i) = withSpins { c with t := -c.vars.t + i * c.vars.dt } (reflow c L s m i (warmSpins c conf.beta r)) := by
      intro i
      have q1 := passes_course (fun i => (clock i).1) h5 h6 0 i
      rw [start, (passes_calm w hL2 hdt' hm h0 calm i).2, zero_add] at q1
      exact (Except.ok.inj q1).symm
    refine ⟨_, _, r4, h7, h8, fun i h => ?_⟩
    dsimp only at h ⊢
    rcases Nat.eq_zero_or_pos i with rfl | hi
    · refine ⟨?_, fun h => absurd h (by omega)⟩
      rw [log_cols (withSpins_wf w _) (by omega) hsL hf, List.getElem?_eq_getElem h] at h9
      rw [← Option.some.inj (Except.ok.inj h9)]
      rfl
    · obtain ⟨g1, g2⟩ := h10 i h hi
      refine ⟨?_, fun _ => ⟨?_, fun k k1 k2 => ?_⟩⟩
      · rw [there i, log_cols (withSpins_wf (clock_wf w _) _) (by omega) hsL hf] at g1
        rw [← Option.some.inj (Except.ok.inj g1)]
        rfl
      · rw [List.getD_eq_getElem?_getD, ← List.head?_eq_getElem?, g2]
        rfl
      · show _ = within A (responded i (logged k)) (withSpins c (warmSpins c conf.beta r))
        unfold within
        rw [spins_withSpins, if_pos r1, responded_calm w hL2 hdt' hm h0 calm i, ← there i]
        unfold logged
        rw [g1]
  · have b := response_bounded w hL2 hs hsL hf hdt' hm h0 hK (by rw [hv]; exact hD) hA hAP i k1 k2
    refine ⟨b.meas.comp (warm_meas w hL2 conf.beta p), hr.mono fun r h => b.bound _ h.1, ?_⟩
    have e : thermalMean c L (wholeEnergy L) (responded i (logged k)) = thermalMean c L (wholeEnergy L) (within A (responded i (logged k))) := by
      unfold thermalMean
      congr 1
      refine integral_congr_ae (hAq.mono fun q hq => ?_)
      dsimp only
      unfold within
      rw [spins_withSpins, if_pos hq]
    rw [e]
    exact warm_mean v hb hc hL2 hK p b

/-- C138 with a name for the number of updates before a run -/
theorem response_close {p : ℕ} (hp : p = warmup) (v : ValidConf conf L s) (hb : 0 < conf.beta) (hs : 2 ≤ s) (hsL : s ≤ L) (hL : 4 ≤ L)
    (hdt : 0 < conf.dt) (hlog : conf.log = true) (hst : conf.strob = false) {N : ℕ} (hN : StepsNeeded (-conf.t) conf.dt conf.t N)
    (hcap : ftoNat (conf.t / conf.dt) * 24 < 2 ^ 63) {m : ℕ} (hm : 1 ≤ m) {num : ℕ → ℕ} {u0 zj zh : ℕ → ℕ → ℝ} {c : ℕ → SpinChain ℝ}
    (hc : ∀ r < m, SpinChain.new conf (num r) (u0 r) (zj r) (zh r) = .ok (c r)) (hJ : ∀ r < m, ∀ i < 2 * (L / 2), J (c r) i ≠ zero)
    {K D : ℝ} (hK : ∀ r < m, ∀ i < L, len (J (c r) i) + len (H0 (c r) i) ≤ K) (hD : ∀ t, len (drive conf t) ≤ D) {δ : ℝ} (hδ : 0 ≤ δ) :
    runsLaw L p m {w | ¬ ∃ files out, ResponseLogsOf conf N num zj zh w files ∧ average conf files = .ok out ∧ out.length = N ∧
        ∀ i (h : i < out.length), out[i].length = 13 ∧ out[i].getD 0 0 = -conf.t + (i + 1 : ℕ) * conf.dt ∧
          ∀ k, 1 ≤ k → k < 13 →
            |out[i].getD k 0 - (∑ r : Fin m, thermalMean (c r) L (wholeEnergy L) (responded (i + 1) (logged k))) / m|
              < (δ + warmBias conf.beta K L p) * logSize K D k}
      ≤ ENNReal.ofReal (24 * N * Real.exp (-(m * δ ^ 2 / 2))) := by
  have m0 : (0 : ℝ) < m := by exact_mod_cast hm
  have pl : IsProbabilityMeasure (warmLaw L p) := by
    have : NeZero L := ⟨by omega⟩
    unfold warmLaw
    infer_instance
  have each := fun r : Fin m => response_mean hp v hb hs hsL hL hdt hlog hst hN (hc r r.2) (hJ r r.2) (hK r r.2) hD
  choose X aX bX using each
  have D0 : 0 ≤ D := le_trans (Real.sqrt_nonneg _) (hD 0)
  have K0 : 0 < K := by
    have h1 := hJ 0 (by omega) 0 (by omega)
    have h2 := hK 0 (by omega) 0 (by omega)
    have h3 : 0 < len (J (c 0) 0) := len_pos h1
    have h4 : 0 ≤ len (H0 (c 0) 0) := Real.sqrt_nonneg _
    linarith
  have size0 : ∀ k, 0 < logSize K D k := fun k => by
    unfold logSize
    split_ifs <;> linarith
  -- every run writes its log, with probability one
  have all : ∀ᵐ w ∂(runsLaw L p m), ∀ r : Fin m, ∃ c' st, SpinChain.new conf (num r) (drawsOf (w r).1) (zj r) (zh r) = .ok c' ∧
      responseJob c' (warmDraws (w r).2) N = .ok (some st) ∧ st.rows.length = N + 1 ∧
      ∀ i (h : i < st.rows.length), st.rows[i].length = 13 ∧ (1 ≤ i → st.rows[i].getD 0 0 = -conf.t + i * conf.dt ∧
        ∀ k, 1 ≤ k → k < 13 → st.rows[i].getD k 0 = X r i k (w r)) := by
    rw [ae_all_iff]
    intro r
    exact (Measure.quasiMeasurePreserving_eval (fun _ : Fin m => warmLaw L p) r).ae (aX r)
  set bad : ℕ × ℕ → Set (Fin m → WarmRaw L p) := fun ik =>
    {w | δ * logSize K D ik.2 ≤ |(∑ r, X r (ik.1 + 1) ik.2 (w r)) / m - (∑ r, ∫ ω, X r (ik.1 + 1) ik.2 ω ∂(warmLaw L p)) / m|} with hbad
  have bound : ∀ ik ∈ range N ×ˢ Ico 1 13, runsLaw L p m (bad ik) ≤ ENNReal.ofReal (2 * Real.exp (-(m * δ ^ 2 / 2))) := by
    rintro ⟨i, k⟩ h
    have hk := Finset.mem_Ico.1 (Finset.mem_product.1 h).2
    exact hoeffding hm (fun r => (bX r (i + 1) k hk.1 hk.2).1) (size0 k) (fun r => (bX r (i + 1) k hk.1 hk.2).2.1) hδ
  refine le_trans (measure_mono_ae (t := ⋃ ik ∈ range N ×ˢ Ico 1 13, bad ik) ?_) ?_
  · filter_upwards [all] with w hw hn
    by_contra hnot
    refine (show ¬ _ from hn) ?_
    choose c' st s1 s2 s3 s4 using hw
    set rows : ℕ → List (List ℝ) := fun r => if h : r < m then (st ⟨r, h⟩).rows else [] with hrows
    have rows_eq : ∀ r : Fin m, rows r = (st r).rows := fun r => by rw [hrows]; exact dif_pos r.2
    obtain ⟨out, o1, o2, o3⟩ := average_logs conf hcap hm rows (fun r hr => by rw [rows_eq ⟨r, hr⟩]; exact s3 _) (fun r hr => by
      rw [rows_eq ⟨r, hr⟩]
      exact fun i h => (s4 _ i h).1)
    refine ⟨_, out, ⟨by simp, fun r h => ⟨c' r, st r, s1 r, s2 r, ?_⟩⟩, o1, o2, fun i hi => ?_⟩
    · rw [Fin.getElem_fin, List.getElem_map, List.getElem_range, rows_eq r]
    · obtain ⟨q1, q2⟩ := o3 i hi
      rw [o2] at hi
      have entry : ∀ r : Fin m, ∃ h : i + 1 < (st r).rows.length, ((rows r)[i + 1]?).getD [] = (st r).rows[i + 1] := fun r => by
        have h : i + 1 < (st r).rows.length := by rw [s3 r]; omega
        refine ⟨h, ?_⟩
        rw [rows_eq r, List.getElem?_eq_getElem h, Option.getD_some]
      refine ⟨q1, ?_, fun k k1 k2 => ?_⟩
      · rw [q2 0 (by norm_num)]
        have : ∀ r : Fin m, (((rows r)[i + 1]?).getD []).getD 0 0 = -conf.t + (i + 1 : ℕ) * conf.dt := fun r => by
          obtain ⟨h, e⟩ := entry r
          rw [e]
          exact ((s4 r (i + 1) h).2 (by omega)).1
        simp only [this, sum_const, card_univ, Fintype.card_fin, nsmul_eq_mul]
        rw [mul_div_cancel_left₀ _ m0.ne']
      · rw [q2 k k2]
        have e : ∀ r : Fin m, (((rows r)[i + 1]?).getD []).getD k 0 = X r (i + 1) k (w r) := fun r => by
          obtain ⟨h, e⟩ := entry r
          rw [e]
          exact ((s4 r (i + 1) h).2 (by omega)).2 k k1 k2
        simp only [e]
        have good : w ∉ bad (i, k) := fun hb => hnot (Set.mem_biUnion (Finset.mem_coe.2 (Finset.mem_product.2
          ⟨Finset.mem_range.2 hi, Finset.mem_Ico.2 ⟨k1, k2⟩⟩)) hb)
        have lt : |(∑ r, X r (i + 1) k (w r)) / m - (∑ r, ∫ ω, X r (i + 1) k ω ∂(warmLaw L p)) / m| < δ * logSize K D k := not_le.1 good
        have bias : |(∑ r, ∫ ω, X r (i + 1) k ω ∂(warmLaw L p)) / m
            - (∑ r : Fin m, thermalMean (c r) L (wholeEnergy L) (responded (i + 1) (logged k))) / m|
            ≤ logSize K D k * warmBias conf.beta K L p := by
          rw [← sub_div, ← Finset.sum_sub_distrib, abs_div, abs_of_pos m0, div_le_iff₀ m0]
          refine (abs_sum_le_sum_abs _ _).trans ?_
          refine (Finset.sum_le_sum fun r _ => (bX r (i + 1) k k1 k2).2.2).trans (le_of_eq ?_)
          simp only [sum_const, card_univ, Fintype.card_fin, nsmul_eq_mul]
          ring
        have := abs_sub_le ((∑ r, X r (i + 1) k (w r)) / m) ((∑ r, ∫ ω, X r (i + 1) k ω ∂(warmLaw L p)) / m)
          ((∑ r : Fin m, thermalMean (c r) L (wholeEnergy L) (responded (i + 1) (logged k))) / m)
        nlinarith
  · refine (measure_biUnion_finset_le _ _).trans ?_
    refine (Finset.sum_le_sum bound).trans ?_
    rw [Finset.sum_const, Finset.card_product, card_range, Nat.card_Ico, nsmul_eq_mul, ← ENNReal.ofReal_natCast,
      ← ENNReal.ofReal_mul (by positivity)]
    refine ENNReal.ofReal_le_ofReal (le_of_eq ?_)
    push_cast
    ring

/-- C138: the entries of the table that `average` makes from `m` runs of `run_sim_response` are, up to `δ` times their size and
what is left of the start, the exact means over the thermal state and over the couplings and fields of the runs, all of them at once
except with probability `24 N exp (-m δ² / 2)`. -/
theorem C138_average (conf : Config ℝ) (L s : ℕ) (v : ValidConf conf L s) (hb : 0 < conf.beta) (hs : 2 ≤ s) (hsL : s ≤ L) (hL : 4 ≤ L)
    (hdt : 0 < conf.dt) (hlog : conf.log = true) (hst : conf.strob = false) (N : ℕ) (hN : StepsNeeded (-conf.t) conf.dt conf.t N)
    (hcap : ftoNat (conf.t / conf.dt) * 24 < 2 ^ 63) (m : ℕ) (hm : 1 ≤ m) (num : ℕ → ℕ) (u0 zj zh : ℕ → ℕ → ℝ) (c : ℕ → SpinChain ℝ)
    (hc : ∀ r < m, SpinChain.new conf (num r) (u0 r) (zj r) (zh r) = .ok (c r)) (hJ : ∀ r < m, ∀ i < 2 * (L / 2), J (c r) i ≠ zero)
    (K D : ℝ) (hK : ∀ r < m, ∀ i < L, len (J (c r) i) + len (H0 (c r) i) ≤ K) (hD : ∀ t, len (drive conf t) ≤ D) (δ : ℝ) (hδ : 0 ≤ δ) :
    runsLaw L warmup m {w | ¬ ∃ files out, ResponseLogsOf conf N num zj zh w files ∧ average conf files = .ok out ∧ out.length = N ∧
        ∀ i (h : i < out.length), out[i].length = 13 ∧ out[i].getD 0 0 = -conf.t + (i + 1 : ℕ) * conf.dt ∧
          ∀ k, 1 ≤ k → k < 13 →
            |out[i].getD k 0 - (∑ r : Fin m, thermalMean (c r) L (wholeEnergy L) (responded (i + 1) (logged k))) / m|
              < (δ + warmBias conf.beta K L warmup) * logSize K D k}
      ≤ ENNReal.ofReal (24 * N * Real.exp (-(m * δ ^ 2 / 2))) :=
  response_close rfl v hb hs hsL hL hdt hlog hst hN hcap hm hc hJ hK hD hδ

theorem flow_congr {c c' : SpinChain ℝ} (h1 : c'.j_couple = c.j_couple) (h2 : c'.static_h = c.static_h) (h3 : c'.vars = c.vars)
    (h4 : c'.t = c.t) (i : ℕ) : flow c' L s i = flow c L s i := by
  induction i with
  | zero => rfl
  | succ i ih =>
    unfold flow
    rw [ih, J_congr h1, h3, h4]
    have : ∀ t, B c' s t = B c s t := fun t => B_congr h2 (by rw [h3])
    rw [this]

/-- the thermal means of what is logged do not depend on the number of the run -/
theorem responded_same (v : ValidConf conf L s) (hlog : conf.log = true) (hj : conf.jvar = 0) (hv : conf.hvar = 0) (hs : 2 ≤ s) (hsL : s ≤ L)
    (hL : 4 ≤ L) (hdt : 0 < conf.dt) {n n' : ℕ} {u u' zj zj' zh zh' : ℕ → ℝ} {c c' : SpinChain ℝ} (hc : SpinChain.new conf n u zj zh = .ok c)
    (hc' : SpinChain.new conf n' u' zj' zh' = .ok c') (hJ : ∀ i < 2 * (L / 2), J c i ≠ zero) :
    J c' = J c ∧ H0 c' = H0 c ∧ ∀ i k, thermalMean c' L (wholeEnergy L) (responded i (logged k)) = thermalMean c L (wholeEnergy L) (responded i (logged k)) := by
  obtain ⟨x, hx⟩ := new_plain v hj hv hc' hc
  have q := hx fun _ => zero
  have ej : c'.j_couple = c.j_couple := by
    have := congrArg (fun y : SpinChain ℝ => y.j_couple) q
    exact this
  have eh : c'.static_h = c.static_h := by
    have := congrArg (fun y : SpinChain ℝ => y.static_h) q
    exact this
  have eJ : J c' = J c := J_congr ej
  have eH : H0 c' = H0 c := by
    funext i
    unfold H0
    rw [eh]
  obtain ⟨w, ht, hv1⟩ := new_facts v hc
  obtain ⟨w', ht', hv1'⟩ := new_facts v hc'
  have ev : c'.vars = c.vars := by rw [hv1, hv1']
  have fl : ∀ {num : ℕ} {u zj zh : ℕ → ℝ} {c : SpinChain ℝ}, SpinChain.new conf num u zj zh = .ok c → c.file.isSome = true := by
    intro num u zj zh c hc
    obtain ⟨c1, h1, -, -, -, h5, -⟩ := valid_new v num u zj zh
    rw [hc] at h1
    cases h1
    rw [h5 hlog]
    rfl
  have f1 := fl hc
  have f2 := fl hc'
  obtain ⟨m, hm, h0⟩ := negative_passes conf.t hdt
  have er : ∀ i, reflow c' L s m i = reflow c L s m i := fun i => by
    unfold reflow
    funext y
    rw [flow_congr (c := { c with t := -c.vars.t }) (c' := { c' with t := -c'.vars.t }) ej eh ev (by dsimp only; rw [ev]),
      flow_congr (c := fieldOff { c with t := -c.vars.t + (min i m : ℕ) * c.vars.dt })
        (c' := fieldOff { c' with t := -c'.vars.t + (min i m : ℕ) * c'.vars.dt }) ej (by unfold fieldOff; dsimp only; rw [eh]) ev
        (by unfold fieldOff; dsimp only; rw [ev])]
  refine ⟨eJ, eH, fun i k => ?_⟩
  unfold thermalMean
  have e1 : ∀ y, wholeEnergy L (withSpins c' y) = wholeEnergy L (withSpins c y) := fun y => by rw [hx y]; rfl
  simp only [e1, hv1, hv1']
  congr 1
  refine integral_congr_ae ?_
  filter_upwards [calm_ae w hL hJ m, calm_ae w' hL (by rw [eJ]; exact hJ) m] with y y1 y2
  rw [responded_calm w (by omega) (by rw [hv1]; exact hdt.le) (by rw [hv1]; exact hm) (by rw [hv1]; exact h0) y1,
    responded_calm w' (by omega) (by rw [hv1']; exact hdt.le) (by rw [hv1']; exact hm) (by rw [hv1']; exact h0) y2,
    logged_cols (withSpins_wf (clock_wf w _) _) (by omega) hsL f1 k, logged_cols (withSpins_wf (clock_wf w' _) _) (by omega) hsL f2 k, er]
  congr 2
  exact logCols_congr rfl ej eh ev (by show -c'.vars.t + i * c'.vars.dt = -c.vars.t + i * c.vars.dt; rw [ev])

theorem response_runs {p : ℕ} (hp : p = warmup) (v : ValidConf conf L s) (hb : 0 < conf.beta) (hj : conf.jvar = 0) (hv : conf.hvar = 0)
    (hs : 2 ≤ s) (hsL : s ≤ L) (hL : 4 ≤ L)
    (hdt : 0 < conf.dt) (hlog : conf.log = true) (hst : conf.strob = false) {N : ℕ} (hN : StepsNeeded (-conf.t) conf.dt conf.t N)
    (hcap : ftoNat (conf.t / conf.dt) * 24 < 2 ^ 63) {m : ℕ} (hm : 1 ≤ m) {num : ℕ → ℕ} {zj zh : ℕ → ℕ → ℝ} {u0 z0 z0' : ℕ → ℝ} {n0 : ℕ}
    (hc : SpinChain.new conf n0 u0 z0 z0' = .ok c) (hJ : ∀ i < 2 * (L / 2), J c i ≠ zero)
    {K D : ℝ} (hK : ∀ i < L, len (J c i) + len (H0 c i) ≤ K) (hD : ∀ t, len (drive conf t) ≤ D) {δ ε : ℝ} (hδ : 0 < δ) (hε : 0 < ε)
    (hbias : warmBias conf.beta K L p ≤ δ) (hruns : 2 * Real.log (24 * N / ε) / δ ^ 2 ≤ m) :
    runsLaw L p m {w | ¬ ∃ files out, ResponseLogsOf conf N num zj zh w files ∧ average conf files = .ok out ∧ out.length = N ∧
        ∀ i (h : i < out.length), out[i].length = 13 ∧ out[i].getD 0 0 = -conf.t + (i + 1 : ℕ) * conf.dt ∧
          ∀ k, 1 ≤ k → k < 13 →
            |out[i].getD k 0 - thermalMean c L (wholeEnergy L) (responded (i + 1) (logged k))| < 2 * δ * logSize K D k}
      ≤ ENNReal.ofReal ε := by
  have m0 : (0 : ℝ) < m := by exact_mod_cast hm
  have chains : ∀ r, ∃ c', SpinChain.new conf (num r) u0 (zj r) (zh r) = .ok c' := fun r => by
    obtain ⟨c', h, -⟩ := valid_new v (num r) u0 (zj r) (zh r)
    exact ⟨c', h⟩
  choose c' hc' using chains
  have same := fun r => responded_same v hlog hj hv hs hsL hL hdt hc (hc' r) hJ
  have key := response_close hp v hb hs hsL hL hdt hlog hst hN hcap hm (num := num) (u0 := fun _ => u0) (fun r _ => hc' r)
    (fun r _ i hi => by rw [(same r).1]; exact hJ i hi) (fun r _ i hi => by rw [(same r).1, (same r).2.1]; exact hK i hi) hD hδ.le
  refine (measure_mono fun w hw => ?_).trans (key.trans (ENNReal.ofReal_le_ofReal ?_))
  · rintro ⟨files, out, a1, a2, a3, a4⟩
    refine (show ¬ _ from hw) ⟨files, out, a1, a2, a3, fun i hi => ?_⟩
    obtain ⟨b1, b2, b3⟩ := a4 i hi
    refine ⟨b1, b2, fun k k1 k2 => ?_⟩
    have := b3 k k1 k2
    simp only [(same _).2.2, sum_const, card_univ, Fintype.card_fin, nsmul_eq_mul] at this
    rw [mul_div_cancel_left₀ _ m0.ne'] at this
    refine this.trans_le ?_
    have z : 0 ≤ logSize K D k := by
      have h1 := hK 0 (by omega)
      have h2 := hD 0
      have h3 := len_nonneg (J c 0)
      have h4 := len_nonneg (H0 c 0)
      have h5 := len_nonneg (drive conf 0)
      unfold logSize
      split_ifs <;> linarith
    nlinarith
  · rcases Nat.eq_zero_or_pos N with rfl | hN0
    · simp only [Nat.cast_zero, mul_zero, zero_mul]
      exact hε.le
    have N0 : (0 : ℝ) < N := by exact_mod_cast hN0
    rw [div_le_iff₀ (by positivity)] at hruns
    have h1 : Real.exp (-(m * δ ^ 2 / 2)) ≤ Real.exp (-Real.log (24 * N / ε)) := Real.exp_le_exp.2 (by linarith)
    rw [Real.exp_neg, Real.exp_neg, Real.exp_log (by positivity)] at h1
    rw [Real.exp_neg]
    refine (mul_le_mul_of_nonneg_left h1 (by positivity)).trans (le_of_eq ?_)
    field_simp

/-- C138: without disorder, so many runs give every entry to the accuracy `2 δ` of its size, with probability `1 - ε`. -/
theorem C138_runs (conf : Config ℝ) (L s : ℕ) (v : ValidConf conf L s) (hb : 0 < conf.beta) (hj : conf.jvar = 0) (hv : conf.hvar = 0)
    (hs : 2 ≤ s) (hsL : s ≤ L) (hL : 4 ≤ L)
    (hdt : 0 < conf.dt) (hlog : conf.log = true) (hst : conf.strob = false) (N : ℕ) (hN : StepsNeeded (-conf.t) conf.dt conf.t N)
    (hcap : ftoNat (conf.t / conf.dt) * 24 < 2 ^ 63) (m : ℕ) (hm : 1 ≤ m) (num : ℕ → ℕ) (zj zh : ℕ → ℕ → ℝ) (u0 z0 z0' : ℕ → ℝ) (n0 : ℕ)
    (c : SpinChain ℝ) (hc : SpinChain.new conf n0 u0 z0 z0' = .ok c) (hJ : ∀ i < 2 * (L / 2), J c i ≠ zero)
    (K D : ℝ) (hK : ∀ i < L, len (J c i) + len (H0 c i) ≤ K) (hD : ∀ t, len (drive conf t) ≤ D) (δ ε : ℝ) (hδ : 0 < δ) (hε : 0 < ε)
    (hbias : warmBias conf.beta K L warmup ≤ δ) (hruns : 2 * Real.log (24 * N / ε) / δ ^ 2 ≤ m) :
    runsLaw L warmup m {w | ¬ ∃ files out, ResponseLogsOf conf N num zj zh w files ∧ average conf files = .ok out ∧ out.length = N ∧
        ∀ i (h : i < out.length), out[i].length = 13 ∧ out[i].getD 0 0 = -conf.t + (i + 1 : ℕ) * conf.dt ∧
          ∀ k, 1 ≤ k → k < 13 →
            |out[i].getD k 0 - thermalMean c L (wholeEnergy L) (responded (i + 1) (logged k))| < 2 * δ * logSize K D k}
      ≤ ENNReal.ofReal ε :=
  response_runs rfl v hb hj hv hs hsL hL hdt hlog hst hN hcap hm hc hJ hK hD hδ hε hbias hruns

/-- non-vacuity: the default configuration without disorder, at a high temperature; 20000 runs give all 25600 lines to a tenth of
the size of their entries, with probability 99/100 -/
example : ∃ (conf : Config ℝ) (c : SpinChain ℝ), ValidConf conf 512 8 ∧ 0 < conf.beta ∧ conf.jvar = 0 ∧ conf.hvar = 0 ∧ 0 < conf.dt ∧
    conf.log = true ∧ conf.strob = false ∧ StepsNeeded (-conf.t) conf.dt conf.t 25600 ∧ ftoNat (conf.t / conf.dt) * 24 < 2 ^ 63 ∧
    SpinChain.new conf 0 (fun _ => 0) (fun _ => 0) (fun _ => 0) = .ok c ∧ (∀ i < 2 * (512 / 2), J c i ≠ zero) ∧
    (∀ k < 512, len (J c k) + len (H0 c k) ≤ 2) ∧ (∀ t, len (drive conf t) ≤ 1) ∧ warmBias conf.beta 2 512 warmup ≤ 1 / 20 ∧
    2 * Real.log (24 * (25600 : ℕ) / (1 / 100)) / (1 / 20) ^ 2 ≤ (20000 : ℕ) := by
  let conf : Config ℝ := { (Config.default : Config ℝ) with
    beta := 1 / 1000
    jvar := 0 }
  have v : ValidConf conf 512 8 := by constructor <;> first | rfl | norm_num
  obtain ⟨sp, hsp, -⟩ := newSpins_ok conf.beta (fun _ => (0 : ℝ)) 512
  have hc := new_eq v.hsize v.L_lt (show conf.hfield = 0.0 :: 0.0 :: 0.0 :: [] from rfl) (show conf.hs = 0.0 :: 0.0 :: 0.0 :: [] from rfl)
    v.jvar v.hvar 0 (fun _ => 0) (fun _ => 0) (fun _ => 0) hsp
  have i1 : ∀ k < 512, ((List.range 512).map (coupF conf.lambda conf.jvar (fun _ => (0 : ℝ))))[k]? = some (coupF conf.lambda conf.jvar (fun _ => (0 : ℝ)) k) := by
    intro k hk
    rw [List.getElem?_map, List.getElem?_range hk, Option.map_some]
  have i2 : ∀ k < 512, ((List.range 512).map (fieldN (0.0 : ℝ) 0.0 0.0 0.0 0.0 0.0 conf.hvar conf.ssize (fun _ => (0 : ℝ))))[k]?
      = some (fieldN (0.0 : ℝ) 0.0 0.0 0.0 0.0 0.0 conf.hvar conf.ssize (fun _ => (0 : ℝ)) k) := by
    intro k hk
    rw [List.getElem?_map, List.getElem?_range hk, Option.map_some]
  refine ⟨conf, _, v, by norm_num [conf], rfl, by norm_num [conf, Config.default], by norm_num [conf, Config.default], rfl, rfl, ⟨fun n hn => ?_, ?_⟩, ?_, hc,
    fun i hi => ?_, fun k hk => ?_, fun t => ?_, bias_small rfl, ?_⟩
  · have : (n : ℝ) < 25600 := by exact_mod_cast hn
    norm_num [conf, Config.default]
    linarith
  · norm_num [conf, Config.default]
  · have : ftoNat (conf.t / conf.dt) = 12800 := by
      norm_num [conf, Config.default, ftoNat]
    rw [this]
    norm_num
  · unfold J
    dsimp only
    rw [i1 i (by omega)]
    intro h
    have := congrArg V3.x h
    norm_num [coupF, conf, Config.default, zero] at this
  · have e1 : len (coupF conf.lambda conf.jvar (fun _ => (0 : ℝ)) k) ≤ 2 := by
      unfold len
      rw [Real.sqrt_le_left (by norm_num)]
      norm_num [coupF, dot, conf, Config.default]
    have e2 : len (fieldN (0.0 : ℝ) 0.0 0.0 0.0 0.0 0.0 conf.hvar conf.ssize (fun _ => (0 : ℝ)) k) = 0 := by
      unfold len
      rw [Real.sqrt_eq_zero']
      unfold fieldN
      split_ifs <;> norm_num [dot, conf, Config.default]
    unfold J H0
    dsimp only
    rw [i1 k hk, i2 k hk]
    show len (coupF conf.lambda conf.jvar (fun _ => (0 : ℝ)) k) + len (fieldN (0.0 : ℝ) 0.0 0.0 0.0 0.0 0.0 conf.hvar conf.ssize (fun _ => (0 : ℝ)) k) ≤ 2
    rw [e2]
    linarith
  · show len ⟨Real.cos _, Real.sin _, 0⟩ ≤ 1
    unfold len dot
    rw [Real.sqrt_le_left (by norm_num)]
    dsimp only
    nlinarith [Real.sin_sq_add_cos_sq (2 * Real.pi * t / conf.tau)]
  · have : Real.log (24 * (25600 : ℕ) / (1 / 100)) ≤ 20 := by
      rw [Real.log_le_iff_le_exp (by norm_num), show (20 : ℝ) = (20 : ℕ) * 1 by norm_num, Real.exp_nat_mul]
      have := pow_le_pow_left₀ (by norm_num) Real.exp_one_gt_d9.le 20
      norm_num at this ⊢
      linarith
    push_cast at this ⊢
    rw [div_le_iff₀ (by norm_num)]
    linarith

/-- without a drive the numbers of a log, apart from the time, do not depend on the time -/
theorem still_cols (hd : c.vars.drive = .none) (t : ℝ) (q : Fin L → V3 ℝ) {k : ℕ} (k1 : 1 ≤ k) :
    (logCols L s (withSpins { c with t } q)).getD k 0 = (logCols L s (withSpins c q)).getD k 0 := by
  obtain ⟨k, rfl⟩ : ∃ j, k = j + 1 := ⟨k - 1, by omega⟩
  have e1 : ∀ u, B (withSpins c q) s u = H0 (withSpins c q) := B_none hd
  have e2 : ∀ u, B (withSpins { c with t } q) s u = H0 (withSpins { c with t } q) := B_none hd
  unfold logCols
  rw [List.getD_cons_succ, List.getD_cons_succ, e1, e2]
  rfl

/-- C138, before time zero: without a drive, the mean of every entry of a row at a time that is not positive is the mean in
equilibrium, in the static fields. -/
theorem C138_waiting (c : SpinChain ℝ) (L s i : ℕ) (w : WF c L s) (hs : 2 ≤ s) (hsL : s ≤ L) (hL : 4 ≤ L) (he : L % 2 = 0)
    (hf : c.file.isSome = true) (hJ : ∀ i < L, J c i ≠ zero) (hd : c.vars.drive = .none) (hdt : 0 < c.vars.dt)
    (hi : -c.vars.t + i * c.vars.dt ≤ 0) (k : ℕ) (k1 : 1 ≤ k) (k2 : k < 13) :
    thermalMean c L (wholeEnergy L) (responded i (logged k)) = thermalMean c L (wholeEnergy L) (logged k) := by
  obtain ⟨m, hm, h0⟩ := negative_passes c.vars.t hdt
  have neg : ∀ j < i, -c.vars.t + j * c.vars.dt < 0 := fun j hj => by
    have : (j : ℝ) < i := by exact_mod_cast hj
    nlinarith
  set f : (Fin L → V3 ℝ) → ℝ := fun q => (logCols L s (withSpins c q)).getD k 0 with hfd
  obtain ⟨D, hD⟩ : ∃ D, len (drive c.vars c.t) ≤ D := ⟨_, le_rfl⟩
  have mf : Measurable f := by
    have b := log_bounded (L := L) (s := s) (K := ∑ i ∈ range L, (len (J c i) + len (H0 c i))) c hs hsL (fun i hi =>
      Finset.single_le_sum (f := fun i => len (J c i) + len (H0 c i)) (fun j _ => add_nonneg (len_nonneg _) (len_nonneg _)) (mem_range.2 hi)) hD k1 k2
    exact b.meas
  have key := C123_waiting { c with t := -c.vars.t } L s i 0 (clock_wf w _) hL he hJ hd hdt.le neg (.inl rfl) f mf
  rw [add_zero] at key
  have a1 : thermalMean c L (wholeEnergy L) (responded i (logged k))
      = thermalMean { c with t := -c.vars.t } L (wholeEnergy L) (afterPasses L i f) := by
    unfold thermalMean
    show _ / _ = _ / _
    congr 1
    refine integral_congr_ae ?_
    filter_upwards [calm_ae w hL (fun i hi => hJ i (by omega)) m] with q hq
    have e1 : afterPasses L i f (withSpins { c with t := -c.vars.t } q) = responded i (logged k) (withSpins c q) := by
      rw [responded_calm w (by omega) hdt.le hm h0 hq i, logged_cols (withSpins_wf (clock_wf w _) _) (by omega) hsL hf k, still_cols hd _ _ k1]
      unfold afterPasses
      rw [(passes_calm w (by omega) hdt.le hm h0 hq i).2]
      dsimp only
      rw [spins_withSpins]
    rw [e1]
    rfl
  rw [a1, key]
  unfold thermalMean
  show _ / _ = _ / _
  congr 1
  refine integral_congr_ae (.of_forall fun q => ?_)
  dsimp only
  rw [logged_cols (withSpins_wf w _) (by omega) hsL hf k]
  unfold afterPasses passes
  dsimp only
  rw [spins_withSpins]
  rfl

/-- C138, after time zero: without a drive, the mean of a column of magnetisations in a row after time zero changes with the strength
`a` of the static fields at the rate of `-beta` times the covariance, in equilibrium, of the column and the energy in these
fields at time zero. -/
theorem C138_response (c : SpinChain ℝ) (L s m j : ℕ) (w : WF c L s) (hs : 2 ≤ s) (hsL : s ≤ L) (hL : 4 ≤ L) (he : L % 2 = 0)
    (hf : c.file.isSome = true) (hJ : ∀ i < L, J c i ≠ zero) (hd : c.vars.drive = .none) (hdt : 0 < c.vars.dt)
    (hm : StepsNeeded (-c.vars.t) c.vars.dt 0 m) (k : ℕ) (k1 : 3 ≤ k) (k2 : k < 13) (d : SpinChain ℝ)
    (hdd : d = { c with t := -c.vars.t + m * c.vars.dt }) (a : ℝ) :
    HasDerivAt (fun a => thermalMean (inField c a) L (wholeEnergy L) (responded (m + j) (logged k)))
      (-(c.vars.beta * thermalCov (inField d a) L (wholeEnergy L) (afterPasses L j fun q => logged k (withSpins c q))
        (fun x => coupled c L fun i => S x i))) a := by
  have e0 : (fun q : Fin L → V3 ℝ => logged k (withSpins c q)) = fun q => (logCols L s (withSpins c q)).getD k 0 := by
    funext q
    exact logged_cols (withSpins_wf w _) (by omega) hsL hf k
  rw [e0]
  set f : (Fin L → V3 ℝ) → ℝ := fun q => (logCols L s (withSpins c q)).getD k 0 with hfd
  have b := log_bounded (L := L) (s := s) (K := ∑ i ∈ range L, (len (J c i) + len (H0 c i))) c hs hsL (fun i hi =>
      Finset.single_le_sum (f := fun i => len (J c i) + len (H0 c i)) (fun j _ => add_nonneg (len_nonneg _) (len_nonneg _)) (mem_range.2 hi)) le_rfl
      (k := k) (by omega) k2
  have key := C123_run { c with t := -c.vars.t } L s m j (clock_wf w _) hL he hJ hd hdt.le hm.1 hm.2 f b.meas _ b.bound d hdd a
  refine HasDerivAt.congr_deriv (HasDerivAt.congr_of_eventuallyEq key (.of_forall fun a => ?_)) ?_
  · unfold thermalMean
    show _ / _ = _ / _
    congr 1
    refine integral_congr_ae ?_
    filter_upwards [calm_ae (inField_wf w a) hL (fun i hi => hJ i (by omega)) m] with q hq
    have e1 : afterPasses L (m + j) f (withSpins (inField { c with t := -c.vars.t } a) q) = responded (m + j) (logged k) (withSpins (inField c a) q) := by
      rw [responded_calm (inField_wf w a) (by omega) hdt.le hm.1 hm.2 hq,
        logged_cols (withSpins_wf (clock_wf (inField_wf w a) _) _) (by omega) hsL hf k]
      have := (passes_calm (inField_wf w a) (by omega) hdt.le hm.1 hm.2 hq (m + j)).2
      unfold afterPasses
      rw [show withSpins (inField { c with t := -c.vars.t } a) q = withSpins { inField c a with t := -(inField c a).vars.t } q from rfl, this]
      dsimp only
      rw [spins_withSpins]
      obtain ⟨k, rfl⟩ : ∃ i, k = i + 3 := ⟨k - 3, by omega⟩
      rfl
    rw [e1]
    rfl
  · rfl

/-- non-vacuity: an undriven chain of four sites in fields, 12800 passes before time zero -/
example : ∃ c : SpinChain ℝ, WF c 4 2 ∧ c.file.isSome = true ∧ (∀ i < 4, J c i ≠ zero) ∧ c.vars.drive = .none ∧ 0 < c.vars.dt ∧
    StepsNeeded (-c.vars.t) c.vars.dt 0 12800 ∧ -c.vars.t + (5 : ℕ) * c.vars.dt ≤ 0 ∧ 0 < c.vars.beta ∧ H0 c 1 ≠ zero := by
  refine ⟨demoRest, demoRest_wf, rfl, demo_bonds, rfl, by norm_num [demoRest, demoVars], ⟨fun n hn => ?_, ?_⟩, ?_, ?_, fun h => ?_⟩
  · have : (n : ℝ) < 12800 := by exact_mod_cast hn
    norm_num [demoRest, demoVars, Config.default]
    linarith
  · norm_num [demoRest, demoVars, Config.default]
  · norm_num [demoRest, demoVars, Config.default]
  · norm_num [demoRest, demoVars]
  · have := congrArg V3.x h
    norm_num [H0, demoRest, demo, zero] at this

end

end Verif.Props
