/-
C56, C57, C61, C65, C66, C72, C73: the course of the simulation drivers.
-/
import Verif.Lemmas.Runs
import Verif.Props.Demo
import Verif.Instances.XF

namespace Verif.Props

open Spec Finset

variable {L s : ℕ}

/-- The course of `run_sim` for one chain, whatever the decisions `b i` whether to log step `i`. -/
theorem sim_job (c : SpinChain ℝ) (w : WF c L s) (hL : 2 ≤ L) (hs : 1 ≤ s) (hsL : s ≤ L)
    (hdt : 0 < c.vars.dt) (hf : c.file.isSome) (ds : ℕ → Draw ℝ) :
    ∃ c0 N chain, ∃ row : ℕ → List ℝ,
      sweeps SpinChain.metropolis_update ds warmup c = .ok c0 ∧ c0.vars = c.vars ∧ c0.t = c.t ∧
      Course SpinChain.update c0 L s N chain ∧
      (∀ i, (chain i).log = .ok (some (row i)) ∧ (row i).length = 13 ∧
        (row i).head? = some (c.t + i * c.vars.dt)) ∧
      ∀ b : ℕ → Bool, (∀ i, i < N → strobHit c.vars.strob (ftoNat (c.vars.tau / c.vars.dt))
          ((c.t + (i + 1 : ℕ) * c.vars.dt) / c.vars.dt) = .ok (b (i + 1))) →
        simJob c ds N = .ok (some ⟨chain N, N,
          ((List.range (N + 1)).filter fun i => i == 0 || b i).map row⟩) ∧
        ∀ n, n ≠ N → simJob c ds n = .ok none := by
  obtain ⟨c0, h1, w0, hv, ht, hff, -, -⟩ := warm_ok w hL ds warmup
  obtain ⟨N, chain, k⟩ := update_course w0 hL (by rw [hv]; exact hdt)
  obtain ⟨row, hrow⟩ := k.logs hs hsL
  rw [hff] at hrow
  simp only [hf, if_true] at hrow
  have hlr : ∀ i, logRow (chain i) = .ok [row i] := by
    intro i
    unfold logRow
    rw [(hrow i).1]
    rfl
  refine ⟨c0, N, chain, row, h1, hv, ht, k, ?_, ?_⟩
  · intro i
    refine ⟨(hrow i).1, (hrow i).2.1, ?_⟩
    rw [(hrow i).2.2, k.time, ht, hv]
  · intro b hb
    have key := whileN_run (upd := fun _ c => SpinChain.update c)
      (hit := fun c => strobHit c.vars.strob (ftoNat (c0.vars.tau / c0.vars.dt)) (c.t / c.vars.dt))
      (row := logRow) (g := fun c : SpinChain ℝ => flt c.t c.vars.t) (chain := chain) (b := b)
      (rs := fun i => [row i]) (N := N) (fun i _ => k.step i) (fun i hi => k.guard_lt hi) k.guard_end
      (fun i hi => by
        rw [k.vars, k.time, hv, ht]
        exact hb i hi) (fun i _ _ => hlr (i + 1)) [row 0]
    rw [← written_map]
    have hjob : ∀ n, simJob c ds n = whileN runGuard (simPass (ftoNat (c0.vars.tau / c0.vars.dt))) n
        ⟨chain 0, 0, [row 0]⟩ := by
      intro n
      unfold simJob
      simp only [h1, ok_bind, ← k.zero, hlr]
    refine ⟨?_, fun n hn => ?_⟩
    · rw [hjob]; exact key.1
    · rw [hjob]; exact key.2 n hn

/-! ### C56: number of steps and rows -/

/-- `run_sim` without stroboscopic logging: the loop makes exactly `N` passes, the least number that
leads from `-trel` to `t`, and `N + 1` rows are written, row `i` being the log of the chain after
`i` updates and carrying the time `-trel + i dt`. -/
theorem C56_run_sim (conf : Config ℝ) (v : ValidConf conf L s) (hs : 1 ≤ s) (hsL : s ≤ L)
    (hdt : 0 < conf.dt) (hlog : conf.log = true) (hst : conf.strob = false)
    (num : ℕ) (u zj zh : ℕ → ℝ) (ds : ℕ → Draw ℝ) :
    ∃ (c c0 : SpinChain ℝ) (N : ℕ) (chain : ℕ → SpinChain ℝ) (rows : List (List ℝ)),
      SpinChain.new conf num u zj zh = .ok c ∧
      sweeps SpinChain.metropolis_update ds warmup c = .ok c0 ∧
      StepsNeeded (-conf.trel) conf.dt conf.t N ∧
      chain 0 = c0 ∧ (∀ i, SpinChain.update (chain i) = .ok (chain (i + 1))) ∧
      simJob c ds N = .ok (some ⟨chain N, N, rows⟩) ∧ (∀ n, n ≠ N → simJob c ds n = .ok none) ∧
      rows.length = N + 1 ∧
      ∀ i (h : i < rows.length), (chain i).log = .ok (some rows[i]) ∧ rows[i].length = 13 ∧
        rows[i].head? = some (-conf.trel + i * conf.dt) := by
  obtain ⟨c, h1, w, ht, hv, hfile, -⟩ := valid_new v num u zj zh
  obtain ⟨c0, N, chain, row, h2, hv0, ht0, k, hrow, hjob⟩ := sim_job c w v.L_two hs hsL
    (by rw [hv]; exact hdt) (by rw [hfile hlog]; rfl) ds
  obtain ⟨hj1, hj2⟩ := hjob (fun _ => true) (fun i _ => by rw [hv, hst]; rfl)
  simp only [Bool.or_true, List.filter_true] at hj1
  refine ⟨c, c0, N, chain, (List.range (N + 1)).map row, h1, h2, ?_, k.zero, k.step, hj1, hj2,
    by simp, ?_⟩
  · have := k.steps
    rwa [hv0, ht0, hv, ht] at this
  · intro i hi
    simp only [List.getElem_map, List.getElem_range]
    rw [← ht, ← hv]
    exact hrow i

/-- With a non-positive step the loop never ends (unless the end is not after the start). -/
theorem C56_never_ends (conf : Config ℝ) (v : ValidConf conf L s) (hs : 1 ≤ s) (hsL : s ≤ L)
    (hdt : conf.dt ≤ 0) (ht : -conf.trel < conf.t) (hst : conf.strob = false)
    (num : ℕ) (u zj zh : ℕ → ℝ) (ds : ℕ → Draw ℝ) :
    ∃ c, SpinChain.new conf num u zj zh = .ok c ∧ ∀ n, simJob c ds n = .ok none := by
  obtain ⟨c, h1, w, htc, hv, -, -⟩ := valid_new v num u zj zh
  obtain ⟨c0, h2, w0, hv0, ht0, hf0, -, -⟩ := warm_ok w v.L_two ds warmup
  refine ⟨c, h1, fun n => ?_⟩
  have hlog : ∀ d : SpinChain ℝ, WF d L s → ∃ r, logRow d = .ok r := by
    intro d wd
    obtain ⟨row, hr, -⟩ := C42_log_row d L s wd hs hsL
    exact ⟨_, by unfold logRow; rw [hr]; rfl⟩
  obtain ⟨r0, hr0⟩ := hlog c0 w0
  unfold simJob
  simp only [h2, ok_bind, hr0]
  apply whileN_never (Inv := fun st : RunState (SpinChain ℝ) (List ℝ) =>
    WF st.chain L s ∧ st.chain.vars = conf ∧ st.chain.t < conf.t)
  · rintro ⟨d, k, rows⟩ ⟨wd, hvd, htd⟩
    refine ⟨by simp only [runGuard, flt_real, decide_eq_true_eq]; rw [hvd]; exact htd, ?_⟩
    obtain ⟨d', hd'⟩ := C25_update_total d L s 1 wd v.L_two
    have hd1 : d.update = .ok d' := by rw [← updates_one]; exact hd'
    have hf := C25_update_frame d d' 1 hd'
    obtain ⟨r, hr⟩ := hlog d' (updates_wf wd hd')
    refine ⟨_, runPass_eq (b := true) hd1 (by rw [hf.2.2.1, hvd, hst]; rfl) (fun _ => hr), updates_wf wd hd',
      by rw [hf.2.2.1, hvd], ?_⟩
    have := C25_time d d' 1 hd'
    rw [hvd] at this
    push_cast at this
    show d'.t < conf.t
    linarith
  · exact ⟨w0, by rw [hv0, hv], by rw [ht0, htc]; exact ht⟩

/-! ### C57: stroboscopic logging -/

open Classical in
/-- Stroboscopic logging when both the drive period and the relaxation time are whole numbers of
steps: the first row, the rows of all times up to zero, and the rows of whole periods. -/
theorem C57_rows (conf : Config ℝ) (v : ValidConf conf L s) (hs : 1 ≤ s) (hsL : s ≤ L)
    (hdt : 0 < conf.dt) (hlog : conf.log = true) (hst : conf.strob = true) (P : ℕ) (m : ℤ)
    (hP : 1 ≤ P) (hP' : P < 2 ^ 64) (htau : conf.tau = P * conf.dt) (hrel : conf.trel = m * conf.dt)
    (hT : conf.t ≤ 2 ^ 63 * conf.dt)
    (num : ℕ) (u zj zh : ℕ → ℝ) (ds : ℕ → Draw ℝ) :
    ∃ (c c0 : SpinChain ℝ) (N : ℕ) (chain : ℕ → SpinChain ℝ) (row : ℕ → List ℝ),
      SpinChain.new conf num u zj zh = .ok c ∧
      sweeps SpinChain.metropolis_update ds warmup c = .ok c0 ∧
      StepsNeeded (-conf.trel) conf.dt conf.t N ∧
      chain 0 = c0 ∧ (∀ i, SpinChain.update (chain i) = .ok (chain (i + 1))) ∧
      (∀ i, (chain i).log = .ok (some (row i)) ∧ (row i).head? = some (-conf.trel + i * conf.dt)) ∧
      simJob c ds N = .ok (some ⟨chain N, N,
        ((List.range (N + 1)).filter fun i : ℕ => i = 0 ∨ -conf.trel + i * conf.dt ≤ 0 ∨
          WholePeriods conf.tau (-conf.trel + i * conf.dt)).map row⟩) := by
  obtain ⟨c, h1, w, ht, hv, hfile, -⟩ := valid_new v num u zj zh
  obtain ⟨c0, N, chain, row, h2, hv0, ht0, k, hrow, hjob⟩ := sim_job c w v.L_two hs hsL
    (by rw [hv]; exact hdt) (by rw [hfile hlog]; rfl) ds
  have hsteps : StepsNeeded (-conf.trel) conf.dt conf.t N := by
    have := k.steps
    rwa [hv0, ht0, hv, ht] at this
  obtain ⟨hj1, -⟩ := hjob (fun i : ℕ => decide (-conf.trel + i * conf.dt ≤ 0 ∨
          WholePeriods conf.tau (-conf.trel + i * conf.dt))) (fun i hi => by
    have hP0 : conf.tau / conf.dt = (P : ℝ) := by rw [htau]; field_simp
    have h3 := hsteps.1 i hi
    rw [hv, hst, ht, hP0, htau]
    refine strob_whole (m := m) hdt hP hP' (by rw [hrel]) ?_
    push_cast
    have : conf.dt ≤ 2 ^ 63 * conf.dt := by nlinarith
    nlinarith)
  refine ⟨c, c0, N, chain, row, h1, h2, hsteps, k.zero, k.step,
    fun i => ⟨(hrow i).1, by rw [(hrow i).2.2, ht, hv]⟩, ?_⟩
  rw [hj1]
  congr 5
  funext i
  rw [Bool.eq_iff_iff]
  simp

open Classical in
/-- **Stroboscopic logging, partial**: in exact arithmetic, with the drive period a whole number of
steps and no relaxation period, exactly the whole periods are logged (and the initial state).
Missing: relaxation periods (`C57_negation_relaxation`), periods that are not a whole number of
steps (`C57_floor`, `C57_negation_ratio`) and rounding (`C57_negation_binary64`). -/
theorem C57_strob_partial (conf : Config ℝ) (v : ValidConf conf L s) (hs : 1 ≤ s) (hsL : s ≤ L)
    (hdt : 0 < conf.dt) (hlog : conf.log = true) (hst : conf.strob = true) (P : ℕ) (m : ℕ)
    (hP : 1 ≤ P) (hP' : P < 2 ^ 64) (htau : conf.tau = P * conf.dt)
    (hrel : conf.trel = -(m * conf.dt)) (hT : conf.t ≤ 2 ^ 63 * conf.dt)
    (num : ℕ) (u zj zh : ℕ → ℝ) (ds : ℕ → Draw ℝ) :
    ∃ (c c0 : SpinChain ℝ) (N : ℕ) (chain : ℕ → SpinChain ℝ) (row : ℕ → List ℝ),
      SpinChain.new conf num u zj zh = .ok c ∧
      sweeps SpinChain.metropolis_update ds warmup c = .ok c0 ∧
      StepsNeeded (-conf.trel) conf.dt conf.t N ∧
      chain 0 = c0 ∧ (∀ i, SpinChain.update (chain i) = .ok (chain (i + 1))) ∧
      (∀ i, (chain i).log = .ok (some (row i)) ∧ (row i).head? = some (-conf.trel + i * conf.dt)) ∧
      simJob c ds N = .ok (some ⟨chain N, N,
        ((List.range (N + 1)).filter fun i : ℕ => i = 0 ∨
          WholePeriods conf.tau (-conf.trel + i * conf.dt)).map row⟩) := by
  obtain ⟨c, c0, N, chain, row, h1, h2, h3, h4, h5, h6, h7⟩ := C57_rows conf v hs hsL hdt hlog hst P
    (-m : ℤ) hP hP' htau (by rw [hrel]; push_cast; ring) hT num u zj zh ds
  refine ⟨c, c0, N, chain, row, h1, h2, h3, h4, h5, h6, ?_⟩
  rw [h7]
  congr 5
  funext i
  rw [Bool.eq_iff_iff, decide_eq_true_iff, decide_eq_true_iff]
  constructor
  · rintro (h | h | h)
    · exact Or.inl h
    · left
      rw [hrel, neg_neg] at h
      have h1 : ((m + i : ℕ) : ℝ) * conf.dt ≤ 0 := by push_cast; linarith
      by_contra h0
      have h2 : 0 < ((m + i : ℕ) : ℝ) := by exact_mod_cast (by omega : 0 < m + i)
      exact absurd (mul_pos h2 hdt) (not_lt.mpr h1)
    · exact Or.inr h
  · rintro (h | h)
    · exact Or.inl h
    · exact Or.inr (Or.inr h)

/-- Without a relaxation period, and whatever the ratio of period and step, the rows are
`⌊tau / dt⌋` steps apart. -/
theorem C57_floor (conf : Config ℝ) (v : ValidConf conf L s) (hs : 1 ≤ s) (hsL : s ≤ L)
    (hdt : 0 < conf.dt) (hlog : conf.log = true) (hst : conf.strob = true)
    (hP : conf.dt ≤ conf.tau) (hP' : conf.tau < 2 ^ 63 * conf.dt) (hrel : conf.trel = 0)
    (hT : conf.t ≤ 2 ^ 63 * conf.dt) (num : ℕ) (u zj zh : ℕ → ℝ) (ds : ℕ → Draw ℝ) :
    ∃ (c c0 : SpinChain ℝ) (N : ℕ) (chain : ℕ → SpinChain ℝ) (row : ℕ → List ℝ),
      SpinChain.new conf num u zj zh = .ok c ∧
      sweeps SpinChain.metropolis_update ds warmup c = .ok c0 ∧
      StepsNeeded 0 conf.dt conf.t N ∧
      chain 0 = c0 ∧ (∀ i, SpinChain.update (chain i) = .ok (chain (i + 1))) ∧
      (∀ i, (chain i).log = .ok (some (row i)) ∧ (row i).head? = some (i * conf.dt)) ∧
      simJob c ds N = .ok (some ⟨chain N, N,
        ((List.range (N + 1)).filter fun i : ℕ => ⌊conf.tau / conf.dt⌋₊ ∣ i).map row⟩) := by
  obtain ⟨c, h1, w, ht, hv, hfile, -⟩ := valid_new v num u zj zh
  obtain ⟨c0, N, chain, row, h2, hv0, ht0, k, hrow, hjob⟩ := sim_job c w v.L_two hs hsL
    (by rw [hv]; exact hdt) (by rw [hfile hlog]; rfl) ds
  rw [hrel, neg_zero] at ht
  have hsteps : StepsNeeded 0 conf.dt conf.t N := by
    have := k.steps
    rwa [hv0, ht0, hv, ht] at this
  obtain ⟨P, hPe⟩ : ∃ P, P = ⌊conf.tau / conf.dt⌋₊ := ⟨_, rfl⟩
  have hP1 : 1 ≤ P := by
    rw [hPe, Nat.one_le_floor_iff, one_le_div hdt]
    exact hP
  have hP2 : P < 2 ^ 64 := by
    have h3 : (P : ℝ) < 2 ^ 63 := by
      rw [hPe]
      refine lt_of_le_of_lt (Nat.floor_le (div_nonneg (hdt.le.trans hP) hdt.le)) ?_
      rw [div_lt_iff₀ hdt]
      exact hP'
    have h5 : P < 2 ^ 63 := by exact_mod_cast h3
    omega
  obtain ⟨hj1, -⟩ := hjob (fun i : ℕ => decide (P ∣ i)) (fun i hi => by
    rw [hv, hst, ht]
    have h3 : (0 + ((i + 1 : ℕ) : ℝ) * conf.dt) / conf.dt = ((i + 1 : ℕ) : ℝ) := by
      field_simp
      ring
    have h4 : ftoNat (conf.tau / conf.dt) = ftoNat (P : ℝ) := by
      simp only [ftoNat_real, Nat.floor_natCast, hPe]
    rw [h3, h4, strob_nat hP1 hP2]
    have h5 := hsteps.1 i hi
    have h6 : (i : ℝ) < 2 ^ 63 := by
      rw [← mul_lt_mul_iff_left₀ hdt]
      linarith
    have h7 : i < 2 ^ 63 := by exact_mod_cast h6
    omega)
  refine ⟨c, c0, N, chain, row, h1, h2, hsteps, k.zero, k.step,
    fun i => ⟨(hrow i).1, by rw [(hrow i).2.2, ht, hv, zero_add]⟩, ?_⟩
  rw [hj1, ← hPe]
  congr 5
  funext i
  rw [Bool.eq_iff_iff]
  simp only [Bool.or_eq_true, beq_iff_eq, decide_eq_true_iff]
  constructor
  · rintro (rfl | h)
    · exact dvd_zero _
    · exact h
  · exact Or.inr

/-- A period shorter than a step: the job panics in its first pass. -/
theorem C57_short_period_panics (conf : Config ℝ) (v : ValidConf conf L s) (hs : 1 ≤ s) (hsL : s ≤ L)
    (hdt : 0 < conf.dt) (hst : conf.strob = true) (hP : conf.tau < conf.dt)
    (hT : -conf.trel < conf.t) (num : ℕ) (u zj zh : ℕ → ℝ) (ds : ℕ → Draw ℝ) :
    ∃ c, SpinChain.new conf num u zj zh = .ok c ∧
      ∀ n, 1 ≤ n → simJob c ds n = .error .divZero := by
  obtain ⟨c, h1, w, ht, hv, hfile, -⟩ := valid_new v num u zj zh
  obtain ⟨c0, h2, w0, hv0, ht0, hf0, -, -⟩ := warm_ok w v.L_two ds warmup
  refine ⟨c, h1, fun n hn => ?_⟩
  obtain ⟨row, hr, -⟩ := C42_log_row c0 L s w0 hs hsL
  obtain ⟨n, rfl⟩ : ∃ k, n = k + 1 := ⟨n - 1, by omega⟩
  obtain ⟨d, hd⟩ := C25_update_total c0 L s 1 w0 v.L_two
  rw [updates_one] at hd
  have hg : flt c0.t c0.vars.t = true := by
    simp only [flt_real, decide_eq_true_eq]
    rw [ht0, ht, hv0, hv]
    exact hT
  have hdv : d.vars = conf := by
    rw [(C25_update_frame c0 d 1 (by rw [updates_one]; exact hd)).2.2.1, hv0, hv]
  have hts : ftoNat (c0.vars.tau / c0.vars.dt) = 0 := by
    rw [hv0, hv]
    simp only [ftoNat_real]
    rw [Nat.floor_eq_zero.mpr (by rw [div_lt_one hdt]; exact hP)]
    rfl
  unfold simJob logRow
  simp only [h2, ok_bind, hr]
  simp only [pure, Except.pure, ok_bind, whileN, runGuard, hg, if_true, simPass, runPass, hd, hts]
  rw [hdv, hst]
  rfl

/-- the default configuration with stroboscopic logging: 500 steps to a period -/
noncomputable def strobConf : Config ℝ := { (Config.default : Config ℝ) with strob := true }

theorem strobConf_valid : ValidConf strobConf 512 8 := by
  constructor <;> simp [strobConf, Config.default]

example : ValidConf strobConf 512 8 ∧ 0 < strobConf.dt ∧ strobConf.log = true ∧
    strobConf.strob = true ∧ strobConf.tau = (500 : ℕ) * strobConf.dt ∧
    strobConf.trel = -((0 : ℕ) * strobConf.dt) ∧ strobConf.t ≤ 2 ^ 63 * strobConf.dt :=
  ⟨strobConf_valid, by norm_num [strobConf, Config.default], rfl, rfl,
    by norm_num [strobConf, Config.default], by norm_num [strobConf, Config.default],
    by norm_num [strobConf, Config.default]⟩

example : ValidConf (Config.default : Config ℝ) 512 8 ∧ 0 < (Config.default : Config ℝ).dt ∧
    (Config.default : Config ℝ).log = true ∧ (Config.default : Config ℝ).strob = false :=
  ⟨by constructor <;> simp [Config.default], by norm_num [Config.default], rfl, rfl⟩

/-- With a relaxation period rows are written at other times than whole periods: all steps of the
relaxation are logged, because `as u64` turns negative numbers into zero. -/
theorem C57_negation_relaxation : ∃ conf : Config ℝ, ValidConf conf 512 8 ∧ conf.strob = true ∧
    conf.tau = 500 * conf.dt ∧ conf.trel = 50 * conf.dt ∧
    ∀ (num : ℕ) (u zj zh : ℕ → ℝ) (ds : ℕ → Draw ℝ), ∃ c N st,
      SpinChain.new conf num u zj zh = .ok c ∧ simJob c ds N = .ok (some st) ∧
      ∃ r ∈ st.rows, ∃ t, r.head? = some t ∧ t ≠ -conf.trel ∧ ¬ WholePeriods conf.tau t := by
  classical
  obtain ⟨conf, hc⟩ : ∃ conf, conf = { strobConf with trel := 1 } := ⟨_, rfl⟩
  have hdt : conf.dt = 0.02 := by rw [hc]; rfl
  have htau : conf.tau = 10 := by rw [hc]; norm_num [strobConf, Config.default]
  have hrel : conf.trel = 1 := by rw [hc]
  have hT : conf.t = 256 := by rw [hc]; norm_num [strobConf, Config.default]
  have v : ValidConf conf 512 8 := by
    rw [hc]; constructor <;> simp [strobConf, Config.default]
  refine ⟨conf, v, by rw [hc]; rfl, by rw [hdt, htau]; norm_num, by rw [hdt, hrel]; norm_num, ?_⟩
  intro num u zj zh ds
  obtain ⟨c, c0, N, chain, row, h1, h2, h3, h4, h5, h6, h7⟩ := C57_rows conf v (by norm_num)
    (by norm_num) (by rw [hdt]; norm_num) (by rw [hc]; rfl) (by rw [hc]; rfl) 500 50 (by norm_num)
    (by norm_num) (by rw [hdt, htau]; norm_num) (by rw [hdt, hrel]; norm_num)
    (by rw [hdt, hT]; norm_num) num u zj zh ds
  have hN : 1 ≤ N := by
    by_contra h
    have hN : N = 0 := by omega
    have := h3.2
    rw [hN, hrel, hdt, hT] at this
    norm_num at this
  refine ⟨c, N, _, h1, h7, row 1, ?_, -0.98, ?_, ?_, ?_⟩
  · refine List.mem_map.mpr ⟨1, List.mem_filter.mpr ⟨List.mem_range.mpr (by omega), ?_⟩, rfl⟩
    rw [decide_eq_true_iff]
    right; left
    rw [hrel, hdt]
    norm_num
  · rw [(h6 1).2, hrel, hdt]
    norm_num
  · rw [hrel]
    norm_num
  · rintro ⟨q, hq⟩
    rw [htau] at hq
    have h8 : (q : ℝ) * 1000 = -98 := by linarith
    have h9 : q * 1000 = -98 := by exact_mod_cast h8
    omega

/-- With a period that is not a whole number of steps the rows drift away from the periods. -/
theorem C57_negation_ratio : ∃ conf : Config ℝ, ValidConf conf 512 8 ∧ conf.strob = true ∧
    conf.trel = 0 ∧ conf.dt = 0.3 ∧ conf.tau = 1 ∧
    ∀ (num : ℕ) (u zj zh : ℕ → ℝ) (ds : ℕ → Draw ℝ), ∃ c N st,
      SpinChain.new conf num u zj zh = .ok c ∧ simJob c ds N = .ok (some st) ∧
      (∃ r ∈ st.rows, r.head? = some 1.8) ∧ ¬ WholePeriods conf.tau 1.8 := by
  obtain ⟨conf, hc⟩ : ∃ conf : Config ℝ, conf = { strobConf with
    dt := 0.3
    tau := 1 } := ⟨_, rfl⟩
  have hdt : conf.dt = 0.3 := by rw [hc]
  have htau : conf.tau = 1 := by rw [hc]
  have hrel : conf.trel = 0 := by rw [hc]; norm_num [strobConf, Config.default]
  have hT : conf.t = 256 := by rw [hc]; norm_num [strobConf, Config.default]
  have v : ValidConf conf 512 8 := by
    rw [hc]; constructor <;> simp [strobConf, Config.default]
  refine ⟨conf, v, by rw [hc]; rfl, hrel, hdt, htau, ?_⟩
  intro num u zj zh ds
  obtain ⟨c, c0, N, chain, row, h1, h2, h3, h4, h5, h6, h7⟩ := C57_floor conf v (by norm_num)
    (by norm_num) (by rw [hdt]; norm_num) (by rw [hc]; rfl) (by rw [hc]; rfl)
    (by rw [hdt, htau]; norm_num) (by rw [hdt, htau]; norm_num) hrel
    (by rw [hdt, hT]; norm_num) num u zj zh ds
  have hN : 6 ≤ N := by
    by_contra h
    have hN : N ≤ 5 := by omega
    have h8 := h3.2
    have h9 : (N : ℝ) ≤ 5 := by exact_mod_cast hN
    rw [hdt, hT] at h8
    norm_num at h8
    linarith
  refine ⟨c, N, _, h1, h7, ⟨row 6, ?_, ?_⟩, ?_⟩
  · refine List.mem_map.mpr ⟨6, List.mem_filter.mpr ⟨List.mem_range.mpr (by omega), ?_⟩, rfl⟩
    rw [decide_eq_true_iff, hdt, htau]
    have : ⌊(1 : ℝ) / 0.3⌋₊ = 3 := by
      rw [Nat.floor_eq_iff (by norm_num)]
      norm_num
    rw [this]
    norm_num
  · rw [(h6 6).2, hdt]
    norm_num
  · rintro ⟨q, hq⟩
    rw [htau] at hq
    have h8 : (q : ℝ) * 10 = 18 := by linarith
    have h9 : q * 10 = 18 := by exact_mod_cast h8
    omega

end Verif.Props
