/-
C56, C57 for `run_ext` and `run_langevin`, C75 for `run_sim_response`, C66 for `run_tau`.
-/
import Verif.Props.Runs
import Verif.Props.Sites
import Verif.Props.Langevin

namespace Verif.Props

open Spec Finset

variable {L s : ℕ}

theorem filter_head {α : Type} (b : ℕ → Bool) (r : ℕ → α) (N : ℕ) :
    ((List.range (N + 1)).filter fun i => i == 0 || b i).map r
      = r 0 :: ((List.range' 1 N).filter b).map r := by
  rw [List.range_eq_range', List.range'_succ, List.filter_cons, if_pos (by simp), List.map_cons]
  congr 2
  apply List.filter_congr
  intro i hi
  rw [List.mem_range'_1] at hi
  have : (i == 0) = false := by simp; omega
  rw [this, Bool.false_or]

/-! ### `run_ext` -/

/-- What `run_ext` writes for one time. -/
noncomputable def extBlock (L s : ℕ) (c : SpinChain ℝ) : ExtBlock ℝ :=
  .inr ((List.range' 1 (min s (L - 1) - 1)).map (siteRow c s))

/-- The course of `run_ext` for one chain, whatever the decisions `b i` whether to log step `i`. -/
theorem ext_job (c : SpinChain ℝ) (w : WF c L s) (hL : 2 ≤ L) (hs : 1 ≤ s) (hsL : s ≤ L)
    (hdt : 0 < c.vars.dt) (hf : c.file.isSome) (ds : ℕ → Draw ℝ) :
    ∃ (c0 : SpinChain ℝ) (N : ℕ) (chain : ℕ → SpinChain ℝ) (first : List ℝ),
      sweeps SpinChain.metropolis_update ds warmup c = .ok c0 ∧ c0.vars = c.vars ∧ c0.t = c.t ∧
      Course SpinChain.update c0 L s N chain ∧ c0.log = .ok (some first) ∧
      ∀ b : ℕ → Bool, (∀ i, i < N → strobHit c.vars.strob (ftoNat (c.vars.tau / c.vars.dt))
          ((c.t + (i + 1 : ℕ) * c.vars.dt) / c.vars.dt) = .ok (b (i + 1))) →
        extJob c ds N = .ok (some ⟨chain N, N,
          .inl first :: ((List.range' 1 N).filter b).map fun i => extBlock L s (chain i)⟩) ∧
        ∀ n, n ≠ N → extJob c ds n = .ok none := by
  obtain ⟨c0, h1, w0, hv, ht, hff, -, -⟩ := warm_ok w hL ds warmup
  obtain ⟨N, chain, k⟩ := update_course w0 hL (by rw [hv]; exact hdt)
  obtain ⟨first, hfirst, -⟩ := C42_log_row c0 L s w0 hs hsL
  rw [hff, hf, if_pos rfl] at hfirst
  refine ⟨c0, N, chain, first, h1, hv, ht, k, hfirst, fun b hb => ?_⟩
  have key := k.run (hit := fun c => strobHit c.vars.strob (ftoNat (c0.vars.tau / c0.vars.dt))
      (c.t / c.vars.dt)) (row := extRows) (b := b)
      (r := fun i => if i = 0 then .inl first else extBlock L s (chain i))
      (fun i hi => by
        rw [k.vars, k.time, hv, ht]
        exact hb i hi)
      (fun i => by
        unfold extRows
        rw [C74_log_ext _ (k.wf _) (by omega) hsL, ok_bind, k.file, hff, hf, if_pos rfl]
        rfl)
  rw [filter_head] at key
  have hmap : ((List.range' 1 N).filter b).map
        (fun i => if i = 0 then (.inl first : ExtBlock ℝ) else extBlock L s (chain i))
      = ((List.range' 1 N).filter b).map fun i => extBlock L s (chain i) := by
    apply List.map_congr_left
    intro i hi
    rw [List.mem_filter, List.mem_range'_1] at hi
    rw [if_neg (by omega)]
  rw [hmap] at key
  have hjob : ∀ n, extJob c ds n = whileN runGuard (extPass (ftoNat (c0.vars.tau / c0.vars.dt))) n
      ⟨c0, 0, [.inl first]⟩ := by
    intro n
    unfold extJob logRow
    simp only [h1, ok_bind, hfirst]
    rfl
  exact ⟨by rw [hjob]; exact key.1, fun n hn => by rw [hjob]; exact key.2 n hn⟩

/-- `run_ext` without stroboscopic logging: the first row is that of `log`, and each of the `N`
steps gives one block of site rows. -/
theorem C56_run_ext (conf : Config ℝ) (v : ValidConf conf L s) (hs : 1 ≤ s) (hsL : s ≤ L)
    (hdt : 0 < conf.dt) (hlog : conf.log = true) (hst : conf.strob = false)
    (num : ℕ) (u zj zh : ℕ → ℝ) (ds : ℕ → Draw ℝ) :
    ∃ (c c0 : SpinChain ℝ) (N : ℕ) (chain : ℕ → SpinChain ℝ) (first : List ℝ),
      SpinChain.new conf num u zj zh = .ok c ∧
      sweeps SpinChain.metropolis_update ds warmup c = .ok c0 ∧
      StepsNeeded (-conf.trel) conf.dt conf.t N ∧
      chain 0 = c0 ∧ (∀ i, SpinChain.update (chain i) = .ok (chain (i + 1))) ∧
      (∀ i, (chain i).t = -conf.trel + i * conf.dt) ∧ c0.log = .ok (some first) ∧
      extJob c ds N = .ok (some ⟨chain N, N,
        .inl first :: (List.range' 1 N).map fun i => extBlock L s (chain i)⟩) ∧
      ∀ n, n ≠ N → extJob c ds n = .ok none := by
  obtain ⟨c, h1, w, ht, hv, hfile, -⟩ := valid_new v num u zj zh
  obtain ⟨c0, N, chain, first, h2, hv0, ht0, k, hfirst, hjob⟩ := ext_job c w v.L_two hs hsL
    (by rw [hv]; exact hdt) (by rw [hfile hlog]; rfl) ds
  obtain ⟨hj1, hj2⟩ := hjob (fun _ => true) (fun i _ => by rw [hv, hst]; rfl)
  rw [List.filter_true] at hj1
  have hsteps := k.steps
  rw [hv0, ht0, hv, ht] at hsteps
  refine ⟨c, c0, N, chain, first, h1, h2, hsteps, k.zero, k.step, fun i => ?_, hfirst, hj1, hj2⟩
  rw [k.time, ht0, hv0, hv, ht]

open Classical in
/-- Stroboscopic `run_ext` when period and relaxation time are whole numbers of steps. -/
theorem C57_run_ext (conf : Config ℝ) (v : ValidConf conf L s) (hs : 1 ≤ s) (hsL : s ≤ L)
    (hdt : 0 < conf.dt) (hlog : conf.log = true) (hst : conf.strob = true) (P : ℕ) (m : ℤ)
    (hP : 1 ≤ P) (hP' : P < 2 ^ 64) (htau : conf.tau = P * conf.dt) (hrel : conf.trel = m * conf.dt)
    (hT : conf.t ≤ 2 ^ 63 * conf.dt)
    (num : ℕ) (u zj zh : ℕ → ℝ) (ds : ℕ → Draw ℝ) :
    ∃ (c c0 : SpinChain ℝ) (N : ℕ) (chain : ℕ → SpinChain ℝ) (first : List ℝ),
      SpinChain.new conf num u zj zh = .ok c ∧
      sweeps SpinChain.metropolis_update ds warmup c = .ok c0 ∧
      StepsNeeded (-conf.trel) conf.dt conf.t N ∧
      chain 0 = c0 ∧ (∀ i, SpinChain.update (chain i) = .ok (chain (i + 1))) ∧
      (∀ i, (chain i).t = -conf.trel + i * conf.dt) ∧ c0.log = .ok (some first) ∧
      extJob c ds N = .ok (some ⟨chain N, N,
        .inl first :: ((List.range' 1 N).filter fun i : ℕ => -conf.trel + i * conf.dt ≤ 0 ∨
          WholePeriods conf.tau (-conf.trel + i * conf.dt)).map fun i => extBlock L s (chain i)⟩) := by
  obtain ⟨c, h1, w, ht, hv, hfile, -⟩ := valid_new v num u zj zh
  obtain ⟨c0, N, chain, first, h2, hv0, ht0, k, hfirst, hjob⟩ := ext_job c w v.L_two hs hsL
    (by rw [hv]; exact hdt) (by rw [hfile hlog]; rfl) ds
  have hsteps := k.steps
  rw [hv0, ht0, hv, ht] at hsteps
  obtain ⟨hj1, -⟩ := hjob (fun i : ℕ => decide (-conf.trel + i * conf.dt ≤ 0 ∨
          WholePeriods conf.tau (-conf.trel + i * conf.dt))) (fun i hi => by
    have hP0 : conf.tau / conf.dt = (P : ℝ) := by rw [htau]; field_simp
    have h3 := hsteps.1 i hi
    rw [hv, hst, ht, hP0, htau]
    refine strob_whole (m := m) hdt hP hP' (by rw [hrel]) ?_
    push_cast
    have : conf.dt ≤ 2 ^ 63 * conf.dt := by nlinarith
    nlinarith)
  refine ⟨c, c0, N, chain, first, h1, h2, hsteps, k.zero, k.step, fun i => ?_, hfirst, hj1⟩
  rw [k.time, ht0, hv0, hv, ht]

/-! ### C75: `run_sim_response` -/

theorem response_upd (c : SpinChain ℝ) (w : WF c L s) (hL : 2 ≤ L) : ∃ sp, responseUpdate c = .ok
      { c with
        spins := sp
        t := c.t + c.vars.dt } ∧ sp.length = L := by
  unfold responseUpdate
  split
  · obtain ⟨d', h⟩ := C25_update_total c L s 1 w hL
    obtain ⟨h1, h2, h3, h4, h5, h6⟩ := C25_update_frame c d' 1 h
    refine ⟨d'.spins, ?_, by rw [h5, w.spins]⟩
    rw [← updates_one, h]
    cases d'
    simp_all
  · obtain ⟨j, h, sp, tj, th, tsp⟩ := wf_tabs w (by omega)
    obtain ⟨e, he⟩ := h_ext_ok w.hs (c.t + c.vars.dt / 2.0)
    obtain ⟨sp', h1, t1⟩ := update_no_field_tab w hL tj th tsp he
    exact ⟨sp', h1, t1.length⟩

/-- The course of `run_sim_response` without stroboscopic logging: the clock is set to `-t` after
the first row; the `N` steps lead to time `t`, before time zero in all fields, from then on without
the static field; each step is logged. -/
theorem C75_response (conf : Config ℝ) (v : ValidConf conf L s) (hs : 1 ≤ s) (hsL : s ≤ L)
    (hdt : 0 < conf.dt) (hlog : conf.log = true) (hst : conf.strob = false)
    (num : ℕ) (u zj zh : ℕ → ℝ) (ds : ℕ → Draw ℝ) :
    ∃ (c c0 : SpinChain ℝ) (N : ℕ) (chain : ℕ → SpinChain ℝ) (rows : List (List ℝ)),
      SpinChain.new conf num u zj zh = .ok c ∧
      sweeps SpinChain.metropolis_update ds warmup c = .ok c0 ∧
      StepsNeeded (-conf.t) conf.dt conf.t N ∧
      chain 0 = { c0 with t := -conf.t } ∧
      (∀ i : ℕ, -conf.t + i * conf.dt < 0 → (chain i).update = .ok (chain (i + 1))) ∧
      (∀ i : ℕ, 0 ≤ -conf.t + i * conf.dt →
        ({ chain i with static_h := (chain i).static_h.map fun _ => zero } : SpinChain ℝ).update
          = .ok { chain (i + 1) with static_h := (chain (i + 1)).static_h.map fun _ => zero } ∧
        (chain (i + 1)).static_h = (chain i).static_h) ∧
      responseJob c ds N = .ok (some ⟨chain N, N, rows⟩) ∧
      (∀ n, n ≠ N → responseJob c ds n = .ok none) ∧
      rows.length = N + 1 ∧
      c0.log = .ok rows[0]? ∧
      ∀ i (h : i < rows.length), 1 ≤ i → (chain i).log = .ok (some rows[i]) ∧
        rows[i].head? = some (-conf.t + i * conf.dt) := by
  obtain ⟨c, h1, w, ht, hv, hfile, -⟩ := valid_new v num u zj zh
  obtain ⟨c0, h2, w0, hv0, ht0, hff, -, -⟩ := warm_ok w v.L_two ds warmup
  have hcv : c0.vars = conf := by rw [hv0, hv]
  have hfs : c0.file.isSome := by rw [hff, hfile hlog]; rfl
  have w1 : WF ({ c0 with t := -conf.t } : SpinChain ℝ) L s :=
    ⟨w0.hsize, w0.ssize, w0.L_lt, w0.s_lt, w0.spins, w0.j, w0.h, w0.hs⟩
  obtain ⟨N, chain, k⟩ := course_of (upd := responseUpdate) (fun d wd => response_upd d wd v.L_two) w1
    (by show 0 < c0.vars.dt; rw [hcv]; exact hdt)
  obtain ⟨row, hrow⟩ := k.logs hs hsL
  obtain ⟨first, hfirst, -⟩ := C42_log_row c0 L s w0 hs hsL
  rw [hfs, if_pos rfl] at hfirst
  simp only [hfs, if_true] at hrow
  have htime : ∀ i : ℕ, (chain i).t = -conf.t + i * conf.dt := by
    intro i
    rw [k.time]
    simp only [hcv]
  have hvars : ∀ i, (chain i).vars = conf := fun i => (k.vars i).trans hcv
  have key := k.run (hit := fun c => strobHit c.vars.strob (ftoNat (c0.vars.tau / c0.vars.dt))
      (fabs c.t / c.vars.dt)) (row := logRow) (b := fun _ => true)
      (r := fun i => if i = 0 then first else row i)
      (fun i _ => by rw [hvars, hst]; rfl)
      (fun i => by
        unfold logRow
        rw [(hrow (i + 1)).1]
        rfl)
  simp only [Bool.or_true, List.filter_true, if_pos] at key
  have hjob : ∀ n, responseJob c ds n = whileN runGuard
      (responsePass (ftoNat (c0.vars.tau / c0.vars.dt))) n
      ⟨{ c0 with t := -conf.t }, 0, [first]⟩ := by
    intro n
    unfold responseJob logRow
    simp only [h2, ok_bind, hfirst, hcv]
    rfl
  have hsteps := k.steps
  simp only [hcv] at hsteps
  refine ⟨c, c0, N, chain, (List.range (N + 1)).map fun i => if i = 0 then first else row i, h1, h2,
    hsteps, k.zero, ?_, ?_, by rw [hjob]; exact key.1, fun n hn => by rw [hjob]; exact key.2 n hn,
    by simp, ?_, ?_⟩
  · intro i hi
    rw [← k.step i]
    unfold responseUpdate
    rw [if_pos]
    rw [lit_0, flt_real, decide_eq_true_iff, htime]
    exact hi
  · intro i hi
    have h := k.step i
    unfold responseUpdate at h
    rw [if_neg] at h
    · rw [C31_no_static_field] at h
      cases hu : ({ chain i with static_h := (chain i).static_h.map fun _ => zero } : SpinChain ℝ).update with
      | error p => rw [hu] at h; cases h
      | ok d =>
        rw [hu] at h
        have hd := Except.ok.inj h
        have hf := C25_update_frame _ d 1 (by rw [updates_one]; exact hu)
        refine ⟨?_, by rw [← hd]⟩
        rw [← hd]
        congr 1
        cases d
        simp_all
    · rw [lit_0, flt_real, decide_eq_true_iff, htime]
      exact not_lt.mpr hi
  · simp [hfirst]
  · intro i hi h1i
    simp only [List.getElem_map, List.getElem_range]
    rw [if_neg (by omega)]
    exact ⟨(hrow i).1, by rw [(hrow i).2.2, htime]⟩

/-- the hypotheses of the stroboscopic theorems are met with a relaxation time as well -/
theorem relConf_ok : ∃ conf : Config ℝ, ValidConf conf 512 8 ∧ 0 < conf.dt ∧ conf.log = true ∧
    conf.strob = true ∧ conf.tau = (500 : ℕ) * conf.dt ∧ conf.trel = (50 : ℤ) * conf.dt ∧
    conf.t ≤ 2 ^ 63 * conf.dt ∧ 0 < conf.beta := by
  refine ⟨{ strobConf with trel := 1 }, ?_, ?_, rfl, rfl, ?_, ?_, ?_, ?_⟩
  · constructor <;> simp [strobConf, Config.default]
  all_goals norm_num [strobConf, Config.default]

example : ValidConf (Config.default : Config ℝ) 512 8 ∧ 0 < (Config.default : Config ℝ).dt ∧
    (Config.default : Config ℝ).log = true ∧ (Config.default : Config ℝ).strob = false :=
  ⟨by constructor <;> simp [Config.default], by norm_num [Config.default], rfl, rfl⟩

/-! ### C66: `run_tau` -/

/-- The time-step of `run_tau` resolves every period by at least 100 steps, by exactly 100 for
periods below 10; otherwise the time-step is 0.1. -/
theorem C66_resolved (tau : ℝ) (h : 0 < tau) :
    0 < tauDt tau ∧ 100 * tauDt tau ≤ tau ∧ (tau < 10 → 100 * tauDt tau = tau) ∧
      (10 ≤ tau → tauDt tau = 1 / 10) := by
  have h100 : (100.0 : ℝ) = 100 := by norm_num
  have h01 : (0.1 : ℝ) = 1 / 10 := by norm_num
  unfold tauDt
  simp only [lit_10, flt_real, decide_eq_true_eq, h100, h01]
  split_ifs with hlt
  · refine ⟨by positivity, by linarith, fun _ => by ring, fun h => by linarith⟩
  · exact ⟨by norm_num, by linarith, fun h => absurd h hlt, fun _ => rfl⟩

/-- The job of `run_tau` for one period: one row is logged at the start, the loop makes the least
number `N` of steps of length `tauDt tau` from `-trel` to `steps * tau`, and the row sent at the end
holds the period, the time and the energies and magnetisation of the chain after these `N` updates. -/
theorem C66_run (conf : Config ℝ) (v : ValidConf conf L s) (hs : 1 ≤ s) (hsL : s ≤ L)
    (tau : ℝ) (htau : 0 < tau) (steps : ℕ) (num : ℕ) (u zj zh : ℕ → ℝ) (ds : ℕ → Draw ℝ) :
    ∃ (c c0 : SpinChain ℝ) (N : ℕ) (chain : ℕ → SpinChain ℝ) (r : TauResult ℝ),
      SpinChain.new conf num u zj zh = .ok c ∧
      sweeps SpinChain.metropolis_update ds warmup (tauChain c tau steps) = .ok c0 ∧
      StepsNeeded (-conf.trel) (tauDt tau) (steps * tau) N ∧
      chain 0 = c0 ∧ (∀ i, SpinChain.update (chain i) = .ok (chain (i + 1))) ∧
      tauJob (tauChain c tau steps) ds N = .ok (some r) ∧
      (∀ n, n ≠ N → tauJob (tauChain c tau steps) ds n = .ok none) ∧
      r.chain = chain N ∧ (chain N).vars.tau = tau ∧
      ∃ e es, (chain N).total_energy2 = .ok e ∧ (chain N).system_energy = .ok es ∧
        r.last = [tau, -conf.trel + N * tauDt tau, e, es, (∑ i ∈ range s, (S (chain N) i).x) / s,
          (∑ i ∈ range s, (S (chain N) i).y) / s, (∑ i ∈ range s, (S (chain N) i).z) / s] := by
  obtain ⟨c, h1, w, ht, hv, hfile, -⟩ := valid_new v num u zj zh
  have w' : WF (tauChain c tau steps) L s :=
    ⟨w.hsize, w.ssize, w.L_lt, w.s_lt, w.spins, w.j, w.h, w.hs⟩
  obtain ⟨c0, h2, w0, hv0, ht0, hff, -, -⟩ := warm_ok w' v.L_two ds warmup
  have hdt0 : c0.vars.dt = tauDt tau := by rw [hv0]; rfl
  have hT0 : c0.vars.t = steps * tau := by
    rw [hv0]
    show fofInt (steps : ℤ) * tau = _
    simp
  obtain ⟨N, chain, k⟩ := update_course w0 v.L_two (by rw [hdt0]; exact (C66_resolved tau htau).1)
  obtain ⟨first, hfirst, -⟩ := C42_log_row c0 L s w0 hs hsL
  have hstart : ∃ start, logRow c0 = .ok start := ⟨_, by unfold logRow; rw [hfirst]; rfl⟩
  obtain ⟨start, hstart⟩ := hstart
  have hloop : whileN (fun c : SpinChain ℝ => flt c.t c.vars.t) SpinChain.update N c0
        = .ok (some (chain N)) ∧
      ∀ n, n ≠ N → whileN (fun c : SpinChain ℝ => flt c.t c.vars.t) SpinChain.update n c0
        = .ok none := by
    have key := whileN_exact (guard := fun c : SpinChain ℝ => flt c.t c.vars.t)
      (body := SpinChain.update) (Inv := fun j d => d = chain j) (N := N)
      (fun j d hj hd => by
        subst hd
        exact ⟨k.guard_lt hj, _, k.step j, rfl⟩)
      (fun d hd => by rw [hd]; exact k.guard_end) N 0 c0 (by omega) k.zero.symm
    obtain ⟨⟨d, h1, h2⟩, h3⟩ := key
    exact ⟨by rw [h1, h2], h3⟩
  have hE := total_energy2_eq (k.wf N) (by have := v.L_two; omega)
  have hS := system_energy_eq (k.wf N) hs hsL
  have hvN : (chain N).vars.tau = tau := by rw [k.vars, hv0]; rfl
  obtain ⟨e, he⟩ : ∃ e, (chain N).total_energy2 = .ok e := ⟨_, hE⟩
  obtain ⟨es, hes⟩ : ∃ es, (chain N).system_energy = .ok es := ⟨_, hS⟩
  refine ⟨c, c0, N, chain, ⟨chain N, start, [tau, -conf.trel + N * tauDt tau, e, es,
    (∑ i ∈ range s, (S (chain N) i).x) / s, (∑ i ∈ range s, (S (chain N) i).y) / s,
    (∑ i ∈ range s, (S (chain N) i).z) / s]⟩, h1, h2, ?_, k.zero, k.step, ?_, ?_, rfl, hvN, e, es,
    he, hes, rfl⟩
  · have := k.steps
    rw [hdt0, hT0, ht0] at this
    rw [← ht]
    exact this
  · unfold tauJob
    rw [h2, ok_bind, hstart, ok_bind, hloop.1, ok_bind]
    have htN : (chain N).t = -conf.trel + N * tauDt tau := by
      rw [k.time, ht0, hdt0, ← ht]
      rfl
    simp only [he, hes, m_eq (k.wf N) hsL, ok_bind, hvN, (k.wf N).ssize, fofInt_real,
      Int.cast_natCast, htN]
    rfl
  · intro n hn
    unfold tauJob
    rw [h2, ok_bind, hstart, ok_bind, hloop.2 n hn]
    rfl

/-- Without relaxation, periods below 10 take exactly 100 steps each and the run ends exactly at
`steps * tau`. -/
theorem C66_exact (tau : ℝ) (h : 0 < tau) (h10 : tau < 10) (steps N : ℕ)
    (hN : StepsNeeded 0 (tauDt tau) (steps * tau) N) :
    N = 100 * steps ∧ 0 + N * tauDt tau = steps * tau := by
  obtain ⟨h1, -, h2, -⟩ := C66_resolved tau h
  have h2 := h2 h10
  have : StepsNeeded 0 (tauDt tau) (steps * tau) (100 * steps) := by
    constructor
    · intro n hn
      have : (n : ℝ) < 100 * steps := by exact_mod_cast hn
      nlinarith
    · push_cast
      nlinarith
  have hh := steps_unique hN this
  refine ⟨hh, ?_⟩
  rw [hh]
  push_cast
  linear_combination (steps : ℝ) * h2

example : (0 : ℝ) < 2 ∧ (2 : ℝ) < 10 ∧ StepsNeeded 0 (tauDt 2) ((3 : ℕ) * 2) 300 := by
  have h2 := (C66_resolved 2 (by norm_num)).2.2.1 (by norm_num)
  have e : tauDt (2 : ℝ) = 1 / 50 := by linarith
  refine ⟨by norm_num, by norm_num, ?_, ?_⟩
  · intro n hn
    have : (n : ℝ) < 300 := by exact_mod_cast hn
    rw [e]
    push_cast
    linarith
  · rw [e]; norm_num

end Verif.Props
