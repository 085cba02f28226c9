/-
C61: the checkpoints of `run_dyn_profile`.
-/
import Verif.Props.Runs
import Verif.Props.Sites

namespace Verif.Props

open Spec Finset

variable {L s : ℕ}

theorem written_filterMap {α : Type} (b : ℕ → Bool) (rs : ℕ → List α) (g : ℕ → Option α)
    (h0 : ∀ i, b i = false → g i = none) (h1 : ∀ i, b i = true → ∃ a, g i = some a ∧ rs i = [a])
    (N : ℕ) : written b rs N = (List.range' 1 N).filterMap g := by
  induction N with
  | zero => rfl
  | succ N ih =>
    rw [written_succ, ih, List.range'_concat, List.filterMap_append]
    congr 1
    rw [show 1 + 1 * N = N + 1 by omega]
    cases hb : b (N + 1) with
    | false => simp [h0 _ hb]
    | true =>
      obtain ⟨a, h2, h3⟩ := h1 _ hb
      simp [h2, h3]

/-- the messages of all sites -/
noncomputable def profileRow (L : ℕ) (c : SpinChain ℝ) : List (ℕ × ℝ × V3 ℝ) :=
  (List.range L).map (siteMsg c L)

/-- The course of `run_dyn_profile` for one chain. -/
theorem dyn_job (conf : Config ℝ) (v : ValidConf conf L s) (hdt : 0 < conf.dt)
    (num : ℕ) (u zj zh : ℕ → ℝ) (ds : ℕ → Draw ℝ) :
    ∃ (c c0 : SpinChain ℝ) (N : ℕ) (chain : ℕ → SpinChain ℝ),
      SpinChain.new (dynConf conf) num u zj zh = .ok c ∧
      sweeps SpinChain.metropolis_update ds warmup c = .ok c0 ∧
      StepsNeeded (-conf.trel) conf.dt (4000 * conf.tau) N ∧
      chain 0 = c0 ∧ (∀ i, SpinChain.update (chain i) = .ok (chain (i + 1))) ∧
      (∀ i, (chain i).t = -conf.trel + i * conf.dt) ∧
      dynJob c ds N = .ok (some ⟨chain N, N, (List.range' 1 N).filterMap fun i : ℕ =>
        (checkpoint (-conf.trel + i * conf.dt) conf.tau conf.dt).map fun k =>
          (k, profileRow L (chain i))⟩) ∧
      ∀ n, n ≠ N → dynJob c ds n = .ok none := by
  have v' : ValidConf (dynConf conf) L s :=
    ⟨v.hsize, v.ssize, v.L_two, v.L_lt, v.s_lt, v.hfield, v.hs, v.jvar, v.hvar⟩
  obtain ⟨c, h1, w, ht, hv, -, -⟩ := valid_new v' num u zj zh
  obtain ⟨c0, h2, w0, hv0, ht0, -, -, -⟩ := warm_ok w v.L_two ds warmup
  have hcv : c0.vars = dynConf conf := by rw [hv0, hv]
  have hct : c0.t = -conf.trel := by rw [ht0, ht]; rfl
  obtain ⟨N, chain, k⟩ := update_course w0 v.L_two (by rw [hcv]; exact hdt)
  have htime : ∀ i : ℕ, (chain i).t = -conf.trel + i * conf.dt := by
    intro i
    rw [k.time, hct, hcv]
    rfl
  have hvars : ∀ i, (chain i).vars = dynConf conf := fun i => (k.vars i).trans hcv
  have key := whileN_run (upd := fun _ c => SpinChain.update c)
    (hit := fun c : SpinChain ℝ => .ok (checkpoint c.t c.vars.tau c.vars.dt).isSome)
    (row := fun c => do
      match checkpoint c.t c.vars.tau c.vars.dt with
      | some k => return [(k, ← profileMsgs c)]
      | none => return [])
    (g := fun c : SpinChain ℝ => flt c.t c.vars.t) (chain := chain)
    (b := fun i => (checkpoint (-conf.trel + i * conf.dt) conf.tau conf.dt).isSome)
    (rs := fun i => ((checkpoint (-conf.trel + i * conf.dt) conf.tau conf.dt).map fun k =>
          (k, profileRow L (chain i))).toList) (N := N) (fun i _ => k.step i)
    (fun i hi => k.guard_lt hi) k.guard_end
    (fun i hi => by rw [htime, hvars]; rfl)
    (fun i _ _ => by
      simp only [htime, hvars]
      rw [show (dynConf conf).tau = conf.tau from rfl, show (dynConf conf).dt = conf.dt from rfl]
      cases checkpoint (-conf.trel + (i + 1 : ℕ) * conf.dt) conf.tau conf.dt with
      | none => rfl
      | some k' => simp only [(C76_profile (chain (i + 1)) (k.wf _)).1, ok_bind]; rfl) []
  rw [written_filterMap _ _ (fun i : ℕ =>
        (checkpoint (-conf.trel + i * conf.dt) conf.tau conf.dt).map fun k =>
          (k, profileRow L (chain i)))
    (fun i h => by
      simp only [Option.isSome_eq_false_iff, Option.isNone_iff_eq_none] at h
      rw [h]; rfl)
    (fun i h => by
      obtain ⟨k, hk⟩ := Option.isSome_iff_exists.mp h
      exact ⟨(k, profileRow L (chain i)), by rw [hk]; rfl, by rw [hk]; rfl⟩), List.nil_append] at key
  have hjob : ∀ n, dynJob c ds n = whileN runGuard dynPass n ⟨chain 0, 0, []⟩ := by
    intro n
    unfold dynJob
    rw [h2, ok_bind, k.zero]
  have hsteps := k.steps
  rw [hcv, hct] at hsteps
  refine ⟨c, c0, N, chain, h1, h2, ?_, k.zero, k.step, htime, by rw [hjob]; exact key.1,
    fun n hn => by rw [hjob]; exact key.2 n hn⟩
  have : (4000 : ℝ) * conf.tau = (dynConf conf).t := by
    show _ = conf.tau * 4000.0
    norm_num
    ring
  rw [this]
  exact hsteps

theorem checkpoint_some {t tau dt : ℝ} {k : ℕ} (h : checkpoint t tau dt = some k) :
    1 ≤ k ∧ k ≤ 8 ∧ |t - 500 * k * tau| < dt / 5 := by
  unfold checkpoint at h
  have h1 := List.mem_of_find?_eq_some h
  have h2 := List.find?_some h
  rw [List.mem_range'_1] at h1
  refine ⟨h1.1, by omega, ?_⟩
  simp only [flt_real, fabs_real, fofInt_real, decide_eq_true_eq] at h2
  push_cast at h2
  norm_num at h2
  exact h2

/-- Whatever the configuration (with a positive time-step), no checkpoint is recorded twice, and
each recorded one holds one message for every site. -/
theorem C61_at_most_once (conf : Config ℝ) (v : ValidConf conf L s) (hdt : 0 < conf.dt)
    (num : ℕ) (u zj zh : ℕ → ℝ) (ds : ℕ → Draw ℝ) :
    ∃ c N st, SpinChain.new (dynConf conf) num u zj zh = .ok c ∧ dynJob c ds N = .ok (some st) ∧
      (st.rows.map Prod.fst).Nodup ∧ (∀ r ∈ st.rows, 1 ≤ r.1 ∧ r.1 ≤ 8 ∧ r.2.map Prod.fst = List.range L) ∧
      (0 ≤ conf.tau → (st.rows.map Prod.fst).Pairwise (· < ·)) ∧ ∀ n, n ≠ N → dynJob c ds n = .ok none := by
  obtain ⟨c, c0, N, chain, h1, h2, h3, h4, h5, h6, h7, h8⟩ := dyn_job conf v hdt num u zj zh ds
  refine ⟨c, N, _, h1, h7, ?_, ?_, ?_, h8⟩
  · show List.Pairwise _ _
    rw [List.pairwise_map, List.pairwise_filterMap]
    refine List.Pairwise.imp_of_mem ?_ (List.pairwise_lt_range' (s := 1) (n := N))
    intro i j hi hj hij a ha b hb
    rw [Option.map_eq_some_iff] at ha hb
    obtain ⟨k, hk, rfl⟩ := ha
    obtain ⟨k', hk', rfl⟩ := hb
    rintro (rfl : k = k')
    have e1 := abs_lt.mp (checkpoint_some hk).2.2
    have e2 := abs_lt.mp (checkpoint_some hk').2.2
    have : (i : ℝ) + 1 ≤ j := by exact_mod_cast hij
    nlinarith
  · intro r hr
    simp only [List.mem_filterMap, Option.map_eq_some_iff] at hr
    obtain ⟨i, hi, k, hk, rfl⟩ := hr
    refine ⟨(checkpoint_some hk).1, (checkpoint_some hk).2.1, ?_⟩
    simp only [profileRow, List.map_map]
    conv_rhs => rw [← List.map_id (List.range L)]
    rfl
  · intro htau
    rw [List.pairwise_map, List.pairwise_filterMap]
    refine List.Pairwise.imp_of_mem ?_ (List.pairwise_lt_range' (s := 1) (n := N))
    intro i j hi hj hij a ha b hb
    rw [Option.map_eq_some_iff] at ha hb
    obtain ⟨k, hk, rfl⟩ := ha
    obtain ⟨k', hk', rfl⟩ := hb
    show k < k'
    by_contra hkk
    have e1 := abs_lt.mp (checkpoint_some hk).2.2
    have e2 := abs_lt.mp (checkpoint_some hk').2.2
    have : (i : ℝ) + 1 ≤ j := by exact_mod_cast hij
    have : (k' : ℝ) ≤ k := by exact_mod_cast not_lt.mp hkk
    nlinarith [mul_nonneg htau (sub_nonneg.mpr this)]

theorem checkpoint_nat {dt : ℝ} (hdt : 0 < dt) {P : ℕ} (n : ℤ) :
    checkpoint (n * dt) (P * dt) dt =
      (List.range' 1 8).find? fun k : ℕ => decide (n = 500 * (k : ℤ) * P) := by
  unfold checkpoint
  congr 1
  funext k
  rw [flt_real, fabs_real, fofInt_real, decide_eq_decide]
  push_cast
  have e : (n : ℝ) * dt - 500 * k * (P * dt) = ((n - 500 * k * P : ℤ) : ℝ) * dt := by
    push_cast; ring
  rw [e, abs_mul, abs_of_pos hdt, show (5.0 : ℝ) = 5 by norm_num]
  constructor
  · intro h
    have h1 : |((n - 500 * k * P : ℤ) : ℝ)| < 1 := by
      have : |((n - 500 * k * P : ℤ) : ℝ)| * dt < 1 * dt := by linarith
      exact lt_of_mul_lt_mul_right this hdt.le
    rw [← Int.cast_abs] at h1
    have h2 : |n - 500 * k * P| < 1 := by exact_mod_cast h1
    have := Int.abs_lt_one_iff.mp h2
    omega
  · intro h
    rw [h]
    simp
    positivity

/-- When the period and the relaxation time are whole numbers of steps, each of the eight
checkpoints is recorded exactly once, in order, with the messages of all sites of the chain at
exactly `500 k` periods. -/
theorem C61_exactly_once (conf : Config ℝ) (v : ValidConf conf L s) (hdt : 0 < conf.dt) (P m : ℕ)
    (hP : 1 ≤ P) (htau : conf.tau = P * conf.dt) (hrel : conf.trel = m * conf.dt)
    (num : ℕ) (u zj zh : ℕ → ℝ) (ds : ℕ → Draw ℝ) :
    ∃ (c c0 : SpinChain ℝ) (chain : ℕ → SpinChain ℝ),
      SpinChain.new (dynConf conf) num u zj zh = .ok c ∧
      sweeps SpinChain.metropolis_update ds warmup c = .ok c0 ∧
      chain 0 = c0 ∧ (∀ i, SpinChain.update (chain i) = .ok (chain (i + 1))) ∧
      (∀ k : ℕ, (chain (m + 500 * k * P)).t = 500 * k * conf.tau) ∧
      dynJob c ds (m + 4000 * P) = .ok (some ⟨chain (m + 4000 * P), m + 4000 * P,
        [1, 2, 3, 4, 5, 6, 7, 8].map fun k => (k, profileRow L (chain (m + 500 * k * P)))⟩) := by
  obtain ⟨c, c0, N, chain, h1, h2, h3, h4, h5, h6, h7, h8⟩ := dyn_job conf v hdt num u zj zh ds
  have hN : N = m + 4000 * P := by
    refine steps_unique h3 ⟨fun n hn => ?_, ?_⟩
    · have : (n : ℝ) < m + 4000 * P := by exact_mod_cast hn
      rw [hrel, htau]
      nlinarith
    · rw [hrel, htau]
      push_cast
      nlinarith
  subst hN
  refine ⟨c, c0, chain, h1, h2, h4, h5, fun k => ?_, ?_⟩
  · rw [h6, hrel, htau]
    push_cast
    ring
  · rw [h7]
    refine congrArg (fun r => Except.ok (some (RunState.mk _ _ r))) ?_
    have hcp : ∀ i : ℕ, checkpoint (-conf.trel + i * conf.dt) conf.tau conf.dt =
        (List.range' 1 8).find? fun k => decide (i = m + 500 * k * P) := by
      intro i
      have e : -conf.trel + i * conf.dt = ((i - m : ℤ) : ℝ) * conf.dt := by
        rw [hrel]; push_cast; ring
      rw [e, htau, checkpoint_nat hdt]
      congr 1
      funext k
      rw [decide_eq_decide]
      zify
      constructor <;> intro h <;> linarith
    have hinj : ∀ k k' : ℕ, m + 500 * k * P = m + 500 * k' * P → k = k' := by
      intro k k' h
      have : (500 * P) * k = (500 * P) * k' := by linarith
      exact Nat.eq_of_mul_eq_mul_left (by omega) this
    have hfind : ∀ k, 1 ≤ k → k ≤ 8 →
        ((List.range' 1 8).find? fun k' => decide (m + 500 * k * P = m + 500 * k' * P)) = some k := by
      intro k hk1 hk2
      have : (fun k' => decide (m + 500 * k * P = m + 500 * k' * P)) = fun k' => decide (k = k') := by
        funext k'
        rw [decide_eq_decide]
        exact ⟨hinj k k', fun h => by rw [h]⟩
      rw [this]
      interval_cases k <;> rfl
    have hlist : (List.range' 1 (m + 4000 * P)).filter
        (fun i => ((List.range' 1 8).find? fun k => decide (i = m + 500 * k * P)).isSome)
        = [1, 2, 3, 4, 5, 6, 7, 8].map fun k => m + 500 * k * P := by
      apply List.Perm.eq_of_pairwise' (r := (· < ·))
      · exact List.Pairwise.filter _ List.pairwise_lt_range'
      · simp only [List.map_cons, List.map_nil, List.pairwise_cons, List.mem_cons, List.not_mem_nil,
          or_false, forall_eq_or_imp, forall_eq, IsEmpty.forall_iff, implies_true, and_true,
          List.Pairwise.nil]
        omega
      · rw [List.perm_ext_iff_of_nodup]
        · intro i
          rw [List.mem_filter, List.mem_range'_1, List.find?_isSome, List.mem_map]
          constructor
          · rintro ⟨h1, k, hk, h2⟩
            rw [decide_eq_true_iff] at h2
            rw [List.mem_range'_1] at hk
            refine ⟨k, ?_, h2.symm⟩
            simp only [List.mem_cons, List.not_mem_nil, or_false]
            omega
          · rintro ⟨k, hk, rfl⟩
            simp only [List.mem_cons, List.not_mem_nil, or_false] at hk
            have hk1 : 1 ≤ k ∧ k ≤ 8 := by omega
            refine ⟨⟨?_, ?_⟩, k, ?_, by simp⟩
            · have : 1 ≤ 500 * k * P := Nat.mul_pos (by omega) (by omega)
              omega
            · have : 500 * k * P ≤ 4000 * P := Nat.mul_le_mul_right _ (by omega)
              omega
            · rw [List.mem_range'_1]; omega
        · exact (List.nodup_range' (s := 1) (n := m + 4000 * P)).filter _
        · rw [List.nodup_map_iff_inj_on (by decide)]
          intro k _ k' _ h
          exact hinj k k' h
    have hfm : ∀ l : List ℕ, l.filterMap (fun i : ℕ =>
          (checkpoint (-conf.trel + i * conf.dt) conf.tau conf.dt).map fun k =>
            (k, profileRow L (chain i)))
        = (l.filter (fun i => ((List.range' 1 8).find? fun k => decide (i = m + 500 * k * P)).isSome)).filterMap
          (fun i : ℕ => ((List.range' 1 8).find? fun k => decide (i = m + 500 * k * P)).map fun k =>
            (k, profileRow L (chain i))) := by
      intro l
      induction l with
      | nil => rfl
      | cons i l ih =>
        rw [List.filterMap_cons, List.filter_cons, ih, hcp i]
        cases h : (List.range' 1 8).find? fun k => decide (i = m + 500 * k * P) with
        | none => simp
        | some k => simp [h]
    rw [hfm, hlist, List.filterMap_map]
    rw [List.filterMap_congr (g := fun k => some (k, profileRow L (chain (m + 500 * k * P))))]
    · rfl
    · intro k hk
      simp only [List.mem_cons, List.not_mem_nil, or_false] at hk
      simp only [Function.comp]
      rw [hfind k (by omega) (by omega)]
      rfl

example : ∃ conf : Config ℝ, ValidConf conf 512 8 ∧ 0 < conf.dt ∧
    conf.tau = (500 : ℕ) * conf.dt ∧ conf.trel = (50 : ℕ) * conf.dt := by
  refine ⟨{ strobConf with trel := 1 }, ?_, ?_, ?_, ?_⟩
  · constructor <;> simp [strobConf, Config.default]
  all_goals norm_num [strobConf, Config.default]

/-- A period that is not a whole number of steps: with `dt = 0.3` and `tau = 1` the first checkpoint
is missed by every run (the nearest times are 499.8 and 500.1). -/
theorem C61_missed : ∃ conf : Config ℝ, ValidConf conf 512 8 ∧ conf.dt = 0.3 ∧ conf.tau = 1 ∧
    conf.trel = 0 ∧
    ∀ (num : ℕ) (u zj zh : ℕ → ℝ) (ds : ℕ → Draw ℝ), ∃ c N st,
      SpinChain.new (dynConf conf) num u zj zh = .ok c ∧ dynJob c ds N = .ok (some st) ∧
      1 ∉ st.rows.map Prod.fst := by
  obtain ⟨conf, hc⟩ : ∃ conf : Config ℝ, conf = { strobConf with
    dt := 0.3
    tau := 1 } := ⟨_, rfl⟩
  have hdt : conf.dt = 0.3 := by rw [hc]
  have htau : conf.tau = 1 := by rw [hc]
  have hrel : conf.trel = 0 := by rw [hc]; norm_num [strobConf, Config.default]
  have v : ValidConf conf 512 8 := by
    rw [hc]; constructor <;> simp [strobConf, Config.default]
  refine ⟨conf, v, hdt, htau, hrel, ?_⟩
  intro num u zj zh ds
  obtain ⟨c, c0, N, chain, h1, h2, h3, h4, h5, h6, h7, h8⟩ := dyn_job conf v
    (by rw [hdt]; norm_num) num u zj zh ds
  refine ⟨c, N, _, h1, h7, ?_⟩
  simp only [List.mem_map, List.mem_filterMap, Option.map_eq_some_iff, not_exists, not_and]
  rintro x ⟨i, -, k, hk, rfl⟩ (rfl : k = 1)
  have e := abs_lt.mp (checkpoint_some hk).2.2
  rw [hdt, htau, hrel] at e
  norm_num at e
  have e1 : (i : ℝ) < 1667 := by linarith
  have e2 : (1666 : ℝ) < i := by linarith
  have e3 : i < 1667 := by exact_mod_cast e1
  have e4 : 1666 < i := by exact_mod_cast e2
  omega

end Verif.Props
