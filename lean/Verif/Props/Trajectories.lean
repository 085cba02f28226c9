/-
C65, C73: `trajectory_mean_e` and `gen_single_traj`.
-/
import Verif.Props.DynProfile

namespace Verif.Props

open Spec Finset

variable {L s : ℕ}

theorem forRange_trace {σ : Type} {hi : ℕ} {body : ℕ → σ → R σ} (st : ℕ → σ)
    (h : ∀ i, i < hi → body i (st i) = .ok (st (i + 1))) :
    forRange 0 hi (st 0) body = .ok (st hi) := by
  obtain ⟨r, h1, h2⟩ := forRange_inv (lo := 0) (hi := hi) (init := st 0) (body := body)
    (fun i x => x = st i) rfl (Nat.zero_le _) (fun i x _ hi hx => by
      subst hx
      exact ⟨_, h i hi, rfl⟩)
  rw [h1, h2]

/-- multiples of `P` in a range of counters -/
theorem filter_multiples {P a n : ℕ} (hP : 1 ≤ P) (lo hi : ℕ)
    (h1 : ∀ j, (a ≤ j ∧ j < a + n) ↔ (lo ≤ j * P ∧ j * P < hi)) :
    (List.range' lo (hi - lo)).filter (fun i => decide (P ∣ i))
      = (List.range' a n).map fun j => j * P := by
  apply List.Perm.eq_of_pairwise' (r := (· < ·))
  · exact List.Pairwise.filter _ List.pairwise_lt_range'
  · rw [List.pairwise_map]
    refine List.Pairwise.imp ?_ (List.pairwise_lt_range' (s := a) (n := n))
    intro j k hjk
    exact Nat.mul_lt_mul_of_pos_right hjk hP
  · rw [List.perm_ext_iff_of_nodup]
    · intro i
      rw [List.mem_filter, List.mem_range'_1, List.mem_map, decide_eq_true_iff]
      constructor
      · rintro ⟨h2, j, rfl⟩
        refine ⟨j, ?_, Nat.mul_comm _ _⟩
        rw [List.mem_range'_1]
        apply (h1 j).mpr
        rw [Nat.mul_comm]
        omega
      · rintro ⟨j, hj, rfl⟩
        rw [List.mem_range'_1] at hj
        have := (h1 j).mp hj
        exact ⟨by omega, Dvd.intro_left j rfl⟩
    · exact (List.nodup_range' (s := lo) (n := hi - lo)).filter _
    · refine List.Nodup.map ?_ (List.nodup_range' (s := a) (n := n))
      intro j k h
      exact Nat.eq_of_mul_eq_mul_right hP h

/-! ### C65: `trajectory_mean_e` -/

theorem traj_numbers {dt : ℝ} (hdt : 0 < dt) {P : ℕ} (hP : 1000 * P < 2 ^ 64) {conf : Config ℝ}
    (hc : conf.dt = dt) (htau : conf.tau = P * dt) :
    trajSteps conf = 1000 * P ∧ trajCycle conf = P := by
  unfold trajSteps trajCycle
  rw [hc, htau, show (1000.0 : ℝ) = 1000 by norm_num]
  have e1 : 1000 * (P * dt) / dt = ((1000 * P : ℕ) : ℝ) := by
    push_cast
    field_simp
  have e2 : P * dt / dt = ((P : ℕ) : ℝ) := by field_simp
  rw [e1, e2, ftoNat_real, ftoNat_real, Nat.floor_natCast, Nat.floor_natCast]
  omega

/-- Each worker of `trajectory_mean_e` sends 900 samples, the subsystem energies one step after
periods 100 to 999. -/
theorem C65_samples (conf : Config ℝ) (v : ValidConf conf L s) (hs : 1 ≤ s) (hsL : s ≤ L)
    (hdt : 0 < conf.dt) (P : ℕ) (hP : 1 ≤ P) (hP' : 1000 * P < 2 ^ 64)
    (htau : conf.tau = P * conf.dt) (num : ℕ) (u zj zh : ℕ → ℝ) (ds : ℕ → Draw ℝ) :
    ∃ (c c0 : SpinChain ℝ) (chain : ℕ → SpinChain ℝ) (e : ℕ → ℝ),
      SpinChain.new conf num u zj zh = .ok c ∧
      sweeps SpinChain.metropolis_update ds warmup c = .ok c0 ∧
      chain 0 = c0 ∧ (∀ i, SpinChain.update (chain i) = .ok (chain (i + 1))) ∧
      (∀ i, (chain i).system_energy = .ok (e i)) ∧
      (∀ k : ℕ, (chain (k * P + 1)).t = -conf.trel + k * conf.tau + conf.dt) ∧
      trajJob conf c ds = .ok (chain (1000 * P), (List.range' 100 900).map fun k => e (k * P + 1)) := by
  obtain ⟨c, h1, w, ht, hv, -, -⟩ := valid_new v num u zj zh
  obtain ⟨c0, h2, w0, hv0, ht0, -, -, -⟩ := warm_ok w v.L_two ds warmup
  obtain ⟨N, chain, k⟩ := update_course w0 v.L_two (by rw [hv0, hv]; exact hdt)
  choose e he using fun i => show ∃ e, (chain i).system_energy = .ok e from
    ⟨_, system_energy_eq (k.wf i) hs hsL⟩
  obtain ⟨n1, n2⟩ := traj_numbers hdt hP' rfl htau
  refine ⟨c, c0, chain, e, h1, h2, k.zero, k.step, he, ?_, ?_⟩
  · intro j
    rw [k.time, ht0, ht, hv0, hv, htau]
    push_cast
    ring
  · let smp : ℕ → List ℝ := fun n => ((List.range' 0 n).filter
      (fun i => decide (i % P = 0 ∧ 99 * P < i))).map fun i => e (i + 1)
    have key := forRange_trace (hi := 1000 * P) (body := trajBody P) (fun n => (chain n, smp n)) (by
      intro i hi
      unfold trajBody
      simp only [k.step i, ok_bind]
      rw [if_neg (by omega)]
      have hsucc : smp (i + 1) = smp i ++ if i % P = 0 ∧ 99 * P < i then [e (i + 1)] else [] := by
        simp only [smp, List.range'_concat, List.filter_append, List.map_append, Nat.zero_add,
          Nat.one_mul]
        congr 1
        by_cases hc : i % P = 0 ∧ 99 * P < i
        · rw [if_pos hc, List.filter_cons, if_pos (by simpa using hc)]
          rfl
        · rw [if_neg hc, List.filter_cons, if_neg (by simpa using hc)]
          rfl
      rw [hsucc]
      split
      · rw [he, ok_bind]; rfl
      · rw [List.append_nil]; rfl)
    unfold trajJob
    rw [h2, ok_bind, n1, n2, ← k.zero]
    refine key.trans ?_
    refine congrArg (fun r => Except.ok (chain (1000 * P), r)) ?_
    have hsplit : (List.range' 0 (1000 * P)).filter (fun i => decide (i % P = 0 ∧ 99 * P < i))
        = (List.range' 100 900).map fun j => j * P := by
      have hr : List.range' 0 (1000 * P) = List.range' 0 (99 * P + 1) ++
          List.range' (99 * P + 1) (1000 * P - (99 * P + 1)) := by
        rw [show 1000 * P = (99 * P + 1) + (1000 * P - (99 * P + 1)) by omega,
          ← List.range'_append_1]
        simp
      rw [hr, List.filter_append]
      have hnil : (List.range' 0 (99 * P + 1)).filter (fun i => decide (i % P = 0 ∧ 99 * P < i)) = [] := by
        rw [List.filter_eq_nil_iff]
        intro i hi
        rw [List.mem_range'_1] at hi
        simp only [decide_eq_true_eq, not_and, not_lt]
        intro _
        omega
      rw [hnil, List.nil_append, ← filter_multiples (P := P) hP (99 * P + 1) (1000 * P)]
      · apply List.filter_congr
        intro i hi
        rw [List.mem_range'_1] at hi
        rw [decide_eq_decide, Nat.dvd_iff_mod_eq_zero]
        constructor
        · exact fun h => h.1
        · exact fun h => ⟨h, by omega⟩
      · intro j
        constructor
        · rintro ⟨h1, h2⟩
          have : 100 * P ≤ j * P := Nat.mul_le_mul_right _ h1
          have : j * P ≤ 999 * P := Nat.mul_le_mul_right _ (by omega)
          omega
        · rintro ⟨h1, h2⟩
          have h3 : 99 * P < j * P := by omega
          have h4 := Nat.lt_of_mul_lt_mul_right h3
          have h5 := Nat.lt_of_mul_lt_mul_right h2
          omega
    show List.map _ (List.filter _ (List.range' 0 (1000 * P))) = _
    rw [hsplit, List.map_map]
    rfl

theorem trajMean_eq (l : List ℝ) : trajMean l = l.sum / l.length := by
  have key : ∀ (l : List ℝ) (p : ℝ × ℝ),
      l.foldl (fun (p : ℝ × ℝ) x => (p.1 + 1.0, p.2 + x)) p = (p.1 + l.length, p.2 + l.sum) := by
    intro l
    induction l with
    | nil => intro p; simp
    | cons x l ih =>
      intro p
      rw [List.foldl_cons, ih]
      ext
      · simp only [lit_1, List.length_cons]
        push_cast
        ring
      · simp only [List.sum_cons]
        ring
  unfold trajMean
  simp only [key, lit_0, zero_add]

/-- The result is the arithmetic mean of all samples of all workers, in whatever order they
arrive. -/
theorem C65_mean (sent : List (List ℝ)) (received : List ℝ) (h : received.Perm sent.flatten) :
    trajMean received = (sent.map List.sum).sum / (sent.map List.length).sum := by
  rw [trajMean_eq, h.sum_eq, h.length_eq, List.sum_flatten, List.length_flatten]

/-- A time-step longer than the period: no worker sends anything (it panics, or makes no step at
all), and the result is NaN. -/
theorem C65_short_period (conf : Config ℝ) (v : ValidConf conf L s) (hdt : 0 < conf.dt)
    (htau : conf.tau < conf.dt) (num : ℕ) (u zj zh : ℕ → ℝ) (ds : ℕ → Draw ℝ) :
    ∃ c, SpinChain.new conf num u zj zh = .ok c ∧
      (trajJob conf c ds = .error .divZero ∨ ∃ c', trajJob conf c ds = .ok (c', [])) ∧
      (conf.dt ≤ 1000 * conf.tau → trajJob conf c ds = .error .divZero) := by
  obtain ⟨c, h1, w, ht, hv, -, -⟩ := valid_new v num u zj zh
  obtain ⟨c0, h2, w0, hv0, ht0, -, -, -⟩ := warm_ok w v.L_two ds warmup
  have hcyc : trajCycle conf = 0 := by
    unfold trajCycle
    rw [ftoNat_real, Nat.floor_eq_zero.mpr]
    · rfl
    · rw [div_lt_one hdt]; exact htau
  have hrun : ∀ n, 1 ≤ n → forRange 0 n (c0, ([] : List ℝ)) (trajBody (trajCycle conf))
      = .error .divZero := by
    intro n hn
    obtain ⟨n, rfl⟩ : ∃ m, n = m + 1 := ⟨n - 1, by omega⟩
    unfold forRange
    rw [Nat.sub_zero, List.range'_succ, List.foldlM_cons]
    unfold trajBody
    obtain ⟨d, hd⟩ := C25_update_total c0 L s 1 w0 v.L_two
    rw [updates_one] at hd
    rw [hd, ok_bind, hcyc, if_pos rfl]
    rfl
  have hjob : trajJob conf c ds = forRange 0 (trajSteps conf) (c0, []) (trajBody (trajCycle conf)) := by
    unfold trajJob
    rw [h2, ok_bind]
  refine ⟨c, h1, ?_, ?_⟩
  · rcases Nat.eq_zero_or_pos (trajSteps conf) with h | h
    · right
      exact ⟨c0, by rw [hjob, h]; rfl⟩
    · left
      rw [hjob, hrun _ h]
  · intro hle
    rw [hjob, hrun]
    unfold trajSteps
    rw [ftoNat_real, show (1000.0 : ℝ) = 1000 by norm_num, le_min_iff, Nat.one_le_floor_iff,
      one_le_div hdt]
    exact ⟨hle, by norm_num⟩

/-- the mean of no samples -/
theorem C65_nothing_received : trajMean ([] : List XF) = .nan := by
  show (0.0 : XF) / (0.0 : XF) = .nan
  simp only [XF.lit, lit_0]
  exact XF.isZero_div_zero (Or.inl rfl)

example : ∃ conf : Config ℝ, ValidConf conf 512 8 ∧ 0 < conf.dt ∧
    conf.tau = (500 : ℕ) * conf.dt ∧ 1000 * 500 < 2 ^ 64 := by
  refine ⟨strobConf, strobConf_valid, ?_, ?_, by norm_num⟩ <;> norm_num [strobConf, Config.default]

example : ∃ conf : Config ℝ, ValidConf conf 512 8 ∧ 0 < conf.dt ∧ conf.tau < conf.dt ∧
    conf.dt ≤ 1000 * conf.tau := by
  refine ⟨{ strobConf with tau := 0.01 }, ?_, ?_, ?_, ?_⟩
  · constructor <;> simp [strobConf, Config.default]
  all_goals norm_num [strobConf, Config.default]

/-! ### C73: `gen_single_traj` -/

/-- `gen_single_traj`: with the period a whole number `P` of steps and the relaxation time `m` steps,
one sample is written per period, from period 31 (counted from the start of the chain) on, until the
time reaches `(sample_num + 30) tau`; so there are `sample_num + m / P` samples. -/
theorem C73_samples (conf : Config ℝ) (v : ValidConf conf L s) (hs : 1 ≤ s) (hsL : s ≤ L)
    (hdt : 0 < conf.dt) (P m n : ℕ) (hP : 1 ≤ P) (hP' : 30 * P < 2 ^ 64)
    (htau : conf.tau = P * conf.dt) (hrel : conf.trel = m * conf.dt)
    (num : ℕ) (u zj zh : ℕ → ℝ) :
    ∃ (c : SpinChain ℝ) (chain : ℕ → SpinChain ℝ) (smp : ℕ → List ℝ),
      SpinChain.new conf num u zj zh = .ok c ∧
      chain 0 = c ∧ (∀ i, SpinChain.update (chain i) = .ok (chain (i + 1))) ∧
      (∀ i, ∃ e, (chain i).system_energy = .ok e ∧ smp i = [-conf.trel + i * conf.dt,
        (∑ j ∈ range s, (S (chain i) j).x) / s, (∑ j ∈ range s, (S (chain i) j).y) / s,
        (∑ j ∈ range s, (S (chain i) j).z) / s, e]) ∧
      singleJob conf c n (n * P + m) = .ok (some ⟨chain (30 * P + (n * P + m)), n * P + m,
        (List.range' 31 (n + m / P)).map fun k => smp (k * P)⟩) ∧
      ∀ k, k ≠ n * P + m → singleJob conf c n k = .ok none := by
  obtain ⟨c, h1, w, ht, hv, -, -⟩ := valid_new v num u zj zh
  obtain ⟨chain, k0, kw, kstep, kupd⟩ := update_orbit w v.L_two
  have hvars : ∀ i, (chain i).vars = conf := by
    intro i
    have := C25_update_frame c (chain i) i (kupd i)
    rw [this.2.2.1, hv]
  have htime : ∀ i : ℕ, (chain i).t = -conf.trel + i * conf.dt := by
    intro i
    rw [C25_time c (chain i) i (kupd i), ht, hv]
  choose e he using fun i => show ∃ e, (chain i).system_energy = .ok e from
    ⟨_, system_energy_eq (kw i) hs hsL⟩
  let smp : ℕ → List ℝ := fun i => [-conf.trel + i * conf.dt,
        (∑ j ∈ range s, (S (chain i) j).x) / s, (∑ j ∈ range s, (S (chain i) j).y) / s,
        (∑ j ∈ range s, (S (chain i) j).z) / s, e i]
  have hsmp : ∀ i, (histSample (chain i) >>= fun h => pure ((chain i).t :: h) : R (List ℝ))
      = .ok (smp i) := by
    intro i
    unfold histSample
    simp only [m_eq (kw i) hsL, he, ok_bind, (kw i).ssize, fofInt_real, Int.cast_natCast, htime]
    rfl
  obtain ⟨n2⟩ : Nonempty (ftoNat (conf.tau / conf.dt) = P) := by
    refine ⟨?_⟩
    rw [htau, mul_div_assoc, div_self hdt.ne', mul_one, ftoNat_real, Nat.floor_natCast]
    omega
  have n1 : ftoNat (30.0 * conf.tau / conf.dt) = 30 * P := by
    have : 30.0 * conf.tau / conf.dt = ((30 * P : ℕ) : ℝ) := by
      rw [htau]
      push_cast
      norm_num
      field_simp
    rw [this, ftoNat_real, Nat.floor_natCast]
    omega
  have hfin : ((fofInt (n : ℤ) : ℝ) + 30.0) * conf.tau = ((n + 30) * P : ℕ) * conf.dt := by
    rw [htau, fofInt_real]
    push_cast
    norm_num
    ring
  let st : ℕ → RunState (SpinChain ℝ) (List ℝ) := fun k => ⟨chain (30 * P + k), k,
    ((List.range' (30 * P + 1) k).filter fun i => decide (P ∣ i)).map smp⟩
  have hst : ∀ i, singlePass (30 * P) P (st i) = .ok (st (i + 1)) := by
    intro i
    unfold singlePass
    simp only [st, kstep, ok_bind]
    rw [if_neg (by omega)]
    have hsucc : ((List.range' (30 * P + 1) (i + 1)).filter fun i => decide (P ∣ i)).map smp
        = ((List.range' (30 * P + 1) i).filter fun i => decide (P ∣ i)).map smp ++
          if (30 * P + i + 1) % P = 0 then [smp (30 * P + i + 1)] else [] := by
      rw [List.range'_concat, List.filter_append, List.map_append]
      congr 1
      rw [show 30 * P + 1 + 1 * i = 30 * P + i + 1 by omega]
      by_cases hc : (30 * P + i + 1) % P = 0
      · rw [if_pos hc, List.filter_cons, if_pos (by simpa [Nat.dvd_iff_mod_eq_zero] using hc)]
        rfl
      · rw [if_neg hc, List.filter_cons, if_neg (by simpa [Nat.dvd_iff_mod_eq_zero] using hc)]
        rfl
    rw [hsucc]
    have hh := hsmp (30 * P + i + 1)
    split
    · obtain ⟨x, hx, hx'⟩ := bind_eq_ok hh
      rw [show 30 * P + i + 1 = 30 * P + i + 1 from rfl, hx, ok_bind, ← Except.ok.inj hx']
      rfl
    · rw [List.append_nil]; rfl
  have key := whileN_exact (guard := fun s : RunState (SpinChain ℝ) (List ℝ) =>
      flt s.chain.t (((n + 30) * P : ℕ) * conf.dt))
    (body := singlePass (30 * P) P) (Inv := fun k x => x = st k) (N := n * P + m)
    (fun j d hj hd => by
      subst hd
      refine ⟨?_, _, hst j, rfl⟩
      simp only [st, flt_real, htime, decide_eq_true_eq, hrel]
      have : (j : ℝ) < n * P + m := by exact_mod_cast hj
      push_cast
      nlinarith)
    (fun d hd => by
      subst hd
      simp only [st, flt_real, htime, decide_eq_false_iff_not, not_lt, hrel]
      push_cast
      nlinarith) (n * P + m) 0 (st 0) (by omega) rfl
  have hjob : ∀ k, singleJob conf c n k = whileN (fun s : RunState (SpinChain ℝ) (List ℝ) =>
      flt s.chain.t (((n + 30) * P : ℕ) * conf.dt)) (singlePass (30 * P) P) k (st 0) := by
    intro k
    unfold singleJob
    simp only [n1, n2, hfin]
    rw [kupd, ok_bind]
    rfl
  refine ⟨c, chain, smp, h1, k0, kstep, fun i => ⟨e i, he i, rfl⟩, ?_, fun k hk => ?_⟩
  · obtain ⟨⟨d, h3, h4⟩, -⟩ := key
    rw [hjob, h3, h4]
    refine congrArg (fun r => Except.ok (some (RunState.mk _ _ r))) ?_
    have := filter_multiples (P := P) (a := 31) (n := n + m / P) hP (30 * P + 1)
      (30 * P + 1 + (n * P + m)) (by
        intro j
        constructor
        · rintro ⟨h1, h2⟩
          have h3 : 31 * P ≤ j * P := Nat.mul_le_mul_right _ h1
          have h4 : j * P ≤ (30 + (n + m / P)) * P := Nat.mul_le_mul_right _ (by omega)
          have h5 : m / P * P ≤ m := Nat.div_mul_le_self m P
          have h6 : (30 + (n + m / P)) * P = 30 * P + n * P + m / P * P := by ring
          omega
        · rintro ⟨h1, h2⟩
          have h3 := Nat.lt_of_mul_lt_mul_right (show 30 * P < j * P by omega)
          refine ⟨h3, ?_⟩
          by_contra h4
          have h5 : (31 + n + m / P) * P ≤ j * P := Nat.mul_le_mul_right _ (by omega)
          have h6 : m < m / P * P + P := Nat.lt_div_mul_add hP
          have h7 : (31 + n + m / P) * P = 30 * P + n * P + (m / P * P + P) := by ring
          omega)
    rw [Nat.add_sub_cancel_left] at this
    rw [this, List.map_map]
    rfl
  · rw [hjob]
    exact key.2 k hk

/-- Without relaxation there are exactly `sample_num` samples, taken at the times
`31 tau, 32 tau, ..., (30 + sample_num) tau`. -/
theorem C73_exact (conf : Config ℝ) (v : ValidConf conf L s) (hs : 1 ≤ s) (hsL : s ≤ L)
    (hdt : 0 < conf.dt) (P n : ℕ) (hP : 1 ≤ P) (hP' : 30 * P < 2 ^ 64)
    (htau : conf.tau = P * conf.dt) (hrel : conf.trel = 0) (num : ℕ) (u zj zh : ℕ → ℝ) :
    ∃ (c : SpinChain ℝ) (st : RunState (SpinChain ℝ) (List ℝ)),
      SpinChain.new conf num u zj zh = .ok c ∧ singleJob conf c n (n * P) = .ok (some st) ∧
      st.rows.length = n ∧
      ∀ i (h : i < st.rows.length), st.rows[i].head? = some ((31 + i) * conf.tau) := by
  obtain ⟨c, chain, smp, h1, h2, h3, h4, h5, -⟩ := C73_samples conf v hs hsL hdt P 0 n hP hP' htau
    (by rw [hrel]; simp) num u zj zh
  refine ⟨c, _, h1, h5, by simp, ?_⟩
  intro i hi
  simp only [List.getElem_map, List.getElem_range']
  obtain ⟨e, -, he⟩ := h4 ((31 + 1 * i) * P)
  rw [he, List.head?_cons, hrel, htau]
  push_cast
  congr 1
  ring

example : ∃ conf : Config ℝ, ValidConf conf 512 8 ∧ 0 < conf.dt ∧
    conf.tau = (500 : ℕ) * conf.dt ∧ conf.trel = 0 ∧ 30 * 500 < 2 ^ 64 := by
  refine ⟨strobConf, strobConf_valid, ?_, ?_, ?_, by norm_num⟩ <;>
    norm_num [strobConf, Config.default]

end Verif.Props
