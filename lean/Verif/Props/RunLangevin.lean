/-
C56, C57 for `run_langevin`.
-/
import Verif.Props.Runs
import Verif.Props.Langevin

namespace Verif

open Spec

section anyF

set_option linter.unusedSectionVars false

variable {F : Type} [Add F] [Sub F] [Mul F] [Div F] [Neg F] [OfScientific F] [FOps F]

theorem l_metropolis_ok {c : LangevinChain F} {L s : ℕ} (w : WF c.toSpinChain L s) (hL : 2 ≤ L)
    (d : Draw F) : ∃ sp, c.metropolis_update d = .ok { c with spins := sp } ∧ sp.length = L := by
  have hi : d.site % L < L := Nat.mod_lt _ (by omega)
  have hsp : d.site % L < c.toSpinChain.spins.length := by rw [w.spins]; exact hi
  obtain ⟨a1, e1⟩ := spins_total w hi
  obtain ⟨a2, e2⟩ := spins_total w (left_lt (i := d.site % L) (by omega : 1 ≤ L))
  obtain ⟨a3, e3⟩ := spins_total w (right_lt' (i := d.site % L) (by omega : 1 ≤ L))
  obtain ⟨a4, e4⟩ := j_total w (left_lt (i := d.site % L) (by omega : 1 ≤ L))
  obtain ⟨a5, e5⟩ := j_total w hi
  unfold LangevinChain.metropolis_update
  simp only [hsize_natF w, genRange_ok (by omega : 1 ≤ L), ok_bind, leftIdx_ok hi, rightIdx_ok hi,
    e1, e2, e3, e4, e5, finish_ok hsp]
  split
  · exact ⟨_, rfl, by rw [List.length_set, w.spins]⟩
  · exact ⟨_, rfl, w.spins⟩

theorem l_warm_ok {c : LangevinChain F} {L s : ℕ} (w : WF c.toSpinChain L s) (hL : 2 ≤ L)
    (ds : ℕ → Draw F) (n : ℕ) :
    ∃ sp, forRange 0 n c (fun k c => c.metropolis_update (ds k)) = .ok { c with spins := sp } ∧
      sp.length = L := by
  obtain ⟨r, h1, sp, rfl, hl⟩ := forRange_inv (lo := 0) (hi := n) (init := c)
    (body := fun k c => c.metropolis_update (ds k))
    (fun _ c' => ∃ sp, c' = { c with spins := sp } ∧ sp.length = L) ⟨c.spins, rfl, w.spins⟩
    (Nat.zero_le _) (by
      rintro i _ _ _ ⟨sp, rfl, hl⟩
      have w' : WF ({ c with spins := sp } : LangevinChain F).toSpinChain L s :=
        ⟨w.hsize, w.ssize, w.L_lt, w.s_lt, hl, w.j, w.h, w.hs⟩
      obtain ⟨sp', h, hl'⟩ := l_metropolis_ok w' hL (ds i)
      exact ⟨_, h, sp', rfl, hl'⟩)
  exact ⟨sp, h1, hl⟩

end anyF

namespace Props

open Finset

variable {L s : ℕ}

/-- The course of `run_langevin` for one chain, whatever the decisions `b i` whether to log. -/
theorem langevin_job (conf : Config ℝ) (v : ValidConf conf L s) (hs : 2 ≤ s) (hsL : s ≤ L)
    (hdt : 0 < conf.dt) (gamma : ℝ) (num : ℕ) (u zj zh : ℕ → ℝ) (ds : ℕ → Draw ℝ) (zs : ℕ → Noise ℝ) :
    ∃ (c c0 : LangevinChain ℝ) (N : ℕ) (chain : ℕ → LangevinChain ℝ) (row : ℕ → List ℝ),
      LangevinChain.new conf num gamma u zj zh = .ok c ∧
      forRange 0 warmup c (fun k c => c.metropolis_update (ds k)) = .ok c0 ∧
      StepsNeeded (-conf.trel) conf.dt conf.t N ∧
      chain 0 = c0 ∧ (∀ i, (chain i).update (zs i) = .ok (chain (i + 1))) ∧
      (∀ i, (chain i).log = .ok (row i) ∧ (row i).length = 8 ∧
        (row i).head? = some (-conf.trel + i * conf.dt)) ∧
      ∀ b : ℕ → Bool, (∀ i, i < N → strobHit conf.strob (ftoNat (fround (conf.tau / conf.dt)))
          ((-conf.trel + (i + 1 : ℕ) * conf.dt) / conf.dt) = .ok (b (i + 1))) →
        langevinJob c ds zs N = .ok (some ⟨chain N, N,
          ((List.range (N + 1)).filter fun i => i == 0 || b i).map row⟩) ∧
        ∀ n, n ≠ N → langevinJob c ds zs n = .ok none := by
  obtain ⟨sc, h1, w, ht, hv, -, -⟩ := valid_new v num u zj zh
  let c : LangevinChain ℝ := { sc with
    file := some (SpinChain.logName conf.file num)
    gamma := gamma }
  have hc : LangevinChain.new conf num gamma u zj zh = .ok c := by
    unfold LangevinChain.new
    rw [h1]
    rfl
  have wc : WF c.toSpinChain L s :=
    ⟨w.hsize, w.ssize, w.L_lt, w.s_lt, w.spins, w.j, w.h, w.hs⟩
  obtain ⟨sp0, h2, hl⟩ := l_warm_ok wc v.L_two ds warmup
  have w0 : WF ({ c with spins := sp0 } : LangevinChain ℝ).toSpinChain L s :=
    ⟨w.hsize, w.ssize, w.L_lt, w.s_lt, hl, w.j, w.h, w.hs⟩
  obtain ⟨N, hN⟩ := exists_steps (-conf.trel) conf.t hdt
  obtain ⟨chain, k0, k1, k2⟩ := exists_orbit (f := fun i (c : LangevinChain ℝ) => c.update (zs i))
    (P := fun d : LangevinChain ℝ => WF d.toSpinChain L s ∧ d.vars = conf) (fun i d hd => by
      obtain ⟨wd, hvd⟩ := hd
      obtain ⟨j, h, sp, tj, th, tsp⟩ := wf_tabs wd (by have := v.L_two; omega)
      obtain ⟨e, he⟩ := h_ext_ok wd.hs (d.t + d.vars.dt)
      obtain ⟨sp', h, -⟩ := l_update_tab wd v.L_two (zs i) tj th tsp he rfl
      exact ⟨_, h, l_update_wf wd h, hvd⟩) (c := { c with spins := sp0 }) ⟨w0, hv⟩
  have htime : ∀ i : ℕ, (chain i).t = -conf.trel + i * conf.dt := by
    intro i
    induction i with
    | zero =>
      rw [k0]
      show sc.t = _
      rw [ht]
      simp
    | succ i ih =>
      rw [(l_update_frame (k2 i)).2.2.2.2.2.1, ih, (k1 i).2]
      push_cast
      ring
  choose row hrow using fun i => C69_row (chain i) L s (k1 i).1 hs hsL
  refine ⟨c, { c with spins := sp0 }, N, chain, row, hc, h2, hN, k0, k2, ?_, ?_⟩
  · intro i
    refine ⟨(hrow i).1, ?_, ?_⟩
    · rw [(hrow i).2.2.2]; rfl
    · rw [(hrow i).2.2.2, ← htime]; rfl
  · intro b hb
    have key := whileN_run (upd := fun k (c : LangevinChain ℝ) => c.update (zs k))
      (hit := fun c => strobHit c.vars.strob (ftoNat (fround (conf.tau / conf.dt))) (c.t / c.vars.dt))
      (row := fun c => do return [← c.log])
      (g := fun c : LangevinChain ℝ => flt c.t c.vars.t) (chain := chain) (b := b)
      (rs := fun i => [row i]) (N := N) (fun i _ => k2 i)
      (fun i hi => by
        simp only [flt_real, htime, (k1 i).2, decide_eq_true_eq]
        exact hN.1 i hi)
      (by
        simp only [flt_real, htime, (k1 N).2, decide_eq_false_iff_not, not_lt]
        exact hN.2)
      (fun i hi => by
        rw [(k1 (i + 1)).2, htime]
        exact hb i hi)
      (fun i _ _ => by rw [(hrow (i + 1)).1]; rfl) [row 0]
    rw [← written_map]
    have hjob : ∀ n, langevinJob c ds zs n = whileN (fun st => flt st.chain.t st.chain.vars.t)
        (langevinPass zs (ftoNat (fround (conf.tau / conf.dt)))) n ⟨chain 0, 0, [row 0]⟩ := by
      intro n
      unfold langevinJob
      rw [h2, ok_bind, ← k0, (hrow 0).1, ok_bind, (k1 0).2]
    exact ⟨by rw [hjob]; exact key.1, fun n hn => by rw [hjob]; exact key.2 n hn⟩

/-- `run_langevin` without stroboscopic logging: `N` steps and `N + 1` rows of eight columns. -/
theorem C56_run_langevin (conf : Config ℝ) (v : ValidConf conf L s) (hs : 2 ≤ s) (hsL : s ≤ L)
    (hdt : 0 < conf.dt) (hst : conf.strob = false) (gamma : ℝ) (_hg : 0 ≤ gamma) (_hb : 0 < conf.beta)
    (num : ℕ) (u zj zh : ℕ → ℝ) (ds : ℕ → Draw ℝ) (zs : ℕ → Noise ℝ) :
    ∃ (c c0 : LangevinChain ℝ) (N : ℕ) (chain : ℕ → LangevinChain ℝ) (rows : List (List ℝ)),
      LangevinChain.new conf num gamma u zj zh = .ok c ∧
      forRange 0 warmup c (fun k c => c.metropolis_update (ds k)) = .ok c0 ∧
      StepsNeeded (-conf.trel) conf.dt conf.t N ∧
      chain 0 = c0 ∧ (∀ i, (chain i).update (zs i) = .ok (chain (i + 1))) ∧
      langevinJob c ds zs N = .ok (some ⟨chain N, N, rows⟩) ∧
      (∀ n, n ≠ N → langevinJob c ds zs n = .ok none) ∧
      rows.length = N + 1 ∧
      ∀ i (h : i < rows.length), (chain i).log = .ok rows[i] ∧ rows[i].length = 8 ∧
        rows[i].head? = some (-conf.trel + i * conf.dt) := by
  obtain ⟨c, c0, N, chain, row, h1, h2, h3, h4, h5, h6, h7⟩ :=
    langevin_job conf v hs hsL hdt gamma num u zj zh ds zs
  obtain ⟨hj1, hj2⟩ := h7 (fun _ => true) (fun i _ => by rw [hst]; rfl)
  simp only [Bool.or_true, List.filter_true] at hj1
  refine ⟨c, c0, N, chain, (List.range (N + 1)).map row, h1, h2, h3, h4, h5, hj1, hj2, by simp, ?_⟩
  intro i hi
  simp only [List.getElem_map, List.getElem_range]
  exact h6 i

open Classical in
/-- Stroboscopic `run_langevin`.  The number of steps per period is rounded to the nearest here. -/
theorem C57_run_langevin (conf : Config ℝ) (v : ValidConf conf L s) (hs : 2 ≤ s) (hsL : s ≤ L)
    (hdt : 0 < conf.dt) (hst : conf.strob = true) (P : ℕ) (m : ℤ)
    (hP : 1 ≤ P) (hP' : P < 2 ^ 64) (htau : conf.tau = P * conf.dt) (hrel : conf.trel = m * conf.dt)
    (hT : conf.t ≤ 2 ^ 63 * conf.dt) (gamma : ℝ) (_hg : 0 ≤ gamma) (_hb : 0 < conf.beta)
    (num : ℕ) (u zj zh : ℕ → ℝ) (ds : ℕ → Draw ℝ) (zs : ℕ → Noise ℝ) :
    ∃ (c c0 : LangevinChain ℝ) (N : ℕ) (chain : ℕ → LangevinChain ℝ) (row : ℕ → List ℝ),
      LangevinChain.new conf num gamma u zj zh = .ok c ∧
      forRange 0 warmup c (fun k c => c.metropolis_update (ds k)) = .ok c0 ∧
      StepsNeeded (-conf.trel) conf.dt conf.t N ∧
      chain 0 = c0 ∧ (∀ i, (chain i).update (zs i) = .ok (chain (i + 1))) ∧
      (∀ i, (chain i).log = .ok (row i) ∧ (row i).head? = some (-conf.trel + i * conf.dt)) ∧
      langevinJob c ds zs N = .ok (some ⟨chain N, N,
        ((List.range (N + 1)).filter fun i : ℕ => i = 0 ∨ -conf.trel + i * conf.dt ≤ 0 ∨
          WholePeriods conf.tau (-conf.trel + i * conf.dt)).map row⟩) := by
  obtain ⟨c, c0, N, chain, row, h1, h2, h3, h4, h5, h6, h7⟩ :=
    langevin_job conf v hs hsL hdt gamma num u zj zh ds zs
  obtain ⟨hj1, -⟩ := h7 (fun i : ℕ => decide (-conf.trel + i * conf.dt ≤ 0 ∨
          WholePeriods conf.tau (-conf.trel + i * conf.dt))) (fun i hi => by
    have hP0 : fround (conf.tau / conf.dt) = (P : ℝ) := by
      rw [htau, mul_div_assoc, div_self hdt.ne', mul_one, fround_real, realRound, if_pos (by positivity)]
      have : ⌊(P : ℝ) + 1 / 2⌋ = (P : ℤ) := by
        rw [Int.floor_eq_iff]
        push_cast
        constructor <;> linarith
      rw [this]
      simp
    have h3 := h3.1 i hi
    rw [hst, hP0, htau]
    refine strob_whole (m := m) hdt hP hP' (by rw [hrel]) ?_
    push_cast
    have : conf.dt ≤ 2 ^ 63 * conf.dt := by nlinarith
    nlinarith)
  refine ⟨c, c0, N, chain, row, h1, h2, h3, h4, h5, fun i => ⟨(h6 i).1, (h6 i).2.2⟩, ?_⟩
  rw [hj1]
  congr 5
  funext i
  rw [Bool.eq_iff_iff]
  simp

example : ∃ conf : Config ℝ, ValidConf conf 512 8 ∧ 0 < conf.dt ∧
    conf.strob = true ∧ conf.tau = (500 : ℕ) * conf.dt ∧ conf.trel = (50 : ℤ) * conf.dt ∧
    conf.t ≤ 2 ^ 63 * conf.dt ∧ 0 < conf.beta := by
  refine ⟨{ strobConf with trel := 1 }, ?_, ?_, rfl, ?_, ?_, ?_, ?_⟩
  · constructor <;> simp [strobConf, Config.default]
  all_goals norm_num [strobConf, Config.default]

end Props

end Verif
