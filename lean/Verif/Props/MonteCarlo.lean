/-
C77: the rows of the Monte-Carlo runs.
-/
import Verif.Props.Split
import Verif.Props.Profile
import Verif.Props.Sites
import Verif.Props.Runs

namespace Verif.Props

open Spec Finset

variable {L s : ℕ}

/-- What the workers of a Monte-Carlo run do: `n` workers, worker `i` starts from a new chain number
`i`, and takes `pts i` snapshots of it, a million updates apart; together they take `points`
snapshots. -/
structure McCourse (k : Sampler) (conf : Config ℝ) (r : ℕ → Rand ℝ) (n : ℕ) (pts : ℕ → ℕ)
    (chain : ℕ → ℕ → SpinChain ℝ) : Prop where
  workers : n = min conf.threads conf.mc_points
  start : ∀ i < n, SpinChain.new conf i (r i).u (r i).zj (r i).zh = .ok (chain i 0)
  step : ∀ i < n, ∀ j, sample ((List.range 1000000).map fun m => (k, (r i).ds j m)) (chain i j)
    = .ok (chain i (j + 1))
  busy : ∀ i < n, 1 ≤ pts i
  total : ∑ i ∈ range n, pts i = conf.mc_points

theorem million_eq : million = 1000000 := by unfold million; rfl

theorem jobs_eq {α : Type} (k : Sampler) (obs : SpinChain ℝ → R α) (val : SpinChain ℝ → α)
    (chk : Bool) (conf : Config ℝ) (v : ValidConf conf L s) (ht : 1 ≤ conf.threads)
    (hp : 1 ≤ conf.mc_points)
    (hb : conf.mc_points < 2 ^ 31 ∨ chk = false ∧ conf.mc_points < 2 ^ 32) (r : ℕ → Rand ℝ)
    (hobs : ∀ c : SpinChain ℝ, WF c L s → obs c = .ok (val c)) :
    ∃ n pts chain, McCourse k conf r n pts chain ∧ (∀ i < n, ∀ j, WF (chain i j) L s) ∧
      mcJobs chk conf (fun c n ds => sampleLoop k.run million n obs ds c) r
        = .ok ((List.range n).map fun i => (List.range (pts i)).map fun j => val (chain i (j + 1))) := by
  classical
  obtain ⟨l, h1, h2, h3, h4⟩ := C51_split chk conf.threads conf.mc_points ht hp hb
  have key : ∀ i, ∃ chain : ℕ → SpinChain ℝ,
      SpinChain.new conf i (r i).u (r i).zj (r i).zh = .ok (chain 0) ∧
      (∀ j, sample (block k ((r i).ds j) million) (chain j) = .ok (chain (j + 1))) ∧
      (∀ j, WF (chain j) L s) ∧
      ∀ n, sampleLoop k.run million n obs (r i).ds (chain 0)
        = .ok (chain n, (List.range n).map fun j => val (chain (j + 1))) := by
    intro i
    obtain ⟨c, a1, w, -⟩ := valid_new v i (r i).u (r i).zj (r i).zh
    obtain ⟨chain, va, b1, b2, b3, b4, -⟩ := sampleLoop_eq k million 0 obs (r i).ds c w v.L_two
      (fun c w => ⟨_, hobs c w⟩)
    refine ⟨chain, by rw [b1]; exact a1, b2, b3, ?_⟩
    intro n
    obtain ⟨chain', va', d1, d2, d3, d4, d5⟩ := sampleLoop_eq k million n obs (r i).ds c w v.L_two
      (fun c w => ⟨_, hobs c w⟩)
    have e : ∀ j, chain' j = chain j := by
      intro j
      induction j with
      | zero => rw [d1, b1]
      | succ j ih =>
        have := d2 j
        rw [ih, b2 j] at this
        exact (Except.ok.inj this).symm
    rw [b1, d5, e]
    refine congrArg (fun l => Except.ok (chain n, l)) (List.map_congr_left fun j _ => ?_)
    have := d4 j
    rw [hobs _ (d3 _), e] at this
    exact (Except.ok.inj this).symm
  choose chain k1 k2 k3 k4 using key
  refine ⟨l.length, fun i => l.getD i 0, chain, ⟨h2, fun i _ => k1 i, ?_, ?_, ?_⟩, fun i _ => k3 i, ?_⟩
  · intro i _ j
    have := k2 i j
    unfold block at this
    rw [million_eq] at this
    exact this
  · intro i hi
    show 1 ≤ l.getD i 0
    rw [List.getD_eq_getElem _ _ hi]
    exact (h3 _ (List.getElem_mem hi)).1
  · rw [← h4]
    conv_rhs => rw [← List.map_id l]
    clear * -
    induction l with
    | nil => rfl
    | cons a l ih =>
      rw [List.length_cons, Finset.sum_range_succ', List.map_cons, List.sum_cons, ← ih]
      simp [add_comm]
  · unfold mcJobs
    rw [h1, ok_bind, mapRange_ok (fun i => (List.range (l.getD i 0)).map fun j => val (chain i (j + 1))),
      Nat.sub_zero, List.range_eq_range']
    intro i _ hi
    rw [idx_ok hi, ok_bind, k1, ok_bind, List.getD_eq_getElem _ _ hi]
    show (sampleLoop k.run million l[i] obs (r i).ds (chain i 0) >>= fun p => Except.ok p.2) = _
    rw [k4]
    rfl

/-- the documented columns of `mc_live.dat` for a chain: energy per site of the whole ring in the field
at its time, energy per site of the subsystem closed to a ring in the static field, magnetisation per
site of the subsystem, and two spins -/
noncomputable def mcColumns (L s : ℕ) (c : SpinChain ℝ) : List ℝ :=
  [ringEnergy L (S c) (J c) (B c s c.t) / L, ringEnergy s (S c) (J c) (H0 c) / s,
    (∑ i ∈ range s, (S c i).x) / s, (∑ i ∈ range s, (S c i).y) / s, (∑ i ∈ range s, (S c i).z) / s,
    (S c (s / 4)).x, (S c (s / 4)).y, (S c (s / 4)).z,
    (S c (3 * s / 4)).x, (S c (3 * s / 4)).y, (S c (3 * s / 4)).z]

theorem mcRow_eq (c : SpinChain ℝ) (w : WF c L s) (hs : 1 ≤ s) (hsL : s ≤ L) :
    mcRow c = .ok (mcColumns L s c) := by
  have n1 : ftoNat (((s : ℤ) : ℝ) / 4) = s / 4 := by
    have : ((s : ℤ) : ℝ) / 4 = ((s : ℕ) : ℝ) / ((4 : ℕ) : ℝ) := by push_cast; ring
    rw [ftoNat_real, this, Nat.floor_div_eq_div]
    have := w.s_lt
    omega
  have n2 : ftoNat (3 * ((s : ℤ) : ℝ) / 4) = 3 * s / 4 := by
    have : 3 * ((s : ℤ) : ℝ) / 4 = ((3 * s : ℕ) : ℝ) / ((4 : ℕ) : ℝ) := by push_cast; ring
    rw [ftoNat_real, this, Nat.floor_div_eq_div]
    have := w.s_lt
    omega
  have i1 : ∀ i < L, ∃ sp : Spin ℝ, idx c.spins i = .ok sp ∧ sp.dir = S c i := by
    intro i hi
    have hlt : i < c.spins.length := by rw [w.spins]; exact hi
    refine ⟨c.spins[i], idx_ok hlt, ?_⟩
    rw [S, List.getElem?_eq_getElem hlt]; rfl
  obtain ⟨p1, a1, b1⟩ := i1 (s / 4) (by omega)
  obtain ⟨p2, a2, b2⟩ := i1 (3 * s / 4) (by omega)
  unfold mcRow
  rw [total_energy2_eq w (by omega), mc_system_energy_eq w hs hsL, m_eq w hsL, m_tot_eq w]
  simp only [ok_bind, w.ssize, fofInt_real, lit_4, lit_3, n1, n2, a1, a2, b1, b2]
  rfl

/-- `run_mc` sends exactly `mc_points` rows, whatever the number of threads: worker `i` sends, for each
of its snapshots, the documented columns. -/
theorem C77_run_mc (chk : Bool) (conf : Config ℝ) (v : ValidConf conf L s) (hs : 1 ≤ s) (hsL : s ≤ L)
    (ht : 1 ≤ conf.threads) (hp : 1 ≤ conf.mc_points)
    (hb : conf.mc_points < 2 ^ 31 ∨ chk = false ∧ conf.mc_points < 2 ^ 32) (r : ℕ → Rand ℝ) :
    ∃ n pts chain, McCourse .plain conf r n pts chain ∧
      run_mc chk conf r = .ok ((List.range n).map fun i =>
        (List.range (pts i)).map fun j => mcColumns L s (chain i (j + 1))) := by
  obtain ⟨n, pts, chain, h1, -, h2⟩ := jobs_eq .plain mcRow (mcColumns L s) chk conf v ht hp hb r
    (fun c w => mcRow_eq c w hs hsL)
  exact ⟨n, pts, chain, h1, h2⟩

/-- The same for `run_mc_magnus`, with its own updates. -/
theorem C77_run_mc_magnus (chk : Bool) (conf : Config ℝ) (v : ValidConf conf L s) (hs : 1 ≤ s)
    (hsL : s ≤ L) (ht : 1 ≤ conf.threads) (hp : 1 ≤ conf.mc_points)
    (hb : conf.mc_points < 2 ^ 31 ∨ chk = false ∧ conf.mc_points < 2 ^ 32) (r : ℕ → Rand ℝ) :
    ∃ n pts chain, McCourse .magFull conf r n pts chain ∧
      run_mc_magnus chk conf r = .ok ((List.range n).map fun i =>
        (List.range (pts i)).map fun j => mcColumns L s (chain i (j + 1))) := by
  obtain ⟨n, pts, chain, h1, -, h2⟩ := jobs_eq .magFull mcRow (mcColumns L s) chk conf v ht hp hb r
    (fun c w => mcRow_eq c w hs hsL)
  exact ⟨n, pts, chain, h1, h2⟩

/-- `run_mc_profile`: however the messages of the workers are interleaved, the file gets one row for
every site, with the means over all `mc_points` snapshots of half the energy of its two bonds and of
its spin. -/
theorem C77_run_mc_profile (chk : Bool) (conf : Config ℝ) (v : ValidConf conf L s)
    (ht : 1 ≤ conf.threads) (hp : 1 ≤ conf.mc_points)
    (hb : conf.mc_points < 2 ^ 31 ∨ chk = false ∧ conf.mc_points < 2 ^ 32) (r : ℕ → Rand ℝ) :
    ∃ n pts chain msgs, McCourse .plain conf r n pts chain ∧ run_mc_profile chk conf r = .ok msgs ∧
      ∀ snaps, snaps = (List.range n).flatMap (fun i => (List.range (pts i)).map fun j => chain i (j + 1)) →
      snaps.length = conf.mc_points ∧
      ∀ recv, recv.Perm (msgs.flatten.flatten) →
        profileWriter L conf.mc_points recv = .ok (some ((List.range L).map fun i =>
          (i, (snaps.map fun c => -(dot (S c (left L i)) (had (J c (left L i)) (S c i))
              + dot (S c i) (had (J c i) (S c (right L i)))) / 2).sum / conf.mc_points,
            ⟨(snaps.map fun c => (S c i).x).sum / conf.mc_points,
              (snaps.map fun c => (S c i).y).sum / conf.mc_points,
              (snaps.map fun c => (S c i).z).sum / conf.mc_points⟩))) := by
  obtain ⟨n, pts, chain, h1, -, h2⟩ := jobs_eq .plain profileMsgs
    (fun c => (List.range L).map (siteMsg c L)) chk conf v ht hp hb r (fun c w => (C76_profile c w).1)
  refine ⟨n, pts, chain, _, h1, h2, ?_⟩
  rintro snaps rfl
  have hlen : ((List.range n).flatMap (fun i => (List.range (pts i)).map fun j => chain i (j + 1))).length
      = conf.mc_points := by
    rw [List.length_flatMap, ← h1.total]
    simp only [List.length_map, List.length_range]
    generalize n = n
    induction n with
    | zero => rfl
    | succ n ih => rw [List.range_succ, List.map_append, List.sum_append, ih, Finset.sum_range_succ]; simp
  refine ⟨hlen, ?_⟩
  intro recv hrecv
  have := C52_mean L (fun c i => (siteMsg c L i).2.1) (fun c i => (siteMsg c L i).2.2)
    ((List.range n).flatMap (fun i => (List.range (pts i)).map fun j => chain i (j + 1)))
    (by
      intro hc
      rw [hc] at hlen
      simp at hlen
      omega) recv (by
      refine hrecv.trans (List.Perm.of_eq ?_)
      rw [List.flatMap_assoc, ← List.flatMap_def, List.flatMap_def, List.flatMap_def,
        List.flatten_flatten, List.map_map]
      simp only [List.flatMap_def, List.map_map]
      rfl)
  rw [hlen] at this
  exact this

/-- the default number of threads and points -/
example : 1 ≤ strobConf.threads ∧ 1 ≤ strobConf.mc_points ∧ strobConf.mc_points < 2 ^ 31 := by
  decide

end Verif.Props
