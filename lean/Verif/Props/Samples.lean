/-
C78, C79: samples of `gen_hist_dynamics` and `gen_hist_magnus`.
-/
import Verif.Model.Writers
import Verif.Props.Histogram

namespace Verif.Props

open Spec Finset

variable {L s : ℕ}

/-- the columns `mx my mz ed` -/
theorem histSample_eq (c : SpinChain ℝ) (w : WF c L s) (hs : 1 ≤ s) (hsL : s ≤ L) :
    ∃ e, c.system_energy = .ok e ∧ histSample c = .ok [(∑ j ∈ range s, (S c j).x) / s,
      (∑ j ∈ range s, (S c j).y) / s, (∑ j ∈ range s, (S c j).z) / s, e] := by
  obtain ⟨e, he⟩ := system_energy_total w hs hsL
  refine ⟨e, he, ?_⟩
  unfold histSample
  simp only [m_eq w hsL, he, w.ssize, fofInt_real, ok_bind]
  rfl

/-- the number of whole steps in a time -/
def WholeSteps (t dt : ℝ) (N : ℕ) : Prop := N * dt ≤ t ∧ t < (N + 1) * dt

/-- `gen_hist_dynamics` gives `sample_num` rows: number, magnetisation per site and energy of the
subsystem of a new chain after the whole number of steps in `t`. -/
theorem C78_rows (conf : Config ℝ) (v : ValidConf conf L s) (hs : 1 ≤ s) (hsL : s ≤ L)
    (ht : 1 ≤ conf.threads) (n : ℕ) (hn : 1 ≤ n) (r : ℕ → Rand ℝ) (hdt : 0 < conf.dt) (N : ℕ)
    (hN : WholeSteps conf.t conf.dt N) (hN' : N < 2 ^ 64) :
    ∃ rows, gen_hist_dynamics conf n r = .ok rows ∧ rows.length = n ∧
      ∀ i (hi : i < rows.length), ∃ c0 c e,
        SpinChain.new conf 0 (r i).u (r i).zj (r i).zh = .ok c0 ∧ c0.updates N = .ok c ∧
        c.t = -conf.trel + N * conf.dt ∧ c.system_energy = .ok e ∧
        rows[i] = [(i : ℝ), (∑ j ∈ range s, (S c j).x) / s, (∑ j ∈ range s, (S c j).y) / s,
          (∑ j ∈ range s, (S c j).z) / s, e] := by
  have hsteps : ftoNat (conf.t / conf.dt) = N := by
    rw [ftoNat_real, (Nat.floor_eq_iff (div_nonneg (by
      have h1 := hN.1
      have : (0 : ℝ) ≤ N * conf.dt := by positivity
      linarith) hdt.le)).mpr ⟨(le_div_iff₀ hdt).mpr hN.1, (div_lt_iff₀ hdt).mpr hN.2⟩]
    omega
  have key : ∀ i, ∃ c0 c e, SpinChain.new conf 0 (r i).u (r i).zj (r i).zh = .ok c0 ∧
      c0.updates N = .ok c ∧ c.t = -conf.trel + N * conf.dt ∧ c.system_energy = .ok e ∧
      histSample c = .ok [(∑ j ∈ range s, (S c j).x) / s, (∑ j ∈ range s, (S c j).y) / s,
        (∑ j ∈ range s, (S c j).z) / s, e] := by
    intro i
    obtain ⟨c0, h1, w, h2, h3, -, -⟩ := valid_new v 0 (r i).u (r i).zj (r i).zh
    obtain ⟨chain, k0, kw, kstep, kupd⟩ := update_orbit w v.L_two
    obtain ⟨e, h4, h5⟩ := histSample_eq (chain N) (kw N) hs hsL
    exact ⟨c0, chain N, e, h1, kupd N, by rw [C25_time c0 (chain N) N (kupd N), h2, h3], h4, h5⟩
  choose c0 c e k1 k2 k3 k4 k5 using key
  refine ⟨_, by
    unfold gen_hist_dynamics
    rw [if_neg (show ¬ mcThreads conf.threads n = 0 by unfold mcThreads; split <;> omega)]
    refine mapRange_ok (fun i => [(i : ℝ), (∑ j ∈ range s, (S (c i) j).x) / s,
      (∑ j ∈ range s, (S (c i) j).y) / s, (∑ j ∈ range s, (S (c i) j).z) / s, e i]) ?_
    intro i _ _
    rw [k1, ok_bind]
    unfold dynHistJob
    rw [hsteps, k2, ok_bind, k5, ok_bind, fofInt_real]
    norm_cast, by simp, ?_⟩
  intro i hi
  refine ⟨c0 i, c i, e i, k1 i, k2 i, k3 i, k4 i, ?_⟩
  rw [List.getElem_map, List.getElem_range']
  simp

/-- The file is named after the time `t`; with a relaxation time the samples are taken earlier: in the
default configuration with `trel = 1`, every row is that of the chain at `t - 1`. -/
theorem C78_negation : ∃ conf : Config ℝ, ValidConf conf 512 8 ∧ 0 < conf.dt ∧ 1 ≤ conf.threads ∧
    ∀ (n : ℕ) (r : ℕ → Rand ℝ), 1 ≤ n →
      ∃ rows, gen_hist_dynamics conf n r = .ok rows ∧ rows.length = n ∧
        ∀ i (hi : i < rows.length), ∃ c0 c e,
          SpinChain.new conf 0 (r i).u (r i).zj (r i).zh = .ok c0 ∧ c0.updates 12800 = .ok c ∧
          c.system_energy = .ok e ∧ rows[i] = [(i : ℝ), (∑ j ∈ range 8, (S c j).x) / 8,
            (∑ j ∈ range 8, (S c j).y) / 8, (∑ j ∈ range 8, (S c j).z) / 8, e] ∧
          c.t = conf.t - 1 ∧ c.t ≠ conf.t := by
  have v : ValidConf { strobConf with trel := 1 } 512 8 := by
    have v := strobConf_valid
    exact ⟨v.hsize, v.ssize, v.L_two, v.L_lt, v.s_lt, v.hfield, v.hs, v.jvar, v.hvar⟩
  have hdt : (0 : ℝ) < ({ strobConf with trel := 1 } : Config ℝ).dt := by
    norm_num [strobConf, Config.default]
  have hth : 1 ≤ ({ strobConf with trel := 1 } : Config ℝ).threads := by
    norm_num [strobConf, Config.default]
  refine ⟨_, v, hdt, hth, ?_⟩
  intro n r hn
  obtain ⟨rows, h1, h2, h3⟩ := C78_rows _ v (by norm_num) (by norm_num) hth n hn r hdt 12800
    (by unfold WholeSteps; norm_num [strobConf, Config.default]) (by norm_num)
  refine ⟨rows, h1, h2, fun i hi => ?_⟩
  obtain ⟨c0, c, e, g1, g2, g3, g4, g5⟩ := h3 i hi
  have g6 : c.t = ({ strobConf with trel := 1 } : Config ℝ).t - 1 := by
    rw [g3]
    norm_num [strobConf, Config.default]
  refine ⟨c0, c, e, g1, g2, g4, ?_, g6, by rw [g6]; linarith⟩
  rw [g5]
  norm_num

/-- Without relaxation, and with a whole number of steps, the samples are taken at `t`. -/
theorem C78_exact_partial (conf : Config ℝ) (v : ValidConf conf L s) (hs : 1 ≤ s) (hsL : s ≤ L)
    (ht : 1 ≤ conf.threads) (n : ℕ) (hn : 1 ≤ n) (r : ℕ → Rand ℝ) (hdt : 0 < conf.dt) (N : ℕ)
    (hN : conf.t = N * conf.dt) (hN' : N < 2 ^ 64) (hrel : conf.trel = 0) :
    ∃ rows, gen_hist_dynamics conf n r = .ok rows ∧ rows.length = n ∧
      ∀ i (hi : i < rows.length), ∃ c0 c e,
        SpinChain.new conf 0 (r i).u (r i).zj (r i).zh = .ok c0 ∧ c0.updates N = .ok c ∧
        c.t = conf.t ∧ c.system_energy = .ok e ∧
        rows[i] = [(i : ℝ), (∑ j ∈ range s, (S c j).x) / s, (∑ j ∈ range s, (S c j).y) / s,
          (∑ j ∈ range s, (S c j).z) / s, e] := by
  have := C78_rows conf v hs hsL ht n hn r hdt N ⟨hN.ge, by rw [hN]; nlinarith⟩ hN'
  rw [hrel, neg_zero, zero_add, ← hN] at this
  exact this

example : 1 ≤ strobConf.threads ∧ strobConf.t = (12800 : ℕ) * strobConf.dt ∧ strobConf.trel = 0 := by
  refine ⟨by decide, ?_, ?_⟩ <;> norm_num [strobConf, Config.default]

/-- `gen_hist_magnus` gives `sample_num` rows; row `i` holds the magnetisation per site and the energy of
the subsystem and two of its spins, for the chain without drive after `10000 * (i + 1)` updates of the
Magnus sampler.  The clock, the couplings and the fields of the chain stay the same. -/
theorem C79_rows (conf : Config ℝ) (v : ValidConf conf L s) (hs : 1 ≤ s) (hsL : s ≤ L)
    (n : ℕ) (r : Rand ℝ) :
    ∃ (chain : ℕ → SpinChain ℝ) (rows : List (List ℝ)), SpinChain.new (histConf conf) 0 r.u r.zj r.zh = .ok (chain 0) ∧
      (∀ i, sample ((List.range 10000).map fun k => (Sampler.magnus, r.ds i k)) (chain i)
        = .ok (chain (i + 1))) ∧
      (∀ i, (chain i).t = -conf.trel ∧ (chain i).j_couple = (chain 0).j_couple ∧
        (chain i).static_h = (chain 0).static_h) ∧
      genHistMagnus conf n r = .ok (chain n, rows) ∧ rows.length = n ∧
      ∀ i (hi : i < rows.length), ∀ c, c = chain (i + 1) → ∃ e, c.system_energy = .ok e ∧
        rows[i] = [(∑ j ∈ range s, (S c j).x) / s, (∑ j ∈ range s, (S c j).y) / s,
          (∑ j ∈ range s, (S c j).z) / s, e, (S c (s / 4)).x, (S c (s / 4)).y, (S c (s / 4)).z,
          (S c (3 * s / 4)).x, (S c (3 * s / 4)).y, (S c (3 * s / 4)).z] := by
  have v' : ValidConf (histConf conf) L s :=
    ⟨v.hsize, v.ssize, v.L_two, v.L_lt, v.s_lt, v.hfield, v.hs, v.jvar, v.hvar⟩
  obtain ⟨c, h1, w, ht, hv, -, -⟩ := valid_new v' 0 r.u r.zj r.zh
  have row : ∀ c : SpinChain ℝ, WF c L s → ∃ e, c.system_energy = .ok e ∧
      histSample2 c = .ok [(∑ j ∈ range s, (S c j).x) / s, (∑ j ∈ range s, (S c j).y) / s,
        (∑ j ∈ range s, (S c j).z) / s, e, (S c (s / 4)).x, (S c (s / 4)).y, (S c (s / 4)).z,
        (S c (3 * s / 4)).x, (S c (3 * s / 4)).y, (S c (3 * s / 4)).z] := by
    intro c w
    obtain ⟨e, h2, h3⟩ := histSample_eq c w hs hsL
    refine ⟨e, h2, ?_⟩
    have n1 : ftoNat (((s : ℤ) : ℝ) / 4) = s / 4 := by
      have : ((s : ℤ) : ℝ) / 4 = ((s : ℕ) : ℝ) / ((4 : ℕ) : ℝ) := by push_cast; ring
      rw [ftoNat_real, this, Nat.floor_div_eq_div]
      have := w.s_lt
      omega
    have n2 : ftoNat (3 * ((s : ℤ) : ℝ) / 4) = 3 * s / 4 := by
      have : 3 * ((s : ℤ) : ℝ) / 4 = ((3 * s : ℕ) : ℝ) / ((4 : ℕ) : ℝ) := by push_cast; ring
      rw [ftoNat_real, this, Nat.floor_div_eq_div]
      have := w.s_lt
      omega
    have i1 : ∀ i < L, ∃ sp : Spin ℝ, idx c.spins i = .ok sp ∧ sp.dir = S c i := by
      intro i hi
      have hlt : i < c.spins.length := by rw [w.spins]; exact hi
      refine ⟨c.spins[i], idx_ok hlt, ?_⟩
      rw [S, List.getElem?_eq_getElem hlt]; rfl
    obtain ⟨p1, a1, b1⟩ := i1 (s / 4) (by omega)
    obtain ⟨p2, a2, b2⟩ := i1 (3 * s / 4) (by omega)
    unfold histSample2
    simp only [h3, ok_bind, w.ssize, fofInt_real, lit_4, lit_3, n1, n2, a1, a2, b1, b2]
    rfl
  obtain ⟨chain, val, c0, c1, c2, c3, c4⟩ := sampleLoop_eq .magnus 10000 n histSample2 r.ds c w v.L_two
    (fun d wd => ⟨_, (row d wd).choose_spec.2⟩)
  have hframe : ∀ i, (chain i).t = -conf.trel ∧ (chain i).j_couple = (chain 0).j_couple ∧
      (chain i).static_h = (chain 0).static_h := by
    intro i
    induction i with
    | zero => rw [c0]; exact ⟨ht, rfl, rfl⟩
    | succ i ih =>
      obtain ⟨-, a2, a3, a4, a5, -⟩ := C34_frame _ _ _ (c1 i)
      exact ⟨a4.trans ih.1, a2.trans ih.2.1, a3.trans ih.2.2⟩
  refine ⟨chain, (List.range n).map val, by rw [c0]; exact h1, fun i => c1 i, hframe, ?_, by simp, ?_⟩
  · unfold genHistMagnus
    rw [show ({ conf with drive := DriveType.none, file := "x" } : Config ℝ) = histConf conf from rfl]
    dsimp only
    rw [h1, ok_bind]
    exact c4
  · rintro i hi c rfl
    obtain ⟨e, h2, h3⟩ := row (chain (i + 1)) (c2 _)
    refine ⟨e, h2, ?_⟩
    rw [List.getElem_map, List.getElem_range]
    have := c3 i
    rw [h3] at this
    exact (Except.ok.inj this).symm

end Verif.Props
