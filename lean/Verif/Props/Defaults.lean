/-
C139: the default configuration is usable.
-/
import Verif.Props.RunModes
import Verif.Props.RunLangevin

namespace Verif

open Spec

namespace Props

theorem default_valid : ValidConf (Config.default : Config ℝ) 512 8 := by
  constructor <;> simp [Config.default]

/-- 12800 steps of 0.02 are needed to get from 0 to 256, no more and no less. -/
theorem default_steps (N : ℕ) :
    StepsNeeded (-(Config.default : Config ℝ).trel) (Config.default : Config ℝ).dt (Config.default : Config ℝ).t N → N = 12800 := by
  rintro ⟨h1, h2⟩
  norm_num [Config.default] at h1 h2
  apply le_antisymm
  · by_contra h
    have := h1 12800 (by omega)
    norm_num at this
  · have : (12800 : ℝ) ≤ N := by linarith
    exact_mod_cast this

theorem default_clock (i : ℕ) : -(Config.default : Config ℝ).trel + i * (Config.default : Config ℝ).dt = i / 50 := by
  norm_num [Config.default]
  ring

/-- C139: a run of `run_sim` with the default configuration, whatever the draws. -/
theorem C139_run_sim (num : ℕ) (u zj zh : ℕ → ℝ) (ds : ℕ → Draw ℝ) :
    ∃ (c c0 : SpinChain ℝ) (chain : ℕ → SpinChain ℝ) (rows : List (List ℝ)),
      SpinChain.new Config.default num u zj zh = .ok c ∧ WF c 512 8 ∧
      c.file = some ("log" ++ toString num ++ ".dat") ∧
      sweeps SpinChain.metropolis_update ds warmup c = .ok c0 ∧
      chain 0 = c0 ∧ (∀ i, SpinChain.update (chain i) = .ok (chain (i + 1))) ∧
      simJob c ds 12800 = .ok (some ⟨chain 12800, 12800, rows⟩) ∧ rows.length = 12801 ∧
      ∀ i (h : i < rows.length), (chain i).log = .ok (some rows[i]) ∧ rows[i].length = 13 ∧
        rows[i].head? = some ((i : ℝ) / 50) := by
  obtain ⟨c, c0, N, chain, rows, h1, h2, h3, h4, h5, h6, -, h7, h8⟩ := C56_run_sim Config.default default_valid (by norm_num)
    (by norm_num) (by norm_num [Config.default]) rfl rfl num u zj zh ds
  obtain ⟨c', e1, w, -, -, hf, -⟩ := valid_new default_valid num u zj zh
  rw [h1] at e1
  cases e1
  obtain rfl := default_steps N h3
  refine ⟨c, c0, chain, rows, h1, w, hf rfl, h2, h4, h5, h6, by rw [h7], fun i h => ?_⟩
  obtain ⟨a1, a2, a3⟩ := h8 i h
  refine ⟨a1, a2, a3.trans ?_⟩
  rw [default_clock]

/-- C139: a run of `run_langevin` with the default configuration and any damping that is not negative. -/
theorem C139_run_langevin (gamma : ℝ) (hg : 0 ≤ gamma) (num : ℕ) (u zj zh : ℕ → ℝ) (ds : ℕ → Draw ℝ) (zs : ℕ → Noise ℝ) :
    ∃ (c c0 : LangevinChain ℝ) (chain : ℕ → LangevinChain ℝ) (rows : List (List ℝ)),
      LangevinChain.new Config.default num gamma u zj zh = .ok c ∧
      forRange 0 warmup c (fun k c => c.metropolis_update (ds k)) = .ok c0 ∧
      chain 0 = c0 ∧ (∀ i, (chain i).update (zs i) = .ok (chain (i + 1))) ∧
      langevinJob c ds zs 12800 = .ok (some ⟨chain 12800, 12800, rows⟩) ∧ rows.length = 12801 ∧
      ∀ i (h : i < rows.length), (chain i).log = .ok rows[i] ∧ rows[i].length = 8 ∧ rows[i].head? = some ((i : ℝ) / 50) := by
  obtain ⟨c, c0, N, chain, rows, h1, h2, h3, h4, h5, h6, -, h7, h8⟩ := C56_run_langevin Config.default default_valid (by norm_num)
    (by norm_num) (by norm_num [Config.default]) rfl gamma hg (by norm_num [Config.default]) num u zj zh ds zs
  obtain rfl := default_steps N h3
  refine ⟨c, c0, chain, rows, h1, h2, h4, h5, h6, by rw [h7], fun i h => ?_⟩
  obtain ⟨a1, a2, a3⟩ := h8 i h
  refine ⟨a1, a2, a3.trans ?_⟩
  rw [default_clock]

/-- C139: a run of `run_ext` with the default configuration: after the first row, 12800 blocks of the sites 1 to 7. -/
theorem C139_run_ext (num : ℕ) (u zj zh : ℕ → ℝ) (ds : ℕ → Draw ℝ) :
    ∃ (c : SpinChain ℝ) (chain : ℕ → SpinChain ℝ) (first : List ℝ) (blocks : ℕ → List (ℝ × ℕ × ℝ × V3 ℝ)),
      SpinChain.new Config.default num u zj zh = .ok c ∧
      sweeps SpinChain.metropolis_update ds warmup c = .ok (chain 0) ∧
      (∀ i, SpinChain.update (chain i) = .ok (chain (i + 1))) ∧ (chain 0).log = .ok (some first) ∧
      extJob c ds 12800 = .ok (some ⟨chain 12800, 12800, .inl first :: (List.range' 1 12800).map fun i => .inr (blocks i)⟩) ∧
      ∀ i, (blocks i).map (fun r => r.2.1) = [1, 2, 3, 4, 5, 6, 7] ∧ ∀ r ∈ blocks i, r.1 = (i : ℝ) / 50 := by
  obtain ⟨c, c0, N, chain, first, h1, h2, h3, h4, h5, h6, h7, h8, -⟩ := C56_run_ext Config.default default_valid (by norm_num)
    (by norm_num) (by norm_num [Config.default]) rfl rfl num u zj zh ds
  obtain rfl := default_steps N h3
  subst h4
  refine ⟨c, chain, first, fun i => (List.range' 1 7).map (siteRow (chain i) 8), h1, h2, h5, h7, h8, fun i => ⟨rfl, ?_⟩⟩
  intro r hr
  obtain ⟨k, -, rfl⟩ := List.mem_map.1 hr
  have := h6 i
  norm_num [Config.default] at this
  simp only [siteRow, this]
  ring

/-- The default period is 500 of the default steps, and the default damping of the command line is allowed. -/
example : (Config.default : Config ℝ).tau = 500 * (Config.default : Config ℝ).dt ∧ (0 : ℝ) ≤ 1.0 := by norm_num [Config.default]

end Props

end Verif
