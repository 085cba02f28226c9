/-
Property C118: whether a fit measures its observables in the ensemble whose temperature it has fitted
(/repo/src/obs.rs:3-408, /repo/src/main.rs:198-308, 332-379).
-/
import Verif.Lemmas.FitRow
import Verif.Props.RotatingFrame

namespace Verif.Props

open Spec
open Finset hiding expect
open MeasureTheory Ergodic Thermal Markov Search FitRow
open scoped ENNReal

/-- the four columns of a row as thermal means: an energy observable `e` and the three magnetisations per site -/
noncomputable def rowMeans (c : SpinChain ℝ) (L : ℕ) (E e : SpinChain ℝ → ℝ) : ℝ × V3 ℝ :=
  (thermalMean c L E e,
    ⟨thermalMean c L E fun c => (∑ i ∈ range L, (S c i).x) / L, thermalMean c L E fun c => (∑ i ∈ range L, (S c i).y) / L,
      thermalMean c L E fun c => (∑ i ∈ range L, (S c i).z) / L⟩)

/-- all four columns agree up to `δ` -/
def RowClose (δ : ℝ) (p q : ℝ × V3 ℝ) : Prop :=
  |p.1 - q.1| ≤ δ ∧ |p.2.x - q.2.x| ≤ δ ∧ |p.2.y - q.2.y| ≤ δ ∧ |p.2.z - q.2.z| ≤ δ

/-- A search (with `n` samples per estimate) followed by a measurement (with `n'` samples) at the inverse temperature
it returns, all draws independent: except with probability `K/(n δ²) + K/(n' δ²)` the search ends, its result is within
0.0005 of an inverse temperature at which `f` is the target up to `δ`, the measurement ends, and its four numbers are
the means `g` at the inverse temperature found, up to `δ`. -/
def FitConsistent (updS : SpinChain ℝ → Draw ℝ → R (SpinChain ℝ)) (perS : ℕ) (obsS : SpinChain ℝ → R ℝ)
    (confS : Config ℝ) (upd : SpinChain ℝ → Draw ℝ → R (SpinChain ℝ)) (per : ℕ) (e : SpinChain ℝ → R ℝ)
    (conf : Config ℝ) (L : ℕ) (l0 : ℝ) (f : ℝ → ℝ) (g : ℝ → ℝ × V3 ℝ) : Prop :=
  ∃ K : ℝ, 0 < K ∧ ∀ n n' : ℕ, 1 ≤ n → 1 ≤ n' → ∀ δ : ℝ, 0 < δ → ∀ t : ℝ, t - δ ≤ f l0 → f 5 ≤ t + δ →
    ∀ (zj zh : ℕ → ℕ → ℝ) (zj' zh' : ℕ → ℝ),
    ((searchLaw L perS n).prod (estLaw L per n')) {r | ¬ ∃ b p,
        bisect l0 5 t (fun k beta => estimate updS perS n obsS confS beta (searchRand zj zh r.1 k)) 13 = .ok (some b) ∧
        (∃ beta ∈ Set.Icc l0 5, |beta - b.mid| ≤ 0.0005 ∧ |f beta - t| ≤ δ) ∧
        observe upd per n' e { conf with beta := b.mid } (estRand zj' zh' r.2) = .ok p ∧ RowClose δ p (g b.mid)}
      ≤ ENNReal.ofReal (K / (n * δ ^ 2)) + ENNReal.ofReal (K / (n' * δ ^ 2))

/-- With 8000 samples these are the measurements of the program. -/
theorem C118_code (conf : Config ℝ) (r : Rand ℝ) :
    get_obs conf r = observe SpinChain.metropolis_update 1000 8000 (fun sc => do
      return (← sc.mc_system_energy) + 2.0 * fpi / conf.tau * (← sc.m).z / fofInt sc.vars.ssize) conf r ∧
    get_obsh conf r = observe SpinChain.metropolis_update 1000 8000 SpinChain.mc_system_energy conf r ∧
    get_obs_rot conf r = observe SpinChain.metropolis_update_rot_magnus 10000 8000 (fun sc => do
      return (← sc.mc_system_energy) + (← sc.m).x / fofInt sc.vars.ssize) conf r ∧
    get_obs_maglab conf r = observe SpinChain.metropolis_update_maglab 10000 8000 (fun sc => do
      return (← sc.mc_system_energy) + (← sc.m).x / fofInt sc.vars.ssize) conf r :=
  ⟨rfl, rfl, rfl, rfl⟩

section
variable {conf : Config ℝ} {L s : ℕ} {c : SpinChain ℝ} {u0 zj0 zh0 : ℕ → ℝ}

theorem full_valid (v : ValidConf conf L s) : ValidConf { conf with ssize := conf.hsize } L L :=
  ⟨v.hsize, v.hsize, v.L_two, v.L_lt, v.L_lt, v.hfield, v.hs, v.jvar, v.hvar⟩

/-- what `obs4` records in a chain that is its own subsystem -/
theorem obs4_full {e : SpinChain ℝ → R ℝ} {eo : SpinChain ℝ → ℝ} (w : WF c L L) (beta : ℝ) (q : Fin L → V3 ℝ)
    (he : e (withSpins (atBeta c beta) q) = .ok (eo (withSpins c q))) :
    obs4 e (withSpins (atBeta c beta) q) = .ok (eo (withSpins c q),
      ⟨(∑ i ∈ range L, (S (withSpins c q) i).x) / L, (∑ i ∈ range L, (S (withSpins c q) i).y) / L,
        (∑ i ∈ range L, (S (withSpins c q) i).z) / L⟩) := by
  have wq : WF (withSpins (atBeta c beta) q) L L :=
    withSpins_wf (c := atBeta c beta) ⟨w.hsize, w.ssize, w.L_lt, w.s_lt, w.spins, w.j, w.h, w.hs⟩ q
  unfold obs4
  rw [he, m_eq wq le_rfl]
  show Except.ok (_, (⟨_ / ((withSpins (atBeta c beta) q).vars.ssize : ℝ), _ / ((withSpins (atBeta c beta) q).vars.ssize : ℝ),
    _ / ((withSpins (atBeta c beta) q).vars.ssize : ℝ)⟩ : V3 ℝ)) = _
  rw [wq.ssize]
  rfl

theorem fit_of {updS upd : SpinChain ℝ → Draw ℝ → R (SpinChain ℝ)} {perS per : ℕ} {obsS e : SpinChain ℝ → R ℝ}
    {confS : Config ℝ} {l0 : ℝ} {f : ℝ → ℝ} {E eo : SpinChain ℝ → ℝ} (hl : l0 = 0.01 ∨ l0 = 0.0001)
    (hS : SearchConsistent updS perS obsS confS L l0 f)
    (v : ValidConf conf L s) (hj : conf.jvar = 0) (hv : conf.hvar = 0)
    (hc : SpinChain.new { conf with ssize := conf.hsize } 0 u0 zj0 zh0 = .ok c)
    (hupd : ∀ (c : SpinChain ℝ) (i : ℕ) (u1 u2 u : ℝ), WF c L L → i < L → 0 ≤ u2 → u2 < 1 →
      upd c ⟨i, u1, u2, u⟩ = .ok (metropolis c.vars.beta
        (E (replace c i (spherePoint u1 u2)) - E c) u c (replace c i (spherePoint u1 u2))))
    (hE : ∀ beta (q : Fin L → V3 ℝ), E (withSpins (atBeta c beta) q) = E (withSpins c q))
    (tE : Tame fun q : Fin L → V3 ℝ => E (withSpins c q))
    (he : ∀ beta (q : Fin L → V3 ℝ), e (withSpins (atBeta c beta) q) = .ok (eo (withSpins c q)))
    (ho : ∀ beta (q : Fin L → V3 ℝ), eo (withSpins (atBeta c beta) q) = eo (withSpins c q))
    (te : Tame fun q : Fin L → V3 ℝ => eo (withSpins c q)) (hper : 1 ≤ per) :
    FitConsistent updS perS obsS confS upd per e conf L l0 f fun beta => rowMeans (atBeta c beta) L E eo := by
  have : NeZero L := ⟨by have := v.L_two; omega⟩
  have v' := full_valid v
  have w := new_wf v' hc
  obtain ⟨K, hK, h⟩ := row_bad (upd := upd) (E := E) (Ev := fun q => E (withSpins c q)) (e := e)
    (G := fun q => (eo (withSpins c q),
      ⟨(∑ i ∈ range L, (S (withSpins c q) i).x) / L, (∑ i ∈ range L, (S (withSpins c q) i).y) / L,
        (∑ i ∈ range L, (S (withSpins c q) i).z) / L⟩)) hl hS v' hj hv hc hupd hE tE
    (fun beta q => obs4_full w beta q (he beta q)) (fun j => by
      fin_cases j
      · exact te
      · exact (Tame.sum fun i => (tame_S (L := L) c i).1).div L
      · exact (Tame.sum fun i => (tame_S (L := L) c i).2.1).div L
      · exact (Tame.sum fun i => (tame_S (L := L) c i).2.2).div L) hper
  refine ⟨K, hK, fun n n' hn hn' δ hδ t h1 h2 zj zh zj' zh' =>
    (measure_mono fun r hr => ?_).trans (h n n' hn hn' δ hδ t h1 h2 zj zh zj' zh')⟩
  rintro ⟨b, p, e1, e2, e3, e4⟩
  refine hr ⟨b, p, e1, e2, e3, ?_⟩
  have m : ∀ (k : SpinChain ℝ → ℝ), (∀ q : Fin L → V3 ℝ, k (withSpins (atBeta c b.mid) q) = k (withSpins c q)) →
      thermalMean (atBeta c b.mid) L E k = avg b.mid (fun q : Fin L → V3 ℝ => E (withSpins c q)) fun q => k (withSpins c q) := by
    intro k hk
    unfold thermalMean avg
    simp only [hE, hk]
    rfl
  unfold RowClose rowMeans
  dsimp only
  rw [m eo (ho b.mid), m _ fun _ => rfl, m _ fun _ => rfl, m _ fun _ => rfl]
  exact ⟨e4 0, e4 1, e4 2, e4 3⟩

/-- the energy per site and the energy columns in a chain that is its own subsystem -/
theorem system_full (w : WF c L L) (hL : 2 ≤ L) (beta : ℝ) (q : Fin L → V3 ℝ) :
    (withSpins (atBeta c beta) q).mc_system_energy = .ok (wholeEnergy L (withSpins c q) / L) := by
  have hL0 : (L : ℝ) ≠ 0 := by positivity
  rw [mc_system_energy_eq (withSpins_wf (c := atBeta c beta)
    ⟨w.hsize, w.ssize, w.L_lt, w.s_lt, w.spins, w.j, w.h, w.hs⟩ q) (by omega) le_rfl]
  unfold wholeEnergy
  rw [mc_total_energy_eq (withSpins_wf w q) (by omega)]
  dsimp only
  rw [mul_div_cancel_left₀ _ hL0]
  rfl

theorem fit_energy (w : WF c L L) (hL : 2 ≤ L) (om beta : ℝ) (q : Fin L → V3 ℝ) :
    (do
      let a ← (withSpins (atBeta c beta) q).mc_system_energy
      let m ← (withSpins (atBeta c beta) q).m
      return a + om * m.z / fofInt (withSpins (atBeta c beta) q).vars.ssize : R ℝ)
      = .ok (wholeEnergy L (withSpins c q) / L + om * (∑ i ∈ range L, (S (withSpins c q) i).z) / L) := by
  have wq : WF (withSpins (atBeta c beta) q) L L :=
    withSpins_wf (c := atBeta c beta) ⟨w.hsize, w.ssize, w.L_lt, w.s_lt, w.spins, w.j, w.h, w.hs⟩ q
  rw [system_full w hL, m_eq wq le_rfl]
  show Except.ok (wholeEnergy L (withSpins c q) / L + om * (∑ i ∈ range L, (S (withSpins c q) i).z) /
    ((withSpins (atBeta c beta) q).vars.ssize : ℝ)) = _
  rw [wq.ssize]
  rfl

theorem lab_energy (w : WF c L L) (hL : 2 ≤ L) (beta : ℝ) (q : Fin L → V3 ℝ) :
    (do
      let a ← (withSpins (atBeta c beta) q).mc_system_energy
      let m ← (withSpins (atBeta c beta) q).m
      return a + m.x / fofInt (withSpins (atBeta c beta) q).vars.ssize : R ℝ)
      = .ok (wholeEnergy L (withSpins c q) / L + (∑ i ∈ range L, (S (withSpins c q) i).x) / L) := by
  have wq : WF (withSpins (atBeta c beta) q) L L :=
    withSpins_wf (c := atBeta c beta) ⟨w.hsize, w.ssize, w.L_lt, w.s_lt, w.spins, w.j, w.h, w.hs⟩ q
  rw [system_full w hL, m_eq wq le_rfl]
  show Except.ok (wholeEnergy L (withSpins c q) / L + (∑ i ∈ range L, (S (withSpins c q) i).x) /
    ((withSpins (atBeta c beta) q).vars.ssize : ℝ)) = _
  rw [wq.ssize]
  rfl

end

section
variable (conf : Config ℝ) (L s : ℕ) (v : ValidConf conf L s) (hj : conf.jvar = 0) (hv : conf.hvar = 0)
  (hb : conf.beta ≠ 0) (c : SpinChain ℝ) (u0 zj0 zh0 : ℕ → ℝ)
include v hj hv hb

/-- C118, `--fit` and `--adiabatic` (`find_beta`, then `get_obs`): search and measurement work in one and the same
ensemble, that of the chain all of whose sites have the field of the subsystem, and the first column is the mean of
the observable fitted. -/
theorem C118_fit (ht : conf.tau ≠ 0) (hc : SpinChain.new { conf with ssize := conf.hsize } 0 u0 zj0 zh0 = .ok c) :
    FitConsistent SpinChain.metropolis_update 1000 (fun sc => do
        return (← sc.mc_system_energy) + 2.0 * fpi / conf.tau * (← sc.m).z / fofInt sc.vars.ssize)
      { conf with ssize := conf.hsize }
      SpinChain.metropolis_update 1000 (fun sc => do
        return (← sc.mc_system_energy) + 2.0 * fpi / conf.tau * (← sc.m).z / fofInt sc.vars.ssize)
      conf L 0.01
      (fun beta => thermalMean (atBeta c beta) L (wholeEnergy L) fun c =>
        wholeEnergy L c / L + 2 * Real.pi / conf.tau * (∑ i ∈ range L, (S c i).z) / L)
      fun beta => rowMeans (atBeta c beta) L (wholeEnergy L) fun c =>
        wholeEnergy L c / L + 2 * Real.pi / conf.tau * (∑ i ∈ range L, (S c i).z) / L := by
  have hL := v.L_two
  have w := new_wf (full_valid v) hc
  have tz : Tame fun q : Fin L → V3 ℝ => ∑ i ∈ range L, (S (withSpins c q) i).z :=
    Tame.sum fun i => (tame_S (L := L) c i).2.2
  have e2 : (2.0 : ℝ) = 2 := by norm_num
  refine fit_of (Or.inl rfl) (C94_find_beta conf L s v hj hv hb c u0 zj0 zh0 ht hc) v hj hv hc (plain_upd hL)
    (fun _ _ => rfl) (whole_tame w hL) (fun beta q => ?_) (fun _ _ => rfl)
    (((whole_tame w hL).div L).add (((Tame.const _).mul tz).div L)) (by norm_num)
  have := fit_energy w hL (2.0 * Real.pi / conf.tau) beta q
  rw [e2] at this ⊢
  exact this

/-- C118, `--maglab` (`find_beta_maglab`, then `get_obs_maglab`): the sampled energy does not depend on the size of the
subsystem, so search and measurement work in the same ensemble. -/
theorem C118_maglab (ht : conf.tau ≠ 0) (d : SpinChain ℝ) (hc : SpinChain.new conf 0 u0 zj0 zh0 = .ok c)
    (hd : SpinChain.new { conf with ssize := conf.hsize } 0 u0 zj0 zh0 = .ok d) :
    (∀ q : Fin L → V3 ℝ, labEnergy L (withSpins c q) = labEnergy L (withSpins d q)) ∧
    FitConsistent SpinChain.metropolis_update_maglab 10000 SpinChain.mc_system_energy_maglab conf
      SpinChain.metropolis_update_maglab 10000 (fun sc => do
        return (← sc.mc_system_energy) + (← sc.m).x / fofInt sc.vars.ssize)
      conf L 0.0001
      (fun beta => thermalMean (atBeta c beta) L (labEnergy L) fun c =>
        maglabE L (2 * Real.pi / c.vars.tau) 2 3 (S c) (J c) / L)
      fun beta => rowMeans (atBeta d beta) L (labEnergy L) fun c =>
        wholeEnergy L c / L + (∑ i ∈ range L, (S c i).x) / L := by
  have hL := v.L_two
  have w := new_wf (full_valid v) hd
  have tx : Tame fun q : Fin L → V3 ℝ => ∑ i ∈ range L, (S (withSpins d q) i).x :=
    Tame.sum fun i => (tame_S (L := L) d i).1
  refine ⟨fun q => ?_, fit_of (Or.inr rfl) (C94_find_beta_maglab conf L s v hj hv hb c u0 zj0 zh0 ht hc) v hj hv hd
    (maglab_upd hL) (fun _ _ => rfl) (lab_tame d L) (fun beta q => lab_energy w hL beta q) (fun _ _ => rfl)
    (((whole_tame w hL).div L).add (tx.div L)) (by norm_num)⟩
  obtain ⟨f0, f1, f2, fr, hf⟩ := three_le v.hfield
  obtain ⟨h0, h1, h2, hr, hh⟩ := three_le v.hs
  obtain ⟨sp, hsp, -⟩ := newSpins_ok conf.beta u0 L
  have a := new_eq v.hsize v.L_lt hf hh v.jvar v.hvar 0 u0 zj0 zh0 hsp
  have b := new_eq (conf := { conf with ssize := conf.hsize }) v.hsize v.L_lt hf hh v.jvar v.hvar 0 u0 zj0 zh0 hsp
  rw [hc] at a
  rw [hd] at b
  cases a
  cases b
  rfl

/-- C118, `--rot` (`find_beta_rot`, then `get_obs_rot`), part: the same ensemble if the subsystem is the whole chain.
Missing: a smaller subsystem, see `C118_negation_rot`. -/
theorem C118_rot_partial (ht : conf.tau ≠ 0) (hL : 3 ≤ L) (hs : conf.ssize = conf.hsize)
    (hc : SpinChain.new conf 0 u0 zj0 zh0 = .ok c) :
    FitConsistent SpinChain.metropolis_update_rot_magnus 10000 SpinChain.mc_system_energy_rot conf
      SpinChain.metropolis_update_rot_magnus 10000 (fun sc => do
        return (← sc.mc_system_energy) + (← sc.m).x / fofInt sc.vars.ssize)
      conf L 0.0001
      (fun beta => thermalMean (atBeta c beta) L (frameEnergy L L) fun c =>
        rotE L L (2 * Real.pi / c.vars.tau) 2 3 (S c) (J c) / L)
      fun beta => rowMeans (atBeta c beta) L (frameEnergy L L) fun c =>
        wholeEnergy L c / L + (∑ i ∈ range L, (S c i).x) / L := by
  have e : ({ conf with ssize := conf.hsize } : Config ℝ) =
      conf := congrArg (fun x => ({ conf with ssize := x } : Config ℝ)) hs.symm
  have v' := full_valid v
  rw [e] at v'
  have w := new_wf v' hc
  have tx : Tame fun q : Fin L → V3 ℝ => ∑ i ∈ range L, (S (withSpins c q) i).x :=
    Tame.sum fun i => (tame_S (L := L) c i).1
  exact fit_of (Or.inr rfl) (C94_find_beta_rot conf L L v' hj hv hb c u0 zj0 zh0 ht hL le_rfl hc) v hj hv
    (by rw [e]; exact hc)
    (rot_upd hL) (fun _ _ => rfl) (frame_tame c L L) (fun beta q => lab_energy w (by omega) beta q) (fun _ _ => rfl)
    (((whole_tame w (by omega)).div L).add (tx.div L)) (by norm_num)

/-- C118, `--fit-effective` (`find_betah`, then `get_obsh`), part: the same ensemble if the subsystem is the whole
chain; the first column is then the mean of the energy fitted.  Missing: a smaller subsystem, see
`C118_negation_effective`. -/
theorem C118_effective_partial (hs : conf.ssize = conf.hsize) (hc : SpinChain.new conf 0 u0 zj0 zh0 = .ok c) :
    FitConsistent SpinChain.metropolis_update 1000 SpinChain.mc_total_energy conf
      SpinChain.metropolis_update 1000 SpinChain.mc_system_energy conf L 0.01 (energyAt c L)
      fun beta => rowMeans (atBeta c beta) L (wholeEnergy L) fun c => wholeEnergy L c / L := by
  have hL := v.L_two
  have e : ({ conf with ssize := conf.hsize } : Config ℝ) =
      conf := congrArg (fun x => ({ conf with ssize := x } : Config ℝ)) hs.symm
  have v' := full_valid v
  rw [e] at v'
  have w := new_wf v' hc
  exact fit_of (Or.inl rfl) (C94_find_beta2 conf L L v' hj hv hb c u0 zj0 zh0 hc) v hj hv (by rw [e]; exact hc)
    (plain_upd hL) (fun _ _ => rfl) (whole_tame w hL) (fun beta q => system_full w hL beta q) (fun _ _ => rfl)
    ((whole_tame w hL).div L) (by norm_num)

end

/-! ### The energy column and the target -/

/-- C118: where search and measurement use one observable (`--fit`, `--adiabatic`, and `--fit-effective` with the whole
chain as subsystem), the energy in the row is the target up to `2 δ` and what the observable changes over 0.0005 in the
inverse temperature. -/
theorem C118_target {updS upd : SpinChain ℝ → Draw ℝ → R (SpinChain ℝ)} {perS per : ℕ} {obsS e : SpinChain ℝ → R ℝ}
    {confS conf : Config ℝ} {L : ℕ} {l0 : ℝ} {g : ℝ → ℝ × V3 ℝ}
    (h : FitConsistent updS perS obsS confS upd per e conf L l0 (fun b => (g b).1) g) (ω : ℝ)
    (hω : ∀ b1 b2, |b1 - b2| ≤ 0.0005 → |(g b1).1 - (g b2).1| ≤ ω) :
    ∃ K : ℝ, 0 < K ∧ ∀ n n' : ℕ, 1 ≤ n → 1 ≤ n' → ∀ δ : ℝ, 0 < δ → ∀ t : ℝ, t - δ ≤ (g l0).1 → (g 5).1 ≤ t + δ →
      ∀ (zj zh : ℕ → ℕ → ℝ) (zj' zh' : ℕ → ℝ),
      ((searchLaw L perS n).prod (estLaw L per n')) {r | ¬ ∃ b p,
          bisect l0 5 t (fun k beta => estimate updS perS n obsS confS beta (searchRand zj zh r.1 k)) 13 = .ok (some b) ∧
          observe upd per n' e { conf with beta := b.mid } (estRand zj' zh' r.2) = .ok p ∧ |p.1 - t| ≤ 2 * δ + ω}
        ≤ ENNReal.ofReal (K / (n * δ ^ 2)) + ENNReal.ofReal (K / (n' * δ ^ 2)) := by
  obtain ⟨K, hK, h⟩ := h
  refine ⟨K, hK, fun n n' hn hn' δ hδ t h1 h2 zj zh zj' zh' =>
    (measure_mono fun r hr => ?_).trans (h n n' hn hn' δ hδ t h1 h2 zj zh zj' zh')⟩
  rintro ⟨b, p, e1, ⟨beta, -, e2, e3⟩, e4, e5, -⟩
  refine hr ⟨b, p, e1, e4, ?_⟩
  have := hω beta b.mid e2
  rw [abs_le] at *
  constructor <;> linarith [this.1, this.2, e3.1, e3.2, e5.1, e5.2]

/-- Means whose weights differ by factors between `exp (-x)` and `exp x` differ by at most `M (exp (2 x) - 1)`. -/
theorem weights_close {Ω : Type} [MeasurableSpace Ω] {μ : Measure Ω} {w1 w2 f : Ω → ℝ} {M x : ℝ}
    (i1 : Integrable w1 μ) (i2 : Integrable w2 μ) (j1 : Integrable (fun v => w1 v * f v) μ)
    (j2 : Integrable (fun v => w2 v * f v) μ) (p1 : 0 < ∫ v, w1 v ∂μ) (p2 : 0 < ∫ v, w2 v ∂μ)
    (w0 : ∀ v, 0 < w1 v)
    (h : ∀ᵐ v ∂μ, Real.exp (-x) * w1 v ≤ w2 v ∧ w2 v ≤ Real.exp x * w1 v) (hM : ∀ᵐ v ∂μ, |f v| ≤ M) :
    |(∫ v, w2 v * f v ∂μ) / (∫ v, w2 v ∂μ) - (∫ v, w1 v * f v ∂μ) / ∫ v, w1 v ∂μ| ≤ M * (Real.exp (2 * x) - 1) := by
  set Z1 := ∫ v, w1 v ∂μ
  set Z2 := ∫ v, w2 v ∂μ
  have z1 : Z2 ≤ Real.exp x * Z1 := by
    rw [← integral_const_mul]
    exact integral_mono_ae i2 (i1.const_mul _) (h.mono fun v hv => hv.2)
  have z2 : Real.exp (-x) * Z1 ≤ Z2 := by
    rw [← integral_const_mul]
    exact integral_mono_ae (i1.const_mul _) i2 (h.mono fun v hv => hv.1)
  have ex : Real.exp x * Real.exp (-x) = 1 := by rw [← Real.exp_add, add_neg_cancel, Real.exp_zero]
  have e2 : Real.exp (2 * x) = Real.exp x * Real.exp x := by rw [← Real.exp_add]; ring_nf
  have px := Real.exp_pos x
  have pn := Real.exp_pos (-x)
  have key : ∀ᵐ v ∂μ, |w2 v * f v / Z2 - w1 v * f v / Z1| ≤ M * (Real.exp (2 * x) - 1) / Z1 * w1 v := by
    filter_upwards [h, hM] with v hv hm
    have q1 : w2 v / Z2 ≤ Real.exp (2 * x) * (w1 v / Z1) := by
      rw [div_le_iff₀ p2, e2]
      calc w2 v ≤ Real.exp x * w1 v := hv.2
        _ = Real.exp x * Real.exp x * (w1 v / Z1) * (Real.exp (-x) * Z1) := by
            field_simp
            linear_combination (-(w1 v)) * ex
        _ ≤ _ := mul_le_mul_of_nonneg_left z2 (by have := w0 v; positivity)
    have q2 : Real.exp (-x) * Real.exp (-x) * (w1 v / Z1) ≤ w2 v / Z2 := by
      rw [le_div_iff₀ p2]
      calc Real.exp (-x) * Real.exp (-x) * (w1 v / Z1) * Z2
          ≤ Real.exp (-x) * Real.exp (-x) * (w1 v / Z1) * (Real.exp x * Z1) :=
            mul_le_mul_of_nonneg_left z1 (by have := w0 v; positivity)
        _ = Real.exp (-x) * w1 v := by
            field_simp
            linear_combination (w1 v) * ex
        _ ≤ w2 v := hv.1
    have q3 : |w2 v / Z2 - w1 v / Z1| ≤ (Real.exp (2 * x) - 1) * (w1 v / Z1) := by
      have pos : 0 < w1 v / Z1 := div_pos (w0 v) p1
      have am : 1 - Real.exp (-x) * Real.exp (-x) ≤ Real.exp (2 * x) - 1 := by
        rw [e2]
        nlinarith [sq_nonneg (Real.exp x - Real.exp (-x))]
      rw [abs_le]
      constructor
      · nlinarith
      · linarith
    calc |w2 v * f v / Z2 - w1 v * f v / Z1| = |w2 v / Z2 - w1 v / Z1| * |f v| := by
          rw [← abs_mul]
          congr 1
          ring
      _ ≤ (Real.exp (2 * x) - 1) * (w1 v / Z1) * M :=
          mul_le_mul q3 hm (abs_nonneg _) ((abs_nonneg _).trans q3)
      _ = _ := by ring
  have i3 : Integrable (fun v => w2 v * f v / Z2 - w1 v * f v / Z1) μ := (j2.div_const _).sub (j1.div_const _)
  rw [← integral_div, ← integral_div, ← integral_sub (j2.div_const _) (j1.div_const _)]
  calc |∫ v, (w2 v * f v / Z2 - w1 v * f v / Z1) ∂μ| ≤ ∫ v, |w2 v * f v / Z2 - w1 v * f v / Z1| ∂μ :=
        abs_integral_le_integral_abs
    _ ≤ ∫ v, M * (Real.exp (2 * x) - 1) / Z1 * w1 v ∂μ := integral_mono_ae i3.abs (i1.const_mul _) key
    _ = _ := by
        rw [integral_const_mul]
        show M * (Real.exp (2 * x) - 1) / Z1 * Z1 = _
        field_simp

/-- C118: over 0.0005 in the inverse temperature a thermal mean changes by at most `M (exp (D / 1000) - 1)`, where `M`
bounds the observable and `D` the energy of the chain. -/
theorem C118_width (c : SpinChain ℝ) (L : ℕ) (E f : SpinChain ℝ → ℝ) (D M : ℝ)
    (hE : ∀ beta (q : Fin L → V3 ℝ), E (withSpins (atBeta c beta) q) = E (withSpins c q))
    (hf : ∀ beta (q : Fin L → V3 ℝ), f (withSpins (atBeta c beta) q) = f (withSpins c q))
    (mE : Measurable fun q : Fin L → V3 ℝ => E (withSpins c q)) (mf : Measurable fun q : Fin L → V3 ℝ => f (withSpins c q))
    (hD : ∀ q : Fin L → V3 ℝ, (∀ i, len (q i) = 1) → |E (withSpins c q)| ≤ D)
    (hM : ∀ q : Fin L → V3 ℝ, (∀ i, len (q i) = 1) → |f (withSpins c q)| ≤ M) (b1 b2 : ℝ) (hb : |b1 - b2| ≤ 0.0005) :
    |thermalMean (atBeta c b1) L E f - thermalMean (atBeta c b2) L E f| ≤ M * (Real.exp (D / 1000) - 1) := by
  have aD : ∀ᵐ q ∂(Measure.pi fun _ : Fin L => sphereMeasure), |E (withSpins c q)| ≤ D :=
    (good_ae sphere_ae).mono fun q hq => hD q hq
  have aM : ∀ᵐ q ∂(Measure.pi fun _ : Fin L => sphereMeasure), |f (withSpins c q)| ≤ M :=
    (good_ae sphere_ae).mono fun q hq => hM q hq
  unfold thermalMean
  simp only [hE, hf]
  show |(∫ q : Fin L → V3 ℝ, Real.exp (-(b1 * E (withSpins c q))) * f (withSpins c q) ∂(Measure.pi fun _ => sphereMeasure))
      / (∫ q : Fin L → V3 ℝ, Real.exp (-(b1 * E (withSpins c q))) ∂(Measure.pi fun _ => sphereMeasure))
    - (∫ q : Fin L → V3 ℝ, Real.exp (-(b2 * E (withSpins c q))) * f (withSpins c q) ∂(Measure.pi fun _ => sphereMeasure))
      / (∫ q : Fin L → V3 ℝ, Real.exp (-(b2 * E (withSpins c q))) ∂(Measure.pi fun _ => sphereMeasure))| ≤ _
  have := weights_close (x := D / 2000) (exp_int1 mE aD b2) (exp_int1 mE aD b1) (exp_int mE aD b2 mf aM)
    (exp_int mE aD b1 mf aM) (part_pos mE aD b2) (part_pos mE aD b1) (fun _ => Real.exp_pos _) (by
      filter_upwards [aD] with q hq
      have k : |(b1 - b2) * E (withSpins c q)| ≤ D / 2000 := by
        rw [abs_mul]
        calc _ ≤ 0.0005 * D := mul_le_mul hb hq (abs_nonneg _) (by norm_num)
          _ = _ := by ring
      rw [abs_le] at k
      rw [← Real.exp_add, ← Real.exp_add]
      exact ⟨Real.exp_le_exp.2 (by linarith [k.2]), Real.exp_le_exp.2 (by linarith [k.1])⟩) aM
  rwa [show 2 * (D / 2000) = D / 1000 by ring] at this

/-! ### Subsystems smaller than the chain -/

/-- An extra term in the energy lowers its own mean, unless it is constant. -/
theorem extra_lt {Ω : Type} [MeasurableSpace Ω] {μ : Measure Ω} [IsProbabilityMeasure μ] {E g : Ω → ℝ} {D M : ℝ}
    (mE : Measurable E) (hD : ∀ᵐ v ∂μ, |E v| ≤ D) (mg : Measurable g) (hM : ∀ᵐ v ∂μ, |g v| ≤ M)
    (hne : ∀ k, ¬ ∀ᵐ v ∂μ, g v = k) {β : ℝ} (hβ : 0 < β) :
    (∫ v, Real.exp (-(β * (E v + g v))) * g v ∂μ) / (∫ v, Real.exp (-(β * (E v + g v))) ∂μ)
      < (∫ v, Real.exp (-(β * E v)) * g v ∂μ) / ∫ v, Real.exp (-(β * E v)) ∂μ := by
  set Z := ∫ v, Real.exp (-(β * E v)) ∂μ with hZ
  have pZ : 0 < Z := part_pos mE hD β
  have iE : Integrable (fun v => Real.exp (-(β * E v))) μ := exp_int1 mE hD β
  have : IsProbabilityMeasure (μ.tilted fun v => -(β * E v)) := isProbabilityMeasure_tilted iE
  have ac := tilted_absolutelyContinuous μ fun v => -(β * E v)
  have ca := absolutelyContinuous_tilted iE
  have h := U_lt (μ := μ.tilted fun v => -(β * E v)) mg (ac.ae_le hM) (fun k hk => hne k (ca.ae_le hk)) hβ
  have t : ∀ b : ℝ, U (μ.tilted fun v => -(β * E v)) g b
      = (∫ v, Real.exp (-(β * E v + b * g v)) * g v ∂μ) / ∫ v, Real.exp (-(β * E v + b * g v)) ∂μ := by
    intro b
    unfold U
    rw [integral_tilted, integral_tilted, ← hZ]
    have e1 : ∀ v, (Real.exp (-(β * E v)) / Z) • (Real.exp (-(b * g v)) * g v)
        = Real.exp (-(β * E v + b * g v)) * g v / Z := fun v => by
      rw [neg_add, Real.exp_add, smul_eq_mul]
      ring
    have e2 : ∀ v, (Real.exp (-(β * E v)) / Z) • Real.exp (-(b * g v)) = Real.exp (-(β * E v + b * g v)) / Z := fun v => by
      rw [neg_add, Real.exp_add, smul_eq_mul]
      ring
    simp only [e1, e2]
    rw [integral_div, integral_div, div_div_div_cancel_right₀ pZ.ne']
  rw [t, t] at h
  simpa only [zero_mul, add_zero, mul_add] using h

theorem ring_extra (L s : ℕ) (S J B : ℕ → V3 ℝ) :
    ringEnergy L S J (fun i => if i < s then B i else Spec.add (B i) ⟨1, 0, 0⟩)
      = ringEnergy L S J B + ringEnergy L S (fun _ => zero) fun i => if i < s then zero else ⟨1, 0, 0⟩ := by
  unfold ringEnergy
  rw [← sum_add_distrib]
  refine sum_congr rfl fun i _ => ?_
  dsimp only
  split_ifs <;> simp only [dot, had, zero, Spec.add] <;> ring

theorem ring_x (L s : ℕ) (S : ℕ → V3 ℝ) :
    ringEnergy L S (fun _ => zero) (fun i => if i < s then zero else ⟨1, 0, 0⟩) = ∑ i ∈ Ico s L, (S i).x := by
  unfold ringEnergy
  rw [← sum_subset (s₁ := Ico s L) (s₂ := range L) (fun i hi => by
    rw [mem_Ico] at hi
    exact mem_range.2 hi.2)]
  · refine sum_congr rfl fun i hi => ?_
    dsimp only
    rw [if_neg (by rw [mem_Ico] at hi; omega)]
    simp only [dot, had, zero]
    ring
  · intro i hi hn
    rw [mem_range] at hi
    rw [mem_Ico] at hn
    dsimp only
    rw [if_pos (by omega)]
    simp only [dot, had, zero]
    ring

/-- the magnetisation along x of the sites outside the subsystem -/
noncomputable def outsideX (s L : ℕ) (c : SpinChain ℝ) : ℝ := ∑ i ∈ Ico s L, (S c i).x

/-- two energies that differ by the field on the sites outside the subsystem -/
theorem outside_lt {c d : SpinChain ℝ} {L s : ℕ} (hL : 3 ≤ L) (hs : s < L) {Ec Ed : SpinChain ℝ → ℝ} {beta : ℝ}
    (hbeta : 0 < beta) (tE : Tame fun q : Fin L → V3 ℝ => Ec (withSpins (atBeta c beta) q))
    (h : ∀ q : Fin L → V3 ℝ, Ed (withSpins (atBeta d beta) q) = Ec (withSpins (atBeta c beta) q) + ∑ i ∈ Ico s L, (fld q i).x) :
    thermalMean (atBeta d beta) L Ed (outsideX s L) < thermalMean (atBeta c beta) L Ec (outsideX s L) := by
  obtain ⟨D, hD⟩ := tE.bound
  have tg := ring_tame (fun _ => zero) (fun i => if i < s then zero else ⟨1, 0, 0⟩) L
  simp only [ring_x] at tg
  obtain ⟨M, hM⟩ := tg.bound
  have key := extra_lt tE.meas ((good_ae sphere_ae).mono fun v hv => hD v hv) tg.meas
    ((good_ae sphere_ae).mono fun v hv => hM v hv) (fun k hk => by
      refine not_constant (L := L) hL (J := fun _ => zero) (B := fun i => if i < s then zero else ⟨1, 0, 0⟩)
        ⟨s, hs, Or.inr ?_⟩ k (by simpa only [ring_x] using hk)
      rw [if_neg (lt_irrefl s)]
      intro h0
      exact one_ne_zero (congrArg V3.x h0)) hbeta
  have o : ∀ (x : SpinChain ℝ) (q : Fin L → V3 ℝ), outsideX s L (withSpins x q) = ∑ i ∈ Ico s L, (fld q i).x := by
    intro x q
    unfold outsideX
    rw [S_fld]
  unfold thermalMean
  simp only [o, h]
  exact key

section
variable (conf : Config ℝ) (L s : ℕ) (v : ValidConf conf L s) (c d : SpinChain ℝ) (u0 zj0 zh0 : ℕ → ℝ)
include v

/-- C118, `--fit-effective` with a subsystem smaller than the chain: for all couplings and fields, with disorder or
without, and all temperatures, the ensemble in which the observables are measured is not the one in which the energy
was fitted.  The sites outside the subsystem have the field `hs` of the drive in the former only: their magnetisation
along x is lower, strictly. -/
theorem C118_negation_effective (hL : 3 ≤ L) (hs : s < L) (hc : SpinChain.new (rotFields conf) 0 u0 zj0 zh0 = .ok c)
    (hd : SpinChain.new { rotFields conf with ssize := conf.hsize } 0 u0 zj0 zh0 = .ok d) (beta : ℝ) (hbeta : 0 < beta) :
    thermalMean (atBeta d beta) L (wholeEnergy L) (outsideX s L)
      < thermalMean (atBeta c beta) L (wholeEnergy L) (outsideX s L) := by
  have vr : ValidConf (rotFields conf) L s :=
    ⟨v.hsize, v.ssize, v.L_two, v.L_lt, v.s_lt, le_rfl, le_rfl, v.jvar, v.hvar⟩
  have w := new_wf vr hc
  have w' := new_wf (full_valid vr) hd
  obtain ⟨sp, hsp, -⟩ := newSpins_ok conf.beta u0 L
  have a := new_eq (conf := rotFields conf) v.hsize v.L_lt rfl rfl v.jvar v.hvar 0 u0 zj0 zh0 hsp
  have b := new_eq (conf := { rotFields conf with ssize := conf.hsize }) v.hsize v.L_lt rfl rfl v.jvar v.hvar 0 u0 zj0 zh0 hsp
  rw [hc] at a
  rw [hd] at b
  have j : J d = J c := by
    cases a
    cases b
    rfl
  have f : ∀ i < L, H0 d i = if i < s then H0 c i else Spec.add (H0 c i) ⟨1, 0, 0⟩ := by
    intro i hi
    cases a
    cases b
    rw [map_H0 rfl hi, map_H0 rfl hi]
    unfold fieldN
    have e1 : (rotFields conf).ssize = s := v.ssize
    simp only [v.hsize, e1, Nat.cast_lt, if_pos hi]
    split_ifs
    · rfl
    · ext <;> simp [Spec.add]; ring
  have wb : WF (atBeta c beta) L s := ⟨w.hsize, w.ssize, w.L_lt, w.s_lt, w.spins, w.j, w.h, w.hs⟩
  have wb' : WF (atBeta d beta) L L := ⟨w'.hsize, w'.ssize, w'.L_lt, w'.s_lt, w'.spins, w'.j, w'.h, w'.hs⟩
  refine outside_lt hL hs hbeta (whole_tame wb (by omega)) fun q => ?_
  rw [whole_ring wb (by omega), whole_ring wb' (by omega)]
  show ringEnergy L (fld q) (J d) (H0 d) = ringEnergy L (fld q) (J c) (H0 c) + _
  rw [j, ← ring_x, ← ring_extra]
  unfold ringEnergy
  refine sum_congr rfl fun i hi => ?_
  rw [f i (mem_range.1 hi)]

/-- C118, `--rot` with a subsystem smaller than the chain: the same. -/
theorem C118_negation_rot (hL : 3 ≤ L) (hs : s < L) (hc : SpinChain.new conf 0 u0 zj0 zh0 = .ok c)
    (hd : SpinChain.new { conf with ssize := conf.hsize } 0 u0 zj0 zh0 = .ok d) (beta : ℝ) (hbeta : 0 < beta) :
    thermalMean (atBeta d beta) L (frameEnergy L L) (outsideX s L)
      < thermalMean (atBeta c beta) L (frameEnergy L s) (outsideX s L) := by
  obtain ⟨f0, f1, f2, fr, hf⟩ := three_le v.hfield
  obtain ⟨h0, h1, h2, hr, hh⟩ := three_le v.hs
  obtain ⟨sp, hsp, -⟩ := newSpins_ok conf.beta u0 L
  have a := new_eq v.hsize v.L_lt hf hh v.jvar v.hvar 0 u0 zj0 zh0 hsp
  have b := new_eq (conf := { conf with ssize := conf.hsize }) v.hsize v.L_lt hf hh v.jvar v.hvar 0 u0 zj0 zh0 hsp
  rw [hc] at a
  rw [hd] at b
  have j : J d = J c := by
    cases a
    cases b
    rfl
  have tau : d.vars.tau = c.vars.tau := by
    cases a
    cases b
    rfl
  refine outside_lt hL hs hbeta (frame_tame (atBeta c beta) L s) fun q => ?_
  unfold frameEnergy rotE
  show ringEnergy L (S (withSpins (atBeta d beta) q)) (fun i => rotJ (J d i)) _ - corr L 1 1 (S (withSpins (atBeta d beta) q)) (J d)
      / (16 * (2 * Real.pi / d.vars.tau))
    = ringEnergy L (S (withSpins (atBeta c beta) q)) (fun i => rotJ (J c i)) _
      - corr L 1 1 (S (withSpins (atBeta c beta) q)) (J c) / (16 * (2 * Real.pi / c.vars.tau)) + _
  rw [S_fld, S_fld, j, tau, ← ring_x, sub_add_eq_add_sub, ← ring_extra]
  congr 1
  unfold ringEnergy
  refine sum_congr rfl fun i hi => ?_
  have t1 : (withSpins (atBeta d beta) q).vars.tau = (withSpins (atBeta c beta) q).vars.tau := tau
  dsimp only
  rw [if_pos (mem_range.1 hi), t1]
  split_ifs with h
  · rfl
  · simp only [dot, Spec.add]
    ring

end

/-- C118, `--fit` and `--adiabatic` in one statement: the energy in the row is the target up to
`2 δ + M (exp (D / 1000) - 1)`, where `D` bounds the energy of the chain and `M` the observable. -/
theorem C118_fit_energy (conf : Config ℝ) (L s : ℕ) (v : ValidConf conf L s) (hj : conf.jvar = 0) (hv : conf.hvar = 0)
    (hb : conf.beta ≠ 0) (ht : conf.tau ≠ 0) (c : SpinChain ℝ) (u0 zj0 zh0 : ℕ → ℝ)
    (hc : SpinChain.new { conf with ssize := conf.hsize } 0 u0 zj0 zh0 = .ok c) (D M : ℝ)
    (hD : ∀ q : Fin L → V3 ℝ, (∀ i, len (q i) = 1) → |wholeEnergy L (withSpins c q)| ≤ D)
    (hM : ∀ q : Fin L → V3 ℝ, (∀ i, len (q i) = 1) → |wholeEnergy L (withSpins c q) / L
      + 2 * Real.pi / conf.tau * (∑ i ∈ range L, (S (withSpins c q) i).z) / L| ≤ M) :
    let mean := fun beta => thermalMean (atBeta c beta) L (wholeEnergy L) fun c =>
      wholeEnergy L c / L + 2 * Real.pi / conf.tau * (∑ i ∈ range L, (S c i).z) / L
    let obs : SpinChain ℝ → R ℝ := fun sc => do
      return (← sc.mc_system_energy) + 2.0 * fpi / conf.tau * (← sc.m).z / fofInt sc.vars.ssize
    ∃ K : ℝ, 0 < K ∧ ∀ n n' : ℕ, 1 ≤ n → 1 ≤ n' → ∀ δ : ℝ, 0 < δ → ∀ t : ℝ, t - δ ≤ mean 0.01 → mean 5 ≤ t + δ →
      ∀ (zj zh : ℕ → ℕ → ℝ) (zj' zh' : ℕ → ℝ),
      ((searchLaw L 1000 n).prod (estLaw L 1000 n')) {r | ¬ ∃ b p,
          bisect 0.01 5 t (fun k beta => estimate SpinChain.metropolis_update 1000 n obs { conf with ssize := conf.hsize } beta
            (searchRand zj zh r.1 k)) 13 = .ok (some b) ∧
          observe SpinChain.metropolis_update 1000 n' obs { conf with beta := b.mid } (estRand zj' zh' r.2) = .ok p ∧
          |p.1 - t| ≤ 2 * δ + M * (Real.exp (D / 1000) - 1)}
        ≤ ENNReal.ofReal (K / (n * δ ^ 2)) + ENNReal.ofReal (K / (n' * δ ^ 2)) := by
  have hL := v.L_two
  have w := new_wf (full_valid v) hc
  have tz : Tame fun q : Fin L → V3 ℝ => ∑ i ∈ range L, (S (withSpins c q) i).z :=
    Tame.sum fun i => (tame_S (L := L) c i).2.2
  exact C118_target (g := fun beta => rowMeans (atBeta c beta) L (wholeEnergy L) fun c =>
      wholeEnergy L c / L + 2 * Real.pi / conf.tau * (∑ i ∈ range L, (S c i).z) / L)
    (C118_fit conf L s v hj hv hb c u0 zj0 zh0 ht hc) _ fun b1 b2 h =>
    C118_width c L (wholeEnergy L) (fun c =>
      wholeEnergy L c / L + 2 * Real.pi / conf.tau * (∑ i ∈ range L, (S c i).z) / L) D M (fun _ _ => rfl) (fun _ _ => rfl) (whole_tame w hL).meas
      (((whole_tame w hL).div L).add (((Tame.const _).mul tz).div L)).meas hD hM b1 b2 h

/-- The hypotheses are met: four sites, two of them driven, no disorder.  The chains of search and measurement exist for
all draws, the target may be any mean of the bracket, and the bounds `D`, `M` exist. -/
example : ∃ conf : Config ℝ, ValidConf conf 4 2 ∧ conf.jvar = 0 ∧ conf.hvar = 0 ∧ conf.beta ≠ 0 ∧ conf.tau ≠ 0 ∧
    ∀ u0 zj0 zh0 : ℕ → ℝ, ∃ c d, SpinChain.new (rotFields conf) 0 u0 zj0 zh0 = .ok c ∧
      SpinChain.new { rotFields conf with ssize := conf.hsize } 0 u0 zj0 zh0 = .ok d ∧
      energyAt d 4 5 < energyAt d 4 0.01 ∧ (∃ D, ∀ q : Fin 4 → V3 ℝ, (∀ i, len (q i) = 1) → |wholeEnergy 4 (withSpins d q)| ≤ D) ∧
      thermalMean (atBeta d 1) 4 (wholeEnergy 4) (outsideX 2 4) < thermalMean (atBeta c 1) 4 (wholeEnergy 4) (outsideX 2 4) := by
  let conf : Config ℝ := { frameConf with
    beta := 1 }
  have v : ValidConf conf 4 2 := by constructor <;> first | rfl | norm_num
  have vr : ValidConf (rotFields conf) 4 2 :=
    ⟨v.hsize, v.ssize, v.L_two, v.L_lt, v.s_lt, le_rfl, le_rfl, v.jvar, v.hvar⟩
  have vf := full_valid vr
  refine ⟨conf, v, rfl, rfl, one_ne_zero, (by norm_num [frameConf] : frameConf.tau ≠ 0), fun u0 zj0 zh0 => ?_⟩
  obtain ⟨c, hc, w⟩ := C11_new_wf' (rotFields conf) 0 u0 zj0 zh0 4 2 vr.hsize vr.L_lt vr.ssize vr.s_lt vr.hfield vr.hs vr.jvar
    vr.hvar
  obtain ⟨d, hd, w'⟩ := C11_new_wf' { rotFields conf with ssize := conf.hsize } 0 u0 zj0 zh0 4 4 vf.hsize vf.L_lt vf.ssize
    vf.s_lt vf.hfield vf.hs vf.jvar vf.hvar
  refine ⟨c, d, hc, hd, (C93_decreasing d 4 4 w' (by norm_num) (clean_coupled vf rfl hd)).1 (by norm_num),
    (whole_tame w' (by norm_num)).bound, ?_⟩
  exact C118_negation_effective conf 4 2 v c d u0 zj0 zh0 (by norm_num) (by norm_num) hc hd 1 one_pos

end Verif.Props
