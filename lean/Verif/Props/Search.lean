/-
Property C94: the temperature searches of /repo/src/obs.rs (lines 3-277) are statistically consistent for chains
without disorder.
-/
import Verif.Lemmas.Search
import Verif.Props.Thermal

namespace Verif.Props

open Spec
open Finset hiding expect
open MeasureTheory Ergodic Thermal Markov Search
open scoped ENNReal

/-- With `n` samples per estimate the search for the energy density `e` between `l0` and 5 panics, does not end
after 13 passes, or ends more than 0.0005 away from every inverse temperature at which `f` is `e` up to `δ`, with
probability at most `K / (n δ²)` over independent uniform draws.  The target must be between the values of `f` at
the ends of the bracket, up to `δ`. -/
def SearchConsistent (upd : SpinChain ℝ → Draw ℝ → R (SpinChain ℝ)) (per : ℕ) (obs : SpinChain ℝ → R ℝ)
    (conf : Config ℝ) (L : ℕ) (l0 : ℝ) (f : ℝ → ℝ) : Prop :=
  ∃ K : ℝ, 0 < K ∧ ∀ n : ℕ, 1 ≤ n → ∀ δ : ℝ, 0 < δ → ∀ e : ℝ, e - δ ≤ f l0 → f 5 ≤ e + δ → ∀ zj zh : ℕ → ℕ → ℝ,
    searchLaw L per n {r | ¬ ∃ b, bisect l0 5 e (fun k beta => estimate upd per n obs conf beta (searchRand zj zh r k)) 13
          = .ok (some b) ∧ ∃ beta ∈ Set.Icc l0 5, |beta - b.mid| ≤ 0.0005 ∧ |f beta - e| ≤ δ}
      ≤ ENNReal.ofReal (K / (n * δ ^ 2))

theorem new_wf {conf : Config ℝ} {L s : ℕ} (v : ValidConf conf L s) {c : SpinChain ℝ} {u0 zj0 zh0 : ℕ → ℝ}
    (hc : SpinChain.new conf 0 u0 zj0 zh0 = .ok c) :
    WF c L s := by
  obtain ⟨c', hc', w⟩ := C11_new_wf' conf 0 u0 zj0 zh0 L s v.hsize v.L_lt v.ssize v.s_lt v.hfield v.hs v.jvar v.hvar
  rw [hc] at hc'
  cases hc'
  exact w

/-- A new chain without disorder is coupled. -/
theorem clean_coupled {conf : Config ℝ} {L s : ℕ} (v : ValidConf conf L s) (hj : conf.jvar = 0) {c : SpinChain ℝ}
    {u0 zj0 zh0 : ℕ → ℝ} (hc : SpinChain.new conf 0 u0 zj0 zh0 = .ok c) : ∃ i < L, J c i ≠ zero ∨ H0 c i ≠ zero := by
  have hL := v.L_two
  refine ⟨0, by omega, Or.inl fun h => ?_⟩
  obtain ⟨f0, f1, f2, fr, hf⟩ := three_le v.hfield
  obtain ⟨h0, h1, h2, hr, hh⟩ := three_le v.hs
  obtain ⟨sp, hsp, -⟩ := newSpins_ok conf.beta u0 L
  have a := new_eq v.hsize v.L_lt hf hh v.jvar v.hvar 0 u0 zj0 zh0 hsp
  rw [hc] at a
  cases a
  have h3 := congrArg V3.x h
  have hL' : 0 < L := by omega
  simp [J, coupF, hj, zero, hL'] at h3

theorem consistent_of {upd : SpinChain ℝ → Draw ℝ → R (SpinChain ℝ)} {E : SpinChain ℝ → ℝ}
    {L s : ℕ} {Ev g : (Fin L → V3 ℝ) → ℝ} {obs : SpinChain ℝ → R ℝ} {c : SpinChain ℝ} {conf : Config ℝ}
    (v : ValidConf conf L s) (hj : conf.jvar = 0) (hv : conf.hvar = 0)
    (hb : conf.beta ≠ 0) {u0 zj0 zh0 : ℕ → ℝ} (hc : SpinChain.new conf 0 u0 zj0 zh0 = .ok c)
    (hupd : ∀ (c : SpinChain ℝ) (i : ℕ) (u1 u2 u : ℝ), WF c L s → i < L → 0 ≤ u2 → u2 < 1 →
      upd c ⟨i, u1, u2, u⟩ = .ok (metropolis c.vars.beta
        (E (replace c i (spherePoint u1 u2)) - E c) u c (replace c i (spherePoint u1 u2))))
    (hE : ∀ beta v, E (withSpins (atBeta c beta) v) = Ev v) (tE : Tame Ev)
    (hobs : ∀ beta v, obs (withSpins (atBeta c beta) v) = .ok (g v)) (tg : Tame g)
    {per : ℕ} (hper : 1 ≤ per) {l0 : ℝ} (hl : l0 = 0.01 ∨ l0 = 0.0001) :
    SearchConsistent upd per obs conf L l0 fun beta => avg beta Ev g := by
  have : NeZero L := ⟨by have := v.L_two; omega⟩
  have w := new_wf v hc
  obtain ⟨D, hD⟩ := tE.bound
  obtain ⟨M, hM⟩ := tg.bound
  have cont : Continuous fun beta => avg beta Ev g :=
    mean_cont tE.meas ((good_ae sphere_ae).mono fun v hv => hD v hv) tg.meas ((good_ae sphere_ae).mono fun v hv => hM v hv)
  obtain ⟨p0, p1, -, -⟩ := halvings hl
  obtain ⟨K, hK, h⟩ := search_bad v hj hv hb hc w hupd hE tE hobs tg p0.le p1.le
  refine ⟨K, hK, fun n hn δ hδ e h1 h2 zj zh => (measure_mono fun r hr => ?_).trans (h per n hper hn δ hδ zj zh)⟩
  intro hgood
  refine hr ?_
  classical
  let est' : ℕ → ℝ → R ℝ := fun k x => if k < 16 ∧ x ∈ grid l0 5 then
    estimate upd per n obs conf x (searchRand zj zh r k) else .ok (avg x Ev g)
  rw [bisect_congr (est' := est') (fun k hk x hx => by simp only [est', if_pos (And.intro hk hx)]) le_rfl]
  refine C70_noisy l0 hl (fun beta => avg beta Ev g) δ e hδ.le cont.continuousOn h1 h2 est' fun k x _ => ?_
  by_cases hk : k < 16 ∧ x ∈ grid l0 5
  · simp only [est', if_pos hk]
    exact hgood k hk.1 x hk.2
  · simp only [est', if_neg hk]
    exact ⟨_, rfl, by rw [sub_self, abs_zero]; exact hδ.le⟩

/-- With 1000 samples per estimate these are the searches of the program. -/
theorem C94_code (conf : Config ℝ) (rs : ℕ → Rand ℝ) :
    find_beta2 conf rs 13 = bisect 0.01 5.0 conf.ednsty (fun k beta =>
      estimate SpinChain.metropolis_update 1000 1000 SpinChain.mc_total_energy conf beta (rs k)) 13 ∧
    find_beta conf rs 13 = bisect 0.01 5.0 conf.ednsty (fun k beta =>
      estimate SpinChain.metropolis_update 1000 1000 (fun sc => do
        return (← sc.mc_system_energy) + 2.0 * fpi / conf.tau * (← sc.m).z / fofInt sc.vars.ssize)
        { conf with ssize := conf.hsize } beta (rs k)) 13 ∧
    find_beta_maglab conf rs 13 = bisect 0.0001 5.0 conf.ednsty (fun k beta =>
      estimate SpinChain.metropolis_update_maglab 10000 1000 SpinChain.mc_system_energy_maglab conf beta (rs k)) 13 ∧
    find_beta_rot conf rs 13 = bisect 0.0001 5.0 conf.ednsty (fun k beta =>
      estimate SpinChain.metropolis_update_rot_magnus 10000 1000 SpinChain.mc_system_energy_rot conf beta (rs k)) 13 :=
  ⟨rfl, rfl, rfl, rfl⟩

section
variable (conf : Config ℝ) (L s : ℕ) (v : ValidConf conf L s) (hj : conf.jvar = 0) (hv : conf.hvar = 0)
  (hb : conf.beta ≠ 0) (c : SpinChain ℝ) (u0 zj0 zh0 : ℕ → ℝ)
include v hj hv hb

/-- C94: `find_beta2` and `find_betah` look for the inverse temperature at which the thermal energy density is the
target; `c` is any chain made from the configuration. -/
theorem C94_find_beta2 (hc : SpinChain.new conf 0 u0 zj0 zh0 = .ok c) :
    SearchConsistent SpinChain.metropolis_update 1000 SpinChain.mc_total_energy conf L 0.01 (energyAt c L) := by
  have hL := v.L_two
  have w := new_wf v hc
  have wb : ∀ beta, WF (atBeta c beta) L s := fun beta =>
    ⟨w.hsize, w.ssize, w.L_lt, w.s_lt, w.spins, w.j, w.h, w.hs⟩
  have hL0 : (L : ℝ) ≠ 0 := by positivity
  have key := consistent_of (E := wholeEnergy L) (Ev := fun q => wholeEnergy L (withSpins c q))
    (g := fun q => wholeEnergy L (withSpins c q) / L) (obs := SpinChain.mc_total_energy) v hj hv hb hc (plain_upd hL)
    (fun _ _ => rfl) (whole_tame w hL) (fun beta q => ?_) ((whole_tame w hL).div L) (per := 1000) (by norm_num)
    (Or.inl rfl)
  · exact key
  · rw [mc_total_energy_eq (withSpins_wf (wb beta) q) (by omega)]
    unfold wholeEnergy
    rw [mc_total_energy_eq (withSpins_wf w q) (by omega), mul_div_cancel_left₀ _ hL0]
    rfl

/-- `find_beta` looks for the inverse temperature at which the thermal mean of the energy density plus `2π/τ`
times the magnetisation along z per site is the target, the mean being that of the energy alone. -/
theorem C94_find_beta (_ht : conf.tau ≠ 0)
    (hc : SpinChain.new { conf with ssize := conf.hsize } 0 u0 zj0 zh0 = .ok c) :
    SearchConsistent SpinChain.metropolis_update 1000 (fun sc => do
        return (← sc.mc_system_energy) + 2.0 * fpi / conf.tau * (← sc.m).z / fofInt sc.vars.ssize)
      { conf with ssize := conf.hsize } L 0.01 fun beta => thermalMean (atBeta c beta) L (wholeEnergy L) fun c =>
        wholeEnergy L c / L + 2 * Real.pi / conf.tau * (∑ i ∈ range L, (S c i).z) / L := by
  have hL := v.L_two
  have v' : ValidConf { conf with ssize := conf.hsize } L L :=
    ⟨v.hsize, v.hsize, v.L_two, v.L_lt, v.L_lt, v.hfield, v.hs, v.jvar, v.hvar⟩
  have w := new_wf v' hc
  have wb : ∀ beta, WF (atBeta c beta) L L := fun beta =>
    ⟨w.hsize, w.ssize, w.L_lt, w.s_lt, w.spins, w.j, w.h, w.hs⟩
  have hL0 : (L : ℝ) ≠ 0 := by positivity
  have tz : Tame fun q : Fin L → V3 ℝ => ∑ i ∈ range L, (S (withSpins c q) i).z :=
    Tame.sum fun i => (tame_S (L := L) c i).2.2
  have key := consistent_of (E := wholeEnergy L) (Ev := fun q => wholeEnergy L (withSpins c q))
    (g := fun q => wholeEnergy L (withSpins c q) / L
      + 2 * Real.pi / conf.tau * (∑ i ∈ range L, (S (withSpins c q) i).z) / L)
    (obs := fun sc => do
        return (← sc.mc_system_energy) + 2.0 * fpi / conf.tau * (← sc.m).z / fofInt sc.vars.ssize)
    v' hj hv hb hc (plain_upd hL)
    (fun _ _ => rfl) (whole_tame w hL) (fun beta q => ?_)
    (((whole_tame w hL).div L).add (((Tame.const _).mul tz).div L)) (per := 1000) (by norm_num)
    (Or.inl rfl)
  · exact key
  · have wq := withSpins_wf (wb beta) q
    rw [mc_system_energy_eq wq (by omega) le_rfl, m_eq wq le_rfl]
    unfold wholeEnergy
    rw [mc_total_energy_eq (withSpins_wf w q) (by omega)]
    show Except.ok (ringEnergy L (S (withSpins c q)) (J c) (H0 c) / L + 2.0 * Real.pi / conf.tau *
      (∑ i ∈ range L, (S (withSpins c q) i).z) / ((withSpins (atBeta c beta) q).vars.ssize : ℝ)) = _
    rw [wq.ssize]
    congr 2
    · show _ = (L : ℝ) * (ringEnergy L (S (withSpins c q)) (J c) (H0 c) / L) / L
      field_simp
    · norm_num

/-- `find_beta_maglab`: the mean is that of the energy its sampler samples, the observable the energy it reports. -/
theorem C94_find_beta_maglab (_ht : conf.tau ≠ 0)
    (hc : SpinChain.new conf 0 u0 zj0 zh0 = .ok c) :
    SearchConsistent SpinChain.metropolis_update_maglab 10000 SpinChain.mc_system_energy_maglab conf L 0.0001
      fun beta => thermalMean (atBeta c beta) L (labEnergy L) fun c =>
        maglabE L (2 * Real.pi / c.vars.tau) 2 3 (S c) (J c) / L := by
  have hL := v.L_two
  have w := new_wf v hc
  have wb : ∀ beta, WF (atBeta c beta) L s := fun beta =>
    ⟨w.hsize, w.ssize, w.L_lt, w.s_lt, w.spins, w.j, w.h, w.hs⟩
  exact consistent_of (E := labEnergy L) (Ev := fun q => labEnergy L (withSpins c q))
    (g := fun q => maglabE L (2 * Real.pi / c.vars.tau) 2 3 (S (withSpins c q)) (J c) / L) v hj hv hb hc (maglab_upd hL)
    (fun _ _ => rfl) (lab_tame c L) (fun beta q => mc_system_energy_maglab_eq (withSpins_wf (wb beta) q) hL)
    ((tame_maglab c (J c) L _ 2 3).div L) (per := 10000) (by norm_num) (Or.inr rfl)

/-- `find_beta_rot`, likewise. -/
theorem C94_find_beta_rot (_ht : conf.tau ≠ 0)
    (hL : 3 ≤ L) (hs : s ≤ L) (hc : SpinChain.new conf 0 u0 zj0 zh0 = .ok c) :
    SearchConsistent SpinChain.metropolis_update_rot_magnus 10000 SpinChain.mc_system_energy_rot conf L 0.0001
      fun beta => thermalMean (atBeta c beta) L (frameEnergy L s) fun c =>
        rotE L s (2 * Real.pi / c.vars.tau) 2 3 (S c) (J c) / L := by
  have w := new_wf v hc
  have wb : ∀ beta, WF (atBeta c beta) L s := fun beta =>
    ⟨w.hsize, w.ssize, w.L_lt, w.s_lt, w.spins, w.j, w.h, w.hs⟩
  exact consistent_of (E := frameEnergy L s) (Ev := fun q => frameEnergy L s (withSpins c q))
    (g := fun q => rotE L s (2 * Real.pi / c.vars.tau) 2 3 (S (withSpins c q)) (J c) / L) v hj hv hb hc (rot_upd hL)
    (fun _ _ => rfl) (frame_tame c L s) (fun beta q => mc_system_energy_rot_eq (withSpins_wf (wb beta) q) (by omega) hs)
    ((tame_rot c (J c) L s _ 2 3).div L) (per := 10000) (by norm_num) (Or.inr rfl)

/-- C94: if the target is the thermal energy density at the inverse temperature `bs` of the bracket, the search
`find_beta2` with `n` samples per estimate returns `bs` up to any `η > 0.0005` except with a probability of order
`1 / n`. -/
theorem C94_converges (hL : 3 ≤ L) (hc : SpinChain.new conf 0 u0 zj0 zh0 = .ok c) (bs : ℝ)
    (hbs : bs ∈ Set.Icc (0.01 : ℝ) 5) (η : ℝ) (hη : 0.0005 < η) : ∃ K : ℝ, 0 < K ∧ ∀ n : ℕ, 1 ≤ n →
    ∀ zj zh : ℕ → ℕ → ℝ,
    searchLaw L 1000 n {r | ¬ ∃ b, bisect 0.01 5 (energyAt c L bs) (fun k beta =>
        estimate SpinChain.metropolis_update 1000 n SpinChain.mc_total_energy conf beta (searchRand zj zh r k)) 13
          = .ok (some b) ∧ |b.mid - bs| ≤ η} ≤ ENNReal.ofReal (K / n) := by
  have w := new_wf v hc
  have hne := clean_coupled v hj hc
  obtain ⟨anti, -⟩ := C93_decreasing c L s w hL hne
  obtain ⟨K, hK, h⟩ := C94_find_beta2 conf L s v hj hv hb c u0 zj0 zh0 hc
  set η' := η - 0.0005 with hη'
  have p : 0 < η' := by linarith
  have d1 := anti (show bs - η' < bs by linarith)
  have d2 := anti (show bs < bs + η' by linarith)
  obtain ⟨δ, hδ, hδ1, hδ2⟩ : ∃ δ : ℝ, 0 < δ ∧ δ < energyAt c L (bs - η') - energyAt c L bs ∧
      δ < energyAt c L bs - energyAt c L (bs + η') := by
    obtain ⟨δ, h1, h2⟩ := exists_between (lt_min (sub_pos.2 d1) (sub_pos.2 d2))
    exact ⟨δ, h1, h2.trans_le (min_le_left _ _), h2.trans_le (min_le_right _ _)⟩
  refine ⟨K / δ ^ 2, by positivity, fun n hn zj zh => ?_⟩
  have hK' : K / δ ^ 2 / n = K / (n * δ ^ 2) := by
    have : (n : ℝ) ≠ 0 := by exact_mod_cast (by omega : n ≠ 0)
    field_simp
  rw [hK']
  refine (measure_mono fun r hr => ?_).trans (h n hn δ hδ (energyAt c L bs) ?_ ?_ zj zh)
  · rintro ⟨b, hb1, beta, hb2, hb3, hb4⟩
    refine hr ⟨b, hb1, ?_⟩
    have hb4 := abs_le.1 hb4
    have k1 : bs - η' ≤ beta := by
      by_contra hc
      have := anti (not_le.1 hc)
      linarith
    have k2 : beta ≤ bs + η' := by
      by_contra hc
      have := anti (not_le.1 hc)
      linarith
    have hb3 := abs_le.1 hb3
    rw [abs_le]
    constructor <;> linarith
  · have := anti.antitone hbs.1
    linarith
  · have := anti.antitone hbs.2
    linarith

end

/-- The hypotheses are met by the default configuration with its inverse temperature set to one, for all draws of
the reference chain. -/
example : ∃ (conf : Config ℝ), ValidConf conf 512 8 ∧ conf.jvar = 0 ∧ conf.hvar = 0 ∧ conf.beta ≠ 0 ∧ conf.tau ≠ 0 ∧
    ∀ u0 zj0 zh0 : ℕ → ℝ, ∃ c, SpinChain.new conf 0 u0 zj0 zh0 = .ok c ∧ energyAt c 512 5 < energyAt c 512 1 := by
  let conf : Config ℝ := { (Config.default : Config ℝ) with
    beta := 1
    jvar := 0
    hvar := 0 }
  have v : ValidConf conf 512 8 := by constructor <;> first | rfl | norm_num
  refine ⟨conf, v, rfl, rfl, one_ne_zero, ?_, fun u0 zj0 zh0 => ?_⟩
  · exact (by norm_num [Config.default] : (Config.default : Config ℝ).tau ≠ 0)
  obtain ⟨c, hc, w⟩ := C11_new_wf' conf 0 u0 zj0 zh0 512 8 v.hsize v.L_lt v.ssize v.s_lt v.hfield v.hs v.jvar v.hvar
  exact ⟨c, hc, (C93_decreasing c 512 8 w (by norm_num) (clean_coupled v rfl hc)).1 (by norm_num)⟩

end Verif.Props
