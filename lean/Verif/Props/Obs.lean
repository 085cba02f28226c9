/-
Properties of the temperature searches and Monte-Carlo estimators of src/obs.rs
(C49, C50, C70, C71).
-/
import Verif.Lemmas.Bisect
import Verif.Lemmas.Estimate
import Verif.Props.Demo
import Verif.Props.Energy
import Mathlib.Topology.Order.IntermediateValue
import Mathlib.Topology.Instances.Real.Lemmas

namespace Verif.Props

open Spec Finset

/-! ### C49: the searches terminate inside their bracket, whatever the estimates are -/

/-- A search from `[l0, 5]` makes exactly 13 passes (16 estimates); it returns a finite number of
the bracket, and the final bracket, which contains it, is not wider than 0.001.  `search n` is the
outcome if the loop makes exactly `n` passes. -/
def Terminates (l0 : ℝ) (search : ℕ → R (Option (Bisect XF))) : Prop :=
  (∃ (b : Bisect XF) (l m h : ℝ), search 13 = .ok (some b) ∧
    b.low = .fin l ∧ b.mid = .fin m ∧ b.high = .fin h ∧
    l0 ≤ l ∧ l ≤ m ∧ m ≤ h ∧ h ≤ 5 ∧ h - l ≤ 0.001 ∧ b.calls = 16) ∧
  ∀ n, n ≠ 13 → search n = .ok none

/-- for arbitrary estimates, including NaN and infinities, and an arbitrary target -/
theorem C49_search (l0 : ℝ) (hl : l0 = 0.01 ∨ l0 = 0.0001) (target : XF)
    (est : ℕ → XF → R XF) (hest : ∀ k β, ∃ e, est k β = .ok e) :
    Terminates l0 (bisect (.fin l0) (.fin 5) target est) := by
  obtain ⟨p, lt, hN, hN'⟩ := halvings hl
  obtain ⟨⟨b, hb, ⟨⟨l, h, e1, e2, e3, e4, e5, e6, -⟩, hc, -⟩⟩, hn⟩ :=
    bisect_run embeds_xf p lt hN hN' (target := target) (P := fun _ _ => True)
      (fun k x _ _ => hest k _) trivial
      (fun _ _ _ _ _ _ _ _ _ _ => trivial) (fun _ _ _ _ _ _ _ _ _ _ => trivial)
  have h0 : 0 < h - l := by rw [e6]; exact div_pos (by linarith) (by norm_num)
  exact ⟨⟨b, l, (l + h) / 2, h, hb, e1, e3, e2, e4, by linarith, by linarith, e5,
    by rw [e6]; exact hN, hc⟩, hn⟩

theorem lit_five : (5.0 : XF) = .fin 5 := by
  rw [XF.lit]; norm_num

/-- `find_beta2` and `find_betah`, for all random numbers -/
theorem C49_find_beta2 (conf : Config XF) (L s : ℕ) (v : ValidConf conf L s) (rs : ℕ → Rand XF) :
    Terminates 0.01 (find_beta2 conf rs) := by
  unfold find_beta2
  rw [XF.lit, lit_five]
  refine C49_search _ (Or.inl rfl) _ _ fun k β => ?_
  obtain ⟨_, _, _, _, _, _, _, _, h⟩ := estimate_eq .plain 1000 1000 SpinChain.mc_total_energy conf
    v β (rs k) (fun c w => mc_total_energy_total w (by have := v.L_two; omega))
  exact ⟨_, h⟩

theorem C49_find_beta_maglab (conf : Config XF) (L s : ℕ) (v : ValidConf conf L s)
    (rs : ℕ → Rand XF) : Terminates 0.0001 (find_beta_maglab conf rs) := by
  unfold find_beta_maglab
  rw [XF.lit, lit_five]
  refine C49_search _ (Or.inr rfl) _ _ fun k β => ?_
  obtain ⟨_, _, _, _, _, _, _, _, h⟩ := estimate_eq .maglab 10000 1000
    SpinChain.mc_system_energy_maglab conf v β (rs k)
    (fun c w => mc_system_energy_maglab_total w v.L_two)
  exact ⟨_, h⟩

theorem C49_find_beta_rot (conf : Config XF) (L s : ℕ) (v : ValidConf conf L s) (hs : s ≤ L)
    (rs : ℕ → Rand XF) : Terminates 0.0001 (find_beta_rot conf rs) := by
  unfold find_beta_rot
  rw [XF.lit, lit_five]
  refine C49_search _ (Or.inr rfl) _ _ fun k β => ?_
  obtain ⟨_, _, _, _, _, _, _, _, h⟩ := estimate_eq .rot 10000 1000
    SpinChain.mc_system_energy_rot conf v β (rs k)
    (fun c w => mc_system_energy_rot_total w v.L_two hs)
  exact ⟨_, h⟩

/-- the observable of `estim_e` -/
theorem estim_e_obs_total {F : Type} [Add F] [Sub F] [Mul F] [Div F] [Neg F] [OfScientific F]
    [FOps F] (om : F) {c : SpinChain F} {L s : ℕ} (w : WF c L s) (hs : 1 ≤ s) (hsL : s ≤ L) :
    ∃ e, (do return (← c.mc_system_energy) + om * (← c.m).z / fofInt c.vars.ssize : R F) = .ok e :=
  bind_total (mc_system_energy_total w hs hsL) fun _ _ =>
    bind_total (m_total w hsL) fun _ _ => ⟨_, rfl⟩

/-- `find_beta` works on the whole chain, whatever `ssize` is -/
theorem C49_find_beta (conf : Config XF) (L s : ℕ) (v : ValidConf conf L s) (rs : ℕ → Rand XF) :
    Terminates 0.01 (find_beta conf rs) := by
  unfold find_beta
  dsimp only
  rw [XF.lit, lit_five]
  refine C49_search _ (Or.inl rfl) _ _ fun k β => ?_
  have v' : ValidConf { conf with ssize := conf.hsize } L L :=
    ⟨v.hsize, v.hsize, v.L_two, v.L_lt, v.L_lt, v.hfield, v.hs, v.jvar, v.hvar⟩
  have := v.L_two
  obtain ⟨_, _, _, _, _, _, _, _, h⟩ := estimate_eq .plain 1000 1000
    (fun sc : SpinChain XF => do
      return (← sc.mc_system_energy) + 2.0 * fpi / conf.tau * (← sc.m).z / fofInt sc.vars.ssize)
    { conf with ssize := conf.hsize } v' β (rs k)
    (fun c w => estim_e_obs_total _ w (by omega) le_rfl)
  exact ⟨_, h⟩

/-- a panic in the first estimate is passed on: there is no result -/
theorem C49_panic_passed_on (conf : Config XF) (rs : ℕ → Rand XF) (n : ℕ) (h : conf.hsize < 0) :
    find_beta conf rs n = .error .capacity ∧ find_beta2 conf rs n = .error .capacity := by
  have key : ∀ (conf : Config XF) (r : Rand XF), conf.hsize < 0 →
      SpinChain.new conf 0 r.u r.zj r.zh = .error .capacity :=
    fun conf r h => (C11_new_panics conf 0 r.u r.zj r.zh).1 h
  constructor
  · unfold find_beta bisect bisectInit estim_e estimate
    simp only [key { conf with ssize := conf.hsize } (rs 0) h]
    rfl
  · unfold find_beta2 bisect bisectInit estim_e2 estimate
    simp only [key conf (rs 0) h]
    rfl

/-- the default configuration is valid -/
example : ValidConf (Config.default : Config XF) 512 8 := by
  constructor <;> first | rfl | norm_num

/-! ### C50: accuracy for a decreasing energy -/

/-- Exact arithmetic: if the estimates are the values of a function that is strictly decreasing on
the bracket and takes the target value at `βs`, the result is within 0.0005 of `βs`. -/
theorem C50_accurate (l0 : ℝ) (hl : l0 = 0.01 ∨ l0 = 0.0001) (f : ℝ → ℝ)
    (hf : StrictAntiOn f (Set.Icc l0 5)) (βs : ℝ) (hβ : βs ∈ Set.Icc l0 5)
    (est : ℕ → ℝ → R ℝ) (hest : ∀ k, ∀ β ∈ Set.Icc l0 5, est k β = .ok (f β)) :
    ∃ b, bisect l0 5 (f βs) est 13 = .ok (some b) ∧ |b.mid - βs| ≤ 0.0005 := by
  obtain ⟨p, lt, hN, hN'⟩ := halvings hl
  have key :=
    bisect_run embeds_real p lt hN hN' (target := f βs) (P := fun l h => l ≤ βs ∧ βs ≤ h)
      (fun k β h1 h2 => ⟨_, hest k β ⟨h1, h2⟩⟩) ⟨hβ.1, hβ.2⟩ ?_ ?_
  · obtain ⟨⟨b, hb, ⟨⟨l, h, e1, e2, e3, e4, e5, e6, e7, e8⟩, -, -⟩⟩, -⟩ := key
    refine ⟨b, hb, ?_⟩
    simp only [id] at e3
    rw [e3, abs_le]
    rw [← e6] at hN
    constructor <;> norm_num at hN ⊢ <;> linarith
  · intro l h e j h1 h2 h3 h4 h5 h6
    rw [hest _ _ ⟨by simp only [id]; linarith, by simp only [id]; linarith⟩] at h5
    cases h5
    refine ⟨?_, h4.2⟩
    simp only [FOps.flt, decide_eq_true_eq, id] at h6
    by_contra hc
    exact absurd (hf hβ ⟨by linarith, by linarith⟩ (not_le.1 hc)) (not_lt.2 h6.le)
  · intro l h e j h1 h2 h3 h4 h5 h6
    rw [hest _ _ ⟨by simp only [id]; linarith, by simp only [id]; linarith⟩] at h5
    cases h5
    refine ⟨h4.1, ?_⟩
    simp only [FOps.flt, decide_eq_false_iff_not, id, not_lt] at h6
    by_contra hc
    exact absurd (hf ⟨by linarith, by linarith⟩ hβ (not_le.1 hc)) (not_lt.2 h6)

example : StrictAntiOn (fun β : ℝ => -β) (Set.Icc 0.01 5) ∧ (2 : ℝ) ∈ Set.Icc (0.01 : ℝ) 5 :=
  ⟨fun _ _ _ _ h => neg_lt_neg h, by norm_num, by norm_num⟩

/-! ### C70: the search tolerates noise -/

/-- If every estimate is within `δ` of a continuous function whose values at the two ends bracket
the target (up to `δ`), then within 0.0005 of the result there is a temperature at which the function
equals the target up to `δ`.  No monotonicity is needed. -/
theorem C70_noisy (l0 : ℝ) (hl : l0 = 0.01 ∨ l0 = 0.0001) (f : ℝ → ℝ) (δ target : ℝ)
    (hδ : 0 ≤ δ) (hf : ContinuousOn f (Set.Icc l0 5)) (hlo : target - δ ≤ f l0)
    (hhi : f 5 ≤ target + δ)
    (est : ℕ → ℝ → R ℝ)
    (hest : ∀ k, ∀ β ∈ Set.Icc l0 5, ∃ e, est k β = .ok e ∧ |e - f β| ≤ δ) :
    ∃ b, bisect l0 5 target est 13 = .ok (some b) ∧
      ∃ β ∈ Set.Icc l0 5, |β - b.mid| ≤ 0.0005 ∧ |f β - target| ≤ δ := by
  obtain ⟨p, lt, hN, hN'⟩ := halvings hl
  have key :=
    bisect_run embeds_real p lt hN hN' (target := target)
      (P := fun l h => target - δ ≤ f l ∧ f h ≤ target + δ)
      (fun k β h1 h2 => by obtain ⟨e, h, -⟩ := hest k β ⟨h1, h2⟩; exact ⟨e, h⟩) ⟨hlo, hhi⟩ ?_ ?_
  · obtain ⟨⟨b, hb, ⟨⟨l, h, e1, e2, e3, e4, e5, e6, e7, e8⟩, -, -⟩⟩, -⟩ := key
    refine ⟨b, hb, ?_⟩
    simp only [id] at e3
    have hlh : l ≤ h := by
      have : 0 < h - l := by rw [e6]; exact div_pos (by linarith) (by norm_num)
      linarith
    rw [← e6] at hN
    obtain ⟨β, hβ1, hβ2⟩ : ∃ β ∈ Set.Icc l h, |f β - target| ≤ δ := by
      by_cases hc : f l ≤ target + δ
      · exact ⟨l, ⟨le_rfl, hlh⟩, abs_le.2 ⟨by linarith, by linarith⟩⟩
      · obtain ⟨β, hβ, he⟩ := intermediate_value_Icc' hlh
          (hf.mono (Set.Icc_subset_Icc e4 e5)) (show target + δ ∈ Set.Icc (f h) (f l) from
            ⟨e8, (not_le.1 hc).le⟩)
        exact ⟨β, hβ, by rw [he, abs_le]; constructor <;> linarith⟩
    refine ⟨β, ⟨e4.trans hβ1.1, hβ1.2.trans e5⟩, ?_, hβ2⟩
    have a1 := hβ1.1
    have a2 := hβ1.2
    rw [e3, abs_le]
    constructor <;> norm_num at hN ⊢ <;> linarith
  · intro l h e j h1 h2 h3 h4 h5 h6
    obtain ⟨e', he, ha⟩ := hest j ((l + h) / 2) ⟨by linarith, by linarith⟩
    simp only [id, he] at h5
    cases h5
    simp only [FOps.flt, decide_eq_true_eq] at h6
    exact ⟨by have := abs_le.1 ha; linarith, h4.2⟩
  · intro l h e j h1 h2 h3 h4 h5 h6
    obtain ⟨e', he, ha⟩ := hest j ((l + h) / 2) ⟨by linarith, by linarith⟩
    simp only [id, he] at h5
    cases h5
    simp only [FOps.flt, decide_eq_false_iff_not, not_lt] at h6
    exact ⟨h4.1, by have := abs_le.1 ha; linarith⟩

/-- a wiggling estimate -/
example : ∃ (f : ℝ → ℝ) (est : ℕ → ℝ → R ℝ), ContinuousOn f (Set.Icc 0.01 5) ∧
    (-2 : ℝ) - 1 / 10 ≤ f 0.01 ∧ f 5 ≤ -2 + 1 / 10 ∧
    (∀ k β, ∃ e, est k β = .ok e ∧ |e - f β| ≤ 1 / 10) ∧ est 0 1 ≠ est 1 1 :=
  ⟨fun β => -β, fun k β => .ok (-β + if k = 0 then 1 / 10 else -(1 / 10)),
    continuous_neg.continuousOn, by norm_num, by norm_num,
    fun k β => ⟨_, rfl, by split <;> norm_num [abs_le]⟩, by norm_num⟩

/-! ### C71: the estimators return means over the chains they visit -/

/-- The chains visited by a Monte-Carlo run with the updates `k`: it starts from the new chain for
the configuration, at inverse temperature `beta`, and makes `per` updates between one sample and
the next. -/
structure Visits (k : Sampler) (per : ℕ) (conf : Config ℝ) (beta : ℝ) (r : Rand ℝ) (c0 : SpinChain ℝ)
    (chain : ℕ → SpinChain ℝ) : Prop where
  new : SpinChain.new conf 0 r.u r.zj r.zh = .ok c0
  start : chain 0 = { c0 with vars := { conf with beta := beta } }
  step : ∀ i, sample ((List.range per).map fun j => (k, r.ds i j)) (chain i) = .ok (chain (i + 1))

theorem meanOf_real (f : ℕ → ℝ) (n : ℕ) :
    meanOf ((List.range n).map f) n = (∑ i ∈ range n, f i) / n := by
  unfold meanOf
  rw [lit_0, fofInt_real]
  congr 1
  rw [List.foldl_map, List.range_eq_range']
  rw [foldl_add_range']
  simp

theorem visits_frame {k : Sampler} {per : ℕ} {conf : Config ℝ} {beta : ℝ} {r : Rand ℝ}
    {c0 : SpinChain ℝ} {chain : ℕ → SpinChain ℝ} (v : Visits k per conf beta r c0 chain) (i : ℕ) :
    J (chain i) = J c0 ∧ H0 (chain i) = H0 c0 ∧ (chain i).vars = { conf with beta := beta } := by
  induction i with
  | zero => rw [v.start]; exact ⟨rfl, rfl, rfl⟩
  | succ i ih =>
    obtain ⟨-, h2, h3, -, h5, -⟩ := C34_frame _ _ _ (v.step i)
    refine ⟨?_, ?_, h5.trans ih.2.2⟩
    · rw [← ih.1]; funext j; unfold J; rw [h2]
    · rw [← ih.2.1]; funext j; unfold H0; rw [h3]

theorem estimate_mean (k : Sampler) (per n : ℕ) (obs : SpinChain ℝ → R ℝ) (conf : Config ℝ)
    {L s : ℕ} (v : ValidConf conf L s) (beta : ℝ) (r : Rand ℝ)
    (E : SpinChain ℝ → ℝ) (hobs : ∀ c : SpinChain ℝ, WF c L s → obs c = .ok (E c)) :
    ∃ c0 chain, Visits k per conf beta r c0 chain ∧ (∀ i, WF (chain i) L s) ∧
      estimate k.run per n obs conf beta r = .ok ((∑ i ∈ range n, E (chain (i + 1))) / n) := by
  obtain ⟨c0, chain, val, a1, a2, a3, a4, a5, a6⟩ := estimate_eq k per n obs conf v beta r
    (fun c w => ⟨_, hobs c w⟩)
  refine ⟨c0, chain, ⟨a1, a2, a3⟩, a4, ?_⟩
  rw [a6, meanOf_real]
  congr 2
  apply sum_congr rfl
  intro i _
  have := a5 i
  rw [hobs _ (a4 (i + 1))] at this
  exact (Except.ok.inj this).symm

theorem mean_congr {f g : ℕ → ℝ} {n : ℕ} {m : ℝ} (h : ∀ i, f i = g i) (hm : (n : ℝ) = m) :
    (Except.ok ((∑ i ∈ range n, f i) / n) : R ℝ) = .ok ((∑ i ∈ range n, g i) / m) := by
  rw [hm, sum_congr rfl fun i _ => h i]

/-- `estim_e2`, `estim_eh`: mean energy per site of the whole undriven chain over 1000 samples -/
theorem C71_estim_e2 (conf : Config ℝ) (L s : ℕ) (v : ValidConf conf L s) (beta : ℝ) (r : Rand ℝ) :
    ∃ c0 chain, Visits .plain 1000 conf beta r c0 chain ∧
      estim_e2 conf beta r =
        .ok ((∑ i ∈ range 1000, ringEnergy L (S (chain (i + 1))) (J c0) (H0 c0) / L) / 1000) := by
  obtain ⟨c0, chain, h1, -, h2⟩ := estimate_mean .plain 1000 1000 SpinChain.mc_total_energy conf v
    beta r (fun c => ringEnergy L (S c) (J c) (H0 c) / L)
    (fun c w => mc_total_energy_eq w (by have := v.L_two; omega))
  refine ⟨c0, chain, h1, ?_⟩
  refine (show estim_e2 conf beta r = _ from h2).trans (mean_congr (fun i => ?_) (Nat.cast_ofNat))
  rw [(visits_frame h1 (i + 1)).1, (visits_frame h1 (i + 1)).2.1]

/-- `estim_e`: mean of the subsystem energy plus `2 π / tau` times the magnetisation along `z`, per
site, over 1000 samples -/
theorem C71_estim_e (conf : Config ℝ) (L s : ℕ) (v : ValidConf conf L s) (hs : 1 ≤ s) (hsL : s ≤ L)
    (beta : ℝ) (_ht : conf.tau ≠ 0) (r : Rand ℝ) :
    ∃ c0 chain, Visits .plain 1000 conf beta r c0 chain ∧
      estim_e conf beta r = .ok ((∑ i ∈ range 1000,
        (ringEnergy s (S (chain (i + 1))) (J c0) (H0 c0) / s
          + 2 * Real.pi / conf.tau * (∑ j ∈ range s, (S (chain (i + 1)) j).z) / s)) / 1000) := by
  obtain ⟨c0, chain, h1, -, h2⟩ := estimate_mean .plain 1000 1000
    (fun sc : SpinChain ℝ => do
      return (← sc.mc_system_energy) + 2.0 * fpi / conf.tau * (← sc.m).z / fofInt sc.vars.ssize)
    conf v beta r (fun c => ringEnergy s (S c) (J c) (H0 c) / s
      + 2 * Real.pi / conf.tau * (∑ j ∈ range s, (S c j).z) / s)
    (fun c w => by
      rw [mc_system_energy_eq w hs hsL, ok_bind, m_eq w hsL, ok_bind, w.ssize, lit_2]
      rfl)
  refine ⟨c0, chain, h1, ?_⟩
  refine (show estim_e conf beta r = _ from h2).trans (mean_congr (fun i => ?_) (Nat.cast_ofNat))
  rw [(visits_frame h1 (i + 1)).1, (visits_frame h1 (i + 1)).2.1]

/-- `estim_e_maglab` -/
theorem C71_estim_e_maglab (conf : Config ℝ) (L s : ℕ) (v : ValidConf conf L s) (beta : ℝ)
    (_ht : conf.tau ≠ 0) (r : Rand ℝ) :
    ∃ c0 chain, Visits .maglab 10000 conf beta r c0 chain ∧
      estim_e_maglab conf beta r = .ok ((∑ i ∈ range 1000,
        maglabE L (2 * Real.pi / conf.tau) 2 3 (S (chain (i + 1))) (J c0) / L) / 1000) := by
  obtain ⟨c0, chain, h1, -, h2⟩ := estimate_mean .maglab 10000 1000
    SpinChain.mc_system_energy_maglab conf v beta r
    (fun c => maglabE L (2 * Real.pi / c.vars.tau) 2 3 (S c) (J c) / L)
    (fun c w => mc_system_energy_maglab_eq w v.L_two)
  refine ⟨c0, chain, h1, ?_⟩
  refine (show estim_e_maglab conf beta r = _ from h2).trans (mean_congr (fun i => ?_) (Nat.cast_ofNat))
  rw [(visits_frame h1 (i + 1)).1, (visits_frame h1 (i + 1)).2.2]

/-- `estim_e_rot` -/
theorem C71_estim_e_rot (conf : Config ℝ) (L s : ℕ) (v : ValidConf conf L s) (hsL : s ≤ L)
    (beta : ℝ) (_ht : conf.tau ≠ 0) (r : Rand ℝ) :
    ∃ c0 chain, Visits .rot 10000 conf beta r c0 chain ∧
      estim_e_rot conf beta r = .ok ((∑ i ∈ range 1000,
        rotE L s (2 * Real.pi / conf.tau) 2 3 (S (chain (i + 1))) (J c0) / L) / 1000) := by
  obtain ⟨c0, chain, h1, -, h2⟩ := estimate_mean .rot 10000 1000
    SpinChain.mc_system_energy_rot conf v beta r
    (fun c => rotE L s (2 * Real.pi / c.vars.tau) 2 3 (S c) (J c) / L)
    (fun c w => mc_system_energy_rot_eq w v.L_two hsL)
  refine ⟨c0, chain, h1, ?_⟩
  refine (show estim_e_rot conf beta r = _ from h2).trans (mean_congr (fun i => ?_) (Nat.cast_ofNat))
  rw [(visits_frame h1 (i + 1)).1, (visits_frame h1 (i + 1)).2.2]

/-- The `get_obs` family: the means over 8000 samples of an energy `E` and of the magnetisation per
site of the whole chain. -/
def Means (k : Sampler) (per : ℕ) (conf : Config ℝ) (L : ℕ) (r : Rand ℝ)
    (E : SpinChain ℝ → (ℕ → V3 ℝ) → ℝ) (result : R (ℝ × V3 ℝ)) : Prop :=
  ∃ c0 chain, Visits k per { conf with ssize := conf.hsize } conf.beta r c0 chain ∧
    result = .ok ((∑ i ∈ range 8000, E c0 (S (chain (i + 1)))) / 8000,
      ⟨(∑ i ∈ range 8000, (∑ j ∈ range L, (S (chain (i + 1)) j).x) / L) / 8000,
       (∑ i ∈ range 8000, (∑ j ∈ range L, (S (chain (i + 1)) j).y) / L) / 8000,
       (∑ i ∈ range 8000, (∑ j ∈ range L, (S (chain (i + 1)) j).z) / L) / 8000⟩)

theorem getObs_means (k : Sampler) (per : ℕ) (conf : Config ℝ) {L s : ℕ} (v : ValidConf conf L s)
    (r : Rand ℝ) (e : SpinChain ℝ → R ℝ) (E : SpinChain ℝ → (ℕ → V3 ℝ) → ℝ)
    (hE : ∀ c : SpinChain ℝ, WF c L L → e c = .ok (E c (S c)))
    (hE' : ∀ c c' : SpinChain ℝ, J c = J c' → H0 c = H0 c' → E c = E c') :
    Means k per conf L r E (getObs k.run per e conf r) := by
  obtain ⟨c0, h1, h2, h3, h4, h5, h6, -, -⟩ :=
    C11_new_wf { conf with ssize := conf.hsize } 0 r.u r.zj r.zh L v.hsize v.L_lt
    v.hfield v.hs v.jvar v.hvar
  have w : WF c0 L L := ⟨by rw [h6]; exact v.hsize, by rw [h6]; exact v.hsize, v.L_lt, v.L_lt, h2, h3,
    h4, by rw [h6]; exact v.hs⟩
  have hobs : ∀ c : SpinChain ℝ, WF c L L → obs4 e c = .ok (E c (S c),
      ⟨(∑ j ∈ range L, (S c j).x) / L, (∑ j ∈ range L, (S c j).y) / L,
        (∑ j ∈ range L, (S c j).z) / L⟩) := by
    intro c w
    unfold obs4
    rw [hE c w, ok_bind, m_eq w le_rfl, ok_bind, w.ssize]
    rfl
  obtain ⟨chain, val, a1, a2, a3, a4, a5⟩ := sampleLoop_eq k per 8000 (obs4 e) r.ds c0 w v.L_two
    (fun c w => ⟨_, hobs c w⟩)
  have vis : Visits k per { conf with ssize := conf.hsize } conf.beta r c0 chain :=
    ⟨h1, by rw [a1]; cases c0; cases h6; rfl, a2⟩
  refine ⟨c0, chain, vis, ?_⟩
  unfold getObs
  simp only [h1, ok_bind, a5]
  have hv : val = fun i => (E c0 (S (chain (i + 1))),
      ⟨(∑ j ∈ range L, (S (chain (i + 1)) j).x) / L, (∑ j ∈ range L, (S (chain (i + 1)) j).y) / L,
        (∑ j ∈ range L, (S (chain (i + 1)) j).z) / L⟩) := by
    funext i
    have := a4 i
    rw [hobs _ (a3 (i + 1)), hE' _ c0 (visits_frame vis (i + 1)).1 (visits_frame vis (i + 1)).2.1]
      at this
    exact (Except.ok.inj this).symm
  simp only [List.map_map]
  rw [hv]
  show Except.ok _ = Except.ok _
  simp only [Function.comp_def, meanOf_real]
  norm_num

theorem C71_get_obs (conf : Config ℝ) (L s : ℕ) (v : ValidConf conf L s) (_ht : conf.tau ≠ 0)
    (r : Rand ℝ) :
    Means .plain 1000 conf L r (fun c S => ringEnergy L S (J c) (H0 c) / L
      + 2 * Real.pi / conf.tau * (∑ j ∈ range L, (S j).z) / L) (get_obs conf r) ∧
    Means .plain 1000 conf L r (fun c S => ringEnergy L S (J c) (H0 c) / L) (get_obsh conf r) ∧
    Means .rot 10000 conf L r (fun c S => ringEnergy L S (J c) (H0 c) / L
      + (∑ j ∈ range L, (S j).x) / L) (get_obs_rot conf r) ∧
    Means .maglab 10000 conf L r (fun c S => ringEnergy L S (J c) (H0 c) / L
      + (∑ j ∈ range L, (S j).x) / L) (get_obs_maglab conf r) := by
  have h1 : 1 ≤ L := by have := v.L_two; omega
  have lab : ∀ c : SpinChain ℝ, WF c L L → labEnergy c = .ok (ringEnergy L (S c) (J c) (H0 c) / L
      + (∑ j ∈ range L, (S c j).x) / L) := by
    intro c w
    unfold labEnergy
    rw [mc_system_energy_eq w h1 le_rfl, ok_bind, m_eq w le_rfl, ok_bind, w.ssize]
    rfl
  refine ⟨?_, ?_, ?_, ?_⟩
  · refine getObs_means .plain 1000 conf v r _ _ (fun c w => ?_) (fun c c' h h' => by rw [h, h'])
    rw [mc_system_energy_eq w h1 le_rfl, ok_bind, m_eq w le_rfl, ok_bind, w.ssize, lit_2]
    rfl
  · exact getObs_means .plain 1000 conf v r _ _ (fun c w => mc_system_energy_eq w h1 le_rfl)
      (fun c c' h h' => by rw [h, h'])
  · exact getObs_means .rot 10000 conf v r _ _ lab (fun c c' h h' => by rw [h, h'])
  · exact getObs_means .maglab 10000 conf v r _ _ lab (fun c c' h h' => by rw [h, h'])

example : ValidConf demoVars 4 2 ∧ demoVars.tau ≠ 0 := by
  refine ⟨?_, by norm_num [demoVars]⟩
  constructor <;> first | rfl | norm_num [demoVars]

/-- largest energy per site (in absolute value) that unit spins could have -/
noncomputable def energyCap (L : ℕ) (J B : ℕ → V3 ℝ) : ℝ :=
  (∑ i ∈ range L, (|(J i).x| + |(J i).y| + |(J i).z| + (|(B i).x| + |(B i).y| + |(B i).z|))) / L

theorem comp_le {a : V3 ℝ} (h : len a = 1) : |a.x| ≤ 1 ∧ |a.y| ≤ 1 ∧ |a.z| ≤ 1 := by
  have h2 : dot a a = 1 := by
    have := h
    unfold len at this
    rwa [Real.sqrt_eq_one] at this
  unfold dot at h2
  refine ⟨?_, ?_, ?_⟩ <;> rw [abs_le] <;> constructor <;> nlinarith [sq_nonneg a.x, sq_nonneg a.y, sq_nonneg a.z]

theorem ringEnergy_cap {L : ℕ} (S J B : ℕ → V3 ℝ) (hS : ∀ i < L, len (S i) = 1) :
    |ringEnergy L S J B / L| ≤ energyCap L J B := by
  unfold ringEnergy energyCap
  rw [abs_div, Nat.abs_cast]
  apply div_le_div_of_nonneg_right _ (Nat.cast_nonneg L)
  refine (abs_sum_le_sum_abs _ _).trans (sum_le_sum fun i hi => ?_)
  rw [mem_range] at hi
  obtain ⟨x1, y1, z1⟩ := comp_le (hS i hi)
  obtain ⟨x2, y2, z2⟩ := comp_le (hS ((i + 1) % L) (Nat.mod_lt _ (by omega)))
  have m : ∀ a j b : ℝ, |a| ≤ 1 → |b| ≤ 1 → |a * (j * b)| ≤ |j| := by
    intro a j b ha hb
    rw [abs_mul, abs_mul]
    nlinarith [abs_nonneg a, abs_nonneg b, abs_nonneg j, mul_le_mul_of_nonneg_left hb (abs_nonneg j),
      mul_nonneg (abs_nonneg j) (abs_nonneg b)]
  have m' : ∀ a j : ℝ, |a| ≤ 1 → |j * a| ≤ |j| := by
    intro a j ha
    rw [abs_mul]
    nlinarith [abs_nonneg j]
  refine (abs_add_le _ _).trans (add_le_add ?_ ?_)
  · rw [abs_neg]
    unfold dot had
    exact (abs_add_le _ _).trans (add_le_add ((abs_add_le _ _).trans
      (add_le_add (m _ _ _ x1 x2) (m _ _ _ y1 y2))) (m _ _ _ z1 z2))
  · unfold dot
    exact (abs_add_le _ _).trans (add_le_add ((abs_add_le _ _).trans
      (add_le_add (m' _ _ x1) (m' _ _ y1))) (m' _ _ z1))

theorem visits_unit {k : Sampler} {per : ℕ} {conf : Config ℝ} {beta : ℝ} {r : Rand ℝ}
    {c0 : SpinChain ℝ} {chain : ℕ → SpinChain ℝ} (v : Visits k per conf beta r c0 chain)
    (hu : ∀ x ∈ c0.spins, IsUnit3 x) (i : ℕ) : ∀ x ∈ (chain i).spins, IsUnit3 x := by
  induction i with
  | zero => rw [v.start]; exact hu
  | succ i ih => exact C34_unit _ _ _ ih (v.step i)

/-- Every estimate of the whole chain's energy lies in the range of energies unit spins can have. -/
theorem C71_bounded (conf : Config ℝ) (L s : ℕ) (v : ValidConf conf L s) (beta : ℝ) (r : Rand ℝ)
    (hb : conf.beta ≠ 0) (hu : UnitDraws r.u) (hn : NonDegenerate conf.beta r.u L) :
    ∃ c0 e, SpinChain.new conf 0 r.u r.zj r.zh = .ok c0 ∧ estim_e2 conf beta r = .ok e ∧
      |e| ≤ energyCap L (J c0) (H0 c0) := by
  obtain ⟨c0, chain, h1, h2⟩ := C71_estim_e2 conf L s v beta r
  obtain ⟨c0', h3, h4⟩ := C11_new_unit conf 0 r.u r.zj r.zh L v.hsize v.L_lt v.hfield v.hs hb hu hn
  obtain rfl : c0 = c0' := Except.ok.inj (h1.new.symm.trans h3)
  obtain ⟨c0', h5, w⟩ := C11_new_wf' conf 0 r.u r.zj r.zh L s v.hsize v.L_lt v.ssize v.s_lt v.hfield
    v.hs v.jvar v.hvar
  obtain rfl : c0 = c0' := Except.ok.inj (h1.new.symm.trans h5)
  refine ⟨c0, _, h3, h2, ?_⟩
  have hunit : ∀ x ∈ c0.spins, IsUnit3 x := by
    intro x hx
    obtain ⟨i, hi, rfl⟩ := List.getElem_of_mem hx
    have := (h4 i (by rw [← w.spins]; exact hi)).2
    unfold S at this
    rw [List.getElem?_eq_getElem hi] at this
    exact this
  have key : ∀ i, |ringEnergy L (S (chain i)) (J c0) (H0 c0) / L| ≤ energyCap L (J c0) (H0 c0) := by
    intro i
    apply ringEnergy_cap
    intro j hj
    have hw : WF (chain i) L s := by
      clear h2 h4
      induction i with
      | zero =>
        rw [h1.start]
        exact ⟨v.hsize, v.ssize, v.L_lt, v.s_lt, w.spins, w.j, w.h, v.hs⟩
      | succ i ih => exact sample_wf ih (h1.step i)
    exact unit_S hw (visits_unit h1 hunit i) hj
  rw [abs_div, div_le_iff₀ (by norm_num)]
  refine (abs_sum_le_sum_abs _ _).trans ((sum_le_sum fun i _ => key (i + 1)).trans ?_)
  rw [sum_const, card_range, nsmul_eq_mul]
  norm_num [mul_comm]

/-- `find_beta2` (and `find_betah`) with noisy estimates: C70 for the search as it is called -/
theorem C70_find_beta2 (conf : Config ℝ) (rs : ℕ → Rand ℝ) (f : ℝ → ℝ) (δ : ℝ) (hδ : 0 ≤ δ)
    (hf : ContinuousOn f (Set.Icc 0.01 5)) (hlo : conf.ednsty - δ ≤ f 0.01)
    (hhi : f 5 ≤ conf.ednsty + δ)
    (hest : ∀ k, ∀ β ∈ Set.Icc (0.01 : ℝ) 5,
      ∃ e, estim_e2 conf β (rs k) = .ok e ∧ |e - f β| ≤ δ) :
    ∃ b, find_beta2 conf rs 13 = .ok (some b) ∧
      ∃ β ∈ Set.Icc (0.01 : ℝ) 5, |β - b.mid| ≤ 0.0005 ∧ |f β - conf.ednsty| ≤ δ := by
  have := C70_noisy 0.01 (Or.inl rfl) f δ conf.ednsty hδ hf hlo hhi
    (fun k β => estim_e2 conf β (rs k)) hest
  unfold find_beta2
  rw [show (5.0 : ℝ) = 5 by norm_num]
  exact this

/-- The hypotheses of `C70_find_beta2` and `C71_bounded` are met by a chain of two spins. -/
example : ∃ (conf : Config ℝ) (rs : ℕ → Rand ℝ) (δ : ℝ), ValidConf conf 2 1 ∧ 0 ≤ δ ∧
    ContinuousOn (fun β : ℝ => -β) (Set.Icc 0.01 5) ∧ conf.ednsty - δ ≤ -0.01 ∧
    -5 ≤ conf.ednsty + δ ∧ UnitDraws (rs 0).u ∧ NonDegenerate conf.beta (rs 0).u 2 ∧
    ∀ k, ∀ β ∈ Set.Icc (0.01 : ℝ) 5, ∃ e, estim_e2 conf β (rs k) = .ok e ∧ |e - -β| ≤ δ := by
  obtain ⟨u, h1, h2⟩ := demo_nondegenerate
  let conf : Config ℝ := { (Config.default : Config ℝ) with
    hsize := 2
    ssize := 1
    beta := 1 }
  let r : Rand ℝ := ⟨u, fun _ => 0, fun _ => 0, fun _ _ => ⟨0, 0, 0, 0⟩⟩
  have v : ValidConf conf 2 1 := by constructor <;> first | rfl | norm_num
  obtain ⟨c0, e, hc, he, hb⟩ := C71_bounded conf 2 1 v 1 r one_ne_zero h1 h2
  have hcap : 0 ≤ energyCap 2 (J c0) (H0 c0) := (abs_nonneg e).trans hb
  have hed : conf.ednsty = -0.66 := rfl
  refine ⟨conf, fun _ => r, energyCap 2 (J c0) (H0 c0) + 6, v, by linarith,
    continuous_neg.continuousOn, by rw [hed]; linarith, by rw [hed]; linarith, h1, h2, ?_⟩
  intro k β hβ
  obtain ⟨c0', e', hc', he', hb'⟩ := C71_bounded conf 2 1 v β r one_ne_zero h1 h2
  obtain rfl : c0 = c0' := Except.ok.inj (hc.symm.trans hc')
  refine ⟨e', he', ?_⟩
  have := abs_le.1 hb'
  obtain ⟨b1, b2⟩ := hβ
  rw [abs_le]
  constructor <;> linarith

end Verif.Props
