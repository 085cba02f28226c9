/-
C128: how many samples per estimate a temperature search needs.
-/
import Verif.Lemmas.Adaptive
import Verif.Props.GapMean
import Verif.Props.Search

set_option linter.unusedSectionVars false

namespace Verif.Props

open Spec MeasureTheory Function
open Finset hiding expect
open Verif.Ergodic (run total move Fair)
open Verif.Search (grid ask ests)
open scoped ENNReal

section
variable {c : SpinChain ℝ} {L s : ℕ} {conf : Config ℝ}

/-- the new chains of given couplings and fields -/
theorem new_drawn (v : ValidConf conf L s) (hb : conf.beta ≠ 0) {u0 zj zh : ℕ → ℝ} (hc : SpinChain.new conf 0 u0 zj zh = .ok c) :
    ∀ᵐ w ∂(Measure.pi fun _ : Fin L => tripleMeasure),
      SpinChain.new conf 0 (drawsOf w) zj zh = .ok (withSpins c (path conf.beta L startDir w)) := by
  filter_upwards [nonDegenerate_ae hb L, unitDraws_ae L] with w hn hu
  obtain ⟨c', hc', hs⟩ := Props.C11_new_unit conf 0 (drawsOf w) zj zh L v.hsize v.L_lt v.hfield v.hs hb hu hn
  obtain ⟨sp, hsp, hlen⟩ := newSpins_ok conf.beta u0 L
  obtain ⟨sp', hsp', hlen'⟩ := newSpins_ok conf.beta (drawsOf w) L
  obtain ⟨f0, f1, f2, fr, hf⟩ := three_le v.hfield
  obtain ⟨h0, h1, h2, hr, hh⟩ := three_le v.hs
  have a := new_eq v.hsize v.L_lt hf hh v.jvar v.hvar 0 u0 zj zh hsp
  have b := new_eq v.hsize v.L_lt hf hh v.jvar v.hvar 0 (drawsOf w) zj zh hsp'
  rw [hc] at a
  rw [hc'] at b
  have hl : c'.spins.length = L := by
    cases b
    exact hlen'
  have hp : path conf.beta L startDir w = fun i : Fin L => S c' i := by
    funext i
    rw [(hs i i.2).1, (walk_path conf.beta w i i.2).2]
  have e3 : ∀ q : Fin L → V3 ℝ, withSpins c q = withSpins c' q := by
    intro q
    cases a
    cases b
    rfl
  rw [hc', hp, e3, Search.withSpins_self hl]

/-- the value of an estimate of the energy per site, as a measurable function of its draws -/
theorem estimate_value (v : ValidConf conf L s) (hb : conf.beta ≠ 0) {u0 zj zh : ℕ → ℝ}
    (hc : SpinChain.new conf 0 u0 zj zh = .ok c) (hL : 2 ≤ L) (per n : ℕ) (b : ℝ) :
    ∃ T : EstRaw L per n → ℝ, Measurable T ∧ ∀ᵐ r ∂(estLaw L per n),
      estimate SpinChain.metropolis_update per n SpinChain.mc_total_energy conf b (estRand zj zh r) = .ok (T r) := by
  have : NeZero L := ⟨by omega⟩
  have w := new_wf v hc
  have wb : WF (atBeta c b) L s := ⟨w.hsize, w.ssize, w.L_lt, w.s_lt, w.spins, w.j, w.h, w.hs⟩
  have hL0 : (L : ℝ) ≠ 0 := by positivity
  have tE := whole_tame wb hL
  have hobs : ∀ q : Fin L → V3 ℝ, SpinChain.mc_total_energy (withSpins (atBeta c b) q)
      = .ok (wholeEnergy L (withSpins (atBeta c b) q) / L) := fun q => by
    unfold wholeEnergy
    rw [mc_total_energy_eq (withSpins_wf wb q) (by omega), mul_div_cancel_left₀ _ hL0]
  refine ⟨fun r => total (run (move b fun q => wholeEnergy L (withSpins (atBeta c b) q)) per)
    (fun q => wholeEnergy L (withSpins (atBeta c b) q) / L) n (path conf.beta L startDir r.1) r.2 / n, ?_, ?_⟩
  · have m1 := Ergodic.meas_total (Ergodic.meas_run (Ergodic.meas_move (β := b) tE.meas) per) (tE.meas.div_const (L : ℝ)) n
    have m2 : Measurable fun r : EstRaw L per n => (path conf.beta L startDir r.1, r.2) :=
      ((meas_path' conf.beta L startDir).comp measurable_fst).prodMk measurable_snd
    have := Measurable.comp (g := fun p : (Fin L → V3 ℝ) × (Fin n → Fin per → Raw L) =>
      total (run (move b fun q => wholeEnergy L (withSpins (atBeta c b) q)) per)
        (fun q => wholeEnergy L (withSpins (atBeta c b) q) / L) n p.1 p.2) m1 m2
    exact this.div_const _
  · have g1 := (Measure.quasiMeasurePreserving_fst (μ := Measure.pi fun _ : Fin L => tripleMeasure)
      (ν := blockLaw L per n)).ae (new_drawn v hb hc)
    have g2 := (Measure.quasiMeasurePreserving_snd (μ := Measure.pi fun _ : Fin L => tripleMeasure)
      (ν := blockLaw L per n)).ae (Ergodic.fair_blocks (L := L) per n)
    filter_upwards [g1, g2] with r e1 e2
    unfold estimate estRand
    dsimp only
    rw [e1]
    have := Ergodic.loop_eq hobs (plain_upd hL) wb per n r.2 e2 (path conf.beta L startDir r.1)
    show (do
      let st ← sampleLoop SpinChain.metropolis_update per n SpinChain.mc_total_energy (blockDraws r.2)
        (withSpins (atBeta c b) (path conf.beta L startDir r.1))
      return meanOf st.2 n : R ℝ) = _
    rw [this]
    show Except.ok (meanOf _ n) = _
    rw [Ergodic.vals_mean]
    rfl

/-- without disorder the normal draws do not matter -/
theorem new_any (v : ValidConf conf L s) (hj : conf.jvar = 0) (hv : conf.hvar = 0) {u0 zj0 zh0 : ℕ → ℝ}
    (hc : SpinChain.new conf 0 u0 zj0 zh0 = .ok c) (zj zh : ℕ → ℝ) : SpinChain.new conf 0 u0 zj zh = .ok c := by
  obtain ⟨sp, hsp, hlen⟩ := newSpins_ok conf.beta u0 L
  obtain ⟨f0, f1, f2, fr, hf⟩ := three_le v.hfield
  obtain ⟨h0, h1, h2, hr, hh⟩ := three_le v.hs
  have a := new_eq v.hsize v.L_lt hf hh v.jvar v.hvar 0 u0 zj0 zh0 hsp
  have b := new_eq v.hsize v.L_lt hf hh v.jvar v.hvar 0 u0 zj zh hsp
  have e1 : coupF conf.lambda conf.jvar zj0 = coupF conf.lambda conf.jvar zj := by
    funext x
    simp only [coupF, hj, zero_mul]
  have e2 : fieldN f0 f1 f2 h0 h1 h2 conf.hvar conf.ssize zh0 = fieldN f0 f1 f2 h0 h1 h2 conf.hvar conf.ssize zh := by
    funext x
    simp only [fieldN, hv, zero_mul]
  rw [b, ← hc, a, e1, e2]

theorem samplesWorth_mono {b b' K : ℝ} (hb : 0 ≤ b) (h : b ≤ b') (K0 : 0 ≤ K) (L per : ℕ) :
    samplesWorth b K L per ≤ samplesWorth b' K L per := by
  unfold samplesWorth
  rw [abs_of_nonneg hb, abs_of_nonneg (hb.trans h)]
  gcongr

/-- A search in which every estimate draws its own couplings and fields. -/
theorem search_drawn (conf : Config ℝ) (L s : ℕ) (v : ValidConf conf L s) (hb0 : conf.beta ≠ 0) (u0 : ℕ → ℝ) (zj zh : ℕ → ℕ → ℝ)
    (ck : ℕ → SpinChain ℝ) (hc : ∀ k < 16, SpinChain.new conf 0 u0 (zj k) (zh k) = .ok (ck k)) (K : ℝ)
    (hK : ∀ k < 16, ∀ i < L, len (J (ck k) i) + len (H0 (ck k) i) ≤ K) (per n : ℕ) (hper : 1 ≤ per) (hn : 1 ≤ n) (δ ε p : ℝ) (hδ : 0 < δ)
    (hδK : δ ≤ K) (hε : 0 ≤ ε) (hp : 0 < p) (hp1 : p ≤ 1)
    (hs : 16 * K ^ 2 * samplesWorth 5 K L per * (17 + 8 * ((|conf.beta| / 2 + 5 * K) * L)) / (p * δ ^ 2) ≤ n)
    (l0 : ℝ) (hl : l0 = 0.01 ∨ l0 = 0.0001) (f : ℝ → ℝ) (cont : Continuous f)
    (hf : ∀ k < 16, ∀ x ∈ Set.Icc l0 5, |energyAt (ck k) L x - f x| ≤ ε)
    (e : ℝ) (h1 : e - (δ + ε) ≤ f l0) (h2 : f 5 ≤ e + (δ + ε)) :
    searchLaw L per n {r | ¬ ∃ b, bisect l0 5 e (fun k beta =>
        estimate SpinChain.metropolis_update per n SpinChain.mc_total_energy conf beta (searchRand zj zh r k)) 13 = .ok (some b) ∧
        ∃ beta ∈ Set.Icc l0 5, |beta - b.mid| ≤ 0.0005 ∧ |f beta - e| ≤ δ + ε}
      ≤ ENNReal.ofReal p := by
  have hL := v.L_two
  have : NeZero L := ⟨by omega⟩
  have K0 := K_nonneg hL (hK 0 (by omega))
  have n0 : (0 : ℝ) < n := by exact_mod_cast hn
  have l01 : 0 ≤ l0 ∧ l0 ≤ 5 := by rcases hl with rfl | rfl <;> norm_num
  have val : ∀ (k : ℕ) (b : ℝ), ∃ T : EstRaw L per n → ℝ, Measurable T ∧ (k < 16 → ∀ᵐ r ∂(estLaw L per n),
      estimate SpinChain.metropolis_update per n SpinChain.mc_total_energy conf b (estRand (zj k) (zh k) r) = .ok (T r)) := fun k b => by
    by_cases hk : k < 16
    · obtain ⟨T, h1, h2⟩ := estimate_value v hb0 (hc k hk) hL per n b
      exact ⟨T, h1, fun _ => h2⟩
    · exact ⟨fun _ => 0, measurable_const, fun h => absurd h hk⟩
  choose T mT hT using val
  classical
  set T' : ℕ → ℝ → EstRaw L per n → ℝ := fun k x r => if x ∈ grid l0 5 ∧ k < 16 then ∑ y ∈ grid l0 5, (if x = y then T k y r else 0) else f x
    with hT'
  have eT : ∀ k < 16, ∀ x ∈ grid l0 5, ∀ r, T' k x r = T k x r := fun k hk x hx r => by
    rw [hT']
    dsimp only
    rw [if_pos ⟨hx, hk⟩, Finset.sum_ite_eq, if_pos hx]
  have mT' : ∀ k, Measurable fun q : ℝ × EstRaw L per n => T' k q.1 q.2 := fun k => by
    rw [hT']
    by_cases hk : k < 16
    · simp only [hk, and_true]
      refine Measurable.ite (measurable_fst (Finset.measurableSet _)) ?_ (cont.measurable.comp measurable_fst)
      refine Finset.measurable_sum _ fun y _ => ?_
      exact Measurable.ite (measurable_fst (measurableSet_singleton y)) ((mT k y).comp measurable_snd) measurable_const
    · simp only [hk, and_false, if_false]
      exact cont.measurable.comp measurable_fst
  have bad : ∀ k x, estLaw L per n {r | δ + ε < |T' k x r - f x|} ≤ ENNReal.ofReal (p / 16) := fun k x => by
    by_cases hx : x ∈ grid l0 5 ∧ k < 16
    · obtain ⟨hx, hk⟩ := hx
      have w := new_wf v (hc k hk)
      have hx' := Search.grid_sub l01.2 x hx
      have x0 : 0 ≤ x := l01.1.trans hx'.1
      have wb : WF (atBeta (ck k) x) L s := ⟨w.hsize, w.ssize, w.L_lt, w.s_lt, w.spins, w.j, w.h, w.hs⟩
      have hL0 : (L : ℝ) ≠ 0 := by positivity
      have W0 : 0 ≤ samplesWorth x K L per := zero_le_one.trans (samplesWorth_ge K0 hL hper).1
      have key := C127_samples conf L s v hb0 u0 (zj k) (zh k) (ck k) (hc k hk) hL x x0 K (hK k hk) SpinChain.mc_total_energy
        (fun x => wholeEnergy L x / L) K (fun q => by
          unfold wholeEnergy
          rw [mc_total_energy_eq (withSpins_wf wb q) (by omega), mul_div_cancel_left₀ _ hL0])
        (density_bounded wb hL (hK k hk)) per n hper hn δ (p / 16) hδ (by positivity) (by linarith) hδK (by
          refine le_trans ?_ hs
          have e1 : 16 * K ^ 2 * samplesWorth 5 K L per * (17 + 8 * ((|conf.beta| / 2 + 5 * K) * L)) / (p * δ ^ 2)
              = K ^ 2 * samplesWorth 5 K L per * (17 + 8 * ((|conf.beta| / 2 + 5 * K) * L)) / (p / 16 * δ ^ 2) := by
            field_simp
          rw [e1]
          have := samplesWorth_mono x0 hx'.2 K0 L per
          have := hx'.2
          gcongr
          exact mul_nonneg (by positivity) (zero_le_one.trans (samplesWorth_ge K0 hL hper).1))
      refine le_trans (measure_mono_ae ((hT k x hk).mono fun r hr hbad => ?_)) key
      have hbad : δ + ε < |T' k x r - f x| := hbad
      rintro ⟨e', he, hlt⟩
      rw [hr] at he
      cases he
      rw [eT k hk x hx] at hbad
      have hlt : |T k x r - energyAt (ck k) L x| < δ := hlt
      have h3 := hf k hk x hx'
      have h4 := abs_sub_le (T k x r) (energyAt (ck k) L x) (f x)
      linarith
    · have : {r | δ + ε < |T' k x r - f x|} = ∅ := by
        ext r
        simp only [Set.mem_setOf_eq, Set.mem_empty_iff_false, iff_false, not_lt]
        rw [hT']
        dsimp only
        rw [if_neg hx, sub_self, abs_zero]
        linarith
      rw [this, measure_empty]
      exact bot_le
  have main := Search.search_adaptive (l := l0) (h := 5) (target := e) mT' cont.measurable bad
  have ep : 16 * ENNReal.ofReal (p / 16) = ENNReal.ofReal p := by
    have : (16 : ℝ≥0∞) = ENNReal.ofReal 16 := by simp
    rw [this, ← ENNReal.ofReal_mul (by norm_num)]
    congr 1
    ring
  rw [ep] at main
  refine le_trans (measure_mono_ae ?_) main
  have ok : ∀ᵐ r ∂(searchLaw L per n), ∀ k : Fin 16, ∀ x ∈ grid l0 5,
      estimate SpinChain.metropolis_update per n SpinChain.mc_total_energy conf x (estRand (zj k) (zh k) (r k)) = .ok (T k x (r k)) := by
    rw [ae_all_iff]
    intro k
    have hk : ∀ᵐ r ∂(estLaw L per n), ∀ x ∈ grid l0 5,
        estimate SpinChain.metropolis_update per n SpinChain.mc_total_energy conf x (estRand (zj k) (zh k) r) = .ok (T k x r) :=
      (Finset.eventually_all _).2 fun x _ => hT k x k.2
    exact (Measure.quasiMeasurePreserving_eval (μ := fun _ : Fin 16 => estLaw L per n) k).ae hk
  refine ok.mono fun r hr hbad => ?_
  have hbad : ¬ ∃ b, bisect l0 5 e (fun k beta =>
        estimate SpinChain.metropolis_update per n SpinChain.mc_total_energy conf beta (searchRand zj zh r k)) 13 = .ok (some b) ∧
        ∃ beta ∈ Set.Icc l0 5, |beta - b.mid| ≤ 0.0005 ∧ |f beta - e| ≤ δ + ε := hbad
  show ¬ ∀ k : Fin 16, |T' k (ask l0 5 e (ests T' f r) k) (r k) - f (ask l0 5 e (ests T' f r) k)| ≤ δ + ε
  intro hgood
  refine hbad ?_
  set g := ests T' f r with hg
  let g' : ℕ → ℝ → ℝ := fun k x => if x = ask l0 5 e g k ∧ k < 16 then g k x else f x
  rw [Search.bisect_congr (est' := fun k x => .ok (g k x)) (fun k hk x hx => ?_) le_rfl]
  · rw [Search.bisect_ask (e' := g') 13 fun k hk => by
      simp only [g']
      rw [if_pos ⟨trivial, by omega⟩]]
    refine C70_noisy l0 hl f (δ + ε) e (by linarith) cont.continuousOn h1 h2 _ fun k x _ => ⟨_, rfl, ?_⟩
    simp only [g']
    split_ifs with hx
    · obtain ⟨rfl, hk⟩ := hx
      have := hgood ⟨k, hk⟩
      rw [hg]
      unfold ests
      rw [dif_pos hk]
      exact this
    · rw [sub_self, abs_zero]
      linarith
  · unfold searchRand
    have h := hr ⟨k, hk⟩ x hx
    rw [dif_pos hk, h, hg]
    unfold ests
    rw [dif_pos hk, eT k hk x hx]

theorem energyAt_cont (w : WF c L s) (hL : 2 ≤ L) : Continuous (energyAt c L) := by
  have tE := whole_tame w hL
  have tg := tE.div (L : ℝ)
  obtain ⟨D, hD⟩ := tE.bound
  obtain ⟨M, hM⟩ := tg.bound
  exact Thermal.mean_cont tE.meas ((Markov.good_ae sphere_ae).mono fun v hv => hD v hv) tg.meas
    ((Markov.good_ae sphere_ae).mono fun v hv => hM v hv)

/-- C128: a search for an energy per site, in a bracket that ends at 5, with `n` samples per estimate. -/
theorem C128_search (conf : Config ℝ) (L s : ℕ) (v : ValidConf conf L s) (hj : conf.jvar = 0) (hv : conf.hvar = 0)
    (hb0 : conf.beta ≠ 0) (u0 zj0 zh0 : ℕ → ℝ) (c : SpinChain ℝ) (hc : SpinChain.new conf 0 u0 zj0 zh0 = .ok c) (K : ℝ)
    (hK : ∀ i < L, len (J c i) + len (H0 c i) ≤ K) (per n : ℕ) (hper : 1 ≤ per) (hn : 1 ≤ n) (δ p : ℝ) (hδ : 0 < δ) (hδK : δ ≤ K)
    (hp : 0 < p) (hp1 : p ≤ 1)
    (hs : 16 * K ^ 2 * samplesWorth 5 K L per * (17 + 8 * ((|conf.beta| / 2 + 5 * K) * L)) / (p * δ ^ 2) ≤ n)
    (l0 : ℝ) (hl : l0 = 0.01 ∨ l0 = 0.0001) (e : ℝ) (h1 : e - δ ≤ energyAt c L l0) (h2 : energyAt c L 5 ≤ e + δ) (zj zh : ℕ → ℕ → ℝ) :
    searchLaw L per n {r | ¬ ∃ b, bisect l0 5 e (fun k beta =>
        estimate SpinChain.metropolis_update per n SpinChain.mc_total_energy conf beta (searchRand zj zh r k)) 13 = .ok (some b) ∧
        ∃ beta ∈ Set.Icc l0 5, |beta - b.mid| ≤ 0.0005 ∧ |energyAt c L beta - e| ≤ δ}
      ≤ ENNReal.ofReal p := by
  have key := search_drawn conf L s v hb0 u0 zj zh (fun _ => c) (fun k _ => new_any v hj hv hc _ _) K (fun _ _ => hK) per n hper hn δ 0 p
    hδ hδK le_rfl hp hp1 hs l0 hl (energyAt c L) (energyAt_cont (new_wf v hc) v.L_two) (fun k _ x _ => by simp) e (by linarith) (by linarith)
  simpa only [add_zero] using key

/-- non-vacuity: the default configuration without disorder and with inverse temperature one, the energy at inverse temperature one
as the target, and enough samples -/
example : ∃ (conf : Config ℝ), ValidConf conf 512 8 ∧ conf.jvar = 0 ∧ conf.hvar = 0 ∧ conf.beta ≠ 0 ∧
    ∀ u0 zj0 zh0 : ℕ → ℝ, ∃ c K, SpinChain.new conf 0 u0 zj0 zh0 = .ok c ∧ (∀ i < 512, len (J c i) + len (H0 c i) ≤ K) ∧ (0.1 : ℝ) ≤ K ∧
      (∃ n : ℕ, 1 ≤ n ∧ 16 * K ^ 2 * samplesWorth 5 K 512 1000 * (17 + 8 * ((|conf.beta| / 2 + 5 * K) * (512 : ℕ))) / (0.01 * 0.1 ^ 2) ≤ n) ∧
      energyAt c 512 1 - 0.1 ≤ energyAt c 512 0.01 ∧ energyAt c 512 5 ≤ energyAt c 512 1 + 0.1 := by
  let conf : Config ℝ := { (Config.default : Config ℝ) with
    beta := 1
    jvar := 0
    hvar := 0 }
  have v : ValidConf conf 512 8 := by constructor <;> first | rfl | norm_num
  refine ⟨conf, v, rfl, rfl, one_ne_zero, fun u0 zj0 zh0 => ?_⟩
  obtain ⟨c, hc, w⟩ := C11_new_wf' conf 0 u0 zj0 zh0 512 8 v.hsize v.L_lt v.ssize v.s_lt v.hfield v.hs v.jvar v.hvar
  obtain ⟨anti, -⟩ := C93_decreasing c 512 8 w (by norm_num) (clean_coupled v rfl hc)
  refine ⟨c, 1 + ∑ i ∈ range 512, (len (J c i) + len (H0 c i)), hc, fun i hi => ?_, ?_, ?_, ?_, ?_⟩
  · have := single_le_sum (f := fun i => len (J c i) + len (H0 c i))
      (fun j _ => add_nonneg (Real.sqrt_nonneg _) (Real.sqrt_nonneg _)) (mem_range.2 hi)
    linarith
  · have := sum_nonneg (s := range 512) (f := fun i => len (J c i) + len (H0 c i))
      fun j _ => add_nonneg (Real.sqrt_nonneg _) (Real.sqrt_nonneg _)
    linarith
  · obtain ⟨n, hn⟩ := exists_nat_ge (16 * (1 + ∑ i ∈ range 512, (len (J c i) + len (H0 c i))) ^ 2
      * samplesWorth 5 (1 + ∑ i ∈ range 512, (len (J c i) + len (H0 c i))) 512 1000
      * (17 + 8 * ((|conf.beta| / 2 + 5 * (1 + ∑ i ∈ range 512, (len (J c i) + len (H0 c i)))) * (512 : ℕ))) / (0.01 * 0.1 ^ 2))
    refine ⟨n + 1, by omega, hn.trans ?_⟩
    push_cast
    linarith
  · have := anti (show (0.01 : ℝ) < 1 by norm_num)
    linarith
  · have := anti (show (1 : ℝ) < 5 by norm_num)
    linarith

end

end Verif.Props
