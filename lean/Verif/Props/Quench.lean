/-
C131: temperature searches in chains with disorder, where every estimate draws new couplings and fields (/repo/src/obs.rs, `find_beta`
and its variants, lines 102-200; /repo/src/spinchain.rs, `new`).
-/
import Verif.Lemmas.Quench
import Verif.Props.HeatCap
import Verif.Props.Response

set_option linter.unusedSectionVars false

namespace Verif.Props

open Spec MeasureTheory Quench
open Finset hiding expect

section
variable {c c' : SpinChain ℝ} {L s s' : ℕ}

theorem mix_end (v : Fin L → V3 ℝ) :
    ringEnergy L (fld v) (J c) (H0 c) + 1 * diff c c' L v = ringEnergy L (fld v) (J c') (H0 c') := by
  rw [diff_ring]
  unfold ringEnergy
  rw [one_mul, ← sum_add_distrib]
  refine sum_congr rfl fun i hi => ?_
  have hi := mem_range.1 hi
  rw [gap_J hi, gap_H hi]
  simp only [dot, had, sub]
  ring

theorem mix_start (v : Fin L → V3 ℝ) :
    ringEnergy L (fld v) (J c) (H0 c) + 0 * diff c c' L v = ringEnergy L (fld v) (J c) (H0 c) := by
  rw [zero_mul, add_zero]

theorem thermal_ring (w : WF c L s) (hL : 2 ≤ L) (g : SpinChain ℝ → ℝ) : thermalMean c L (wholeEnergy L) g
    = Response.mean (Measure.pi fun _ : Fin L => sphereMeasure) c.vars.beta (fun v => ringEnergy L (fld v) (J c) (H0 c))
      fun v => g (withSpins c v) := by
  unfold thermalMean Response.mean
  simp only [whole_ring w hL]

/-- C131: chains with nearly the same couplings and fields have nearly the same thermal energy.  The thermal energies per site differ by
at most a constant times the change of the couplings and fields averaged over the sites; the constant does not depend on the length. -/
theorem C131_energy (c c' : SpinChain ℝ) (L s s' : ℕ) (w : WF c L s) (w' : WF c' L s') (hL : 2 ≤ L) (K : ℝ)
    (hK : ∀ i < L, len (J c i) + len (H0 c i) ≤ K) (hK' : ∀ i < L, len (J c' i) + len (H0 c' i) ≤ K) (b : ℝ) :
    |energyAt c' L b - energyAt c L b| ≤ feel b K * ((∑ i ∈ range L, change c c' i) / L) := by
  have L0 : (0 : ℝ) < L := by exact_mod_cast (by omega : 0 < L)
  have wb := at_wf w b
  have wb' := at_wf w' b
  set x := atBeta c b with hx
  have hKx : ∀ i < L, len (J x i) + len (H0 x i) ≤ K := hK
  have K0 := K_nonneg hL hK
  set D := ∑ i ∈ range L, change c c' i with hD
  have D0 : 0 ≤ D := sum_nonneg fun i _ => add_nonneg (len_nonneg _) (len_nonneg _)
  set F := fun a => thermalMean (mix x c' L a) L (wholeEnergy L) (wholeEnergy L) with hF
  have e0 : energyAt c L b = F 0 / L := by
    rw [energyAt, hF]
    dsimp only
    rw [thermal_ring wb hL, thermal_mix wb hL]
    simp only [mix_start, whole_mix wb hL, whole_ring wb hL, div_eq_inv_mul]
    rw [Response.mean_smul]
  have e1 : energyAt c' L b = F 1 / L := by
    rw [energyAt, hF]
    dsimp only
    rw [thermal_ring wb' hL, thermal_mix wb hL]
    simp only [mix_end, whole_mix wb hL, whole_ring wb' hL, div_eq_inv_mul]
    rw [Response.mean_smul]
    rfl
  have key : ∀ a ∈ Set.Icc (0 : ℝ) 1, ‖thermalMean (mix x c' L a) L (wholeEnergy L) (fun y => ∑ i ∈ range L, energyTerm (gap x c' L) L i y)
        - x.vars.beta * thermalCov (mix x c' L a) L (wholeEnergy L) (wholeEnergy L)
          fun y => ∑ i ∈ range L, energyTerm (gap x c' L) L i y‖ ≤ feel b K * D := fun a ha => by
    have g1 : |thermalMean (mix x c' L a) L (wholeEnergy L) (fun y => ∑ i ∈ range L, energyTerm (gap x c' L) L i y)| ≤ D := by
      have wm := mix_wf (c' := c') wb a
      refine thermal_mean_abs wm hL ⟨?_, fun v hv => ?_⟩
      · exact Finset.measurable_sum _ fun i hi => (diff_term_bounded _ (mem_range.1 hi)).meas
      · refine (abs_sum_le_sum_abs _ _).trans (sum_le_sum fun i hi => ?_)
        exact (diff_term_bounded (c := x) (c' := c') _ (mem_range.1 hi)).bound v hv
    have g2 := cov_diff wb hL hKx hK' ha.1 ha.2
    rw [Real.norm_eq_abs]
    refine (abs_sub _ _).trans ?_
    rw [abs_mul]
    have g3 : |x.vars.beta| * _ ≤ |x.vars.beta| * _ := mul_le_mul_of_nonneg_left g2 (abs_nonneg _)
    have g4 : |x.vars.beta| * (perSite x.vars.beta K * K * ∑ i ∈ range L, change x c' i) = |b| * (perSite b K * K * D) := rfl
    unfold feel
    linarith
  have hd := fun a => path_deriv (c' := c') wb hL a
  have mv := (convex_Icc (0 : ℝ) 1).norm_image_sub_le_of_norm_hasDerivWithin_le (f := F)
    (fun a _ => (hd a).hasDerivWithinAt) key (x := 0) (y := 1) (by simp) (by simp)
  rw [e0, e1, ← sub_div, abs_div, abs_of_pos L0, ← mul_div_assoc, div_le_div_iff_of_pos_right L0]
  simpa using mv

/-- C131: the same for an observable of a site and its right neighbour: it follows the change of the couplings and fields, wherever in
the chain they change. -/
theorem C131_local (c c' : SpinChain ℝ) (L s s' : ℕ) (w : WF c L s) (w' : WF c' L s') (hL : 2 ≤ L)
    (hb : c'.vars.beta = c.vars.beta) (K : ℝ)
    (hK : ∀ i < L, len (J c i) + len (H0 c i) ≤ K) (hK' : ∀ i < L, len (J c' i) + len (H0 c' i) ≤ K) (D : ℝ)
    (hD : ∀ i < L, change c c' i ≤ D) (i : ℕ) (f : SpinChain ℝ → ℝ) (C : ℝ) (hf : BoundedBy c L C f) (rf : ReadsBlock L i 2 f) :
    |thermalMean c' L (wholeEnergy L) f - thermalMean c L (wholeEnergy L) f| ≤ |c.vars.beta| * (perSite c.vars.beta K * (D * C)) := by
  have D0 : 0 ≤ D := (add_nonneg (len_nonneg _) (len_nonneg _)).trans (hD 0 (by omega))
  have ef : ∀ (x : SpinChain ℝ) (v : Fin L → V3 ℝ), f (withSpins x v) = f (withSpins c v) := fun x v =>
    rf _ _ fun j _ => by rw [S_fld, S_fld]
  have bf : ∀ x, BoundedBy x L C f := fun x => ⟨by simpa only [ef x] using hf.meas, fun v hv => by rw [ef]; exact hf.bound v hv⟩
  set F := fun a => thermalMean (mix c c' L a) L (wholeEnergy L) f with hF
  have e0 : thermalMean c L (wholeEnergy L) f = F 0 := by
    rw [hF]
    dsimp only
    rw [thermal_ring w hL, thermal_mix w hL]
    simp only [mix_start, ef (mix c c' L 0)]
  have e1 : thermalMean c' L (wholeEnergy L) f = F 1 := by
    rw [hF]
    dsimp only
    rw [thermal_ring w' hL, thermal_mix w hL, hb]
    simp only [mix_end, ef (mix c c' L 1), ef c']
  have hd : ∀ a, HasDerivAt F (-(c.vars.beta * thermalCov (mix c c' L a) L (wholeEnergy L) f
      fun y => ∑ i ∈ range L, energyTerm (gap c c' L) L i y)) a := fun a => by
    have tE := ring_tame (J c) (H0 c) L
    have tX := diff_tame c c' L
    obtain ⟨E0, hE⟩ := tE.bound
    obtain ⟨DX, hX⟩ := tX.bound
    have d1 := Response.mean_deriv c.vars.beta tE.meas tX.meas hf.meas (units_ae.mono fun v hv => hE v hv)
      (units_ae.mono fun v hv => hX v hv) (BoundedBy_ae hf) a
    have e : F = fun a => Response.mean (Measure.pi fun _ : Fin L => sphereMeasure) c.vars.beta
        (fun v => ringEnergy L (fld v) (J c) (H0 c) + a * diff c c' L v) fun v => f (withSpins c v) := by
      funext a
      rw [hF]
      dsimp only
      rw [thermal_mix w hL]
      simp only [ef (mix c c' L a)]
    rw [e]
    refine d1.congr_deriv ?_
    unfold thermalCov
    rw [thermal_mix w hL, thermal_mix w hL, thermal_mix w hL]
    simp only [diff_sum, ef (mix c c' L a)]
  have key : ∀ a ∈ Set.Icc (0 : ℝ) 1, ‖-(c.vars.beta * thermalCov (mix c c' L a) L (wholeEnergy L) f
      fun y => ∑ i ∈ range L, energyTerm (gap c c' L) L i y)‖ ≤ |c.vars.beta| * (perSite c.vars.beta K * (D * C)) := fun a ha => by
    have wm := mix_wf (c' := c') w a
    have bm := mix_bound hK hK' ha.1 ha.2
    have bX : ∀ i < L, BoundedBy (mix c c' L a) L D (energyTerm (gap c c' L) L i) :=
      fun i hi => BoundedBy_mono (diff_term_bounded _ hi) (hD i hi)
    rw [norm_neg, Real.norm_eq_abs, abs_mul, thermal_cov_comm, thermal_cov_sum wm hL L bX (bf _)]
    exact mul_le_mul_of_nonneg_left (cov_line wm hL bm D0 bX (fun j hj => diff_term_reads c c' hj) (bf _) rf) (abs_nonneg _)
  have mv := (convex_Icc (0 : ℝ) 1).norm_image_sub_le_of_norm_hasDerivWithin_le (f := F)
    (fun a _ => (hd a).hasDerivWithinAt) key (x := 0) (y := 1) (by simp) (by simp)
  rw [e0, e1]
  simpa using mv

theorem feel_mono {b b' K : ℝ} (h : |b| ≤ b') (K0 : 0 ≤ K) : feel b K ≤ feel b' K := by
  have h1 := perSite_mono h K0
  have h2 : 0 ≤ perSite b K := by
    unfold perSite
    positivity
  have h3 : |b| ≤ |b'| := h.trans (le_abs_self _)
  unfold feel
  gcongr

theorem len_three {x y z q : ℝ} (hx : |x| ≤ q) (hy : |y| ≤ q) (hz : |z| ≤ q) : len (⟨x, y, z⟩ : V3 ℝ) ≤ 2 * q := by
  have q0 := (abs_nonneg x).trans hx
  refine le_len_of_dot (by linarith) ?_
  have h : ∀ {t : ℝ}, |t| ≤ q → t * t ≤ q * q := fun h => by
    have := mul_self_le_mul_self (abs_nonneg _) h
    rwa [abs_mul_abs_self] at this
  simp only [dot]
  nlinarith [h hx, h hy, h hz]

/-- new chains with bounded draws are close to each other -/
theorem drawn_change {conf : Config ℝ} (v : ValidConf conf L s) {num num' : ℕ} {u u' zj zh zj' zh' : ℕ → ℝ}
    (hc : SpinChain.new conf num u zj zh = .ok c) (hc' : SpinChain.new conf num' u' zj' zh' = .ok c') {Z : ℝ} (z1 : DrawsWithin Z L zj)
    (z2 : DrawsWithin Z L zh) (z3 : DrawsWithin Z L zj') (z4 : DrawsWithin Z L zh') (i : ℕ) (hi : i < L) :
    change c c' i ≤ 4 * (|conf.jvar| + |conf.hvar|) * Z := by
  obtain ⟨f0, f1, f2, fr, hf⟩ := three_le v.hfield
  obtain ⟨h0, h1, h2, hr, hh⟩ := three_le v.hs
  obtain ⟨sp, hsp, -⟩ := newSpins_ok conf.beta u L
  obtain ⟨sp', hsp', -⟩ := newSpins_ok conf.beta u' L
  have a := new_eq v.hsize v.L_lt hf hh v.jvar v.hvar num u zj zh hsp
  have a' := new_eq v.hsize v.L_lt hf hh v.jvar v.hvar num' u' zj' zh' hsp'
  rw [hc] at a
  rw [hc'] at a'
  have d : ∀ {z z' : ℕ → ℝ} (q : ℝ), DrawsWithin Z L z → DrawsWithin Z L z' → ∀ x < 3 * L, |q * z' x - q * z x| ≤ |q| * (2 * Z) := by
    intro z z' q h h' x hx
    rw [← mul_sub, abs_mul]
    refine mul_le_mul_of_nonneg_left ((abs_sub _ _).trans ?_) (abs_nonneg q)
    have := h x hx
    have := h' x hx
    linarith
  have J1 : len (sub (J c' i) (J c i)) ≤ 2 * (|conf.jvar| * (2 * Z)) := by
    have e : sub (J c' i) (J c i) = ⟨conf.jvar * zj' (3 * i) - conf.jvar * zj (3 * i),
        conf.jvar * zj' (3 * i + 1) - conf.jvar * zj (3 * i + 1), conf.jvar * zj' (3 * i + 2) - conf.jvar * zj (3 * i + 2)⟩ := by
      cases a
      cases a'
      simp [J, coupF, hi, sub]
    rw [e]
    exact len_three (d _ z1 z3 _ (by omega)) (d _ z1 z3 _ (by omega)) (d _ z1 z3 _ (by omega))
  have H1 : len (sub (H0 c' i) (H0 c i)) ≤ 2 * (|conf.hvar| * (2 * Z)) := by
    have e : sub (H0 c' i) (H0 c i) = ⟨conf.hvar * zh' (3 * i) - conf.hvar * zh (3 * i),
        conf.hvar * zh' (3 * i + 1) - conf.hvar * zh (3 * i + 1), conf.hvar * zh' (3 * i + 2) - conf.hvar * zh (3 * i + 2)⟩ := by
      cases a
      cases a'
      by_cases hs : (i : ℤ) < conf.ssize
      · simp [H0, fieldN, hi, sub, hs]
      · simp [H0, fieldN, hi, sub, hs]
    rw [e]
    exact len_three (d _ z2 z4 _ (by omega)) (d _ z2 z4 _ (by omega)) (d _ z2 z4 _ (by omega))
  unfold change
  linarith

/-- C131: a temperature search in chains with disorder.  Every estimate draws its own couplings and fields; with all draws within `Z`
the search still finds the inverse temperature `bs` of the energy per site of the chain `c`, drawn apart from those of the estimates.
To the width of the last bracket and the error of the samples the disorder adds an error in proportion to its strength. -/
theorem C131_search (conf : Config ℝ) (L s : ℕ) (v : ValidConf conf L s) (hL : 3 ≤ L) (hb0 : conf.beta ≠ 0) (u0 zj0 zh0 : ℕ → ℝ)
    (c : SpinChain ℝ) (hc : SpinChain.new conf 0 u0 zj0 zh0 = .ok c) (Z : ℝ) (z1 : DrawsWithin Z L zj0) (z2 : DrawsWithin Z L zh0)
    (zj zh : ℕ → ℕ → ℝ) (z3 : ∀ k < 16, DrawsWithin Z L (zj k)) (z4 : ∀ k < 16, DrawsWithin Z L (zh k)) (K j0 : ℝ)
    (hK : ∀ zj zh x, DrawsWithin Z L zj → DrawsWithin Z L zh → SpinChain.new conf 0 u0 zj zh = .ok x →
      ∀ i < L, len (J x i) + len (H0 x i) ≤ K)
    (hj0 : 0 < j0) (hj : ∀ i < L, j0 ≤ len (J c i)) (per n : ℕ) (hper : 1 ≤ per) (hn : 1 ≤ n) (δ p : ℝ) (hδ : 0 < δ) (hδK : δ ≤ K)
    (hp : 0 < p) (hp1 : p ≤ 1)
    (hs : 16 * K ^ 2 * samplesWorth 5 K L per * (17 + 8 * ((|conf.beta| / 2 + 5 * K) * L)) / (p * δ ^ 2) ≤ n)
    (l0 : ℝ) (hl : l0 = 0.01 ∨ l0 = 0.0001) (bs : ℝ) (hbs : bs ∈ Set.Icc l0 5) :
    searchLaw L per n {r | ¬ ∃ b, bisect l0 5 (energyAt c L bs) (fun k beta =>
        estimate SpinChain.metropolis_update per n SpinChain.mc_total_energy conf beta (searchRand zj zh r k)) 13 = .ok (some b) ∧
        |b.mid - bs| ≤ 0.0005 + (δ + feel 5 K * (4 * (|conf.jvar| + |conf.hvar|) * Z)) / heatLow 5 K j0} ≤ ENNReal.ofReal p := by
  have hL2 : 2 ≤ L := by omega
  have L0 : (0 : ℝ) < L := by exact_mod_cast (by omega : 0 < L)
  have w := new_wf v hc
  have Kc := hK _ _ _ z1 z2 hc
  have K0 := K_nonneg hL2 Kc
  have κ0 := heatLow_pos 5 K hj0
  have l01 : 0 ≤ l0 ∧ l0 ≤ 5 := by rcases hl with rfl | rfl <;> norm_num
  have Z0 : 0 ≤ Z := (abs_nonneg _).trans (z1 0 (by omega))
  have F0 : 0 ≤ feel 5 K := by
    have : 0 ≤ perSite 5 K := by
      unfold perSite
      positivity
    unfold feel
    positivity
  set D := 4 * (|conf.jvar| + |conf.hvar|) * Z with hD
  have D0 : 0 ≤ D := by positivity
  set ε := feel 5 K * D with hε
  have ε0 : 0 ≤ ε := mul_nonneg F0 D0
  have ex : ∀ k, ∃ x, SpinChain.new conf 0 u0 (zj k) (zh k) = .ok x := fun k => by
    obtain ⟨x, hx, -⟩ := C11_new_wf' conf 0 u0 (zj k) (zh k) L s v.hsize v.L_lt v.ssize v.s_lt v.hfield v.hs v.jvar v.hvar
    exact ⟨x, hx⟩
  choose ck hck using ex
  have near : ∀ k < 16, ∀ x ∈ Set.Icc l0 5, |energyAt (ck k) L x - energyAt c L x| ≤ ε := fun k hk x hx => by
    refine (C131_energy c (ck k) L s s w (new_wf v (hck k)) hL2 K Kc (hK _ _ _ (z3 k hk) (z4 k hk) (hck k)) x).trans ?_
    have x5 : |x| ≤ 5 := abs_le.2 ⟨by linarith [hx.1], hx.2⟩
    have m1 := feel_mono x5 K0
    have m2 : (∑ i ∈ range L, change c (ck k) i) / L ≤ D := by
      rw [div_le_iff₀ L0]
      refine (sum_le_sum fun i hi => drawn_change v hc (hck k) z1 z2 (z3 k hk) (z4 k hk) i (mem_range.1 hi)).trans (le_of_eq ?_)
      rw [sum_const, card_range, nsmul_eq_mul, mul_comm]
    have m3 : 0 ≤ (∑ i ∈ range L, change c (ck k) i) / L :=
      div_nonneg (sum_nonneg fun i _ => add_nonneg (len_nonneg _) (len_nonneg _)) L0.le
    exact mul_le_mul m1 m2 m3 F0
  have slope := C129_slope c L s w hL K j0 Kc hj0.le hj 5
  have e1 := (slope l0 bs (by linarith) hbs.1 hbs.2).1
  have e2 := (slope bs 5 (by linarith [hbs.1]) hbs.2 le_rfl).1
  have q1 : 0 ≤ heatLow 5 K j0 * (bs - l0) := mul_nonneg κ0.le (by linarith [hbs.1])
  have q2 : 0 ≤ heatLow 5 K j0 * (5 - bs) := mul_nonneg κ0.le (by linarith [hbs.2])
  refine le_trans (measure_mono fun r hr => ?_) (search_drawn conf L s v hb0 u0 zj zh ck (fun k _ => hck k) K
    (fun k hk => hK _ _ _ (z3 k hk) (z4 k hk) (hck k)) per n hper hn δ ε p hδ hδK ε0 hp hp1 hs l0 hl (energyAt c L)
    (energyAt_cont w hL2) near (energyAt c L bs) (by linarith) (by linarith))
  rintro ⟨b, h1, beta, hb, h2, h3⟩
  refine hr ⟨b, h1, ?_⟩
  have h4 : heatLow 5 K j0 * |beta - bs| ≤ δ + ε := by
    refine le_trans ?_ h3
    rcases le_total beta bs with h | h
    · have := (slope beta bs (by linarith [hb.1]) h hbs.2).1
      rw [abs_of_nonpos (by linarith)]
      refine le_trans (le_of_eq (by ring)) (this.trans (le_abs_self _))
    · have := (slope bs beta (by linarith [hbs.1]) h hb.2).1
      rw [abs_of_nonneg (by linarith)]
      refine this.trans ?_
      rw [abs_sub_comm]
      exact le_abs_self _
  have h5 : |beta - bs| ≤ (δ + ε) / heatLow 5 K j0 := by
    rw [le_div_iff₀ κ0, mul_comm]
    exact h4
  have h6 : |b.mid - bs| ≤ |beta - b.mid| + |beta - bs| := by
    rw [abs_sub_comm beta b.mid]
    calc |b.mid - bs| = |(b.mid - beta) + (beta - bs)| := by ring_nf
      _ ≤ _ := abs_add_le _ _
  linarith

theorem drawn_x {conf : Config ℝ} (v : ValidConf conf L s) {num : ℕ} {u zj zh : ℕ → ℝ} (hc : SpinChain.new conf num u zj zh = .ok c)
    (i : ℕ) (hi : i < L) : (J c i).x = 1 + conf.jvar * zj (3 * i) := by
  obtain ⟨f0, f1, f2, fr, hf⟩ := three_le v.hfield
  obtain ⟨h0, h1, h2, hr, hh⟩ := three_le v.hs
  obtain ⟨sp, hsp, -⟩ := newSpins_ok conf.beta u L
  have a := new_eq v.hsize v.L_lt hf hh v.jvar v.hvar num u zj zh hsp
  rw [hc] at a
  cases a
  simp [J, coupF, hi]

theorem change_bound {x y : SpinChain ℝ} (i : ℕ) : len (J y i) + len (H0 y i) ≤ len (J x i) + len (H0 x i) + change x y i := by
  have h1 := len_add_le (J x i) (sub (J y i) (J x i))
  have h2 := len_add_le (H0 x i) (sub (H0 y i) (H0 x i))
  have e : ∀ p q : V3 ℝ, Spec.add p (sub q p) = q := fun p q => by
    ext <;> simp only [Spec.add, sub] <;> ring
  rw [e] at h1 h2
  unfold change
  linarith

/-- non-vacuity: the default configuration, with its disorder and inverse temperature one, draws of size at most five, and enough
samples -/
example : ∃ (conf : Config ℝ), ValidConf conf 512 8 ∧ conf.jvar = (Config.default : Config ℝ).jvar ∧ conf.jvar ≠ 0 ∧ conf.beta ≠ 0 ∧
    ∀ u0 zj0 zh0 : ℕ → ℝ, DrawsWithin 5 512 zj0 → DrawsWithin 5 512 zh0 → ∃ c K, SpinChain.new conf 0 u0 zj0 zh0 = .ok c ∧
      (∀ zj zh x, DrawsWithin 5 512 zj → DrawsWithin 5 512 zh → SpinChain.new conf 0 u0 zj zh = .ok x →
        ∀ i < 512, len (J x i) + len (H0 x i) ≤ K) ∧
      (∀ i < 512, 1 / 2 ≤ len (J c i)) ∧ (1 / 10 : ℝ) ≤ K ∧
      ∃ n : ℕ, 1 ≤ n ∧ 16 * K ^ 2 * samplesWorth 5 K 512 1000 * (17 + 8 * ((|conf.beta| / 2 + 5 * K) * (512 : ℕ)))
        / (1 / 100 * (1 / 10) ^ 2) ≤ n := by
  let conf : Config ℝ := { (Config.default : Config ℝ) with
    beta := 1 }
  have v : ValidConf conf 512 8 := by constructor <;> first | rfl | norm_num
  have hjv : conf.jvar = 0.001 := rfl
  refine ⟨conf, v, rfl, by rw [hjv]; norm_num, one_ne_zero, fun u0 zj0 zh0 z1 z2 => ?_⟩
  obtain ⟨c, h, w⟩ := C11_new_wf' conf 0 u0 zj0 zh0 512 8 v.hsize v.L_lt v.ssize v.s_lt v.hfield v.hs v.jvar v.hvar
  have D0 : 0 ≤ 4 * (|conf.jvar| + |conf.hvar|) * 5 := by positivity
  set K := ∑ i ∈ range 512, (len (J c i) + len (H0 c i)) + 4 * (|conf.jvar| + |conf.hvar|) * 5 with hK
  obtain ⟨n, hn⟩ := exists_nat_ge (16 * K ^ 2 * samplesWorth 5 K 512 1000 * (17 + 8 * ((|conf.beta| / 2 + 5 * K)
    * (512 : ℕ))) / (1 / 100 * (1 / 10) ^ 2))
  have one : ∀ i < 512, len (J c i) + len (H0 c i) ≤ ∑ i ∈ range 512, (len (J c i) + len (H0 c i)) := fun i hi =>
    single_le_sum (f := fun i => len (J c i) + len (H0 c i))
        (fun j _ => add_nonneg (Real.sqrt_nonneg _) (Real.sqrt_nonneg _)) (mem_range.2 hi)
  have hj : ∀ i < 512, 1 / 2 ≤ len (J c i) := fun i hi => by
    have e := drawn_x v h i hi
    have b := abs_le.1 (z1 (3 * i) (by omega))
    have g : 1 / 2 ≤ (J c i).x := by
      rw [e, hjv]
      linarith [b.1]
    refine Real.le_sqrt_of_sq_le ?_
    simp only [dot]
    nlinarith [mul_self_nonneg (J c i).y, mul_self_nonneg (J c i).z]
  refine ⟨c, K, h, fun zj zh x z3 z4 hx i hi => ?_, hj, ?_, n + 1, by omega, hn.trans (by push_cast; linarith)⟩
  · have := drawn_change v h hx z1 z2 z3 z4 i hi
    have := change_bound (x := c) (y := x) i
    have := one i hi
    linarith
  · have := one 0 (by omega)
    have := hj 0 (by omega)
    have := len_nonneg (H0 c 0)
    linarith

/-- non-vacuity of `C131_energy` and `C131_local`: two chains of four spins with different fields -/
example : WF demo 4 2 ∧ WF (inField demo 2) 4 2 ∧ (inField demo 2).vars.beta = demo.vars.beta ∧ change demo (inField demo 2) 0 ≠ 0 ∧
    (∃ K, (∀ i < 4, len (J demo i) + len (H0 demo i) ≤ K) ∧ ∀ i < 4, len (J (inField demo 2) i) + len (H0 (inField demo 2) i) ≤ K) := by
  refine ⟨demo_wf, inField_wf demo_wf 2, rfl, ?_, ∑ i ∈ range 4, ((len (J demo i) + len (H0 demo i))
    + (len (J (inField demo 2) i) + len (H0 (inField demo 2) i))), fun i hi => ?_, fun i hi => ?_⟩
  · have h0 : 0 ≤ len (sub (J (inField demo 2) 0) (J demo 0)) := len_nonneg _
    have h1 : 0 < len (sub (H0 (inField demo 2) 0) (H0 demo 0)) := by
      refine Real.sqrt_pos.2 ?_
      rw [H0_inField]
      norm_num [H0, demo, dot, sub, smul]
    unfold change
    linarith
  all_goals
    have := single_le_sum (f := fun i => (len (J demo i) + len (H0 demo i))
      + (len (J (inField demo 2) i) + len (H0 (inField demo 2) i)))
      (fun j _ => add_nonneg (add_nonneg (len_nonneg _) (len_nonneg _)) (add_nonneg (len_nonneg _) (len_nonneg _))) (mem_range.2 hi)
    have a := add_nonneg (len_nonneg (J demo i)) (len_nonneg (H0 demo i))
    have b := add_nonneg (len_nonneg (J (inField demo 2) i)) (len_nonneg (H0 (inField demo 2) i))
    linarith

end

end Verif.Props
