/-
C119: the two histograms of `gen_hist` (/repo/src/obs.rs:675-793).
-/
import Verif.Props.Histogram
import Verif.Props.Magnetisation
import Verif.Props.Thermal
import Verif.Lemmas.HistSearch
import Verif.Lemmas.HistField
import Verif.Props.Ergodic
import Verif.Props.InitLaw
import Verif.Props.Irrelevant
import Verif.Props.ThermalSymmetry
import Mathlib.Analysis.Complex.ExponentialBounds

namespace Verif.Props

set_option linter.unusedSectionVars false

open MeasureTheory Spec Finset Markov Ergodic Thermal
open scoped ENNReal

variable {L s : ℕ}

/-- strictly inside the limits of the search: energy density within 0.005 of `e`, each component of the
magnetisation per site within 0.003 of zero -/
def InShell (L : ℕ) (J B : ℕ → V3 ℝ) (e : ℝ) (S : ℕ → V3 ℝ) : Prop :=
  |ringEnergy L S J B / L - e| < 0.005 ∧ |(∑ i ∈ range L, (S i).x) / L| < 0.003 ∧
    |(∑ i ∈ range L, (S i).y) / L| < 0.003 ∧ |(∑ i ∈ range L, (S i).z) / L| < 0.003

/-- the limits themselves -/
def OnShell (L : ℕ) (J B : ℕ → V3 ℝ) (e : ℝ) (S : ℕ → V3 ℝ) : Prop :=
  |ringEnergy L S J B / L - e| ≤ 0.005 ∧ |(∑ i ∈ range L, (S i).x) / L| ≤ 0.003 ∧
    |(∑ i ∈ range L, (S i).y) / L| ≤ 0.003 ∧ |(∑ i ∈ range L, (S i).z) / L| ≤ 0.003

open Classical in
/-- what the test of the search tells -/
theorem reject_eq {c : SpinChain ℝ} (w : WF c L s) (hL : 1 ≤ L) (hd : c.vars.drive = .none) :
    histReject c = .ok (!decide (OnShell L (J c) (H0 c) c.vars.ednsty (S c))) := by
  have hB : B c s c.t = H0 c := by
    funext i
    unfold B drive
    rw [hd]
    simp only [add, zero, add_zero]
    split <;> rfl
  unfold histReject
  simp only [total_energy2_eq w hL, m_tot_eq w, ok_bind, fofInt_real, w.hsize, Int.cast_natCast, hB, flt_real, fabs_real]
  show Except.ok _ = Except.ok _
  congr 1
  rw [Bool.eq_iff_iff]
  unfold OnShell
  simp only [Bool.or_eq_true, decide_eq_true_eq, Bool.not_eq_true', decide_eq_false_iff_not, not_and_or, not_le, or_assoc]

theorem shell_open (J B : ℕ → V3 ℝ) (e : ℝ) :
    IsOpen {p : Fin L → ℝ × ℝ | InShell L J B e (fld fun i => spherePoint (p i).1 (p i).2)} := by
  have cc : ∀ k, (Continuous fun p : Fin L → ℝ × ℝ => (fld (fun i => spherePoint (p i).1 (p i).2) k).x) ∧
      (Continuous fun p : Fin L → ℝ × ℝ => (fld (fun i => spherePoint (p i).1 (p i).2) k).y) ∧
      Continuous fun p : Fin L → ℝ × ℝ => (fld (fun i => spherePoint (p i).1 (p i).2) k).z := by
    intro k
    unfold fld
    by_cases h : k < L
    · simp only [h, dite_true]
      unfold spherePoint
      refine ⟨?_, ?_, ?_⟩ <;> fun_prop
    · simp only [h, dite_false]
      exact ⟨continuous_const, continuous_const, continuous_const⟩
  have ce : Continuous fun p : Fin L → ℝ × ℝ => ringEnergy L (fld fun i => spherePoint (p i).1 (p i).2) J B := by
    unfold ringEnergy dot had
    refine continuous_finsetSum _ fun i _ => ?_
    obtain ⟨a1, a2, a3⟩ := cc i
    obtain ⟨b1, b2, b3⟩ := cc ((i + 1) % L)
    fun_prop
  have hx : Continuous fun p : Fin L → ℝ × ℝ => ∑ i ∈ range L, (fld (fun i => spherePoint (p i).1 (p i).2) i).x :=
    continuous_finsetSum _ fun i _ => (cc i).1
  have hy : Continuous fun p : Fin L → ℝ × ℝ => ∑ i ∈ range L, (fld (fun i => spherePoint (p i).1 (p i).2) i).y :=
    continuous_finsetSum _ fun i _ => (cc i).2.1
  have hz : Continuous fun p : Fin L → ℝ × ℝ => ∑ i ∈ range L, (fld (fun i => spherePoint (p i).1 (p i).2) i).z :=
    continuous_finsetSum _ fun i _ => (cc i).2.2
  exact (isOpen_lt ((ce.div_const _).sub continuous_const).abs continuous_const).inter
    ((isOpen_lt (hx.div_const _).abs continuous_const).inter ((isOpen_lt (hy.div_const _).abs continuous_const).inter
      (isOpen_lt (hz.div_const _).abs continuous_const)))

theorem fld_meas (k : ℕ) : Measurable fun v : Fin L → V3 ℝ => fld v k := by
  unfold fld
  by_cases h : k < L
  · simp only [h, dite_true]
    exact measurable_pi_apply _
  · simp only [h, dite_false]
    exact measurable_const

theorem shell_meas (J B : ℕ → V3 ℝ) (e : ℝ) : MeasurableSet {v : Fin L → V3 ℝ | InShell L J B e (fld v)} ∧
    MeasurableSet {v : Fin L → V3 ℝ | OnShell L J B e (fld v)} := by
  have me : Measurable fun v : Fin L → V3 ℝ => |ringEnergy L (fld v) J B / L - e| :=
    measurable_norm.comp (((ring_tame J B L).meas.div_const _).sub_const _)
  have hx : Measurable fun v : Fin L → V3 ℝ => |(∑ i ∈ range L, (fld v i).x) / L| :=
    measurable_norm.comp ((Finset.measurable_fun_sum _ fun i _ => measurable_x.comp (fld_meas i)).div_const _)
  have hy : Measurable fun v : Fin L → V3 ℝ => |(∑ i ∈ range L, (fld v i).y) / L| :=
    measurable_norm.comp ((Finset.measurable_fun_sum _ fun i _ => measurable_y.comp (fld_meas i)).div_const _)
  have hz : Measurable fun v : Fin L → V3 ℝ => |(∑ i ∈ range L, (fld v i).z) / L| :=
    measurable_norm.comp ((Finset.measurable_fun_sum _ fun i _ => measurable_z.comp (fld_meas i)).div_const _)
  exact ⟨(measurableSet_lt me measurable_const).inter ((measurableSet_lt hx measurable_const).inter
      ((measurableSet_lt hy measurable_const).inter (measurableSet_lt hz measurable_const))),
    (measurableSet_le me measurable_const).inter ((measurableSet_le hx measurable_const).inter
      ((measurableSet_le hy measurable_const).inter (measurableSet_le hz measurable_const)))⟩

theorem shell_weight {J B : ℕ → V3 ℝ} {e : ℝ} {x : ℕ → V3 ℝ} (hx : ∀ i < L, len (x i) = 1) (h : InShell L J B e x) :
    0 < (Measure.pi fun _ : Fin L => sphereMeasure) {v : Fin L → V3 ℝ | OnShell L J B e (fld v)} := by
  obtain ⟨p, hp, hv⟩ := config_point (fun i : Fin L => x i) fun i => hx i i.2
  have key : InShell L J B e (fld fun i => spherePoint (p i).1 (p i).2) := by
    rw [hv]
    have hf : ∀ i < L, fld (fun i : Fin L => x i) i = x i := fun i hi => by unfold fld; rw [dif_pos hi]
    have hE : ringEnergy L (fld fun i : Fin L => x i) J B = ringEnergy L x J B := by
      unfold ringEnergy
      refine sum_congr rfl fun i hi => ?_
      have hi := mem_range.1 hi
      rw [hf i hi, hf _ (Nat.mod_lt _ (by omega))]
    unfold InShell
    rw [hE, sum_congr rfl fun i hi => by rw [hf i (mem_range.1 hi)],
      sum_congr (f := fun i => (fld (fun i : Fin L => x i) i).y) rfl fun i hi => by rw [hf i (mem_range.1 hi)],
      sum_congr (f := fun i => (fld (fun i : Fin L => x i) i).z) rfl fun i hi => by rw [hf i (mem_range.1 hi)]]
    exact h
  refine (open_weight (P := fun v => InShell L J B e (fld v)) (shell_meas J B e).1 (shell_open J B e) hp key).trans_le
    (measure_mono fun v hv => ⟨hv.1.le, hv.2.1.le, hv.2.2.1.le, hv.2.2.2.le⟩)

theorem hist_sites (hs : 1 ≤ s) (hsL : s ≤ L) : ftoNat ((fofInt (s : ℤ) : ℝ) / 4.0) < L ∧
    ftoNat ((3.0 : ℝ) * (fofInt (s : ℤ) : ℝ) / 4.0) < L := by
  constructor
  · rw [ftoNat_real, fofInt_real, lit_4, min_lt_iff]
    left
    have : (((s : ℤ) : ℝ)) / 4 = ((s : ℕ) : ℝ) / ((4 : ℕ) : ℝ) := by push_cast; ring
    rw [this, Nat.floor_div_eq_div]
    omega
  · rw [ftoNat_real, fofInt_real, lit_4, lit_3, min_lt_iff]
    left
    have : 3 * (((s : ℤ) : ℝ)) / 4 = ((3 * s : ℕ) : ℝ) / ((4 : ℕ) : ℝ) := by push_cast; ring
    rw [this, Nat.floor_div_eq_div]
    omega

/-- the dynamic histogram can always be made -/
theorem histDyn_total {d : SpinChain ℝ} (wd : WF d L s) (hL : 2 ≤ L) (hs : 1 ≤ s) (hsL : s ≤ L) (k : ℕ) :
    ∃ g, histDyn d k = .ok g := by
  obtain ⟨n1, n2⟩ := hist_sites hs hsL
  obtain ⟨orb, o0, ow, ostep, oupd⟩ := update_orbit wd hL
  choose smp hsmp using fun i => histSample2_total (ow i) hs hsL n1 n2
  have horb : ∀ i j, (orb i).updates j = .ok (orb (i + j)) := by
    intro i j
    induction j generalizing i with
    | zero => rfl
    | succ j ih =>
      show ((orb i).update >>= fun c' => c'.updates j) = _
      rw [ostep, ok_bind, ih, show i + 1 + j = i + (j + 1) by omega]
  have := forRange_trace (hi := k) (body := fun _ (st : SpinChain ℝ × List (List ℝ)) => do
      let c ← st.1.updates 10000
      return (c, st.2 ++ [← histSample2 c]))
    (fun i => (orb (10000 * i), (List.range i).map fun i => smp (10000 * (i + 1)))) (by
      intro i hi
      simp only [horb, ok_bind]
      rw [show 10000 * i + 10000 = 10000 * (i + 1) by ring, hsmp, ok_bind, List.range_succ,
        List.map_append]
      rfl)
  simp only [Nat.mul_zero, o0, List.range_zero, List.map_nil] at this
  exact ⟨_, this⟩

/-- the state of `gen_hist` when the search begins -/
theorem hist_start (conf : Config ℝ) (v : ValidConf conf L s) (hs : 1 ≤ s) (hsL : s ≤ L) (k : ℕ) (r : Rand ℝ) :
    ∃ (c0 c : SpinChain ℝ) (rows : List (List ℝ)), SpinChain.new (histConf conf) 0 r.u r.zj r.zh = .ok c0 ∧
      WF c L s ∧ c.vars = histConf conf ∧ J c = J c0 ∧ H0 c = H0 c0 ∧
      ((∀ x ∈ c0.spins, IsUnit3 x) → ∀ x ∈ c.spins, IsUnit3 x) ∧
      ∀ ds' n, (∀ d p fl g, whileN (fun s : SpinChain ℝ × Nat × Bool => s.2.2) (histPass ds') n (c, 0, true)
            = .ok (some (d, p, fl)) → histDyn d k = .ok g →
          genHist conf k r ds' n = .ok (some { mc := rows, shell := d, dyn := g.2 })) ∧
        ∀ g, genHist conf k r ds' n = .ok (some g) → ∃ st,
          whileN (fun s : SpinChain ℝ × Nat × Bool => s.2.2) (histPass ds') n (c, 0, true) = .ok (some st) ∧
            g.mc = rows ∧ g.shell = st.1 := by
  have v' : ValidConf (histConf conf) L s :=
    ⟨v.hsize, v.ssize, v.L_two, v.L_lt, v.s_lt, v.hfield, v.hs, v.jvar, v.hvar⟩
  obtain ⟨c, h1, w, ht, hv, -, -⟩ := valid_new v' 0 r.u r.zj r.zh
  obtain ⟨n1, n2⟩ := hist_sites hs hsL
  obtain ⟨chain, val, c0, c1, c2, c3, c4⟩ := sampleLoop_eq .plain 10000 k histSample2 r.ds c w v.L_two
    (fun d wd => histSample2_total wd hs hsL n1 n2)
  have c4' : sampleLoop SpinChain.metropolis_update 10000 k histSample2 r.ds c
      = .ok (chain k, (List.range k).map val) := c4
  have hframe : ∀ i, (chain i).vars = histConf conf ∧
      (chain i).j_couple = c.j_couple ∧ (chain i).static_h = c.static_h ∧
      ((∀ x ∈ c.spins, IsUnit3 x) → ∀ x ∈ (chain i).spins, IsUnit3 x) := by
    intro i
    induction i with
    | zero => rw [c0]; exact ⟨hv, rfl, rfl, id⟩
    | succ i ih =>
      obtain ⟨-, a2, a3, a4, a5, -⟩ := C34_frame _ _ _ (c1 i)
      exact ⟨a5.trans ih.1, a2.trans ih.2.1, a3.trans ih.2.2.1, fun hu => C34_unit _ _ _ (ih.2.2.2 hu) (c1 i)⟩
  obtain ⟨f1, f2, f3, f4⟩ := hframe k
  refine ⟨c, chain k, (List.range k).map val, h1, c2 k, f1, ?_, ?_, f4, fun ds' n => ?_⟩
  · unfold J; rw [f2]
  · unfold H0; rw [f3]
  · unfold genHist
    rw [show ({ conf with drive := DriveType.none, file := "x" } : Config ℝ) = histConf conf from rfl]
    simp only [h1, ok_bind, c4']
    refine ⟨fun d p fl g hw hg => ?_, fun g hg => ?_⟩
    · rw [hw]
      simp only [ok_bind, hg]
      rfl
    · obtain ⟨o, q1, q2⟩ := bind_eq_ok hg
      cases o with
      | none => cases q2
      | some st =>
        obtain ⟨d, q3, q4⟩ := bind_eq_ok q2
        cases q4
        exact ⟨st, q1, rfl, rfl⟩

/-- what every pass of the search keeps -/
theorem search_keeps {ds' : ℕ → ℕ → Draw ℝ} (n : ℕ) (a b : SpinChain ℝ × ℕ × Bool)
    (h : whileN (fun s : SpinChain ℝ × ℕ × Bool => s.2.2) (histPass ds') n a = .ok (some b)) (wa : WF a.1 L s) :
    WF b.1 L s ∧ b.1.vars = a.1.vars ∧ b.1.j_couple = a.1.j_couple ∧ b.1.static_h = a.1.static_h ∧
      ((∀ x ∈ a.1.spins, IsUnit3 x) → ∀ x ∈ b.1.spins, IsUnit3 x) := by
  induction n generalizing a with
  | zero =>
    unfold whileN at h
    split at h <;> cases h
    exact ⟨wa, rfl, rfl, rfl, id⟩
  | succ n ih =>
    unfold whileN at h
    split at h
    · obtain ⟨a', q1, q2⟩ := bind_eq_ok h
      unfold histPass at q1
      obtain ⟨d', q3, q4⟩ := bind_eq_ok q1
      obtain ⟨f, q5, q6⟩ := bind_eq_ok q4
      cases q6
      have q3' : sample (block .plain (ds' a.2.1) 10000) a.1 = .ok d' := by
        rw [← sweeps_eq .plain]
        exact q3
      obtain ⟨-, a2, a3, -, a5, -⟩ := C34_frame _ _ _ q3'
      obtain ⟨b1, b2, b3, b4, b5⟩ := ih _ q2 (sample_wf wa q3')
      exact ⟨b1, b2.trans a5, b3.trans a2, b4.trans a3, fun hu => b5 (C34_unit _ _ _ hu q3')⟩
    · cases h

theorem hist_unit (conf : Config ℝ) (v : ValidConf conf L s) (hb : conf.beta ≠ 0) (r : Rand ℝ) (hu : UnitDraws r.u)
    (hn : NonDegenerate conf.beta r.u L) (c0 : SpinChain ℝ)
    (h0 : SpinChain.new (histConf conf) 0 r.u r.zj r.zh = .ok c0) : ∀ x ∈ c0.spins, IsUnit3 x := by
  have v' : ValidConf (histConf conf) L s :=
    ⟨v.hsize, v.ssize, v.L_two, v.L_lt, v.s_lt, v.hfield, v.hs, v.jvar, v.hvar⟩
  obtain ⟨c1, e1, w1, -⟩ := valid_new v' 0 r.u r.zj r.zh
  rw [h0] at e1
  cases e1
  obtain ⟨c2, e2, hc2⟩ := C11_new_unit (histConf conf) 0 r.u r.zj r.zh L v.hsize v.L_lt v.hfield v.hs hb hu hn
  rw [h0] at e2
  cases e2
  intro y hy
  obtain ⟨i, hi, rfl⟩ := List.getElem_of_mem hy
  have := (hc2 i (by rw [← w1.spins]; exact hi)).2
  unfold S at this
  rw [List.getElem?_eq_getElem hi] at this
  exact this

/-- C119, the search ends: if there is a configuration of unit spins strictly within its limits, the probability
that `gen_hist` has not found one within `n` passes decreases geometrically with `n`, from whatever configuration
the Monte-Carlo histogram has left behind. -/
theorem C119_ends (conf : Config ℝ) (v : ValidConf conf L s) (hs : 1 ≤ s) (hsL : s ≤ L) (hb : 0 < conf.beta)
    (k : ℕ) (r : Rand ℝ) (hu : UnitDraws r.u) (hn : NonDegenerate conf.beta r.u L) (c0 : SpinChain ℝ)
    (h0 : SpinChain.new (histConf conf) 0 r.u r.zj r.zh = .ok c0) (x : ℕ → V3 ℝ) (hx : ∀ i < L, len (x i) = 1)
    (hsh : InShell L (J c0) (H0 c0) conf.ednsty x) :
    ∃ (m : ℕ) (q : ℝ), 0 ≤ q ∧ q < 1 ∧ ∀ n,
      blockLaw L 10000 n {w | ¬ ∃ p ≤ n, ∃ g, genHist conf k r (blockDraws w) p = .ok (some g)}
        ≤ ENNReal.ofReal (q ^ (n / (m + 1))) := by
  classical
  obtain ⟨c0', c, rows, h0', w, hv, hJ, hH, hun, hgen⟩ := hist_start conf v hs hsL k r
  rw [h0] at h0'
  cases h0'
  have hL := v.L_two
  have : NeZero L := ⟨by omega⟩
  have hu0 := hist_unit conf v hb.ne' r hu hn c0 h0
  have huc := hun hu0
  have hbeta : c.vars.beta = conf.beta := by rw [hv]; rfl
  have hrej : ∀ q : Fin L → V3 ℝ, histReject (withSpins c q)
      = .ok (!decide (OnShell L (J c0) (H0 c0) conf.ednsty (fld q))) := by
    intro q
    have := reject_eq (withSpins_wf w q) (by omega) (show (withSpins c q).vars.drive = .none by
      show c.vars.drive = .none
      rw [hv]; rfl)
    rw [this, S_fld]
    show Except.ok (!decide (OnShell L (J c) (H0 c) c.vars.ednsty (fld q))) = _
    rw [hJ, hH, hv]
    rfl
  set A : Set (Fin L → V3 ℝ) := {q | OnShell L (J c0) (H0 c0) conf.ednsty (fld q)} with hA
  have mA : MeasurableSet A := (shell_meas _ _ _).2
  have tE := whole_tame w hL
  obtain ⟨D, hD⟩ := tE.bound
  obtain ⟨m, q, q0, q1, hq⟩ := HistSearch.miss_geometric (A := A) (β := conf.beta) (per := 10000) hb.le tE.meas hD mA
    (shell_weight hx hsh).ne' (by norm_num)
  refine ⟨m, q, q0, q1, fun n => ?_⟩
  set v0 : Fin L → V3 ℝ := fun i => S c i with hv0
  have g0 : Good Sph v0 := fun i => unit_of w huc i.2
  have key : ∀ᵐ w' ∂(blockLaw L 10000 n), w' ∈ {w' | ¬ ∃ p ≤ n, ∃ g, genHist conf k r (blockDraws w') p = .ok (some g)} →
      w' ∈ {w' | HistSearch.Miss (run (move conf.beta fun q => wholeEnergy L (withSpins c q)) 10000) A n v0 w'} := by
    filter_upwards [fair_blocks (L := L) 10000 n] with b hbf hno
    have hno : ¬ ∃ p ≤ n, ∃ g, genHist conf k r (blockDraws b) p = .ok (some g) := hno
    have := HistSearch.search_miss (plain_upd hL) w _ hrej n b hbf v0 (by
      rintro ⟨p, hp, st, hst⟩
      rw [withSpins_self w] at hst
      refine hno ⟨p, hp, ?_⟩
      obtain ⟨d, p', fl⟩ := st
      have wd : WF d L s := (search_keeps p _ _ hst w).1
      obtain ⟨g, hg⟩ := histDyn_total wd hL hs hsL k
      refine ⟨{ mc := rows, shell := d, dyn := g.2 }, ?_⟩
      exact (hgen _ _).1 _ _ _ _ hst hg)
    rw [hbeta] at this
    have e : {q : Fin L → V3 ℝ | (!decide (OnShell L (J c0) (H0 c0) conf.ednsty (fld q))) = false} = A := by
      ext q
      simp [hA]
    rw [e] at this
    exact this
  calc blockLaw L 10000 n {w | ¬ ∃ p ≤ n, ∃ g, genHist conf k r (blockDraws w) p = .ok (some g)}
      ≤ blockLaw L 10000 n {w' | HistSearch.Miss (run (move conf.beta fun q => wholeEnergy L (withSpins c q)) 10000) A n v0 w'} :=
        measure_mono_ae key
    _ = HistSearch.missProb conf.beta (fun q => wholeEnergy L (withSpins c q)) 10000 A n v0 :=
        HistSearch.miss_law hb.le tE.meas mA n v0
    _ ≤ HistSearch.missProb conf.beta (fun q => wholeEnergy L (withSpins c q)) 10000 A ((m + 1) * (n / (m + 1))) v0 :=
        HistSearch.missProb_anti _ _ v0 (by omega) (Nat.mul_div_le _ _)
    _ ≤ _ := hq v0 g0 _

/-! ### Where the search can end -/

/-- a planar spiral whose second half is the reverse of the first -/
noncomputable def spiral (N : ℕ) (a : ℝ) (i : ℕ) : V3 ℝ :=
  if i < N then ⟨Real.cos (i * a), Real.sin (i * a), 0⟩
  else ⟨-Real.cos ((i - N : ℕ) * a), -Real.sin ((i - N : ℕ) * a), 0⟩

theorem spiral_unit (N : ℕ) (a : ℝ) (i : ℕ) : len (spiral N a i) = 1 := by
  unfold spiral len dot
  split_ifs
  · show Real.sqrt (Real.cos _ * Real.cos _ + Real.sin _ * Real.sin _ + 0 * 0) = 1
    rw [mul_zero, add_zero, ← sq, ← sq, Real.cos_sq_add_sin_sq, Real.sqrt_one]
  · show Real.sqrt (-Real.cos _ * -Real.cos _ + -Real.sin _ * -Real.sin _ + 0 * 0) = 1
    rw [mul_zero, add_zero, neg_mul_neg, neg_mul_neg, ← sq, ← sq, Real.cos_sq_add_sin_sq, Real.sqrt_one]

theorem spiral_sum (N : ℕ) (a : ℝ) : ∑ i ∈ range (N + N), (spiral N a i).x = 0 ∧
    ∑ i ∈ range (N + N), (spiral N a i).y = 0 ∧ ∀ i, (spiral N a i).z = 0 := by
  have h1 : ∀ i ∈ range N, spiral N a i = ⟨Real.cos (i * a), Real.sin (i * a), 0⟩ := fun i hi => by
    unfold spiral
    rw [if_pos (mem_range.1 hi)]
  have h2 : ∀ i, spiral N a (N + i) = ⟨-Real.cos (i * a), -Real.sin (i * a), 0⟩ := fun i => by
    unfold spiral
    rw [if_neg (by omega), Nat.add_sub_cancel_left]
  refine ⟨?_, ?_, fun i => ?_⟩
  · rw [sum_range_add, sum_congr rfl fun i hi => by rw [h1 i hi],
      sum_congr (s₁ := range N) (f := fun i => (spiral N a (N + i)).x) rfl fun i _ => by rw [h2 i]]
    simp
  · rw [sum_range_add, sum_congr rfl fun i hi => by rw [h1 i hi],
      sum_congr (s₁ := range N) (f := fun i => (spiral N a (N + i)).y) rfl fun i _ => by rw [h2 i]]
    simp
  · unfold spiral
    split_ifs <;> rfl

theorem spiral_bonds {N : ℕ} (hN : 2 ≤ N) (a : ℝ) :
    ∑ i ∈ range (N + N), dot (spiral N a i) (spiral N a ((i + 1) % (N + N)))
      = 2 * ((N - 1) * Real.cos a - Real.cos ((N - 1) * a)) := by
  obtain ⟨n, rfl⟩ : ∃ n, N = n + 1 := ⟨N - 1, by omega⟩
  have h1 : ∀ i < n + 1, spiral (n + 1) a i = ⟨Real.cos (i * a), Real.sin (i * a), 0⟩ := fun i hi => by
    unfold spiral
    rw [if_pos hi]
  have h2 : ∀ i, spiral (n + 1) a (n + 1 + i) = ⟨-Real.cos (i * a), -Real.sin (i * a), 0⟩ := fun i => by
    unfold spiral
    rw [if_neg (by omega), Nat.add_sub_cancel_left]
  have hc : ∀ i : ℕ, Real.cos (i * a) * Real.cos ((i + 1 : ℕ) * a) + Real.sin (i * a) * Real.sin ((i + 1 : ℕ) * a)
      = Real.cos a := fun i => by
    rw [← Real.cos_sub, show (i : ℝ) * a - (i + 1 : ℕ) * a = -a by push_cast; ring, Real.cos_neg]
  rw [sum_range_add, sum_range_succ, sum_range_succ]
  have e1 : ∀ i ∈ range n, dot (spiral (n + 1) a i) (spiral (n + 1) a ((i + 1) % (n + 1 + (n + 1)))) = Real.cos a := by
    intro i hi
    have hi := mem_range.1 hi
    rw [Nat.mod_eq_of_lt (by omega), h1 i (by omega), h1 (i + 1) (by omega)]
    simp only [dot, mul_zero, add_zero]
    exact hc i
  have e2 : ∀ i ∈ range n, dot (spiral (n + 1) a (n + 1 + i)) (spiral (n + 1) a ((n + 1 + i + 1) % (n + 1 + (n + 1))))
      = Real.cos a := by
    intro i hi
    have hi := mem_range.1 hi
    rw [Nat.mod_eq_of_lt (by omega), h2 i, show n + 1 + i + 1 = n + 1 + (i + 1) by ring, h2 (i + 1)]
    simp only [dot, mul_zero, add_zero, neg_mul_neg]
    exact hc i
  rw [sum_congr rfl e1, sum_congr rfl e2, sum_const, card_range, nsmul_eq_mul, Nat.mod_eq_of_lt (by omega), h1 n (by omega),
    show n + 1 = n + 1 + 0 by rfl, h2 0, show n + 1 + 0 + n + 1 = n + 1 + (n + 1) by ring, Nat.mod_self, h1 0 (by omega), h2 n]
  simp only [dot, Nat.cast_zero, zero_mul, Real.cos_zero, Real.sin_zero, mul_zero, add_zero, neg_zero, mul_one]
  push_cast
  ring_nf

/-- C119, where the search can end: on an even ring with couplings along x and y within 0.004 of one and the same
field along x and along y on all sites — whatever the couplings and fields along z — there is a configuration
within its limits at every energy density up to `1 - 4 / L` in size. -/
theorem C119_shell (J B : ℕ → V3 ℝ) (e : ℝ) (hL : 4 ≤ L) (hev : L % 2 = 0)
    (hJ : ∀ i < L, |(J i).x - 1| ≤ 0.004 ∧ |(J i).y - 1| ≤ 0.004) (hB : ∀ i < L, (B i).x = (B 0).x ∧ (B i).y = (B 0).y)
    (he : |e| ≤ 1 - 4 / L) : ∃ x : ℕ → V3 ℝ, (∀ i, len (x i) = 1) ∧ InShell L J B e x := by
  obtain ⟨N, rfl⟩ : ∃ N, L = N + N := ⟨L / 2, by omega⟩
  have hN : 2 ≤ N := by omega
  have hN' : (2 : ℝ) ≤ N := by exact_mod_cast hN
  set g : ℝ → ℝ := fun a => 2 * ((N - 1) * Real.cos a - Real.cos ((N - 1) * a)) with hg
  have cg : Continuous g := by fun_prop
  have hcast : ((N + N : ℕ) : ℝ) = 2 * N := by push_cast; ring
  rw [hcast] at he
  have hm : |e| * (2 * N) ≤ 2 * N - 4 := by
    calc |e| * (2 * N) ≤ (1 - 4 / (2 * N)) * (2 * N) := by gcongr
      _ = 2 * N - 4 := by field_simp
  have g0 : -(e * (2 * N)) ≤ g 0 := by
    have : g 0 = 2 * N - 4 := by simp only [hg, mul_zero, Real.cos_zero]; ring
    rw [this]
    have := mul_le_mul_of_nonneg_right (neg_abs_le e) (show (0 : ℝ) ≤ 2 * N by positivity)
    linarith
  have g1 : g Real.pi ≤ -(e * (2 * N)) := by
    have : g Real.pi ≤ -(2 * N - 4) := by
      have h := Real.neg_one_le_cos ((N - 1) * Real.pi)
      simp only [hg, Real.cos_pi]
      linarith
    have := mul_le_mul_of_nonneg_right (le_abs_self e) (show (0 : ℝ) ≤ 2 * N by positivity)
    linarith
  obtain ⟨a, -, ha⟩ := intermediate_value_Icc' Real.pi_pos.le cg.continuousOn ⟨g1, g0⟩
  obtain ⟨s1, s2, s3⟩ := spiral_sum N a
  refine ⟨spiral N a, spiral_unit N a, ?_, ?_, ?_, ?_⟩
  · set x := spiral N a
    have hb := spiral_bonds hN a
    rw [show (2 * (((N : ℝ) - 1) * Real.cos a - Real.cos ((N - 1) * a))) = g a from rfl, ha] at hb
    have field : ∑ i ∈ range (N + N), dot (B i) (x i) = 0 := by
      have : ∀ i ∈ range (N + N), dot (B i) (x i) = (B 0).x * (x i).x + (B 0).y * (x i).y := by
        intro i hi
        obtain ⟨b1, b2⟩ := hB i (mem_range.1 hi)
        simp only [dot, b1, b2, s3 i, mul_zero, add_zero]
      rw [sum_congr rfl this, sum_add_distrib, ← mul_sum, ← mul_sum, s1, s2, mul_zero, mul_zero, add_zero]
    have close : |∑ i ∈ range (N + N), dot (x i) (had (J i) (x ((i + 1) % (N + N)))) -
        ∑ i ∈ range (N + N), dot (x i) (x ((i + 1) % (N + N)))| ≤ (N + N : ℕ) * 0.004 := by
      refine sum_close fun i hi => ?_
      obtain ⟨j1, j2⟩ := hJ i hi
      set y := x ((i + 1) % (N + N)) with hy
      have z1 := s3 i
      have z2 : y.z = 0 := s3 _
      have ux : (x i).x ^ 2 + (x i).y ^ 2 = 1 := by
        have h : Real.sqrt _ = 1 := spiral_unit N a i
        rw [Real.sqrt_eq_one] at h
        have h : (x i).x * (x i).x + (x i).y * (x i).y + (x i).z * (x i).z = 1 := h
        rw [z1] at h
        linarith
      have uy : y.x ^ 2 + y.y ^ 2 = 1 := by
        have h : Real.sqrt _ = 1 := spiral_unit N a ((i + 1) % (N + N))
        rw [Real.sqrt_eq_one] at h
        have h : y.x * y.x + y.y * y.y + y.z * y.z = 1 := h
        rw [z2] at h
        linarith
      have e1 : dot (x i) (had (J i) y) - dot (x i) y
          = ((J i).x - 1) * ((x i).x * y.x) + ((J i).y - 1) * ((x i).y * y.y) := by
        simp only [dot, had, z2]
        ring
      rw [e1]
      have a1 : |(x i).x * y.x| ≤ ((x i).x ^ 2 + y.x ^ 2) / 2 := by
        rw [abs_le]; constructor <;> nlinarith [sq_nonneg ((x i).x + y.x), sq_nonneg ((x i).x - y.x)]
      have a2 : |(x i).y * y.y| ≤ ((x i).y ^ 2 + y.y ^ 2) / 2 := by
        rw [abs_le]; constructor <;> nlinarith [sq_nonneg ((x i).y + y.y), sq_nonneg ((x i).y - y.y)]
      calc _ ≤ |((J i).x - 1) * ((x i).x * y.x)| + |((J i).y - 1) * ((x i).y * y.y)| := abs_add_le _ _
        _ = |(J i).x - 1| * |(x i).x * y.x| + |(J i).y - 1| * |(x i).y * y.y| := by
          rw [abs_mul ((J i).x - 1), abs_mul ((J i).y - 1)]
        _ ≤ 0.004 * (((x i).x ^ 2 + y.x ^ 2) / 2) + 0.004 * (((x i).y ^ 2 + y.y ^ 2) / 2) := by gcongr
        _ = 0.004 := by linarith
    rw [hb] at close
    have hE : ringEnergy (N + N) x J B = -∑ i ∈ range (N + N), dot (x i) (had (J i) (x ((i + 1) % (N + N)))) := by
      unfold ringEnergy
      rw [sum_add_distrib, field, add_zero, sum_neg_distrib]
    rw [hE]
    have hpos : (0 : ℝ) < ((N + N : ℕ) : ℝ) := by rw [hcast]; positivity
    have : -(∑ i ∈ range (N + N), dot (x i) (had (J i) (x ((i + 1) % (N + N))))) / ((N + N : ℕ) : ℝ) - e
        = -((∑ i ∈ range (N + N), dot (x i) (had (J i) (x ((i + 1) % (N + N))))) - -(e * (2 * N))) / ((N + N : ℕ) : ℝ) := by
      rw [hcast]
      field_simp
      ring
    rw [this, abs_div, abs_neg, abs_of_pos hpos, div_lt_iff₀ hpos]
    refine close.trans_lt ?_
    rw [mul_comm]
    exact mul_lt_mul_of_pos_right (by norm_num) hpos
  · rw [s1]; norm_num
  · rw [s2]; norm_num
  · rw [sum_congr rfl fun i _ => s3 i]; norm_num

/-- C119, the search does not end when no configuration of unit spins is within its limits, however many passes it
makes. -/
theorem C119_never (conf : Config ℝ) (v : ValidConf conf L s) (hs : 1 ≤ s) (hsL : s ≤ L) (hb : conf.beta ≠ 0)
    (k : ℕ) (r : Rand ℝ) (hu : UnitDraws r.u) (hn : NonDegenerate conf.beta r.u L) (c0 : SpinChain ℝ)
    (h0 : SpinChain.new (histConf conf) 0 r.u r.zj r.zh = .ok c0)
    (hno : ∀ x : ℕ → V3 ℝ, (∀ i < L, len (x i) = 1) → ¬ OnShell L (J c0) (H0 c0) conf.ednsty x) (ds' : ℕ → ℕ → Draw ℝ)
    (n : ℕ) (g : GenHist ℝ) : genHist conf k r ds' n ≠ .ok (some g) := by
  intro h
  obtain ⟨c0', c, rows, h0', w, hv, hJ, hH, hun, hgen⟩ := hist_start conf v hs hsL k r
  rw [h0] at h0'
  cases h0'
  have huc := hun (hist_unit conf v hb r hu hn c0 h0)
  obtain ⟨st, hst, -, hsh⟩ := (hgen ds' n).2 g h
  obtain ⟨k1, -, -, -, k5⟩ := search_keeps n _ _ hst w
  obtain ⟨w1, -, -, ⟨c1, e1, ej, eh⟩, a1, a2, a3, a4, -⟩ := C72_shell conf v hs hsL k r ds' n g h
  rw [h0] at e1
  cases e1
  refine hno (S g.shell) (fun i hi => ?_) ?_
  · rw [hsh]
    exact unit_of k1 (k5 huc) hi
  · have e1 : J g.shell = J c0 := by unfold J; rw [ej]
    have e2 : H0 g.shell = H0 c0 := by unfold H0; rw [eh]
    rw [e1, e2] at a1
    exact ⟨a1, a2, a3, a4⟩

/-- on an isotropic ring of four sites without field a configuration without magnetisation has no negative energy -/
theorem four_shell {J B : ℕ → V3 ℝ} {e : ℝ} (he : e < -0.006) (hJ : ∀ i < 4, J i = ⟨1, 1, 1⟩) (hB : ∀ i < 4, B i = zero)
    (x : ℕ → V3 ℝ) : ¬ OnShell 4 J B e x := by
  rintro ⟨h1, h2, h3, h4⟩
  have hE : ringEnergy 4 x J B = -(((x 0).x + (x 2).x) * ((x 1).x + (x 3).x) + ((x 0).y + (x 2).y) * ((x 1).y + (x 3).y)
      + ((x 0).z + (x 2).z) * ((x 1).z + (x 3).z)) := by
    unfold ringEnergy
    simp only [sum_range_succ, range_zero, sum_empty, hJ 0 (by norm_num), hJ 1 (by norm_num), hJ 2 (by norm_num),
      hJ 3 (by norm_num), hB 0 (by norm_num), hB 1 (by norm_num), hB 2 (by norm_num), hB 3 (by norm_num), dot, had, zero,
      Nat.reduceAdd, Nat.reduceMod]
    ring
  rw [hE] at h1
  simp only [sum_range_succ, range_zero, sum_empty, zero_add] at h2 h3 h4
  have key : ∀ a b : ℝ, |(a + b) / (4 : ℕ)| ≤ 0.003 → a * b ≤ 0.000036 := by
    intro a b h
    have h' := sq_le_sq' (abs_le.1 h).1 (abs_le.1 h).2
    push_cast at h'
    nlinarith [sq_nonneg (a - b)]
  have k1 := key ((x 0).x + (x 2).x) ((x 1).x + (x 3).x) (by rw [show (x 0).x + (x 2).x + ((x 1).x + (x 3).x) = (x 0).x + (x 1).x + (x 2).x + (x 3).x by ring]; exact h2)
  have k2 := key ((x 0).y + (x 2).y) ((x 1).y + (x 3).y) (by rw [show (x 0).y + (x 2).y + ((x 1).y + (x 3).y) = (x 0).y + (x 1).y + (x 2).y + (x 3).y by ring]; exact h3)
  have k3 := key ((x 0).z + (x 2).z) ((x 1).z + (x 3).z) (by rw [show (x 0).z + (x 2).z + ((x 1).z + (x 3).z) = (x 0).z + (x 1).z + (x 2).z + (x 3).z by ring]; exact h4)
  have h5 := (abs_le.1 h1).2
  push_cast at h5
  linarith

/-! ### A field along z -/

/-- the magnetisation along the axis `a` per site -/
noncomputable def magA (a : Fin 3) (L : ℕ) (c : SpinChain ℝ) : ℝ := (∑ i ∈ range L, partA a (S c i)) / L

/-- the magnetisation along z per site -/
noncomputable abbrev magZ : ℕ → SpinChain ℝ → ℝ := magA 2

/-- C119, the Monte-Carlo histogram in a field: the thermal mean of the magnetisation of an isotropic ring in a field
`h` along z is far from zero when the field and the inverse temperature are not small, on rings of every size. -/
theorem C119_thermal (c : SpinChain ℝ) (L s : ℕ) (w : WF c L s) (hL : 2 ≤ L) (h : ℝ) (hh : 0 < h)
    (hJ : ∀ i < L, J c i = ⟨1, 1, 1⟩) (hH : ∀ i < L, H0 c i = ⟨0, 0, h⟩) (beta : ℝ) (hb : 0 < beta) :
    thermalMean (atBeta c beta) L (wholeEnergy L) (magZ L) ≤ -0.9 + (0.38 + 3 / beta) / h := by
  have hL0 : (0 : ℝ) < L := by exact_mod_cast (by omega : 0 < L)
  set μ : Measure (Fin L → V3 ℝ) := Measure.pi fun _ : Fin L => sphereMeasure with hμ
  set E : (Fin L → V3 ℝ) → ℝ := fun v => ringEnergy L (fld v) (J c) (H0 c) with hEdef
  obtain ⟨D, hD⟩ := ring_bound (J c) (H0 c) L
  have mE : Measurable E := (ring_tame (J c) (H0 c) L).meas
  have wb : WF (atBeta c beta) L s := ⟨w.hsize, w.ssize, w.L_lt, w.s_lt, w.spins, w.j, w.h, w.hs⟩
  have term : ∀ v : Fin L → V3 ℝ, ∀ i < L, -dot (fld v i) (had (J c i) (fld v ((i + 1) % L))) + dot (H0 c i) (fld v i)
      = -dot (fld v i) (fld v ((i + 1) % L)) + h * (fld v i).z := by
    intro v i hi
    rw [hJ i hi, hH i hi]
    simp only [dot, had]
    ring
  have unitf : ∀ v : Fin L → V3 ℝ, Good Sph v → ∀ i < L, (fld v i).x ^ 2 + (fld v i).y ^ 2 + (fld v i).z ^ 2 = 1 := by
    intro v hv i hi
    have h1 : len (fld v i) = 1 := by
      unfold fld
      rw [dif_pos hi]
      exact hv ⟨i, hi⟩
    unfold len at h1
    rw [Real.sqrt_eq_one] at h1
    simp only [dot] at h1
    linarith
  -- the energy of configurations near the south pole
  set A : Set (Fin L → V3 ℝ) := {v | ∀ i, (v i).z ≤ -0.9} ∩ {v | Good Sph v} with hA
  have mA : MeasurableSet A := by
    refine MeasurableSet.inter ?_ ?_
    · rw [Set.ofPred_forall]
      exact MeasurableSet.iInter fun i => (measurable_z.comp (measurable_pi_apply i)) measurableSet_Iic
    · unfold Good
      rw [Set.ofPred_forall]
      exact MeasurableSet.iInter fun i => (measurable_len.comp (measurable_pi_apply i)) (measurableSet_singleton 1)
  have pA : (0.05 : ℝ) ^ L ≤ μ.real A := by
    rw [← caps_weight L]
    refine le_of_eq (measureReal_congr ?_)
    filter_upwards [good_ae (L := L) sphere_ae] with v hv
    exact propext ⟨fun h => ⟨h, hv⟩, fun h => h.1⟩
  have hEA : ∀ v ∈ A, E v ≤ -(L * (0.62 + 0.9 * h)) := by
    rintro v ⟨h1, h2⟩
    have hz : ∀ i < L, (fld v i).z ≤ -0.9 := fun i hi => by
      unfold fld
      rw [dif_pos hi]
      exact h1 ⟨i, hi⟩
    have : ∀ i ∈ range L, -dot (fld v i) (had (J c i) (fld v ((i + 1) % L))) + dot (H0 c i) (fld v i) ≤ -(0.62 + 0.9 * h) := by
      intro i hi
      have hi := mem_range.1 hi
      have hi' : (i + 1) % L < L := Nat.mod_lt _ (by omega)
      rw [term v i hi]
      have u1 := unitf v h2 i hi
      have u2 := unitf v h2 _ hi'
      have z1 := hz i hi
      have z2 := hz _ hi'
      set a := fld v i
      set b := fld v ((i + 1) % L)
      have e1 : h * a.z ≤ h * -0.9 := mul_le_mul_of_nonneg_left z1 hh.le
      have e2 : 0.81 ≤ a.z * b.z := by nlinarith
      have e3 : 0.81 ≤ a.z ^ 2 := by nlinarith
      have e4 : 0.81 ≤ b.z ^ 2 := by nlinarith
      have e5 : -dot a b ≤ -0.62 := by
        simp only [dot]
        nlinarith [sq_nonneg (a.x + b.x), sq_nonneg (a.y + b.y)]
      linarith
    refine (sum_le_sum this).trans (le_of_eq ?_)
    rw [sum_const, card_range, nsmul_eq_mul]
    ring
  have hU := U_cap mE hD hb mA (by positivity) pA hEA
  have hlog : -(3 * L : ℝ) ≤ Real.log ((0.05 : ℝ) ^ L) := by
    rw [Real.log_pow]
    have : -3 ≤ Real.log 0.05 := by
      rw [Real.le_log_iff_exp_le (by norm_num), Real.exp_neg, inv_le_comm₀ (Real.exp_pos _) (by norm_num)]
      have := Real.exp_one_gt_d9
      calc (0.05 : ℝ)⁻¹ ≤ 2.7182818283 ^ 3 := by norm_num
        _ ≤ Real.exp 1 ^ 3 := by gcongr
        _ = Real.exp 3 := by rw [← Real.exp_nat_mul]; norm_num
    nlinarith
  have hU2 : U μ E beta ≤ -(L * (0.62 + 0.9 * h)) + 3 * L / beta := by
    have := div_le_div_of_nonneg_right hlog hb.le
    rw [neg_div] at this
    linarith
  -- the mean of the energy against that of the magnetisation
  have mM : Measurable fun v : Fin L → V3 ℝ => (∑ i ∈ range L, (fld v i).z) / L :=
    (Finset.measurable_fun_sum _ fun i _ => measurable_z.comp (fld_meas i)).div_const _
  have bM : ∀ᵐ v ∂μ, |(∑ i ∈ range L, (fld v i).z) / L| ≤ 1 := by
    filter_upwards [good_ae (L := L) sphere_ae] with v hv
    rw [abs_div, abs_of_pos hL0, div_le_iff₀ hL0, one_mul]
    refine (abs_sum_le_sum_abs _ _).trans ((sum_le_sum (g := fun _ => (1 : ℝ)) fun i hi => ?_).trans (by simp))
    have := unitf v hv i (mem_range.1 hi)
    exact abs_le_one_iff_mul_self_le_one.2 (by nlinarith [sq_nonneg (fld v i).x, sq_nonneg (fld v i).y])
  have low : ∀ᵐ v ∂μ, Real.exp (-(beta * E v)) * (h * L * ((∑ i ∈ range L, (fld v i).z) / L) - L)
      ≤ Real.exp (-(beta * E v)) * E v := by
    filter_upwards [good_ae (L := L) sphere_ae] with v hv
    refine mul_le_mul_of_nonneg_left ?_ (Real.exp_pos _).le
    have : ∀ i ∈ range L, h * (fld v i).z - 1 ≤ -dot (fld v i) (had (J c i) (fld v ((i + 1) % L))) + dot (H0 c i) (fld v i) := by
      intro i hi
      have hi := mem_range.1 hi
      have hi' : (i + 1) % L < L := Nat.mod_lt _ (by omega)
      rw [term v i hi]
      have u1 := unitf v hv i hi
      have u2 := unitf v hv _ hi'
      set a := fld v i
      set b := fld v ((i + 1) % L)
      simp only [dot]
      nlinarith [sq_nonneg (a.x - b.x), sq_nonneg (a.y - b.y), sq_nonneg (a.z - b.z)]
    have h3 := sum_le_sum this
    rw [sum_sub_distrib, ← mul_sum, sum_const, card_range, nsmul_eq_mul, mul_one] at h3
    rw [show h * L * ((∑ i ∈ range L, (fld v i).z) / L) = h * ∑ i ∈ range L, (fld v i).z by field_simp]
    exact h3
  have iM := exp_int mE hD beta mM bM
  have iE := exp_int mE hD beta mE hD
  have i1 := exp_int1 mE hD beta
  have Z0 := part_pos mE hD beta
  have e : thermalMean (atBeta c beta) L (wholeEnergy L) (magZ L)
      = (∫ v, Real.exp (-(beta * E v)) * ((∑ i ∈ range L, (fld v i).z) / L) ∂μ) / ∫ v, Real.exp (-(beta * E v)) ∂μ := by
    unfold thermalMean magZ magA
    simp only [whole_ring wb hL, S_fld]
    rfl
  have h5 : h * L * thermalMean (atBeta c beta) L (wholeEnergy L) (magZ L) - L ≤ U μ E beta := by
    rw [e]
    unfold U
    rw [le_div_iff₀ Z0, sub_mul, mul_assoc, div_mul_cancel₀ _ Z0.ne', ← integral_const_mul, ← integral_const_mul,
      ← integral_sub (iM.const_mul _) (i1.const_mul _)]
    refine integral_mono_ae ((iM.const_mul _).sub (i1.const_mul _)) iE (low.mono fun v hv => ?_)
    refine le_trans (le_of_eq ?_) hv
    ring
  set m := thermalMean (atBeta c beta) L (wholeEnergy L) (magZ L)
  have h6 : L * (h * m) ≤ L * (1 - 0.62 - 0.9 * h + 3 / beta) := by
    have : (3 : ℝ) * L / beta = L * (3 / beta) := by ring
    linarith
  have h7 := le_of_mul_le_mul_left h6 hL0
  rw [show -0.9 + (0.38 + 3 / beta) / h = (1 - 0.62 - 0.9 * h + 3 / beta) / h by field_simp; ring, le_div_iff₀ hh]
  linarith

/-- the first three numbers of a row are the magnetisation of the system per site -/
theorem hist_row {c : SpinChain ℝ} (w : WF c L L) {row : List ℝ} (h : histSample2 c = .ok row) (a : Fin 3) :
    row[(a : ℕ)]? = some (magA a L c) := by
  unfold histSample2 histSample at h
  simp only [m_eq w le_rfl, ok_bind, w.ssize, fofInt_real, Int.cast_natCast] at h
  obtain ⟨r1, h1, h2⟩ := bind_eq_ok h
  obtain ⟨e, h3, h4⟩ := bind_eq_ok h1
  cases h4
  obtain ⟨x, -, h5⟩ := bind_eq_ok h2
  obtain ⟨y, -, h6⟩ := bind_eq_ok h5
  cases h6
  fin_cases a <;> rfl

/-- chains with the same couplings -/
theorem couple_ext {c d : SpinChain ℝ} (wc : WF c L s) (wd : WF d L s) (hJ : ∀ i < L, J c i = J d i)
    (hH : ∀ i < L, H0 c i = H0 d i) : c.j_couple = d.j_couple ∧ c.static_h = d.static_h := by
  constructor
  · refine List.ext_getElem (wc.j.trans wd.j.symm) fun i h1 h2 => ?_
    have := hJ i (by rw [← wc.j]; exact h1)
    unfold J at this
    rwa [List.getElem?_eq_getElem h1, List.getElem?_eq_getElem h2] at this
  · refine List.ext_getElem (wc.h.trans wd.h.symm) fun i h1 h2 => ?_
    have := hH i (by rw [← wc.h]; exact h1)
    unfold H0 at this
    rwa [List.getElem?_eq_getElem h1, List.getElem?_eq_getElem h2] at this

/-- a ring without disorder in the field `h` along z, all of it system, without a field of its own -/
structure CleanZ (conf : Config ℝ) (L : ℕ) (h : ℝ) : Prop where
  valid : ValidConf conf L L
  even : L % 2 = 0
  field : conf.hfield = [0, 0, h]
  own : conf.hs = [0, 0, 0]
  jvar : conf.jvar = 0
  hvar : conf.hvar = 0

theorem cleanZ_chain {conf : Config ℝ} {h : ℝ} (z : CleanZ conf L h) (r : Rand ℝ) (c : SpinChain ℝ)
    (hc : SpinChain.new (histConf conf) 0 r.u r.zj r.zh = .ok c) :
    WF c L L ∧ c.vars = histConf conf ∧ c.t = -conf.trel ∧
      (∀ i < L, J c i = ⟨1, 1, conf.lambda⟩) ∧ ∀ i < L, H0 c i = ⟨0, 0, h⟩ := by
  have v := z.valid
  have v' : ValidConf (histConf conf) L L :=
    ⟨v.hsize, v.ssize, v.L_two, v.L_lt, v.s_lt, v.hfield, v.hs, v.jvar, v.hvar⟩
  obtain ⟨c1, e1, w1, t1, v1, -⟩ := valid_new v' 0 r.u r.zj r.zh
  rw [hc] at e1
  cases e1
  obtain ⟨c2, e2, h2⟩ := C12_couplings_fields (histConf conf) 0 r.u r.zj r.zh L v.hsize v.L_lt ⟨0, 0, h⟩ ⟨0, 0, 0⟩ [] []
    z.field z.own
  rw [hc] at e2
  cases e2
  refine ⟨w1, v1, t1, fun i hi => ?_, fun i hi => ?_⟩
  · rw [(h2 i hi).1, show (histConf conf).jvar = 0 from z.jvar]
    simp [add, smul, histConf]
  · rw [(h2 i hi).2, show (histConf conf).hvar = 0 from z.hvar]
    simp [add, smul]

/-- C119, the dynamic histogram in a field: on a ring without disorder in a field along z that is stronger than the
couplings can be, with a short enough time-step, the system has no magnetisation along z in any row of the dynamic
histogram. -/
theorem C119_dynamic (conf : Config ℝ) (h : ℝ) (z : CleanZ conf L h) (hh : 2 * |conf.lambda| < |h|)
    (hb : conf.beta ≠ 0) (k : ℕ) :
    ∃ d0 : ℝ, 0 < d0 ∧ ∀ dt, 0 < dt → dt ≤ d0 → ∀ (r : Rand ℝ) (ds' : ℕ → ℕ → Draw ℝ) (n : ℕ) (g : GenHist ℝ),
      UnitDraws r.u → NonDegenerate conf.beta r.u L → genHist { conf with dt } k r ds' n = .ok (some g) →
      g.dyn.length = k ∧ ∀ row ∈ g.dyn, ∃ m : ℝ, row[2]? = some m ∧ |m| ≤ 0.004 := by
  have v := z.valid
  have hL := v.L_two
  have hL0 : (1 : ℝ) ≤ L := by exact_mod_cast (by omega : 1 ≤ L)
  have v' : ValidConf (histConf conf) L L :=
    ⟨v.hsize, v.ssize, v.L_two, v.L_lt, v.s_lt, v.hfield, v.hs, v.jvar, v.hvar⟩
  obtain ⟨c0, e0, -⟩ := valid_new v' 0 (fun _ => 0) (fun _ => 0) fun _ => 0
  obtain ⟨w0, v0, t0, j0, h0⟩ := cleanZ_chain z ⟨fun _ => 0, fun _ => 0, fun _ => 0, fun _ _ => ⟨0, 0, 0, 0⟩⟩ c0 e0
  have drv : ∀ c : SpinChain ℝ, c.vars.drive = .none → ∀ t, B c L t = H0 c := by
    intro c hd t
    funext i
    unfold B drive
    rw [hd]
    simp only [add, zero, add_zero]
    split <;> rfl
  have ax : AxialFields c0 L L := by
    intro t i hi
    rw [drv c0 (by rw [v0]; rfl) t, h0 i hi]
    exact ⟨rfl, rfl⟩
  obtain ⟨K, hK, hp⟩ := C109_program c0 L L (10000 * k) hL z.even (fun i hi => by rw [j0 i hi]) ax
  refine ⟨min 1 (0.001 / (K + 1)), by positivity, fun dt d1 d2 r ds' n g hu hn hg => ?_⟩
  have z' : CleanZ { conf with dt } L h :=
    ⟨⟨v.hsize, v.ssize, v.L_two, v.L_lt, v.s_lt, v.hfield, v.hs, v.jvar, v.hvar⟩, z.even, z.field, z.own, z.jvar, z.hvar⟩
  obtain ⟨w, gv, -, ⟨c, hc, gj, gh⟩, -, -, -, m0, -, glen, hrow⟩ := C72_shell { conf with dt } z'.valid (by omega) le_rfl k r ds' n g hg
  obtain ⟨wc, cv, ct, cj, ch⟩ := cleanZ_chain z' r c hc
  obtain ⟨ej, eh⟩ := couple_ext wc w0 (fun i hi => (cj i hi).trans (j0 i hi).symm) (fun i hi => (ch i hi).trans (h0 i hi).symm)
  have hdt : g.shell.vars.dt = dt := by rw [gv]; rfl
  have hsame : SameSystem c0 g.shell := ⟨gj.trans ej, gh.trans eh, by rw [gv, v0]; rfl⟩
  have gunit : ∀ x ∈ g.shell.spins, IsUnit3 x := by
    obtain ⟨c1, d, rows, q1, q2, q3, q4, q5, q6, q7⟩ := hist_start { conf with dt } z'.valid (by omega) le_rfl k r
    obtain ⟨st, hst, -, hsh⟩ := (q7 ds' n).2 g hg
    rw [hsh]
    exact (search_keeps n _ _ hst q2).2.2.2.2 (q6 (hist_unit { conf with dt } z'.valid hb r hu hn c1 q1))
  refine ⟨glen, fun row hr => ?_⟩
  obtain ⟨i, hi, rfl⟩ := List.getElem_of_mem hr
  obtain ⟨c', hup, hs2⟩ := hrow i hi
  have w' := updates_wf w hup
  refine ⟨_, hist_row w' hs2 2, ?_⟩
  have hreg : RegularRun g.shell L L (10000 * (i + 1)) := by
    refine regularRun_of_dominant w hL gunit (fun t j hj => ?_) _
    have hLL : 2 * (L / 2) = L := by have := z.even; omega
    rw [hLL] at hj ⊢
    rw [same_J hsame, same_B hsame, j0 _ (left_lt hj), j0 j hj, drv c0 (by rw [v0]; rfl) t, h0 j hj]
    show |conf.lambda| + |conf.lambda| < |h|
    linarith
  have hT : ((10000 * (i + 1) : ℕ) : ℝ) * g.shell.vars.dt ≤ 10000 * k := by
    rw [hdt]
    have h1 : dt ≤ 1 := d2.trans (min_le_left _ _)
    have h2 : ((10000 * (i + 1) : ℕ) : ℝ) ≤ 10000 * k := by
      have : 10000 * (i + 1) ≤ 10000 * k := by omega
      exact_mod_cast this
    calc ((10000 * (i + 1) : ℕ) : ℝ) * dt ≤ ((10000 * (i + 1) : ℕ) : ℝ) * 1 := by gcongr
      _ ≤ _ := by linarith
  have key := (hp g.shell c' _ _ _ w hsame gunit (by rw [hdt]; exact d1) hT hreg hup (m_tot_eq w) (m_tot_eq w')).1
  rw [hdt] at key
  simp only at key
  have hk : K * dt ^ 2 ≤ 0.001 := by
    have h1 : dt ≤ 1 := d2.trans (min_le_left _ _)
    have h2 : dt * (K + 1) ≤ 0.001 := (le_div_iff₀ (by positivity)).1 (d2.trans (min_le_right _ _))
    nlinarith [mul_nonneg hK d1.le, mul_nonneg hK (mul_nonneg d1.le (sub_nonneg.2 h1))]
  unfold magA
  rw [abs_div, abs_of_pos (by linarith : (0 : ℝ) < L), div_le_iff₀ (by linarith)] at m0 ⊢
  show |∑ i ∈ range L, (S c' i).z| ≤ _
  calc |∑ i ∈ range L, (S c' i).z| = |(∑ i ∈ range L, (S c' i).z - ∑ i ∈ range L, (S g.shell i).z) + ∑ i ∈ range L, (S g.shell i).z| := by
        rw [sub_add_cancel]
    _ ≤ _ := abs_add_le _ _
    _ ≤ 0.001 + 0.003 * L := add_le_add (key.trans hk) m0
    _ ≤ 0.004 * L := by linarith

theorem sampleLoop_map {α β : Type} (upd : SpinChain ℝ → Draw ℝ → R (SpinChain ℝ)) (per n : ℕ) (obs : SpinChain ℝ → R α)
    (f : α → β) (ds : ℕ → ℕ → Draw ℝ) (c : SpinChain ℝ) :
    sampleLoop upd per n (fun c => (obs c).map f) ds c
      = (sampleLoop upd per n obs ds c).map fun st => (st.1, st.2.map f) := by
  unfold sampleLoop
  exact forRange_nat (fun st : SpinChain ℝ × List α => (st.1, st.2.map f)) 0 n (c, []) _ _ fun i st => by
    dsimp only
    cases sweeps upd (ds i) per st.1 with
    | error e => rfl
    | ok c =>
      simp only [ok_bind]
      cases obs c with
      | error e => rfl
      | ok a =>
        show Except.ok _ = Except.ok _
        simp

theorem partA_le (a : Fin 3) (v : V3 ℝ) : |partA a v| ≤ len v := by
  obtain ⟨h1, h2, h3⟩ := comp_le_len v
  fin_cases a
  · exact h1
  · exact h2
  · exact h3

/-- C119, the Monte-Carlo histogram: with a probability that tends to one with the number of rows, the mean of each
of its first three columns is within `δ` of the thermal mean of this component of the magnetisation. -/
theorem C119_mc (conf : Config ℝ) (h : ℝ) (z : CleanZ conf L h) (hb : 0 < conf.beta) (a : Fin 3) :
    ∃ K : ℝ, 0 < K ∧ ∀ (r : Rand ℝ) (c0 : SpinChain ℝ), UnitDraws r.u → NonDegenerate conf.beta r.u L →
      SpinChain.new (histConf conf) 0 r.u r.zj r.zh = .ok c0 → ∀ (k : ℕ) (δ : ℝ), 1 ≤ k → 0 < δ →
      blockLaw L 10000 k {w | ∃ ds' n g, genHist conf k { r with ds := blockDraws w } ds' n = .ok (some g) ∧
          δ ≤ |meanOf (g.mc.map fun row => (row[(a : ℕ)]?).getD 0) k - thermalMean c0 L (wholeEnergy L) (magA a L)|}
        ≤ ENNReal.ofReal (K / (k * δ ^ 2)) := by
  have v := z.valid
  have hL := v.L_two
  have hL0 : (0 : ℝ) < L := by exact_mod_cast (by omega : 0 < L)
  have v' : ValidConf (histConf conf) L L :=
    ⟨v.hsize, v.ssize, v.L_two, v.L_lt, v.s_lt, v.hfield, v.hs, v.jvar, v.hvar⟩
  obtain ⟨d, e0, -, -, -, f1, f2⟩ := valid_new v' 0 (fun _ => 0) (fun _ => 0) fun _ => 0
  obtain ⟨w0, v0, t0, j0, h0⟩ := cleanZ_chain z ⟨fun _ => 0, fun _ => 0, fun _ => 0, fun _ _ => ⟨0, 0, 0, 0⟩⟩ d e0
  have ed : atBeta d conf.beta = d := by
    have : d.vars.beta = conf.beta := by rw [v0]; rfl
    unfold atBeta
    rw [← this]
  obtain ⟨K, hK, hp⟩ := C92_probability _ _ d L (C92_mean_square d L L w0 hL) conf.beta
  refine ⟨K, hK, fun r c0 hu hn hc k δ hk hδ => ?_⟩
  obtain ⟨wc, cv, ct, cj, ch⟩ := cleanZ_chain z r c0 hc
  obtain ⟨ej, eh⟩ := couple_ext wc w0 (fun i hi => (cj i hi).trans (j0 i hi).symm) (fun i hi => (ch i hi).trans (h0 i hi).symm)
  obtain ⟨c1, e1, -, -, -, g1, g2⟩ := valid_new v' 0 r.u r.zj r.zh
  rw [hc] at e1
  cases e1
  have huc := hist_unit conf v hb.ne' r hu hn c0 hc
  set v1 : Fin L → V3 ℝ := fun i => S c0 i with hv1
  have hc0 : withSpins d v1 = c0 := by
    have hf : d.file = c0.file := by
      cases hlog : (histConf conf).log with
      | true => rw [f1 hlog, g1 hlog]
      | false => rw [f2 hlog, g2 hlog]
    have := withSpins_self wc
    rw [← this]
    unfold withSpins
    rw [ej, eh, ct, t0, cv, v0, hf]
  have gv1 : ∀ i, len (v1 i) = 1 := fun i => unit_of wc huc i.2
  obtain ⟨n1, n2⟩ := hist_sites (L := L) (s := L) (by omega) le_rfl
  have key := hp conf.beta hb.le le_rfl (magA a L) (fun c => (histSample2 c).map fun row => (row[(a : ℕ)]?).getD 0) 1
    (fun q => by
      rw [ed]
      obtain ⟨row, hrow⟩ := histSample2_total (withSpins_wf w0 q) (by omega) le_rfl n1 n2
      rw [hrow]
      show Except.ok ((row[(a : ℕ)]?).getD 0) = Except.ok _
      rw [hist_row (withSpins_wf w0 q) hrow a]
      rfl)
    (by
      unfold magA
      simp only [S_fld]
      exact (Finset.measurable_fun_sum _ fun i _ => (measurable_partA a).comp (fld_meas i)).div_const _)
    (fun q hq => by
      unfold magA
      rw [abs_div, abs_of_pos hL0, div_le_iff₀ hL0, one_mul, S_fld]
      refine (abs_sum_le_sum_abs _ _).trans ((sum_le_sum (g := fun _ => (1 : ℝ)) fun i hi => ?_).trans (by simp))
      refine (partA_le a (fld q i)).trans (le_of_eq ?_)
      unfold fld
      rw [dif_pos (mem_range.1 hi)]
      exact hq _)
    v1 gv1 10000 k (by norm_num) hk δ hδ
  rw [ed, hc0, one_pow, mul_one] at key
  have hth : thermalMean d L (wholeEnergy L) (magA a L) = thermalMean c0 L (wholeEnergy L) (magA a L) := by
    rw [← hc0]
    rfl
  rw [hth] at key
  refine (measure_mono fun w hw => ?_).trans key
  obtain ⟨ds', n, g, hg, hoff⟩ := hw
  rintro ⟨c', xs, hx, hclose⟩
  rw [sampleLoop_map] at hx
  have hmc : g.mc.map (fun row => (row[(a : ℕ)]?).getD 0) = xs := by
    unfold genHist at hg
    rw [show ({ conf with drive := DriveType.none, file := "x" } : Config ℝ) = histConf conf from rfl] at hg
    simp only [hc, ok_bind] at hg
    obtain ⟨st, q1, q2⟩ := bind_eq_ok hg
    obtain ⟨o, q3, q4⟩ := bind_eq_ok q2
    rw [q1] at hx
    have hx := Except.ok.inj hx
    cases o with
    | none => cases q4
    | some st' =>
      obtain ⟨dd, q5, q6⟩ := bind_eq_ok q4
      cases q6
      exact congrArg Prod.snd hx
  rw [hmc] at hoff
  exact absurd hclose (not_lt.2 hoff)

/-- the bound of `C119_ends`, for short -/
def Ends (conf : Config ℝ) (L k : ℕ) (r : Rand ℝ) : Prop :=
  ∃ (m : ℕ) (q : ℝ), 0 ≤ q ∧ q < 1 ∧ ∀ n,
    blockLaw L 10000 n {w | ¬ ∃ p ≤ n, ∃ g, genHist conf k r (blockDraws w) p = .ok (some g)}
      ≤ ENNReal.ofReal (q ^ (n / (m + 1)))

/-- C119, the search of the program: on an even ring with no more than 0.004 of disorder in the couplings along x and
y, with a uniform field and a field of the system along z, the search ends with probability one for every energy density
up to `1 - 4 / L` in size.  For the default configuration all of this holds unless one of the numbers behind the
couplings is larger than 4. -/
theorem C119_ends_program (conf : Config ℝ) (v : ValidConf conf L s) (hs : 1 ≤ s) (hsL : s ≤ L) (hL : 4 ≤ L)
    (hev : L % 2 = 0) (hb : 0 < conf.beta) (f h : V3 ℝ) (fr hr : List ℝ) (hf : conf.hfield = f.x :: f.y :: f.z :: fr)
    (hh : conf.hs = h.x :: h.y :: h.z :: hr) (hx : h.x = 0) (hy : h.y = 0) (hvar : conf.hvar = 0)
    (he : |conf.ednsty| ≤ 1 - 4 / L) (k : ℕ) (r : Rand ℝ) (hu : UnitDraws r.u) (hn : NonDegenerate conf.beta r.u L)
    (hz : ∀ i, |conf.jvar * r.zj i| ≤ 0.004) : Ends conf L k r := by
  obtain ⟨c, h1, h2⟩ := C12_couplings_fields (histConf conf) 0 r.u r.zj r.zh L v.hsize v.L_lt f h fr hr hf hh
  have hB : ∀ i < L, (H0 c i).x = f.x ∧ (H0 c i).y = f.y := by
    intro i hi
    rw [(h2 i hi).2, show (histConf conf).hvar = 0 from hvar]
    split_ifs <;> simp [add, smul, hx, hy]
  obtain ⟨x, x1, x2⟩ := C119_shell (L := L) (J c) (H0 c) conf.ednsty hL hev
    (fun i hi => by
      rw [(h2 i hi).1]
      refine ⟨?_, ?_⟩
      · show |1 + conf.jvar * r.zj (3 * i) - 1| ≤ 0.004
        rw [add_sub_cancel_left]
        exact hz _
      · show |1 + conf.jvar * r.zj (3 * i + 1) - 1| ≤ 0.004
        rw [add_sub_cancel_left]
        exact hz _)
    (fun i hi => by
      rw [(hB i hi).1, (hB i hi).2, (hB 0 (by omega)).1, (hB 0 (by omega)).2]
      exact ⟨rfl, rfl⟩) he
  exact C119_ends conf v hs hsL hb k r hu hn c h1 x (fun i _ => x1 i) x2

/-- the default configuration on a ring of `L` sites, all of it system, at the inverse temperature of the README, without
disorder in the couplings and with the field `(0, 0, 3)` -/
noncomputable def fieldConf (L : ℕ) (dt : ℝ) : Config ℝ := { (Config.default : Config ℝ) with
  hsize := L
  ssize := L
  beta := 2.89
  hfield := [0, 0, 3]
  jvar := 0
  dt := dt }

theorem fieldConf_clean (hL : 2 ≤ L) (hev : L % 2 = 0) (hlt : L < 2 ^ 31) (dt : ℝ) : CleanZ (fieldConf L dt) L 3 := by
  refine ⟨⟨rfl, rfl, hL, hlt, hlt, by simp [fieldConf], by simp [fieldConf, Config.default], rfl, rfl⟩, hev, rfl, ?_, rfl, ?_⟩
  · simp [fieldConf, Config.default]
  · simp [fieldConf, Config.default]

/-- C119 fails in a field.  With the field `(0, 0, 3)` the mean magnetisation along z of the Monte-Carlo histogram is
below -0.4, with a probability that tends to one with the number of rows, while every row of the dynamic histogram has
less than 0.004, for every number of rows and short enough time-steps: the search takes a state without magnetisation
as the start of the dynamics, which conserves it, whereas the field magnetises the Monte-Carlo samples.  The search does
end. -/
theorem C119_negation (L : ℕ) (hL : 12 ≤ L) (hev : L % 2 = 0) (hlt : L < 2 ^ 31) :
    (∀ dt : ℝ, ∃ K : ℝ, 0 < K ∧ ∀ r : Rand ℝ, UnitDraws r.u → NonDegenerate 2.89 r.u L → ∀ k : ℕ, 1 ≤ k →
      blockLaw L 10000 k {w | ∃ ds' n g, genHist (fieldConf L dt) k { r with ds := blockDraws w } ds' n = .ok (some g) ∧
          (-0.4 : ℝ) ≤ meanOf (g.mc.map fun row => (row[2]?).getD 0) k} ≤ ENNReal.ofReal (K / k)) ∧
    (∀ k : ℕ, ∃ d0 : ℝ, 0 < d0 ∧ ∀ dt, 0 < dt → dt ≤ d0 → ∀ (r : Rand ℝ) (ds' : ℕ → ℕ → Draw ℝ) (n : ℕ) (g : GenHist ℝ),
      UnitDraws r.u → NonDegenerate 2.89 r.u L → genHist (fieldConf L dt) k r ds' n = .ok (some g) →
      g.dyn.length = k ∧ ∀ row ∈ g.dyn, ∃ m : ℝ, row[2]? = some m ∧ |m| ≤ 0.004) ∧
    ∀ (k : ℕ) (dt : ℝ) (r : Rand ℝ), UnitDraws r.u → NonDegenerate 2.89 r.u L → Ends (fieldConf L dt) L k r := by
  have z := fun dt => fieldConf_clean (L := L) (by omega) hev hlt dt
  have lam : ∀ dt, (fieldConf L dt).lambda = 1 := fun dt => by simp [fieldConf, Config.default]
  refine ⟨fun dt => ?_, fun k => ?_, fun k dt r hu hn => ?_⟩
  · have hb : (0 : ℝ) < (fieldConf L dt).beta := by show (0 : ℝ) < 2.89; norm_num
    obtain ⟨K, hK, hp⟩ := C119_mc (fieldConf L dt) 3 (z dt) hb 2
    refine ⟨K / 0.02 ^ 2, by positivity, fun r hu hn k hk => ?_⟩
    have v := (z dt).valid
    have v' : ValidConf (histConf (fieldConf L dt)) L L :=
      ⟨v.hsize, v.ssize, v.L_two, v.L_lt, v.s_lt, v.hfield, v.hs, v.jvar, v.hvar⟩
    obtain ⟨c0, e0, -⟩ := valid_new v' 0 r.u r.zj r.zh
    obtain ⟨w0, v0, t0, j0, h0⟩ := cleanZ_chain (z dt) r c0 e0
    have eb : atBeta c0 2.89 = c0 := by
      have : c0.vars.beta = 2.89 := by rw [v0]; rfl
      unfold atBeta
      rw [← this]
    have th := C119_thermal c0 L L w0 (by omega) 3 (by norm_num) (fun i hi => by rw [j0 i hi, lam]) h0 2.89 (by norm_num)
    rw [eb] at th
    have th' : thermalMean c0 L (wholeEnergy L) (magZ L) ≤ -0.42 := th.trans (by norm_num)
    refine (measure_mono ?_).trans ((hp r c0 hu hn e0 k 0.02 hk (by norm_num)).trans (le_of_eq ?_))
    · rintro w ⟨ds', n, g, hg, hm⟩
      refine ⟨ds', n, g, hg, ?_⟩
      rw [le_abs]
      left
      show (0.02 : ℝ) ≤ meanOf (g.mc.map fun row => (row[2]?).getD 0) k - thermalMean c0 L (wholeEnergy L) (magZ L)
      linarith
    · congr 1
      field_simp
  · obtain ⟨d0, h1, h2⟩ := C119_dynamic (fieldConf L 1) 3 (z 1) (by rw [lam]; norm_num) (by show (2.89 : ℝ) ≠ 0; norm_num) k
    exact ⟨d0, h1, fun dt a b r ds' n g hu hn hg => h2 dt a b r ds' n g hu hn hg⟩
  · refine C119_ends_program (fieldConf L dt) (z dt).valid (by omega) le_rfl (by omega) hev
      (by show (0 : ℝ) < 2.89; norm_num) ⟨0, 0, 3⟩ ⟨0, 0, 0⟩ [] [] (z dt).field (z dt).own rfl rfl (z dt).hvar ?_ k r hu hn
      fun i => by rw [(z dt).jvar]; norm_num
    have : (fieldConf L dt).ednsty = -0.66 := by simp [fieldConf, Config.default]
    rw [this]
    have hL' : (12 : ℝ) ≤ L := by exact_mod_cast hL
    have : 4 / (L : ℝ) ≤ 1 / 3 := by rw [div_le_iff₀ (by linarith)]; linarith
    rw [abs_le]
    constructor <;> linarith

/-- the energy of a row is the mean over all bonds but the one that closes the ring -/
theorem mean_but_one (f : ℕ → ℝ) (hf : ∀ i < L, |f i| ≤ 1) (hL : 2 ≤ L) :
    |(∑ i ∈ range (L - 1), f i) / ((L : ℝ) - 1) - (∑ i ∈ range L, f i) / L| ≤ 2 / L := by
  obtain ⟨n, rfl⟩ : ∃ n, L = n + 1 := ⟨L - 1, by omega⟩
  have hn : (0 : ℝ) < n := by exact_mod_cast (by omega : 0 < n)
  have h1 : |∑ i ∈ range n, f i| ≤ n := by
    refine (abs_sum_le_sum_abs _ _).trans ((sum_le_sum fun i hi => hf i (by rw [mem_range] at hi; omega)).trans (le_of_eq ?_))
    rw [sum_const, card_range, nsmul_eq_mul, mul_one]
  have h2 := hf n (by omega)
  rw [Nat.add_sub_cancel, sum_range_succ, Nat.cast_add, Nat.cast_one, add_sub_cancel_right]
  have e : (∑ i ∈ range n, f i) / n - (∑ i ∈ range n, f i + f n) / ((n : ℝ) + 1)
      = (∑ i ∈ range n, f i - n * f n) / (n * (n + 1)) := by
    field_simp
    ring
  rw [e, abs_div, abs_of_pos (by positivity : (0 : ℝ) < n * (n + 1)), div_le_div_iff₀ (by positivity) (by positivity)]
  have h3 : |∑ i ∈ range n, f i - n * f n| ≤ 2 * n := by
    refine (abs_sub _ _).trans ?_
    rw [abs_mul, abs_of_pos hn]
    nlinarith
  nlinarith

/-- the fourth column of a row of a chain without field -/
theorem hist_row_energy {c : SpinChain ℝ} (w : WF c L L) (hL : 2 ≤ L) (hB : ∀ i < L, B c L c.t i = zero) {row : List ℝ}
    (h : histSample2 c = .ok row) :
    row[3]? = some ((∑ i ∈ range (L - 1), -dot (S c i) (had (J c i) (S c ((i + 1) % L)))) / ((L : ℝ) - 1)) := by
  unfold histSample2 histSample at h
  simp only [m_eq w le_rfl, ok_bind, w.ssize, fofInt_real, Int.cast_natCast, system_energy_eq w (by omega : 1 ≤ L) le_rfl] at h
  obtain ⟨r1, h1, h2⟩ := bind_eq_ok h
  cases h1
  obtain ⟨x, -, h5⟩ := bind_eq_ok h2
  obtain ⟨y, -, h6⟩ := bind_eq_ok h5
  cases h6
  show some _ = some _
  congr 2
  unfold openEnergy
  have z0 : ∀ v : V3 ℝ, dot zero v = 0 := fun v => by simp [dot, zero]
  rw [hB (L - 1) (by omega), z0, sum_eq_zero (s := range L) fun i hi => by rw [hB i (mem_range.1 hi), z0], add_zero, sub_zero]
  refine sum_congr rfl fun i hi => ?_
  rw [mem_range] at hi
  rw [Nat.mod_eq_of_lt (by omega)]

/-- C119 without field, on an isotropic ring without disorder: the mean of each of the three columns of magnetisation of
the Monte-Carlo histogram tends to zero with the number of rows, and no row of the dynamic histogram is further from zero
than 0.004 with a short enough time-step; its energy column is within `0.005 + 2 / L` of the configured energy
density.  Missing of C119: that the distributions agree, which needs the motion on the shell to be ergodic; runs in which
a local field vanishes are excluded. -/
theorem C119_means_partial (conf : Config ℝ) (z : CleanZ conf L 0) (hl : conf.lambda = 1) (hb : 0 < conf.beta) :
    (∀ a : Fin 3, ∃ K : ℝ, 0 < K ∧ ∀ r : Rand ℝ, UnitDraws r.u → NonDegenerate conf.beta r.u L →
      ∀ (k : ℕ) (δ : ℝ), 1 ≤ k → 0 < δ →
      blockLaw L 10000 k {w | ∃ ds' n g, genHist conf k { r with ds := blockDraws w } ds' n = .ok (some g) ∧
          δ ≤ |meanOf (g.mc.map fun row => (row[(a : ℕ)]?).getD 0) k|} ≤ ENNReal.ofReal (K / (k * δ ^ 2))) ∧
    ∀ k : ℕ, ∃ d0 : ℝ, 0 < d0 ∧ ∀ dt, 0 < dt → dt ≤ d0 → ∀ (r : Rand ℝ) (ds' : ℕ → ℕ → Draw ℝ) (n : ℕ) (g : GenHist ℝ),
      UnitDraws r.u → NonDegenerate conf.beta r.u L → genHist { conf with dt } k r ds' n = .ok (some g) →
      RegularRun g.shell L L (10000 * k) → ∀ row ∈ g.dyn,
        (∀ a : Fin 3, ∃ m : ℝ, row[(a : ℕ)]? = some m ∧ |m| ≤ 0.004) ∧
        ∃ e : ℝ, row[3]? = some e ∧ |e - conf.ednsty| ≤ 0.005 + 2 / L := by
  have v := z.valid
  have hL := v.L_two
  have v' : ValidConf (histConf conf) L L :=
    ⟨v.hsize, v.ssize, v.L_two, v.L_lt, v.s_lt, v.hfield, v.hs, v.jvar, v.hvar⟩
  refine ⟨fun a => ?_, fun k => ?_⟩
  · obtain ⟨K, hK, hp⟩ := C119_mc conf 0 z hb a
    refine ⟨K, hK, fun r hu hn k δ hk hδ => ?_⟩
    obtain ⟨c0, e0, -⟩ := valid_new v' 0 r.u r.zj r.zh
    obtain ⟨w0, v0, t0, j0, h0⟩ := cleanZ_chain z r c0 e0
    have h := hp r c0 hu hn e0 k δ hk hδ
    have hz : thermalMean c0 L (wholeEnergy L) (magA a L) = 0 := by
      refine C110_odd w0 hL a (fun i hi => ?_) (magA a L) ?_ fun q => ?_
      · rw [h0 i hi]
        fin_cases a <;> rfl
      · unfold magA
        simp only [S_fld]
        exact (Finset.measurable_fun_sum _ fun i _ => (measurable_partA a).comp (fld_meas i)).div_const _
      · unfold magA
        rw [sum_congr rfl fun i hi => by rw [S_map (withSpins_wf w0 q) (mem_range.1 hi), partA_mirror], sum_neg_distrib, neg_div]
    rw [hz] at h
    simpa only [sub_zero] using h
  · have hL0 : (1 : ℝ) ≤ L := by exact_mod_cast (by omega : 1 ≤ L)
    have hL2 : (2 : ℝ) ≤ L := by exact_mod_cast hL
    obtain ⟨c0, e0, -⟩ := valid_new v' 0 (fun _ => 0) (fun _ => 0) fun _ => 0
    obtain ⟨w0, v0, t0, j0, h0⟩ := cleanZ_chain z ⟨fun _ => 0, fun _ => 0, fun _ => 0, fun _ _ => ⟨0, 0, 0, 0⟩⟩ c0 e0
    have drv : ∀ c : SpinChain ℝ, c.vars.drive = .none → ∀ t, B c L t = H0 c := by
      intro c hd t
      funext i
      unfold B drive
      rw [hd]
      simp only [add, zero, add_zero]
      split <;> rfl
    have iso : Isotropic c0 L L := by
      refine ⟨fun i hi => ?_, fun t i hi => ?_⟩
      · rw [j0 i hi, hl]
        exact ⟨rfl, rfl⟩
      · rw [drv c0 (by rw [v0]; rfl) t, h0 i hi]
        rfl
    obtain ⟨K, hK, hp⟩ := C109_program c0 L L (10000 * k) hL z.even (fun i hi => by rw [j0 i hi])
      fun t i hi => by rw [iso.2 t i hi]; exact ⟨rfl, rfl⟩
    refine ⟨min 1 (0.001 / (K + 1)), by positivity, fun dt d1 d2 r ds' n g hu hn hg hreg row hr => ?_⟩
    have z' : CleanZ { conf with dt } L 0 :=
      ⟨⟨v.hsize, v.ssize, v.L_two, v.L_lt, v.s_lt, v.hfield, v.hs, v.jvar, v.hvar⟩, z.even, z.field, z.own, z.jvar, z.hvar⟩
    obtain ⟨w, gv, -, ⟨c, hc, gj, gh⟩, ge, m1, m2, m3, -, glen, hrow⟩ :=
      C72_shell { conf with dt } z'.valid (by omega) le_rfl k r ds' n g hg
    obtain ⟨wc, cv, ct, cj, ch⟩ := cleanZ_chain z' r c hc
    obtain ⟨ej, eh⟩ := couple_ext wc w0 (fun i hi => (cj i hi).trans (j0 i hi).symm) (fun i hi => (ch i hi).trans (h0 i hi).symm)
    have hdt : g.shell.vars.dt = dt := by rw [gv]; rfl
    have hsame : SameSystem c0 g.shell := ⟨gj.trans ej, gh.trans eh, by rw [gv, v0]; rfl⟩
    have gunit : ∀ x ∈ g.shell.spins, IsUnit3 x := by
      obtain ⟨c1, d, rows, q1, q2, q3, q4, q5, q6, q7⟩ := hist_start { conf with dt } z'.valid (by omega) le_rfl k r
      obtain ⟨st, hst, -, hsh⟩ := (q7 ds' n).2 g hg
      rw [hsh]
      exact (search_keeps n _ _ hst q2).2.2.2.2 (q6 (hist_unit { conf with dt } z'.valid hb.ne' r hu hn c1 q1))
    obtain ⟨i, hi, rfl⟩ := List.getElem_of_mem hr
    obtain ⟨c', hup, hs2⟩ := hrow i hi
    have w' := updates_wf w hup
    have hik : 10000 * (i + 1) ≤ 10000 * k := by omega
    have hreg' : RegularRun g.shell L L (10000 * (i + 1)) := fun j hj => hreg j (hj.trans_le hik)
    have hT : ((10000 * (i + 1) : ℕ) : ℝ) * g.shell.vars.dt ≤ 10000 * k := by
      rw [hdt]
      have h1 : dt ≤ 1 := d2.trans (min_le_left _ _)
      have h2 : ((10000 * (i + 1) : ℕ) : ℝ) ≤ 10000 * k := by exact_mod_cast hik
      calc ((10000 * (i + 1) : ℕ) : ℝ) * dt ≤ ((10000 * (i + 1) : ℕ) : ℝ) * 1 := by gcongr
        _ ≤ _ := by linarith
    obtain ⟨kz, kxy⟩ := hp g.shell c' _ _ _ w hsame gunit (by rw [hdt]; exact d1) hT hreg' hup (m_tot_eq w) (m_tot_eq w')
    obtain ⟨kx, ky⟩ := kxy iso
    rw [hdt] at kx ky kz
    simp only at kx ky kz
    have hk : K * dt ^ 2 ≤ 0.001 := by
      have h1 : dt ≤ 1 := d2.trans (min_le_left _ _)
      have h2 : dt * (K + 1) ≤ 0.001 := (le_div_iff₀ (by positivity)).1 (d2.trans (min_le_right _ _))
      nlinarith [mul_nonneg hK d1.le, mul_nonneg hK (mul_nonneg d1.le (sub_nonneg.2 h1))]
    have close : ∀ {p q : ℝ}, |q - p| ≤ K * dt ^ 2 → |p / L| ≤ 0.003 → |q / L| ≤ 0.004 := by
      intro p q h1 h2
      rw [abs_div, abs_of_pos (by linarith : (0 : ℝ) < L), div_le_iff₀ (by linarith)] at h2 ⊢
      calc |q| = |(q - p) + p| := by rw [sub_add_cancel]
        _ ≤ _ := abs_add_le _ _
        _ ≤ 0.001 + 0.003 * L := add_le_add (h1.trans hk) h2
        _ ≤ 0.004 * L := by linarith
    refine ⟨fun a => ⟨_, hist_row w' hs2 a, ?_⟩, ?_⟩
    · unfold magA
      fin_cases a
      · exact close kx m1
      · exact close ky m2
      · exact close kz m3
    · have fr := updates_frame hup
      have hB' : ∀ i < L, B c' L c'.t i = zero := by
        intro i hi
        rw [drv c' (by rw [fr.2.2.1, gv]; rfl)]
        have := h0 i hi
        unfold H0 at this ⊢
        rw [fr.2.1, gh, eh, this]
        rfl
      refine ⟨_, hist_row_energy w' hL hB' hs2, ?_⟩
      · have hE := updates_energy w hL z.even (fun t t' => by unfold drive; rw [gv]; rfl) gunit hreg' hup
        have gB : B g.shell L g.shell.t = H0 g.shell := drv _ (by rw [gv]; rfl) _
        rw [gB] at hE
        rw [← hE] at ge
        have e1 : ringEnergy L (S c') (J c') (B c' L c'.t)
            = ∑ i ∈ range L, -dot (S c' i) (had (J c' i) (S c' ((i + 1) % L))) := by
          unfold ringEnergy
          refine sum_congr rfl fun i hi => ?_
          rw [hB' i (mem_range.1 hi)]
          simp [dot, zero]
        rw [e1] at ge
        have u' := (updates_unit w hL gunit hreg' hup).2
        have hb1 : ∀ i < L, |-dot (S c' i) (had (J c' i) (S c' ((i + 1) % L)))| ≤ 1 := by
          intro i hi
          have e2 : had (J c' i) (S c' ((i + 1) % L)) = S c' ((i + 1) % L) := by
            have : J c' i = ⟨1, 1, 1⟩ := by
              have h6 := j0 i hi
              rw [hl] at h6
              rw [← h6]
              unfold J
              rw [fr.1, gj, ej]
            rw [this]
            simp [had]
          rw [e2, abs_neg]
          refine (abs_dot_le_len _ _).trans (le_of_eq ?_)
          rw [unit_S w' u' hi, unit_S w' u' (Nat.mod_lt _ (by omega)), mul_one]
        have h5 := mean_but_one _ hb1 hL
        calc _ = |((∑ i ∈ range (L - 1), -dot (S c' i) (had (J c' i) (S c' ((i + 1) % L)))) / ((L : ℝ) - 1)
                - (∑ i ∈ range L, -dot (S c' i) (had (J c' i) (S c' ((i + 1) % L)))) / L)
              + ((∑ i ∈ range L, -dot (S c' i) (had (J c' i) (S c' ((i + 1) % L)))) / L - conf.ednsty)| := by
                congr 1
                ring
          _ ≤ _ := abs_add_le _ _
          _ ≤ 2 / L + 0.005 := add_le_add h5 ge
          _ = _ := add_comm _ _

/-- C119, a ring on which the search does not end: four sites without field and disorder cannot be without
magnetisation at a negative energy density (the default is -0.66). -/
theorem C119_never_four (conf : Config ℝ) (v : ValidConf conf 4 s) (hs : 1 ≤ s) (hsL : s ≤ 4) (hb : conf.beta ≠ 0)
    (hf : conf.hfield = [0, 0, 0]) (hh : conf.hs = [0, 0, 0]) (hj : conf.jvar = 0) (hv : conf.hvar = 0)
    (hl : conf.lambda = 1) (he : conf.ednsty < -0.006) (k : ℕ) (r : Rand ℝ) (hu : UnitDraws r.u)
    (hn : NonDegenerate conf.beta r.u 4) (ds' : ℕ → ℕ → Draw ℝ) (n : ℕ) (g : GenHist ℝ) :
    genHist conf k r ds' n ≠ .ok (some g) := by
  obtain ⟨c, h1, h2⟩ := C12_couplings_fields (histConf conf) 0 r.u r.zj r.zh 4 v.hsize v.L_lt ⟨0, 0, 0⟩ ⟨0, 0, 0⟩ [] [] hf hh
  refine C119_never conf v hs hsL hb k r hu hn c h1 (fun x _ => four_shell he (fun i hi => ?_) (fun i hi => ?_) x) ds' n g
  · rw [(h2 i hi).1, show (histConf conf).jvar = 0 from hj, show (histConf conf).lambda = 1 from hl]
    simp [add, smul]
  · rw [(h2 i hi).2, show (histConf conf).hvar = 0 from hv]
    simp [add, smul, zero]

/-! ### Cases that meet the hypotheses -/

theorem fair_start (L : ℕ) {b : ℝ} (hb : 0 < b) : ∃ r : Rand ℝ, UnitDraws r.u ∧ NonDegenerate b r.u L ∧ ∀ i, r.zj i = 0 := by
  obtain ⟨w, h1, h2⟩ := (C90_degenerate_null b L hb.ne').exists
  exact ⟨⟨drawsOf w, fun _ => 0, fun _ => 0, fun _ _ => ⟨0, 0, 0, 0⟩⟩, h1, h2, fun _ => rfl⟩

/-- the default configuration -/
example (k : ℕ) : ∃ r : Rand ℝ, Ends (Config.default : Config ℝ) 512 k r := by
  obtain ⟨r, h1, h2, h3⟩ := fair_start 512 (b := (Config.default : Config ℝ).beta) (by simp [Config.default]; norm_num)
  refine ⟨r, C119_ends_program (s := 8) Config.default
    ⟨rfl, rfl, by norm_num, by norm_num, by norm_num, by simp [Config.default], by simp [Config.default], rfl, rfl⟩
    (by norm_num) (by norm_num) (by norm_num) (by norm_num) (by simp [Config.default]; norm_num) ⟨0, 0, 0⟩ ⟨0, 0, 0⟩ [] []
    (by simp [Config.default]) (by simp [Config.default]) rfl rfl (by simp [Config.default])
    (by simp [Config.default]; norm_num) k r h1 h2 fun i => ?_⟩
  rw [h3]
  norm_num

/-- a ring of four sites at the default energy density -/
example : ∃ (conf : Config ℝ) (r : Rand ℝ), ValidConf conf 4 2 ∧ conf.ednsty = -0.66 ∧ conf.beta = 2.88 ∧ UnitDraws r.u ∧
    NonDegenerate conf.beta r.u 4 ∧ conf.hfield = [0, 0, 0] ∧ conf.hs = [0, 0, 0] ∧ conf.jvar = 0 ∧ conf.hvar = 0 ∧
    conf.lambda = 1 := by
  obtain ⟨r, h1, h2, -⟩ := fair_start 4 (b := 2.88) (by norm_num)
  refine ⟨{ (Config.default : Config ℝ) with
    hsize := 4
    ssize := 2
    jvar := 0 }, r, ⟨rfl, rfl, by norm_num, by norm_num, by norm_num, by simp [Config.default], by simp [Config.default],
      rfl, rfl⟩, rfl, rfl, h1, h2, ?_, ?_, rfl, ?_, ?_⟩ <;> simp [Config.default]

/-- the couplings and fields of `C119_shell`: disorder in the couplings, a system of 8 sites in a field along z, and a
uniform field -/
example : (∀ i < 512, |((fun i : ℕ => (⟨1 + 0.001 * Real.sin i, 1, 5⟩ : V3 ℝ)) i).x - 1| ≤ 0.004) ∧
    (∀ i < 512, ((fun i : ℕ => (if i < 8 then ⟨1, 0, 1⟩ else ⟨1, 0, 0⟩ : V3 ℝ)) i).x = 1) ∧ |(-0.66 : ℝ)| ≤ 1 - 4 / 512 := by
  refine ⟨fun i _ => ?_, fun i _ => ?_, by norm_num⟩
  · show |1 + 0.001 * Real.sin i - 1| ≤ 0.004
    rw [add_sub_cancel_left, abs_mul]
    have := Real.abs_sin_le_one i
    rw [abs_of_pos (by norm_num : (0 : ℝ) < 0.001)]
    linarith
  · dsimp only
    split_ifs <;> rfl

/-- a ring of twelve sites in the field -/
example : ∃ r : Rand ℝ, UnitDraws r.u ∧ NonDegenerate 2.89 r.u 12 ∧ Ends (fieldConf 12 0.02) 12 8000 r := by
  obtain ⟨r, h1, h2, -⟩ := fair_start 12 (b := 2.89) (by norm_num)
  exact ⟨r, h1, h2, (C119_negation 12 le_rfl rfl (by norm_num)).2.2 8000 0.02 r h1 h2⟩

/-- two coupled spins without field never meet a vanishing local field -/
theorem regular_pair {c : SpinChain ℝ} (w : WF c 2 2) (hu : ∀ x ∈ c.spins, IsUnit3 x) (hJ : ∀ i < 2, J c i = ⟨1, 1, 1⟩)
    (hB : ∀ t, ∀ i < 2, B c 2 t i = zero) (n : ℕ) : RegularRun c 2 2 n := by
  have one : ∀ (Sp B' : ℕ → V3 ℝ), (∀ i < 2, len (Sp i) = 1) → (∀ i < 2, B' i = zero) →
      ∀ i < 2, omega 2 Sp (J c) B' i ≠ zero := by
    intro Sp B' hS hB' i hi h
    have e : left 2 i = right 2 i := by unfold left right; omega
    have hl : left 2 i < 2 := Nat.mod_lt _ (by norm_num)
    unfold omega at h
    rw [hB' i hi, hJ i hi, hJ _ hl, e] at h
    have hx := congrArg V3.x h
    have hy := congrArg V3.y h
    have hz := congrArg V3.z h
    simp only [had, Spec.add, Spec.sub, zero, one_mul] at hx hy hz
    have h1 := hS (right 2 i) (e ▸ hl)
    unfold len dot at h1
    rw [show (Sp (right 2 i)).x = 0 by linarith, show (Sp (right 2 i)).y = 0 by linarith,
      show (Sp (right 2 i)).z = 0 by linarith] at h1
    norm_num at h1
  induction n with
  | zero => intro k hk; omega
  | succ n ih =>
    intro k hk c' hc'
    obtain ⟨w', u'⟩ := updates_unit w le_rfl hu (fun k' hk' => ih k' (by omega)) hc'
    obtain ⟨h1, h2, h3, _⟩ := updates_frame hc'
    have hS : ∀ i < 2, len (S c' i) = 1 := fun i hi => unit_S w' u' hi
    unfold RegularStep
    rw [J_congr h1, B_congr (c := c) h2 (by rw [h3])]
    exact ⟨fun i hi _ => one _ _ hS (hB _) i hi, fun i hi _ => one _ _ (subStep_len hS) (hB _) i hi,
      fun i hi _ => one _ _ (subStep_len (subStep_len hS)) (hB _) i hi⟩

/-- two spins, which the search turns against each other: `C119_means_partial` holds of a search that ends -/
noncomputable def twoConf (dt : ℝ) : Config ℝ := { (Config.default : Config ℝ) with
  hsize := 2
  ssize := 2
  jvar := 0
  ednsty := 1
  dt := dt }

theorem twoConf_clean (dt : ℝ) : CleanZ (twoConf dt) 2 0 := by
  refine ⟨⟨rfl, rfl, le_rfl, by norm_num, by norm_num, by simp [twoConf, Config.default], by simp [twoConf, Config.default],
    rfl, rfl⟩, rfl, ?_, ?_, rfl, ?_⟩ <;> simp [twoConf, Config.default]

example (k : ℕ) (dt : ℝ) : (twoConf dt).lambda = 1 ∧ 0 < (twoConf dt).beta ∧
    ∃ (r : Rand ℝ) (ds' : ℕ → ℕ → Draw ℝ) (n : ℕ) (g : GenHist ℝ), UnitDraws r.u ∧ NonDegenerate (twoConf dt).beta r.u 2 ∧
      genHist (twoConf dt) k r ds' n = .ok (some g) ∧ RegularRun g.shell 2 2 (10000 * k) := by
  have hl : (twoConf dt).lambda = 1 := by simp [twoConf, Config.default]
  have hb : 0 < (twoConf dt).beta := by simp [twoConf, Config.default]; norm_num
  have z := twoConf_clean dt
  obtain ⟨r, h1, h2, -⟩ := fair_start 2 hb
  obtain ⟨c1, d, rows, q1, q2, q3, q4, q5, q6, q7⟩ := hist_start (twoConf dt) z.valid (by omega) le_rfl k r
  obtain ⟨wc, cv, ct, cj, ch⟩ := cleanZ_chain z r c1 q1
  rw [hl] at cj
  have hsh : InShell 2 (J c1) (H0 c1) (twoConf dt).ednsty fun i => if i = 0 then ⟨0, 0, 1⟩ else ⟨0, 0, -1⟩ := by
    unfold InShell ringEnergy
    simp only [sum_range_succ, sum_range_zero, cj 0 (by norm_num), cj 1 (by norm_num), ch 0 (by norm_num), ch 1 (by norm_num)]
    simp [dot, had, twoConf]
    norm_num
  obtain ⟨m, q, hq0, hq1, hm⟩ := C119_ends (twoConf dt) z.valid (by norm_num) le_rfl hb k r h1 h2 c1 q1 _
    (fun i hi => by split_ifs <;> simp [len, dot]) hsh
  obtain ⟨ds', n, g, hg⟩ : ∃ (ds' : ℕ → ℕ → Draw ℝ) (n : ℕ) (g : GenHist ℝ), genHist (twoConf dt) k r ds' n = .ok (some g) := by
    by_contra hno
    have h := hm (m + 1)
    rw [Nat.div_self (by omega), pow_one] at h
    have : {w | ¬ ∃ p ≤ m + 1, ∃ g, genHist (twoConf dt) k r (blockDraws w) p = .ok (some g)}
        = (Set.univ : Set (Fin (m + 1) → Fin 10000 → Raw 2)) := by
      refine Set.eq_univ_of_forall fun w => ?_
      rintro ⟨p, -, g, hg⟩
      exact hno ⟨_, p, g, hg⟩
    rw [this, measure_univ] at h
    exact absurd h (not_le.2 (by rw [← ENNReal.ofReal_one]; exact (ENNReal.ofReal_lt_ofReal_iff one_pos).2 hq1))
  refine ⟨hl, hb, r, ds', n, g, h1, h2, hg, ?_⟩
  obtain ⟨w, gv, -, ⟨c, hc, gj, gh⟩, -⟩ := C72_shell (twoConf dt) z.valid (by omega) le_rfl k r ds' n g hg
  rw [q1] at hc
  cases hc
  have gunit : ∀ x ∈ g.shell.spins, IsUnit3 x := by
    obtain ⟨st, hst, -, hsh⟩ := (q7 ds' n).2 g hg
    rw [hsh]
    exact (search_keeps n _ _ hst q2).2.2.2.2 (q6 (hist_unit (twoConf dt) z.valid hb.ne' r h1 h2 c1 q1))
  refine regular_pair w gunit (fun i hi => ?_) (fun t i hi => ?_) _
  · rw [← cj i hi]
    unfold J
    rw [gj]
  · have := ch i hi
    unfold B drive
    rw [show g.shell.vars.drive = .none by rw [gv]; rfl]
    unfold H0 at this ⊢
    rw [gh, this]
    simp [Spec.add, zero]

end Verif.Props
