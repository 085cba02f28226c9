/-
C133: how many snapshots a Monte-Carlo run needs.
-/
import Verif.Spec.McRun
import Verif.Props.GapMean
import Verif.Props.MonteCarlo
import Verif.Props.Adaptive
import Mathlib.Analysis.Complex.ExponentialBounds

set_option linter.unusedSectionVars false

namespace Verif.Props

open Spec MeasureTheory Finset Function
open Verif.Ergodic (run total move Fair)
open scoped ENNReal

section
variable {conf : Config ℝ} {c : SpinChain ℝ} {L s : ℕ}

/-- a loop that stores a number read off each message stores the numbers read off the messages -/
theorem loop_pick {α β : Type} (upd : SpinChain ℝ → Draw ℝ → R (SpinChain ℝ)) (per n : ℕ) (obs : SpinChain ℝ → R α) (pick : α → β)
    (ds : ℕ → ℕ → Draw ℝ) (c : SpinChain ℝ) :
    sampleLoop upd per n (fun x => obs x >>= fun a => .ok (pick a)) ds c
      = (sampleLoop upd per n obs ds c >>= fun p => .ok (p.1, p.2.map pick)) := by
  unfold sampleLoop forRange
  have : ∀ (l : List ℕ) (c : SpinChain ℝ) (as : List α),
      l.foldlM (fun (st : SpinChain ℝ × List β) i => do
        let c ← sweeps upd (ds i) per st.1
        let e ← (obs c >>= fun a => .ok (pick a) : R β)
        return (c, st.2 ++ [e])) (c, as.map pick)
      = (l.foldlM (fun (st : SpinChain ℝ × List α) i => do
        let c ← sweeps upd (ds i) per st.1
        let e ← obs c
        return (c, st.2 ++ [e])) (c, as) >>= fun p => (.ok (p.1, p.2.map pick) : R (SpinChain ℝ × List β))) := by
    intro l
    induction l with
    | nil => intro c as; rfl
    | cons i l ih =>
      intro c as
      simp only [List.foldlM_cons]
      cases h1 : sweeps upd (ds i) per c with
      | error e => rfl
      | ok c' =>
        cases h2 : obs c' with
        | error e => simp [h2, bind, Except.bind]
        | ok a =>
          have := ih c' (as ++ [a])
          simp only [List.map_append, List.map_cons, List.map_nil] at this
          simp only [h2, bind, Except.bind, pure, Except.pure] at this ⊢
          exact this
  exact this _ c []

/-- a new chain with another number has another log file -/
theorem new_number (v : ValidConf conf L s) {num : ℕ} {u0 zj zh : ℕ → ℝ} (hc : SpinChain.new conf num u0 zj zh = .ok c) (num' : ℕ) :
    ∃ x, SpinChain.new conf num' u0 zj zh = .ok { c with file := x } := by
  obtain ⟨sp, hsp, hlen⟩ := newSpins_ok conf.beta u0 L
  obtain ⟨f0, f1, f2, fr, hf⟩ := three_le v.hfield
  obtain ⟨h0, h1, h2, hr, hh⟩ := three_le v.hs
  have a := new_eq v.hsize v.L_lt hf hh v.jvar v.hvar num u0 zj zh hsp
  have b := new_eq v.hsize v.L_lt hf hh v.jvar v.hvar num' u0 zj zh hsp
  rw [hc] at a
  cases a
  exact ⟨_, b⟩

/-- the mean a worker contributes, and its mean square error -/
theorem worker_square (v : ValidConf conf L s) (hb : 0 < conf.beta) {num : ℕ} {u0 zj zh : ℕ → ℝ}
    (hc : SpinChain.new conf num u0 zj zh = .ok c) (hL : 2 ≤ L) {K : ℝ} (hK : ∀ i < L, len (J c i) + len (H0 c i) ≤ K)
    {α : Type} {obs : SpinChain ℝ → R α} {val : SpinChain ℝ → α} (hobs : ∀ c : SpinChain ℝ, WF c L s → obs c = .ok (val c))
    (pick : α → ℝ) {C : ℝ} (hf : BoundedBy c L C fun x => pick (val x)) {per n : ℕ} (hper : 1 ≤ per) (hn : 1 ≤ n) :
    ∃ X : EstRaw L per n → ℝ, Measurable X ∧
      (∀ᵐ r ∂(estLaw L per n), ∃ (c' c'' : SpinChain ℝ) (as : List α), SpinChain.new conf num (drawsOf r.1) zj zh = .ok c' ∧
        sampleLoop SpinChain.metropolis_update per n obs (blockDraws r.2) c' = .ok (c'', as) ∧ (as.map pick).sum = n * X r ∧ as.length = n) ∧
      ∫⁻ r, ENNReal.ofReal ((X r - thermalMean c L (wholeEnergy L) fun x => pick (val x)) ^ 2) ∂(estLaw L per n)
        ≤ ENNReal.ofReal (C ^ 2 * samplesWorth conf.beta K L per / n *
          (11 + 8 * ((conf.beta / 2 + conf.beta * K) * L) + 6 * samplesWorth conf.beta K L per / n)) := by
  have : NeZero L := ⟨by omega⟩
  obtain ⟨c1, h1, w1, -, hv1, -⟩ := valid_new v num u0 zj zh
  rw [hc] at h1
  cases h1
  obtain ⟨x, hc0⟩ := new_number v hc 0
  have tE := whole_tame w1 hL
  set Ev : (Fin L → V3 ℝ) → ℝ := fun q => wholeEnergy L (withSpins c q) with hEv
  set F : (Fin L → V3 ℝ) → ℝ := fun q => pick (val (withSpins c q)) with hF
  have hn0 : (n : ℝ) ≠ 0 := by positivity
  set X : EstRaw L per n → ℝ := fun r => total (run (move conf.beta Ev) per) F n (path conf.beta L startDir r.1) r.2 / n with hX
  have mX : Measurable X := by
    have m1 := Ergodic.meas_total (Ergodic.meas_run (Ergodic.meas_move (β := conf.beta) tE.meas) per) hf.meas n
    have m2 : Measurable fun r : EstRaw L per n => (path conf.beta L startDir r.1, r.2) :=
      ((meas_path' conf.beta L startDir).comp measurable_fst).prodMk measurable_snd
    have := Measurable.comp (g := fun p : (Fin L → V3 ℝ) × (Fin n → Fin per → Raw L) =>
      total (run (move conf.beta Ev) per) F n p.1 p.2) m1 m2
    exact this.div_const _
  have g1 := (Measure.quasiMeasurePreserving_fst (μ := Measure.pi fun _ : Fin L => tripleMeasure)
    (ν := blockLaw L per n)).ae (new_same v hb.ne' hc)
  have g1' := (Measure.quasiMeasurePreserving_fst (μ := Measure.pi fun _ : Fin L => tripleMeasure)
    (ν := blockLaw L per n)).ae (new_same v hb.ne' hc0)
  have g2 := (Measure.quasiMeasurePreserving_snd (μ := Measure.pi fun _ : Fin L => tripleMeasure)
    (ν := blockLaw L per n)).ae (Ergodic.fair_blocks (L := L) per n)
  refine ⟨X, mX, ?_, ?_⟩
  · filter_upwards [g1, g2] with r e1 e2
    obtain ⟨chain, va, -, -, -, -, d5⟩ := sampleLoop_eq .plain per n obs (blockDraws r.2) (withSpins c (path conf.beta L startDir r.1))
      (withSpins_wf w1 _) hL (fun c w => ⟨_, hobs c w⟩)
    refine ⟨_, _, _, e1, d5, ?_, by simp⟩
    have p := loop_pick SpinChain.metropolis_update per n obs pick (blockDraws r.2) (withSpins c (path conf.beta L startDir r.1))
    have q := Ergodic.loop_eq (obs := fun x => obs x >>= fun a => .ok (pick a)) (f := F)
      (fun q => by rw [hobs _ (withSpins_wf w1 q)]; rfl) (plain_upd hL) w1 per n r.2 e2 (path conf.beta L startDir r.1)
    rw [q] at p
    have d5' : sampleLoop SpinChain.metropolis_update per n obs (blockDraws r.2) (withSpins c (path conf.beta L startDir r.1))
      = .ok (chain n, (List.range n).map va) := d5
    rw [d5'] at p
    have p' := congrArg Prod.snd (Except.ok.inj p)
    dsimp only at p'
    rw [← p', Ergodic.vals_sum, hX, hv1]
    dsimp only
    rw [mul_div_cancel₀ _ hn0]
  · have hb' : (atBeta { c with file := x } conf.beta) = { c with file := x } := by
      unfold atBeta
      rw [← hv1]
    have key := (C127_mean_square conf L s v hb.ne' u0 zj zh { c with file := x } hc0 hL conf.beta hb.le K hK
      (fun y => .ok (pick (val { y with file := c.file }))) (fun y => pick (val { y with file := c.file })) C (fun q => rfl)
      (by rw [hb']; exact ⟨hf.meas, hf.bound⟩) per n hper hn).2
    rw [abs_of_pos hb] at key
    refine le_trans (le_of_eq ?_) key
    unfold squareError
    refine lintegral_congr_ae ?_
    filter_upwards [g1', g2] with r e1 e2
    have e4 : estimate SpinChain.metropolis_update per n (fun y => .ok (pick (val { y with file := c.file }))) conf conf.beta (estRand zj zh r)
        = .ok (X r) := by
      unfold estimate estRand
      dsimp only
      rw [e1]
      have wx : WF { c with file := x } L s := ⟨w1.hsize, w1.ssize, w1.L_lt, w1.s_lt, w1.spins, w1.j, w1.h, w1.hs⟩
      have := Ergodic.loop_eq (c := { c with file := x }) (obs := fun y => .ok (pick (val { y with file := c.file }))) (f := F)
        (fun q => rfl) (plain_upd hL) wx per n r.2 e2 (path conf.beta L startDir r.1)
      show (do
        let st ← sampleLoop SpinChain.metropolis_update per n _ (blockDraws r.2)
          (withSpins (atBeta { c with file := x } conf.beta) (path conf.beta L startDir r.1))
        return meanOf st.2 n : R ℝ) = _
      rw [hb', this]
      show Except.ok (meanOf _ n) = _
      rw [Ergodic.vals_mean, hX, ← hv1]
      rfl
    rw [e4, hb']
    rfl

/-- a mean of squares is at least the square of the mean -/
theorem share_square {n : ℕ} (p x : Fin n → ℝ) (hp : ∀ i, 0 ≤ p i) {P : ℝ} (hP : 0 < P) (hs : ∑ i, p i = P) :
    ((∑ i, p i * x i) / P) ^ 2 ≤ ∑ i, p i / P * x i ^ 2 := by
  have h := Finset.sum_sq_le_sum_mul_sum_of_sq_eq_mul Finset.univ (r := fun i => p i * x i) (f := p) (g := fun i => p i * x i ^ 2)
    (fun i _ => hp i) (fun i _ => mul_nonneg (hp i) (sq_nonneg _)) (fun i _ => by ring)
  rw [hs] at h
  rw [div_pow, div_le_iff₀ (by positivity)]
  have e : (∑ i, p i / P * x i ^ 2) * P ^ 2 = P * ∑ i, p i * x i ^ 2 := by
    rw [Finset.sum_mul, Finset.mul_sum]
    refine Finset.sum_congr rfl fun i _ => ?_
    field_simp
  rw [e]
  exact h

theorem sum_fin_list (l : List ℕ) : ∑ i : Fin l.length, (l.get i : ℝ) = l.sum := by
  induction l with
  | nil => simp
  | cons a l ih =>
    rw [List.sum_cons, Nat.cast_add, ← ih]
    exact Fin.sum_univ_succ (n := l.length) fun i => (((a :: l).get i : ℕ) : ℝ)

theorem flatten_range {α : Type} (g : ℕ → List α) (pick : α → ℝ) (n : ℕ) :
    ((((List.range n).map g).flatten).map pick).sum = ∑ i : Fin n, ((g i).map pick).sum ∧
    (((List.range n).map g).flatten).length = ∑ i : Fin n, (g i).length := by
  rw [Fin.sum_univ_eq_sum_range (fun i => ((g i).map pick).sum), Fin.sum_univ_eq_sum_range (fun i => (g i).length)]
  induction n with
  | zero => simp
  | succ n ih =>
    rw [List.range_succ, List.map_append, List.flatten_append, List.map_append, List.sum_append, List.length_append, ih.1, ih.2,
      Finset.sum_range_succ, Finset.sum_range_succ]
    simp

/-- the mean over the snapshots of all workers, and its mean square error -/
theorem mc_square (v : ValidConf conf L s) (hb : 0 < conf.beta) {l : List ℕ} (hl : ∀ x ∈ l, 1 ≤ x) (hl0 : l ≠ [])
    {chk : Bool} (hsplit : mcSplit chk conf.threads conf.mc_points = .ok l) {u0 zj zh : ℕ → ℕ → ℝ} {c : ℕ → SpinChain ℝ}
    (hc : ∀ i < l.length, SpinChain.new conf i (u0 i) (zj i) (zh i) = .ok (c i)) (hL : 2 ≤ L) {K : ℝ}
    (hK : ∀ i < l.length, ∀ k < L, len (J (c i) k) + len (H0 (c i) k) ≤ K)
    {α : Type} {obs : SpinChain ℝ → R α} {val : SpinChain ℝ → α} (hobs : ∀ c : SpinChain ℝ, WF c L s → obs c = .ok (val c))
    (pick : α → ℝ) {C : ℝ} (hf : ∀ i < l.length, BoundedBy (c i) L C fun x => pick (val x)) {per : ℕ} (hper : 1 ≤ per) :
    ∃ A : McRaw L per l → ℝ, Measurable A ∧
      (∀ᵐ w ∂(mcLaw L per l), ∃ rows,
        mcJobs chk conf (fun c n ds => sampleLoop SpinChain.metropolis_update per n obs ds c) (mcRand zj zh w) = .ok rows ∧
        (rows.flatten.map pick).sum / rows.flatten.length = A w ∧ rows.flatten.length = l.sum) ∧
      ∫⁻ w, ENNReal.ofReal ((A w - shareMean l fun i => thermalMean (c i) L (wholeEnergy L) fun x => pick (val x)) ^ 2) ∂(mcLaw L per l)
        ≤ ENNReal.ofReal (∑ i : Fin l.length, C ^ 2 * samplesWorth conf.beta K L per / l.sum *
          (11 + 8 * ((conf.beta / 2 + conf.beta * K) * L) + 6 * samplesWorth conf.beta K L per / l.get i)) := by
  have : NeZero L := ⟨by omega⟩
  have each := fun i : Fin l.length => worker_square v hb (hc i i.2) hL (hK i i.2) hobs pick (hf i i.2) hper (hl _ (List.get_mem l i))
  choose X mX aX sX using each
  have P1 : 1 ≤ l.sum := by
    obtain ⟨a, t, rfl⟩ := List.exists_cons_of_ne_nil hl0
    have := hl a (by simp)
    rw [List.sum_cons]
    omega
  have P0 : (0 : ℝ) < l.sum := by exact_mod_cast P1
  have g0 : ∀ i : Fin l.length, (0 : ℝ) < l.get i := fun i => by exact_mod_cast hl _ (List.get_mem l i)
  set m : ℕ → ℝ := fun i => thermalMean (c i) L (wholeEnergy L) fun x => pick (val x) with hm
  have mA : Measurable fun w : McRaw L per l => (∑ i : Fin l.length, (l.get i : ℝ) * X i (w i)) / (l.sum : ℝ) :=
    (Finset.measurable_sum _ fun i _ => ((mX i).comp (measurable_pi_apply i)).const_mul _).div_const _
  refine ⟨_, mA, ?_, ?_⟩
  · have all : ∀ᵐ w ∂(mcLaw L per l), ∀ i : Fin l.length, ∃ (c' c'' : SpinChain ℝ) (as : List α),
        SpinChain.new conf i (drawsOf (w i).1) (zj i) (zh i) = .ok c' ∧
        sampleLoop SpinChain.metropolis_update per (l.get i) obs (blockDraws (w i).2) c' = .ok (c'', as) ∧
        (as.map pick).sum = l.get i * X i (w i) ∧ as.length = l.get i := by
      rw [ae_all_iff]
      intro i
      exact (Measure.quasiMeasurePreserving_eval (μ := fun i : Fin l.length => estLaw L per (l.get i)) i).ae (aX i)
    filter_upwards [all] with w hw
    choose c' c'' as h1 h2 h3 h4 using hw
    refine ⟨(List.range l.length).map fun i => if h : i < l.length then as ⟨i, h⟩ else [], ?_, ?_⟩
    · unfold mcJobs
      rw [hsplit, ok_bind, mapRange_ok (fun i => if h : i < l.length then as ⟨i, h⟩ else []), Nat.sub_zero, List.range_eq_range']
      intro i _ hi
      rw [idx_ok hi, ok_bind, dif_pos hi]
      have e : mcRand zj zh w i = estRand (zj i) (zh i) (w ⟨i, hi⟩) := dif_pos hi
      rw [e]
      have k1 : SpinChain.new conf i (estRand (zj i) (zh i) (w ⟨i, hi⟩)).u (estRand (zj i) (zh i) (w ⟨i, hi⟩)).zj
        (estRand (zj i) (zh i) (w ⟨i, hi⟩)).zh = .ok (c' ⟨i, hi⟩) := h1 ⟨i, hi⟩
      rw [k1, ok_bind]
      have k2 : sampleLoop SpinChain.metropolis_update per l[i] obs (estRand (zj i) (zh i) (w ⟨i, hi⟩)).ds (c' ⟨i, hi⟩)
        = .ok (c'' ⟨i, hi⟩, as ⟨i, hi⟩) := h2 ⟨i, hi⟩
      show (sampleLoop SpinChain.metropolis_update per l[i] obs (estRand (zj i) (zh i) (w ⟨i, hi⟩)).ds (c' ⟨i, hi⟩) >>= fun p =>
        Except.ok p.2) = _
      rw [k2]
      rfl
    · obtain ⟨q1, q2⟩ := flatten_range (fun i => if h : i < l.length then as ⟨i, h⟩ else []) pick l.length
      have q3 : (((List.range l.length).map fun i => if h : i < l.length then as ⟨i, h⟩ else []).flatten).length = l.sum := by
        rw [q2]
        have : (∑ i : Fin l.length, (l.get i : ℝ)) = ((∑ i : Fin l.length, l.get i : ℕ) : ℝ) := by push_cast; rfl
        have e := sum_fin_list l
        rw [this] at e
        have e' : ∑ i : Fin l.length, l.get i = l.sum := by exact_mod_cast e
        rw [← e']
        refine Finset.sum_congr rfl fun i _ => ?_
        rw [dif_pos i.2]
        exact h4 i
      refine ⟨?_, q3⟩
      rw [q3, q1]
      congr 1
      refine Finset.sum_congr rfl fun i _ => ?_
      rw [dif_pos i.2]
      exact h3 i
  · have step : ∀ w : McRaw L per l, ENNReal.ofReal (((∑ i : Fin l.length, (l.get i : ℝ) * X i (w i)) / (l.sum : ℝ) - shareMean l m) ^ 2)
        ≤ ∑ i : Fin l.length, ENNReal.ofReal ((l.get i : ℝ) / l.sum) * ENNReal.ofReal ((X i (w i) - m i) ^ 2) := by
      intro w
      have e : (∑ i : Fin l.length, (l.get i : ℝ) * X i (w i)) / (l.sum : ℝ) - shareMean l m
          = (∑ i : Fin l.length, (l.get i : ℝ) * (X i (w i) - m i)) / (l.sum : ℝ) := by
        unfold shareMean
        rw [← sub_div, ← Finset.sum_sub_distrib]
        congr 1
        exact Finset.sum_congr rfl fun i _ => by ring
      rw [e]
      refine (ENNReal.ofReal_le_ofReal (share_square _ _ (fun i => (g0 i).le) P0 (sum_fin_list l))).trans (le_of_eq ?_)
      rw [ENNReal.ofReal_sum_of_nonneg fun i _ => mul_nonneg (div_nonneg (g0 i).le P0.le) (sq_nonneg _)]
      exact Finset.sum_congr rfl fun i _ => ENNReal.ofReal_mul (div_nonneg (g0 i).le P0.le)
    refine (lintegral_mono step).trans ?_
    have mm : ∀ i : Fin l.length, Measurable fun r : EstRaw L per (l.get i) => ENNReal.ofReal ((X i r - m i) ^ 2) := fun i =>
      (((mX i).sub_const _).pow_const 2).ennreal_ofReal
    have mw : ∀ i : Fin l.length, Measurable fun w : McRaw L per l => ENNReal.ofReal ((X i (w i) - m i) ^ 2) := fun i =>
      (mm i).comp (measurable_pi_apply i)
    rw [lintegral_finsetSum _ fun i _ => (mw i).const_mul _]
    have K0 := K_nonneg hL (hK 0 (List.length_pos_iff.2 hl0))
    obtain ⟨w0, -⟩ := samplesWorth_ge (b := conf.beta) K0 hL hper
    rw [ENNReal.ofReal_sum_of_nonneg fun i _ => by
      have := g0 i
      positivity]
    refine Finset.sum_le_sum fun i _ => ?_
    rw [lintegral_const_mul _ (mw i)]
    have e : ∫⁻ w : McRaw L per l, ENNReal.ofReal ((X i (w i) - m i) ^ 2) ∂(mcLaw L per l)
        = ∫⁻ r, ENNReal.ofReal ((X i r - m i) ^ 2) ∂(estLaw L per (l.get i)) :=
      (measurePreserving_eval (fun i : Fin l.length => estLaw L per (l.get i)) i).lintegral_comp (mm i)
    rw [e]
    refine (mul_le_mul_right (sX i) _).trans (le_of_eq ?_)
    rw [← ENNReal.ofReal_mul (div_nonneg (g0 i).le P0.le)]
    congr 1
    have := (g0 i).ne'
    field_simp

/-- the share of a worker is at least half the average -/
theorem half_share {t P x : ℕ} (ht : 1 ≤ t) (hP : 1 ≤ P) (h : P / min t P ≤ x) : (P : ℝ) ≤ 2 * (min t P : ℕ) * x := by
  set n := min t P with hn
  have n1 : 1 ≤ n := by omega
  have nP : n ≤ P := min_le_right _ _
  have q1 : 1 ≤ P / n := Nat.div_pos nP (by omega)
  have e := Nat.div_add_mod P n
  have r := Nat.mod_lt P (show n > 0 by omega)
  have : P ≤ 2 * n * x := by
    have h2 : n * (P / n) ≤ n * x := Nat.mul_le_mul_left _ h
    have h3 : n * 1 ≤ n * (P / n) := Nat.mul_le_mul_left _ q1
    nlinarith
  exact_mod_cast this

/-- probability that the mean over the snapshots of all workers is off -/
theorem mc_close (v : ValidConf conf L s) (hb : 0 < conf.beta) {chk : Bool} (ht : 1 ≤ conf.threads) (hp : 1 ≤ conf.mc_points)
    (hbig : conf.mc_points < 2 ^ 31 ∨ chk = false ∧ conf.mc_points < 2 ^ 32) {l : List ℕ}
    (hsplit : mcSplit chk conf.threads conf.mc_points = .ok l) {u0 zj zh : ℕ → ℕ → ℝ} {c : ℕ → SpinChain ℝ}
    (hc : ∀ i < l.length, SpinChain.new conf i (u0 i) (zj i) (zh i) = .ok (c i)) (hL : 2 ≤ L) {K : ℝ}
    (hK : ∀ i < l.length, ∀ k < L, len (J (c i) k) + len (H0 (c i) k) ≤ K)
    {α : Type} {obs : SpinChain ℝ → R α} {val : SpinChain ℝ → α} (hobs : ∀ c : SpinChain ℝ, WF c L s → obs c = .ok (val c))
    (pick : α → ℝ) {C : ℝ} (hf : ∀ i < l.length, BoundedBy (c i) L C fun x => pick (val x)) {per : ℕ} (hper : 1 ≤ per)
    {δ p : ℝ} (hδ : 0 < δ) (hp0 : 0 < p) (hp1 : p ≤ 1) (hδC : δ ≤ C)
    (hs : conf.threads * (C ^ 2 * samplesWorth conf.beta K L per * (12 + 8 * ((conf.beta / 2 + conf.beta * K) * L))) / (p * δ ^ 2)
      ≤ conf.mc_points) :
    mcLaw L per l {w | ¬ ∃ rows,
        mcJobs chk conf (fun c n ds => sampleLoop SpinChain.metropolis_update per n obs ds c) (mcRand zj zh w) = .ok rows ∧
        rows.flatten.length = conf.mc_points ∧
        |(rows.flatten.map pick).sum / rows.flatten.length
          - shareMean l fun i => thermalMean (c i) L (wholeEnergy L) fun x => pick (val x)| < δ} ≤ ENNReal.ofReal p := by
  obtain ⟨l', s1, s2, s3, s4⟩ := C51_split chk conf.threads conf.mc_points ht hp hbig
  rw [hsplit] at s1
  cases s1
  have hl0 : l ≠ [] := by
    intro h
    rw [h] at s2
    simp at s2
    omega
  obtain ⟨A, mA, aA, sA⟩ := mc_square v hb (fun x hx => (s3 x hx).1) hl0 hsplit hc hL hK hobs pick hf hper
  set a := shareMean l fun i => thermalMean (c i) L (wholeEnergy L) fun x => pick (val x) with ha
  have P0 : (0 : ℝ) < conf.mc_points := by exact_mod_cast hp
  have K0 := K_nonneg hL (hK 0 (List.length_pos_iff.2 hl0))
  obtain ⟨w0, -⟩ := samplesWorth_ge (b := conf.beta) K0 hL hper
  set W := samplesWorth conf.beta K L per with hW
  set Λ := (conf.beta / 2 + conf.beta * K) * L with hΛ
  have Λ0 : 0 ≤ Λ := by positivity
  have d2 : 0 < δ ^ 2 := by positivity
  have C0 : 0 < C := hδ.trans_le hδC
  have T0 : (1 : ℝ) ≤ conf.threads := by exact_mod_cast ht
  have hs' : conf.threads * (C ^ 2 * W * (12 + 8 * Λ)) ≤ conf.mc_points * (p * δ ^ 2) := (div_le_iff₀ (by positivity)).1 hs
  have nT : ((min conf.threads conf.mc_points : ℕ) : ℝ) ≤ conf.threads := by exact_mod_cast min_le_left _ _
  have pd : p * δ ^ 2 ≤ C ^ 2 := by
    have : δ ^ 2 ≤ C ^ 2 := pow_le_pow_left₀ hδ.le hδC 2
    nlinarith
  have TW : 12 * conf.threads * W ≤ conf.mc_points := by
    have h1 : C ^ 2 * (12 * conf.threads * W) ≤ conf.threads * (C ^ 2 * W * (12 + 8 * Λ)) := by
      have : 0 ≤ conf.threads * (C ^ 2 * W) * (8 * Λ) := by positivity
      linarith
    have h2 : conf.mc_points * (p * δ ^ 2) ≤ conf.mc_points * C ^ 2 := mul_le_mul_of_nonneg_left pd P0.le
    refine le_of_mul_le_mul_left ?_ (show 0 < C ^ 2 by positivity)
    linarith
  have bound : ∑ i : Fin l.length, C ^ 2 * W / l.sum * (11 + 8 * Λ + 6 * W / l.get i) ≤ p * δ ^ 2 := by
    have each : ∀ i : Fin l.length, C ^ 2 * W / l.sum * (11 + 8 * Λ + 6 * W / l.get i) ≤ C ^ 2 * W / conf.mc_points * (12 + 8 * Λ) := by
      intro i
      obtain ⟨x1, x2, -⟩ := s3 _ (List.get_mem l i)
      have g0 : (0 : ℝ) < l.get i := by exact_mod_cast x1
      have hh := half_share ht hp x2
      rw [s4]
      have : 6 * W / l.get i ≤ 1 := by
        rw [div_le_iff₀ g0, one_mul]
        have h3 : (12 * conf.threads * W : ℝ) ≤ 2 * conf.threads * l.get i := by
          refine TW.trans (hh.trans ?_)
          have := mul_le_mul_of_nonneg_right nT g0.le
          linarith
        have h4 : (conf.threads : ℝ) * (6 * W) ≤ conf.threads * l.get i := by linarith
        exact le_of_mul_le_mul_left h4 (by linarith)
      refine mul_le_mul_of_nonneg_left (by linarith) (by positivity)
    refine (Finset.sum_le_sum fun i _ => each i).trans ?_
    rw [Finset.sum_const, Finset.card_univ, Fintype.card_fin, nsmul_eq_mul, s2]
    calc ((min conf.threads conf.mc_points : ℕ) : ℝ) * (C ^ 2 * W / conf.mc_points * (12 + 8 * Λ))
        ≤ conf.threads * (C ^ 2 * W / conf.mc_points * (12 + 8 * Λ)) := mul_le_mul_of_nonneg_right nT (by positivity)
      _ = conf.threads * (C ^ 2 * W * (12 + 8 * Λ)) / conf.mc_points := by ring
      _ ≤ _ := by
        rw [div_le_iff₀ P0]
        linarith
  have h' := sA.trans (ENNReal.ofReal_le_ofReal bound)
  have hsub : {w | ¬ ∃ rows,
        mcJobs chk conf (fun c n ds => sampleLoop SpinChain.metropolis_update per n obs ds c) (mcRand zj zh w) = .ok rows ∧
        rows.flatten.length = conf.mc_points ∧ |(rows.flatten.map pick).sum / rows.flatten.length - a| < δ}
      ≤ᵐ[mcLaw L per l] {w | ENNReal.ofReal (δ ^ 2) ≤ ENNReal.ofReal ((A w - a) ^ 2)} := by
    filter_upwards [aA] with w hw hnot
    obtain ⟨rows, r1, r2, r3⟩ := hw
    show ENNReal.ofReal (δ ^ 2) ≤ ENNReal.ofReal ((A w - a) ^ 2)
    refine ENNReal.ofReal_le_ofReal ?_
    rw [← sq_abs (A w - a)]
    refine pow_le_pow_left₀ hδ.le ?_ 2
    by_contra hlt
    exact hnot ⟨rows, r1, r3.trans s4, by rw [r2]; exact not_le.1 hlt⟩
  refine (measure_mono_ae hsub).trans ?_
  have cheb := mul_meas_ge_le_lintegral₀ (μ := mcLaw L per l) (f := fun w => ENNReal.ofReal ((A w - a) ^ 2))
    (((mA.sub_const a).pow_const 2).ennreal_ofReal).aemeasurable (ENNReal.ofReal (δ ^ 2))
  have h3 := cheb.trans h'
  rw [mul_comm p, ENNReal.ofReal_mul d2.le] at h3
  exact (ENNReal.mul_le_mul_iff_right (by simp [hδ.ne']) ENNReal.ofReal_ne_top).1 h3

/-! ### Sizes of the columns -/

theorem S_meas (c : SpinChain ℝ) (i : ℕ) : Measurable fun v : Fin L → V3 ℝ => S (withSpins c v) i := by
  by_cases hi : i < L
  · have e : ∀ v : Fin L → V3 ℝ, S (withSpins c v) i = v ⟨i, hi⟩ := fun v => by
      rw [S_fld]
      unfold fld
      rw [dif_pos hi]
    simp only [e]
    exact measurable_pi_apply _
  · have e : ∀ v : Fin L → V3 ℝ, S (withSpins c v) i = fld v i := fun v => by rw [S_fld]
    simp only [e]
    unfold fld
    simp only [dif_neg hi]
    exact measurable_const

theorem S_len (c : SpinChain ℝ) {v : Fin L → V3 ℝ} (hv : ∀ i, len (v i) = 1) {i : ℕ} (hi : i < L) : len (S (withSpins c v) i) = 1 := by
  rw [S_withSpins, dif_pos hi]
  exact hv _

/-- the energy per site of a ring of some of the spins -/
theorem part_bounded (c : SpinChain ℝ) {n : ℕ} (hn : 1 ≤ n) (hnL : n ≤ L) {B : ℕ → V3 ℝ} {K : ℝ}
    (hK : ∀ i < n, len (J c i) + len (B i) ≤ K) :
    BoundedBy c L K fun x => ringEnergy n (S x) (J c) B / n := by
  have n0 : (0 : ℝ) < n := by exact_mod_cast hn
  constructor
  · unfold ringEnergy
    refine (Finset.measurable_sum _ fun i _ => ?_).div_const _
    exact (meas_dot (S_meas c i) (meas_had measurable_const (S_meas c _))).neg.add (meas_dot measurable_const (S_meas c i))
  · intro v hv
    rw [abs_div, abs_of_pos n0, div_le_iff₀ n0]
    unfold ringEnergy
    have e : K * (n : ℝ) = ∑ _i ∈ range n, K := by simp [mul_comm]
    rw [e]
    refine (abs_sum_le_sum_abs _ _).trans (sum_le_sum fun i hi => ?_)
    have hi := mem_range.1 hi
    refine le_trans ?_ (hK i hi)
    have h1 := abs_dot_le_len (S (withSpins c v) i) (had (J c i) (S (withSpins c v) ((i + 1) % n)))
    have h2 := abs_dot_le_len (B i) (S (withSpins c v) i)
    have h3 := len_had_le (J c i) (S (withSpins c v) ((i + 1) % n))
    rw [S_len c hv ((Nat.mod_lt _ (by omega)).trans_le hnL)] at h3
    rw [S_len c hv (hi.trans_le hnL)] at h1 h2
    refine (abs_add_le _ _).trans ?_
    rw [abs_neg]
    linarith

theorem comp_bounded (c : SpinChain ℝ) {i : ℕ} (hi : i < L) :
    BoundedBy c L 1 (fun x => (S x i).x) ∧ BoundedBy c L 1 (fun x => (S x i).y) ∧ BoundedBy c L 1 (fun x => (S x i).z) :=
  ⟨⟨measurable_x.comp (S_meas c i), fun v hv => (comp_le (S_len c hv hi)).1⟩,
    ⟨measurable_y.comp (S_meas c i), fun v hv => (comp_le (S_len c hv hi)).2.1⟩,
    ⟨measurable_z.comp (S_meas c i), fun v hv => (comp_le (S_len c hv hi)).2.2⟩⟩

theorem mean_bounded {C : ℝ} {f : ℕ → SpinChain ℝ → ℝ} {n : ℕ} (hn : 1 ≤ n) (hf : ∀ i < n, BoundedBy c L C (f i)) :
    BoundedBy c L C fun x => (∑ i ∈ range n, f i x) / n := by
  have n0 : (0 : ℝ) < n := by exact_mod_cast hn
  obtain ⟨h1, h2⟩ := bounded_sum n hf
  refine ⟨h1.div_const _, fun v hv => ?_⟩
  rw [abs_div, abs_of_pos n0, div_le_iff₀ n0, mul_comm]
  exact h2 v hv

/-- every column of `mc_live.dat` is a bounded observable -/
theorem column_bounded (c : SpinChain ℝ) (hs : 1 ≤ s) (hsL : s ≤ L) {K : ℝ} (hK : ∀ i < L, len (J c i) + len (H0 c i) ≤ K)
    {k : ℕ} (hk : k < 11) :
    BoundedBy c L (columnSize K (len (drive c.vars c.t)) k) fun x => (mcColumns L s x).getD k 0 := by
  have h0 : BoundedBy c L (K + len (drive c.vars c.t)) fun x => ringEnergy L (S x) (J c) (B c s c.t) / L :=
    part_bounded c (by omega) le_rfl fun i hi => by
      have q := hK i hi
      have d0 : 0 ≤ len (drive c.vars c.t) := Real.sqrt_nonneg _
      unfold B
      split_ifs
      · have := len_add_le (H0 c i) (drive c.vars c.t)
        linarith
      · linarith
  have h1 : BoundedBy c L K fun x => ringEnergy s (S x) (J c) (H0 c) / s :=
    part_bounded c hs hsL fun i hi => hK i (by omega)
  have q1 := fun i (hi : i < L) => (comp_bounded c hi).1
  have q2 := fun i (hi : i < L) => (comp_bounded c hi).2.1
  have q3 := fun i (hi : i < L) => (comp_bounded c hi).2.2
  interval_cases k
  · exact ⟨h0.meas, h0.bound⟩
  · exact ⟨h1.meas, h1.bound⟩
  · exact mean_bounded hs fun i hi => q1 i (by omega)
  · exact mean_bounded hs fun i hi => q2 i (by omega)
  · exact mean_bounded hs fun i hi => q3 i (by omega)
  · exact q1 _ (by omega)
  · exact q2 _ (by omega)
  · exact q3 _ (by omega)
  · exact q1 _ (by omega)
  · exact q2 _ (by omega)
  · exact q3 _ (by omega)

/-- every entry of the profile is a bounded observable -/
theorem profile_bounded (c : SpinChain ℝ) {K : ℝ} (hK : ∀ i < L, len (J c i) + len (H0 c i) ≤ K) {i : ℕ} (hi : i < L)
    {k : ℕ} (hk : k < 4) : BoundedBy c L (profileSize K k) fun x => (profileColumns (siteMsg x L i)).getD k 0 := by
  have hl : left L i < L := left_lt (by omega)
  have hr : right L i < L := right_lt' (by omega)
  interval_cases k
  · show BoundedBy c L K fun x =>
      -(dot (S x (left L i)) (had (J x (left L i)) (S x i)) + dot (S x i) (had (J x i) (S x (right L i)))) / 2
    constructor
    · show Measurable fun v : Fin L → V3 ℝ => -(dot (S (withSpins c v) (left L i)) (had (J c (left L i)) (S (withSpins c v) i))
        + dot (S (withSpins c v) i) (had (J c i) (S (withSpins c v) (right L i)))) / 2
      exact ((meas_dot (S_meas c _) (meas_had measurable_const (S_meas c _))).add
        (meas_dot (S_meas c _) (meas_had measurable_const (S_meas c _)))).neg.div_const _
    · intro v hv
      show |-(dot (S (withSpins c v) (left L i)) (had (J c (left L i)) (S (withSpins c v) i))
        + dot (S (withSpins c v) i) (had (J c i) (S (withSpins c v) (right L i)))) / 2| ≤ K
      have a1 := abs_dot_le_len (S (withSpins c v) (left L i)) (had (J c (left L i)) (S (withSpins c v) i))
      have a2 := abs_dot_le_len (S (withSpins c v) i) (had (J c i) (S (withSpins c v) (right L i)))
      have b1 := len_had_le (J c (left L i)) (S (withSpins c v) i)
      have b2 := len_had_le (J c i) (S (withSpins c v) (right L i))
      rw [S_len c hv hi] at b1 a2
      rw [S_len c hv hl] at a1
      rw [S_len c hv hr] at b2
      have k1 := hK _ hl
      have k2 := hK _ hi
      have n1 : 0 ≤ len (H0 c (left L i)) := Real.sqrt_nonneg _
      have n2 : 0 ≤ len (H0 c i) := Real.sqrt_nonneg _
      rw [abs_div, abs_neg, abs_of_pos (show (0 : ℝ) < 2 by norm_num), div_le_iff₀ (by norm_num)]
      refine (abs_add_le _ _).trans ?_
      linarith
  · exact (comp_bounded c hi).1
  · exact (comp_bounded c hi).2.1
  · exact (comp_bounded c hi).2.2

/-! ### The runs -/

theorem new_facts (v : ValidConf conf L s) {num : ℕ} {u0 zj zh : ℕ → ℝ} (hc : SpinChain.new conf num u0 zj zh = .ok c) :
    WF c L s ∧ c.t = -conf.trel ∧ c.vars = conf := by
  obtain ⟨c', h1, h2, h3, h4, -⟩ := valid_new v num u0 zj zh
  rw [hc] at h1
  cases h1
  exact ⟨h2, h3, h4⟩

/-- C133: the columns of `run_mc` averaged over its rows. -/
theorem C133_run_mc (chk : Bool) (conf : Config ℝ) (L s : ℕ) (v : ValidConf conf L s) (hb : 0 < conf.beta) (hs : 1 ≤ s) (hsL : s ≤ L)
    (hL : 2 ≤ L) (ht : 1 ≤ conf.threads) (hp : 1 ≤ conf.mc_points)
    (hbig : conf.mc_points < 2 ^ 31 ∨ chk = false ∧ conf.mc_points < 2 ^ 32) (l : List ℕ)
    (hsplit : mcSplit chk conf.threads conf.mc_points = .ok l) (u0 zj zh : ℕ → ℕ → ℝ) (c : ℕ → SpinChain ℝ)
    (hc : ∀ i < l.length, SpinChain.new conf i (u0 i) (zj i) (zh i) = .ok (c i)) (K D : ℝ)
    (hK : ∀ i < l.length, ∀ k < L, len (J (c i) k) + len (H0 (c i) k) ≤ K) (hD : D = len (drive conf (-conf.trel)))
    (k : ℕ) (hk : k < 11) (δ p : ℝ) (hδ : 0 < δ) (hp0 : 0 < p) (hp1 : p ≤ 1) (hδC : δ ≤ columnSize K D k)
    (hn : conf.threads * (columnSize K D k ^ 2 * samplesWorth conf.beta K L 1000000 *
      (12 + 8 * ((conf.beta / 2 + conf.beta * K) * L))) / (p * δ ^ 2) ≤ conf.mc_points) :
    mcLaw L 1000000 l {w | ¬ ∃ rows, run_mc chk conf (mcRand zj zh w) = .ok rows ∧ rows.flatten.length = conf.mc_points ∧
        |columnMean k rows - shareMean l fun i => thermalMean (c i) L (wholeEnergy L) fun x => (mcColumns L s x).getD k 0| < δ}
      ≤ ENNReal.ofReal p := by
  have e : ∀ r, run_mc chk conf r
      = mcJobs chk conf (fun c n ds => sampleLoop SpinChain.metropolis_update 1000000 n mcRow ds c) r := fun r => by
    unfold run_mc mcWorker
    rw [million_eq]
  simp only [e]
  refine mc_close v hb ht hp hbig hsplit hc hL hK (fun c w => mcRow_eq c w hs hsL) (fun row => row.getD k 0) (fun i hi => ?_)
    (by norm_num) hδ hp0 hp1 hδC hn
  obtain ⟨-, f1, f2⟩ := new_facts v (hc i hi)
  have := column_bounded (c i) hs hsL (hK i hi) hk
  rw [f1, f2, ← hD] at this
  exact this

/-- without disorder chains differ in their spins and log files only -/
theorem new_plain (v : ValidConf conf L s) (hj : conf.jvar = 0) (hv : conf.hvar = 0) {n n' : ℕ} {u u' zj zj' zh zh' : ℕ → ℝ}
    {c c' : SpinChain ℝ} (hc : SpinChain.new conf n u zj zh = .ok c) (hc' : SpinChain.new conf n' u' zj' zh' = .ok c') :
    ∃ x, ∀ q : Fin L → V3 ℝ, withSpins c q = { withSpins c' q with file := x } := by
  obtain ⟨sp, hsp, hlen⟩ := newSpins_ok conf.beta u L
  obtain ⟨sp', hsp', hlen'⟩ := newSpins_ok conf.beta u' L
  obtain ⟨f0, f1, f2, fr, hf⟩ := three_le v.hfield
  obtain ⟨h0, h1, h2, hr, hh⟩ := three_le v.hs
  have a := new_eq v.hsize v.L_lt hf hh v.jvar v.hvar n u zj zh hsp
  have b := new_eq v.hsize v.L_lt hf hh v.jvar v.hvar n' u' zj' zh' hsp'
  have e1 : coupF conf.lambda conf.jvar zj = coupF conf.lambda conf.jvar zj' := by
    funext x
    simp only [coupF, hj, zero_mul]
  have e2 : fieldN f0 f1 f2 h0 h1 h2 conf.hvar conf.ssize zh = fieldN f0 f1 f2 h0 h1 h2 conf.hvar conf.ssize zh' := by
    funext x
    simp only [fieldN, hv, zero_mul]
  rw [hc, e1, e2] at a
  rw [hc'] at b
  cases a
  cases b
  exact ⟨_, fun q => rfl⟩

theorem share_const {l : List ℕ} (hl : l.sum ≠ 0) {m : ℕ → ℝ} {a : ℝ} (h : ∀ i < l.length, m i = a) : shareMean l m = a := by
  unfold shareMean
  have e : ∑ i : Fin l.length, (l.get i : ℝ) * m i = (l.sum : ℝ) * a := by
    rw [← sum_fin_list, Finset.sum_mul]
    exact Finset.sum_congr rfl fun i _ => by rw [h i i.2]
  rw [e, mul_div_cancel_left₀]
  exact_mod_cast hl

/-- C133: without disorder every column of `run_mc`, averaged over the rows, is the thermal mean of one chain. -/
theorem C133_columns (chk : Bool) (conf : Config ℝ) (L s : ℕ) (v : ValidConf conf L s) (hb : 0 < conf.beta) (hj : conf.jvar = 0)
    (hv : conf.hvar = 0) (hs : 1 ≤ s) (hsL : s ≤ L) (hL : 2 ≤ L) (ht : 1 ≤ conf.threads) (hp : 1 ≤ conf.mc_points)
    (hbig : conf.mc_points < 2 ^ 31 ∨ chk = false ∧ conf.mc_points < 2 ^ 32) (l : List ℕ)
    (hsplit : mcSplit chk conf.threads conf.mc_points = .ok l) (u0 zj0 zh0 : ℕ → ℝ) (c : SpinChain ℝ)
    (hc : SpinChain.new conf 0 u0 zj0 zh0 = .ok c) (zj zh : ℕ → ℕ → ℝ) (K D : ℝ)
    (hK : ∀ k < L, len (J c k) + len (H0 c k) ≤ K) (hD : D = len (drive conf (-conf.trel)))
    (k : ℕ) (hk : k < 11) (δ p : ℝ) (hδ : 0 < δ) (hp0 : 0 < p) (hp1 : p ≤ 1) (hδC : δ ≤ columnSize K D k)
    (hn : conf.threads * (columnSize K D k ^ 2 * samplesWorth conf.beta K L 1000000 *
      (12 + 8 * ((conf.beta / 2 + conf.beta * K) * L))) / (p * δ ^ 2) ≤ conf.mc_points) :
    mcLaw L 1000000 l {w | ¬ ∃ rows, run_mc chk conf (mcRand zj zh w) = .ok rows ∧ rows.flatten.length = conf.mc_points ∧
        |columnMean k rows - thermalMean c L (wholeEnergy L) fun x => (mcColumns L s x).getD k 0| < δ}
      ≤ ENNReal.ofReal p := by
  have chains : ∀ i, ∃ c', SpinChain.new conf i u0 (zj i) (zh i) = .ok c' := fun i => by
    obtain ⟨c', h, -⟩ := valid_new v i u0 (zj i) (zh i)
    exact ⟨c', h⟩
  choose c' hc' using chains
  have same := fun i => new_plain v hj hv (hc' i) hc
  obtain ⟨l', s1, s2, s3, s4⟩ := C51_split chk conf.threads conf.mc_points ht hp hbig
  rw [hsplit] at s1
  cases s1
  have sh : (shareMean l fun i => thermalMean (c' i) L (wholeEnergy L) fun x => (mcColumns L s x).getD k 0)
      = thermalMean c L (wholeEnergy L) fun x => (mcColumns L s x).getD k 0 := by
    refine share_const (by omega) fun i _ => ?_
    obtain ⟨x, hx⟩ := same i
    unfold thermalMean
    have eb : (c' i).vars.beta = c.vars.beta := by rw [(new_facts v (hc' i)).2.2, (new_facts v hc).2.2]
    simp only [hx, eb]
    rfl
  have := C133_run_mc chk conf L s v hb hs hsL hL ht hp hbig l hsplit (fun _ => u0) zj zh c' (fun i _ => hc' i) K D (fun i _ k hk => by
    obtain ⟨x, hx⟩ := same i
    have q := hx fun _ => zero
    have e1 : J (c' i) k = J c k := by
      have := congrArg (fun y : SpinChain ℝ => J y k) q
      exact this
    have e2 : H0 (c' i) k = H0 c k := by
      have := congrArg (fun y : SpinChain ℝ => H0 y k) q
      exact this
    rw [e1, e2]
    exact hK k hk) hD k hk δ p hδ hp0 hp1 hδC hn
  rw [sh] at this
  exact this

/-- C133: the rows of the profile that `run_mc_profile` writes, whatever the order in which the messages of the workers arrive. -/
theorem C133_profile (chk : Bool) (conf : Config ℝ) (L s : ℕ) (v : ValidConf conf L s) (hb : 0 < conf.beta)
    (hL : 2 ≤ L) (ht : 1 ≤ conf.threads) (hp : 1 ≤ conf.mc_points)
    (hbig : conf.mc_points < 2 ^ 31 ∨ chk = false ∧ conf.mc_points < 2 ^ 32) (l : List ℕ)
    (hsplit : mcSplit chk conf.threads conf.mc_points = .ok l) (u0 zj zh : ℕ → ℕ → ℝ) (c : ℕ → SpinChain ℝ)
    (hc : ∀ i < l.length, SpinChain.new conf i (u0 i) (zj i) (zh i) = .ok (c i)) (K : ℝ)
    (hK : ∀ i < l.length, ∀ k < L, len (J (c i) k) + len (H0 (c i) k) ≤ K)
    (j : ℕ) (hj : j < L) (k : ℕ) (hk : k < 4) (δ p : ℝ) (hδ : 0 < δ) (hp0 : 0 < p) (hp1 : p ≤ 1) (hδC : δ ≤ profileSize K k)
    (hn : conf.threads * (profileSize K k ^ 2 * samplesWorth conf.beta K L 1000000 *
      (12 + 8 * ((conf.beta / 2 + conf.beta * K) * L))) / (p * δ ^ 2) ≤ conf.mc_points) :
    mcLaw L 1000000 l {w | ¬ ∃ msgs, run_mc_profile chk conf (mcRand zj zh w) = .ok msgs ∧
        ∀ recv, recv.Perm msgs.flatten.flatten → ∃ rows row, profileWriter L conf.mc_points recv = .ok (some rows) ∧
          rows[j]? = some row ∧ row.1 = j ∧
          |(profileColumns row).getD k 0
            - shareMean l fun i => thermalMean (c i) L (wholeEnergy L) fun x => (profileColumns (siteMsg x L j)).getD k 0| < δ}
      ≤ ENNReal.ofReal p := by
  have e : ∀ r, run_mc_profile chk conf r
      = mcJobs chk conf (fun c n ds => sampleLoop SpinChain.metropolis_update 1000000 n profileMsgs ds c) r := fun r => by
    unfold run_mc_profile mcProfileWorker
    rw [million_eq]
  have main := mc_close v hb ht hp hbig hsplit hc hL hK (fun c w => (C76_profile c w).1)
    (fun m => (profileColumns (m.getD j (0, 0, zero))).getD k 0) (C := profileSize K k) (fun i hi => by
      have := profile_bounded (c i) (hK i hi) hj hk
      simpa only [List.getD_eq_getElem?_getD, List.getElem?_map, List.getElem?_range hj, Option.map_some, Option.getD_some] using this)
    (per := 1000000) (by norm_num) hδ hp0 hp1 hδC hn
  refine (measure_mono ?_).trans main
  intro w hw hex
  refine (show ¬ _ from hw) ?_
  obtain ⟨rows, r1, r2, r3⟩ := hex
  obtain ⟨n, pts, chain, h1, -, h2⟩ := jobs_eq .plain profileMsgs (fun c => (List.range L).map (siteMsg c L)) chk conf v ht hp hbig
    (mcRand zj zh w) (fun c w => (C76_profile c w).1)
  have conv : ∀ r, mcJobs chk conf (fun c n ds => sampleLoop SpinChain.metropolis_update 1000000 n profileMsgs ds c) r
      = mcJobs chk conf (fun c n ds => sampleLoop SpinChain.metropolis_update million n profileMsgs ds c) r := fun r => by rw [million_eq]
  have e2 : mcJobs chk conf (fun c n ds => sampleLoop SpinChain.metropolis_update 1000000 n profileMsgs ds c) (mcRand zj zh w)
      = .ok ((List.range n).map fun i => (List.range (pts i)).map fun j => (List.range L).map (siteMsg (chain i (j + 1)) L)) :=
    (conv _).trans h2
  rw [e2] at r1
  have r1 := Except.ok.inj r1
  subst r1
  refine ⟨_, by rw [e]; exact e2, ?_⟩
  intro recv hrecv
  set snaps := (List.range n).flatMap (fun i => (List.range (pts i)).map fun j => chain i (j + 1)) with hsn
  have hflat : ((List.range n).map fun i => (List.range (pts i)).map fun j => (List.range L).map (siteMsg (chain i (j + 1)) L)).flatten
      = snaps.map fun y => (List.range L).map (siteMsg y L) := by
    rw [hsn, List.map_flatMap, List.flatMap_def]
    simp only [List.map_map]
    rfl
  rw [hflat] at r2 r3 hrecv
  rw [List.length_map] at r2 r3
  have ne : snaps ≠ [] := by
    intro h
    rw [h] at r2
    simp at r2
    omega
  have out := C52_mean L (fun y i => (siteMsg y L i).2.1) (fun y i => (siteMsg y L i).2.2) snaps ne recv (by
    refine hrecv.trans (List.Perm.of_eq ?_)
    rw [← List.flatMap_def]
    rfl)
  rw [r2] at out r3
  refine ⟨_, _, out, (List.getElem?_map ..).trans (congrArg _ (List.getElem?_range hj)), rfl, ?_⟩
  · refine lt_of_eq_of_lt ?_ r3
    congr 1
    have e3 : ∀ y : SpinChain ℝ, ((List.range L).map (siteMsg y L)).getD j (0, 0, zero) = siteMsg y L j := fun y => by
      simp only [List.getD_eq_getElem?_getD, List.getElem?_map, List.getElem?_range hj, Option.map_some, Option.getD_some]
    simp only [e3]
    congr 1
    rw [List.map_map]
    have e4 : ((fun m : List (ℕ × ℝ × V3 ℝ) => (profileColumns (m.getD j (0, 0, zero))).getD k 0) ∘ fun y => (List.range L).map (siteMsg y L))
        = fun y => (profileColumns (siteMsg y L j)).getD k 0 := by
      funext y
      simp only [Function.comp, e3]
    rw [e4]
    interval_cases k <;> rfl

/-- non-vacuity: the default configuration without disorder, at a high temperature and with a million points, gives every column to a
tenth of its size with probability 99/100 -/
example : ∃ (conf : Config ℝ) (c : SpinChain ℝ) (l : List ℕ) (K D : ℝ), ValidConf conf 512 8 ∧ 0 < conf.beta ∧ conf.jvar = 0 ∧
    conf.hvar = 0 ∧ 1 ≤ conf.threads ∧ 1 ≤ conf.mc_points ∧ conf.mc_points < 2 ^ 31 ∧
    mcSplit true conf.threads conf.mc_points = .ok l ∧ SpinChain.new conf 0 (fun _ => 0) (fun _ => 0) (fun _ => 0) = .ok c ∧
    (∀ k < 512, len (J c k) + len (H0 c k) ≤ K) ∧ D = len (drive conf (-conf.trel)) ∧
    ∀ k < 11, 0 < columnSize K D k / 10 ∧
      conf.threads * (columnSize K D k ^ 2 * samplesWorth conf.beta K 512 1000000 *
        (12 + 8 * ((conf.beta / 2 + conf.beta * K) * (512 : ℕ)))) / (1 / 100 * (columnSize K D k / 10) ^ 2) ≤ conf.mc_points := by
  let conf : Config ℝ := { (Config.default : Config ℝ) with
    beta := 1 / 1000
    jvar := 0
    mc_points := 1000000 }
  have v : ValidConf conf 512 8 := by constructor <;> first | rfl | norm_num
  obtain ⟨sp, hsp, -⟩ := newSpins_ok conf.beta (fun _ => (0 : ℝ)) 512
  have hc := new_eq v.hsize v.L_lt (show conf.hfield = 0.0 :: 0.0 :: 0.0 :: [] from rfl) (show conf.hs = 0.0 :: 0.0 :: 0.0 :: [] from rfl)
    v.jvar v.hvar 0 (fun _ => 0) (fun _ => 0) (fun _ => 0) hsp
  obtain ⟨l, h1, -⟩ := C51_split true 2 1000000 (by norm_num) (by norm_num) (Or.inl (by norm_num))
  have D0 : 0 ≤ len (drive conf (-conf.trel)) := Real.sqrt_nonneg _
  refine ⟨conf, _, l, 2, _, v, by norm_num [conf], rfl, by norm_num [conf, Config.default], by norm_num [conf, Config.default], by norm_num [conf],
    by norm_num [conf], h1, hc, fun k hk => ?_, rfl, fun k _ => ?_⟩
  · have e1 : len (coupF conf.lambda conf.jvar (fun _ => (0 : ℝ)) k) ≤ 2 := by
      unfold len
      rw [Real.sqrt_le_left (by norm_num)]
      norm_num [coupF, dot, conf, Config.default]
    have e2 : len (fieldN (0.0 : ℝ) 0.0 0.0 0.0 0.0 0.0 conf.hvar conf.ssize (fun _ => (0 : ℝ)) k) = 0 := by
      unfold len
      rw [Real.sqrt_eq_zero']
      unfold fieldN
      split_ifs <;> norm_num [dot, conf, Config.default]
    have i1 : ((List.range 512).map (coupF conf.lambda conf.jvar (fun _ => (0 : ℝ))))[k]? = some (coupF conf.lambda conf.jvar (fun _ => (0 : ℝ)) k) := by
      rw [List.getElem?_map, List.getElem?_range hk, Option.map_some]
    have i2 : ((List.range 512).map (fieldN (0.0 : ℝ) 0.0 0.0 0.0 0.0 0.0 conf.hvar conf.ssize (fun _ => (0 : ℝ))))[k]?
        = some (fieldN (0.0 : ℝ) 0.0 0.0 0.0 0.0 0.0 conf.hvar conf.ssize (fun _ => (0 : ℝ)) k) := by
      rw [List.getElem?_map, List.getElem?_range hk, Option.map_some]
    unfold J H0
    dsimp only
    rw [i1, i2]
    show len (coupF conf.lambda conf.jvar (fun _ => (0 : ℝ)) k) + len (fieldN (0.0 : ℝ) 0.0 0.0 0.0 0.0 0.0 conf.hvar conf.ssize (fun _ => (0 : ℝ)) k) ≤ 2
    rw [e2]
    linarith
  · set C := columnSize 2 (len (drive conf (-conf.trel))) k with hC
    have C0 : 0 < C := by
      rw [hC]
      unfold columnSize
      split_ifs <;> linarith
    refine ⟨by positivity, ?_⟩
    have t : (conf.threads : ℝ) = 2 := by norm_num [conf, Config.default]
    have b : conf.beta = 1 / 1000 := rfl
    have m : (conf.mc_points : ℝ) = 1000000 := by norm_num [conf]
    rw [t, b, m]
    have hW : samplesWorth (1 / 1000) 2 512 1000000 ≤ 1 + 768 * 2.7182818286 * 512 / 1000000 := by
      unfold samplesWorth
      have : Real.exp (26 * (|(1 / 1000 : ℝ)| * 2)) ≤ 2.7182818286 := by
        refine le_trans (Real.exp_le_exp.2 ?_) Real.exp_one_lt_d9.le
        rw [abs_of_pos (by norm_num)]
        norm_num
      push_cast
      gcongr
    rw [div_le_iff₀ (by positivity)]
    have e : 2 * (C ^ 2 * samplesWorth (1 / 1000) 2 512 1000000 * (12 + 8 * ((1 / 1000 / 2 + 1 / 1000 * 2) * ((512 : ℕ) : ℝ))))
        = C ^ 2 * (samplesWorth (1 / 1000) 2 512 1000000 * (2 * (12 + 8 * ((1 / 1000 / 2 + 1 / 1000 * 2) * 512)))) := by
      push_cast
      ring
    rw [e]
    have e' : 1000000 * (1 / 100 * (C / 10) ^ 2) = C ^ 2 * 100 := by ring
    rw [e']
    refine mul_le_mul_of_nonneg_left ?_ (by positivity)
    norm_num at hW ⊢
    linarith

end

end Verif.Props
