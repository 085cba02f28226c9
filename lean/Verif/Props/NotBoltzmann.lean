/-
Property C107, negative part: the state in which `metropolis_update_magnus` (/repo/src/spinchain.rs:939-1069)
settles is not the Boltzmann distribution of the Magnus energy.
-/
import Verif.Lemmas.Dirichlet
import Verif.Lemmas.Liouville
import Verif.Props.Stationary

namespace Verif.Props

open Spec Markov Function
open Finset hiding expect
open MeasureTheory
open scoped ENNReal

/-! ### Stationarity forces every move to respect the energy -/

/-- Site `i` moves by the energy `Ei i`.  If the Boltzmann distribution of `E` is stationary and every site is of one
of three kinds - its energy differs from `E` by `h`, or it moves by `E`, or `h` does not depend on it - then
`h` does not depend on the sites of the first kind either. -/
theorem stationary_forces {c : SpinChain ℝ} {L : ℕ} {upd : SpinChain ℝ → Draw ℝ → R (SpinChain ℝ)} (hL : 1 ≤ L)
    (hb : 0 ≤ c.vars.beta) {Ei : Fin L → (Fin L → V3 ℝ) → ℝ} {E : SpinChain ℝ → ℝ} {h : (Fin L → V3 ℝ) → ℝ}
    (hupd : ∀ (v : Fin L → V3 ℝ) (i : Fin L) (u1 u2 u : ℝ), 0 ≤ u2 → u2 < 1 →
      upd (withSpins c v) ⟨i, u1, u2, u⟩ = .ok (metropolis c.vars.beta
        (Ei i (update v i (spherePoint u1 u2)) - Ei i v) u (withSpins c v)
        (withSpins c (update v i (spherePoint u1 u2)))))
    (tEi : ∀ i, Tame (Ei i)) (tE : Tame fun v : Fin L → V3 ℝ => E (withSpins c v)) (th : Tame h)
    (kinds : ∀ i, (∀ v, c.vars.beta * E (withSpins c v) = c.vars.beta * Ei i v + h v) ∨
      (∀ v, Ei i v = E (withSpins c v)) ∨ (∀ v x, h (update v i x) = h v))
    (hst : Stationary upd c L (boltzmannMeasure c L E)) (i : Fin L)
    (hi : ∀ v, c.vars.beta * E (withSpins c v) = c.vars.beta * Ei i v + h v) :
    ∀ᵐ v ∂(Measure.pi fun _ : Fin L => sphereMeasure), ∀ᵐ x ∂sphereMeasure, h (update v i x) = h v := by
  set β := c.vars.beta with hβ
  set μ := Measure.pi fun _ : Fin L => sphereMeasure with hμ
  let Ev : (Fin L → V3 ℝ) → ℝ := fun v => E (withSpins c v)
  let g : (Fin L → V3 ℝ) → ℝ≥0∞ := fun v => ENNReal.ofReal (Real.exp (h v))
  have mg : Measurable g := (Real.measurable_exp.comp th.meas).ennreal_ofReal
  obtain ⟨f, hf⟩ := Settle.lift c g
  have hfo : Observable c L f := by
    unfold Observable
    simp only [hf]
    exact mg
  have mdE : ∀ i, Measurable fun p : (Fin L → V3 ℝ) × V3 ℝ => Ei i (update p.1 i p.2) - Ei i p.1 :=
    fun i => ((tEi i).meas.comp measurable_update').sub ((tEi i).meas.comp measurable_fst)
  have mQ : ∀ i, Measurable (Qs sphereMeasure β (Ei i) i g) := fun i => measurable_Qs (tEi i).meas i mg
  have hone : ∀ v, expect upd L f 1 (withSpins c v) = (∑ i, Qs sphereMeasure β (Ei i) i g v) / L := by
    intro v
    rw [Settle.expect_eq (dE := fun v i x => Ei i (update v i x) - Ei i v) hupd mdE hb hfo 1 v]
    simp only [hf]
    exact Settle.T_mv (dE := fun v i x => Ei i (update v i x) - Ei i v) mdE hb mg v
  have ho1 : Observable c L (expect upd L f 1) := by
    unfold Observable
    simp only [hone]
    exact (Finset.measurable_sum _ fun i _ => mQ i).div_const _
  obtain ⟨hZ0, hZt⟩ := boltzmann_norm hb tE
  have hs := hst.step f hfo
  rw [lintegral_boltzmann tE.meas hfo, lintegral_boltzmann tE.meas ho1] at hs
  unfold boltzmannMean at hs
  have hs2 : boltzmannSum c L E (expect upd L f 1) = boltzmannSum c L E f := by
    have := congrArg (· * boltzmannSum c L E fun _ => 1) hs
    simpa only [ENNReal.div_mul_cancel hZ0 hZt] using this
  have hsum : ∀ q : SpinChain ℝ → ℝ≥0∞, boltzmannSum c L E q = ∫⁻ v, wt β Ev v * q (withSpins c v) ∂μ := fun q => rfl
  rw [hsum, hsum] at hs2
  simp only [hone, hf] at hs2
  have hL0 : (L : ℝ≥0∞) ≠ 0 := by simp; omega
  have hLt : (L : ℝ≥0∞) ≠ ⊤ := ENNReal.natCast_ne_top L
  -- the sum over the sites
  have mWQ : ∀ j, Measurable fun v => wt β Ev v * Qs sphereMeasure β (Ei j) j g v :=
    fun j => (measurable_wt tE.meas).mul (mQ j)
  have hs3 : ∑ j, ∫⁻ v, wt β Ev v * Qs sphereMeasure β (Ei j) j g v ∂μ = ∑ _j : Fin L, ∫⁻ v, wt β Ev v * g v ∂μ := by
    rw [Finset.sum_const, Finset.card_univ, Fintype.card_fin, nsmul_eq_mul, ← hs2,
      ← lintegral_finsetSum _ fun j _ => mWQ j, ← lintegral_const_mul' _ _ hLt]
    refine lintegral_congr fun v => ?_
    rw [← Finset.mul_sum, mul_left_comm, ENNReal.mul_div_cancel hL0 hLt]
  obtain ⟨D, hD⟩ := tE.bound
  have fin : ∫⁻ v, wt β Ev v * g v ∂μ ≠ ⊤ := by
    obtain ⟨H, hH⟩ := th.bound
    refine ne_top_of_le_ne_top (b := ENNReal.ofReal (Real.exp (β * D)) * ENNReal.ofReal (Real.exp H)) (by finiteness) ?_
    have : ∫⁻ v, wt β Ev v * g v ∂μ ≤ ∫⁻ _, ENNReal.ofReal (Real.exp (β * D)) * ENNReal.ofReal (Real.exp H) ∂μ := by
      refine lintegral_mono_ae ((good_ae sphere_ae).mono fun v hv => ?_)
      refine mul_le_mul' (ENNReal.ofReal_le_ofReal (Real.exp_le_exp.2 ?_))
        (ENNReal.ofReal_le_ofReal (Real.exp_le_exp.2 ((le_abs_self _).trans (hH v hv))))
      have := mul_le_mul_of_nonneg_left (abs_le.1 (hD v hv)).1 hb
      show -(β * E (withSpins c v)) ≤ _
      linarith
    simpa using this
  choose Dj hDj using fun j => (tEi j).bound
  have dir := fun (j : Fin L) (hj : ∀ v, β * E (withSpins c v) = β * Ei j v + h v) =>
    dirichlet (E := Ev) (h := h) sphere_ae (tEi j).meas th.meas hj (D := β * Dj j) (fun v hv => by
      rw [abs_mul, abs_of_nonneg hb]
      exact mul_le_mul_of_nonneg_left (hDj j v hv) hb) j
  have each : ∀ j, ∫⁻ v, wt β Ev v * g v ∂μ ≤ ∫⁻ v, wt β Ev v * Qs sphereMeasure β (Ei j) j g v ∂μ := by
    intro j
    rcases kinds j with hj | hj | hj
    · exact (dir j hj).1
    · have : Ei j = Ev := funext hj
      rw [this]
      exact (stationary_Qs tE.meas j mg).ge
    · refine lintegral_mono fun v => mul_le_mul_right ?_ _
      have hg : ∀ x, g (update v j x) = g v := fun x => by
        show ENNReal.ofReal (Real.exp (h (update v j x))) = _
        rw [hj]
      unfold Qs
      simp only [hg, ← add_mul, add_tsub_cancel_of_le (acc_le_one _ _)]
      simp
  refine (dir i hi).2 ?_
  rw [← Finset.add_sum_erase _ _ (Finset.mem_univ i), ← Finset.add_sum_erase _ (fun _ => ∫⁻ v, wt β Ev v * g v ∂μ)
    (Finset.mem_univ i)] at hs3
  have hrest : ∑ _j ∈ Finset.univ.erase i, ∫⁻ v, wt β Ev v * g v ∂μ
      ≤ ∑ j ∈ Finset.univ.erase i, ∫⁻ v, wt β Ev v * Qs sphereMeasure β (Ei j) j g v ∂μ :=
    Finset.sum_le_sum fun j _ => each j
  have hrt : ∑ _j ∈ Finset.univ.erase i, ∫⁻ v, wt β Ev v * g v ∂μ ≠ ⊤ := ENNReal.sum_ne_top.2 fun _ _ => fin
  refine (ENNReal.add_le_add_iff_right hrt).1 ?_
  exact (add_le_add_right hrest _).trans hs3.le

/-! ### Null sets of directions -/

/-- almost no direction lies on a given circle about an axis in the `xz` plane -/
theorem circle_null {a b : ℝ} (h : a ≠ 0 ∨ b ≠ 0) (k : ℝ) : sphereMeasure {x | x.z * a - x.x * b = k} = 0 := by
  have hr : 0 < a ^ 2 + b ^ 2 := by
    rcases h with h | h
    · have := sq_nonneg b; positivity
    · have := sq_nonneg a; positivity
  set r := √(a ^ 2 + b ^ 2) with hrd
  have r0 : 0 < r := Real.sqrt_pos.2 hr
  have r2 : r ^ 2 = a ^ 2 + b ^ 2 := Real.sq_sqrt hr.le
  let O : V3 ℝ → V3 ℝ := fun x => ⟨(x.x * a + x.z * b) / r, x.y, (x.z * a - x.x * b) / r⟩
  have hO : Orthogonal O := by
    refine ⟨fun u v => ?_, fun k u => ?_, fun u => ?_⟩
    · ext <;> simp only [O, Spec.add] <;> ring
    · ext <;> simp only [O, Spec.smul] <;> ring
    · unfold len dot
      congr 1
      simp only [O]
      field_simp
      rw [r2]
      ring
  have hP : MeasurableSet {x : V3 ℝ | x.z = k / r} := measurable_z (measurableSet_singleton _)
  have hm : MeasurableSet {x : V3 ℝ | (O x).z = k / r} := hO.measurable hP
  have e := sphere_invariant hO (measurable_one.indicator hP)
  rw [lintegral_indicator_one hP, height_null] at e
  have hset : {x : V3 ℝ | x.z * a - x.x * b = k} = {x | (O x).z = k / r} := by
    ext x
    show x.z * a - x.x * b = k ↔ (x.z * a - x.x * b) / r = k / r
    rw [div_left_inj' r0.ne']
  rw [hset, ← lintegral_indicator_one hm]
  exact e

/-! ### The Magnus sampler -/

section
variable {L : ℕ}

theorem tame_magTerm (c : SpinChain ℝ) (J : ℕ → V3 ℝ) (n i : ℕ) :
    Tame fun v : Fin L → V3 ℝ => magTerm n (S (withSpins c v)) J i := by
  unfold magTerm
  tame c

theorem S_update (c : SpinChain ℝ) (v : Fin L → V3 ℝ) (i : Fin L) (x : V3 ℝ) (k : ℕ) :
    S (withSpins c (update v i x)) k = if k = i then x else S (withSpins c v) k := by
  rw [S_withSpins, S_withSpins]
  by_cases hk : k < L
  · rw [dif_pos hk, dif_pos hk]
    by_cases hi : k = i
    · rw [if_pos hi]
      have : (⟨k, hk⟩ : Fin L) = i := Fin.ext hi
      rw [this, update_self]
    · rw [if_neg hi, update_of_ne (fun h => hi (congrArg Fin.val h))]
  · rw [dif_neg hk, dif_neg hk, if_neg]
    have := i.2
    omega

/-- coefficient with which the spin at site `s` enters the correction of site `i` -/
def weight (L s : ℕ) (J : ℕ → ℝ) (i : ℕ) : ℝ :=
  (if right L i = s then J i else 0) + if left L i = s then J s else 0

theorem magTerm_change (c : SpinChain ℝ) (J : ℕ → V3 ℝ) (v : Fin L → V3 ℝ) (s : Fin L) (x : V3 ℝ) {i : ℕ}
    (hi : i ≠ s) : magTerm L (S (withSpins c (update v s x))) J i - magTerm L (S (withSpins c v)) J i
      = (x.z - (v s).z) * (weight L s (fun i => (J i).z) i * (S (withSpins c v) i).x)
        - (x.x - (v s).x) * (weight L s (fun i => (J i).x) i * (S (withSpins c v) i).z) := by
  have hs : S (withSpins c v) s = v s := by rw [S_withSpins, dif_pos s.2]
  unfold magTerm weight
  rw [S_update, S_update, S_update, if_neg hi]
  by_cases h1 : right L i = s <;> by_cases h2 : left L i = s <;> simp only [h1, h2, if_true, if_false, hs] <;> ring

end

theorem magnus_in (c : SpinChain ℝ) (L s : ℕ) (d : Draw ℝ) (w : WF c L s)
    (hL : 3 ≤ L) (hs : s < L) (hi : d.site % L < s) (h2 : 0 ≤ d.u2) (h2' : d.u2 < 1) :
    c.metropolis_update_magnus d = .ok (metropolis c.vars.beta
      (magnusE L s c.vars.tau 0 (S (replace c (d.site % L) (spherePoint d.u1 d.u2))) (J c)
        - magnusE L s c.vars.tau 0 (S c) (J c)) d.u3 c
      (replace c (d.site % L) (spherePoint d.u1 d.u2))) := by
  have hiL : d.site % L < L := by omega
  have hss : asUsize (c.vars.ssize - 1) = s - 1 := by
    rw [w.ssize, show (s : ℤ) - 1 = ((s - 1 : ℕ) : ℤ) by omega, asUsize_nat]
    have := w.s_lt
    omega
  unfold SpinChain.metropolis_update_magnus
  simp only [hsize_nat w, ssize_nat w, hss, genRange_ok (by omega : 1 ≤ L), ok_bind,
    nbhd_eq w (by omega) hiL, idx_h w hiL,
    proposal_eq h2 h2'.le, hi, decide_true,
    magnusDe_in (S c) (J c) hL hs hi, S_replace w hiL]
  exact finish_eq w hiL _ _ _

theorem magnus_out (c : SpinChain ℝ) (L s : ℕ) (d : Draw ℝ) (w : WF c L s)
    (hL : 2 ≤ L) (hi : s ≤ d.site % L) (h2 : 0 ≤ d.u2) (h2' : d.u2 < 1) :
    c.metropolis_update_magnus d = .ok (metropolis c.vars.beta
      (ringEnergy L (S (replace c (d.site % L) (spherePoint d.u1 d.u2))) (J c) (fun _ => zero)
        - ringEnergy L (S c) (J c) (fun _ => zero)) d.u3 c
      (replace c (d.site % L) (spherePoint d.u1 d.u2))) := by
  have hiL : d.site % L < L := Nat.mod_lt _ (by omega)
  unfold SpinChain.metropolis_update_magnus
  simp only [hsize_nat w, ssize_nat w, genRange_ok (by omega : 1 ≤ L), ok_bind,
    nbhd_eq w (by omega) hiL, idx_h w hiL,
    proposal_eq h2 h2'.le, not_lt.2 hi, decide_false,
    magnusDe_out (S c) (J c) hL hiL, S_replace w hiL]
  exact finish_eq w hiL _ _ _

/-- The Boltzmann distribution of the first-order Magnus energy, with whatever weight `k` of the `S^z` term, is not
stationary under `metropolis_update_magnus`: by `C107_magnus` its runs converge to some other distribution. -/
theorem C107_negation (c : SpinChain ℝ) (L s : ℕ) (w : WF c L s) (hL : 3 ≤ L) (hs : 0 < s) (hsL : s < L)
    (hb : 0 < c.vars.beta) (ht : c.vars.tau ≠ 0) (hJ : (J c (s - 1)).x ≠ 0 ∨ (J c (s - 1)).z ≠ 0) (k : ℝ) :
    ¬ Stationary (fun c d => c.metropolis_update_magnus d) c L
      (boltzmannMeasure c L fun c => magnusE L s c.vars.tau k (S c) (J c)) := by
  intro hst
  set β := c.vars.beta with hβ
  have hpt : Real.pi / c.vars.tau ≠ 0 := div_ne_zero Real.pi_pos.ne' ht
  let Ei : Fin L → (Fin L → V3 ℝ) → ℝ := fun i v => if i.val < s then magnusE L s c.vars.tau 0 (S (withSpins c v)) (J c)
    else ringEnergy L (S (withSpins c v)) (J c) fun _ => zero
  have tz : Tame fun v : Fin L → V3 ℝ => ∑ i ∈ range s, (S (withSpins c v) i).z := Tame.sum fun i => (tame_S c i).2.2
  have tm : Tame fun v : Fin L → V3 ℝ => ∑ i ∈ range s, magTerm L (S (withSpins c v)) (J c) i :=
    Tame.sum fun i => tame_magTerm c (J c) L i
  have tr : Tame fun v : Fin L → V3 ℝ => ringEnergy L (S (withSpins c v)) (J c) fun _ => zero :=
    tame_ring c (J c) (fun _ => zero) L
  have hE : ∀ (k : ℝ) (v : Fin L → V3 ℝ), magnusE L s c.vars.tau k (S (withSpins c v)) (J c)
      = ringEnergy L (S (withSpins c v)) (J c) (fun _ => zero) - Real.pi / c.vars.tau
        * (k * (∑ i ∈ range s, (S (withSpins c v) i).z)
          + 2 * ∑ i ∈ range s, magTerm L (S (withSpins c v)) (J c) i) := by
    intro k v
    unfold magnusE
    rw [Finset.sum_add_distrib, Finset.mul_sum, Finset.mul_sum]
  have tE : ∀ k, Tame fun v : Fin L → V3 ℝ => magnusE L s c.vars.tau k (S (withSpins c v)) (J c) := by
    intro k
    simp only [hE]
    exact tr.sub ((Tame.const _).mul (((Tame.const _).mul tz).add ((Tame.const _).mul tm)))
  have hupd : ∀ (v : Fin L → V3 ℝ) (i : Fin L) (u1 u2 u : ℝ), 0 ≤ u2 → u2 < 1 →
      (withSpins c v).metropolis_update_magnus ⟨i, u1, u2, u⟩ = .ok (metropolis c.vars.beta
        (Ei i (update v i (spherePoint u1 u2)) - Ei i v) u (withSpins c v)
        (withSpins c (update v i (spherePoint u1 u2)))) := by
    intro v i u1 u2 u h2 h2'
    have hi := Nat.mod_eq_of_lt i.2
    have w' := withSpins_wf w v
    by_cases his : i.val < s
    · have := magnus_in (withSpins c v) L s ⟨i, u1, u2, u⟩ w' hL hsL (by rw [hi]; exact his) h2 h2'
      simp only [hi, replace_withSpins] at this
      simp only [Ei, if_pos his]
      exact this
    · have := magnus_out (withSpins c v) L s ⟨i, u1, u2, u⟩ w' (by omega) (by rw [hi]; omega) h2 h2'
      simp only [hi, replace_withSpins] at this
      simp only [Ei, if_neg his]
      exact this
  have tEi : ∀ i, Tame (Ei i) := by
    intro i
    by_cases his : i.val < s
    · simp only [Ei, if_pos his]
      exact tE 0
    · simp only [Ei, if_neg his]
      exact tr
  by_cases hk : k = 0
  · subst hk
    -- sites outside the subsystem ignore the corrections
    have key := stationary_forces (h := fun v => -(2 * β * (Real.pi / c.vars.tau))
        * ∑ i ∈ range s, magTerm L (S (withSpins c v)) (J c) i) (by omega) hb.le hupd tEi (tE 0)
      ((Tame.const _).mul tm) (fun i => by
        by_cases his : i.val < s
        · refine Or.inr (Or.inl fun v => ?_)
          simp only [Ei, if_pos his]
          rfl
        · refine Or.inl fun v => ?_
          simp only [Ei, if_neg his]
          show c.vars.beta * magnusE L s c.vars.tau 0 (S (withSpins c v)) (J c) = _
          rw [hE]
          ring) hst ⟨s, hsL⟩ (fun v => by
          simp only [Ei, if_neg (lt_irrefl s)]
          show c.vars.beta * magnusE L s c.vars.tau 0 (S (withSpins c v)) (J c) = _
          rw [hE]
          ring)
    have hne : -(2 * β * (Real.pi / c.vars.tau)) ≠ 0 := neg_ne_zero.2 (mul_ne_zero (by positivity) hpt)
    let A : (Fin L → V3 ℝ) → ℝ := fun v => ∑ i ∈ range s, weight L s (fun i => (J c i).z) i * (S (withSpins c v) i).x
    let B : (Fin L → V3 ℝ) → ℝ := fun v => ∑ i ∈ range s, weight L s (fun i => (J c i).x) i * (S (withSpins c v) i).z
    have tA : Tame A := Tame.sum fun i => (Tame.const _).mul (tame_S c i).1
    have tB : Tame B := Tame.sum fun i => (Tame.const _).mul (tame_S c i).2.2
    have hchange : ∀ (v : Fin L → V3 ℝ) (x : V3 ℝ),
        (∑ i ∈ range s, magTerm L (S (withSpins c (update v ⟨s, hsL⟩ x))) (J c) i)
          - ∑ i ∈ range s, magTerm L (S (withSpins c v)) (J c) i
          = (x.z - (v ⟨s, hsL⟩).z) * A v - (x.x - (v ⟨s, hsL⟩).x) * B v := by
      intro v x
      rw [← Finset.sum_sub_distrib, Finset.mul_sum, Finset.mul_sum, ← Finset.sum_sub_distrib]
      refine Finset.sum_congr rfl fun i hi => ?_
      have hi' : i ≠ s := (Finset.mem_range.1 hi).ne
      exact magTerm_change c (J c) v ⟨s, hsL⟩ x hi'
    have hAB : ∀ᵐ v ∂(Measure.pi fun _ : Fin L => sphereMeasure), A v = 0 ∧ B v = 0 := by
      filter_upwards [key] with v hv
      by_contra hc
      have hc' : A v ≠ 0 ∨ B v ≠ 0 := by tauto
      have hn := circle_null hc' ((v ⟨s, hsL⟩).z * A v - (v ⟨s, hsL⟩).x * B v)
      have hall : ∀ᵐ x ∂sphereMeasure, x ∉ {x : V3 ℝ | x.z * A v - x.x * B v
          = (v ⟨s, hsL⟩).z * A v - (v ⟨s, hsL⟩).x * B v} := measure_eq_zero_iff_ae_notMem.1 hn
      obtain ⟨x, h1, h2⟩ := (hv.and hall).exists
      apply h2
      have h3 := mul_left_cancel₀ hne h1
      have h4 := hchange v x
      show x.z * A v - x.x * B v = _
      linarith
    have hmAB : MeasurableSet {v | A v = 0 ∧ B v = 0} :=
      (tA.meas (measurableSet_singleton 0)).inter (tB.meas (measurableSet_singleton 0))
    have h5 := resample_ae hmAB hAB ⟨s - 1, by omega⟩
    obtain ⟨v, hv⟩ := h5.exists
    -- weight of the neighbouring site
    have hwt : ∀ Jc : ℕ → ℝ, weight L s Jc (s - 1) = Jc (s - 1) := by
      intro Jc
      have h1 : right L (s - 1) = s := by
        unfold right
        rw [Nat.sub_add_cancel hs, Nat.mod_eq_of_lt hsL]
      have h2 : left L (s - 1) ≠ s := by
        unfold left
        rcases Nat.lt_or_ge 1 s with h | h
        · rw [show s - 1 + L - 1 = s - 2 + L by omega, Nat.add_mod_right, Nat.mod_eq_of_lt (by omega)]
          omega
        · rw [show s - 1 + L - 1 = L - 1 by omega, Nat.mod_eq_of_lt (by omega)]
          omega
      unfold weight
      rw [if_pos h1, if_neg h2, add_zero]
    have hAx : ∀ x, A (update v ⟨s - 1, by omega⟩ x) = A v + (J c (s - 1)).z * (x.x - (v ⟨s - 1, by omega⟩).x) := by
      intro x
      rw [← sub_eq_iff_eq_add', ← Finset.sum_sub_distrib, Finset.sum_eq_single (s - 1)]
      · rw [S_update, if_pos rfl, S_withSpins, dif_pos (by omega), hwt]
        ring
      · intro i _ hi
        rw [S_update, if_neg hi, sub_self]
      · intro h
        exact absurd (Finset.mem_range.2 (by omega)) h
    have hBx : ∀ x, B (update v ⟨s - 1, by omega⟩ x) = B v + (J c (s - 1)).x * (x.z - (v ⟨s - 1, by omega⟩).z) := by
      intro x
      rw [← sub_eq_iff_eq_add', ← Finset.sum_sub_distrib, Finset.sum_eq_single (s - 1)]
      · rw [S_update, if_pos rfl, S_withSpins, dif_pos (by omega), hwt]
        ring
      · intro i _ hi
        rw [S_update, if_neg hi, sub_self]
      · intro h
        exact absurd (Finset.mem_range.2 (by omega)) h
    rcases hJ with hJ | hJ
    · have hn := measure_eq_zero_iff_ae_notMem.1
        (circle_null (Or.inl hJ) ((v ⟨s - 1, by omega⟩).z * (J c (s - 1)).x - B v) (b := 0))
      obtain ⟨x, h1, h2⟩ := (hv.and hn).exists
      apply h2
      have := h1.2
      rw [hBx] at this
      show x.z * (J c (s - 1)).x - x.x * 0 = _
      linarith
    · have hn := measure_eq_zero_iff_ae_notMem.1
        (circle_null (Or.inr hJ) (-((v ⟨s - 1, by omega⟩).x * (J c (s - 1)).z - A v)) (a := 0))
      obtain ⟨x, h1, h2⟩ := (hv.and hn).exists
      apply h2
      have := h1.1
      rw [hAx] at this
      show x.z * 0 - x.x * (J c (s - 1)).z = _
      linarith
  · -- driven sites ignore the `S^z` term
    have hz : ∀ (v : Fin L → V3 ℝ) (i : Fin L) (x : V3 ℝ), s ≤ i.val →
        ∑ j ∈ range s, (S (withSpins c (update v i x)) j).z = ∑ j ∈ range s, (S (withSpins c v) j).z := by
      intro v i x hi
      refine Finset.sum_congr rfl fun j hj => ?_
      rw [S_update, if_neg]
      have := Finset.mem_range.1 hj
      omega
    have key := stationary_forces (h := fun v => -(β * (Real.pi / c.vars.tau) * k)
        * ∑ i ∈ range s, (S (withSpins c v) i).z) (by omega) hb.le hupd tEi (tE k)
      ((Tame.const _).mul tz) (fun i => by
        by_cases his : i.val < s
        · refine Or.inl fun v => ?_
          simp only [Ei, if_pos his]
          show c.vars.beta * magnusE L s c.vars.tau k (S (withSpins c v)) (J c) = _
          rw [hE, hE]
          ring
        · refine Or.inr (Or.inr fun v x => ?_)
          rw [hz v i x (by omega)]) hst ⟨0, by omega⟩ (fun v => by
          simp only [Ei, if_pos hs]
          show c.vars.beta * magnusE L s c.vars.tau k (S (withSpins c v)) (J c) = _
          rw [hE, hE]
          ring)
    have hne : -(β * (Real.pi / c.vars.tau) * k) ≠ 0 := neg_ne_zero.2 (mul_ne_zero (mul_ne_zero hb.ne' hpt) hk)
    obtain ⟨v, hv⟩ := key.exists
    have hn := measure_eq_zero_iff_ae_notMem.1 (height_null (v ⟨0, by omega⟩).z)
    obtain ⟨x, h1, h2⟩ := (hv.and hn).exists
    apply h2
    have h3 := mul_left_cancel₀ hne h1
    rw [← sub_eq_zero, ← Finset.sum_sub_distrib, Finset.sum_eq_single 0] at h3
    · rw [S_update, if_pos rfl, S_withSpins, dif_pos (by omega)] at h3
      show x.z = _
      linarith
    · intro i _ hi
      rw [S_update, if_neg hi, sub_self]
    · intro h
      exact absurd (Finset.mem_range.2 hs) h

example : WF demo 4 2 ∧ 0 < demo.vars.beta ∧ demo.vars.tau ≠ 0 ∧ ((J demo (2 - 1)).x ≠ 0 ∨ (J demo (2 - 1)).z ≠ 0) :=
  ⟨demo_wf, by norm_num [demo, demoVars], by norm_num [demo, demoVars], Or.inl (by norm_num [demo, J])⟩

end Verif.Props
