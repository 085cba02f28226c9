/-
Helper lemmas: a sampler that is run until it hits a set of positive measure.
-/
import Verif.Lemmas.Ergodic
import Verif.Model.Runs

namespace Verif.HistSearch

set_option linter.unusedSectionVars false

open MeasureTheory Ergodic Spec Markov Function
open scoped ENNReal

/-- none of the states after each of `n` steps is in `A` -/
def Miss {Y D : Type} (step : Y → D → Y) (A : Set Y) : (n : ℕ) → Y → (Fin n → D) → Prop
  | 0, _, _ => True
  | n + 1, y, w => step y (w 0) ∉ A ∧ Miss step A n (step y (w 0)) fun i => w i.succ

theorem meas_miss {Y D : Type} [MeasurableSpace Y] [MeasurableSpace D] {step : Y → D → Y}
    (hstep : Measurable fun p : Y × D => step p.1 p.2) {A : Set Y} (hA : MeasurableSet A) (n : ℕ) :
    MeasurableSet {p : Y × (Fin n → D) | Miss step A n p.1 p.2} := by
  induction n with
  | zero => exact MeasurableSet.univ
  | succ n ih =>
    exact (meas_head hstep n hA.compl).inter (meas_next hstep n ih)

variable {L : ℕ}

/-- probability that `n` blocks of updates miss `A` -/
noncomputable def missProb (β : ℝ) (E : (Fin L → V3 ℝ) → ℝ) (per : ℕ) (A : Set (Fin L → V3 ℝ)) :
    ℕ → (Fin L → V3 ℝ) → ℝ≥0∞
  | 0 => fun _ => 1
  | n + 1 => (Pm sphereMeasure β E)^[per] fun v => Aᶜ.indicator 1 v * missProb β E per A n v

section
variable {β : ℝ} {E : (Fin L → V3 ℝ) → ℝ} {per : ℕ} {A : Set (Fin L → V3 ℝ)}

theorem meas_missProb (hE : Measurable E) (hA : MeasurableSet A) (n : ℕ) : Measurable (missProb β E per A n) := by
  induction n with
  | zero => exact measurable_const
  | succ n ih => exact measurable_iter hE ((measurable_one.indicator hA.compl).mul ih) per

theorem miss_law [NeZero L] (hb : 0 ≤ β) (hE : Measurable E) (hA : MeasurableSet A) (n : ℕ) (v : Fin L → V3 ℝ) :
    blockLaw L per n {w | Miss (run (move β E) per) A n v w} = missProb β E per A n v := by
  have hr := meas_run (meas_move (β := β) hE) per
  have hm : ∀ n v, MeasurableSet {w : Fin n → Fin per → Raw L | Miss (run (move β E) per) A n v w} := fun n v =>
    (meas_miss hr hA n).preimage (measurable_const (a := v).prodMk measurable_id)
  induction n generalizing v with
  | zero =>
    show blockLaw L per 0 {w | True} = 1
    rw [Set.ofPred_true, measure_univ]
  | succ n ih =>
    rw [← lintegral_indicator_one (hm _ _)]
    unfold blockLaw
    rw [lintegral_cons _ n (measurable_one.indicator (hm _ _))]
    unfold missProb
    rw [← lintegral_run hb hE per (h := fun v => Aᶜ.indicator 1 v * missProb β E per A n v)
      ((measurable_one.indicator hA.compl).mul (meas_missProb hE hA n))]
    refine lintegral_congr fun d => ?_
    by_cases h : run (move β E) per v d ∈ A
    · rw [Set.indicator_of_notMem (s := Aᶜ) (by simpa using h), zero_mul]
      rw [← lintegral_zero]
      refine lintegral_congr fun w => ?_
      exact Set.indicator_of_notMem (fun hh => hh.1 h) _
    · rw [Set.indicator_of_mem (s := Aᶜ) h, Pi.one_apply, one_mul, ← ih, ← lintegral_indicator_one (hm _ _)]
      unfold blockLaw
      refine lintegral_congr fun w => ?_
      by_cases hw : Miss (run (move β E) per) A n (run (move β E) per v d) w
      · rw [Set.indicator_of_mem (show w ∈ {w | Miss _ A n (run (move β E) per v d) w} from hw)]
        exact Set.indicator_of_mem (s := {w | Miss (run (move β E) per) A (n + 1) v w}) ⟨h, hw⟩ _
      · rw [Set.indicator_of_notMem (show w ∉ {w | Miss _ A n (run (move β E) per v d) w} from hw)]
        exact Set.indicator_of_notMem (fun hh => hw hh.2) _

theorem missProb_le_one (hL : 1 ≤ L) (n : ℕ) (v : Fin L → V3 ℝ) : missProb β E per A n v ≤ 1 := by
  induction n generalizing v with
  | zero => exact le_rfl
  | succ n ih =>
    have := iter_mono (σ := sphereMeasure) (β := β) (E := E) (U := Set.univ) (by simp)
      (f := fun v => Aᶜ.indicator 1 v * missProb β E per A n v) (g := fun _ => 1) (fun v _ => by
        calc Aᶜ.indicator 1 v * missProb β E per A n v ≤ 1 * 1 :=
              mul_le_mul' (Set.indicator_le_self' (fun _ _ => zero_le) _) (ih v)
          _ = 1 := one_mul 1) per v (fun _ => trivial)
    rw [iter_const hL] at this
    exact this

/-- missing `k + n` times is missing after `k` blocks, then `n` times -/
theorem missProb_add (k n : ℕ) (v : Fin L → V3 ℝ) : missProb β E per A (k + 1 + n) v
    ≤ (Pm sphereMeasure β E)^[per * (k + 1)] (fun v => Aᶜ.indicator 1 v * missProb β E per A n v) v := by
  induction k generalizing v with
  | zero => rw [zero_add, mul_one, add_comm 1 n]; exact le_rfl
  | succ k ih =>
    rw [show k + 1 + 1 + n = (k + 1 + n) + 1 by ring, show per * (k + 1 + 1) = per + per * (k + 1) by ring,
      iterate_add_apply]
    refine iter_mono (σ := sphereMeasure) (β := β) (E := E) (U := Set.univ) (by simp) (fun v _ => ?_) per v
      fun _ => trivial
    calc Aᶜ.indicator 1 v * missProb β E per A (k + 1 + n) v ≤ 1 * missProb β E per A (k + 1 + n) v :=
          mul_le_mul_left (Set.indicator_le_self' (fun _ _ => zero_le) _) _
      _ = missProb β E per A (k + 1 + n) v := one_mul _
      _ ≤ _ := ih v

/-- a set of positive measure is missed with a probability that decreases geometrically, uniformly in the start -/
theorem miss_geometric [NeZero L] (hb : 0 ≤ β) (hE : Measurable E) {D : ℝ} (hD : ∀ v, Good Sph v → |E v| ≤ D)
    (hA : MeasurableSet A) (hpos : (Measure.pi fun _ : Fin L => sphereMeasure) A ≠ 0) (hper : 1 ≤ per) :
    ∃ (k : ℕ) (q : ℝ), 0 ≤ q ∧ q < 1 ∧ ∀ v, Good Sph v → ∀ n, missProb β E per A ((k + 1) * n) v ≤ ENNReal.ofReal (q ^ n) := by
  have hL : 1 ≤ L := NeZero.one_le
  obtain ⟨ε, e0, e1, hconv⟩ := converges hL sphere_ae hE hb hD
  set μ : Measure (Fin L → V3 ℝ) := Measure.pi fun _ : Fin L => sphereMeasure with hμ
  have mw : Measurable (wt β E) := by
    unfold wt
    exact (Real.measurable_exp.comp (hE.const_mul β).neg).ennreal_ofReal
  have hZ : ∫⁻ v, wt β E v ∂μ ≠ ∞ := by
    have : ∫⁻ v, wt β E v ∂μ ≤ ∫⁻ _, ENNReal.ofReal (Real.exp (β * D)) ∂μ := by
      refine lintegral_mono_ae ((good_ae sphere_ae).mono fun v hv => ENNReal.ofReal_le_ofReal (Real.exp_le_exp.2 ?_))
      have := mul_le_mul_of_nonneg_left (abs_le.1 (hD v hv)).1 hb
      linarith
    refine ne_top_of_le_ne_top ?_ this
    simp
  have hZ0 : ∫⁻ v, wt β E v ∂μ ≠ 0 := by
    intro h
    rw [lintegral_eq_zero_iff mw] at h
    have hne : ∃ v, wt β E v = 0 := h.exists
    obtain ⟨v, hv⟩ := hne
    have := Real.exp_pos (-(β * E v))
    unfold wt at hv
    rw [ENNReal.ofReal_eq_zero] at hv
    linarith
  have hN : ∫⁻ v, wt β E v * A.indicator 1 v ∂μ ≠ 0 := by
    intro h
    have h := (lintegral_eq_zero_iff (f := fun v => wt β E v * A.indicator 1 v)
      (mw.mul (measurable_one.indicator hA))).1 h
    apply hpos
    have h' : ∀ᵐ v ∂μ, v ∉ A := h.mono fun v hv hvA => by
      have hv : wt β E v * A.indicator 1 v = 0 := hv
      rw [Set.indicator_of_mem hvA, Pi.one_apply, mul_one] at hv
      have := Real.exp_pos (-(β * E v))
      unfold wt at hv
      rw [ENNReal.ofReal_eq_zero] at hv
      linarith
    have := ae_iff.1 h'
    simpa using this
  have mi : Measurable fun v : Fin L → V3 ℝ => Aᶜ.indicator (1 : (Fin L → V3 ℝ) → ℝ≥0∞) v := measurable_one.indicator hA.compl
  have i1 : ∀ v : Fin L → V3 ℝ, Aᶜ.indicator (1 : (Fin L → V3 ℝ) → ℝ≥0∞) v ≤ 1 := fun v => Set.indicator_le_self' (fun _ _ => zero_le) v
  have hsplit : (∫⁻ v, wt β E v * Aᶜ.indicator 1 v ∂μ) + ∫⁻ v, wt β E v * A.indicator 1 v ∂μ = ∫⁻ v, wt β E v ∂μ := by
    rw [← lintegral_add_left (f := fun v => wt β E v * Aᶜ.indicator 1 v) (mw.mul mi)]
    refine lintegral_congr fun v => ?_
    by_cases hv : v ∈ A
    · simp [hv]
    · simp [hv]
  have hlt : ∫⁻ v, wt β E v * Aᶜ.indicator 1 v ∂μ < ∫⁻ v, wt β E v ∂μ := by
    rw [← hsplit]
    refine ENNReal.lt_add_right ?_ hN
    exact ne_top_of_le_ne_top hZ (hsplit ▸ le_self_add)
  set a : ℝ := ((∫⁻ v, wt β E v * Aᶜ.indicator 1 v ∂μ) / ∫⁻ v, wt β E v ∂μ).toReal with ha
  have a0 : 0 ≤ a := ENNReal.toReal_nonneg
  have a1 : a < 1 := by
    rw [ha, ← ENNReal.toReal_one]
    refine (ENNReal.toReal_lt_toReal ?_ ENNReal.one_ne_top).2 ?_
    · exact (ENNReal.div_lt_top hlt.ne_top hZ0).ne
    · rw [ENNReal.div_lt_iff (Or.inl hZ0) (Or.inl hZ), one_mul]
      exact hlt
  obtain ⟨m, hm⟩ := exists_pow_lt_of_lt_one (show (0 : ℝ) < (1 - a) / 2 by linarith) (show 1 - ε < 1 by linarith)
  obtain ⟨k, hk⟩ : ∃ k, k + 1 = L * (m + 1) := ⟨L * (m + 1) - 1, by
    have : 1 ≤ L * (m + 1) := Nat.one_le_iff_ne_zero.2 (Nat.mul_ne_zero (by omega) (by omega))
    omega⟩
  have hdiv : m ≤ per * (k + 1) / L := by
    rw [hk, show per * (L * (m + 1)) = L * (per * (m + 1)) by ring, Nat.mul_div_cancel_left _ hL]
    nlinarith
  have hstep : ∀ v, Good Sph v → (Pm sphereMeasure β E)^[per * (k + 1)] (fun v => Aᶜ.indicator 1 v) v
      ≤ ENNReal.ofReal (a + (1 - a) / 2) := by
    intro v hv
    have h := hconv _ mi (fun v _ => i1 v) v hv (per * (k + 1))
    have h2 : (1 - ε) ^ (per * (k + 1) / L) ≤ (1 - ε) ^ m := pow_le_pow_of_le_one (by linarith) (by linarith) hdiv
    rw [← ha] at h
    have h3 := (abs_le.1 h).2
    have hfin : (Pm sphereMeasure β E)^[per * (k + 1)] (fun v => Aᶜ.indicator 1 v) v ≠ ∞ := by
      have := iter_mono (σ := sphereMeasure) (β := β) (E := E) (U := Set.univ) (by simp)
        (f := fun v => Aᶜ.indicator 1 v) (g := fun _ => 1) (fun v _ => i1 v) (per * (k + 1)) v (fun _ => trivial)
      rw [iter_const hL] at this
      exact ne_top_of_le_ne_top ENNReal.one_ne_top this
    rw [← ENNReal.ofReal_toReal hfin]
    exact ENNReal.ofReal_le_ofReal (by linarith)
  refine ⟨k, a + (1 - a) / 2, by linarith, by linarith, fun v hv n => ?_⟩
  induction n generalizing v with
  | zero => simp [missProb]
  | succ n ih =>
    rw [show (k + 1) * (n + 1) = k + 1 + (k + 1) * n by ring]
    refine (missProb_add k _ v).trans ?_
    have h1 := iter_mono (σ := sphereMeasure) (β := β) (E := E) sphere_ae
      (f := fun v => Aᶜ.indicator 1 v * missProb β E per A ((k + 1) * n) v)
      (g := fun v => Aᶜ.indicator 1 v * ENNReal.ofReal ((a + (1 - a) / 2) ^ n))
      (fun v hv => mul_le_mul_right (ih v hv) _) (per * (k + 1)) v hv
    refine h1.trans ?_
    rw [← lintegral_run hb hE _ (h := fun v => Aᶜ.indicator 1 v * ENNReal.ofReal ((a + (1 - a) / 2) ^ n))
      (mi.mul measurable_const)]
    rw [lintegral_mul_const (f := fun w => Aᶜ.indicator 1 (run (move β E) (per * (k + 1)) v w)) _ (mi.comp ((meas_run (meas_move (β := β) hE) _).comp
      (measurable_const (a := v).prodMk measurable_id))), lintegral_run hb hE _ mi, pow_succ',
      ENNReal.ofReal_mul (by linarith)]
    exact mul_le_mul_left (hstep v hv) _

theorem missProb_anti (n m : ℕ) (v : Fin L → V3 ℝ) (hL : 1 ≤ L) (h : n ≤ m) :
    missProb β E per A m v ≤ missProb β E per A n v := by
  have one : ∀ n v, missProb β E per A (n + 1) v ≤ missProb β E per A n v := by
    intro n
    induction n with
    | zero => exact fun v => missProb_le_one hL 1 v
    | succ n ih =>
      intro v
      exact iter_mono (σ := sphereMeasure) (β := β) (E := E) (U := Set.univ) (by simp)
        (fun v _ => mul_le_mul_right (ih v) _) per v fun _ => trivial
  induction h with
  | refl => exact le_rfl
  | step _ ih => exact (one _ v).trans ih

end

/-! ### The search of `gen_hist` -/

section
variable {s : ℕ} {c : SpinChain ℝ} {E : SpinChain ℝ → ℝ}

theorem pass_eq
    (hupd : ∀ (c : SpinChain ℝ) (i : ℕ) (u1 u2 u : ℝ), WF c L s → i < L → 0 ≤ u2 → u2 < 1 →
      c.metropolis_update ⟨i, u1, u2, u⟩ = .ok (metropolis c.vars.beta
        (E (replace c i (spherePoint u1 u2)) - E c) u c (replace c i (spherePoint u1 u2))))
    (w : WF c L s) (ds : ℕ → Draw ℝ) (per : ℕ) (b : Fin per → Raw L)
    (hds : ∀ k : Fin per, ds k = toDraw (b k)) (hb : ∀ k, Fair (b k)) (v : Fin L → V3 ℝ) :
    sweeps SpinChain.metropolis_update ds per (withSpins c v)
      = .ok (withSpins c (run (move c.vars.beta (fun v => E (withSpins c v))) per v b)) := by
  unfold sweeps forRange
  exact range_block (upd := SpinChain.metropolis_update) hupd w ds per 0 b (fun k => by rw [zero_add]; exact hds k) hb v

/-- a search that has not ended has missed every time -/
theorem while_miss {Y D C : Type} {step : Y → D → Y} {rej : Y → Bool} {emb : Y → C}
    {body : C × ℕ × Bool → R (C × ℕ × Bool)} (n p : ℕ) (b : Fin n → D)
    (hbody : ∀ (i : Fin n) (y : Y), body (emb y, p + i, true) = .ok (emb (step y (b i)), p + i + 1, rej (step y (b i))))
    (y : Y) (h : ¬ ∃ m ≤ n, ∃ st, whileN (fun s : C × ℕ × Bool => s.2.2) body m (emb y, p, true) = .ok (some st)) :
    Miss step {y | rej y = false} n y b := by
  induction n generalizing p y with
  | zero => trivial
  | succ n ih =>
    have hp : body (emb y, p, true) = .ok (emb (step y (b 0)), p + 1, rej (step y (b 0))) := hbody 0 y
    have hw : ∀ m, whileN (fun s : C × ℕ × Bool => s.2.2) body (m + 1) (emb y, p, true)
        = whileN (fun s : C × ℕ × Bool => s.2.2) body m (emb (step y (b 0)), p + 1, rej (step y (b 0))) := by
      intro m
      rw [whileN, if_pos rfl, hp, ok_bind]
    cases hr : rej (step y (b 0)) with
    | false =>
      refine absurd ⟨1, by omega, (emb (step y (b 0)), p + 1, false), ?_⟩ h
      rw [hw 0, hr]
      rfl
    | true =>
      refine ⟨fun hh => ?_, ?_⟩
      · have hh : rej (step y (b 0)) = false := hh
        rw [hr] at hh
        cases hh
      · refine ih (p + 1) (fun i => b i.succ) (fun i y => ?_) (step y (b 0)) ?_
        · have := hbody i.succ y
          rw [Fin.val_succ] at this
          rw [show p + 1 + (i : ℕ) = p + (i + 1) by ring]
          exact this
        · rintro ⟨m, hm, st, hst⟩
          refine h ⟨m + 1, by omega, st, ?_⟩
          rw [hw m, hr]
          exact hst

theorem search_miss
    (hupd : ∀ (c : SpinChain ℝ) (i : ℕ) (u1 u2 u : ℝ), WF c L s → i < L → 0 ≤ u2 → u2 < 1 →
      c.metropolis_update ⟨i, u1, u2, u⟩ = .ok (metropolis c.vars.beta
        (E (replace c i (spherePoint u1 u2)) - E c) u c (replace c i (spherePoint u1 u2))))
    (w : WF c L s) (rej : (Fin L → V3 ℝ) → Bool) (hrej : ∀ v, histReject (withSpins c v) = .ok (rej v))
    (n : ℕ) (b : Fin n → Fin 10000 → Raw L) (hb : ∀ i k, Fair (b i k)) (v : Fin L → V3 ℝ)
    (h : ¬ ∃ m ≤ n, ∃ st, whileN (fun s : SpinChain ℝ × ℕ × Bool => s.2.2) (histPass (blockDraws b)) m
      (withSpins c v, 0, true) = .ok (some st)) :
    Miss (run (move c.vars.beta fun v => E (withSpins c v)) 10000) {v | rej v = false} n v b := by
  refine while_miss (emb := fun v => withSpins c v) n 0 b (fun i v => ?_) v h
  unfold histPass
  rw [pass_eq hupd w (blockDraws b (0 + i)) 10000 (b i) (fun k => by
    unfold blockDraws
    rw [zero_add, dif_pos ⟨i.2, k.2⟩]
    rfl) (hb i) v, ok_bind, hrej]
  rfl

end

end Verif.HistSearch
