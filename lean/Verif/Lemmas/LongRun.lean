/-
Helper lemmas: means along a run of Langevin updates.
-/
import Verif.Lemmas.Thermostat
import Verif.Lemmas.InitLaw

namespace Verif

set_option linter.unusedSectionVars false

open Spec Function MeasureTheory ProbabilityTheory

section
variable {L : ℕ} {m : ℕ} {γ β : ℝ} {J : ℕ → V3 ℝ} {dt : ℝ}

/-! ### iterated means -/

theorem Nice.step {g : (Fin L → V3 ℝ) → ℝ} (hg : Nice g) (B : ℕ → V3 ℝ) :
    Nice fun v => ∫ ζ, g (afterStep m γ β J B dt v ζ) ∂normals := by
  obtain ⟨g1, K, hK⟩ := hg
  constructor
  · have hs : StronglyMeasurable fun p : (Fin L → V3 ℝ) × (Fin 6 → ℝ) => g (afterStep m γ β J B dt p.1 p.2) :=
      (g1.comp (meas_afterStep m _ _ _ _ dt)).stronglyMeasurable
    exact hs.integral_prod_right.measurable
  · refine ⟨K, fun v hv => ?_⟩
    rw [← Real.norm_eq_abs]
    refine (norm_integral_le_of_norm_le_const (Filter.Eventually.of_forall fun ζ =>
      hK _ fun i => afterStep_len hv ζ i)).trans ?_
    rw [probReal_univ, mul_one]

theorem Nice.after {g : (Fin L → V3 ℝ) → ℝ} (hg : Nice g) (B : ℕ → V3 ℝ) {v : Fin L → V3 ℝ} (hv : ∀ i, len (v i) = 1) :
    Integrable (fun ζ => g (afterStep m γ β J B dt v ζ)) normals := by
  obtain ⟨g1, K, hK⟩ := hg
  refine Integrable.of_bound (C := K) ?_ (Filter.Eventually.of_forall fun ζ => hK _ fun i => afterStep_len hv ζ i)
  exact (g1.comp ((meas_afterStep m γ β J B dt).comp (measurable_const.prodMk measurable_id))).aestronglyMeasurable

/-- mean after `n` steps in the fields `b 0`, `b 1`, … -/
noncomputable def avg (m : ℕ) (γ β : ℝ) (J : ℕ → V3 ℝ) (dt : ℝ) : ℕ → (ℕ → ℕ → V3 ℝ) → ((Fin L → V3 ℝ) → ℝ) →
    (Fin L → V3 ℝ) → ℝ
  | 0, _, h => h
  | n + 1, b, h => fun v => ∫ ζ, avg m γ β J dt n (fun k => b (k + 1)) h (afterStep m γ β J (b 0) dt v ζ) ∂normals

theorem avg_nice {h : (Fin L → V3 ℝ) → ℝ} (hh : Nice h) (n : ℕ) (b : ℕ → ℕ → V3 ℝ) : Nice (avg m γ β J dt n b h) := by
  induction n generalizing b with
  | zero => exact hh
  | succ n ih => exact (ih fun k => b (k + 1)).step (b 0)

theorem avg_back (n : ℕ) (b : ℕ → ℕ → V3 ℝ) (h : (Fin L → V3 ℝ) → ℝ) :
    avg m γ β J dt (n + 1) b h = avg m γ β J dt n b fun v => ∫ ζ, h (afterStep m γ β J (b n) dt v ζ) ∂normals := by
  induction n generalizing b with
  | zero => rfl
  | succ n ih =>
    funext v
    have := ih fun k => b (k + 1)
    show ∫ ζ, avg m γ β J dt (n + 1) (fun k => b (k + 1)) h (afterStep m γ β J (b 0) dt v ζ) ∂normals = _
    rw [this]
    rfl

theorem avg_sub {g h : (Fin L → V3 ℝ) → ℝ} (hg : Nice g) (hh : Nice h) (n : ℕ) (b : ℕ → ℕ → V3 ℝ) {v : Fin L → V3 ℝ}
    (hv : ∀ i, len (v i) = 1) :
    avg m γ β J dt n b (fun v => g v - h v) v = avg m γ β J dt n b g v - avg m γ β J dt n b h v := by
  induction n generalizing b v with
  | zero => rfl
  | succ n ih =>
    show ∫ ζ, avg m γ β J dt n (fun k => b (k + 1)) (fun v => g v - h v) (afterStep m γ β J (b 0) dt v ζ) ∂normals = _
    have e : ∀ ζ, avg m γ β J dt n (fun k => b (k + 1)) (fun v => g v - h v) (afterStep m γ β J (b 0) dt v ζ)
        = avg m γ β J dt n (fun k => b (k + 1)) g (afterStep m γ β J (b 0) dt v ζ)
          - avg m γ β J dt n (fun k => b (k + 1)) h (afterStep m γ β J (b 0) dt v ζ) :=
      fun ζ => ih _ fun i => afterStep_len hv ζ i
    simp only [e]
    rw [integral_sub ((avg_nice hg _ _).after _ hv) ((avg_nice hh _ _).after _ hv)]
    rfl

theorem avg_smul (r : ℝ) (h : (Fin L → V3 ℝ) → ℝ) (n : ℕ) (b : ℕ → ℕ → V3 ℝ) (v : Fin L → V3 ℝ) :
    avg m γ β J dt n b (fun v => r * h v) v = r * avg m γ β J dt n b h v := by
  induction n generalizing b v with
  | zero => rfl
  | succ n ih =>
    show ∫ ζ, avg m γ β J dt n (fun k => b (k + 1)) (fun v => r * h v) (afterStep m γ β J (b 0) dt v ζ) ∂normals = _
    simp only [ih]
    rw [integral_const_mul]
    rfl

theorem avg_bound {h : (Fin L → V3 ℝ) → ℝ} {ε : ℝ} (hh : ∀ v, (∀ i, len (v i) = 1) → |h v| ≤ ε) (n : ℕ)
    (b : ℕ → ℕ → V3 ℝ) {v : Fin L → V3 ℝ} (hv : ∀ i, len (v i) = 1) : |avg m γ β J dt n b h v| ≤ ε := by
  induction n generalizing b v with
  | zero => exact hh v hv
  | succ n ih =>
    show |∫ ζ, avg m γ β J dt n (fun k => b (k + 1)) h (afterStep m γ β J (b 0) dt v ζ) ∂normals| ≤ ε
    rw [← Real.norm_eq_abs]
    refine (norm_integral_le_of_norm_le_const (Filter.Eventually.of_forall fun ζ =>
      ih _ fun i => afterStep_len hv ζ i)).trans ?_
    rw [probReal_univ, mul_one]

/-- sum of the generator along a run -/
theorem long_run {F : (Fin L → ℝ × ℝ × ℝ) → ℝ} (hF : ContDiff ℝ 3 F) {m : ℕ} (h2 : 2 ≤ m) (hm : m ≤ L) {γ β : ℝ}
    (hγ : 0 ≤ γ) (hβ : 0 < β) {K : ℝ} (hK : 0 ≤ K) :
    ∃ C, 0 ≤ C ∧ ∀ (J : ℕ → V3 ℝ) (b : ℕ → ℕ → V3 ℝ) (v : Fin L → V3 ℝ) (dt : ℝ) (n : ℕ), (∀ i, len (J i) ≤ K) →
      (∀ k i, len (b k i) ≤ K) → (∀ i, len (v i) = 1) → 0 < dt → dt ≤ 1 →
      |dt * ∑ k ∈ Finset.range n, avg m γ β J dt k b (generator m γ β J (b k) fun v => F (coords v)) v|
        ≤ C * (1 + n * (dt * Real.sqrt dt)) := by
  obtain ⟨C, C0, hC⟩ := weak_step hF h2 hm hγ hβ hK
  obtain ⟨M, M0, hM⟩ := ball_bound hF.continuous (1 : ℝ)
  refine ⟨C + 2 * M, by positivity, fun J b v dt n hJ hb hv h0 h1 => ?_⟩
  have nF : Nice fun v : Fin L → V3 ℝ => F (coords v) := Nice.smooth hF.continuous
  have step : ∀ k, |avg m γ β J dt (k + 1) b (fun v => F (coords v)) v - avg m γ β J dt k b (fun v => F (coords v)) v
      - dt * avg m γ β J dt k b (generator m γ β J (b k) fun v => F (coords v)) v| ≤ C * (dt * Real.sqrt dt) := by
    intro k
    have nG : Nice (generator (L := L) m γ β J (b k) fun v => F (coords v)) := generator_nice (hF.of_le (by norm_num))
    have nA := nF.step (m := m) (γ := γ) (β := β) (J := J) (dt := dt) (b k)
    rw [avg_back, ← avg_smul, ← avg_sub nA nF k b hv, ← avg_sub (nA.sub nF) ((Nice.const dt).mul nG) k b hv]
    exact avg_bound (fun v hv => hC J (b k) v dt hJ (hb k) hv h0 h1) k b hv
  have tel : ∀ n, |avg m γ β J dt n b (fun v => F (coords v)) v - F (coords v)
      - dt * ∑ k ∈ Finset.range n, avg m γ β J dt k b (generator m γ β J (b k) fun v => F (coords v)) v|
      ≤ n * (C * (dt * Real.sqrt dt)) := by
    intro n
    induction n with
    | zero => simp [avg]
    | succ n ih =>
      have := step n
      rw [Finset.sum_range_succ, mul_add]
      push_cast
      rw [abs_le] at ih this ⊢
      constructor <;> linarith [ih.1, ih.2, this.1, this.2]
  have t := tel n
  have b1 : |avg m γ β J dt n b (fun v => F (coords v)) v| ≤ M :=
    avg_bound (fun v hv => hM _ (norm_coords hv)) n b hv
  have b2 : |F (coords v)| ≤ M := hM _ (norm_coords hv)
  have p : 0 ≤ 2 * M * (n * (dt * Real.sqrt dt)) := by have := Real.sqrt_nonneg dt; positivity
  rw [abs_le] at t b1 b2 ⊢
  constructor <;> nlinarith [t.1, t.2, b1.1, b1.2, b2.1, b2.2]

end

/-! ### runs of the program -/

section
variable {L s : ℕ}

theorem meanRun_eq {c : LangevinChain ℝ} {n : ℕ} (w : WF c.toSpinChain L s) (hL : 2 ≤ L) (hu : ∀ x ∈ c.spins, IsUnit3 x)
    (hr : SurelyRegular L s n c) (f : (Fin L → V3 ℝ) → ℝ) :
    meanRun L f n c = avg (2 * (L / 2)) c.gamma c.vars.beta (J c.toSpinChain) c.vars.dt n
      (fun k => B c.toSpinChain s (c.t + (k + 1) * c.vars.dt)) f fun i => S c.toSpinChain i := by
  induction n generalizing c with
  | zero => rfl
  | succ n ih =>
    show ∫ ζ, (match c.update (noiseOf ζ) with
      | .ok c' => meanRun L f n c'
      | .error _ => 0) ∂normals = ∫ ζ, avg _ _ _ _ _ n _ f (afterStep _ _ _ _ _ _ _ ζ) ∂normals
    refine integral_congr_ae ?_
    filter_upwards [hr] with ζ hζ
    obtain ⟨c', h1, u', h2⟩ := l_update_spec w hL hu hζ.1
    rw [h1]
    dsimp only
    rw [ih (l_update_wf w h1) u' (hζ.2 c' h1)]
    obtain ⟨a1, a2, a3, _, _, a6, a7⟩ := l_update_frame h1
    have eS : (fun i : Fin L => S c'.toSpinChain i) = afterStep (2 * (L / 2)) c.gamma c.vars.beta (J c.toSpinChain)
        (B c.toSpinChain s (c.t + ((0 : ℕ) + 1) * c.vars.dt)) c.vars.dt (fun i => S c.toSpinChain i) ζ := by
      have e0 : atSite (fun i : Fin L => S c.toSpinChain i) = S c.toSpinChain := by
        funext k
        unfold atSite
        by_cases hk : k < L
        · rw [dif_pos hk]
        · rw [dif_neg hk]
          unfold S
          rw [List.getElem?_eq_none (by rw [w.spins]; omega)]
          rfl
      unfold afterStep
      rw [e0, h2]
      unfold langOm
      norm_num
    have eB : (fun k : ℕ => B c'.toSpinChain s (c'.t + (k + 1) * c'.vars.dt))
        = fun k : ℕ => B c.toSpinChain s (c.t + (((k + 1 : ℕ) : ℝ) + 1) * c.vars.dt) := by
      funext k
      refine B_congr (c := c.toSpinChain) a2 ?_
      rw [a3, a6]
      congr 1
      push_cast
      ring
    rw [eB, eS, J_congr (c := c.toSpinChain) a1, a3, a7]

end

/-! ### runs meet no vanishing field -/

section
variable {c : LangevinChain ℝ} {L s : ℕ}

theorem surely_mono {c : LangevinChain ℝ} {n k : ℕ} (hk : k ≤ n) (h : SurelyRegular L s n c) : SurelyRegular L s k c := by
  induction k generalizing n c with
  | zero => trivial
  | succ k ih =>
    obtain ⟨n, rfl⟩ : ∃ j, n = j + 1 := ⟨n - 1, by omega⟩
    show ∀ᵐ ζ ∂normals, _
    filter_upwards [h] with ζ hζ
    exact ⟨hζ.1, fun c' hc' => ih (by omega) (hζ.2 c' hc')⟩

theorem langevinAt_unit {v : Fin L → V3 ℝ} (hv : ∀ i, len (v i) = 1) (dt : ℝ) : ∀ x ∈ (langevinAt c dt v).spins, IsUnit3 x := by
  intro x hx
  obtain ⟨i, rfl⟩ := List.mem_ofFn.1 hx
  exact hv i

/-- the chain after an update -/
theorem langevinAt_next (w : WF c.toSpinChain L s) (hL : 2 ≤ L) {dt : ℝ} {v : Fin L → V3 ℝ} (hv : ∀ i, len (v i) = 1)
    {ζ : Fin 6 → ℝ} (hr : RegularStepL (langevinAt c dt v) L s (noiseOf ζ)) {c' : LangevinChain ℝ}
    (hc : (langevinAt c dt v).update (noiseOf ζ) = .ok c') :
    c' = langevinAt { c with t := c.t + dt } dt (afterStep (2 * (L / 2)) c.gamma c.vars.beta (J c.toSpinChain)
      (B c.toSpinChain s (c.t + dt)) dt v ζ) := by
  obtain ⟨c1, h1, _, h2⟩ := l_update_spec (langevinAt_wf w dt v) hL (langevinAt_unit hv dt) hr
  rw [h1] at hc
  cases hc
  obtain ⟨a1, a2, a3, a4, a5, a6, a7⟩ := l_update_frame h1
  have hlen : c'.spins.length = L := a5.trans (langevinAt_wf w dt v).spins
  have hsp : c'.spins = (List.ofFn fun i : Fin L => (⟨afterStep (2 * (L / 2)) c.gamma c.vars.beta (J c.toSpinChain)
      (B c.toSpinChain s (c.t + dt)) dt v ζ i⟩ : Spin ℝ)) := by
    refine List.ext_getElem (by rw [hlen, List.length_ofFn]) fun i hi _ => ?_
    rw [List.getElem_ofFn]
    have := congrFun h2 i
    rw [langOm_at, S_langevinAt] at this
    have e : S c'.toSpinChain i = (c'.spins[i]).dir := by
      unfold S
      rw [List.getElem?_eq_getElem hi]
      rfl
    rw [e] at this
    have q : (⟨(c'.spins[i]).dir⟩ : Spin ℝ) = c'.spins[i] := rfl
    rw [← q, this]
    rfl
  obtain ⟨⟨f1, f2, f3, f4, f5, f6⟩, g⟩ := c'
  simp only at a1 a2 a3 a4 a6 a7 hsp
  subst a1 a2 a3 a4 a6 a7 hsp
  rfl

theorem meanRun_at (w : WF c.toSpinChain L s) (hL : 2 ≤ L) {dt : ℝ} {v : Fin L → V3 ℝ} (hv : ∀ i, len (v i) = 1) {n : ℕ}
    (hr : SurelyRegular L s n (langevinAt c dt v)) (f : (Fin L → V3 ℝ) → ℝ) :
    meanRun L f n (langevinAt c dt v) = avg (2 * (L / 2)) c.gamma c.vars.beta (J c.toSpinChain) dt n
      (usedField c.toSpinChain s dt) f v := by
  rw [meanRun_eq (langevinAt_wf w dt v) hL (langevinAt_unit hv dt) hr f]
  have e : (fun i : Fin L => S (langevinAt c dt v).toSpinChain i) = v := by
    funext i
    rw [S_langevinAt]
    unfold atSite
    rw [dif_pos i.2]
  rw [e]
  rfl

/-- for small time-steps, a run from almost any spins surely meets no vanishing field -/
theorem surely_ae (w : WF c.toSpinChain L s) (hL : 2 ≤ L) (hγ : 0 < c.gamma) (hβ : 0 < c.vars.beta)
    (hJ : ∀ i, 0 < i → i + 1 < 2 * (L / 2) → J c.toSpinChain i ≠ zero) {K : ℝ} (hJK : ∀ i, len (J c.toSpinChain i) ≤ K)
    (hBK : ∀ t i, len (B c.toSpinChain s t i) ≤ K) {dt : ℝ} (h0 : 0 < dt) (hd : 3 * K * c.gamma * dt < 1) (n : ℕ) (t : ℝ) :
    ∀ᵐ v ∂(Measure.pi fun _ : Fin L => sphereMeasure), SurelyRegular L s n (langevinAt { c with t := t } dt v) := by
  induction n generalizing t with
  | zero => exact Filter.Eventually.of_forall fun v => trivial
  | succ n ih =>
    have hr := langevin_ae (c := { c with t := t }) hL hγ hβ hJ hJK hBK h0 hd
    have q := step_null (L := L) (m := 2 * (L / 2)) (β := c.vars.beta) hγ hβ h0 hJK (hBK (t + dt)) hd (by omega)
      (by omega) (by omega)
    have h' := Measure.ae_ae_of_ae_prod (Measure.measurePreserving_swap.quasiMeasurePreserving.ae (q.ae (ih (t + dt))))
    filter_upwards [hr, h', unit_ae (L := L)] with v h1 h2 hv
    show ∀ᵐ ζ ∂normals, _
    filter_upwards [h1, h2] with ζ z1 z2
    refine ⟨z1, fun c' hc' => ?_⟩
    have e := langevinAt_next (c := { c with t := t }) ⟨w.hsize, w.ssize, w.L_lt, w.s_lt, w.spins, w.j, w.h, w.hs⟩ hL hv z1 hc'
    rw [e]
    exact z2

/-- for two or three sites, the same holds for all spins -/
theorem surely_short (w : WF c.toSpinChain L s) (hL : L = 2 ∨ L = 3) (hγ : 0 < c.gamma) (hβ : 0 < c.vars.beta)
    {K : ℝ} (hJK : ∀ i, len (J c.toSpinChain i) ≤ K) (hBK : ∀ t i, len (B c.toSpinChain s t i) ≤ K) {dt : ℝ} (h0 : 0 < dt)
    (hd : K * (2 + 5 * |c.gamma|) * dt < 1) (n : ℕ) (t : ℝ) {v : Fin L → V3 ℝ} (hv : ∀ i, len (v i) = 1) :
    SurelyRegular L s n (langevinAt { c with t := t } dt v) := by
  induction n generalizing t v with
  | zero => trivial
  | succ n ih =>
    show ∀ᵐ ζ ∂normals, _
    have hm : 2 * (L / 2) = 2 := by omega
    have := edge_regular (m := 2 * (L / 2)) (β := c.vars.beta) (by omega) (by omega) hγ hβ h0 hJK (hBK (t + dt)) hd hv
    filter_upwards [this] with ζ hζ
    have z1 : RegularStepL (langevinAt { c with t := t } dt v) L s (noiseOf ζ) := by
      refine (regular_at { c with t := t } dt v s ζ).2 ⟨fun i hi h => ?_, fun i hi h => ?_, fun i hi h => ?_⟩
      · rw [show i = 0 by omega]
        exact hζ.1
      · rw [show i = 2 * (L / 2) - 1 by omega]
        exact hζ.2.1
      · rw [show i = 0 by omega]
        exact hζ.2.2
    refine ⟨z1, fun c' hc' => ?_⟩
    have e := langevinAt_next (c := { c with t := t }) ⟨w.hsize, w.ssize, w.L_lt, w.s_lt, w.spins, w.j, w.h, w.hs⟩ (by omega)
      hv z1 hc'
    rw [e]
    exact ih (t + dt) fun i => afterStep_len hv ζ i

end

/-! ### energy -/

section
variable {L m : ℕ} {γ β : ℝ} {J B : ℕ → V3 ℝ}

theorem energy_rate (v : Fin L → V3 ℝ) (i : Fin L) (hi : (i : ℕ) < m) (a : V3 ℝ) :
    rateOf (fun v => openEnergy m (atSite v) J B) v i a = -dot (cross (v i) a) (openOmega m (atSite v) J B i) := by
  have := rate_eq (enP_smooth (m := m) (J := J) (B := B).differentiable (n := 1) (by norm_num)) v i a
  rw [enP_fderiv _ i hi] at this
  exact this

theorem energy_second (v : Fin L → V3 ℝ) (i : Fin L) (hi : (i : ℕ) < m) (a : V3 ℝ) :
    iteratedDeriv 2 (fun t => openEnergy m (atSite (turned v i a t)) J B) 0
      = -dot (cross (cross (v i) a) a) (openOmega m (atSite v) J B i) := by
  have hd : Differentiable ℝ (enP (L := L) m J B) := enP_smooth.differentiable (n := 1) (by norm_num)
  have h1 : deriv (fun t => openEnergy m (atSite (turned v i a t)) J B)
      = fun t => -dot (cross (precess (v i) a t) a) (openOmega m (atSite v) J B i) := by
    funext t
    have := (turn_hasDeriv hd v i a t).deriv
    rw [enP_fderiv _ i hi] at this
    refine this.trans ?_
    rw [turned_self]
    have e : (fun k => ofP (coords (turned v i a t) k)) = update v i (precess (v i) a t) := rfl
    rw [e, openOmega_other]
  rw [iteratedDeriv_succ, iteratedDeriv_one, h1]
  have h2 := precess_hasDeriv (v i) a 0
  obtain ⟨hx, hy, hz⟩ := h2
  rw [precess_zero] at hx hy hz
  obtain ⟨Ω, hΩ⟩ : ∃ Ω, Ω = openOmega m (atSite v) J B i := ⟨_, rfl⟩
  rw [← hΩ]
  refine HasDerivAt.deriv ?_
  unfold dot cross
  have := ((((hy.mul_const a.z).sub (hz.mul_const a.y)).mul_const Ω.x).add
    (((hz.mul_const a.x).sub (hx.mul_const a.z)).mul_const Ω.y)).add (((hx.mul_const a.y).sub (hy.mul_const a.x)).mul_const Ω.z)
  exact this.neg

theorem energy_generator (hm : 0 < m) (v : Fin L → V3 ℝ) :
    generator m γ β J B (fun v => openEnergy m (atSite v) J B) v = -γ * torqueExcess m β J B v := by
  unfold generator torqueExcess
  rw [Finset.mul_sum]
  refine Finset.sum_congr rfl fun i _ => ?_
  have e0 : (if (i : ℕ) < m then rateOf (fun v => openEnergy m (atSite v) J B) v i (openOmega m (atSite v) J B i) else 0) = 0 := by
    split
    · rw [energy_rate v i (by assumption)]
      simp only [dot, cross]
      ring
    · rfl
  rw [e0, zero_add]
  by_cases he : (i : ℕ) = 0 ∨ (i : ℕ) + 1 = m
  · have hi : (i : ℕ) < m := by omega
    rw [if_pos he, if_pos he, energy_rate v i hi]
    unfold laplace
    rw [energy_second v i hi, energy_second v i hi, energy_second v i hi, sq, len_sq]
    simp only [dot, cross]
    ring
  · rw [if_neg he, if_neg he, mul_zero]

end

/-! ### linear combinations of observables -/

section
variable {L m : ℕ} {γ β : ℝ} {J : ℕ → V3 ℝ}

theorem generator_add {F G : (Fin L → ℝ × ℝ × ℝ) → ℝ} (hF : ContDiff ℝ 2 F) (hG : ContDiff ℝ 2 G) (h2 : 2 ≤ m) (hm : m ≤ L)
    (J B : ℕ → V3 ℝ) (v : Fin L → V3 ℝ) :
    generator m γ β J B (fun v => F (coords v) + G (coords v)) v
      = generator m γ β J B (fun v => F (coords v)) v + generator m γ β J B (fun v => G (coords v)) v := by
  have dF : Differentiable ℝ F := hF.differentiable (by norm_num)
  have dG : Differentiable ℝ G := hG.differentiable (by norm_num)
  have dF' : Differentiable ℝ (fderiv ℝ F) := (hF.fderiv_right (m := 1) (by norm_num)).differentiable (by norm_num)
  have dG' : Differentiable ℝ (fderiv ℝ G) := (hG.fderiv_right (m := 1) (by norm_num)).differentiable (by norm_num)
  have e1 : fderiv ℝ (fun x => F x + G x) = fun x => fderiv ℝ F x + fderiv ℝ G x := by
    funext x
    exact fderiv_fun_add (dF x) (dG x)
  have e2 : ∀ x, fderiv ℝ (fderiv ℝ fun x => F x + G x) x = fderiv ℝ (fderiv ℝ F) x + fderiv ℝ (fderiv ℝ G) x := by
    intro x
    rw [e1]
    exact fderiv_fun_add (dF' x) (dG' x)
  have := generator_eq (F := fun x => F x + G x) (hF.add hG) h2 hm γ β J B v
  rw [this, generator_eq hF h2 hm, generator_eq hG h2 hm, e2, e1]
  simp only [ContinuousLinearMap.add_apply, Finset.sum_add_distrib]
  ring

theorem generator_smul {F : (Fin L → ℝ × ℝ × ℝ) → ℝ} (hF : ContDiff ℝ 2 F) (r : ℝ) (h2 : 2 ≤ m) (hm : m ≤ L)
    (J B : ℕ → V3 ℝ) (v : Fin L → V3 ℝ) :
    generator m γ β J B (fun v => r * F (coords v)) v = r * generator m γ β J B (fun v => F (coords v)) v := by
  have dF : Differentiable ℝ F := hF.differentiable (by norm_num)
  have dF' : Differentiable ℝ (fderiv ℝ F) := (hF.fderiv_right (m := 1) (by norm_num)).differentiable (by norm_num)
  have e1 : fderiv ℝ (fun x => r * F x) = fun x => r • fderiv ℝ F x := by
    funext x
    exact fderiv_const_mul (dF x) r
  have e2 : ∀ x, fderiv ℝ (fderiv ℝ fun x => r * F x) x = r • fderiv ℝ (fderiv ℝ F) x := by
    intro x
    rw [e1]
    exact fderiv_fun_const_smul (dF' x) r
  have := generator_eq (F := fun x => r * F x) (contDiff_const.mul hF) h2 hm γ β J B v
  rw [this, generator_eq hF h2 hm, e2, e1]
  simp only [ContinuousLinearMap.smul_apply, smul_eq_mul, ← Finset.mul_sum, ← mul_add]
  ring

theorem generator_zero (h2 : 2 ≤ m) (hm : m ≤ L) (J B : ℕ → V3 ℝ) (v : Fin L → V3 ℝ) :
    generator m γ β J B (fun _ => 0) v = 0 := by
  have := generator_smul (L := L) (m := m) (γ := γ) (β := β) (F := fun _ => 0) contDiff_const 0 h2 hm J B v
  simpa using this

/-- bounds hold uniformly for linear combinations with bounded coefficients -/
theorem weak_family {ι : Type} (T : Finset ι) {f : ι → (Fin L → ℝ × ℝ × ℝ) → ℝ} (hf : ∀ j, ContDiff ℝ 3 (f j)) (h2 : 2 ≤ m)
    (hm : m ≤ L) (hγ : 0 ≤ γ) (hβ : 0 < β) {K R : ℝ} (hK : 0 ≤ K) (hR : 0 ≤ R) :
    ∃ C, 0 ≤ C ∧ ∀ (J B : ℕ → V3 ℝ) (v : Fin L → V3 ℝ) (dt : ℝ) (r : ι → ℝ), (∀ i, len (J i) ≤ K) → (∀ i, len (B i) ≤ K) →
      (∀ i, len (v i) = 1) → 0 < dt → dt ≤ 1 → (∀ j, |r j| ≤ R) →
      |∑ j ∈ T, r j * f j (coords v)| ≤ C ∧
      |∫ ζ, ∑ j ∈ T, r j * f j (coords (afterStep m γ β J B dt v ζ)) ∂normals - ∑ j ∈ T, r j * f j (coords v)
        - dt * generator m γ β J B (fun v => ∑ j ∈ T, r j * f j (coords v)) v| ≤ C * (dt * Real.sqrt dt) := by
  classical
  induction T using Finset.induction_on with
  | empty =>
    refine ⟨0, le_rfl, fun J B v dt r _ _ _ _ _ _ => ?_⟩
    simp only [Finset.sum_empty]
    rw [generator_zero h2 hm]
    simp
  | insert a T ha ih =>
    obtain ⟨C1, C10, h1⟩ := ih
    obtain ⟨C2, C20, h2'⟩ := weak_step (hf a) h2 hm hγ hβ hK
    obtain ⟨M, M0, hM⟩ := ball_bound (hf a).continuous (1 : ℝ)
    refine ⟨C1 + R * (C2 + M), by positivity, fun J B v dt r hJ hB hv d0 d1 hr => ?_⟩
    obtain ⟨q0, q1⟩ := h1 J B v dt r hJ hB hv d0 d1 hr
    have q2 := h2' J B v dt hJ hB hv d0 d1
    have q3 : |f a (coords v)| ≤ M := hM _ (norm_coords hv)
    simp only [Finset.sum_insert ha]
    have nf : ∀ j, Nice fun v : Fin L → V3 ℝ => r j * f j (coords v) := fun j =>
      (Nice.const _).mul (Nice.smooth (hf j).continuous)
    have nT : Nice fun v : Fin L → V3 ℝ => ∑ j ∈ T, r j * f j (coords v) := Nice.sum T fun j _ => nf j
    have e1 : ∫ ζ, (r a * f a (coords (afterStep m γ β J B dt v ζ))
        + ∑ j ∈ T, r j * f j (coords (afterStep m γ β J B dt v ζ))) ∂normals
        = r a * ∫ ζ, f a (coords (afterStep m γ β J B dt v ζ)) ∂normals
          + ∫ ζ, ∑ j ∈ T, r j * f j (coords (afterStep m γ β J B dt v ζ)) ∂normals := by
      rw [integral_add ((nf a).after B hv) (nT.after B hv), integral_const_mul]
    have hs : ∀ j, ContDiff ℝ 2 (f j) := fun j => (hf j).of_le (by norm_num)
    have hsum : ContDiff ℝ 2 fun x => ∑ j ∈ T, r j * f j x := ContDiff.sum fun j _ => contDiff_const.mul (hs j)
    have e2 := generator_add (m := m) (γ := γ) (β := β) (F := fun x => r a * f a x) (G := fun x => ∑ j ∈ T, r j * f j x)
      (contDiff_const.mul (hs a)) hsum h2 hm J B v
    rw [e1, e2, generator_smul (hs a) (r a) h2 hm]
    have ra := hr a
    have s0 := Real.sqrt_nonneg dt
    constructor
    · refine (abs_add_le _ _).trans ?_
      rw [abs_mul]
      have := mul_le_mul ra q3 (abs_nonneg _) hR
      have : 0 ≤ R * C2 := by positivity
      linarith
    · rw [show r a * ∫ ζ, f a (coords (afterStep m γ β J B dt v ζ)) ∂normals
            + ∫ ζ, ∑ j ∈ T, r j * f j (coords (afterStep m γ β J B dt v ζ)) ∂normals
            - (r a * f a (coords v) + ∑ j ∈ T, r j * f j (coords v))
            - dt * (r a * generator m γ β J B (fun v => f a (coords v)) v
              + generator m γ β J B (fun v => ∑ j ∈ T, r j * f j (coords v)) v)
          = r a * (∫ ζ, f a (coords (afterStep m γ β J B dt v ζ)) ∂normals - f a (coords v)
            - dt * generator m γ β J B (fun v => f a (coords v)) v)
          + (∫ ζ, ∑ j ∈ T, r j * f j (coords (afterStep m γ β J B dt v ζ)) ∂normals - ∑ j ∈ T, r j * f j (coords v)
            - dt * generator m γ β J B (fun v => ∑ j ∈ T, r j * f j (coords v)) v) by ring]
      refine (abs_add_le _ _).trans ?_
      rw [abs_mul]
      have := mul_le_mul ra q2 (abs_nonneg _) hR
      have p : 0 ≤ R * M * (dt * Real.sqrt dt) := by positivity
      nlinarith

/-- the energy is a linear combination of finitely many observables with the fields as coefficients -/
noncomputable def part1 (m : ℕ) (J : ℕ → V3 ℝ) (j : Option (Fin L × Fin 3)) (x : Fin L → ℝ × ℝ × ℝ) : ℝ :=
  match j with
  | none => enP m J (fun _ => zero) x
  | some (i, a) => if (i : ℕ) < m then (if a = 0 then (x i).1 else if a = 1 then (x i).2.1 else (x i).2.2) else 0

noncomputable def coef (B : ℕ → V3 ℝ) (j : Option (Fin L × Fin 3)) : ℝ :=
  match j with
  | none => 1
  | some (i, a) => if a = 0 then (B i).x else if a = 1 then (B i).y else (B i).z

theorem part1_smooth (j : Option (Fin L × Fin 3)) : ContDiff ℝ 3 (part1 m J j) := by
  rcases j with _ | ⟨i, a⟩
  · exact enP_smooth
  · unfold part1
    dsimp only
    by_cases h : (i : ℕ) < m
    · simp only [h, if_true]
      by_cases h0 : a = 0
      · simp only [h0, if_true]
        fun_prop
      · by_cases h1 : a = 1
        · simp only [h1, if_true, if_neg (by decide : ¬(1 : Fin 3) = 0)]
          fun_prop
        · simp only [h0, h1, if_false]
          fun_prop
    · simp only [h, if_false]
      exact contDiff_const

theorem coef_bound {B : ℕ → V3 ℝ} {K : ℝ} (hB : ∀ i, len (B i) ≤ K) (j : Option (Fin L × Fin 3)) : |coef B j| ≤ K + 1 := by
  have K0 : 0 ≤ K := (len_nonneg _).trans (hB 0)
  rcases j with _ | ⟨i, a⟩
  · unfold coef
    rw [abs_one]
    linarith
  · obtain ⟨h1, h2, h3⟩ := abs_le_len (B i)
    have := hB i
    unfold coef
    dsimp only
    split
    · linarith
    · split <;> linarith

theorem energy_parts (hm : m ≤ L) (B : ℕ → V3 ℝ) (v : Fin L → V3 ℝ) :
    ∑ j, coef B j * part1 m J j (coords v) = openEnergy m (atSite v) J B := by
  rw [Fintype.sum_option, Fintype.sum_prod_type]
  simp only [Fin.sum_univ_three]
  have e0 : enP m J (fun _ => zero) (coords v) = ∑ i ∈ Finset.range (m - 1), -dot (atSite v i) (had (J i) (atSite v (i + 1))) := by
    show openEnergy m (atSite v) J (fun _ => zero) = _
    unfold openEnergy
    rw [add_eq_left]
    refine Finset.sum_eq_zero fun i _ => ?_
    simp [dot, zero]
  have e1 : ∑ i ∈ Finset.range m, dot (B i) (atSite v i) = ∑ i : Fin L, if (i : ℕ) < m then dot (B i) (v i) else 0 := by
    have : ∀ i : Fin L, (if (i : ℕ) < m then dot (B i) (v i) else 0) = if (i : ℕ) < m then dot (B i) (atSite v i) else 0 := by
      intro i
      unfold atSite
      rw [dif_pos i.2]
    simp only [this]
    rw [Fin.sum_univ_eq_sum_range (fun i => if i < m then dot (B i) (atSite v i) else 0) L, ← Finset.sum_filter]
    refine Finset.sum_congr ?_ fun _ _ => rfl
    ext i
    simp only [Finset.mem_range, Finset.mem_filter]
    omega
  unfold openEnergy
  rw [e1, ← e0]
  simp only [coef, part1, one_mul]
  congr 1
  refine Finset.sum_congr rfl fun i _ => ?_
  by_cases h : (i : ℕ) < m
  · simp [h, coords, dot]
  · simp [h]

theorem energy_weak (h2 : 2 ≤ m) (hm : m ≤ L) (hγ : 0 ≤ γ) (hβ : 0 < β) {K : ℝ} (hK : 0 ≤ K) (J : ℕ → V3 ℝ)
    (hJ : ∀ i, len (J i) ≤ K) :
    ∃ C, 0 ≤ C ∧ ∀ (B : ℕ → V3 ℝ) (v : Fin L → V3 ℝ) (dt : ℝ), (∀ i, len (B i) ≤ K) → (∀ i, len (v i) = 1) → 0 < dt → dt ≤ 1 →
      |openEnergy m (atSite v) J B| ≤ C ∧
      |∫ ζ, openEnergy m (atSite (afterStep m γ β J B dt v ζ)) J B ∂normals - openEnergy m (atSite v) J B
        - dt * (-γ * torqueExcess m β J B v)| ≤ C * (dt * Real.sqrt dt) := by
  obtain ⟨C, C0, h⟩ := weak_family (m := m) (γ := γ) (β := β) (f := part1 (L := L) m J) Finset.univ part1_smooth h2 hm hγ hβ hK
    (show 0 ≤ K + 1 by linarith)
  refine ⟨C, C0, fun B v dt hB hv d0 d1 => ?_⟩
  have := h J B v dt (coef B) hJ hB hv d0 d1 (coef_bound hB)
  simp only [energy_parts hm] at this
  rwa [energy_generator (by omega)] at this

theorem energy_nice (J B : ℕ → V3 ℝ) : Nice fun v : Fin L → V3 ℝ => openEnergy m (atSite v) J B :=
  Nice.smooth (G := enP m J B) (enP_smooth (n := 1)).continuous

theorem torque_nice (hm : 0 < m) (hγ : γ ≠ 0) (J B : ℕ → V3 ℝ) : Nice fun v : Fin L → V3 ℝ => torqueExcess m β J B v := by
  have h : Nice (generator (L := L) m γ β J B fun v => openEnergy m (atSite v) J B) :=
    generator_nice (F := enP m J B) enP_smooth
  have := (Nice.const (-γ)⁻¹).mul h
  simp only [energy_generator hm] at this
  convert this using 2
  field_simp

/-! ### the torque as a thermometer -/

section
variable {B : ℕ → V3 ℝ}

theorem torque_split {β' : ℝ} (hβ : β ≠ 0) (hβ' : β' ≠ 0) (v : Fin L → V3 ℝ) :
    β * torqueExcess m β J B v = β' * torqueExcess m β' J B v + (β - β') * torqueExcess m 0 J B v := by
  unfold torqueExcess
  rw [Finset.mul_sum, Finset.mul_sum, Finset.mul_sum, ← Finset.sum_add_distrib]
  refine Finset.sum_congr rfl fun i _ => ?_
  split
  · rw [div_zero]
    field_simp
    ring
  · ring

theorem torque_mean (hm : 0 < m) (hβ : β ≠ 0) : openSum L m β J B (torqueExcess m β J B) = 0 := by
  have h := generator_mean (L := L) (γ := -1) (J := J) (B := B) (F := enP m J B) enP_smooth hm hβ
  have e : (generator (L := L) m (-1) β J B fun v => enP m J B (coords v)) = torqueExcess m β J B := by
    funext v
    have := energy_generator (γ := -1) (β := β) (J := J) (B := B) hm v
    rw [neg_neg, one_mul] at this
    exact this
  rwa [e] at h

theorem cross_null {d : V3 ℝ} (hd : d ≠ zero) : sphereMeasure {x | cross x d = zero} = 0 := by
  have l0 : len d ≠ 0 := (len_pos hd).ne'
  have := parallel_null (d := smul (1 / len d) d) (by
    have h := len_sq d
    have e : dot (smul (1 / len d) d) (smul (1 / len d) d) = 1 / len d * (1 / len d) * dot d d := by
      simp only [dot, smul]
      ring
    rw [e, ← h]
    field_simp)
  rw [measure_eq_zero_iff_ae_notMem]
  filter_upwards [this] with x hx hc
  refine hx ?_
  have h : cross x d = zero := hc
  have hx := congrArg V3.x h
  have hy := congrArg V3.y h
  have hz := congrArg V3.z h
  simp only [cross, zero] at hx hy hz
  ext <;> simp only [cross, smul, zero]
  · linear_combination (-1 / len d) * hx
  · linear_combination (-1 / len d) * hy
  · linear_combination (-1 / len d) * hz

theorem torque_pos (h2 : 2 ≤ m) (hm : m ≤ L) (hJ : J 0 ≠ zero) : ∀ᵐ v ∂(Measure.pi fun _ : Fin L => sphereMeasure),
    0 < torqueExcess m 0 J B v := by
  have mO : Measurable fun v : Fin L → V3 ℝ => openOmega m (atSite v) J B 0 := meas_openOmega 0
  have e0 : ∀ v : Fin L → V3 ℝ, openOmega m (atSite v) J B 0 = Spec.sub (had (J 0) (v ⟨1, by omega⟩)) (B 0) := by
    intro v
    unfold openOmega atSite
    rw [if_neg (by omega), if_pos (by omega), dif_pos (by omega)]
    ext <;> simp [Spec.add, Spec.sub, zero]
  have n1 : (Measure.pi fun _ : Fin L => sphereMeasure) {v | openOmega m (atSite v) J B 0 = zero} = 0 := by
    refine coord_section_null (meas_zero mO) ⟨1, by omega⟩ fun v => ?_
    refine measure_mono_null (fun x hx => ?_) (affine_null hJ (B 0))
    have hx' : openOmega m (atSite (Function.update v ⟨1, by omega⟩ x)) J B 0 = zero := hx
    rw [e0, Function.update_self] at hx'
    have hx := congrArg V3.x hx'
    have hy := congrArg V3.y hx'
    have hz := congrArg V3.z hx'
    simp only [Spec.sub, zero] at hx hy hz
    show had (J 0) x = B 0
    ext <;> linarith
  have n2 : (Measure.pi fun _ : Fin L => sphereMeasure) {v | openOmega m (atSite v) J B 0 ≠ zero ∧
      cross (v ⟨0, by omega⟩) (openOmega m (atSite v) J B 0) = zero} = 0 := by
    refine coord_section_null ((meas_zero mO).compl.inter (meas_zero (meas_cross (measurable_pi_apply _) mO))) ⟨0, by omega⟩ fun v => ?_
    by_cases hz : openOmega m (atSite v) J B 0 = zero
    · convert measure_empty (μ := sphereMeasure)
      ext x
      simp only [Set.mem_ofPred_eq, Set.mem_empty_iff_false, iff_false, not_and]
      intro h
      exfalso
      refine h ?_
      rw [e0] at hz ⊢
      rwa [Function.update_of_ne (by simp)]
    · refine measure_mono_null (fun x hx => ?_) (cross_null hz)
      have := hx.2
      rw [e0, Function.update_self, Function.update_of_ne (by simp)] at this
      rw [e0]
      exact this
  rw [measure_eq_zero_iff_ae_notMem] at n1 n2
  filter_upwards [n1, n2] with v a1 a2
  have a3 : cross (v ⟨0, by omega⟩) (openOmega m (atSite v) J B 0) ≠ zero := fun h => a2 ⟨a1, h⟩
  unfold torqueExcess
  refine Finset.sum_pos' (fun i _ => ?_) ⟨⟨0, by omega⟩, Finset.mem_univ _, ?_⟩
  · split
    · rw [div_zero, zero_mul, sub_zero]
      positivity
    · rfl
  · rw [if_pos (Or.inl rfl), div_zero, zero_mul, sub_zero]
    have : len (cross (v ⟨0, by omega⟩) (openOmega m (atSite v) J B 0)) ≠ 0 := (len_pos a3).ne'
    positivity

theorem torque_thermal {β' : ℝ} (h2 : 2 ≤ m) (hm : m ≤ L) (hβ : β ≠ 0) (hβ' : β' ≠ 0) (hJ : J 0 ≠ zero) :
    openSum L m β' J B (torqueExcess m β J B) = 0 ↔ β = β' := by
  constructor
  · intro h
    by_contra hne
    have n0 := torque_nice (L := L) (β := 0) (by omega : 0 < m) one_ne_zero J B
    have n1 := torque_nice (L := L) (β := β') (by omega : 0 < m) one_ne_zero J B
    have nW := weight_nice (L := L) (m := m) (β := β') (J := J) (B := B)
    have e : β * openSum L m β' J B (torqueExcess m β J B) = β' * openSum L m β' J B (torqueExcess m β' J B)
        + (β - β') * openSum L m β' J B (torqueExcess m 0 J B) := by
      unfold openSum
      rw [← integral_const_mul, ← integral_const_mul, ← integral_const_mul,
        ← integral_add ((Nice.const _).mul (n1.mul nW)).integrable ((Nice.const _).mul (n0.mul nW)).integrable]
      refine integral_congr_ae (Filter.Eventually.of_forall fun v => ?_)
      dsimp only
      rw [← mul_assoc, torque_split hβ hβ']
      ring
    rw [h, torque_mean (by omega) hβ', mul_zero, mul_zero, zero_add, eq_comm, mul_eq_zero] at e
    have z := e.resolve_left (sub_ne_zero.2 hne)
    have hp := torque_pos (B := B) h2 hm hJ
    unfold openSum at z
    have hq : 0 ≤ᵐ[Measure.pi fun _ : Fin L => sphereMeasure] fun v => torqueExcess m 0 J B v * openWeight m β' J B v :=
      hp.mono fun v hv => mul_nonneg hv.le (Real.exp_nonneg _)
    rw [integral_eq_zero_iff_of_nonneg_ae hq (n0.mul nW).integrable] at z
    have : ∀ᵐ _v ∂(Measure.pi fun _ : Fin L => sphereMeasure), False := by
      filter_upwards [z, hp] with v a b
      exact (mul_pos b (Real.exp_pos _)).ne' a
    exact this.exists.elim fun _ h => h
  · rintro rfl
    exact torque_mean (by omega) hβ

end

/-- balance of the mean energy along a run -/
theorem first_law (h2 : 2 ≤ m) (hm : m ≤ L) (hγ : 0 < γ) (hβ : 0 < β) {K : ℝ} (hK : 0 ≤ K) (J : ℕ → V3 ℝ)
    (hJ : ∀ i, len (J i) ≤ K) :
    ∃ C, 0 ≤ C ∧ (∀ (B : ℕ → V3 ℝ) (v : Fin L → V3 ℝ), (∀ i, len (B i) ≤ K) → (∀ i, len (v i) = 1) →
        |openEnergy m (atSite v) J B| ≤ C) ∧
      ∀ (b : ℕ → ℕ → V3 ℝ) (v : Fin L → V3 ℝ) (dt : ℝ) (n : ℕ), (∀ k i, len (b k i) ≤ K) → (∀ i, len (v i) = 1) →
        0 < dt → dt ≤ 1 →
        |avg m γ β J dt n b (fun v => openEnergy m (atSite v) J (b n)) v - openEnergy m (atSite v) J (b 0)
          - ∑ k ∈ Finset.range n, avg m γ β J dt (k + 1) b
            (fun v => openEnergy m (atSite v) J (b (k + 1)) - openEnergy m (atSite v) J (b k)) v
          + γ * dt * ∑ k ∈ Finset.range n, avg m γ β J dt k b (torqueExcess m β J (b k)) v| ≤ n * (C * (dt * Real.sqrt dt)) := by
  obtain ⟨C, C0, h⟩ := energy_weak (L := L) (m := m) (γ := γ) (β := β) h2 hm hγ.le hβ hK J hJ
  refine ⟨C, C0, fun B v hB hv => (h B v 1 hB hv one_pos le_rfl).1, fun b v dt n hb hv d0 d1 => ?_⟩
  have nE : ∀ k, Nice fun v : Fin L → V3 ℝ => openEnergy m (atSite v) J (b k) := fun k => energy_nice J (b k)
  have nT : ∀ k, Nice fun v : Fin L → V3 ℝ => torqueExcess m β J (b k) v := fun k => torque_nice (γ := γ) (by omega) hγ.ne' J (b k)
  have step : ∀ k, |avg m γ β J dt (k + 1) b (fun v => openEnergy m (atSite v) J (b k)) v
      - avg m γ β J dt k b (fun v => openEnergy m (atSite v) J (b k)) v
      - dt * (-γ * avg m γ β J dt k b (torqueExcess m β J (b k)) v)| ≤ C * (dt * Real.sqrt dt) := by
    intro k
    have nA := (nE k).step (m := m) (γ := γ) (β := β) (J := J) (dt := dt) (b k)
    rw [avg_back, ← avg_smul, ← avg_smul, ← avg_sub nA (nE k) k b hv,
      ← avg_sub (nA.sub (nE k)) ((Nice.const dt).mul ((Nice.const (-γ)).mul (nT k))) k b hv]
    exact avg_bound (fun v hv => (h (b k) v dt (hb k) hv d0 d1).2) k b hv
  induction n with
  | zero => simp [avg]
  | succ n ih =>
    have s := step n
    rw [Finset.sum_range_succ, Finset.sum_range_succ, avg_sub (nE (n + 1)) (nE n) (n + 1) b hv]
    push_cast
    rw [abs_le] at ih s ⊢
    constructor <;> linarith [ih.1, ih.2, s.1, s.2]

end

end Verif
