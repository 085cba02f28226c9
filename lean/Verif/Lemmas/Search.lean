/-
Helper lemmas: the temperature search with random estimates.
-/
import Verif.Spec.Search
import Verif.Lemmas.Ergodic
import Verif.Lemmas.Thermal
import Verif.Lemmas.Bisect
import Verif.Lemmas.Estimate
import Verif.Props.Init

namespace Verif.Search

set_option linter.unusedSectionVars false

open MeasureTheory Finset Spec Markov Ergodic
open scoped ENNReal

/-! ### The search asks only at the points of a grid -/

/-- the points of a bracket at which a search of 13 passes can ask -/
noncomputable def grid (l h : ℝ) : Finset ℝ :=
  (range (2 ^ 14 + 1)).image fun m : ℕ => l + (h - l) * m / 2 ^ 14

theorem mem_grid (l h : ℝ) {j m : ℕ} (hj : j ≤ 14) (hm : m ≤ 2 ^ j) : l + (h - l) * m / 2 ^ j ∈ grid l h := by
  refine mem_image.2 ⟨m * 2 ^ (14 - j), ?_, ?_⟩
  · rw [mem_range]
    have : m * 2 ^ (14 - j) ≤ 2 ^ j * 2 ^ (14 - j) := Nat.mul_le_mul_right _ hm
    rw [← pow_add, show j + (14 - j) = 14 by omega] at this
    omega
  · have e : (2 : ℝ) ^ 14 = 2 ^ j * 2 ^ (14 - j) := by rw [← pow_add, show j + (14 - j) = 14 by omega]
    push_cast
    rw [e]
    field_simp

theorem grid_sub {l h : ℝ} (hlh : l ≤ h) : ∀ x ∈ grid l h, x ∈ Set.Icc l h := by
  intro x hx
  obtain ⟨m, hm, rfl⟩ := mem_image.1 hx
  rw [mem_range] at hm
  have h1 : (m : ℝ) / 2 ^ 14 ≤ 1 := by
    rw [div_le_one (by positivity)]
    exact_mod_cast (by omega : m ≤ 2 ^ 14)
  have h2 : (0 : ℝ) ≤ (m : ℝ) / 2 ^ 14 := by positivity
  rw [mul_div_assoc]
  constructor <;> nlinarith

attribute [irreducible] grid

/-- the bracket after `j` halvings -/
def Level (l h : ℝ) (j : ℕ) (b : Bisect ℝ) : Prop :=
  ∃ m : ℕ, m + 1 ≤ 2 ^ j ∧ b.low = l + (h - l) * m / 2 ^ j ∧ b.high = l + (h - l) * (m + 1 : ℕ) / 2 ^ j ∧
    b.mid = l + (h - l) * (2 * m + 1 : ℕ) / 2 ^ (j + 1) ∧ b.calls = j + 3

theorem whileN_congr {σ : Type} {g : σ → Bool} {f f' : σ → R σ} {Inv : ℕ → σ → Prop} {N : ℕ}
    (h : ∀ j s, j < N → Inv j s → f s = f' s ∧ ∀ s', f s = .ok s' → Inv (j + 1) s') :
    ∀ n j s, j + n ≤ N → Inv j s → whileN g f n s = whileN g f' n s := by
  intro n
  induction n with
  | zero => intros; rfl
  | succ n ih =>
    intro j s hj hs
    obtain ⟨e, h'⟩ := h j s (by omega) hs
    unfold whileN
    rw [← e]
    split
    · cases hf : f s with
      | error x => rfl
      | ok s' => exact ih (j + 1) s' (by omega) (h' s' hf)
    · rfl

theorem body_level {l h target : ℝ} {est est' : ℕ → ℝ → R ℝ} (he : ∀ k < 16, ∀ x ∈ grid l h, est k x = est' k x)
    (j : ℕ) (b : Bisect ℝ) (hj : j < 13) (hb : Level l h j b) :
    bisectBody target est b = bisectBody target est' b ∧
      ∀ b', bisectBody target est b = .ok b' → Level l h (j + 1) b' := by
  obtain ⟨m, hm, e1, e2, e3, e4⟩ := hb
  have hp : (2 : ℝ) ^ (j + 1) = 2 ^ j * 2 := pow_succ _ _
  have hp2 : (2 : ℝ) ^ (j + 1 + 1) = 2 ^ j * 2 * 2 := by rw [pow_succ, hp]
  have hpn : (2 : ℕ) ^ (j + 1) = 2 ^ j * 2 := pow_succ _ _
  have hpn2 : (2 : ℕ) ^ (j + 1 + 1) = 2 ^ j * 2 * 2 := by rw [pow_succ, hpn]
  have p0 : (2 : ℝ) ^ j ≠ 0 := by positivity
  unfold bisectBody
  by_cases hc : flt target b.e_mid = true
  · rw [if_pos hc]
    dsimp only
    have em : (0.5 : ℝ) * (b.mid + b.high) = l + (h - l) * (2 * (2 * m + 1) + 1 : ℕ) / 2 ^ (j + 1 + 1) := by
      rw [e2, e3, hp, hp2]
      push_cast
      field_simp
      norm_num
      ring
    have hg : (0.5 : ℝ) * (b.mid + b.high) ∈ grid l h := by
      rw [em]
      exact mem_grid l h (by omega) (by omega)
    rw [he b.calls (by omega) _ hg]
    refine ⟨rfl, fun b' hb' => ?_⟩
    cases h' : est' b.calls (0.5 * (b.mid + b.high)) with
    | error x => rw [h'] at hb'; cases hb'
    | ok e =>
      rw [h'] at hb'
      cases hb'
      refine ⟨2 * m + 1, by omega, e3, ?_, em, by show b.calls + 1 = _; omega⟩
      show b.high = _
      rw [e2, hp]
      push_cast
      field_simp
      ring
  · rw [if_neg hc]
    dsimp only
    have em : (0.5 : ℝ) * (b.low + b.mid) = l + (h - l) * (2 * (2 * m) + 1 : ℕ) / 2 ^ (j + 1 + 1) := by
      rw [e1, e3, hp, hp2]
      push_cast
      field_simp
      norm_num
      ring
    have hg : (0.5 : ℝ) * (b.low + b.mid) ∈ grid l h := by
      rw [em]
      exact mem_grid l h (by omega) (by omega)
    rw [he b.calls (by omega) _ hg]
    refine ⟨rfl, fun b' hb' => ?_⟩
    cases h' : est' b.calls (0.5 * (b.low + b.mid)) with
    | error x => rw [h'] at hb'; cases hb'
    | ok e =>
      rw [h'] at hb'
      cases hb'
      refine ⟨2 * m, by omega, ?_, e3, em, by show b.calls + 1 = _; omega⟩
      show b.low = _
      rw [e1, hp]
      push_cast
      field_simp

theorem bisect_congr {l h target : ℝ} {est est' : ℕ → ℝ → R ℝ}
    (he : ∀ k < 16, ∀ x ∈ grid l h, est k x = est' k x) {n : ℕ} (hn : n ≤ 13) :
    bisect l h target est n = bisect l h target est' n := by
  have gl : l ∈ grid l h := by
    have := mem_grid l h (j := 0) (m := 0) (by omega) (by omega)
    simpa using this
  have gh : h ∈ grid l h := by
    have := mem_grid l h (j := 0) (m := 1) (by omega) (by omega)
    simpa using this
  have em : (0.5 : ℝ) * (l + h) = l + (h - l) * (2 * 0 + 1 : ℕ) / 2 ^ (0 + 1) := by
    norm_num
    ring
  have gm : (0.5 : ℝ) * (l + h) ∈ grid l h := by
    rw [em]
    exact mem_grid l h (by omega) (by omega)
  unfold bisect bisectInit
  dsimp only
  rw [he 0 (by omega) _ gl, he 1 (by omega) _ gm, he 2 (by omega) _ gh]
  cases est' 0 l with
  | error x => rfl
  | ok e0 =>
    cases est' 1 (0.5 * (l + h)) with
    | error x => rfl
    | ok e1 =>
      cases est' 2 h with
      | error x => rfl
      | ok e2 =>
        refine whileN_congr (N := 13) (body_level he) n 0 _ (by omega) ⟨0, by omega, ?_, ?_, em, rfl⟩
        · simp
        · simp

/-! ### One estimate -/

section
variable {L s : ℕ} {c : SpinChain ℝ} {conf : Config ℝ}

/-- a chain is given by its spins -/
theorem withSpins_self {c : SpinChain ℝ} (h : c.spins.length = L) : withSpins c (fun i : Fin L => S c i) = c := by
  have e : (List.ofFn fun i : Fin L => (⟨S c i⟩ : Spin ℝ)) = c.spins := by
    subst h
    refine List.ext_getElem (by simp) fun i h1 h2 => ?_
    rw [List.getElem_ofFn]
    unfold S
    simp [h2]
  unfold withSpins
  rw [e]

/-- without disorder new chains differ in their spins only -/
theorem new_clean (v : ValidConf conf L s) (hj : conf.jvar = 0) (hv : conf.hvar = 0) (hb : conf.beta ≠ 0)
    {u0 zj0 zh0 : ℕ → ℝ} (hc : SpinChain.new conf 0 u0 zj0 zh0 = .ok c) :
    ∀ᵐ w ∂(Measure.pi fun _ : Fin L => tripleMeasure), ∀ zj zh,
      SpinChain.new conf 0 (drawsOf w) zj zh = .ok (withSpins c (path conf.beta L startDir w)) := by
  filter_upwards [nonDegenerate_ae hb L, unitDraws_ae L] with w hn hu zj zh
  obtain ⟨c', hc', hs⟩ := Props.C11_new_unit conf 0 (drawsOf w) zj zh L v.hsize v.L_lt v.hfield v.hs hb hu hn
  obtain ⟨sp, hsp, hlen⟩ := newSpins_ok conf.beta u0 L
  obtain ⟨sp', hsp', hlen'⟩ := newSpins_ok conf.beta (drawsOf w) L
  obtain ⟨f0, f1, f2, fr, hf⟩ := three_le v.hfield
  obtain ⟨h0, h1, h2, hr, hh⟩ := three_le v.hs
  have a := new_eq v.hsize v.L_lt hf hh v.jvar v.hvar 0 u0 zj0 zh0 hsp
  have b := new_eq v.hsize v.L_lt hf hh v.jvar v.hvar 0 (drawsOf w) zj zh hsp'
  have e1 : coupF conf.lambda conf.jvar zj0 = coupF conf.lambda conf.jvar zj := by
    funext x
    simp only [coupF, hj, zero_mul]
  have e2 : fieldN f0 f1 f2 h0 h1 h2 conf.hvar conf.ssize zh0 = fieldN f0 f1 f2 h0 h1 h2 conf.hvar conf.ssize zh := by
    funext x
    simp only [fieldN, hv, zero_mul]
  rw [hc] at a
  rw [hc'] at b
  have hl : c'.spins.length = L := by
    cases b
    exact hlen'
  have hp : path conf.beta L startDir w = fun i : Fin L => S c' i := by
    funext i
    rw [(hs i i.2).1, (walk_path conf.beta w i i.2).2]
  have e3 : ∀ q : Fin L → V3 ℝ, withSpins c q = withSpins c' q := by
    intro q
    cases a
    cases b
    unfold withSpins
    rw [e1, e2]
  rw [hc', hp, e3, withSpins_self hl]

instance (per n : ℕ) [NeZero L] : IsProbabilityMeasure (estLaw L per n) := by
  unfold estLaw
  infer_instance

variable {upd : SpinChain ℝ → Draw ℝ → R (SpinChain ℝ)} {E : SpinChain ℝ → ℝ} {Ev g : (Fin L → V3 ℝ) → ℝ}
  {obs : SpinChain ℝ → R ℝ}

/-- how likely a single estimate is off -/
theorem estimate_bad [NeZero L] (v : ValidConf conf L s) (hj : conf.jvar = 0) (hv : conf.hvar = 0)
    (hb : conf.beta ≠ 0) {u0 zj0 zh0 : ℕ → ℝ} (hc : SpinChain.new conf 0 u0 zj0 zh0 = .ok c) (w : WF c L s)
    (hupd : ∀ (c : SpinChain ℝ) (i : ℕ) (u1 u2 u : ℝ), WF c L s → i < L → 0 ≤ u2 → u2 < 1 →
      upd c ⟨i, u1, u2, u⟩ = .ok (metropolis c.vars.beta
        (E (replace c i (spherePoint u1 u2)) - E c) u c (replace c i (spherePoint u1 u2))))
    (hE : ∀ beta v, E (withSpins (atBeta c beta) v) = Ev v) (tE : Tame Ev)
    (hobs : ∀ beta v, obs (withSpins (atBeta c beta) v) = .ok (g v)) (tg : Tame g) (B : ℝ) :
    ∃ K : ℝ, 0 < K ∧ ∀ beta, 0 ≤ beta → beta ≤ B → ∀ per n : ℕ, 1 ≤ per → 1 ≤ n → ∀ δ : ℝ, 0 < δ → ∀ zj zh : ℕ → ℝ,
      estLaw L per n {r | ¬ ∃ e, estimate upd per n obs conf beta (estRand zj zh r) = .ok e ∧ |e - avg beta Ev g| ≤ δ}
        ≤ ENNReal.ofReal (K / (n * δ ^ 2)) := by
  obtain ⟨D, hD⟩ := tE.bound
  obtain ⟨M, hM⟩ := tg.bound
  obtain ⟨K, hK, h⟩ := average_error (B := B) tE.meas hD
  refine ⟨K * (M ^ 2 + 1), by positivity, fun beta h0 h1 per n hper hn δ hδ zj zh => ?_⟩
  have hn0 : (0 : ℝ) < n := by exact_mod_cast hn
  have wb : WF (atBeta c beta) L s := ⟨w.hsize, w.ssize, w.L_lt, w.s_lt, w.spins, w.j, w.h, w.hs⟩
  have hEe : (fun v : Fin L → V3 ℝ => E (withSpins (atBeta c beta) v)) = Ev := funext (hE beta)
  set T : EstRaw L per n → ℝ := fun r => total (run (move beta Ev) per) g n (path conf.beta L startDir r.1) r.2 / n
    with hT
  have mT : Measurable T := by
    have m1 := meas_total (meas_run (meas_move (β := beta) tE.meas) per) tg.meas n
    have m2 : Measurable fun r : EstRaw L per n => (path conf.beta L startDir r.1, r.2) :=
      ((meas_path' conf.beta L startDir).comp measurable_fst).prodMk measurable_snd
    have := Measurable.comp (g := fun p : (Fin L → V3 ℝ) × (Fin n → Fin per → Raw L) =>
      total (run (move beta Ev) per) g n p.1 p.2) m1 m2
    exact this.div_const _
  have good : ∀ᵐ r ∂(estLaw L per n), estimate upd per n obs conf beta (estRand zj zh r) = .ok (T r) := by
    have g1 := (Measure.quasiMeasurePreserving_fst (μ := Measure.pi fun _ : Fin L => tripleMeasure)
      (ν := blockLaw L per n)).ae (new_clean v hj hv hb hc)
    have g2 := (Measure.quasiMeasurePreserving_snd (μ := Measure.pi fun _ : Fin L => tripleMeasure)
      (ν := blockLaw L per n)).ae (fair_blocks (L := L) per n)
    filter_upwards [g1, g2] with r e1 e2
    unfold estimate estRand
    dsimp only
    rw [e1]
    have := loop_eq (hobs beta) hupd wb per n r.2 e2 (path conf.beta L startDir r.1)
    show (do
      let st ← sampleLoop upd per n obs (blockDraws r.2) (withSpins (atBeta c beta) (path conf.beta L startDir r.1))
      return meanOf st.2 n : R ℝ) = _
    rw [this]
    show Except.ok (meanOf _ n) = _
    rw [vals_mean, hEe]
    rfl
  set a := avg beta Ev g with ha
  calc estLaw L per n {r | ¬ ∃ e, estimate upd per n obs conf beta (estRand zj zh r) = .ok e ∧ |e - a| ≤ δ}
      ≤ estLaw L per n {r | ENNReal.ofReal (δ ^ 2) ≤ ENNReal.ofReal ((T r - a) ^ 2)} := by
        refine measure_mono_ae (good.mono fun r hr hbad => ?_)
        show ENNReal.ofReal (δ ^ 2) ≤ ENNReal.ofReal ((T r - a) ^ 2)
        apply ENNReal.ofReal_le_ofReal
        by_contra hc
        refine hbad ⟨_, hr, ?_⟩
        exact (abs_lt_of_sq_lt_sq (not_le.1 hc) hδ.le).le
    _ ≤ (∫⁻ r, ENNReal.ofReal ((T r - a) ^ 2) ∂(estLaw L per n)) / ENNReal.ofReal (δ ^ 2) := by
        refine meas_ge_le_lintegral_div ?_ ?_ ENNReal.ofReal_ne_top
        · exact ((mT.sub measurable_const).pow_const 2).ennreal_ofReal.aemeasurable
        · simp [hδ.ne']
    _ ≤ ENNReal.ofReal (K * (M ^ 2 + 1) / n) / ENNReal.ofReal (δ ^ 2) := by
        refine ENNReal.div_le_div_right ?_ _
        have mS : Measurable fun r => ENNReal.ofReal ((T r - a) ^ 2) :=
          ((mT.sub measurable_const).pow_const 2).ennreal_ofReal
        unfold estLaw
        rw [lintegral_prod _ mS.aemeasurable]
        calc _ ≤ ∫⁻ _ : Fin L → ℝ × ℝ × ℝ, ENNReal.ofReal (K * (M ^ 2 + 1) / n)
              ∂(Measure.pi fun _ : Fin L => tripleMeasure) := by
              refine lintegral_mono_ae ((path_unit hb L startDir_unit).mono fun x hx => ?_)
              have hx' : Good Sph (path conf.beta L startDir x) := fun i => by
                show len _ = 1
                rw [len, hx i, Real.sqrt_one]
              refine (h beta h0 h1 g M tg.meas hM _ hx' per n hper hn).trans (ENNReal.ofReal_le_ofReal ?_)
              refine div_le_div_of_nonneg_right ?_ hn0.le
              nlinarith
          _ = _ := by rw [lintegral_const, measure_univ, mul_one]
    _ = _ := by
        rw [← ENNReal.ofReal_div_of_pos (by positivity)]
        congr 1
        field_simp

/-- how likely a search goes astray: all estimates it can make are good but for this probability -/
theorem search_bad [NeZero L] (v : ValidConf conf L s) (hj : conf.jvar = 0) (hv : conf.hvar = 0)
    (hb : conf.beta ≠ 0) {u0 zj0 zh0 : ℕ → ℝ} (hc : SpinChain.new conf 0 u0 zj0 zh0 = .ok c) (w : WF c L s)
    (hupd : ∀ (c : SpinChain ℝ) (i : ℕ) (u1 u2 u : ℝ), WF c L s → i < L → 0 ≤ u2 → u2 < 1 →
      upd c ⟨i, u1, u2, u⟩ = .ok (metropolis c.vars.beta
        (E (replace c i (spherePoint u1 u2)) - E c) u c (replace c i (spherePoint u1 u2))))
    (hE : ∀ beta v, E (withSpins (atBeta c beta) v) = Ev v) (tE : Tame Ev)
    (hobs : ∀ beta v, obs (withSpins (atBeta c beta) v) = .ok (g v)) (tg : Tame g)
    {l h : ℝ} (hl : 0 ≤ l) (hlh : l ≤ h) :
    ∃ K : ℝ, 0 < K ∧ ∀ per n : ℕ, 1 ≤ per → 1 ≤ n → ∀ δ : ℝ, 0 < δ → ∀ zj zh : ℕ → ℕ → ℝ,
      searchLaw L per n {r | ¬ ∀ k < 16, ∀ x ∈ grid l h,
        ∃ e, estimate upd per n obs conf x (searchRand zj zh r k) = .ok e ∧ |e - avg x Ev g| ≤ δ}
        ≤ ENNReal.ofReal (K / (n * δ ^ 2)) := by
  obtain ⟨K, hK, hbad⟩ := estimate_bad v hj hv hb hc w hupd hE tE hobs tg h
  obtain ⟨N, hN, hN0⟩ : ∃ N : ℕ, #(grid l h) = N ∧ 0 < N :=
    ⟨_, rfl, card_pos.2 ⟨_, mem_grid l h (j := 0) (m := 0) (by omega) (by omega)⟩⟩
  refine ⟨16 * N * K, by positivity, fun per n hper hn δ hδ zj zh => ?_⟩
  have hn0 : (0 : ℝ) < n := by exact_mod_cast hn
  let bad (k : Fin 16) (x : ℝ) : Set (EstRaw L per n) :=
    {r | ¬ ∃ e, estimate upd per n obs conf x (estRand (zj k) (zh k) r) = .ok e ∧ |e - avg x Ev g| ≤ δ}
  calc _ ≤ searchLaw L per n (⋃ k ∈ (univ : Finset (Fin 16)), ⋃ x ∈ grid l h, (fun r => r k) ⁻¹' bad k x) := by
        refine measure_mono fun r hr => ?_
        have hr : ¬ ∀ k < 16, ∀ x ∈ grid l h,
          ∃ e, estimate upd per n obs conf x (searchRand zj zh r k) = .ok e ∧ |e - avg x Ev g| ≤ δ := hr
        simp only [not_forall] at hr
        obtain ⟨k, hk, x, hx, hn⟩ := hr
        simp only [Set.mem_iUnion]
        refine ⟨⟨k, hk⟩, mem_univ _, x, hx, ?_⟩
        show ¬ _
        unfold searchRand at hn
        rw [dif_pos hk] at hn
        exact hn
    _ ≤ ∑ k : Fin 16, searchLaw L per n (⋃ x ∈ grid l h, (fun r => r k) ⁻¹' bad k x) := measure_biUnion_finset_le _ _
    _ ≤ ∑ k : Fin 16, ∑ x ∈ grid l h, searchLaw L per n ((fun r => r k) ⁻¹' bad k x) :=
        sum_le_sum fun k _ => measure_biUnion_finset_le _ _
    _ ≤ ∑ _k : Fin 16, ∑ _x ∈ grid l h, ENNReal.ofReal (K / (n * δ ^ 2)) := by
        refine sum_le_sum fun k _ => sum_le_sum fun x hx => ?_
        have hx' := grid_sub hlh x hx
        have mp := measurePreserving_eval (fun _ : Fin 16 => estLaw L per n) k
        calc _ ≤ (searchLaw L per n).map (fun r => r k) (bad k x) :=
              Measure.le_map_apply (measurable_pi_apply k).aemeasurable _
          _ = estLaw L per n (bad k x) := by
              have := mp.map_eq
              rw [← this]
              rfl
          _ ≤ _ := hbad x (hl.trans hx'.1) hx'.2 per n hper hn δ hδ _ _
    _ = ENNReal.ofReal (16 * N * K / (n * δ ^ 2)) := by
        rw [sum_const, sum_const, card_univ, Fintype.card_fin, nsmul_eq_mul, nsmul_eq_mul, hN,
          ← ENNReal.ofReal_natCast N, ← ENNReal.ofReal_natCast 16, ← ENNReal.ofReal_mul (by positivity),
          ← ENNReal.ofReal_mul (by positivity)]
        congr 1
        push_cast
        ring

end

end Verif.Search
