/-
Helper lemmas: a temperature search followed by a measurement of observables at the temperature found.
-/
import Verif.Lemmas.Search
import Verif.Props.Search
import Mathlib.MeasureTheory.Measure.Tilted

namespace Verif.FitRow

set_option linter.unusedSectionVars false

open MeasureTheory Finset Spec Markov Ergodic Search
open scoped ENNReal

/-! ### The result of a search is a point of the grid -/

theorem whileN_inv {σ : Type} {g : σ → Bool} {f : σ → R σ} {Inv : ℕ → σ → Prop} {N : ℕ}
    (h : ∀ j s, j < N → Inv j s → ∀ s', f s = .ok s' → Inv (j + 1) s') :
    ∀ n j s t, j + n ≤ N → Inv j s → whileN g f n s = .ok (some t) → Inv (j + n) t := by
  intro n
  induction n with
  | zero =>
    intro j s t hj hs e
    unfold whileN at e
    split at e
    · cases e
    · cases e
      exact hs
  | succ n ih =>
    intro j s t hj hs e
    unfold whileN at e
    split at e
    · cases hf : f s with
      | error x => rw [hf] at e; cases e
      | ok s' =>
        rw [hf] at e
        have := ih (j + 1) s' t (by omega) (h j s (by omega) hs s' hf) e
        rwa [show j + (n + 1) = j + 1 + n by omega]
    · cases e

theorem bisect_grid {l h target : ℝ} {est : ℕ → ℝ → R ℝ} {b : Bisect ℝ} (e : bisect l h target est 13 = .ok (some b)) :
    b.mid ∈ grid l h := by
  have em : (0.5 : ℝ) * (l + h) = l + (h - l) * (2 * 0 + 1 : ℕ) / 2 ^ (0 + 1) := by
    norm_num
    ring
  unfold bisect bisectInit at e
  dsimp only at e
  cases h0 : est 0 l with
  | error x => rw [h0] at e; cases e
  | ok e0 =>
    cases h1 : est 1 (0.5 * (l + h)) with
    | error x => rw [h0, h1] at e; cases e
    | ok e1 =>
      cases h2 : est 2 h with
      | error x => rw [h0, h1, h2] at e; cases e
      | ok e2 =>
        rw [h0, h1, h2] at e
        have := whileN_inv (N := 13) (Inv := Level l h)
          (fun j s hj hs => (body_level (target := target) (est := est) (est' := est) (fun _ _ _ _ => rfl) j s hj hs).2)
          13 0 _ b (by omega) ⟨0, by omega, by simp, by simp, em, rfl⟩ e
        obtain ⟨m, hm, -, -, e3, -⟩ := this
        rw [e3]
        exact mem_grid l h (by omega) (by norm_num at hm ⊢; omega)

/-! ### Four observables at once -/

variable {upd : SpinChain ℝ → Draw ℝ → R (SpinChain ℝ)}

theorem loop_map {α β : Type} {obs : SpinChain ℝ → R α} {obs' : SpinChain ℝ → R β} {f : α → β}
    (h : ∀ c, obs' c = (obs c).map f) (per n : ℕ) (ds : ℕ → ℕ → Draw ℝ) (c : SpinChain ℝ) :
    sampleLoop upd per n obs' ds c = (sampleLoop upd per n obs ds c).map fun st => (st.1, st.2.map f) := by
  unfold sampleLoop forRange
  generalize List.range' 0 (n - 0) = is
  suffices ∀ (c : SpinChain ℝ) (xs : List α),
      is.foldlM (fun (st : SpinChain ℝ × List β) i => (do
        let c ← sweeps upd (ds i) per st.1
        let e ← obs' c
        return (c, st.2 ++ [e]) : R (SpinChain ℝ × List β))) (c, xs.map f)
      = (is.foldlM (fun (st : SpinChain ℝ × List α) i => (do
        let c ← sweeps upd (ds i) per st.1
        let e ← obs c
        return (c, st.2 ++ [e]) : R (SpinChain ℝ × List α))) (c, xs)).map fun st => (st.1, st.2.map f) from this c []
  induction is with
  | nil => intro c xs; rfl
  | cons i is ih =>
    intro c xs
    rw [List.foldlM_cons, List.foldlM_cons]
    dsimp only
    cases sweeps upd (ds i) per c with
    | error x => rfl
    | ok c' =>
      show (do let st ← (do let e ← obs' c'; return (c', xs.map f ++ [e])); _ : R _) = _
      rw [h c']
      cases h1 : obs c' with
      | error x =>
        show _ = Except.map _ (do let st ← (do let e ← obs c'; return (c', xs ++ [e])); _ : R _)
        rw [h1]
        rfl
      | ok e =>
        show _ = Except.map _ (do let st ← (do let e ← obs c'; return (c', xs ++ [e])); _ : R _)
        rw [h1]
        have := ih c' (xs ++ [e])
        rw [List.map_append] at this
        exact this

/-- the measurements of the `get_obs` family (src/obs.rs:279-408) with the number of samples as a parameter (8000 in
the code) -/
noncomputable def observe (upd : SpinChain ℝ → Draw ℝ → R (SpinChain ℝ)) (per samples : ℕ) (e : SpinChain ℝ → R ℝ)
    (conf : Config ℝ) (r : Rand ℝ) : R (ℝ × V3 ℝ) := do
  let conf := { conf with ssize := conf.hsize }
  let sc ← SpinChain.new conf 0 r.u r.zj r.zh
  let st ← sampleLoop upd per samples (obs4 e) r.ds sc
  return (meanOf (st.2.map fun p => p.1) samples,
    ⟨meanOf (st.2.map fun p => p.2.x) samples, meanOf (st.2.map fun p => p.2.y) samples,
      meanOf (st.2.map fun p => p.2.z) samples⟩)

/-- the four columns -/
def col (j : Fin 4) (p : ℝ × V3 ℝ) : ℝ := ![p.1, p.2.x, p.2.y, p.2.z] j

section
variable {L : ℕ} {conf : Config ℝ}

theorem new_vars (v : ValidConf conf L s) {num : ℕ} {u zj zh : ℕ → ℝ} {c : SpinChain ℝ}
    (hc : SpinChain.new conf num u zj zh = .ok c) : c.vars = conf := by
  obtain ⟨f0, f1, f2, fr, hf⟩ := three_le v.hfield
  obtain ⟨h0, h1, h2, hr, hh⟩ := three_le v.hs
  obtain ⟨sp, hsp, -⟩ := newSpins_ok conf.beta u L
  have a := new_eq v.hsize v.L_lt hf hh v.jvar v.hvar num u zj zh hsp
  rw [hc] at a
  cases a
  rfl

/-- chains made at different temperatures from the same draws differ in their spins and
temperature only -/
theorem new_at (v : ValidConf conf L s) {u0 zj0 zh0 : ℕ → ℝ} {c : SpinChain ℝ}
    (hc : SpinChain.new conf 0 u0 zj0 zh0 = .ok c) (x : ℝ) :
    ∃ d, SpinChain.new { conf with beta := x } 0 u0 zj0 zh0 = .ok d ∧
      ∀ b (q : Fin L → V3 ℝ), withSpins (atBeta d b) q = withSpins (atBeta c b) q := by
  obtain ⟨f0, f1, f2, fr, hf⟩ := three_le v.hfield
  obtain ⟨h0, h1, h2, hr, hh⟩ := three_le v.hs
  obtain ⟨sp, hsp, -⟩ := newSpins_ok conf.beta u0 L
  obtain ⟨sp', hsp', -⟩ := newSpins_ok x u0 L
  have a := new_eq v.hsize v.L_lt hf hh v.jvar v.hvar 0 u0 zj0 zh0 hsp
  have b := new_eq (conf := { conf with beta := x }) v.hsize v.L_lt hf hh v.jvar v.hvar 0 u0 zj0 zh0 hsp'
  refine ⟨_, b, fun _ _ => ?_⟩
  rw [hc] at a
  cases a
  rfl

/-- each column is an estimate of its own -/
theorem observe_col (v : ValidConf { conf with ssize := conf.hsize } L L) (per n : ℕ) (e : SpinChain ℝ → R ℝ)
    (r : Rand ℝ) (j : Fin 4) :
    estimate upd per n (fun c => (obs4 e c).map (col j)) { conf with ssize := conf.hsize } conf.beta r
      = (observe upd per n e conf r).map (col j) := by
  unfold estimate observe
  dsimp only
  cases hc : SpinChain.new { conf with ssize := conf.hsize } 0 r.u r.zj r.zh with
  | error x => rfl
  | ok sc =>
    have hv : ({ sc with vars := { sc.vars with beta := conf.beta } } : SpinChain ℝ) = sc := by
      have := new_vars v hc
      rw [this]
      cases sc
      cases this
      rfl
    show (do
      let st ← sampleLoop upd per n (fun c => (obs4 e c).map (col j)) r.ds
        ({ sc with vars := { sc.vars with beta := conf.beta } } : SpinChain ℝ)
      return meanOf st.2 n : R ℝ) = _
    rw [hv, loop_map (obs := obs4 e) (f := col j) fun _ => rfl]
    show _ = Except.map (col j) (do
      let st ← sampleLoop upd per n (obs4 e) r.ds sc
      return _ : R (ℝ × V3 ℝ))
    cases sampleLoop upd per n (obs4 e) r.ds sc with
    | error x => rfl
    | ok st => fin_cases j <;> rfl

variable {E : SpinChain ℝ → ℝ} {Ev : (Fin L → V3 ℝ) → ℝ} {G : (Fin L → V3 ℝ) → ℝ × V3 ℝ} {e : SpinChain ℝ → R ℝ}
  {c : SpinChain ℝ}

/-- one column of a measurement at the inverse temperature of the configuration -/
theorem column_bad [NeZero L] (v : ValidConf { conf with ssize := conf.hsize } L L) (hj : conf.jvar = 0)
    (hv : conf.hvar = 0) (hb : 0 < conf.beta) {u0 zj0 zh0 : ℕ → ℝ}
    (hc : SpinChain.new { conf with ssize := conf.hsize } 0 u0 zj0 zh0 = .ok c)
    (hupd : ∀ (c : SpinChain ℝ) (i : ℕ) (u1 u2 u : ℝ), WF c L L → i < L → 0 ≤ u2 → u2 < 1 →
      upd c ⟨i, u1, u2, u⟩ = .ok (metropolis c.vars.beta
        (E (replace c i (spherePoint u1 u2)) - E c) u c (replace c i (spherePoint u1 u2))))
    (hE : ∀ beta v, E (withSpins (atBeta c beta) v) = Ev v) (tE : Tame Ev)
    (hobs : ∀ beta v, obs4 e (withSpins (atBeta c beta) v) = .ok (G v)) (tG : ∀ j, Tame fun v => col j (G v))
    (j : Fin 4) :
    ∃ K : ℝ, 0 < K ∧ ∀ per n : ℕ, 1 ≤ per → 1 ≤ n → ∀ δ : ℝ, 0 < δ → ∀ zj zh : ℕ → ℝ,
      estLaw L per n {r | ¬ ∃ y, (observe upd per n e conf (estRand zj zh r)).map (col j) = .ok y ∧
          |y - avg conf.beta Ev fun v => col j (G v)| ≤ δ} ≤ ENNReal.ofReal (K / (n * δ ^ 2)) := by
  obtain ⟨K, hK, h⟩ := estimate_bad (upd := upd) (E := E) (Ev := Ev) (g := fun v => col j (G v))
    (obs := fun c => (obs4 e c).map (col j)) v hj hv hb.ne' hc (Props.new_wf v hc) hupd hE tE
    (fun b q => by rw [hobs]; rfl) (tG j) conf.beta
  refine ⟨K, hK, fun per n hper hn δ hδ zj zh => ?_⟩
  have := h conf.beta hb.le le_rfl per n hper hn δ hδ zj zh
  simp only [observe_col v] at this
  exact this

/-- all columns -/
theorem observe_bad [NeZero L] (v : ValidConf { conf with ssize := conf.hsize } L L) (hj : conf.jvar = 0)
    (hv : conf.hvar = 0) (hb : 0 < conf.beta) {u0 zj0 zh0 : ℕ → ℝ}
    (hc : SpinChain.new { conf with ssize := conf.hsize } 0 u0 zj0 zh0 = .ok c)
    (hupd : ∀ (c : SpinChain ℝ) (i : ℕ) (u1 u2 u : ℝ), WF c L L → i < L → 0 ≤ u2 → u2 < 1 →
      upd c ⟨i, u1, u2, u⟩ = .ok (metropolis c.vars.beta
        (E (replace c i (spherePoint u1 u2)) - E c) u c (replace c i (spherePoint u1 u2))))
    (hE : ∀ beta v, E (withSpins (atBeta c beta) v) = Ev v) (tE : Tame Ev)
    (hobs : ∀ beta v, obs4 e (withSpins (atBeta c beta) v) = .ok (G v)) (tG : ∀ j, Tame fun v => col j (G v)) :
    ∃ K : ℝ, 0 < K ∧ ∀ per n : ℕ, 1 ≤ per → 1 ≤ n → ∀ δ : ℝ, 0 < δ → ∀ zj zh : ℕ → ℝ,
      estLaw L per n {q | ¬ ∃ p, observe upd per n e conf (estRand zj zh q) = .ok p ∧
          ∀ j, |col j p - avg conf.beta Ev fun v => col j (G v)| ≤ δ} ≤ ENNReal.ofReal (K / (n * δ ^ 2)) := by
  have one := column_bad v hj hv hb hc hupd hE tE hobs tG
  choose K hK h using one
  refine ⟨∑ j, K j, sum_pos (fun j _ => hK j) ⟨0, mem_univ _⟩, fun per n hper hn δ hδ zj zh => ?_⟩
  calc _ ≤ estLaw L per n (⋃ j ∈ (univ : Finset (Fin 4)),
        {r | ¬ ∃ y, (observe upd per n e conf (estRand zj zh r)).map (col j) = .ok y ∧
          |y - avg conf.beta Ev fun v => col j (G v)| ≤ δ}) := by
        refine measure_mono fun q hq => ?_
        by_contra hno
        have hno : ∀ j : Fin 4, ∃ y, (observe upd per n e conf (estRand zj zh q)).map (col j) = .ok y ∧
            |y - avg conf.beta Ev fun v => col j (G v)| ≤ δ := by
          intro j
          by_contra hj'
          refine hno ?_
          simp only [Set.mem_iUnion]
          exact ⟨j, mem_univ _, hj'⟩
        cases ho : observe upd per n e conf (estRand zj zh q) with
        | error z =>
          obtain ⟨y, hy, -⟩ := hno 0
          rw [ho] at hy
          cases hy
        | ok p =>
          refine hq ⟨p, ho, fun j => ?_⟩
          obtain ⟨y, hy, hy'⟩ := hno j
          rw [ho] at hy
          cases hy
          exact hy'
    _ ≤ ∑ j : Fin 4, _ := measure_biUnion_finset_le _ _
    _ ≤ ∑ j : Fin 4, ENNReal.ofReal (K j / (n * δ ^ 2)) := sum_le_sum fun j _ => h j per n hper hn δ hδ zj zh
    _ = _ := by
        rw [← ENNReal.ofReal_sum_of_nonneg fun j _ => by have := hK j; positivity, sum_div]

/-- a search followed by a measurement at the inverse temperature found: outside a set of small probability the search
is right up to `δ` and each column is right up to `δ` for the inverse temperature found -/
theorem row_bad [NeZero L] {updS : SpinChain ℝ → Draw ℝ → R (SpinChain ℝ)} {perS : ℕ} {obsS : SpinChain ℝ → R ℝ}
    {confS : Config ℝ} {l0 : ℝ} {f : ℝ → ℝ} (hl : l0 = 0.01 ∨ l0 = 0.0001)
    (hS : Props.SearchConsistent updS perS obsS confS L l0 f)
    (v : ValidConf { conf with ssize := conf.hsize } L L) (hj : conf.jvar = 0)
    (hv : conf.hvar = 0) {u0 zj0 zh0 : ℕ → ℝ}
    (hc : SpinChain.new { conf with ssize := conf.hsize } 0 u0 zj0 zh0 = .ok c)
    (hupd : ∀ (c : SpinChain ℝ) (i : ℕ) (u1 u2 u : ℝ), WF c L L → i < L → 0 ≤ u2 → u2 < 1 →
      upd c ⟨i, u1, u2, u⟩ = .ok (metropolis c.vars.beta
        (E (replace c i (spherePoint u1 u2)) - E c) u c (replace c i (spherePoint u1 u2))))
    (hE : ∀ beta v, E (withSpins (atBeta c beta) v) = Ev v) (tE : Tame Ev)
    (hobs : ∀ beta v, obs4 e (withSpins (atBeta c beta) v) = .ok (G v)) (tG : ∀ j, Tame fun v => col j (G v)) {per : ℕ}
    (hper : 1 ≤ per) :
    ∃ K : ℝ, 0 < K ∧ ∀ n n' : ℕ, 1 ≤ n → 1 ≤ n' → ∀ δ : ℝ, 0 < δ → ∀ t : ℝ, t - δ ≤ f l0 → f 5 ≤ t + δ →
      ∀ (zj zh : ℕ → ℕ → ℝ) (zj' zh' : ℕ → ℝ),
      ((searchLaw L perS n).prod (estLaw L per n')) {r | ¬ ∃ b p,
          bisect l0 5 t (fun k beta => estimate updS perS n obsS confS beta (searchRand zj zh r.1 k)) 13 = .ok (some b) ∧
          (∃ beta ∈ Set.Icc l0 5, |beta - b.mid| ≤ 0.0005 ∧ |f beta - t| ≤ δ) ∧
          observe upd per n' e { conf with beta := b.mid } (estRand zj' zh' r.2) = .ok p ∧
          ∀ j, |col j p - avg b.mid Ev fun v => col j (G v)| ≤ δ}
        ≤ ENNReal.ofReal (K / (n * δ ^ 2)) + ENNReal.ofReal (K / (n' * δ ^ 2)) := by
  classical
  obtain ⟨K0, hK0, hS⟩ := hS
  obtain ⟨p0, p1, -, -⟩ := halvings hl
  have one : ∀ x : ℝ, ∃ K : ℝ, 0 < K ∧ (0 < x → ∀ per n : ℕ, 1 ≤ per → 1 ≤ n → ∀ δ : ℝ, 0 < δ → ∀ zj zh : ℕ → ℝ,
      estLaw L per n {q | ¬ ∃ p, observe upd per n e { conf with beta := x } (estRand zj zh q) = .ok p ∧
          ∀ j, |col j p - avg x Ev fun v => col j (G v)| ≤ δ} ≤ ENNReal.ofReal (K / (n * δ ^ 2))) := by
    intro x
    by_cases hx : 0 < x
    · obtain ⟨d, hd, same⟩ := new_at v hc x
      obtain ⟨K, hK, h⟩ := observe_bad (conf := { conf with beta := x }) (c := d) (upd := upd)
        ⟨v.hsize, v.ssize, v.L_two, v.L_lt, v.s_lt, v.hfield, v.hs, v.jvar, v.hvar⟩ hj hv hx hd hupd
        (fun b q => by rw [same]; exact hE b q) tE (fun b q => by rw [same]; exact hobs b q) tG
      exact ⟨K, hK, fun _ => h⟩
    · exact ⟨1, one_pos, fun h => absurd h hx⟩
  choose K hK h using one
  have hKs : 0 ≤ ∑ x ∈ grid l0 5, K x := sum_nonneg fun x _ => (hK x).le
  refine ⟨K0 + ∑ x ∈ grid l0 5, K x, by linarith, fun n n' hn hn' δ hδ t h1 h2 zj zh zj' zh' => ?_⟩
  have hn0 : (0 : ℝ) < n := by exact_mod_cast hn
  have hn0' : (0 : ℝ) < n' := by exact_mod_cast hn'
  set A : Set (Fin 16 → EstRaw L perS n) := {r | ¬ ∃ b, bisect l0 5 t (fun k beta =>
    estimate updS perS n obsS confS beta (searchRand zj zh r k)) 13
          = .ok (some b) ∧ ∃ beta ∈ Set.Icc l0 5, |beta - b.mid| ≤ 0.0005 ∧ |f beta - t| ≤ δ} with hA
  set Bx : ℝ → Set (EstRaw L per n') := fun x =>
    {q | ¬ ∃ p, observe upd per n' e { conf with beta := x } (estRand zj' zh' q) = .ok p ∧
          ∀ j, |col j p - avg x Ev fun v => col j (G v)| ≤ δ} with hB
  have sub : {r : (Fin 16 → EstRaw L perS n) × EstRaw L per n' | ¬ ∃ b p,
          bisect l0 5 t (fun k beta => estimate updS perS n obsS confS beta (searchRand zj zh r.1 k)) 13 = .ok (some b) ∧
          (∃ beta ∈ Set.Icc l0 5, |beta - b.mid| ≤ 0.0005 ∧ |f beta - t| ≤ δ) ∧
          observe upd per n' e { conf with beta := b.mid } (estRand zj' zh' r.2) = .ok p ∧
          ∀ j, |col j p - avg b.mid Ev fun v => col j (G v)| ≤ δ}
      ⊆ A ×ˢ Set.univ ∪ Set.univ ×ˢ ⋃ x ∈ grid l0 5, Bx x := by
    intro r hr
    by_contra hno
    rw [Set.mem_union, not_or] at hno
    obtain ⟨na, nb⟩ := hno
    have na : r.1 ∉ A := fun h => na ⟨h, trivial⟩
    have nb : ∀ x ∈ grid l0 5, r.2 ∉ Bx x := fun x hx h => nb ⟨trivial, by
      simp only [Set.mem_iUnion]
      exact ⟨x, hx, h⟩⟩
    obtain ⟨b, hb, hb'⟩ := not_not.1 na
    obtain ⟨p, hp, hp'⟩ := not_not.1 (nb b.mid (bisect_grid hb))
    exact hr ⟨b, p, hb, hb', hp, hp'⟩
  have : IsProbabilityMeasure (searchLaw L perS n) := by
    unfold searchLaw
    infer_instance
  calc _ ≤ ((searchLaw L perS n).prod (estLaw L per n')) (A ×ˢ Set.univ ∪ Set.univ ×ˢ ⋃ x ∈ grid l0 5, Bx x) :=
        measure_mono sub
    _ ≤ searchLaw L perS n A + estLaw L per n' (⋃ x ∈ grid l0 5, Bx x) := by
        refine (measure_union_le _ _).trans ?_
        rw [Measure.prod_prod, Measure.prod_prod, measure_univ, measure_univ, mul_one, one_mul]
    _ ≤ ENNReal.ofReal (K0 / (n * δ ^ 2)) + ∑ x ∈ grid l0 5, ENNReal.ofReal (K x / (n' * δ ^ 2)) := by
        refine add_le_add (hS n hn δ hδ t h1 h2 zj zh) ((measure_biUnion_finset_le _ _).trans ?_)
        exact sum_le_sum fun x hx => h x (p0.trans_le (grid_sub p1.le x hx).1) per n' hper hn' δ hδ zj' zh'
    _ ≤ _ := by
        rw [← ENNReal.ofReal_sum_of_nonneg fun j _ => by have := hK j; positivity, ← sum_div]
        refine add_le_add (ENNReal.ofReal_le_ofReal ?_) (ENNReal.ofReal_le_ofReal ?_)
        · refine div_le_div_of_nonneg_right (by linarith) (by positivity)
        · refine div_le_div_of_nonneg_right (by linarith) (by positivity)

end

end Verif.FitRow
