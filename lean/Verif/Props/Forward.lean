/-
C95: rounding errors of a run, against exact arithmetic and against the exact motion.

IEEE binary64 arithmetic (`Instances/B64.lean`) with a mathematics library of accuracy `ε` (`AccurateTo`).
-/
import Verif.Lemmas.ForwardRun
import Verif.Props.Order
import Verif.Props.Rounding
import Mathlib.Analysis.Complex.ExponentialBounds

set_option linter.unusedSectionVars false

namespace Verif.Props

open Verif Verif.Spec Verif.Forward

variable {m : Libm}

/-- `d` is the system described by the numbers in `c`, in exact arithmetic: same couplings, static fields and
parameters of the time evolution.  Nothing is said of the spins. -/
structure SameNumbers (c : SpinChain (B64 m)) (d : SpinChain ℝ) : Prop where
  vars : SameVars c.vars d.vars
  t : IsVal c.t d.t
  j : List.Forall₂ IsVal3 c.j_couple d.j_couple
  h : List.Forall₂ IsVal3 c.static_h d.static_h

/-- The spins of `c` are finite, of unit length up to `8 ε`, and within `D` of those of `d`. -/
def Close (ε D : ℝ) (c : SpinChain (B64 m)) (d : SpinChain ℝ) : Prop :=
  ∀ (i : ℕ) (x : Spin (B64 m)) (y : Spin ℝ), c.spins[i]? = some x → d.spins[i]? = some y →
    ∃ v, IsVal3 x.dir v ∧ |len v - 1| ≤ 8 * ε ∧ len (sub v y.dir) ≤ D

/-- couplings and fields (static and driving) are no larger than `M` -/
structure Bounded (d : SpinChain ℝ) (L s : ℕ) (M : ℝ) : Prop where
  lo : 1 ≤ M
  hi : M ≤ 2 ^ 20
  j : ∀ i < L, len (J d i) ≤ M
  b : ∀ t, ∀ i < L, len (B d s t i) ≤ M

/-- the bound on the error after `n` steps of length `dt` -/
noncomputable def roundoff (ε M D T A E : ℝ) (n : ℕ) (dt : ℝ) : ℝ :=
  Real.exp (4 * M * (n * dt)) * (D + n * (4000 * (1 + T * A * E) * ε))

theorem forall₂_get {α β : Type} {R : α → β → Prop} {u : List α} {v : List β} (h : List.Forall₂ R u v) {i : ℕ} {x : α}
    {y : β} (hx : u[i]? = some x) (hy : v[i]? = some y) : R x y := by
  obtain ⟨h1, rfl⟩ := List.getElem?_eq_some_iff.1 hx
  obtain ⟨h2, rfl⟩ := List.getElem?_eq_some_iff.1 hy
  exact h.get h1 h2

theorem omega_le {M : ℝ} {n : ℕ} {J B S : ℕ → V3 ℝ} (hJ : ∀ i < n, len (J i) ≤ M) (hB : ∀ i < n, len (B i) ≤ M)
    (hS : ∀ i < n, len (S i) = 1) {i : ℕ} (hi : i < n) : len (omega n S J B i) ≤ 3 * M := by
  have hl := left_lt (m := n) (i := i) (by omega)
  have hr := right_lt' (m := n) (i := i) (by omega)
  unfold omega
  have h1 := len_had_le (J (left n i)) (S (left n i))
  have h2 := len_had_le (J i) (S (right n i))
  have h3 := len_sub_le (Spec.add (had (J (left n i)) (S (left n i))) (had (J i) (S (right n i)))) (B i)
  have h4 := len_add_le (had (J (left n i)) (S (left n i))) (had (J i) (S (right n i)))
  rw [hS _ hl, mul_one] at h1
  rw [hS _ hr, mul_one] at h2
  have := hJ _ hl
  have := hJ i hi
  have := hB i hi
  linarith

/-- one step of the run -/
theorem close_step {ε M D' Q T A E μ β : ℝ} (he : Tol ε) (hm : AccurateTo ε m) {c : SpinChain (B64 m)}
    {d : SpinChain ℝ} {L s : ℕ} {κ : ℝ} (w : WF c L s) (w' : WF d L s) (hL : 2 ≤ L) (hv : SameVars c.vars d.vars)
    (hj : List.Forall₂ IsVal3 c.j_couple d.j_couple) (hh : List.Forall₂ IsVal3 c.static_h d.static_h)
    (κ0 : 0 ≤ κ) (ht : NearR c.t d.t (κ * T * ε)) (hp : Paced d.vars T A E) (hb : Bounded d L s M)
    (d0 : 0 ≤ d.vars.dt) (d1 : 5 * M * d.vars.dt ≤ 1) (hθ : |d.t + d.vars.dt / 2| ≤ T) (hθ' : |d.t + d.vars.dt| ≤ T)
    (hu : ∀ x ∈ d.spins, IsUnit3 x) (hc : Close ε D' c d)
    (hμ : RegularBy μ (2 * (L / 2)) (J d) (B d s (d.t + d.vars.dt / 2)) d.vars.dt (S d)) (μ0 : 1 / 2 ^ 100 ≤ μ)
    (hk : (50 + 7 * κ) * (T * A * E) * ε ≤ 1 / 8) (hβ : 100 * (κ + 1) * (A * E) * ε + 4 * M * ε ≤ β) (β1 : β ≤ M)
    (hQ : 1000 * ε + (β + 16 * M * ε) * d.vars.dt ≤ Q)
    (small : 2 * M * (Real.exp (4 * M * d.vars.dt) * (D' + 3 * Q)) + β + 16 * M * ε ≤ μ / 2) :
    ∃ c' d', c.update = .ok c' ∧ d.update = .ok d' ∧ NearR c'.t d'.t ((κ + 1) * T * ε) ∧
      (∀ x ∈ d'.spins, IsUnit3 x) ∧ Close ε (Real.exp (4 * M * d.vars.dt) * (D' + 3 * Q)) c' d' := by
  have e0 := Tol.pos he
  have e1 := he.hi
  have M1 := hb.lo
  have M2 := hb.hi
  have hMe : M * ε ≤ 1 / 100 := by
    have : M * ε ≤ 2 ^ 20 * (1 / 2 ^ 30) := mul_le_mul M2 e1 e0.le (by positivity)
    norm_num at *; linarith
  have M3 : M ≤ 2 ^ 100 := by norm_num at *; linarith
  have d2 : d.vars.dt ≤ 1 := by nlinarith
  have hT := hp.T1
  have hA := hp.A1
  have hE := hp.E1
  obtain ⟨e, E', he', hE', hγ⟩ := drive_near he hm hv hp w.hs κ0 ht d0 d2 hθ hk
  obtain ⟨j, h, sp, tj, th, tsp⟩ := wf_tabs w (by omega)
  obtain ⟨sps, g1, g2⟩ := update_tab w hL tj th tsp he'
  have μp : 0 < μ := lt_of_lt_of_le (by positivity) μ0
  obtain ⟨d', f1, f2, f3⟩ := update_spec w' hL hu (hμ.regular μp)
  have wd' := update_wf w' f1
  have fd := update_frame f1
  obtain ⟨δ, δ1, δ2⟩ := hv.dt
  -- tables of values
  have vj : ∀ i < 2 * (L / 2), IsVal3 (j i) (J d i) := fun i hi =>
    forall₂_get hj (tj.getElem? (by omega)) ((tab_J w').getElem? (by omega))
  have vh : ∀ i < 2 * (L / 2), IsVal3 (h i) (H0 d i) := fun i hi =>
    forall₂_get hh (th.getElem? (by omega)) ((tab_H0 w').getElem? (by omega))
  have vs : ∀ i < L, ∃ v, IsVal3 (sp i).dir v ∧ |len v - 1| ≤ 8 * ε ∧ len (sub v (S d i)) ≤ D' := fun i hi =>
    hc i _ _ (tsp.getElem? hi) ((tab_S w').getElem? hi)
  have key : ∀ i, ∃ v, i < L → IsVal3 (sp i).dir v ∧ |len v - 1| ≤ 8 * ε ∧ len (sub v (S d i)) ≤ D' := by
    intro i
    by_cases hi : i < L
    · exact (vs i hi).imp fun v hv _ => hv
    · exact ⟨zero, fun h => absurd h hi⟩
  choose V hV using key
  have AE0 : 0 ≤ 100 * (κ + 1) * (A * E) * ε := by positivity
  have Mε0 : 0 ≤ M * ε := by positivity
  obtain ⟨Bh, hBh⟩ := field_near (s := s) (n := 2 * (L / 2)) he M1 M3 vh hE'
    (D := drive d.vars (d.t + d.vars.dt / 2)) (fun i hi his => by
      have := hb.b (d.t + d.vars.dt / 2) i (by omega)
      rwa [B, if_pos his] at this) hγ (by linarith)
  have uS : ∀ i < L, len (S d i) = 1 := fun i hi => unit_S w' hu hi
  obtain ⟨V', hV'⟩ := step_near (β := β) (D := D') (a := Q) (S := S d) (V := V) (Bh := Bh) (Br := B d s (d.t + d.vars.dt / 2))
    (h := fieldF s h e) (sp := sp)
    he hm M1 M3 hMe vj (fun i hi => hb.j i (by omega))
    (fun i hi => (hBh i hi).1) (fun i hi => hb.b _ i (by omega)) (fun i hi => (hBh i hi).2.trans hβ) β1
    (fun i hi => (hV i (by omega)).1) (fun i hi => (hV i (by omega)).2.1) (fun i hi => (hV i (by omega)).2.2)
    (fun i hi => uS i (by omega)) (by rw [δ2]; exact hμ) μ0 (by rw [δ2]; exact hQ) (by rw [δ2]; exact small) δ1
    (by rw [δ2]; exact d0) (by rw [δ2]; exact d1)
  rw [δ2] at hV'
  refine ⟨_, d', g1, f1, ?_, f2, ?_⟩
  · rw [fd.2.2.2.2.2]
    have b0 : 0 ≤ (50 + 7 * κ) * ε := by positivity
    have AE1 : 1 ≤ A * E := by nlinarith
    have hkT : (50 + 7 * κ) * T * ε ≤ 1 / 8 := by
      have := mul_le_mul_of_nonneg_left AE1 (mul_nonneg b0 (by linarith : (0 : ℝ) ≤ T))
      linarith
    have Tb : T ≤ 2 ^ 200 := by
      have h1 := he.lo
      have h2 : 0 ≤ κ * T * ε := by positivity
      have h3 : T * (1 / 2 ^ 52) ≤ T * ε := mul_le_mul_of_nonneg_left h1 (by linarith)
      norm_num at *
      linarith
    have nd : NearR (c.vars.dt : B64 m) d.vars.dt (0 * ε) := isVal_near hv.dt ε
    refine (ht.add he nd hθ' hT Tb ?_ (by linarith)).mono (le_of_eq (by ring))
    have : 0 ≤ T * ε := by positivity
    linarith
  · intro i x y hx hy
    have hiL : i < L := by
      rw [← wd'.spins]
      exact (List.getElem?_eq_some_iff.1 hy).1
    have hx' : sps[i]? = some x := hx
    rw [g2.getElem? hiL] at hx'
    cases hx'
    have hSd : S d' i = y.dir := by unfold S; rw [hy]; rfl
    rw [← hSd, f3]
    by_cases hi : i < 2 * (L / 2)
    · exact ⟨V' i, hV' i hi⟩
    · refine ⟨V i, ?_⟩
      have n1 : ∀ p : ℕ, ¬(i < 2 * (L / 2) ∧ i % 2 = p) := fun p h => hi h.1
      have e1 : stepF (2 * (L / 2)) j (fieldF s h e) c.vars.dt sp i = sp i := by
        unfold stepF subF
        rw [if_neg (n1 0), if_neg (n1 1), if_neg (n1 0)]
      have e2 : step (2 * (L / 2)) (J d) (B d s (d.t + d.vars.dt / 2)) d.vars.dt (S d) i = S d i := by
        unfold step
        rw [subStep_neg (n1 0), subStep_neg (n1 1), subStep_neg (n1 0)]
      rw [e1, e2]
      refine ⟨(hV i hiL).1, (hV i hiL).2.1, (hV i hiL).2.2.trans ?_⟩
      have D0 : 0 ≤ D' := (len_nonneg _).trans (hV i hiL).2.2
      have β0 : 0 ≤ β := le_trans (by positivity) hβ
      have Q0 : 0 ≤ Q := le_trans (by positivity) hQ
      have : 1 ≤ Real.exp (4 * M * d.vars.dt) := Real.one_le_exp (by positivity)
      nlinarith

/-- Any number of time-steps in binary64, with any of the drives.  `c` is the computed chain, `d` the same system in
exact arithmetic; the run lasts no longer than `T`.  As long as the bound `roundoff` is small compared with the
smallest local field `μ` (divided by six times the largest coupling or field), the computed spins are within
`exp (4 M n dt) (D + 4000 (1 + T A E) n ε)` of those of the exact run, finite, of unit length up to `8 ε`, and the
clock is within `n T ε` of the time. -/
theorem C95_updates {ε M D T A E μ : ℝ} (he : Tol ε) (hm : AccurateTo ε m) (c : SpinChain (B64 m)) (d : SpinChain ℝ)
    (L s n : ℕ) (w : WF c L s) (w' : WF d L s) (hL : 2 ≤ L) (hcd : SameNumbers c d) (hp : Paced d.vars T A E)
    (hb : Bounded d L s M) (d0 : 0 ≤ d.vars.dt) (d1 : 5 * M * d.vars.dt ≤ 1) (hT : |d.t| + n * d.vars.dt ≤ T)
    (hu : ∀ x ∈ d.spins, IsUnit3 x) (hc : Close ε D c d)
    (hμ : ∀ k < n, ∀ d', d.updates k = .ok d' →
      RegularBy μ (2 * (L / 2)) (J d') (B d' s (d'.t + d'.vars.dt / 2)) d'.vars.dt (S d')) (μ0 : 1 / 2 ^ 100 ≤ μ)
    (small : 6 * M * roundoff ε M D T A E n d.vars.dt ≤ μ) :
    ∃ c' d', c.updates n = .ok c' ∧ d.updates n = .ok d' ∧ NearR c'.t d'.t (n * T * ε) ∧
      Close ε (roundoff ε M D T A E n d.vars.dt) c' d' := by
  rcases Nat.eq_zero_or_pos n with rfl | n0
  · refine ⟨c, d, rfl, rfl, ?_, ?_⟩
    · have := isVal_near hcd.t ε
      simpa using this
    · simpa [roundoff] using hc
  have e0 := Tol.pos he
  have e1 := he.hi
  have M1 := hb.lo
  have M2 := hb.hi
  have T1 := hp.T1
  have A1 := hp.A1
  have E1 := hp.E1
  have n1 : (1 : ℝ) ≤ n := by exact_mod_cast n0
  have μM : μ ≤ 3 * M := (hμ 0 n0 d rfl).first 0 (by omega) rfl |>.trans
    (omega_le (fun i hi => hb.j i (by omega)) (fun i hi => hb.b _ i (by omega)) (fun i hi => unit_S w' hu (by omega))
      (by omega))
  have D0 : 0 ≤ D := by
    have h1 : 0 < c.spins.length := by rw [w.spins]; omega
    have h2 : 0 < d.spins.length := by rw [w'.spins]; omega
    obtain ⟨v, _, _, h3⟩ := hc 0 _ _ (List.getElem?_eq_getElem h1) (List.getElem?_eq_getElem h2)
    exact (len_nonneg _).trans h3
  have P0 : 0 ≤ T * A * E := by positivity
  have q0 : 0 ≤ 4000 * (1 + T * A * E) * ε := by positivity
  have mono : ∀ k ≤ n, roundoff ε M D T A E k d.vars.dt ≤ roundoff ε M D T A E n d.vars.dt := by
    intro k hk
    have hk' : (k : ℝ) ≤ n := by exact_mod_cast hk
    unfold roundoff
    have h1 : (k : ℝ) * d.vars.dt ≤ n * d.vars.dt := mul_le_mul_of_nonneg_right hk' d0
    have h2 : (k : ℝ) * (4000 * (1 + T * A * E) * ε) ≤ n * (4000 * (1 + T * A * E) * ε) :=
      mul_le_mul_of_nonneg_right hk' q0
    apply mul_le_mul _ (by linarith) (by positivity) (Real.exp_pos _).le
    exact Real.exp_le_exp.2 (mul_le_mul_of_nonneg_left h1 (by positivity))
  have nq : n * (4000 * (1 + T * A * E) * ε) ≤ roundoff ε M D T A E n d.vars.dt := by
    unfold roundoff
    have h1 : 1 ≤ Real.exp (4 * M * (n * d.vars.dt)) := Real.one_le_exp (by positivity)
    have h2 : 0 ≤ n * (4000 * (1 + T * A * E) * ε) := by positivity
    nlinarith
  have step : ∀ k : ℕ, Real.exp (4 * M * d.vars.dt) *
      (roundoff ε M D T A E k d.vars.dt + 3 * (4000 / 3 * (1 + T * A * E) * ε)) ≤
        roundoff ε M D T A E (k + 1) d.vars.dt := by
    intro k
    unfold roundoff
    rw [show 4 * M * ((k + 1 : ℕ) * d.vars.dt) = 4 * M * d.vars.dt + 4 * M * (k * d.vars.dt) by push_cast; ring, Real.exp_add,
      mul_assoc (Real.exp _) (Real.exp _)]
    apply mul_le_mul_of_nonneg_left _ (Real.exp_pos _).le
    have h1 : 1 ≤ Real.exp (4 * M * (k * d.vars.dt)) := Real.one_le_exp (by positivity)
    have h2 : 3 * (4000 / 3 * (1 + T * A * E) * ε) = 4000 * (1 + T * A * E) * ε := by ring
    rw [h2]
    push_cast
    nlinarith
  generalize hX : roundoff ε M D T A E n d.vars.dt = X at *
  have X1 : X ≤ 1 / 2 := by
    have : 6 * M * X ≤ 3 * M := small.trans μM
    have : M * (6 * X - 3) ≤ 0 := by linarith
    by_contra hx
    push Not at hx
    nlinarith
  -- consequences
  have nz : n * (T * A * E) * ε ≤ 1 / 8000 := by
    have : 0 ≤ (n : ℝ) * ε := by positivity
    linarith
  have ne : n * ε ≤ 1 / 8000 := by
    have : 0 ≤ n * (T * A * E) * ε := by positivity
    linarith
  have AEle : n * (A * E) * ε ≤ n * (T * A * E) * ε := by
    have h := mul_le_mul_of_nonneg_left T1 (show 0 ≤ n * (A * E) * ε by positivity)
    linarith
  have εle : ε ≤ n * ε := by
    have := mul_le_mul_of_nonneg_right n1 e0.le
    linarith
  have Mε : M * ε ≤ 1 / 1024 := by
    have : M * ε ≤ 2 ^ 20 * (1 / 2 ^ 30) := mul_le_mul M2 e1 e0.le (by positivity)
    norm_num at *; linarith
  have ndT : n * d.vars.dt ≤ T := by linarith [abs_nonneg d.t]
  obtain ⟨β, hβ⟩ : ∃ β, β = 100 * (n * (A * E) * ε) + 4 * (M * ε) := ⟨_, rfl⟩
  have β1 : β ≤ M := by rw [hβ]; linarith
  have hQ : 1000 * ε + (β + 16 * M * ε) * d.vars.dt ≤ 4000 / 3 * (1 + T * A * E) * ε := by
    rw [hβ, show 1000 * ε + (100 * (n * (A * E) * ε) + 4 * (M * ε) + 16 * M * ε) * d.vars.dt
      = 1000 * ε + 100 * (n * d.vars.dt * (A * E * ε)) + 4 * (5 * M * d.vars.dt * ε) by ring]
    have h1 := mul_le_mul_of_nonneg_right ndT (show 0 ≤ A * E * ε by positivity)
    have h2 := mul_le_mul_of_nonneg_right d1 e0.le
    have h3 : 0 ≤ T * A * E * ε := by positivity
    linarith
  have tail : β + 16 * M * ε ≤ M * X := by
    have h1 : M * (n * (4000 * (1 + T * A * E) * ε)) ≤ M * X := mul_le_mul_of_nonneg_left nq (by linarith)
    have h2 : M * ε ≤ M * (n * ε) := mul_le_mul_of_nonneg_left εle (by linarith)
    have h3 : n * (A * E) * ε ≤ M * (n * (T * A * E) * ε) := by
      have := mul_le_mul_of_nonneg_right M1 (show 0 ≤ n * (T * A * E) * ε by positivity)
      linarith
    have h4 : 0 ≤ M * (n * ε) := by positivity
    have h5 : 0 ≤ M * (n * (T * A * E) * ε) := by positivity
    rw [hβ]
    linarith
  have key : ∀ k ≤ n, ∃ c' d', c.updates k = .ok c' ∧ d.updates k = .ok d' ∧ NearR c'.t d'.t (k * T * ε) ∧
      (∀ x ∈ d'.spins, IsUnit3 x) ∧ Close ε (roundoff ε M D T A E k d.vars.dt) c' d' := by
    intro k
    induction k with
    | zero =>
      intro _
      refine ⟨c, d, rfl, rfl, ?_, hu, ?_⟩
      · have := isVal_near hcd.t ε
        simpa using this
      · simpa [roundoff] using hc
    | succ k ih =>
      intro hk
      obtain ⟨c1, d1', g1, g2, g3, g4, g5⟩ := ih (by omega)
      have w1 := updates_wf w g1
      have w2 := updates_wf w' g2
      obtain ⟨a1, a2, a3, _⟩ := updates_frame g1
      obtain ⟨b1, b2, b3, _, _, b6⟩ := updates_frame g2
      rw [iterate_add_real] at b6
      have kn : (k : ℝ) + 1 ≤ n := by exact_mod_cast hk
      have tb : ∀ r : ℝ, 0 ≤ r → r ≤ d.vars.dt → |d1'.t + r| ≤ T := by
        intro r r0 r1
        rw [b6]
        have h1 : (k + 1) * d.vars.dt ≤ n * d.vars.dt := mul_le_mul_of_nonneg_right kn d0
        have h2 : 0 ≤ k * d.vars.dt := by positivity
        have h3 := abs_le.1 (le_refl |d.t|)
        rw [abs_le]
        constructor <;> linarith
      have hb1 : Bounded d1' L s M := ⟨M1, M2, fun i hi => by rw [J_congr b1]; exact hb.j i hi, fun t i hi => by
        rw [B_congr (c := d) b2 (by rw [b3])]; exact hb.b t i hi⟩
      have hk1 : (50 + 7 * (k : ℝ)) * (T * A * E) * ε ≤ 1 / 8 := by
        have h1 : (50 + 7 * (k : ℝ)) ≤ 57 * n := by linarith
        have h2 := mul_le_mul_of_nonneg_right h1 (show 0 ≤ T * A * E * ε by positivity)
        linarith
      have hβ' : 100 * ((k : ℝ) + 1) * (A * E) * ε + 4 * M * ε ≤ β := by
        have h2 := mul_le_mul_of_nonneg_right kn (show 0 ≤ A * E * ε by positivity)
        rw [hβ]
        linarith
      obtain ⟨c', d', f1, f2, f3, f4, f5⟩ := close_step (T := T) (Q := 4000 / 3 * (1 + T * A * E) * ε) he hm w1 w2 hL
        (by rw [a3, b3]; exact hcd.vars) (by rw [a1, b1]; exact hcd.j) (by rw [a2, b2]; exact hcd.h)
        (Nat.cast_nonneg k) g3 (by rw [b3]; exact hp) hb1 (by rw [b3]; exact d0) (by rw [b3]; exact d1)
        (by rw [b3]; exact tb _ (by linarith) (by linarith)) (by rw [b3]; exact tb _ d0 le_rfl) g4 g5
        (hμ k (by omega) d1' g2) μ0 hk1 hβ' β1 (by rw [b3]; exact hQ) (by
          rw [b3]
          have h1 := (step k).trans (mono (k + 1) hk)
          have h2 := mul_le_mul_of_nonneg_left h1 (show 0 ≤ 2 * M by linarith)
          linarith)
      refine ⟨c', d', updates_succ'.2 ⟨c1, g1, f1⟩, updates_succ'.2 ⟨d1', g2, f2⟩, by push_cast; exact f3, f4, ?_⟩
      intro i x y hx hy
      obtain ⟨v, v1, v2, v3⟩ := f5 i x y hx hy
      rw [b3] at v3
      exact ⟨v, v1, v2, v3.trans (step k)⟩
  obtain ⟨c', d', f1, f2, f3, f4, f5⟩ := key n le_rfl
  rw [hX] at f5
  exact ⟨c', d', f1, f2, f3, f5⟩

/-- a field along `z` that exceeds the couplings by `μ` -/
theorem regularBy_of_dominant {n : ℕ} (hn : 1 ≤ n) {μ : ℝ} {J B S : ℕ → V3 ℝ} {dt : ℝ}
    (hd : ∀ i < n, |(J (left n i)).z| + |(J i).z| + μ ≤ |(B i).z|) (h : ∀ i < n, len (S i) = 1) :
    RegularBy μ n J B dt S := by
  have key : ∀ S : ℕ → V3 ℝ, (∀ i < n, len (S i) = 1) → ∀ i < n, μ ≤ len (omega n S J B i) := by
    intro S h i hi
    have h1 := abs_z_le_len (S (left n i))
    have h2 := abs_z_le_len (S (right n i))
    rw [h _ (left_lt hn)] at h1
    rw [h _ (right_lt' hn)] at h2
    have e1 : |(J (left n i)).z * (S (left n i)).z| ≤ |(J (left n i)).z| := by
      rw [abs_mul]; exact mul_le_of_le_one_right (abs_nonneg _) h1
    have e2 : |(J i).z * (S (right n i)).z| ≤ |(J i).z| := by
      rw [abs_mul]; exact mul_le_of_le_one_right (abs_nonneg _) h2
    have e3 := abs_z_le_len (omega n S J B i)
    have e4 : (omega n S J B i).z = (J (left n i)).z * (S (left n i)).z + (J i).z * (S (right n i)).z - (B i).z := rfl
    have e5 := abs_sub_abs_le_abs_sub ((B i).z) ((J (left n i)).z * (S (left n i)).z + (J i).z * (S (right n i)).z)
    rw [abs_sub_comm, ← e4] at e5
    have e6 := abs_add_le ((J (left n i)).z * (S (left n i)).z) ((J i).z * (S (right n i)).z)
    have := hd i hi
    linarith
  exact ⟨fun i hi _ => key S h i hi, fun i hi _ => key _ (subStep_len h) i hi,
    fun i hi _ => key _ (subStep_len (subStep_len h)) i hi⟩

/-- With static fields along `z` that exceed the couplings by `μ`, nothing need be known of the run itself. -/
theorem C95_dominant {ε M D T A E μ : ℝ} (he : Tol ε) (hm : AccurateTo ε m) (c : SpinChain (B64 m)) (d : SpinChain ℝ)
    (L s n : ℕ) (w : WF c L s) (w' : WF d L s) (hL : 2 ≤ L) (hcd : SameNumbers c d) (hp : Paced d.vars T A E)
    (hb : Bounded d L s M) (d0 : 0 ≤ d.vars.dt) (d1 : 5 * M * d.vars.dt ≤ 1) (hT : |d.t| + n * d.vars.dt ≤ T)
    (hu : ∀ x ∈ d.spins, IsUnit3 x) (hc : Close ε D c d)
    (hd : ∀ t, ∀ i < 2 * (L / 2), |(J d (left (2 * (L / 2)) i)).z| + |(J d i).z| + μ ≤ |(B d s t i).z|)
    (μ0 : 1 / 2 ^ 100 ≤ μ) (small : 6 * M * roundoff ε M D T A E n d.vars.dt ≤ μ) :
    ∃ c' d', c.updates n = .ok c' ∧ d.updates n = .ok d' ∧ NearR c'.t d'.t (n * T * ε) ∧
      Close ε (roundoff ε M D T A E n d.vars.dt) c' d' := by
  have μp : 0 < μ := lt_of_lt_of_le (by positivity) μ0
  refine C95_updates he hm c d L s n w w' hL hcd hp hb d0 d1 hT hu hc ?_ μ0 small
  intro k _ d' hd'
  have hr := regularRun_of_dominant w' hL hu (fun t i hi => by linarith [hd t i hi]) k
  obtain ⟨w1, u1⟩ := updates_unit w' hL hu hr hd'
  obtain ⟨b1, b2, b3, _⟩ := updates_frame hd'
  refine regularBy_of_dominant (by omega) ?_ (fun i hi => unit_S w1 u1 (by omega))
  rw [J_congr b1, B_congr (c := d) b2 (by rw [b3])]
  exact hd _

/-- Both sources of error: the constant `K` depends on the couplings, the fields, the drive and the length `T'` of time
only.  The computed spins are within `K dt²` (method) plus `roundoff` (arithmetic) of the exact motion. -/
theorem C95_motion (d0 : SpinChain ℝ) (L s : ℕ) (T' : ℝ) (hL : 2 ≤ L) (hev : L % 2 = 0) :
    ∃ K, 0 ≤ K ∧ ∀ (m : Libm) (ε M D T A E μ : ℝ) (c : SpinChain (B64 m)) (d : SpinChain ℝ) (X : ℝ → ℕ → V3 ℝ) (n : ℕ),
      Tol ε → AccurateTo ε m → WF c L s → WF d L s → SameNumbers c d → SameSystem d0 d → Paced d.vars T A E →
      Bounded d L s M → 0 < d.vars.dt → 5 * M * d.vars.dt ≤ 1 → |d.t| + n * d.vars.dt ≤ T → n * d.vars.dt ≤ T' →
      (∀ x ∈ d.spins, IsUnit3 x) → Close ε D c d →
      (∀ k < n, ∀ d', d.updates k = .ok d' →
        RegularBy μ (2 * (L / 2)) (J d') (B d' s (d'.t + d'.vars.dt / 2)) d'.vars.dt (S d')) → 1 / 2 ^ 100 ≤ μ →
      6 * M * roundoff ε M D T A E n d.vars.dt ≤ μ →
      (∀ i < L, X d.t i = S d i) → Motion d L s X d.t (d.t + T') →
      ∃ c', c.updates n = .ok c' ∧ ∀ i x, c'.spins[i]? = some x → ∃ v, IsVal3 x.dir v ∧
        len (sub v (X (d.t + n * d.vars.dt) i)) ≤ K * d.vars.dt ^ 2 + roundoff ε M D T A E n d.vars.dt := by
  obtain ⟨K, hK, h⟩ := C85_global d0 L s T' hL hev
  refine ⟨K, hK, ?_⟩
  intro m ε M D T A E μ c d X n he hm w w' hcd hsys hp hb dpos d1 hT hT' hu hc hμ μ0 small hX0 hX
  have μp : 0 < μ := lt_of_lt_of_le (by positivity) μ0
  obtain ⟨c', d', f1, f2, -, f4⟩ := C95_updates he hm c d L s n w w' hL hcd hp hb dpos.le d1 hT hu hc hμ μ0 small
  refine ⟨c', f1, fun i x hx => ?_⟩
  have hi : i < L := by
    rw [← (updates_wf w f1).spins]
    exact (List.getElem?_eq_some_iff.1 hx).1
  have hi' : i < d'.spins.length := by rw [(updates_wf w' f2).spins]; exact hi
  obtain ⟨v, v1, -, v3⟩ := f4 i x _ hx (List.getElem?_eq_getElem hi')
  refine ⟨v, v1, ?_⟩
  have h1 := h d d' X n w' hsys hu dpos hT' (fun k hk d1 hd1 => (hμ k hk d1 hd1).regular μp) hX0 hX f2 i hi
  have ht : d'.t = d.t + n * d.vars.dt := by
    rw [(updates_frame f2).2.2.2.2.2, iterate_add_real]
  have hS : S d' i = (d'.spins[i]).dir := by unfold S; rw [List.getElem?_eq_getElem hi']; rfl
  rw [ht, hS] at h1
  have h2 := len_sub_tri v (d'.spins[i]).dir (X (d.t + n * d.vars.dt) i)
  linarith

/-! ### An instance -/

open Classical in
/-- a library accurate to `2 ^ (-50)` -/
noncomputable def fineLibm : Libm :=
  let near := fun (f : ℝ → ℝ) (e : ℝ → ℝ) (x : B64v) =>
    if h : ∃ r : ℚ, |(r : ℝ) - f x.val| ≤ e x.val then B64v.fin h.choose else .nan
  { sqrt := near Real.sqrt (fun q => 1 / 2 ^ 53 * Real.sqrt q)
    sin := near Real.sin (fun _ => 1 / 2 ^ 50)
    cos := near Real.cos (fun _ => 1 / 2 ^ 50)
    acos := near Real.arccos (fun _ => 1 / 2 ^ 50)
    atan := id
    exp := near Real.exp (fun _ => 1 / 2 ^ 50)
    ln := id
    tanh := id }

theorem fineLibm_accurate : AccurateTo (1 / 2 ^ 50) fineLibm := by
  constructor
  · intro x q hx hq
    have q0 : (0 : ℚ) < q := lt_of_lt_of_le (by positivity) hq
    have q1 : (0 : ℝ) < q := by exact_mod_cast q0
    have s0 := Real.sqrt_pos.mpr q1
    have h : ∃ r : ℚ, |(r : ℝ) - Real.sqrt x.val| ≤ 1 / 2 ^ 53 * Real.sqrt x.val := by
      rw [hx.val]
      exact exists_near _ _ (by positivity)
    refine ⟨h.choose, .inl (dif_pos h), ?_⟩
    have hv := hx.val
    subst hv
    exact h.choose_spec
  · intro x q hx
    have h : ∃ r : ℚ, |(r : ℝ) - Real.cos x.val| ≤ 1 / 2 ^ 50 := exists_near _ _ (by norm_num)
    refine ⟨h.choose, .inl (dif_pos h), ?_⟩
    have hv := hx.val
    subst hv
    exact h.choose_spec
  · intro x q hx
    have h : ∃ r : ℚ, |(r : ℝ) - Real.sin x.val| ≤ 1 / 2 ^ 50 := exists_near _ _ (by norm_num)
    refine ⟨h.choose, .inl (dif_pos h), ?_⟩
    have hv := hx.val
    subst hv
    exact h.choose_spec

/-- `strongChain` with spins rounded to the precision of the arithmetic -/
def fineChain (m : Libm) : SpinChain (B64 m) :=
  { strongChain m with
    spins := [⟨⟨B64v.fin 1, B64v.fin 0, B64v.nzero⟩⟩, ⟨⟨B64v.fin 0, B64v.fin (-1), B64v.fin 0⟩⟩,
      ⟨⟨B64v.fin 0, B64v.fin 0, B64v.fin 1⟩⟩,
      ⟨⟨B64v.fin (5404319552844595 / 2 ^ 53), B64v.fin (3602879701896397 / 2 ^ 52), B64v.fin 0⟩⟩] }

/-- the same system in exact arithmetic, with exact unit vectors -/
noncomputable def fineReal : SpinChain ℝ where
  vars := { (Config.default : Config ℝ) with
    hsize := 4
    ssize := 2
    dt := 1 / 64
    tau := 1
    e := 1 / 2
    hs := [0, 0, 0]
    drive := .xyelliptic }
  spins := [⟨⟨1, 0, 0⟩⟩, ⟨⟨0, -1, 0⟩⟩, ⟨⟨0, 0, 1⟩⟩, ⟨⟨3 / 5, 4 / 5, 0⟩⟩]
  j_couple := List.replicate 4 ⟨1, 1, 1⟩
  static_h := List.replicate 4 ⟨0, 1 / 2, 5⟩
  t := 0
  file := none

theorem fineReal_J {i : ℕ} (hi : i < 4) : J fineReal i = ⟨1, 1, 1⟩ := by
  unfold J fineReal
  rw [List.getElem?_replicate, if_pos hi]
  rfl

theorem fineReal_H {i : ℕ} (hi : i < 4) : H0 fineReal i = ⟨0, 1 / 2, 5⟩ := by
  unfold H0 fineReal
  rw [List.getElem?_replicate, if_pos hi]
  rfl

theorem fineReal_unit : ∀ x ∈ fineReal.spins, IsUnit3 x := by
  intro x hx
  simp only [fineReal, List.mem_cons, List.not_mem_nil, or_false] at hx
  rcases hx with rfl | rfl | rfl | rfl <;> rw [unit_iff] <;> norm_num [dot]

theorem fineReal_z (t : ℝ) {i : ℕ} (hi : i < 4) : (B fineReal 2 t i).z = 5 := by
  unfold B
  rw [fineReal_H hi]
  split
  · show 5 + (drive fineReal.vars t).z = 5
    unfold drive fineReal
    norm_num
  · rfl

theorem fineReal_bounded : Bounded fineReal 4 2 7 := by
  refine ⟨by norm_num, by norm_num, fun i hi => ?_, fun t i hi => ?_⟩
  · rw [fineReal_J hi]
    exact (len_le_sum _).trans (by norm_num)
  · refine (len_le_sum _).trans ?_
    rw [fineReal_z t hi]
    unfold B
    rw [fineReal_H hi]
    split
    · have h1 := Real.abs_cos_le_one (2 * Real.pi * t / 1)
      have h2 := Real.abs_sin_le_one (2 * Real.pi * t / 1)
      have e1 : (Spec.add (⟨0, 1 / 2, 5⟩ : V3 ℝ) (drive fineReal.vars t)).x = 0 + Real.cos (2 * Real.pi * t / 1) := rfl
      have e2 : (Spec.add (⟨0, 1 / 2, 5⟩ : V3 ℝ) (drive fineReal.vars t)).y
        = 1 / 2 + 1 / 2 * Real.sin (2 * Real.pi * t / 1) := rfl
      rw [e1, e2, zero_add]
      have h3 := abs_add_le (1 / 2 : ℝ) (1 / 2 * Real.sin (2 * Real.pi * t / 1))
      rw [abs_mul, show |(1 / 2 : ℝ)| = 1 / 2 by norm_num] at h3
      norm_num at *
      linarith
    · norm_num

theorem fine_same : SameNumbers (fineChain fineLibm) fineReal := by
  refine ⟨⟨rfl, ⟨1 / 64, .inl rfl, ?_⟩, ⟨1, .inl rfl, ?_⟩, ⟨1 / 2, .inl rfl, ?_⟩, ?_⟩, ⟨0, .inl rfl, ?_⟩, ?_, ?_⟩
  · norm_num [fineReal]
  · norm_num [fineReal]
  · norm_num [fineReal]
  · have z : IsVal (B64v.fin 0) 0 := ⟨0, .inl rfl, by norm_num⟩
    exact .cons z (.cons z (.cons z .nil))
  · norm_num [fineReal]
  · have z : IsVal3 (⟨B64v.fin 1, B64v.fin 1, B64v.fin 1⟩ : V3 (B64 fineLibm)) ⟨1, 1, 1⟩ :=
      ⟨⟨1, .inl rfl, by norm_num⟩, ⟨1, .inl rfl, by norm_num⟩, ⟨1, .inl rfl, by norm_num⟩⟩
    exact .cons z (.cons z (.cons z (.cons z .nil)))
  · have z : IsVal3 (⟨B64v.fin 0, B64v.fin (1 / 2), B64v.fin 5⟩ : V3 (B64 fineLibm)) ⟨0, 1 / 2, 5⟩ :=
      ⟨⟨0, .inl rfl, by norm_num⟩, ⟨1 / 2, .inl rfl, by norm_num⟩, ⟨5, .inl rfl, by norm_num⟩⟩
    exact .cons z (.cons z (.cons z (.cons z .nil)))

theorem fine_close : Close (1 / 2 ^ 50) (1 / 2 ^ 52) (fineChain fineLibm) fineReal := by
  have key : ∀ (x : Spin (B64 fineLibm)) (y v : V3 ℝ), IsVal3 x.dir v → |len v - 1| ≤ 8 * (1 / 2 ^ 50) →
      len (sub v y) ≤ 1 / 2 ^ 52 → ∃ v, IsVal3 x.dir v ∧ |len v - 1| ≤ 8 * (1 / 2 ^ 50) ∧ len (sub v y) ≤ 1 / 2 ^ 52 :=
    fun x y v h1 h2 h3 => ⟨v, h1, h2, h3⟩
  have unit : ∀ v : V3 ℝ, len v = 1 → |len v - 1| ≤ 8 * (1 / 2 ^ 50) := by
    intro v h; rw [h]; norm_num
  have self : ∀ v : V3 ℝ, len (sub v v) ≤ 1 / 2 ^ 52 := by
    intro v
    rw [show len (Spec.sub v v) = 0 by simp [len, dot, Spec.sub]]
    norm_num
  intro i x y hx hy
  have hi : i < 4 := (List.getElem?_eq_some_iff.1 hx).1
  have : i = 0 ∨ i = 1 ∨ i = 2 ∨ i = 3 := by omega
  rcases this with rfl | rfl | rfl | rfl <;> cases hx <;> cases hy
  · exact key _ _ ⟨1, 0, 0⟩ ⟨⟨1, .inl rfl, by norm_num⟩, ⟨0, .inl rfl, by norm_num⟩, ⟨0, .inr ⟨rfl, rfl⟩, by norm_num⟩⟩
      (unit _ (by norm_num [len, dot])) (self _)
  · exact key _ _ ⟨0, -1, 0⟩ ⟨⟨0, .inl rfl, by norm_num⟩, ⟨-1, .inl rfl, by norm_num⟩, ⟨0, .inl rfl, by norm_num⟩⟩
      (unit _ (by norm_num [len, dot])) (self _)
  · exact key _ _ ⟨0, 0, 1⟩ ⟨⟨0, .inl rfl, by norm_num⟩, ⟨0, .inl rfl, by norm_num⟩, ⟨1, .inl rfl, by norm_num⟩⟩
      (unit _ (by norm_num [len, dot])) (self _)
  · refine key _ _ ⟨5404319552844595 / 2 ^ 53, 3602879701896397 / 2 ^ 52, 0⟩ ⟨⟨_, .inl rfl, by push_cast; rfl⟩,
      ⟨_, .inl rfl, by push_cast; rfl⟩, ⟨0, .inl rfl, by norm_num⟩⟩ ?_ ?_
    · unfold len
      refine len_of_sq (by unfold dot; positivity) ?_
      norm_num [dot, abs_le]
    · refine (len_le_sum _).trans ?_
      norm_num [Spec.sub, abs_le]

/-- the bound, for 32 steps: less than `1 / 400` -/
theorem fine_roundoff : roundoff (1 / 2 ^ 50) 7 (1 / 2 ^ 52) 1 1 1 32 fineReal.vars.dt ≤ 1 / 400 := by
  unfold roundoff
  have e1 : Real.exp (4 * 7 * (32 * fineReal.vars.dt)) ≤ 3 ^ 14 := by
    rw [show 4 * 7 * (32 * fineReal.vars.dt) = (14 : ℕ) * 1 by norm_num [fineReal], Real.exp_nat_mul]
    exact pow_le_pow_left₀ (Real.exp_pos _).le (by linarith [Real.exp_one_lt_d9]) _
  calc _ ≤ (3 : ℝ) ^ 14 * (1 / 2 ^ 52 + 32 * (4000 * (1 + 1 * 1 * 1) * (1 / 2 ^ 50))) := by
        apply mul_le_mul_of_nonneg_right _ (by positivity)
        exact_mod_cast e1
    _ ≤ _ := by norm_num

/-- the hypotheses of `C95_dominant` (and hence of `C95_updates`) for 32 steps of a driven chain -/
example : ∃ c' d', (fineChain fineLibm).updates 32 = .ok c' ∧ fineReal.updates 32 = .ok d' ∧
    Close (1 / 2 ^ 50) (1 / 400) c' d' := by
  obtain ⟨c', d', h1, h2, -, h4⟩ := C95_dominant (ε := 1 / 2 ^ 50) (M := 7) (D := 1 / 2 ^ 52) (T := 1) (A := 1) (E := 1)
    (μ := 3) ⟨by norm_num, by norm_num⟩ fineLibm_accurate (fineChain fineLibm) fineReal 4 2 32
    ⟨rfl, rfl, by norm_num, by norm_num, rfl, rfl, rfl, le_refl 3⟩ ⟨rfl, rfl, by norm_num, by norm_num, rfl, rfl, rfl, le_refl 3⟩
    (by norm_num) fine_same ⟨le_rfl, le_rfl, le_rfl, fun _ _ => by norm_num [fineReal], by norm_num [fineReal, abs_le]⟩
    fineReal_bounded (by norm_num [fineReal]) (by norm_num [fineReal]) (by norm_num [fineReal]) fineReal_unit fine_close
    (fun t i hi => by
      rw [fineReal_z t hi, fineReal_J hi, fineReal_J (left_lt (by norm_num))]
      norm_num) (by norm_num) (by linarith [fine_roundoff])
  refine ⟨c', d', h1, h2, fun i x y hx hy => ?_⟩
  obtain ⟨v, v1, v2, v3⟩ := h4 i x y hx hy
  exact ⟨v, v1, v2, v3.trans fine_roundoff⟩

/-- the spins do move: the local field at the first site is not parallel to its spin -/
example : cross (S fineReal 0) (omega 4 (S fineReal) (J fineReal) (B fineReal 2 0) 0) ≠ zero := by
  intro h
  have := congrArg V3.y h
  rw [show (cross (S fineReal 0) (omega 4 (S fineReal) (J fineReal) (B fineReal 2 0) 0)).y
    = (S fineReal 0).z * (omega 4 (S fineReal) (J fineReal) (B fineReal 2 0) 0).x
      - (S fineReal 0).x * (omega 4 (S fineReal) (J fineReal) (B fineReal 2 0) 0).z from rfl] at this
  rw [show (omega 4 (S fineReal) (J fineReal) (B fineReal 2 0) 0).z
    = (J fineReal 3).z * (S fineReal 3).z + (J fineReal 0).z * (S fineReal 1).z - (B fineReal 2 0 0).z from rfl,
    fineReal_z 0 (by norm_num)] at this
  norm_num [S, fineReal, zero] at this

end Verif.Props
