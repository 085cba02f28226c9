/-
Property C85: the integrator is of second order (/repo/src/spinchain.rs `update`).
-/
import Verif.Lemmas.Motion
import Verif.Props.Symmetry

namespace Verif.Props

open Spec

/-! ### C85: error of the integrator against the exact motion -/

/-- `X` is an exact motion, from time `a` to time `b`, of the ring of `L` spins with the couplings and
fields of chain `c` (the drive acting on the first `s` sites): every spin turns about its local field,
`dS/dt = S × Ω`. -/
def Motion (c : SpinChain ℝ) (L s : ℕ) (X : ℝ → ℕ → V3 ℝ) (a b : ℝ) : Prop :=
  ∀ t, a ≤ t → t ≤ b → ∀ i < L,
    HasDeriv3 (fun u => X u i) (cross (X t i) (omega L (X t) (J c) (B c s t) i)) t

/-- `c` differs from `c0` at most in its spins, its clock, its time-step and its log file -/
structure SameSystem (c0 c : SpinChain ℝ) : Prop where
  j : c.j_couple = c0.j_couple
  h : c.static_h = c0.static_h
  v : c.vars = { c0.vars with dt := c.vars.dt }

theorem same_J {c0 c : SpinChain ℝ} (h : SameSystem c0 c) : J c = J c0 := J_congr h.j

theorem same_B {c0 c : SpinChain ℝ} (h : SameSystem c0 c) (s : ℕ) (t : ℝ) : B c s t = B c0 s t := by
  apply B_congr h.h
  rw [h.v]
  rfl

/-- C85, one step: for given couplings, fields and drive there is a constant `K` such that one
`update` of any unit spins, at any time and with any time-step up to 1, ends within `K dt³` of the
exact motion from the same spins. -/
theorem C85_local (c0 : SpinChain ℝ) (L s : ℕ) (hL : 2 ≤ L) (he : L % 2 = 0) :
    ∃ K, 0 ≤ K ∧ ∀ (c c' : SpinChain ℝ) (X : ℝ → ℕ → V3 ℝ), WF c L s → SameSystem c0 c →
      (∀ x ∈ c.spins, IsUnit3 x) → 0 < c.vars.dt → c.vars.dt ≤ 1 → RegularStep c L s →
      (∀ i < L, X c.t i = S c i) → Motion c L s X c.t (c.t + c.vars.dt) → c.update = .ok c' →
      ∀ i < L, len (sub (S c' i) (X c'.t i)) ≤ K * c.vars.dt ^ 3 := by
  obtain ⟨l, rfl⟩ : ∃ l, L = 2 * l := ⟨L / 2, by omega⟩
  obtain ⟨b1, b2, K, hK, D⟩ := chain_data c0 s (2 * l)
  obtain ⟨M, hM, hloc⟩ := local_error D
  refine ⟨M, hM, fun c c' X w hc hu h0 h1 hr hX0 hX hup i hi => ?_⟩
  obtain ⟨c2, e1, _, e2⟩ := update_spec w hL hu hr
  rw [hup] at e1
  cases e1
  have ht := (update_frame hup).2.2.2.2.2
  rw [e2, ht, show 2 * (2 * l / 2) = 2 * l by omega, same_J hc, same_B hc]
  have := hloc X c.t c.vars.dt h0.le h1 (fun j hj => by rw [hX0 j hj]; exact unit_of w hu hj)
    (fun u u0 u1 j hj => by
      have := hX (c.t + u) (by linarith) (by linarith) j hj
      rwa [same_J hc, same_B hc] at this) i hi
  have hS : step (2 * l) (J c0) (B c0 s (c.t + c.vars.dt / 2)) c.vars.dt (S c) i
      = step (2 * l) (J c0) (B c0 s (c.t + c.vars.dt / 2)) c.vars.dt (X c.t) i := by
    have h2 := step_dist (J := J c0) (Bf := B c0 s (c.t + c.vars.dt / 2)) (E := 0) (S := S c) (S' := X c.t)
      D.leJ h0.le hK (fun j hj => by
        rw [hX0 j hj, show sub (S c j) (S c j) = zero by ext <;> simp [Spec.sub, zero], len_zero])
      (fun j hj => by rw [hX0 j hj]; exact unit_of w hu hj) i hi
    rw [mul_zero] at h2
    by_contra hne
    have : sub (step (2 * l) (J c0) (B c0 s (c.t + c.vars.dt / 2)) c.vars.dt (S c) i)
        (step (2 * l) (J c0) (B c0 s (c.t + c.vars.dt / 2)) c.vars.dt (X c.t) i) ≠ zero := by
      intro h
      apply hne
      ext
      · have := congrArg V3.x h; simp only [Spec.sub, zero] at this; linarith
      · have := congrArg V3.y h; simp only [Spec.sub, zero] at this; linarith
      · have := congrArg V3.z h; simp only [Spec.sub, zero] at this; linarith
    have := len_pos this
    linarith
  rw [hS]
  exact this

/-- C85, whole run: for given couplings, fields and drive and for a given length `T` of the run there
is a constant `K` such that a run of any unit spins, from any time on, with any time-step, stays
within `K dt²` of the exact motion from the same spins after every number of steps that fits
into `T`. -/
theorem C85_global (c0 : SpinChain ℝ) (L s : ℕ) (T : ℝ) (hL : 2 ≤ L) (he : L % 2 = 0) :
    ∃ K, 0 ≤ K ∧ ∀ (c c' : SpinChain ℝ) (X : ℝ → ℕ → V3 ℝ) (n : ℕ), WF c L s → SameSystem c0 c →
      (∀ x ∈ c.spins, IsUnit3 x) → 0 < c.vars.dt → n * c.vars.dt ≤ T → RegularRun c L s n →
      (∀ i < L, X c.t i = S c i) → Motion c L s X c.t (c.t + T) → c.updates n = .ok c' →
      ∀ i < L, len (sub (S c' i) (X c'.t i)) ≤ K * c.vars.dt ^ 2 := by
  obtain ⟨l, rfl⟩ : ∃ l, L = 2 * l := ⟨L / 2, by omega⟩
  obtain ⟨b1, b2, K, hK, D⟩ := chain_data c0 s (2 * l)
  obtain ⟨M, hM, hglob⟩ := global_error D hK T
  refine ⟨M + 2, by positivity, fun c c' X n w hc hu h0 hn hr hX0 hX hup i hi => ?_⟩
  have hX' : ∀ t, c.t ≤ t → t ≤ c.t + T → ∀ j < 2 * l, HasDeriv3 (fun t => X t j)
      (cross (X t j) (omega (2 * l) (X t) (J c0) (B c0 s t) j)) t := by
    intro t t0 t1 j hj
    have := hX t t0 t1 j hj
    rwa [same_J hc, same_B hc] at this
  have hXu : ∀ j < 2 * l, len (X c.t j) = 1 := fun j hj => by rw [hX0 j hj]; exact unit_of w hu hj
  have hn0 : (0 : ℝ) ≤ n * c.vars.dt := by positivity
  rw [C25_time c c' n hup]
  by_cases h1 : c.vars.dt ≤ 1
  · -- the states of the run
    have hst : ∀ k, ∃ ck, c.updates k = .ok ck := fun k => updates_ok w hL k
    choose st hst using hst
    have h3 := hglob X (fun k => S (st k)) c.t c.vars.dt n h0.le h1 hn hXu hX'
      (fun j hj => by
        have h5 := hst 0
        have h4 : st 0 = c := (Except.ok.inj h5).symm
        show S (st 0) j = _
        rw [h4, hX0 j hj])
      (fun k hk => by
        obtain ⟨ck, e1, e2⟩ := updates_succ'.1 (hst (k + 1))
        have e3 : ck = st k := by
          have := hst k
          rw [e1] at this
          exact Except.ok.inj this
        subst e3
        obtain ⟨wk, uk⟩ := updates_unit w hL hu (fun i hi => hr i (by omega)) e1
        obtain ⟨c2, f1, _, f2⟩ := update_spec wk hL uk (hr k hk _ e1)
        rw [e2] at f1
        have f3 := Except.ok.inj f1
        obtain ⟨a1, a2, a3, _, _, _⟩ := updates_frame e1
        have ek : SameSystem c0 (st k) := ⟨a1.trans hc.j, a2.trans hc.h, by rw [a3]; exact hc.v⟩
        show S (st (k + 1)) = _
        rw [f3, f2, show 2 * (2 * l / 2) = 2 * l by omega, same_J ek, same_B ek, a3, C25_time c _ k e1])
      i hi
    have e : st n = c' := by
      have := hst n
      rw [hup] at this
      exact (Except.ok.inj this).symm
    rw [e] at h3
    have := sq_nonneg c.vars.dt
    linarith
  · -- long steps: both are unit vectors
    obtain ⟨w', u'⟩ := updates_unit w hL hu hr hup
    have e1 : len (S c' i) = 1 := unit_of w' u' hi
    have e2 : len (X (c.t + n * c.vars.dt) i) = 1 := by
      have hd : ∀ u ∈ Set.Icc c.t (c.t + n * c.vars.dt),
          HasDerivWithinAt (fun u => dot (X u i) (X u i)) 0 (Set.Icc c.t (c.t + n * c.vars.dt)) u := by
        intro u hu
        obtain ⟨d1, d2, d3⟩ := hX' u hu.1 (hu.2.trans (by linarith)) i hi
        have := ((d1.mul d1).add (d2.mul d2)).add (d3.mul d3)
        refine (this.congr_deriv ?_).hasDerivWithinAt
        simp only [cross]; ring
      have := (convex_Icc c.t (c.t + n * c.vars.dt)).norm_image_sub_le_of_norm_hasDerivWithin_le (C := 0) hd
        (by simp) (Set.left_mem_Icc.2 (by linarith)) (Set.right_mem_Icc.2 (by linarith))
      rw [zero_mul] at this
      have e : dot (X (c.t + n * c.vars.dt) i) (X (c.t + n * c.vars.dt) i) = dot (X c.t i) (X c.t i) := by
        have := norm_le_zero_iff.1 this
        linarith
      have := hXu i hi
      unfold len at this ⊢
      rw [e, this]
    have h2 := len_sub_le (S c' i) (X (c.t + n * c.vars.dt) i)
    rw [e1, e2] at h2
    have h3 : 1 ≤ c.vars.dt ^ 2 := by nlinarith
    nlinarith

/-- C85, the exact motion exists: whatever the couplings, fields and drive, unit spins have an exact
motion over every stretch of time. -/
theorem C85_exists (c : SpinChain ℝ) (L s : ℕ) (w : WF c L s) (hu : ∀ x ∈ c.spins, IsUnit3 x) (T : ℝ) :
    ∃ X : ℝ → ℕ → V3 ℝ, (∀ i < L, X c.t i = S c i) ∧ Motion c L s X (c.t - T) (c.t + T) := by
  obtain ⟨b1, b2, K, hK, D⟩ := chain_data c s L
  exact motion_exists D hK c.t (S c) (fun j hj => unit_of w hu hj) T

/-- C85, the exact motion is unique: two exact motions that agree at one time agree at every later
time. -/
theorem C85_unique (c : SpinChain ℝ) (L s : ℕ) (X Y : ℝ → ℕ → V3 ℝ) (a b : ℝ)
    (hu : ∀ i < L, len (X a i) = 1) (hX : Motion c L s X a b) (hY : Motion c L s Y a b)
    (h0 : ∀ i < L, Y a i = X a i) (t : ℝ) (h1 : a ≤ t) (h2 : t ≤ b) : ∀ i < L, Y t i = X t i := by
  obtain ⟨b1, b2, K, hK, D⟩ := chain_data c s L
  exact motion_unique D hK hX hY hu h0 h1 h2

/-- C85, convergence: from given spins, the runs with the time-step `dt` approach one and the same exact
motion as `dt` goes to zero, with an error of order `dt²` at all times up to `T`. -/
theorem C85_converges (c : SpinChain ℝ) (L s : ℕ) (T : ℝ) (w : WF c L s) (hL : 2 ≤ L) (he : L % 2 = 0)
    (hu : ∀ x ∈ c.spins, IsUnit3 x) :
    ∃ X : ℝ → ℕ → V3 ℝ, (∀ i < L, X c.t i = S c i) ∧ Motion c L s X c.t (c.t + T) ∧
      ∃ K, 0 ≤ K ∧ ∀ (dt : ℝ) (n : ℕ) (c' : SpinChain ℝ), 0 < dt → n * dt ≤ T →
        RegularRun { c with vars := { c.vars with dt } } L s n →
        SpinChain.updates n { c with vars := { c.vars with dt } } = .ok c' →
        ∀ i < L, len (sub (S c' i) (X (c.t + n * dt) i)) ≤ K * dt ^ 2 := by
  rcases lt_or_ge T 0 with hT | hT
  · refine ⟨fun _ => S c, fun _ _ => rfl, fun t h1 h2 => by linarith, 0, le_rfl, ?_⟩
    intro dt n c' hd hn
    have : (0 : ℝ) ≤ n * dt := by positivity
    linarith
  obtain ⟨X, hX0, hX⟩ := C85_exists c L s w hu T
  have hX' : Motion c L s X c.t (c.t + T) := fun t h1 h2 => hX t (by linarith) h2
  obtain ⟨K, hK, h⟩ := C85_global c L s T hL he
  refine ⟨X, hX0, hX', K, hK, fun dt n c' hd hn hr hup i hi => ?_⟩
  have wd : WF { c with vars := { c.vars with dt } } L s := ⟨w.1, w.2, w.3, w.4, w.5, w.6, w.7, w.8⟩
  have := h { c with vars := { c.vars with dt } } c' X n wd ⟨rfl, rfl, rfl⟩ hu hd hn hr hX0 hX' hup i hi
  rwa [C25_time _ _ _ hup] at this

/-- the driven chain `demo` with its unit spins -/
example (n : ℕ) : WF demo 4 2 ∧ (∀ x ∈ demo.spins, IsUnit3 x) ∧ 0 < demo.vars.dt ∧
    { demo with vars := { demo.vars with dt := demo.vars.dt } } = demo ∧ RegularRun demo 4 2 n ∧
    ∃ c', demo.updates n = .ok c' :=
  ⟨demo_wf, demo_unit, by norm_num [demo, demoVars], rfl,
    regularRun_of_dominant demo_wf (by norm_num) demo_unit demo_dominant n, updates_ok demo_wf (by norm_num) n⟩

/-- the exact motion of the two-sublattice chain `iso`: both sublattices turn about their sum -/
noncomputable def isoMotion (t : ℝ) (i : ℕ) : V3 ℝ :=
  precess (S iso i) (smul 2 (Spec.add (S iso 0) (S iso 1))) (t - iso.t)

theorem precess_add (a b Ω : V3 ℝ) (t : ℝ) :
    precess (Spec.add a b) Ω t = Spec.add (precess a Ω t) (precess b Ω t) := by
  ext <;> simp only [precess, smul, Spec.sub, Spec.add, cross, dot] <;> ring

theorem isoMotion_motion (a b : ℝ) : Motion iso 4 2 isoMotion a b := by
  intro t _ _ i hi
  have h02 : S iso 0 = S iso 2 := by simp [S, iso]
  have h13 : S iso 1 = S iso 3 := by simp [S, iso]
  rw [iso_omega (iso_B rfl rfl t) (by unfold isoMotion; rw [h02]) (by unfold isoMotion; rw [h13]) hi]
  have hsum : Spec.add (isoMotion t i) (isoMotion t (left 4 i)) = Spec.add (S iso 0) (S iso 1) := by
    unfold isoMotion
    rw [← precess_add]
    have hs : Spec.add (S iso i) (S iso (left 4 i)) = Spec.add (S iso 0) (S iso 1) := by
      have : i = 0 ∨ i = 1 ∨ i = 2 ∨ i = 3 := by omega
      rcases this with rfl | rfl | rfl | rfl
      · rw [show left 4 0 = 3 from rfl, ← h13]
      · rw [show left 4 1 = 0 from rfl]; ext <;> simp only [Spec.add] <;> ring
      · rw [show left 4 2 = 1 from rfl, h02]
      · rw [show left 4 3 = 2 from rfl, ← h13, ← h02]; ext <;> simp only [Spec.add] <;> ring
    rw [hs]
    apply precess_parallel
    ext <;> simp only [cross, smul, zero] <;> ring
  have hd := precess_hasDeriv (S iso i) (smul 2 (Spec.add (S iso 0) (S iso 1))) (t - iso.t)
  have e : cross (isoMotion t i) (smul 2 (isoMotion t (left 4 i)))
      = cross (precess (S iso i) (smul 2 (Spec.add (S iso 0) (S iso 1))) (t - iso.t))
        (smul 2 (Spec.add (S iso 0) (S iso 1))) := by
    show _ = cross (isoMotion t i) _
    rw [← hsum, show smul 2 (Spec.add (isoMotion t i) (isoMotion t (left 4 i)))
      = Spec.add (smul 2 (isoMotion t i)) (smul 2 (isoMotion t (left 4 i))) by
        ext <;> simp only [Spec.add, smul] <;> ring]
    ext <;> simp only [cross, smul, Spec.add] <;> ring
  rw [e]
  exact ⟨hd.1.comp_sub_const t iso.t, hd.2.1.comp_sub_const t iso.t, hd.2.2.comp_sub_const t iso.t⟩

/-- the hypotheses of `C85_local` and `C85_global` are met by the chain `iso`, whose exact motion is
known; its spins do move -/
example (n : ℕ) (T : ℝ) : WF iso 4 2 ∧ SameSystem iso iso ∧ (∀ x ∈ iso.spins, IsUnit3 x) ∧ 0 < iso.vars.dt ∧
    iso.vars.dt ≤ 1 ∧ RegularRun iso 4 2 n ∧ (∀ i < 4, isoMotion iso.t i = S iso i) ∧
    Motion iso 4 2 isoMotion iso.t (iso.t + T) ∧ (∃ c', iso.updates n = .ok c') ∧
    cross (S iso 0) (omega 4 (S iso) (J iso) (B iso 2 0) 0) ≠ zero := by
  refine ⟨iso_wf, ⟨rfl, rfl, rfl⟩, iso_unit, ?_, ?_, iso_regular n, ?_, isoMotion_motion _ _,
    updates_ok iso_wf (by norm_num) n, ?_⟩
  · norm_num [iso, demoStatic, demo, demoVars]
  · norm_num [iso, demoStatic, demo, demoVars]
  · intro i _
    rw [isoMotion, sub_self, precess_zero]
  · rw [iso_omega (iso_B rfl rfl 0) (by simp [S, iso]) (by simp [S, iso]) (by norm_num)]
    intro h
    have := congrArg V3.x h
    norm_num [cross, S, iso, smul, left, zero] at this

end Verif.Props
