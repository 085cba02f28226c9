/-
Helper lemmas: a sufficient condition for regular runs, histories, reversal.
-/
import Verif.Lemmas.Dynamics

namespace Verif

open Spec Finset

theorem subStep_len {m par : ℕ} {J B S : ℕ → V3 ℝ} {dt : ℝ} (h : ∀ i < m, len (S i) = 1) :
    ∀ i < m, len (subStep m par J B dt S i) = 1 := by
  intro i hi
  by_cases hc : i < m ∧ i % 2 = par
  · rw [subStep_pos hc, len_precess, h i hi]
  · rw [subStep_neg hc, h i hi]

theorem abs_z_le_len (v : V3 ℝ) : |v.z| ≤ len v := by
  rw [← Real.sqrt_sq_eq_abs]
  apply Real.sqrt_le_sqrt
  unfold dot
  nlinarith [sq_nonneg v.x, sq_nonneg v.y]

/-- a field stronger than the neighbours' exchange in the `z` direction cannot be cancelled -/
theorem omega_ne_of_dominant {m : ℕ} (hm : 1 ≤ m) {J B S : ℕ → V3 ℝ}
    (hd : ∀ i < m, |(J (left m i)).z| + |(J i).z| < |(B i).z|)
    (h : ∀ i < m, len (S i) = 1) : ∀ i < m, omega m S J B i ≠ zero := by
  intro i hi h0
  have hz := congrArg V3.z h0
  simp only [omega, Spec.sub, Spec.add, had, zero] at hz
  have h1 := abs_z_le_len (S (left m i))
  have h2 := abs_z_le_len (S (right m i))
  rw [h _ (left_lt hm)] at h1
  rw [h _ (right_lt' hm)] at h2
  have hb : (B i).z = (J (left m i)).z * (S (left m i)).z + (J i).z * (S (right m i)).z := by
    linarith
  have := hd i hi
  rw [hb] at this
  have e1 : |(J (left m i)).z * (S (left m i)).z| ≤ |(J (left m i)).z| := by
    rw [abs_mul]; exact mul_le_of_le_one_right (abs_nonneg _) h1
  have e2 : |(J i).z * (S (right m i)).z| ≤ |(J i).z| := by
    rw [abs_mul]; exact mul_le_of_le_one_right (abs_nonneg _) h2
  have := abs_add_le ((J (left m i)).z * (S (left m i)).z) ((J i).z * (S (right m i)).z)
  linarith

theorem regular_of_dominant {m : ℕ} (hm : 1 ≤ m) {J B S : ℕ → V3 ℝ} {dt : ℝ}
    (hd : ∀ i < m, |(J (left m i)).z| + |(J i).z| < |(B i).z|)
    (h : ∀ i < m, len (S i) = 1) : Regular m J B dt S :=
  ⟨fun i hi _ => omega_ne_of_dominant hm hd h i hi,
   fun i hi _ => omega_ne_of_dominant hm hd (subStep_len h) i hi,
   fun i hi _ => omega_ne_of_dominant hm hd (subStep_len (subStep_len h)) i hi⟩

section
variable {c : SpinChain ℝ} {L s : ℕ}

/-- invariants along a regular run -/
theorem updates_unit (w : WF c L s) (hL : 2 ≤ L) (hu : ∀ x ∈ c.spins, IsUnit3 x) {n : ℕ}
    (hr : RegularRun c L s n) {c' : SpinChain ℝ} (h : c.updates n = .ok c') :
    WF c' L s ∧ ∀ x ∈ c'.spins, IsUnit3 x := by
  induction n generalizing c' with
  | zero => cases h; exact ⟨w, hu⟩
  | succ n ih =>
    obtain ⟨c1, h1, h2⟩ := updates_succ'.1 h
    obtain ⟨w1, u1⟩ := ih (fun k hk => hr k (by omega)) h1
    obtain ⟨c2, h3, h4, _⟩ := update_spec w1 hL u1 (hr n (by omega) c1 h1)
    rw [h2] at h3
    cases h3
    exact ⟨update_wf w1 h2, h4⟩

theorem updates_frame {F : Type} [Add F] [Sub F] [Mul F] [Div F] [Neg F] [OfScientific F] [FOps F]
    {c c' : SpinChain F} {n : ℕ} (h : c.updates n = .ok c') :
    c'.j_couple = c.j_couple ∧ c'.static_h = c.static_h ∧ c'.vars = c.vars ∧ c'.file = c.file ∧
      c'.spins.length = c.spins.length ∧ c'.t = (fun t => t + c.vars.dt)^[n] c.t := by
  induction n generalizing c' with
  | zero => cases h; exact ⟨rfl, rfl, rfl, rfl, rfl, rfl⟩
  | succ n ih =>
    obtain ⟨c1, h1, h2⟩ := updates_succ'.1 h
    obtain ⟨a1, a2, a3, a4, a5, a6⟩ := ih h1
    obtain ⟨b1, b2, b3, b4, b5, b6⟩ := update_frame h2
    refine ⟨b1.trans a1, b2.trans a2, b3.trans a3, b4.trans a4, b5.trans a5, ?_⟩
    rw [b6, a6, a3, Function.iterate_succ_apply']

theorem iterate_add_real (t dt : ℝ) (n : ℕ) : (fun t => t + dt)^[n] t = t + n * dt := by
  induction n with
  | zero => simp
  | succ n ih => rw [Function.iterate_succ_apply', ih]; push_cast; ring

theorem updates_wf {F : Type} [Add F] [Sub F] [Mul F] [Div F] [Neg F] [OfScientific F] [FOps F]
    {c c' : SpinChain F} (w : WF c L s) {n : ℕ} (h : c.updates n = .ok c') : WF c' L s := by
  obtain ⟨h1, h2, h3, h4, h5, h6⟩ := updates_frame h
  exact ⟨by rw [h3, w.hsize], by rw [h3, w.ssize], w.L_lt, w.s_lt, by rw [h5, w.spins],
    by rw [h1, w.j], by rw [h2, w.h], by rw [h3]; exact w.hs⟩

/-- strong fields make every run regular -/
theorem regularRun_of_dominant (w : WF c L s) (hL : 2 ≤ L) (hu : ∀ x ∈ c.spins, IsUnit3 x)
    (hd : ∀ t, ∀ i < 2 * (L / 2),
      |(J c (left (2 * (L / 2)) i)).z| + |(J c i).z| < |(B c s t i).z|) (n : ℕ) :
    RegularRun c L s n := by
  have key : ∀ n, RegularRun c L s n := by
    intro n
    induction n with
    | zero => intro k hk; omega
    | succ n ih =>
      intro k hk c' hc'
      obtain ⟨w', u'⟩ := updates_unit w hL hu (fun k' hk' => ih k' (by omega)) hc'
      obtain ⟨h1, h2, h3, _⟩ := updates_frame hc'
      refine regular_of_dominant (by omega) ?_ (fun i hi => unit_S w' u' (by omega))
      rw [J_congr h1, B_congr (c := c) h2 (by rw [h3])]
      exact hd _
  exact key n

/-! ### reversal -/

theorem drive_flip (v : Config ℝ) (x t : ℝ) : drive { v with dt := x } t = drive v t := rfl

theorem S_ext {c1 c2 : SpinChain ℝ} (w1 : WF c1 L s) (w2 : WF c2 L s) (h : S c1 = S c2) :
    c1.spins = c2.spins := by
  have t1 := tab_S w1
  have t2 := tab_S w2
  rw [h] at t1
  unfold Tab at t1 t2
  rw [t1, t2]

theorem flip_wf (w : WF c L s) : WF (flipDt c) L s :=
  ⟨w.hsize, w.ssize, w.L_lt, w.s_lt, w.spins, w.j, w.h, w.hs⟩

theorem update_reverse (w : WF c L s) (hL : 2 ≤ L) (hu : ∀ x ∈ c.spins, IsUnit3 x)
    (hr : RegularStep c L s) {c1 : SpinChain ℝ} (h : c.update = .ok c1) :
    (flipDt c1).update = .ok (flipDt c) := by
  obtain ⟨c1', h1, u1, e1⟩ := update_spec w hL hu hr
  rw [h] at h1
  cases h1
  have w1 := update_wf w h
  obtain ⟨f1, f2, f3, f4, f5, f6⟩ := update_frame h
  have hB : B (flipDt c1) s ((flipDt c1).t + (flipDt c1).vars.dt / 2)
      = B c s (c.t + c.vars.dt / 2) := by
    have ht : (flipDt c1).t + (flipDt c1).vars.dt / 2 = c.t + c.vars.dt / 2 := by
      show c1.t + -c1.vars.dt / 2 = _
      rw [f6, f3]; ring
    rw [ht]
    apply B_congr
    · exact f2
    · show drive { c1.vars with dt := -c1.vars.dt } _ = _
      rw [drive_flip, f3]
  have hJ : J (flipDt c1) = J c := J_congr (c := c) f1
  have hdt : (flipDt c1).vars.dt = -c.vars.dt := by show -c1.vars.dt = _; rw [f3]
  have hS : S (flipDt c1) = S c1 := rfl
  have hreg : RegularStep (flipDt c1) L s := by
    unfold RegularStep
    rw [hB, hJ, hdt, hS, e1]
    exact regular_inv hr
  obtain ⟨c2, g1, g2, g3⟩ := update_spec (flip_wf w1) hL u1 hreg
  rw [hB, hJ, hdt, hS, e1, step_inv] at g3
  rw [g1]
  obtain ⟨k1, k2, k3, k4, k5, k6⟩ := update_frame g1
  have hsp := S_ext (update_wf (flip_wf w1) g1) w g3
  congr 1
  obtain ⟨x1, x2, x3, x4, x5, x6⟩ := c2
  simp only at k1 k2 k3 k4 k6 hsp
  subst hsp
  rw [k1, k2, k3, k4, k6]
  show SpinChain.mk c1.j_couple c1.static_h _ (c1.t + -c1.vars.dt)
    { c1.vars with dt := -c1.vars.dt } c1.file = _
  rw [f1, f2, f3, f4, f6]
  unfold flipDt
  congr 1
  ring

theorem updates_reverse (w : WF c L s) (hL : 2 ≤ L) (hu : ∀ x ∈ c.spins, IsUnit3 x) {n : ℕ}
    (hr : RegularRun c L s n) {c1 : SpinChain ℝ} (h : c.updates n = .ok c1) :
    (flipDt c1).updates n = .ok (flipDt c) := by
  induction n generalizing c1 with
  | zero => cases h; rfl
  | succ n ih =>
    obtain ⟨c2, h1, h2⟩ := updates_succ'.1 h
    obtain ⟨w2, u2⟩ := updates_unit w hL hu (fun k hk => hr k (by omega)) h1
    have h3 := update_reverse w2 hL u2 (hr n (by omega) c2 h1) h2
    unfold SpinChain.updates
    rw [h3, ok_bind]
    exact ih (fun k hk => hr k (by omega)) h1

/-! ### energy -/

theorem updates_energy (w : WF c L s) (hL : 2 ≤ L) (he : L % 2 = 0)
    (hd : ∀ t t', drive c.vars t = drive c.vars t')
    (hu : ∀ x ∈ c.spins, IsUnit3 x) {n : ℕ} (hr : RegularRun c L s n) {c' : SpinChain ℝ}
    (h : c.updates n = .ok c') :
    ringEnergy L (S c') (J c') (B c' s c'.t) = ringEnergy L (S c) (J c) (B c s c.t) := by
  induction n generalizing c' with
  | zero => cases h; rfl
  | succ n ih =>
    obtain ⟨c2, h1, h2⟩ := updates_succ'.1 h
    obtain ⟨w2, u2⟩ := updates_unit w hL hu (fun k hk => hr k (by omega)) h1
    rw [← ih (fun k hk => hr k (by omega)) h1]
    obtain ⟨c3, g1, g2, g3⟩ := update_spec w2 hL u2 (hr n (by omega) c2 h1)
    rw [h2] at g1
    cases g1
    obtain ⟨a1, a2, a3, _⟩ := updates_frame h1
    obtain ⟨b1, b2, b3, _⟩ := update_frame h2
    have hB : B c' s c'.t = B c2 s c2.t := B_congr b2 (by rw [b3, a3]; exact hd _ _)
    have hB2 : B c2 s (c2.t + c2.vars.dt / 2) = B c2 s c2.t :=
      B_congr rfl (by rw [a3]; exact hd _ _)
    rw [g3, hB2, hB, J_congr b1]
    obtain ⟨l, rfl⟩ : ∃ l, L = 2 * l := ⟨L / 2, by omega⟩
    rw [show 2 * (2 * l / 2) = 2 * l by omega]
    exact ringEnergy_step (by omega) _ _ _ _

/-! ### uncoupled spins -/

theorem omega_uncoupled {m : ℕ} {J B S : ℕ → V3 ℝ} (hm : 1 ≤ m) (hJ : ∀ i < m, J i = zero) {i : ℕ}
    (hi : i < m) : omega m S J B i = neg (B i) := by
  unfold omega
  rw [hJ i hi, hJ _ (left_lt hm)]
  ext <;> simp [Spec.sub, Spec.add, had, zero, neg]

theorem step_uncoupled {m : ℕ} {J B S : ℕ → V3 ℝ} (hm : 1 ≤ m) (hJ : ∀ i < m, J i = zero) (dt : ℝ)
    {i : ℕ} (hi : i < m) : step m J B dt S i = precess (S i) (neg (B i)) dt := by
  unfold step
  by_cases hp : i % 2 = 0
  · rw [subStep_pos ⟨hi, hp⟩, omega_uncoupled hm hJ hi, subStep_neg (by omega),
      subStep_pos ⟨hi, hp⟩, omega_uncoupled hm hJ hi, precess_precess, add_halves]
  · rw [subStep_neg (by omega), subStep_pos ⟨hi, by omega⟩, omega_uncoupled hm hJ hi,
      subStep_neg (by omega)]

theorem regular_uncoupled {m : ℕ} {J B S : ℕ → V3 ℝ} (hm : 1 ≤ m) (hJ : ∀ i < m, J i = zero)
    (hB : ∀ i < m, B i ≠ zero) (dt : ℝ) : Regular m J B dt S := by
  have key : ∀ S : ℕ → V3 ℝ, ∀ i < m, omega m S J B i ≠ zero := by
    intro S i hi h
    rw [omega_uncoupled hm hJ hi] at h
    apply hB i hi
    have hx := congrArg V3.x h
    have hy := congrArg V3.y h
    have hz := congrArg V3.z h
    simp only [neg, zero, neg_eq_zero] at hx hy hz
    ext <;> simp [zero, hx, hy, hz]
  exact ⟨fun i hi _ => key _ i hi, fun i hi _ => key _ i hi, fun i hi _ => key _ i hi⟩

theorem B_none (hd : c.vars.drive = .none) (t : ℝ) : B c s t = H0 c := by
  funext i
  unfold B drive
  rw [hd]
  split
  · ext <;> simp [Spec.add, zero]
  · rfl

theorem updates_uncoupled (w : WF c L s) (hL : 2 ≤ L) (hu : ∀ x ∈ c.spins, IsUnit3 x)
    (hJ : ∀ i < L, J c i = zero) (hd : c.vars.drive = .none)
    (hH : ∀ i < 2 * (L / 2), H0 c i ≠ zero) (n : ℕ) :
    RegularRun c L s n ∧ ∀ c', c.updates n = .ok c' → ∀ i < 2 * (L / 2),
      S c' i = precess (S c i) (neg (H0 c i)) (n * c.vars.dt) := by
  induction n with
  | zero =>
    refine ⟨fun k hk => by omega, ?_⟩
    intro c' h i _
    cases h
    rw [Nat.cast_zero, zero_mul, precess_zero]
  | succ n ih =>
    obtain ⟨hr, he⟩ := ih
    have hstep : ∀ c', c.updates n = .ok c' → RegularStep c' L s := by
      intro c' h
      obtain ⟨a1, a2, a3, _⟩ := updates_frame h
      unfold RegularStep
      rw [B_none (by rw [a3]; exact hd), J_congr a1, H0_congr a2]
      exact regular_uncoupled (by omega) (fun i hi => hJ i (by omega)) hH _
    refine ⟨?_, ?_⟩
    · intro k hk c' h
      by_cases hkn : k = n
      · subst hkn; exact hstep c' h
      · exact hr k (by omega) c' h
    · intro c' h i hi
      obtain ⟨c2, h1, h2⟩ := updates_succ'.1 h
      obtain ⟨w2, u2⟩ := updates_unit w hL hu hr h1
      obtain ⟨c3, g1, g2, g3⟩ := update_spec w2 hL u2 (hstep c2 h1)
      rw [h2] at g1
      cases g1
      obtain ⟨a1, a2, a3, _⟩ := updates_frame h1
      rw [g3, B_none (by rw [a3]; exact hd), J_congr a1, H0_congr a2, a3,
        step_uncoupled (by omega) (fun i hi => hJ i (by omega)) _ hi, he c2 h1 i hi,
        precess_precess]
      congr 1
      push_cast; ring

end

end Verif
