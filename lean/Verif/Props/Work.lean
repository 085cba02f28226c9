/-
Properties C80 and C81: the energy the drive puts into the chain, and the periodicity of the driven
dynamics (/repo/src/spinchain.rs `update`, `total_energy2`, `m`).
-/
import Verif.Lemmas.EnergyModel
import Verif.Props.Dynamics
import Verif.Props.Energy

namespace Verif.Props

open Spec Finset

/-! ### C80: the reported energy changes exactly by the work of the drive -/

theorem abs_dot_le (a b : V3 ℝ) : |dot a b| ≤ len a * len b := by
  apply abs_le_of_sq_le_sq _ (mul_nonneg (len_nonneg a) (len_nonneg b))
  have := dot_sq_le a b
  rw [← len_sq a, ← len_sq b] at this
  nlinarith

theorem sum_range_ite {L s : ℕ} (hs : s ≤ L) (f : ℕ → ℝ) :
    (∑ i ∈ range L, if i < s then f i else 0) = ∑ i ∈ range s, f i := by
  rw [← Finset.sum_filter]
  congr 1
  ext i
  simp only [mem_filter, mem_range]
  omega

/-- changing the drive changes the Hamiltonian by the change of the field times the magnetisation
of the driven part -/
theorem ringEnergy_drive {c : SpinChain ℝ} {L s : ℕ} (hs : s ≤ L) (Sf : ℕ → V3 ℝ) (t t' : ℝ) :
    ringEnergy L Sf (J c) (B c s t') - ringEnergy L Sf (J c) (B c s t)
      = dot (sub (drive c.vars t') (drive c.vars t))
          ⟨∑ i ∈ range s, (Sf i).x, ∑ i ∈ range s, (Sf i).y, ∑ i ∈ range s, (Sf i).z⟩ := by
  unfold ringEnergy
  rw [← Finset.sum_sub_distrib]
  have : ∀ i ∈ range L,
      (-dot (Sf i) (had (J c i) (Sf ((i + 1) % L))) + dot (B c s t' i) (Sf i))
        - (-dot (Sf i) (had (J c i) (Sf ((i + 1) % L))) + dot (B c s t i) (Sf i))
      = if i < s then dot (sub (drive c.vars t') (drive c.vars t)) (Sf i) else 0 := by
    intro i _
    unfold B
    split
    · simp only [dot, Spec.add, Spec.sub]; ring
    · ring
  rw [Finset.sum_congr rfl this, sum_range_ite hs]
  simp only [dot, Finset.mul_sum, Finset.sum_add_distrib]

/-- One time-step: `hsize` times the change of the reported total energy is the work of the drive.
Its change over the first half of the step acts on the magnetisation before the step, its change
over the second half on the magnetisation after it. -/
theorem C80_step (c : SpinChain ℝ) (L s : ℕ) (w : WF c L s) (hL : 2 ≤ L) (heven : L % 2 = 0)
    (hs : s ≤ L) (hu : ∀ x ∈ c.spins, IsUnit3 x) (hr : RegularStep c L s) :
    ∃ c' E E' M M', c.update = .ok c' ∧ c.total_energy2 = .ok E ∧ c'.total_energy2 = .ok E' ∧
      c.m = .ok M ∧ c'.m = .ok M' ∧
      L * (E' - E)
        = dot (sub (drive c.vars (c.t + c.vars.dt / 2)) (drive c.vars c.t)) M
          + dot (sub (drive c.vars (c.t + c.vars.dt)) (drive c.vars (c.t + c.vars.dt / 2))) M' := by
  obtain ⟨c', h, _, hS⟩ := update_spec w hL hu hr
  have w' := update_wf w h
  obtain ⟨b1, b2, b3, _⟩ := update_frame h
  have ht : c'.t = c.t + c.vars.dt := by
    have := (C25_time c c' 1 (updates_succ'.2 ⟨c, rfl, h⟩))
    simpa using this
  refine ⟨c', _, _, _, _, h, total_energy2_eq w (by omega), total_energy2_eq w' (by omega),
    m_eq w hs, m_eq w' hs, ?_⟩
  have hB : B c' s c'.t = B c s (c.t + c.vars.dt) := B_congr b2 (by rw [b3, ht])
  have e1 := ringEnergy_drive (c := c) hs (S c) c.t (c.t + c.vars.dt / 2)
  have e2 := ringEnergy_drive (c := c) hs (S c') (c.t + c.vars.dt / 2) (c.t + c.vars.dt)
  have e3 : ringEnergy L (S c') (J c) (B c s (c.t + c.vars.dt / 2))
      = ringEnergy L (S c) (J c) (B c s (c.t + c.vars.dt / 2)) := by
    rw [hS]
    obtain ⟨l, rfl⟩ : ∃ l, L = 2 * l := ⟨L / 2, by omega⟩
    rw [show 2 * (2 * l / 2) = 2 * l by omega]
    exact ringEnergy_step (by omega) _ _ _ _
  rw [J_congr b1, hB, ← e1, ← e2, e3]
  have : (L : ℝ) ≠ 0 := by
    have : 0 < L := by omega
    positivity
  field_simp
  ring

/-- A whole run: the energy absorbed in `n` steps is the sum of the work done in each of them. -/
theorem C80_run (c : SpinChain ℝ) (L s n : ℕ) (w : WF c L s) (hL : 2 ≤ L) (heven : L % 2 = 0)
    (hs : s ≤ L) (hu : ∀ x ∈ c.spins, IsUnit3 x) (hr : RegularRun c L s n) :
    ∃ (st : ℕ → SpinChain ℝ) (E : ℕ → ℝ) (M : ℕ → V3 ℝ),
      (∀ k ≤ n, c.updates k = .ok (st k) ∧ (st k).total_energy2 = .ok (E k) ∧
        (st k).m = .ok (M k)) ∧
      L * (E n - E 0) = ∑ k ∈ range n,
        (dot (sub (drive c.vars (c.t + (k + 1 / 2) * c.vars.dt))
            (drive c.vars (c.t + k * c.vars.dt))) (M k)
          + dot (sub (drive c.vars (c.t + (k + 1) * c.vars.dt))
            (drive c.vars (c.t + (k + 1 / 2) * c.vars.dt))) (M (k + 1))) := by
  choose st hst using fun k => updates_ok w hL k
  have hw : ∀ k, WF (st k) L s := fun k => updates_wf w (hst k)
  let E : ℕ → ℝ := fun k => ringEnergy L (S (st k)) (J (st k)) (B (st k) s (st k).t) / L
  let M : ℕ → V3 ℝ := fun k => ⟨∑ i ∈ range s, (S (st k) i).x, ∑ i ∈ range s, (S (st k) i).y,
    ∑ i ∈ range s, (S (st k) i).z⟩
  have hE : ∀ k, (st k).total_energy2 = .ok (E k) := fun k => total_energy2_eq (hw k) (by omega)
  have hM : ∀ k, (st k).m = .ok (M k) := fun k => m_eq (hw k) hs
  refine ⟨st, E, M, fun k _ => ⟨hst k, hE k, hM k⟩, ?_⟩
  have key : ∀ k ≤ n, L * (E k - E 0) = ∑ k ∈ range k,
        (dot (sub (drive c.vars (c.t + (k + 1 / 2) * c.vars.dt))
            (drive c.vars (c.t + k * c.vars.dt))) (M k)
          + dot (sub (drive c.vars (c.t + (k + 1) * c.vars.dt))
            (drive c.vars (c.t + (k + 1 / 2) * c.vars.dt))) (M (k + 1))) := by
    intro k
    induction k with
    | zero => intro _; simp
    | succ k ih =>
      intro hk
      rw [Finset.sum_range_succ, ← ih (by omega)]
      obtain ⟨_, uk⟩ := updates_unit w hL hu (fun j hj => hr j (by omega)) (hst k)
      obtain ⟨c', E1, E2, M1, M2, g1, g2, g3, g4, g5, g6⟩ :=
        C80_step (st k) L s (hw k) hL heven hs uk (hr k (by omega) _ (hst k))
      have hc' : c' = st (k + 1) := by
        have := updates_succ'.2 ⟨st k, hst k, g1⟩
        rw [hst (k + 1)] at this
        exact (Except.ok.inj this).symm
      subst hc'
      rw [hE] at g2 g3
      rw [hM] at g4 g5
      cases g2; cases g3; cases g4; cases g5
      obtain ⟨_, _, a3, _⟩ := updates_frame (hst k)
      rw [a3, C25_time c _ k (hst k)] at g6
      have r1 : c.t + k * c.vars.dt + c.vars.dt / 2 = c.t + (k + 1 / 2) * c.vars.dt := by ring
      have r2 : c.t + k * c.vars.dt + c.vars.dt = c.t + (k + 1) * c.vars.dt := by ring
      rw [r1, r2] at g6
      linarith
  exact key n le_rfl

example (n : ℕ) : WF demo 4 2 ∧ 4 % 2 = 0 ∧ 2 ≤ 4 ∧ demo.vars.drive = .xyplane ∧
    (∀ x ∈ demo.spins, IsUnit3 x) ∧ RegularRun demo 4 2 n :=
  ⟨demo_wf, rfl, by norm_num, rfl, demo_unit, demo_regular n⟩

/-- The absorbed energy is bounded by what the drive can do: per step at most twice `ssize` times the
largest change of the driving field over half a step. -/
theorem C80_bound (c : SpinChain ℝ) (L s : ℕ) (w : WF c L s) (hL : 2 ≤ L) (heven : L % 2 = 0)
    (hs : s ≤ L) (hu : ∀ x ∈ c.spins, IsUnit3 x) (hr : RegularStep c L s) (δ : ℝ)
    (h1 : len (sub (drive c.vars (c.t + c.vars.dt / 2)) (drive c.vars c.t)) ≤ δ)
    (h2 : len (sub (drive c.vars (c.t + c.vars.dt)) (drive c.vars (c.t + c.vars.dt / 2))) ≤ δ) :
    ∃ c' E E', c.update = .ok c' ∧ c.total_energy2 = .ok E ∧ c'.total_energy2 = .ok E' ∧
      L * |E' - E| ≤ 2 * s * δ := by
  obtain ⟨c', E, E', M, M', g1, g2, g3, g4, g5, g6⟩ := C80_step c L s w hL heven hs hu hr
  refine ⟨c', E, E', g1, g2, g3, ?_⟩
  obtain ⟨c1, k1, k2, _⟩ := update_spec w hL hu hr
  rw [g1] at k1
  cases k1
  have b1 := (C21_magnetisation_bound c L s w hs hu).1 M g4
  have b2 := (C21_magnetisation_bound c' L s (update_wf w g1) hs k2).1 M' g5
  have a1 := abs_dot_le (sub (drive c.vars (c.t + c.vars.dt / 2)) (drive c.vars c.t)) M
  have a2 := abs_dot_le (sub (drive c.vars (c.t + c.vars.dt))
    (drive c.vars (c.t + c.vars.dt / 2))) M'
  have p1 : len (sub (drive c.vars (c.t + c.vars.dt / 2)) (drive c.vars c.t)) * len M ≤ δ * s :=
    mul_le_mul h1 b1 (len_nonneg _) (le_trans (len_nonneg _) h1)
  have p2 : len (sub (drive c.vars (c.t + c.vars.dt)) (drive c.vars (c.t + c.vars.dt / 2)))
      * len M' ≤ δ * s :=
    mul_le_mul h2 b2 (len_nonneg _) (le_trans (len_nonneg _) h1)
  have : L * |E' - E| = |L * (E' - E)| := by
    rw [abs_mul, abs_of_nonneg (by positivity : (0 : ℝ) ≤ L)]
  rw [this, g6]
  refine le_trans (abs_add_le _ _) ?_
  linarith

/-! ### C81: the driven dynamics repeats with the period of the drive -/

/-- the same chain with its clock moved by `k` drive periods -/
def shiftClock (k : ℤ) (c : SpinChain ℝ) : SpinChain ℝ := { c with t := c.t + k * c.vars.tau }

theorem h_ext_shift (c : SpinChain ℝ) (k : ℤ) (ht : c.vars.tau ≠ 0) (t : ℝ) :
    (shiftClock k c).h_ext (t + k * c.vars.tau) = c.h_ext t := by
  have e : 2 * Real.pi * (t + k * c.vars.tau) / c.vars.tau
      = 2 * Real.pi * t / c.vars.tau + k * (2 * Real.pi) := by
    field_simp
  unfold SpinChain.h_ext shiftClock
  simp only [lit_2, fpi_real, fcos_real, fsin_real, e, Real.cos_add_int_mul_two_pi,
    Real.sin_add_int_mul_two_pi]

theorem update_shift (c : SpinChain ℝ) (k : ℤ) (ht : c.vars.tau ≠ 0) :
    (shiftClock k c).update = c.update.map (shiftClock k) := by
  have h := h_ext_shift c k ht (c.t + c.vars.dt / 2.0)
  have e : (shiftClock k c).t + (shiftClock k c).vars.dt / 2.0
      = c.t + c.vars.dt / 2.0 + k * c.vars.tau := by
    simp only [shiftClock, lit_2]; ring
  unfold SpinChain.update
  rw [e, h]
  cases c.h_ext (c.t + c.vars.dt / 2.0) with
  | error e => rfl
  | ok v =>
    simp only [shiftClock, bind, Except.bind]
    cases SpinChain.trotter c.j_couple (SpinChain.updateField c.static_h (asUsize c.vars.ssize) v) c.vars.dt c.spins with
    | error e => rfl
    | ok sp =>
      simp only [pure, Except.pure, Except.map, shiftClock]
      congr 2
      ring

/-- Moving the clock by any whole number of drive periods changes nothing but the clock: the spins
evolve through the same states, and the reported energies are the same (also when the program
panics). -/
theorem C81_period (c : SpinChain ℝ) (n : ℕ) (k : ℤ) (ht : c.vars.tau ≠ 0) :
    ({ c with t := c.t + k * c.vars.tau } : SpinChain ℝ).updates n
      = (c.updates n).map (fun c' => { c' with t := c'.t + k * c.vars.tau }) ∧
    ({ c with t := c.t + k * c.vars.tau } : SpinChain ℝ).total_energy2 = c.total_energy2 := by
  constructor
  · show (shiftClock k c).updates n = _
    induction n generalizing c with
    | zero => rfl
    | succ n ih =>
      show ((shiftClock k c).update >>= _) = ((c.update >>= _).map _)
      rw [update_shift c k ht]
      cases h : c.update with
      | error e => rfl
      | ok c' =>
        have hv := (update_frame h).2.2.1
        have := ih c' (by rw [hv]; exact ht)
        rw [hv] at this
        exact this
  · have h := h_ext_shift c k ht c.t
    unfold SpinChain.total_energy2
    simp only
    unfold shiftClock at h
    rw [h]

theorem updates_add {F : Type} [Add F] [Sub F] [Mul F] [Div F] [Neg F] [OfScientific F] [FOps F]
    {c c1 : SpinChain F} {n : ℕ} (h : c.updates n = .ok c1) (m : ℕ) :
    c.updates (n + m) = c1.updates m := by
  induction n generalizing c with
  | zero => cases h; rw [Nat.zero_add]
  | succ n ih =>
    obtain ⟨c2, h2, h3⟩ := updates_succ h
    rw [Nat.succ_add]
    show (c.update >>= _) = _
    rw [h2]
    exact ih h3

/-- in particular, when the chain has returned to its spins after a whole number of periods, it
repeats the same history -/
theorem C81_recurrence (c c1 c2 : SpinChain ℝ) (n m : ℕ) (k : ℤ) (ht : c.vars.tau ≠ 0)
    (hn : n * c.vars.dt = k * c.vars.tau) (h1 : c.updates n = .ok c1) (hs : c1.spins = c.spins)
    (h2 : c.updates m = .ok c2) :
    ∃ c3, c.updates (n + m) = .ok c3 ∧ c3.spins = c2.spins := by
  obtain ⟨a1, a2, a3, a4, _, _⟩ := updates_frame h1
  have e : c1 = { c with t := c.t + k * c.vars.tau } := by
    have hc := C25_time c c1 n h1
    rw [hn] at hc
    cases c1; cases c
    simp only at a1 a2 a3 a4 hs hc ⊢
    subst a1 a2 a3 a4 hs hc
    rfl
  rw [updates_add h1, e, (C81_period c m k ht).1, h2]
  exact ⟨_, rfl, rfl⟩

example : demo.vars.tau ≠ 0 := by norm_num [demo, demoVars]

/-! ### C84: spins along their local fields do not move -/

theorem precess_parallel {v b : V3 ℝ} (h : cross v b = zero) (t : ℝ) : precess v b t = v := by
  by_cases hb : b = zero
  · rw [hb, precess_zero_field]
  have hx := congrArg V3.x h
  have hy := congrArg V3.y h
  have hz := congrArg V3.z h
  simp only [cross, zero] at hx hy hz
  have hl : len b * len b = dot b b := len_sq b
  have hl0 : len b ≠ 0 := by
    intro h0
    apply hb
    rw [h0] at hl
    simp only [dot] at hl
    ext <;> simp only [zero] <;> nlinarith [sq_nonneg b.x, sq_nonneg b.y, sq_nonneg b.z]
  simp only [dot] at hl
  ext <;> simp only [precess, Spec.sub, Spec.add, smul, cross, dot] <;>
    generalize Real.cos (len b * t) = C <;> generalize Real.sin (len b * t) = D <;>
    generalize len b = l at * <;> field_simp
  · linear_combination D * l * hx - (1 - C) * (v.x * hl - b.z * hy + b.y * hz)
  · linear_combination D * l * hy - (1 - C) * (v.y * hl - b.x * hz + b.z * hx)
  · linear_combination D * l * hz - (1 - C) * (v.z * hl - b.y * hx + b.x * hy)

theorem subStep_parallel {m par : ℕ} {J B S : ℕ → V3 ℝ} {dt : ℝ}
    (h : ∀ i < m, cross (S i) (omega m S J B i) = zero) : subStep m par J B dt S = S := by
  funext i
  by_cases hi : i < m ∧ i % 2 = par
  · rw [subStep_pos hi, precess_parallel (h i hi.1)]
  · rw [subStep_neg hi]

/-- A chain whose moving spins all point along (or against) their non-vanishing local fields stays as
it is under a constant or absent drive, for any number of steps of any size. -/
theorem C84_stationary (c : SpinChain ℝ) (L s n : ℕ) (w : WF c L s) (hL : 2 ≤ L)
    (hd : c.vars.drive = .none ∨ c.vars.drive = .staticfield)
    (hu : ∀ x ∈ c.spins, IsUnit3 x)
    (h0 : ∀ i < 2 * (L / 2), omega (2 * (L / 2)) (S c) (J c) (B c s c.t) i ≠ zero)
    (ha : ∀ i < 2 * (L / 2),
      cross (S c i) (omega (2 * (L / 2)) (S c) (J c) (B c s c.t) i) = zero) :
    c.updates n = .ok { c with t := c.t + n * c.vars.dt } := by
  have hdr : ∀ t t', drive c.vars t = drive c.vars t' := by
    intro t t'
    unfold drive
    rcases hd with hd | hd <;> rw [hd]
  induction n with
  | zero =>
    rw [Nat.cast_zero, zero_mul, add_zero]
    rfl
  | succ n ih =>
    refine updates_succ'.2 ⟨_, ih, ?_⟩
    have hB : ∀ t, B ({ c with t := c.t + n * c.vars.dt } : SpinChain ℝ) s t = B c s c.t :=
      fun t => B_congr rfl (hdr _ _)
    have ws : WF ({ c with t := c.t + n * c.vars.dt } : SpinChain ℝ) L s :=
      ⟨w.hsize, w.ssize, w.L_lt, w.s_lt, w.spins, w.j, w.h, w.hs⟩
    have hr : RegularStep ({ c with t := c.t + n * c.vars.dt } : SpinChain ℝ) L s := by
      unfold RegularStep
      rw [hB]
      show Regular _ (J c) _ _ (S c)
      refine ⟨fun i hi _ => h0 i hi, ?_, ?_⟩
      · rw [subStep_parallel ha]; exact fun i hi _ => h0 i hi
      · rw [subStep_parallel ha, subStep_parallel ha]; exact fun i hi _ => h0 i hi
    obtain ⟨c', h1, _, h3⟩ := update_spec ws hL hu hr
    rw [hB] at h3
    have h4 : S c' = S c := by
      rw [h3]
      show step _ (J c) _ _ (S c) = _
      unfold step
      rw [subStep_parallel ha, subStep_parallel ha, subStep_parallel ha]
    have hsp : c'.spins = c.spins := S_ext (update_wf ws h1) w h4
    obtain ⟨b1, b2, b3, b4, _⟩ := update_frame h1
    have ht := C25_time _ c' 1 (updates_succ'.2 ⟨_, rfl, h1⟩)
    rw [h1]
    congr 1
    cases c'; cases c
    simp only at b1 b2 b3 b4 hsp ht ⊢
    subst b1 b2 b3 b4 hsp ht
    congr 1
    push_cast
    ring

theorem deriv_zero_of_const_right {f : ℝ → ℝ} {d a ε : ℝ} (h : HasDerivAt f d 0)
    (hc : ∀ x, 0 < x → x < ε → f x = a) (hε : 0 < ε) : d = 0 := by
  have ev : f =ᶠ[nhdsWithin 0 (Set.Ioi 0)] fun _ => a := by
    filter_upwards [Ioo_mem_nhdsGT hε] with x hx
    exact hc x hx.1 hx.2
  have h0 : f 0 = a := by
    have t1 : Filter.Tendsto f (nhdsWithin 0 (Set.Ioi 0)) (nhds (f 0)) :=
      h.continuousAt.tendsto.mono_left nhdsWithin_le_nhds
    exact tendsto_nhds_unique (t1.congr' ev) tendsto_const_nhds
  have h1 : HasDerivWithinAt (fun _ : ℝ => a) d (Set.Ioi 0) 0 :=
    (h.hasDerivWithinAt (s := Set.Ioi 0)).congr_of_eventuallyEq ev.symm h0.symm
  exact (uniqueDiffWithinAt_Ioi 0).eq_deriv _ h1 (hasDerivWithinAt_const _ _ _)

/-- The converse: a chain of even length that no sufficiently short time-step changes has all its
spins along their local fields. -/
theorem C84_converse (c : SpinChain ℝ) (L s : ℕ) (w : WF c L s) (hL : 2 ≤ L)
    (heven : L % 2 = 0) (hu : ∀ x ∈ c.spins, IsUnit3 x)
    (h0 : ∀ i < L, omega L (S c) (J c) (B c s c.t) i ≠ zero) (ε : ℝ) (hε : 0 < ε)
    (hst : ∀ dt, 0 < dt → dt < ε → ∃ c',
      ({ c with vars := { c.vars with dt := dt } } : SpinChain ℝ).update = .ok c' ∧
      c'.spins = c.spins) :
    ∀ i < L, cross (S c i) (omega L (S c) (J c) (B c s c.t) i) = zero := by
  intro i hi
  obtain ⟨_, hd⟩ := C29_consistent c L s w hL heven hu h0 i hi
  have hsp : ∀ dt, 0 < dt → dt < ε → spinAfter c i dt = S c i := by
    intro dt h1 h2
    obtain ⟨c', h3, h4⟩ := hst dt h1 h2
    unfold spinAfter
    rw [h3]
    show S c' i = S c i
    unfold S
    rw [h4]
  have hx := deriv_zero_of_const_right hd.1 (fun x a b => congrArg V3.x (hsp x a b)) hε
  have hy := deriv_zero_of_const_right hd.2.1 (fun x a b => congrArg V3.y (hsp x a b)) hε
  have hz := deriv_zero_of_const_right hd.2.2 (fun x a b => congrArg V3.z (hsp x a b)) hε
  ext
  · exact hx
  · exact hy
  · exact hz

/-- four spins along ±z in strong fields along z, with anisotropic couplings -/
noncomputable def polarised : SpinChain ℝ :=
  { demoStatic with
    static_h := [⟨0, 0, 6 / 5⟩, ⟨0, 0, 6 / 5⟩, ⟨0, 0, -3 / 2⟩, ⟨0, 0, 3 / 2⟩]
    spins := [⟨⟨0, 0, 1⟩⟩, ⟨⟨0, 0, -1⟩⟩, ⟨⟨0, 0, 1⟩⟩, ⟨⟨0, 0, 1⟩⟩] }

theorem polarised_wf : WF polarised 4 2 := by
  constructor <;> simp [polarised, demoStatic, demo, demoVars]

theorem polarised_unit : ∀ x ∈ polarised.spins, IsUnit3 x := by
  intro x hx
  simp only [polarised, List.mem_cons, List.not_mem_nil, or_false] at hx
  rw [unit_iff]
  rcases hx with rfl | rfl | rfl | rfl <;> norm_num [dot]

theorem polarised_fields : ∀ i < 2 * (4 / 2),
    omega (2 * (4 / 2)) (S polarised) (J polarised) (B polarised 2 polarised.t) i ≠ zero ∧
    cross (S polarised i)
      (omega (2 * (4 / 2)) (S polarised) (J polarised) (B polarised 2 polarised.t) i) = zero := by
  intro i hi
  have : i = 0 ∨ i = 1 ∨ i = 2 ∨ i = 3 := by omega
  rcases this with rfl | rfl | rfl | rfl <;>
    norm_num [omega, S, J, B, H0, polarised, demoStatic, demo, demoVars, left, right, drive,
      Spec.add, Spec.sub, had, zero, cross]

example : WF polarised 4 2 ∧ polarised.vars.drive = .none ∧ (∀ x ∈ polarised.spins, IsUnit3 x) ∧
    (∀ i < 2 * (4 / 2),
      omega (2 * (4 / 2)) (S polarised) (J polarised) (B polarised 2 polarised.t) i ≠ zero) ∧
    (∀ i < 2 * (4 / 2), cross (S polarised i)
      (omega (2 * (4 / 2)) (S polarised) (J polarised) (B polarised 2 polarised.t) i) = zero) :=
  ⟨polarised_wf, rfl, polarised_unit, fun i hi => (polarised_fields i hi).1,
    fun i hi => (polarised_fields i hi).2⟩

/-- the hypotheses of `C84_converse` and of `C81_recurrence` are met by the same chain -/
example : (∀ dt, 0 < dt → dt < 1 → ∃ c',
      ({ polarised with vars := { polarised.vars with dt := dt } } : SpinChain ℝ).update = .ok c' ∧
      c'.spins = polarised.spins) ∧
    ∃ c1, ((500 : ℕ) : ℝ) * polarised.vars.dt = ((1 : ℤ) : ℝ) * polarised.vars.tau ∧
      polarised.updates 500 = .ok c1 ∧ c1.spins = polarised.spins := by
  constructor
  · intro dt _ _
    have w := polarised_wf
    have h := C84_stationary ({ polarised with vars := { polarised.vars with dt := dt } }) 4 2 1
      ⟨w.hsize, w.ssize, w.L_lt, w.s_lt, w.spins, w.j, w.h, w.hs⟩ (by norm_num) (Or.inl rfl)
      polarised_unit (fun i hi => (polarised_fields i hi).1) (fun i hi => (polarised_fields i hi).2)
    obtain ⟨c1, h1, h2⟩ := updates_succ h
    cases h2
    exact ⟨_, h1, rfl⟩
  · refine ⟨_, ?_, C84_stationary polarised 4 2 500 polarised_wf (by norm_num) (Or.inl rfl)
      polarised_unit (fun i hi => (polarised_fields i hi).1)
      (fun i hi => (polarised_fields i hi).2), rfl⟩
    norm_num [polarised, demoStatic, demoVars]

end Verif.Props
