/-
C117: the ensemble of the rotating frame and the driven chain (/repo/src/spinchain.rs `update`, `total_energy2`,
`mc_total_energy`, `mc_system_energy_rot`; /repo/src/main.rs lines 182-183, 255-256, 283-284).
-/
import Verif.Props.Magnetisation
import Verif.Props.Recurrence
import Verif.Props.Thermal
import Verif.Props.Init
import Verif.Model.Main

namespace Verif.Props

open Spec Finset MeasureTheory

/-- A chain driven by the circular field (`drive = "xyplane"`), with couplings that are the same along x and y and
static fields along z. -/
structure CircularDrive (c : SpinChain ℝ) (L : ℕ) : Prop where
  axial : AxialCouplings c L
  drive : c.vars.drive = .xyplane
  tau : c.vars.tau ≠ 0
  field : ∀ i < L, (H0 c i).x = 0 ∧ (H0 c i).y = 0

/-- angular frequency of the drive -/
noncomputable def driveFreq (c : SpinChain ℝ) : ℝ := 2 * Real.pi / c.vars.tau

/-- components of a vector along axes turned by the angle `a` about z -/
noncomputable def seenFrom (a : ℝ) (v : V3 ℝ) : V3 ℝ :=
  ⟨Real.cos a * v.x + Real.sin a * v.y, -Real.sin a * v.x + Real.cos a * v.y, v.z⟩

/-- `d` is the chain of the rotating frame of `c`: the same couplings, and instead of the drive a unit field along x on
the first `s` sites and a field `-2 pi / tau` along z on all sites. -/
structure FrameChain (c d : SpinChain ℝ) (L s : ℕ) : Prop where
  coup : ∀ i < L, J d i = J c i
  field : ∀ i < L, H0 d i = add (H0 c i) ⟨if i < s then 1 else 0, 0, -(2 * Real.pi / c.vars.tau)⟩

/-! ### Helper lemmas -/

section
variable {c d : SpinChain ℝ} {L s : ℕ}

theorem ring_deriv {Jf : ℕ → V3 ℝ} {X X' : ℝ → ℕ → V3 ℝ} {Bf B' : ℝ → ℕ → V3 ℝ} {t : ℝ}
    (hX : ∀ i < L, HasDeriv3 (fun u => X u i) (X' t i) t) (hB : ∀ i < L, HasDeriv3 (fun u => Bf u i) (B' t i) t) :
    HasDerivAt (fun u => ringEnergy L (X u) Jf (Bf u))
      (∑ i ∈ range L, (dot (B' t i) (X t i) - dot (X' t i) (omega L (X t) Jf (Bf t) i))) t := by
  have h := HasDerivAt.fun_sum (u := range L)
    (A := fun i u => -dot (X u i) (had (Jf i) (X u ((i + 1) % L))) + dot (Bf u i) (X u i))
    (A' := fun i => -(dot (X' t i) (had (Jf i) (X t (right L i))) + dot (X t i) (had (Jf i) (X' t (right L i))))
      + (dot (B' t i) (X t i) + dot (Bf t i) (X' t i))) (x := t) (fun i hi => by
        have hi := mem_range.1 hi
        obtain ⟨x1, x2, x3⟩ := hX i hi
        obtain ⟨b1, b2, b3⟩ := hB i hi
        obtain ⟨y1, y2, y3⟩ := hX ((i + 1) % L) (Nat.mod_lt _ (by omega))
        have := ((((x1.mul (y1.const_mul (Jf i).x)).add (x2.mul (y2.const_mul (Jf i).y))).add
          (x3.mul (y3.const_mul (Jf i).z))).neg).add (((b1.mul x1).add (b2.mul x2)).add (b3.mul x3))
        refine this.congr_deriv ?_
        simp only [dot, had, right]
        ring)
  refine h.congr_deriv ?_
  have e : ∑ i ∈ range L, dot (X t i) (had (Jf i) (X' t (right L i)))
      = ∑ i ∈ range L, dot (X t (left L i)) (had (Jf (left L i)) (X' t i)) := by
    rw [← sum_left fun i => dot (X t i) (had (Jf i) (X' t (right L i)))]
    exact sum_congr rfl fun i hi => by rw [right_left (mem_range.1 hi)]
  simp only [sum_add_distrib, sum_neg_distrib, sum_sub_distrib]
  rw [e]
  have e2 : ∑ i ∈ range L, dot (X' t i) (omega L (X t) Jf (Bf t) i)
      = ∑ i ∈ range L, dot (X t (left L i)) (had (Jf (left L i)) (X' t i))
        + ∑ i ∈ range L, dot (X' t i) (had (Jf i) (X t (right L i))) - ∑ i ∈ range L, dot (Bf t i) (X' t i) := by
    rw [← sum_add_distrib, ← sum_sub_distrib]
    refine sum_congr rfl fun i _ => ?_
    simp only [dot, had, omega, Spec.sub, Spec.add]
    ring
  rw [e2]
  ring

theorem drive_circ (h : CircularDrive c L) (t : ℝ) :
    drive c.vars t = ⟨Real.cos (driveFreq c * t), Real.sin (driveFreq c * t), 0⟩ := by
  unfold drive driveFreq
  rw [h.drive]
  simp only
  rw [show 2 * Real.pi * t / c.vars.tau = 2 * Real.pi / c.vars.tau * t by ring]

theorem field_deriv (h : CircularDrive c L) (t : ℝ) (i : ℕ) :
    HasDeriv3 (fun u => B c s u i) (if i < s then
      ⟨-(driveFreq c * Real.sin (driveFreq c * t)), driveFreq c * Real.cos (driveFreq c * t), 0⟩ else zero) t := by
  unfold B
  simp only [drive_circ h]
  have hl : HasDerivAt (fun u : ℝ => driveFreq c * u) (driveFreq c) t := by
    simpa using (hasDerivAt_id t).const_mul (driveFreq c)
  split_ifs with hi
  · refine ⟨?_, ?_, ?_⟩
    · simpa [Spec.add, mul_comm] using (hl.cos.const_add (H0 c i).x)
    · simpa [Spec.add, mul_comm] using (hl.sin.const_add (H0 c i).y)
    · simpa [Spec.add] using hasDerivAt_const t (H0 c i).z
  · exact ⟨hasDerivAt_const t _, hasDerivAt_const t _, hasDerivAt_const t _⟩

/-- the energy seen from the rotating frame -/
theorem frame_view (h : CircularDrive c L) (t : ℝ) (X : ℕ → V3 ℝ) :
    ringEnergy L X (J c) (B c s t) - driveFreq c * ∑ i ∈ range L, (X i).z
      = ringEnergy L (fun i => seenFrom (driveFreq c * t) (X i)) (J c)
          (fun i => add (H0 c i) ⟨if i < s then 1 else 0, 0, -(2 * Real.pi / c.vars.tau)⟩) := by
  unfold ringEnergy
  rw [mul_sum, ← sum_sub_distrib]
  refine sum_congr rfl fun i hi => ?_
  have hi := mem_range.1 hi
  have h1 := h.axial i hi
  obtain ⟨f1, f2⟩ := h.field i hi
  have hc := Real.sin_sq_add_cos_sq (driveFreq c * t)
  have hw : 2 * Real.pi / c.vars.tau = driveFreq c := rfl
  unfold B
  rw [drive_circ h, hw]
  simp only [seenFrom, dot, had]
  split_ifs with his <;> simp only [Spec.add, f1, f2, ← h1] <;>
  linear_combination ((J c i).x * ((X i).x * (X ((i + 1) % L)).x + (X i).y * (X ((i + 1) % L)).y)) * hc

/-- C117, exact motion: with the circular drive, couplings that are the same along x and y and static fields along z,
the energy minus `2 pi / tau` times the total magnetisation along z is conserved. -/
theorem C117_exact {X : ℝ → ℕ → V3 ℝ} {a b : ℝ} (h : CircularDrive c L) (hX : Motion c L s X a b) {t : ℝ} (h1 : a ≤ t)
    (h2 : t ≤ b) :
    ringEnergy L (X t) (J c) (B c s t) - 2 * Real.pi / c.vars.tau * ∑ i ∈ range L, (X t i).z
      = ringEnergy L (X a) (J c) (B c s a) - 2 * Real.pi / c.vars.tau * ∑ i ∈ range L, (X a i).z := by
  refine const_of_deriv (f := fun u => ringEnergy L (X u) (J c) (B c s u)
    - 2 * Real.pi / c.vars.tau * ∑ i ∈ range L, (X u i).z) (fun u hu1 hu2 => ?_) h1 h2
  have e1 := ring_deriv (L := L) (Jf := J c) (X := X)
    (X' := fun t i => cross (X t i) (omega L (X t) (J c) (B c s t) i)) (Bf := B c s)
    (B' := fun t i => if i < s then
      ⟨-(driveFreq c * Real.sin (driveFreq c * t)), driveFreq c * Real.cos (driveFreq c * t), 0⟩ else zero)
    (fun i hi => hX u hu1 hu2 i hi) (fun i _ => field_deriv h u i)
  have e2 := (C109_torque h.axial hX hu1 hu2).const_mul (2 * Real.pi / c.vars.tau)
  refine (e1.sub e2).congr_deriv ?_
  rw [mul_sum, ← sum_sub_distrib]
  refine sum_eq_zero fun i hi => ?_
  obtain ⟨f1, f2⟩ := h.field i (mem_range.1 hi)
  have e3 : dot (cross (X u i) (omega L (X u) (J c) (B c s u) i)) (omega L (X u) (J c) (B c s u) i) = 0 := by
    simp only [dot, cross]
    ring
  have hw : 2 * Real.pi / c.vars.tau = driveFreq c := rfl
  rw [e3, hw]
  unfold B
  rw [drive_circ h]
  split_ifs with his <;> simp only [Spec.add, f1, f2, dot, zero] <;> ring

theorem dot_had_close (j a b a' b' : V3 ℝ) {e : ℝ} (ha' : len a' = 1) (hb : len b = 1)
    (h1 : len (sub a a') ≤ e) (h2 : len (sub b b') ≤ e) :
    |dot a (had j b) - dot a' (had j b')| ≤ 2 * (|j.x| + |j.y| + |j.z|) * e := by
  have one : ∀ j x y x' y' : ℝ, |x'| ≤ 1 → |y| ≤ 1 → |x - x'| ≤ e → |y - y'| ≤ e →
      |x * (j * y) - x' * (j * y')| ≤ 2 * |j| * e := by
    intro j x y x' y' p1 p2 p3 p4
    have e0 : 0 ≤ e := (abs_nonneg _).trans p3
    rw [show x * (j * y) - x' * (j * y') = j * ((x - x') * y + x' * (y - y')) by ring, abs_mul]
    have q1 : |(x - x') * y| ≤ e * 1 := by rw [abs_mul]; exact mul_le_mul p3 p2 (abs_nonneg _) e0
    have q2 : |x' * (y - y')| ≤ 1 * e := by rw [abs_mul]; exact mul_le_mul p1 p4 (abs_nonneg _) zero_le_one
    have q3 := abs_add_le ((x - x') * y) (x' * (y - y'))
    nlinarith [abs_nonneg j]
  obtain ⟨a1, a2, a3⟩ := comp_le_len a'
  obtain ⟨b1, b2, b3⟩ := comp_le_len b
  obtain ⟨c1, c2, c3⟩ := comp_le_len (sub a a')
  obtain ⟨d1, d2, d3⟩ := comp_le_len (sub b b')
  rw [ha'] at a1 a2 a3
  rw [hb] at b1 b2 b3
  have r1 := one j.x a.x b.x a'.x b'.x a1 b1 (c1.trans h1) (d1.trans h2)
  have r2 := one j.y a.y b.y a'.y b'.y a2 b2 (c2.trans h1) (d2.trans h2)
  have r3 := one j.z a.z b.z a'.z b'.z a3 b3 (c3.trans h1) (d3.trans h2)
  simp only [dot, had]
  rw [abs_le] at *
  constructor <;> nlinarith

theorem ring_close (Jf Bf : ℕ → V3 ℝ) (X Y : ℕ → V3 ℝ) {e : ℝ} (hX : ∀ i < L, len (X i) = 1)
    (hY : ∀ i < L, len (Y i) = 1) (h : ∀ i < L, len (sub (X i) (Y i)) ≤ e) :
    |ringEnergy L X Jf Bf - ringEnergy L Y Jf Bf|
      ≤ (∑ i ∈ range L, (2 * (|(Jf i).x| + |(Jf i).y| + |(Jf i).z|) + len (Bf i))) * e := by
  unfold ringEnergy
  rw [← sum_sub_distrib, sum_mul]
  refine (abs_sum_le_sum_abs _ _).trans (sum_le_sum fun i hi => ?_)
  have hi := mem_range.1 hi
  have hr : (i + 1) % L < L := Nat.mod_lt _ (by omega)
  have h1 := dot_had_close (Jf i) _ _ _ _ (hY i hi) (hX _ hr) (h i hi) (h _ hr)
  have h2 : |dot (Bf i) (X i) - dot (Bf i) (Y i)| ≤ len (Bf i) * e := by
    have := (abs_dot_le_len (Bf i) (sub (X i) (Y i))).trans (mul_le_mul_of_nonneg_left (h i hi) (len_nonneg _))
    rwa [show dot (Bf i) (sub (X i) (Y i)) = dot (Bf i) (X i) - dot (Bf i) (Y i) by
      simp only [dot, Spec.sub]; ring] at this
  rw [abs_le] at *
  constructor <;> nlinarith

theorem seenFrom_len (a : ℝ) (v : V3 ℝ) : len (seenFrom a v) = len v := by
  unfold len
  congr 1
  simp only [dot, seenFrom]
  linear_combination (v.x ^ 2 + v.y ^ 2) * Real.sin_sq_add_cos_sq a

theorem seenFrom_sub (a : ℝ) (v w : V3 ℝ) : sub (seenFrom a v) (seenFrom a w) = seenFrom a (sub v w) := by
  ext <;> simp only [seenFrom, Spec.sub] <;> ring

/-- the reported energy and magnetisation, seen from the rotating frame -/
noncomputable def frameSum (L s : ℕ) (c : SpinChain ℝ) : ℝ :=
  ringEnergy L (fun i => seenFrom (driveFreq c * c.t) (S c i)) (J c)
    (fun i => add (H0 c i) ⟨if i < s then 1 else 0, 0, -(2 * Real.pi / c.vars.tau)⟩)

theorem frameSum_close (c0 : SpinChain ℝ) (L s : ℕ) (T : ℝ) (hL : 2 ≤ L) (he : L % 2 = 0) (h0 : CircularDrive c0 L) :
    ∃ K, 0 ≤ K ∧ ∀ (c c' : SpinChain ℝ) (n : ℕ), WF c L s → SameSystem c0 c → (∀ x ∈ c.spins, IsUnit3 x) →
      0 < c.vars.dt → n * c.vars.dt ≤ T → RegularRun c L s n → c.updates n = .ok c' →
      |frameSum L s c' - frameSum L s c| ≤ K * c.vars.dt ^ 2 := by
  obtain ⟨K, hK, h⟩ := C85_global c0 L s T hL he
  obtain ⟨Q, hQ⟩ : ∃ Q, Q = ∑ i ∈ range L, (2 * (|(J c0 i).x| + |(J c0 i).y| + |(J c0 i).z|)
    + len (add (H0 c0 i) ⟨if i < s then 1 else 0, 0, -(2 * Real.pi / c0.vars.tau)⟩)) := ⟨_, rfl⟩
  have hQ0 : 0 ≤ Q := by
    rw [hQ]
    exact sum_nonneg fun i _ => add_nonneg (by positivity) (len_nonneg _)
  refine ⟨Q * K, by positivity, fun c c' n w hc hu hd hn hr hup => ?_⟩
  obtain ⟨X, hX0, hX⟩ := C85_exists c L s w hu T
  have hX' : Motion c L s X c.t (c.t + T) := fun t h1 h2 => hX t (by have : 0 ≤ n * c.vars.dt := by positivity
                                                                     linarith) h2
  have hcl := h c c' X n w hc hu hd hn hr hX0 hX' hup
  have ht := C25_time c c' n hup
  have hn0 : 0 ≤ n * c.vars.dt := by positivity
  have t1 : c.t ≤ c'.t := by rw [ht]; linarith
  have t2 : c'.t ≤ c.t + T := by rw [ht]; linarith
  obtain ⟨w', u'⟩ := updates_unit w hL hu hr hup
  obtain ⟨a1, a2, a3, _⟩ := updates_frame hup
  have hv : c.vars.tau = c0.vars.tau ∧ c.vars.drive = c0.vars.drive := by
    rw [hc.v]
    exact ⟨rfl, rfl⟩
  have eH : H0 c = H0 c0 := by unfold H0; rw [hc.h]
  have hcirc : CircularDrive c L := ⟨fun i hi => by rw [same_J hc]; exact h0.axial i hi, hv.2.trans h0.drive,
    by rw [hv.1]; exact h0.tau, fun i hi => by rw [eH]; exact h0.field i hi⟩
  have hx := C117_exact hcirc hX' t1 t2
  have hf : driveFreq c = 2 * Real.pi / c.vars.tau := rfl
  rw [← hf, frame_view hcirc, frame_view hcirc] at hx
  have e1 : frameSum L s c = ringEnergy L (fun i => seenFrom (driveFreq c * c.t) (X c.t i)) (J c)
      (fun i => add (H0 c i) ⟨if i < s then 1 else 0, 0, -(2 * Real.pi / c.vars.tau)⟩) := by
    unfold frameSum ringEnergy
    refine sum_congr rfl fun i hi => ?_
    have hi := mem_range.1 hi
    simp only [hX0 i hi, hX0 _ (Nat.mod_lt (i + 1) (by omega : 0 < L))]
  rw [e1, ← hx]
  have eJ' : J c' = J c := J_congr a1
  have eH' : H0 c' = H0 c := by unfold H0; rw [a2]
  have ew : driveFreq c' = driveFreq c := by unfold driveFreq; rw [a3]
  unfold frameSum
  rw [eJ', eH', ew, a3]
  have hXu : ∀ i < L, len (X c'.t i) = 1 := fun i hi => by
    rw [motion_len hX' t1 t2 hi, hX0 i hi]
    exact unit_of w hu hi
  have := ring_close (L := L) (J c) (fun i => add (H0 c i) ⟨if i < s then 1 else 0, 0, -(2 * Real.pi / c.vars.tau)⟩)
    (fun i => seenFrom (driveFreq c * c'.t) (S c' i)) (fun i => seenFrom (driveFreq c * c'.t) (X c'.t i))
    (fun i hi => by rw [seenFrom_len]; exact unit_of w' u' hi) (fun i hi => by rw [seenFrom_len]; exact hXu i hi)
    (fun i hi => by rw [seenFrom_sub, seenFrom_len]; exact hcl i hi)
  rw [same_J hc, eH, hv.1, ← hQ] at this
  rw [mul_assoc, same_J hc, eH, hv.1]
  exact this

end

/-- C117, the program: for a given chain with the circular drive, couplings that are the same along x and y and static
fields along z, and a given length `T` of the run, there is a constant `K` such that the reported energy
(`hsize · total_energy2`) minus `2 pi / tau` times the reported total magnetisation along z changes by at most `K dt²`
over any run that fits into `T`, with any time-step. -/
theorem C117_program (c0 : SpinChain ℝ) (L s : ℕ) (T : ℝ) (hL : 2 ≤ L) (he : L % 2 = 0) (h0 : CircularDrive c0 L) :
    ∃ K, 0 ≤ K ∧ ∀ (c c' : SpinChain ℝ) (n : ℕ) (e e' : ℝ) (m m' : V3 ℝ), WF c L s → SameSystem c0 c →
      (∀ x ∈ c.spins, IsUnit3 x) → 0 < c.vars.dt → n * c.vars.dt ≤ T → RegularRun c L s n →
      c.updates n = .ok c' → c.total_energy2 = .ok e → c'.total_energy2 = .ok e' → c.m_tot = .ok m → c'.m_tot = .ok m' →
      |(L * e' - 2 * Real.pi / c0.vars.tau * m'.z) - (L * e - 2 * Real.pi / c0.vars.tau * m.z)|
        ≤ K * c.vars.dt ^ 2 := by
  obtain ⟨K, hK, h⟩ := frameSum_close c0 L s T hL he h0
  refine ⟨K, hK, fun c c' n e e' m m' w hc hu hd hn hr hup h1 h2 h3 h4 => ?_⟩
  have hL' : (L : ℝ) ≠ 0 := by positivity
  have hv : c.vars.tau = c0.vars.tau ∧ c.vars.drive = c0.vars.drive := by
    rw [hc.v]
    exact ⟨rfl, rfl⟩
  have eH : H0 c = H0 c0 := by unfold H0; rw [hc.h]
  have hcirc : CircularDrive c L := ⟨fun i hi => by rw [same_J hc]; exact h0.axial i hi, hv.2.trans h0.drive,
    by rw [hv.1]; exact h0.tau, fun i hi => by rw [eH]; exact h0.field i hi⟩
  obtain ⟨a1, a2, a3, _⟩ := updates_frame hup
  have hcirc' : CircularDrive c' L := ⟨fun i hi => by rw [J_congr a1]; exact hcirc.axial i hi, by rw [a3]; exact hcirc.drive,
    by rw [a3]; exact hcirc.tau, fun i hi => by
      have : H0 c' = H0 c := by unfold H0; rw [a2]
      rw [this]; exact hcirc.field i hi⟩
  have w' := updates_wf w hup
  rw [total_energy2_eq w (by omega)] at h1
  rw [total_energy2_eq w' (by omega)] at h2
  rw [m_tot_eq w] at h3
  rw [m_tot_eq w'] at h4
  cases h1
  cases h2
  cases h3
  cases h4
  rw [mul_div_cancel₀ _ hL', mul_div_cancel₀ _ hL']
  have f1 : 2 * Real.pi / c0.vars.tau = driveFreq c := by unfold driveFreq; rw [hv.1]
  have f2 : driveFreq c = driveFreq c' := by unfold driveFreq; rw [a3]
  have g1 := frame_view (s := s) hcirc c.t (S c)
  have g2 := frame_view (s := s) hcirc' c'.t (S c')
  rw [f1, g1, f2, g2, ← f2]
  have := h c c' n w hc hu hd hn hr hup
  unfold frameSum at this
  rw [← f2] at this
  exact this

/-- C117, the energy of the rotating frame: the reported energy (`hsize · total_energy2`) minus `2 pi / tau` times the
reported total magnetisation along z is the energy that the samplers of the rotating frame report
(`hsize · mc_total_energy`) for the chain `d` of the frame, when its spins are those of `c` seen from axes that turn
with the drive. -/
theorem C117_energy (c d : SpinChain ℝ) (L s : ℕ) (w : WF c L s) (wd : WF d L s) (hL : 1 ≤ L) (h : CircularDrive c L)
    (hd : FrameChain c d L s) (hS : ∀ i < L, S d i = seenFrom (2 * Real.pi / c.vars.tau * c.t) (S c i)) :
    ∃ e m e', c.total_energy2 = .ok e ∧ c.m_tot = .ok m ∧ d.mc_total_energy = .ok e' ∧
      L * e - 2 * Real.pi / c.vars.tau * m.z = L * e' := by
  have hL' : (L : ℝ) ≠ 0 := by positivity
  refine ⟨_, _, _, total_energy2_eq w hL, m_tot_eq w, mc_total_energy_eq wd hL, ?_⟩
  rw [mul_div_cancel₀ _ hL', mul_div_cancel₀ _ hL']
  refine (frame_view (s := s) h c.t (S c)).trans ?_
  unfold ringEnergy
  refine sum_congr rfl fun i hi => ?_
  have hi := mem_range.1 hi
  rw [hS i hi, hS _ (Nat.mod_lt (i + 1) (by omega)), hd.coup i hi, hd.field i hi]
  rfl

/-- C117, the sampler of the rotating frame (`--rot`): without static fields and with the same couplings along x and
y its reported energy is the same one. -/
theorem C117_rot (c d : SpinChain ℝ) (L s : ℕ) (w : WF c L s) (wd : WF d L s) (hL : 2 ≤ L) (hs : s ≤ L)
    (h : CircularDrive c L) (hH : ∀ i < L, H0 c i = zero) (hJ : ∀ i < L, J d i = J c i) (ht : d.vars.tau = c.vars.tau)
    (hS : ∀ i < L, S d i = seenFrom (2 * Real.pi / c.vars.tau * c.t) (S c i)) :
    ∃ e m e', c.total_energy2 = .ok e ∧ c.m_tot = .ok m ∧ d.mc_system_energy_rot = .ok e' ∧
      L * e - 2 * Real.pi / c.vars.tau * m.z = L * e' := by
  have hL' : (L : ℝ) ≠ 0 := by positivity
  refine ⟨_, _, _, total_energy2_eq w (by omega), m_tot_eq w, mc_system_energy_rot_eq wd hL hs, ?_⟩
  rw [mul_div_cancel₀ _ hL', mul_div_cancel₀ _ hL']
  refine (frame_view (s := s) h c.t (S c)).trans ?_
  have ha : ∀ i < L, aniso (J d i) = 0 := fun i hi => by
    rw [hJ i hi]
    unfold aniso
    rw [h.axial i hi, sub_self]
  have hc : corr L 2 3 (S d) (J d) = 0 := by
    unfold corr
    rw [sum_eq_zero fun i hi => by unfold bondCorr; rw [ha i (mem_range.1 hi)]; ring,
      sum_eq_zero fun i hi => by unfold tripCorr; rw [ha i (mem_range.1 hi)]; ring]
    ring
  unfold rotE
  rw [hc, ht, zero_div, sub_zero]
  unfold ringEnergy
  refine sum_congr rfl fun i hi => ?_
  have hi := mem_range.1 hi
  have hr : rotJ (J c i) = J c i := by
    have := h.axial i hi
    ext <;> simp only [rotJ] <;> linarith
  simp only [hS i hi, hS _ (Nat.mod_lt (i + 1) (by omega : 0 < L)), hJ i hi, hr, hH i hi, Spec.add, zero, zero_add]
  rfl

/-! ### Thermal means -/

theorem seenFrom_orth (a : ℝ) : Orthogonal (seenFrom a) where
  add u v := by ext <;> simp only [seenFrom, Spec.add] <;> ring
  smul r v := by ext <;> simp only [seenFrom, Spec.smul] <;> ring
  len v := seenFrom_len a v

theorem seenFrom_back (a : ℝ) (v : V3 ℝ) : seenFrom a (seenFrom (-a) v) = v := by
  have h := Real.sin_sq_add_cos_sq a
  ext <;> simp only [seenFrom, Real.cos_neg, Real.sin_neg]
  · linear_combination v.x * h
  · linear_combination v.y * h

theorem turn_pres (L : ℕ) (a : ℝ) : MeasurePreserving (fun (v : Fin L → V3 ℝ) i => seenFrom a (v i))
    (Measure.pi fun _ => sphereMeasure) (Measure.pi fun _ => sphereMeasure) := by
  refine measurePreserving_pi _ _ (f := fun _ => seenFrom a) fun _ => ⟨(seenFrom_orth a).measurable, ?_⟩
  refine Measure.ext_of_lintegral _ fun f hf => ?_
  rw [lintegral_map hf (seenFrom_orth a).measurable, sphere_invariant (seenFrom_orth a) hf]

theorem exp_sub_one_le (x d : ℝ) (h : |x| ≤ d) : |1 - Real.exp x| ≤ Real.exp d - 1 := by
  have h1 := Real.exp_le_exp.2 ((le_abs_self x).trans h)
  have h2 := Real.add_one_le_exp x
  have h3 := Real.add_one_le_exp d
  have h4 := (abs_le.1 h).1
  rw [abs_le]
  constructor <;> linarith

/-- a map that keeps the measure and almost keeps the energy almost keeps the thermal means -/
theorem mean_shift {Ω : Type} [MeasurableSpace Ω] {μ : Measure Ω} [IsProbabilityMeasure μ] {Φ : Ω → Ω}
    (hΦ : MeasurePreserving Φ μ μ) {E f : Ω → ℝ} (mE : Measurable E) (mf : Measurable f) {D M δ : ℝ}
    (hD : ∀ᵐ v ∂μ, |E v| ≤ D) (hM : ∀ᵐ v ∂μ, |f v| ≤ M) (hδ : ∀ᵐ v ∂μ, |E (Φ v) - E v| ≤ δ) (β : ℝ) :
    |(∫ v, Real.exp (-(β * E v)) * f (Φ v) ∂μ) / ∫ v, Real.exp (-(β * E v)) ∂μ
      - (∫ v, Real.exp (-(β * E v)) * f v ∂μ) / ∫ v, Real.exp (-(β * E v)) ∂μ| ≤ M * (Real.exp (|β| * δ) - 1) := by
  have mw : Measurable fun v => Real.exp (-(β * E v)) := (mE.const_mul β).neg.exp
  have wb : ∀ᵐ v ∂μ, |Real.exp (-(β * E v))| ≤ Real.exp (|β| * D) := by
    filter_upwards [hD] with v h
    rw [abs_of_pos (Real.exp_pos _)]
    refine Real.exp_le_exp.2 ?_
    calc -(β * E v) ≤ |β * E v| := neg_le_abs _
      _ = |β| * |E v| := abs_mul _ _
      _ ≤ |β| * D := by gcongr
  have iw : Integrable (fun v => Real.exp (-(β * E v))) μ :=
    Integrable.of_bound mw.aestronglyMeasurable (Real.exp (|β| * D)) wb
  have pos : 0 < ∫ v, Real.exp (-(β * E v)) ∂μ := integral_exp_pos iw
  have hM' : ∀ᵐ v ∂μ, |f (Φ v)| ≤ M := hΦ.quasiMeasurePreserving.ae hM
  have i1 : Integrable (fun v => Real.exp (-(β * E v)) * f (Φ v)) μ :=
    iw.mul_bdd (mf.comp hΦ.measurable).aestronglyMeasurable hM'
  have i2 : Integrable (fun v => Real.exp (-(β * E v)) * f v) μ := iw.mul_bdd mf.aestronglyMeasurable hM
  have i3 : Integrable (fun v => Real.exp (-(β * E (Φ v))) * f (Φ v)) μ := hΦ.integrable_comp_of_integrable i2
  have e : ∫ v, Real.exp (-(β * E v)) * f v ∂μ = ∫ v, Real.exp (-(β * E (Φ v))) * f (Φ v) ∂μ := by
    conv_lhs => rw [← hΦ.map_eq]
    rw [integral_map hΦ.measurable.aemeasurable]
    exact (mw.mul mf).aestronglyMeasurable
  rw [e, ← sub_div, ← integral_sub i1 i3, abs_div, abs_of_pos pos, div_le_iff₀ pos, mul_comm (M * _),
    ← integral_mul_const, ← Real.norm_eq_abs]
  refine norm_integral_le_of_norm_le (iw.mul_const _) ?_
  filter_upwards [hM', hδ] with v h1 h2
  have hx : |-(β * (E (Φ v) - E v))| ≤ |β| * δ := by
    rw [abs_neg, abs_mul]
    gcongr
  have h3 := exp_sub_one_le _ _ hx
  have h4 : Real.exp (-(β * E (Φ v))) = Real.exp (-(β * E v)) * Real.exp (-(β * (E (Φ v) - E v))) := by
    rw [← Real.exp_add]
    congr 1
    ring
  rw [h4, Real.norm_eq_abs, show Real.exp (-(β * E v)) * f (Φ v)
    - Real.exp (-(β * E v)) * Real.exp (-(β * (E (Φ v) - E v))) * f (Φ v)
    = Real.exp (-(β * E v)) * (f (Φ v) * (1 - Real.exp (-(β * (E (Φ v) - E v))))) by ring, abs_mul,
    abs_of_pos (Real.exp_pos _), abs_mul]
  have h5 : 0 ≤ M := (abs_nonneg _).trans h1
  gcongr

/-- Value of `f` for the spins that `c` has after `n` updates, seen from axes that turn with the drive, when its spins at
the beginning, also seen from these axes, are those of `x` (zero if the run panics). -/
noncomputable def frameLater (c : SpinChain ℝ) (L n : ℕ) (f : (Fin L → V3 ℝ) → ℝ) (x : SpinChain ℝ) : ℝ :=
  match ({ c with spins := x.spins.map fun v => ⟨seenFrom (-(2 * Real.pi / c.vars.tau * c.t)) v.dir⟩ } :
      SpinChain ℝ).updates n with
  | .ok c' => f fun i => seenFrom (2 * Real.pi / c.vars.tau * c'.t) (S c' i)
  | .error _ => 0

/-- C117, thermal means: for a given chain `c0` with the circular drive, couplings that are the same along x and y and
not zero, static fields along z and a given length `T` of the runs, there is a constant `K` such that for every
time-step, number of updates that fits into `T`, inverse temperature and bounded observable, the mean of the observable
over the thermal ensemble of the rotating frame (the chain `d`) changes by at most `M (exp(|beta| K dt²) - 1)` during
the run, when all spins are seen from axes that turn with the drive. -/
theorem C117_thermal (c0 : SpinChain ℝ) (L s : ℕ) (T : ℝ) (hL : 4 ≤ L) (he : L % 2 = 0)
    (h0 : CircularDrive c0 L) (hJ : ∀ i < L, J c0 i ≠ zero) :
    ∃ K, 0 ≤ K ∧ ∀ (c d : SpinChain ℝ) (n : ℕ) (beta M : ℝ) (f : (Fin L → V3 ℝ) → ℝ), WF c L s → SameSystem c0 c →
      WF d L s → FrameChain c0 d L s → 0 < c.vars.dt → n * c.vars.dt ≤ T → Measurable f → (∀ v, (∀ i, len (v i) = 1) → |f v| ≤ M) →
      |thermalMean (atBeta d beta) L (wholeEnergy L) (frameLater c L n f)
        - thermalMean (atBeta d beta) L (wholeEnergy L) fun x => f fun i => S x i|
        ≤ M * (Real.exp (|beta| * (K * c.vars.dt ^ 2)) - 1) := by
  obtain ⟨K, hK, h⟩ := frameSum_close c0 L s T (by omega) he h0
  refine ⟨K, hK, fun c d n beta M f w hc wd hd hdt hn mf hM => ?_⟩
  have hv : c.vars.tau = c0.vars.tau := by
    rw [hc.v]
  have eH : H0 c = H0 c0 := by unfold H0; rw [hc.h]
  obtain ⟨ω, hω⟩ : ∃ ω, ω = driveFreq c := ⟨_, rfl⟩
  have hω' : 2 * Real.pi / c.vars.tau = ω := hω.symm
  let E : (Fin L → V3 ℝ) → ℝ := fun v => ringEnergy L (fld v) (J d) (H0 d)
  have hE : ∀ X : ℕ → V3 ℝ, ringEnergy L X (J d) (H0 d) = ringEnergy L X (J c)
      (fun i => add (H0 c i) ⟨if i < s then 1 else 0, 0, -(2 * Real.pi / c.vars.tau)⟩) := by
    intro X
    unfold ringEnergy
    refine sum_congr rfl fun i hi => ?_
    rw [hd.coup i (mem_range.1 hi), hd.field i (mem_range.1 hi), same_J hc, eH, hv]
  let turn : (Fin L → V3 ℝ) → (Fin L → V3 ℝ) := fun v i => seenFrom (-(ω * c.t)) (v i)
  let Φ : (Fin L → V3 ℝ) → (Fin L → V3 ℝ) := fun v i =>
    seenFrom (ω * (c.t + n * c.vars.dt)) (flow c L s n (turn v) i)
  have pt : MeasurePreserving turn (Measure.pi fun _ => sphereMeasure) (Measure.pi fun _ => sphereMeasure) := turn_pres L _
  have pΦ : MeasurePreserving Φ (Measure.pi fun _ => sphereMeasure) (Measure.pi fun _ => sphereMeasure) :=
    (turn_pres L _).comp ((flow_preserving c L s n).comp pt)
  have hgen := pt.quasiMeasurePreserving.ae (C86_generic c L s w hL (fun i hi => by rw [same_J hc]; exact hJ i (by omega)))
  have hfst : ∀ (a : ℝ) (u : Fin L → V3 ℝ) (k : ℕ), fld (fun i => seenFrom a (u i)) k = seenFrom a (fld u k) := by
    intro a u k
    unfold fld
    split_ifs
    · rfl
    · ext <;> simp [seenFrom, zero]
  have hδ : ∀ᵐ v ∂(Measure.pi fun _ : Fin L => sphereMeasure), |E (Φ v) - E v| ≤ K * c.vars.dt ^ 2 := by
    filter_upwards [hgen] with v hv'
    obtain ⟨u1, r1⟩ := hv'
    have hrun := run_chain w (by omega) u1 (r1 n)
    have hk := h (withSpins c (turn v)) _ n (withSpins_wf w _) ⟨hc.j, hc.h, hc.v⟩ (unit_withSpins u1) hdt hn (r1 n) hrun
    have e1 : frameSum L s (withSpins c (turn v)) = E v := by
      show ringEnergy L (fun i => seenFrom (driveFreq c * c.t) (S (withSpins c (turn v)) i)) (J c)
        (fun i => add (H0 c i) ⟨if i < s then 1 else 0, 0, -(2 * Real.pi / c.vars.tau)⟩) = _
      rw [← hE, S_fld]
      have : (fun i => seenFrom (driveFreq c * c.t) (fld (turn v) i)) = fld v := by
        funext i
        rw [hfst, ← hω, seenFrom_back]
      rw [this]
    have e2 : frameSum L s (chainAt c (flow c L s n (turn v)) (c.t + n * c.vars.dt)) = E (Φ v) := by
      show ringEnergy L (fun i => seenFrom (driveFreq c * (c.t + n * c.vars.dt))
        (S (withSpins c (flow c L s n (turn v))) i)) (J c)
        (fun i => add (H0 c i) ⟨if i < s then 1 else 0, 0, -(2 * Real.pi / c.vars.tau)⟩) = _
      rw [← hE, S_fld]
      have : (fun i => seenFrom (driveFreq c * (c.t + n * c.vars.dt)) (fld (flow c L s n (turn v)) i)) = fld (Φ v) := by
        funext i
        rw [hfst, ← hω]
      rw [this]
    rw [e1] at hk
    rw [← e2]
    exact hk
  obtain ⟨D, hD⟩ := ring_bound (J d) (H0 d) L
  have hMae : ∀ᵐ v ∂(Measure.pi fun _ : Fin L => sphereMeasure), |f v| ≤ M :=
    (Markov.good_ae (L := L) sphere_ae).mono fun v hv => hM v hv
  have key := mean_shift pΦ (ring_tame (J d) (H0 d) L).meas mf hD hMae hδ beta
  have eW : ∀ v : Fin L → V3 ℝ, wholeEnergy L (withSpins (atBeta d beta) v) = E v := fun v =>
    whole_ring (c := atBeta d beta) ⟨wd.hsize, wd.ssize, wd.L_lt, wd.s_lt, wd.spins, wd.j, wd.h, wd.hs⟩ (by omega) v
  have eF : ∀ᵐ v ∂(Measure.pi fun _ : Fin L => sphereMeasure),
      Real.exp (-(beta * E v)) * frameLater c L n f (withSpins (atBeta d beta) v) = Real.exp (-(beta * E v)) * f (Φ v) := by
    filter_upwards [hgen] with v hv'
    obtain ⟨u1, r1⟩ := hv'
    have hrun := run_chain w (by omega) u1 (r1 n)
    have es : ({ c with spins := (withSpins (atBeta d beta) v).spins.map fun v =>
        ⟨seenFrom (-(2 * Real.pi / c.vars.tau * c.t)) v.dir⟩ } : SpinChain ℝ) = withSpins c (turn v) := by
      unfold withSpins
      rw [List.map_ofFn]
      rw [hω']
      rfl
    unfold frameLater
    rw [es, hrun]
    simp only
    congr 2
    funext i
    rw [hω']
    have : S (chainAt c (flow c L s n (turn v)) (c.t + n * c.vars.dt)) i = flow c L s n (turn v) i := by
      have : S (chainAt c (flow c L s n (turn v)) (c.t + n * c.vars.dt)) i
        = S (withSpins c (flow c L s n (turn v))) i := rfl
      rw [this, S_fld, fld_val]
    rw [this]
    rfl
  have eS : ∀ v : Fin L → V3 ℝ, (fun i : Fin L => S (withSpins (atBeta d beta) v) i) = v := by
    intro v
    funext i
    rw [S_fld, fld_val]
  unfold thermalMean
  simp only [eW, eS]
  show |(∫ v, Real.exp (-(beta * E v)) * frameLater c L n f (withSpins (atBeta d beta) v)
    ∂(Measure.pi fun _ : Fin L => sphereMeasure)) / _ - _| ≤ _
  rw [integral_congr_ae eF]
  exact key

/-- Value of `f` for the spins that `c` has after `n` updates when it starts from the spins of `x` (zero if the run
panics). -/
noncomputable def spinsLater (c : SpinChain ℝ) (L n : ℕ) (f : (Fin L → V3 ℝ) → ℝ) (x : SpinChain ℝ) : ℝ :=
  match ({ c with spins := x.spins } : SpinChain ℝ).updates n with
  | .ok c' => f fun i => S c' i
  | .error _ => 0

theorem seenFrom_period {t T : ℝ} (h0 : T ≠ 0) {k : ℤ} (hk : t = k * T) (v : V3 ℝ) :
    seenFrom (2 * Real.pi / T * t) v = v ∧ seenFrom (-(2 * Real.pi / T * t)) v = v := by
  have e : 2 * Real.pi / T * t = k * (2 * Real.pi) := by
    rw [hk]
    field_simp
  have h1 : Real.cos (k * (2 * Real.pi)) = 1 := Real.cos_int_mul_two_pi k
  have h2 : Real.sin (k * (2 * Real.pi)) = 0 := by
    rw [show (k : ℝ) * (2 * Real.pi) = (2 * k : ℤ) * Real.pi by push_cast; ring]
    exact Real.sin_int_mul_pi _
  rw [e]
  constructor <;> ext <;> simp [seenFrom, h1, h2]

/-- C117, thermal means at whole periods of the drive: when the run starts and ends at whole periods, the means of the
spins themselves change by at most `M (exp(|beta| K dt²) - 1)`. -/
theorem C117_periods (c0 : SpinChain ℝ) (L s : ℕ) (T : ℝ) (hL : 4 ≤ L) (he : L % 2 = 0)
    (h0 : CircularDrive c0 L) (hJ : ∀ i < L, J c0 i ≠ zero) :
    ∃ K, 0 ≤ K ∧ ∀ (c d : SpinChain ℝ) (n : ℕ) (k l : ℤ) (beta M : ℝ) (f : (Fin L → V3 ℝ) → ℝ), WF c L s →
      SameSystem c0 c → WF d L s → FrameChain c0 d L s → 0 < c.vars.dt → n * c.vars.dt ≤ T →
      c.t = k * c.vars.tau → n * c.vars.dt = l * c.vars.tau →
      Measurable f → (∀ v, (∀ i, len (v i) = 1) → |f v| ≤ M) →
      |thermalMean (atBeta d beta) L (wholeEnergy L) (spinsLater c L n f)
        - thermalMean (atBeta d beta) L (wholeEnergy L) fun x => f fun i => S x i|
        ≤ M * (Real.exp (|beta| * (K * c.vars.dt ^ 2)) - 1) := by
  obtain ⟨K, hK, h⟩ := C117_thermal c0 L s T hL he h0 hJ
  refine ⟨K, hK, fun c d n k l beta M f w hc wd hd hdt hn hk hl mf hM => ?_⟩
  have ht : c.vars.tau ≠ 0 := by
    rw [show c.vars.tau = c0.vars.tau by rw [hc.v]]
    exact h0.tau
  have e : frameLater c L n f = spinsLater c L n f := by
    funext x
    unfold frameLater spinsLater
    have e1 : (x.spins.map fun v : Spin ℝ => (⟨seenFrom (-(2 * Real.pi / c.vars.tau * c.t)) v.dir⟩ : Spin ℝ)) = x.spins := by
      conv_rhs => rw [← List.map_id x.spins]
      refine List.map_congr_left fun v _ => ?_
      rw [(seenFrom_period ht hk _).2]
      rfl
    rw [e1]
    cases hup : ({ c with spins := x.spins } : SpinChain ℝ).updates n with
    | error _ => rfl
    | ok c' =>
      simp only
      congr 1
      funext i
      have := C25_time _ _ n hup
      rw [(seenFrom_period ht (k := k + l) (by rw [this]; push_cast; rw [add_mul, ← hk, ← hl]) _).1]
  rw [← e]
  exact h c d n beta M f w hc wd hd hdt hn mf hM

/-- C117, without time-dependent drive: the thermal ensemble of the reported energy (`total_energy2`) does not change at
all in any number of updates. -/
theorem C117_static (c : SpinChain ℝ) (L s n : ℕ) (w : WF c L s) (hL : 4 ≤ L) (he : L % 2 = 0)
    (hJ : ∀ i < L, J c i ≠ zero) (hd : c.vars.drive = .none ∨ c.vars.drive = .staticfield)
    (M : ℝ) (f : (Fin L → V3 ℝ) → ℝ) (mf : Measurable f) (hM : ∀ v, (∀ i, len (v i) = 1) → |f v| ≤ M) :
    thermalMean c L (fun x => L * match x.total_energy2 with | .ok e => e | .error _ => 0) (spinsLater c L n f)
      = thermalMean c L (fun x => L * match x.total_energy2 with | .ok e => e | .error _ => 0)
          fun x => f fun i => S x i := by
  have hL' : (L : ℝ) ≠ 0 := by positivity
  let E : (Fin L → V3 ℝ) → ℝ := fun v => ringEnergy L (fld v) (J c) (B c s c.t)
  have hgen := C86_generic c L s w hL (fun i hi => hJ i (by omega))
  have hdr : ∀ t t', drive c.vars t = drive c.vars t' := by
    intro t t'
    unfold drive
    rcases hd with h | h <;> rw [h]
  have hδ : ∀ᵐ v ∂(Measure.pi fun _ : Fin L => sphereMeasure), |E (flow c L s n v) - E v| ≤ 0 := by
    filter_upwards [hgen] with v hv
    have h := updates_energy (withSpins_wf w v) (by omega) he hdr (unit_withSpins hv.1) (hv.2 n)
      (run_chain w (by omega) hv.1 (hv.2 n))
    have e1 : ringEnergy L (S (withSpins c v)) (J c) (B c s c.t) = E v := by rw [S_fld]
    have e2 : ringEnergy L (S (withSpins c (flow c L s n v))) (J c) (B c s (c.t + n * c.vars.dt)) = E (flow c L s n v) := by
      rw [S_fld, show B c s (c.t + n * c.vars.dt) = B c s c.t from B_congr rfl (hdr _ _)]
    rw [← e1, ← e2, abs_nonpos_iff, sub_eq_zero]
    exact h
  obtain ⟨D, hD⟩ := ring_bound (J c) (B c s c.t) L
  have hMae : ∀ᵐ v ∂(Measure.pi fun _ : Fin L => sphereMeasure), |f v| ≤ M :=
    (Markov.good_ae (L := L) sphere_ae).mono fun v hv => hM v hv
  have key := mean_shift (flow_preserving c L s n) (ring_tame (J c) (B c s c.t) L).meas mf hD hMae hδ c.vars.beta
  have eW : ∀ v : Fin L → V3 ℝ, ((L : ℝ) * match (withSpins c v).total_energy2 with | .ok e => e | .error _ => 0) = E v := by
    intro v
    rw [total_energy2_eq (withSpins_wf w v) (by omega)]
    show (L : ℝ) * (ringEnergy L (S (withSpins c v)) (J c) (B c s c.t) / L) = _
    rw [S_fld, mul_div_cancel₀ _ hL']
  have eF : ∀ᵐ v ∂(Measure.pi fun _ : Fin L => sphereMeasure),
      Real.exp (-(c.vars.beta * E v)) * spinsLater c L n f (withSpins c v)
        = Real.exp (-(c.vars.beta * E v)) * f (flow c L s n v) := by
    filter_upwards [hgen] with v hv
    obtain ⟨c', h1, h2⟩ := run_flow w (by omega) hv.1 (hv.2 n)
    unfold spinsLater
    rw [show ({ c with spins := (withSpins c v).spins } : SpinChain ℝ) = withSpins c v from rfl, h1]
    simp only
    congr 2
    funext i
    rw [h2, fld_val]
  have eS : ∀ v : Fin L → V3 ℝ, (fun i : Fin L => S (withSpins c v) i) = v := by
    intro v
    funext i
    rw [S_fld, fld_val]
  unfold thermalMean
  simp only [eW, eS]
  rw [integral_congr_ae eF]
  rw [mul_zero, Real.exp_zero, sub_self, mul_zero] at key
  exact sub_eq_zero.1 (abs_nonpos_iff.1 key)

/-- Without any drive this energy is the one of the plain sampler (`mc_total_energy`). -/
theorem C117_undriven (c : SpinChain ℝ) (L s n : ℕ) (w : WF c L s) (hL : 4 ≤ L) (he : L % 2 = 0)
    (hJ : ∀ i < L, J c i ≠ zero) (hd : c.vars.drive = .none)
    (M : ℝ) (f : (Fin L → V3 ℝ) → ℝ) (mf : Measurable f) (hM : ∀ v, (∀ i, len (v i) = 1) → |f v| ≤ M) :
    thermalMean c L (wholeEnergy L) (spinsLater c L n f) = thermalMean c L (wholeEnergy L) fun x => f fun i => S x i := by
  have h := C117_static c L s n w hL he hJ (.inl hd) M f mf hM
  have e : ∀ v : Fin L → V3 ℝ, ((L : ℝ) * match (withSpins c v).total_energy2 with | .ok e => e | .error _ => 0)
      = wholeEnergy L (withSpins c v) := by
    intro v
    unfold wholeEnergy
    rw [total_energy2_eq (withSpins_wf w v) (by omega), mc_total_energy_eq (withSpins_wf w v) (by omega)]
    have : B (withSpins c v) s (withSpins c v).t = H0 (withSpins c v) := by
      funext i
      have : drive (withSpins c v).vars (withSpins c v).t = zero := by
        unfold drive
        rw [show (withSpins c v).vars.drive = .none from hd]
      unfold B
      rw [this]
      split_ifs
      · ext <;> simp [Spec.add, zero]
      · rfl
    rw [this]
  unfold thermalMean at h ⊢
  simpa only [e] using h

theorem new_clean {conf : Config ℝ} {L s : ℕ} (hL : conf.hsize = L) (hlt : L < 2 ^ 31) (hss : conf.ssize = s)
    (hslt : s < 2 ^ 31) (hj : conf.jvar = 0) (hv : conf.hvar = 0) {f0 f1 f2 h0 h1 h2 : ℝ} (hf : conf.hfield = [f0, f1, f2])
    (hh : conf.hs = [h0, h1, h2]) (num : ℕ) (u zj zh : ℕ → ℝ) :
    ∃ c : SpinChain ℝ, SpinChain.new conf num u zj zh = .ok c ∧ WF c L s ∧ c.vars = conf ∧
      c.j_couple = (List.range L).map (fun _ => ⟨1, 1, conf.lambda⟩) ∧
      c.static_h = (List.range L).map fun i => if i < s then ⟨f0 + h0, f1 + h1, f2 + h2⟩ else ⟨f0, f1, f2⟩ := by
  obtain ⟨sp, hs, hlen⟩ := newSpins_ok conf.beta u L
  refine ⟨_, new_eq hL hlt hf hh rfl rfl num u zj zh hs, ⟨hL, hss, hlt, hslt, hlen, by simp, by simp, by simp [hh]⟩, rfl, ?_, ?_⟩
  · refine List.map_congr_left fun i _ => ?_
    unfold coupF
    rw [hj]
    ext <;> norm_num
  · refine List.map_congr_left fun i _ => ?_
    unfold fieldN
    rw [hv, hss]
    simp only [Nat.cast_lt]
    split_ifs <;> ext <;> norm_num

theorem map_J {c : SpinChain ℝ} {L : ℕ} {g : ℕ → V3 ℝ} (h : c.j_couple = (List.range L).map g) {i : ℕ} (hi : i < L) :
    J c i = g i := by
  unfold J
  rw [h]
  simp [hi]

theorem map_H0 {c : SpinChain ℝ} {L : ℕ} {g : ℕ → V3 ℝ} (h : c.static_h = (List.range L).map g) {i : ℕ} (hi : i < L) :
    H0 c i = g i := by
  unfold H0
  rw [h]
  simp [hi]

/-- C117, the fits (`--adiab2`, `--fit-effective`, `--fit`): without disorder, and with a configuration that has no static
fields and the circular drive, the chains whose thermal means the fits report (made by `SpinChain::new` from the
configuration with the fields of src/main.rs:182-183) are the chains of the rotating frame of those that the runs make
from the configuration itself.  For `--fit` this is the configuration with `hsize` set to `ssize` (src/main.rs:257): the
ring of `ssize` sites, all driven.  For the measurement of `--fit-effective` it is the one with `ssize` set to `hsize`
(src/obs.rs:348), see C118.  So the thermal means at any inverse temperature are those of the driven chain up to
`M (exp(|beta| K dt²) - 1)` at all times of a run of length at most `T`. -/
theorem C117_fit (conf : Config ℝ) (L s : ℕ) (T : ℝ) (hL : 4 ≤ L) (he : L % 2 = 0) (hlt : L < 2 ^ 31) (hs : s < 2 ^ 31)
    (hsz : conf.hsize = L) (hss : conf.ssize = s) (hj : conf.jvar = 0) (hv : conf.hvar = 0)
    (hf : conf.hfield = [0, 0, 0]) (hh : conf.hs = [0, 0, 0]) (hdr : conf.drive = .xyplane) (ht : conf.tau ≠ 0) :
    ∃ K, 0 ≤ K ∧ ∀ (dt beta M : ℝ) (n num num' : ℕ) (u zj zh u' zj' zh' : ℕ → ℝ) (f : (Fin L → V3 ℝ) → ℝ), 0 < dt →
      n * dt ≤ T → Measurable f → (∀ v, (∀ i, len (v i) = 1) → |f v| ≤ M) →
      ∃ c d, SpinChain.new { conf with dt } num u zj zh = .ok c ∧
        SpinChain.new (rotFields { conf with dt }) num' u' zj' zh' = .ok d ∧
        |thermalMean (atBeta d beta) L (wholeEnergy L) (frameLater c L n f)
          - thermalMean (atBeta d beta) L (wholeEnergy L) fun x => f fun i => S x i|
          ≤ M * (Real.exp (|beta| * (K * dt ^ 2)) - 1) := by
  obtain ⟨c0, _, w0, v0, j0, s0⟩ := new_clean hsz hlt hss hs hj hv hf hh 0 (fun _ => 0) (fun _ => 0) fun _ => 0
  have hz : ∀ i < L, H0 c0 i = zero := fun i hi => by
    rw [map_H0 s0 hi]
    split_ifs <;> ext <;> simp [zero]
  have hcirc : CircularDrive c0 L := ⟨fun i hi => by rw [map_J j0 hi], by rw [v0]; exact hdr, by rw [v0]; exact ht,
    fun i hi => by rw [hz i hi]; exact ⟨rfl, rfl⟩⟩
  obtain ⟨K, hK, h⟩ := C117_thermal c0 L s T hL he hcirc
    (fun i hi hz => by rw [map_J j0 hi] at hz; exact one_ne_zero (congrArg V3.x hz))
  refine ⟨K, hK, fun dt beta M n num num' u zj zh u' zj' zh' f hdt hn mf hM => ?_⟩
  obtain ⟨c, e1, w1, v1, j1, s1⟩ := new_clean (conf := { conf with dt := dt }) hsz hlt hss hs hj hv hf hh num u zj zh
  obtain ⟨d, e2, w2, v2, j2, s2⟩ := new_clean (conf := rotFields { conf with dt := dt }) hsz hlt hss hs hj hv
    (f0 := 0.0) (f1 := 0.0) (f2 := -2.0 * fpi / conf.tau) (h0 := 1.0) (h1 := 0.0) (h2 := 0.0) rfl rfl num' u' zj' zh'
  refine ⟨c, d, e1, e2, ?_⟩
  have hdt' : c.vars.dt = dt := by rw [v1]
  have := h c d n beta M f w1 ⟨j1.trans j0.symm, s1.trans s0.symm, by rw [v1, v0]⟩ w2
    ⟨fun i hi => by rw [map_J j2 hi, map_J j0 hi]; rfl, fun i hi => by
      rw [map_H0 s2 hi, hz i hi, v0]
      split_ifs <;> ext <;> norm_num [Spec.add, zero, fpi_real] <;> ring⟩ (by rw [hdt']; exact hdt) (by rw [hdt']; exact hn) mf hM
  rwa [hdt'] at this

/-- a ring of four sites, the first two driven, without disorder and without static fields -/
noncomputable def frameConf : Config ℝ :=
  { (Config.default : Config ℝ) with
    hsize := 4
    ssize := 2
    jvar := 0
    hvar := 0
    hfield := [0, 0, 0]
    hs := [0, 0, 0]
    tau := 10 }

/-- the energy density of the first bond as an observable -/
example : frameConf.hsize = (4 : ℕ) ∧ frameConf.ssize = (2 : ℕ) ∧ frameConf.jvar = 0 ∧ frameConf.hvar = 0 ∧
    frameConf.hfield = [0, 0, 0] ∧ frameConf.hs = [0, 0, 0] ∧ frameConf.drive = .xyplane ∧ frameConf.tau ≠ 0 ∧
    (Measurable fun v : Fin 4 → V3 ℝ => (v 0).z * (v 1).z) ∧
    ∀ v : Fin 4 → V3 ℝ, (∀ i, len (v i) = 1) → |(v 0).z * (v 1).z| ≤ 1 := by
  refine ⟨rfl, rfl, rfl, rfl, rfl, rfl, rfl, by norm_num [frameConf],
    (measurable_z.comp (measurable_pi_apply 0)).mul (measurable_z.comp (measurable_pi_apply 1)), fun v hv => ?_⟩
  have h0 := (comp_le_len (v 0)).2.2
  have h1 := (comp_le_len (v 1)).2.2
  rw [hv] at h0 h1
  rw [abs_mul]
  nlinarith [abs_nonneg (v 0).z, abs_nonneg (v 1).z]

/-- the driven ring of four unit spins with couplings that differ from bond to bond and fields along z, and its chain of
the rotating frame -/
noncomputable def demoCircular : SpinChain ℝ :=
  { demoAxial with
    vars := { demoVars with
              drive := .xyplane } }

noncomputable def demoFrame : SpinChain ℝ :=
  { demoCircular with
    static_h := [⟨1, 0, 6 / 5 - 2 * Real.pi / 10⟩, ⟨1, 0, 6 / 5 - 2 * Real.pi / 10⟩, ⟨0, 0, 3 / 2 - 2 * Real.pi / 10⟩,
      ⟨0, 0, 3 / 2 - 2 * Real.pi / 10⟩] }

theorem demoCircular_ok : WF demoCircular 4 2 ∧ WF demoFrame 4 2 ∧ CircularDrive demoCircular 4 ∧
    FrameChain demoCircular demoFrame 4 2 ∧ (∀ i < 4, J demoCircular i ≠ zero) := by
  refine ⟨?_, ?_, ⟨?_, rfl, by norm_num [demoCircular, demoVars], ?_⟩, ⟨fun _ _ => rfl, ?_⟩, ?_⟩
  · constructor <;> simp [demoCircular, demoAxial, demoStatic, demo, demoVars]
  · constructor <;> simp [demoFrame, demoCircular, demoAxial, demoStatic, demo, demoVars]
  all_goals
    intro i hi
    have : i = 0 ∨ i = 1 ∨ i = 2 ∨ i = 3 := by omega
    rcases this with rfl | rfl | rfl | rfl
  all_goals norm_num [J, H0, demoCircular, demoFrame, demoAxial, demoVars, Spec.add, zero, sub_eq_add_neg]

/-- hypotheses of the theorems about the circular drive -/
example : WF demoCircular 4 2 ∧ WF demoFrame 4 2 ∧ CircularDrive demoCircular 4 ∧ FrameChain demoCircular demoFrame 4 2 ∧
    (∀ i < 4, J demoCircular i ≠ zero) ∧ SameSystem demoCircular demoCircular ∧ 0 < demoCircular.vars.dt ∧
    demoCircular.t = (0 : ℤ) * demoCircular.vars.tau ∧
    (1000 : ℕ) * demoCircular.vars.dt = (2 : ℤ) * demoCircular.vars.tau ∧
    (∀ x ∈ demoCircular.spins, IsUnit3 x) ∧
    ∀ i < 4, S demoFrame i = seenFrom (2 * Real.pi / demoCircular.vars.tau * demoCircular.t) (S demoCircular i) := by
  obtain ⟨h1, h2, h3, h4, h5⟩ := demoCircular_ok
  have ht : demoCircular.t = (0 : ℤ) * demoCircular.vars.tau := by
    show (0 : ℝ) = _
    simp
  refine ⟨h1, h2, h3, h4, h5, ⟨rfl, rfl, rfl⟩, by norm_num [demoCircular, demoVars], ht,
    by norm_num [demoCircular, demoVars], demo_unit, fun i _ => ?_⟩
  rw [(seenFrom_period h3.tau ht _).1]
  rfl

/-- all its runs are regular -/
example (n : ℕ) : RegularRun demoCircular 4 2 n := by
  refine regularRun_of_dominant demoCircular_ok.1 (by norm_num) demo_unit ?_ n
  intro t i hi
  have : i = 0 ∨ i = 1 ∨ i = 2 ∨ i = 3 := by omega
  rcases this with rfl | rfl | rfl | rfl <;>
    norm_num [J, B, H0, demoCircular, demoAxial, demoVars, left, drive, Spec.add, zero, abs_of_pos]

end Verif.Props
