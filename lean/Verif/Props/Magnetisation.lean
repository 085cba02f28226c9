/-
C109: conservation of the magnetisation (/repo/src/spinchain.rs `update` and `m_tot`).
-/
import Verif.Props.Order
import Verif.Lemmas.Metropolis

namespace Verif.Props

open Spec Finset

/-- couplings unchanged by rotations about the z axis -/
def AxialCouplings (c : SpinChain ℝ) (L : ℕ) : Prop := ∀ i < L, (J c i).x = (J c i).y

/-- fields along the z axis at all times (no drive, or a static field along z) -/
def AxialFields (c : SpinChain ℝ) (L s : ℕ) : Prop := ∀ t, ∀ i < L, (B c s t i).x = 0 ∧ (B c s t i).y = 0

/-- isotropic couplings without any field -/
def Isotropic (c : SpinChain ℝ) (L s : ℕ) : Prop :=
  (∀ i < L, (J c i).x = (J c i).y ∧ (J c i).y = (J c i).z) ∧ ∀ t, ∀ i < L, B c s t i = zero

/-- the magnetisation along z that flows over the bond between the sites `i` and `i + 1`, per unit time, towards
the site `i` -/
def spinFlow (L : ℕ) (S J : ℕ → V3 ℝ) (i : ℕ) : ℝ :=
  (J i).x * ((S i).x * (S (right L i)).y - (S i).y * (S (right L i)).x)

section
variable {c : SpinChain ℝ} {L s : ℕ} {X : ℝ → ℕ → V3 ℝ} {a b : ℝ}

theorem left_lt {L i : ℕ} (hi : i < L) : left L i < L := Nat.mod_lt _ (by omega)

theorem site_torque (hJ : AxialCouplings c L) (S B : ℕ → V3 ℝ) {i : ℕ} (hi : i < L) :
    (cross (S i) (omega L S (J c) B i)).z
      = spinFlow L S (J c) i - spinFlow L S (J c) (left L i) + ((B i).x * (S i).y - (B i).y * (S i).x) := by
  have h1 := hJ i hi
  have h2 := hJ (left L i) (left_lt hi)
  simp only [cross, omega, spinFlow, right_left hi, Spec.add, Spec.sub, had]
  rw [← h1, ← h2]
  ring

/-- C109, continuity: with couplings that are the same along x and y, the magnetisation along z of a block of `n` sites
from the site `p` on (around the ring) changes by what flows over the two bonds at its ends and by the torque of the
fields. -/
theorem C109_continuity (hJ : AxialCouplings c L) (hX : Motion c L s X a b) {p n : ℕ} (hp : p < L) (hn : 1 ≤ n)
    {t : ℝ} (h1 : a ≤ t) (h2 : t ≤ b) :
    HasDerivAt (fun u => ∑ k ∈ range n, (X u ((p + k) % L)).z)
      (spinFlow L (X t) (J c) ((p + (n - 1)) % L) - spinFlow L (X t) (J c) (left L p)
        + ∑ k ∈ range n, ((B c s t ((p + k) % L)).x * (X t ((p + k) % L)).y
          - (B c s t ((p + k) % L)).y * (X t ((p + k) % L)).x)) t := by
  have hlt : ∀ k, (p + k) % L < L := fun k => Nat.mod_lt _ (by omega)
  have h := HasDerivAt.fun_sum (u := range n) (A := fun k u => (X u ((p + k) % L)).z)
    (A' := fun k => (cross (X t ((p + k) % L)) (omega L (X t) (J c) (B c s t) ((p + k) % L))).z) (x := t)
    (fun k _ => (hX t h1 h2 _ (hlt k)).2.2)
  refine h.congr_deriv ?_
  rw [sum_congr rfl fun k _ => site_torque hJ (X t) (B c s t) (hlt k), sum_add_distrib]
  congr 1
  clear h
  induction n, hn using Nat.le_induction with
  | base => simp [Nat.mod_eq_of_lt hp]
  | succ n hn ih =>
    rw [sum_range_succ, ih]
    have : left L ((p + n) % L) = (p + (n - 1)) % L := by
      unfold left
      rw [Nat.add_sub_assoc (by omega), Nat.mod_add_mod, show p + n + (L - 1) = p + (n - 1) + L by omega, Nat.add_mod_right]
    rw [this, Nat.add_sub_cancel]
    ring

/-- C109, the whole ring: only the torque of the fields changes the magnetisation along z. -/
theorem C109_torque (hJ : AxialCouplings c L) (hX : Motion c L s X a b) {t : ℝ} (h1 : a ≤ t) (h2 : t ≤ b) :
    HasDerivAt (fun u => ∑ i ∈ range L, (X u i).z)
      (∑ i ∈ range L, ((B c s t i).x * (X t i).y - (B c s t i).y * (X t i).x)) t := by
  have h := HasDerivAt.fun_sum (u := range L) (A := fun i u => (X u i).z)
    (A' := fun i => (cross (X t i) (omega L (X t) (J c) (B c s t) i)).z) (x := t)
    (fun i hi => (hX t h1 h2 i (mem_range.1 hi)).2.2)
  refine h.congr_deriv ?_
  rw [sum_congr rfl fun i hi => site_torque hJ (X t) (B c s t) (mem_range.1 hi), sum_add_distrib, sum_sub_distrib,
    sum_left, sub_self, zero_add]

theorem const_of_deriv {f : ℝ → ℝ} {a b : ℝ} (h : ∀ t, a ≤ t → t ≤ b → HasDerivAt f 0 t) {t : ℝ} (h1 : a ≤ t)
    (h2 : t ≤ b) : f t = f a :=
  constant_of_derivWithin_zero (fun u hu => (h u hu.1 hu.2).differentiableAt.differentiableWithinAt)
    (fun u hu => ((h u hu.1 hu.2.le).hasDerivWithinAt).derivWithin
      (uniqueDiffOn_Icc (lt_of_le_of_lt hu.1 hu.2) u ⟨hu.1, hu.2.le⟩)) t ⟨h1, h2⟩

/-- C109, exact motion: without transverse fields the magnetisation along z is conserved. -/
theorem C109_conserved (hJ : AxialCouplings c L) (hB : AxialFields c L s) (hX : Motion c L s X a b) {t : ℝ} (h1 : a ≤ t)
    (h2 : t ≤ b) : ∑ i ∈ range L, (X t i).z = ∑ i ∈ range L, (X a i).z := by
  refine const_of_deriv (f := fun u => ∑ i ∈ range L, (X u i).z) (fun u hu1 hu2 => ?_) h1 h2
  have h := C109_torque hJ hX hu1 hu2
  rwa [sum_eq_zero fun i hi => by
    rw [(hB u i (mem_range.1 hi)).1, (hB u i (mem_range.1 hi)).2]
    ring] at h

/-- C109, exact motion: isotropic chains without fields conserve the whole magnetisation. -/
theorem C109_conserved_isotropic (hI : Isotropic c L s) (hX : Motion c L s X a b) {t : ℝ} (h1 : a ≤ t) (h2 : t ≤ b) :
    ∑ i ∈ range L, (X t i).x = ∑ i ∈ range L, (X a i).x ∧ ∑ i ∈ range L, (X t i).y = ∑ i ∈ range L, (X a i).y ∧
      ∑ i ∈ range L, (X t i).z = ∑ i ∈ range L, (X a i).z := by
  refine ⟨?_, ?_, C109_conserved (fun i hi => (hI.1 i hi).1)
    (fun t i hi => by rw [hI.2 t i hi]; exact ⟨rfl, rfl⟩) hX h1 h2⟩
  · refine const_of_deriv (f := fun u => ∑ i ∈ range L, (X u i).x) (fun u hu1 hu2 => ?_) h1 h2
    have h := HasDerivAt.fun_sum (u := range L) (A := fun i u => (X u i).x)
      (A' := fun i => (cross (X u i) (omega L (X u) (J c) (B c s u) i)).x) (x := u)
      (fun i hi => (hX u hu1 hu2 i (mem_range.1 hi)).1)
    refine h.congr_deriv ?_
    have e : ∀ i ∈ range L, (cross (X u i) (omega L (X u) (J c) (B c s u) i)).x
        = (fun i => (J c i).z * ((X u i).y * (X u (right L i)).z - (X u i).z * (X u (right L i)).y)) i
          - (fun i => (J c i).z * ((X u i).y * (X u (right L i)).z - (X u i).z * (X u (right L i)).y)) (left L i) := by
      intro i hi
      have hi := mem_range.1 hi
      simp only [cross, omega, right_left hi, Spec.add, Spec.sub, had, hI.2 u i hi, zero, (hI.1 i hi).2,
        (hI.1 (left L i) (left_lt hi)).2]
      ring
    rw [sum_congr rfl e, sum_sub_distrib,
      sum_left (fun i => (J c i).z * ((X u i).y * (X u (right L i)).z - (X u i).z * (X u (right L i)).y)), sub_self]
  · refine const_of_deriv (f := fun u => ∑ i ∈ range L, (X u i).y) (fun u hu1 hu2 => ?_) h1 h2
    have h := HasDerivAt.fun_sum (u := range L) (A := fun i u => (X u i).y)
      (A' := fun i => (cross (X u i) (omega L (X u) (J c) (B c s u) i)).y) (x := u)
      (fun i hi => (hX u hu1 hu2 i (mem_range.1 hi)).2.1)
    refine h.congr_deriv ?_
    have e : ∀ i ∈ range L, (cross (X u i) (omega L (X u) (J c) (B c s u) i)).y
        = (fun i => (J c i).z * ((X u i).z * (X u (right L i)).x - (X u i).x * (X u (right L i)).z)) i
          - (fun i => (J c i).z * ((X u i).z * (X u (right L i)).x - (X u i).x * (X u (right L i)).z)) (left L i) := by
      intro i hi
      have hi := mem_range.1 hi
      simp only [cross, omega, right_left hi, Spec.add, Spec.sub, had, hI.2 u i hi, zero, (hI.1 i hi).1, (hI.1 i hi).2,
        (hI.1 (left L i) (left_lt hi)).1, (hI.1 (left L i) (left_lt hi)).2]
      ring
    rw [sum_congr rfl e, sum_sub_distrib,
      sum_left (fun i => (J c i).z * ((X u i).z * (X u (right L i)).x - (X u i).x * (X u (right L i)).z)), sub_self]

end

theorem comp_le_len (v : V3 ℝ) : |v.x| ≤ len v ∧ |v.y| ≤ len v ∧ |v.z| ≤ len v := by
  refine ⟨Real.abs_le_sqrt ?_, Real.abs_le_sqrt ?_, Real.abs_le_sqrt ?_⟩ <;> simp only [dot] <;>
    nlinarith [sq_nonneg v.x, sq_nonneg v.y, sq_nonneg v.z]

theorem sum_close {L : ℕ} {f g : ℕ → ℝ} {e : ℝ} (h : ∀ i < L, |f i - g i| ≤ e) :
    |∑ i ∈ range L, f i - ∑ i ∈ range L, g i| ≤ L * e := by
  rw [← sum_sub_distrib]
  refine (abs_sum_le_sum_abs _ _).trans ((sum_le_sum fun i hi => h i (mem_range.1 hi)).trans ?_)
  rw [sum_const, card_range, nsmul_eq_mul]

/-- C109, the program: for given couplings that are the same along x and y, fields along z and a given length `T` of
the run there is a constant `K` such that the total magnetisation along z reported after any number of updates that
fits into `T`, with any time-step, differs by at most `K dt²` from the one reported before the run; for isotropic
chains without field so do all three components. -/
theorem C109_program (c0 : SpinChain ℝ) (L s : ℕ) (T : ℝ) (hL : 2 ≤ L) (he : L % 2 = 0)
    (hJ : AxialCouplings c0 L) (hB : AxialFields c0 L s) :
    ∃ K, 0 ≤ K ∧ ∀ (c c' : SpinChain ℝ) (n : ℕ) (m m' : V3 ℝ), WF c L s → SameSystem c0 c →
      (∀ x ∈ c.spins, IsUnit3 x) → 0 < c.vars.dt → n * c.vars.dt ≤ T → RegularRun c L s n →
      c.updates n = .ok c' → c.m_tot = .ok m → c'.m_tot = .ok m' →
      |m'.z - m.z| ≤ K * c.vars.dt ^ 2 ∧
        (Isotropic c0 L s → |m'.x - m.x| ≤ K * c.vars.dt ^ 2 ∧ |m'.y - m.y| ≤ K * c.vars.dt ^ 2) := by
  obtain ⟨K, hK, h⟩ := C85_global c0 L s T hL he
  refine ⟨L * K, by positivity, fun c c' n m m' w hc hu h0 hn hr hup hm hm' => ?_⟩
  have hT : 0 ≤ T := le_trans (by positivity) hn
  obtain ⟨X, hX0, hX⟩ := C85_exists c L s w hu T
  have hX' : Motion c L s X c.t (c.t + T) := fun t h1 h2 => hX t (by linarith) h2
  have hcl := h c c' X n w hc hu h0 hn hr hX0 hX' hup
  have ht := C25_time c c' n hup
  have t1 : c.t ≤ c'.t := by rw [ht]; have : 0 ≤ n * c.vars.dt := by positivity
                             linarith
  have t2 : c'.t ≤ c.t + T := by rw [ht]; linarith
  rw [m_tot_eq w] at hm
  rw [m_tot_eq (updates_wf w hup)] at hm'
  cases hm
  cases hm'
  have eJ := same_J hc
  have eB := same_B hc
  have hJ' : AxialCouplings c L := fun i hi => by rw [eJ]; exact hJ i hi
  have hB' : AxialFields c L s := fun t i hi => by rw [eB]; exact hB t i hi
  have hx0 : ∑ i ∈ range L, (X c.t i).x = ∑ i ∈ range L, (S c i).x :=
    sum_congr rfl fun i hi => by rw [hX0 i (mem_range.1 hi)]
  have hy0 : ∑ i ∈ range L, (X c.t i).y = ∑ i ∈ range L, (S c i).y :=
    sum_congr rfl fun i hi => by rw [hX0 i (mem_range.1 hi)]
  have hz0 : ∑ i ∈ range L, (X c.t i).z = ∑ i ∈ range L, (S c i).z :=
    sum_congr rfl fun i hi => by rw [hX0 i (mem_range.1 hi)]
  refine ⟨?_, fun hI => ?_⟩
  · have h1 := C109_conserved hJ' hB' hX' t1 t2
    have h2 := sum_close (L := L) (f := fun i => (S c' i).z) (g := fun i => (X c'.t i).z) (e := K * c.vars.dt ^ 2)
      fun i hi => (comp_le_len (sub (S c' i) (X c'.t i))).2.2.trans (hcl i hi)
    rw [h1, hz0] at h2
    rw [mul_assoc]
    exact h2
  · have hI' : Isotropic c L s := ⟨fun i hi => by rw [eJ]; exact hI.1 i hi, fun t i hi => by rw [eB]; exact hI.2 t i hi⟩
    obtain ⟨h1, h2, _⟩ := C109_conserved_isotropic hI' hX' t1 t2
    constructor
    · have h3 := sum_close (L := L) (f := fun i => (S c' i).x) (g := fun i => (X c'.t i).x) (e := K * c.vars.dt ^ 2)
        fun i hi => (comp_le_len (sub (S c' i) (X c'.t i))).1.trans (hcl i hi)
      rw [h1, hx0] at h3
      rw [mul_assoc]
      exact h3
    · have h3 := sum_close (L := L) (f := fun i => (S c' i).y) (g := fun i => (X c'.t i).y) (e := K * c.vars.dt ^ 2)
        fun i hi => (comp_le_len (sub (S c' i) (X c'.t i))).2.1.trans (hcl i hi)
      rw [h2, hy0] at h3
      rw [mul_assoc]
      exact h3

/-- two isotropically coupled spins at a right angle, and a time-step in which the first turns by a right angle -/
noncomputable def demoPair : SpinChain ℝ where
  j_couple := [⟨1, 1, 1⟩, ⟨1, 1, 1⟩]
  static_h := [⟨0, 0, 0⟩, ⟨0, 0, 0⟩]
  spins := [⟨⟨1, 0, 0⟩⟩, ⟨⟨0, 0, 1⟩⟩]
  t := 0
  vars := { demoVars with
            hsize := 2
            drive := .none
            dt := Real.pi / 2 }
  file := none

theorem demoPair_wf : WF demoPair 2 2 := by constructor <;> simp [demoPair, demoVars]

theorem demoPair_unit : ∀ x ∈ demoPair.spins, IsUnit3 x := by
  intro x hx
  simp only [demoPair, List.mem_cons, List.not_mem_nil, or_false] at hx
  rw [unit_iff]
  rcases hx with rfl | rfl <;> norm_num [dot]

theorem demoPair_isotropic : Isotropic demoPair 2 2 := by
  constructor
  · intro i hi
    have : i = 0 ∨ i = 1 := by omega
    rcases this with rfl | rfl <;> simp [J, demoPair]
  · intro t i hi
    have : i = 0 ∨ i = 1 := by omega
    rcases this with rfl | rfl <;> simp [B, H0, drive, demoPair, demoVars, Spec.add, zero]

theorem len_two (v : V3 ℝ) (h : dot v v = 4) : len v = 2 := by
  unfold len
  rw [h, show (4 : ℝ) = 2 ^ 2 by norm_num]
  exact Real.sqrt_sq (by norm_num)

theorem quarter (v Ω : V3 ℝ) (h : dot Ω Ω = 4) :
    precess v Ω (Real.pi / 2 / 2) = sub (smul (dot Ω v / 4) Ω) (smul (1 / 2) (cross Ω v)) := by
  unfold precess
  simp only [len_two Ω h]
  rw [show (2 : ℝ) * (Real.pi / 2 / 2) = Real.pi / 2 by ring, Real.cos_pi_div_two, Real.sin_pi_div_two]
  ext <;> simp only [Spec.sub, Spec.add, smul, dot, cross] <;> ring

theorem half (v Ω : V3 ℝ) (h : dot Ω Ω = 4) : precess v Ω (Real.pi / 2) = sub (smul (dot Ω v / 2) Ω) v := by
  unfold precess
  simp only [len_two Ω h]
  rw [show (2 : ℝ) * (Real.pi / 2) = Real.pi by ring, Real.cos_pi, Real.sin_pi]
  ext <;> simp only [Spec.sub, Spec.add, smul, dot, cross] <;> ring

theorem demoPair_steps :
    let B0 := B demoPair 2 (demoPair.t + demoPair.vars.dt / 2)
    let S1 := subStep 2 0 (J demoPair) B0 (Real.pi / 2 / 2) (S demoPair)
    let S2 := subStep 2 1 (J demoPair) B0 (Real.pi / 2) S1
    let S3 := subStep 2 0 (J demoPair) B0 (Real.pi / 2 / 2) S2
    (S1 0 = ⟨0, -1, 0⟩ ∧ S1 1 = ⟨0, 0, 1⟩) ∧ (S2 0 = ⟨0, -1, 0⟩ ∧ S2 1 = ⟨0, 0, -1⟩) ∧
      (S3 0 = ⟨1, 0, 0⟩ ∧ S3 1 = ⟨0, 0, -1⟩) ∧ omega 2 (S demoPair) (J demoPair) B0 0 = ⟨0, 0, 2⟩ ∧
      omega 2 S1 (J demoPair) B0 1 = ⟨0, -2, 0⟩ ∧ omega 2 S2 (J demoPair) B0 0 = ⟨0, 0, -2⟩ := by
  intro B0 S1 S2 S3
  have hB : ∀ i < 2, B0 i = zero := demoPair_isotropic.2 _
  have j0 : J demoPair 0 = ⟨1, 1, 1⟩ := by simp [J, demoPair]
  have j1 : J demoPair 1 = ⟨1, 1, 1⟩ := by simp [J, demoPair]
  have om0 : ∀ T : ℕ → V3 ℝ, omega 2 T (J demoPair) B0 0 = smul 2 (T 1) := fun T => by
    unfold omega
    rw [hB 0 (by norm_num), j0, show left 2 0 = 1 from rfl, show right 2 0 = 1 from rfl, j1]
    ext <;> simp only [Spec.add, Spec.sub, had, smul, zero] <;> ring
  have om1 : ∀ T : ℕ → V3 ℝ, omega 2 T (J demoPair) B0 1 = smul 2 (T 0) := fun T => by
    unfold omega
    rw [hB 1 (by norm_num), j1, show left 2 1 = 0 from rfl, show right 2 1 = 0 from rfl, j0]
    ext <;> simp only [Spec.add, Spec.sub, had, smul, zero] <;> ring
  have s0 : S demoPair 0 = ⟨1, 0, 0⟩ := by simp [S, demoPair]
  have s1 : S demoPair 1 = ⟨0, 0, 1⟩ := by simp [S, demoPair]
  have a0 : S1 0 = ⟨0, -1, 0⟩ := by
    show (if 0 < 2 ∧ 0 % 2 = 0 then _ else _) = _
    rw [if_pos (by norm_num), om0, s0, s1, quarter _ _ (by norm_num [dot, smul])]
    ext <;> norm_num [Spec.sub, smul, dot, cross]
  have a1 : S1 1 = ⟨0, 0, 1⟩ := by
    show (if 1 < 2 ∧ 1 % 2 = 0 then _ else _) = _
    rw [if_neg (by norm_num), s1]
  have b0 : S2 0 = ⟨0, -1, 0⟩ := by
    show (if 0 < 2 ∧ 0 % 2 = 1 then _ else _) = _
    rw [if_neg (by norm_num), a0]
  have b1 : S2 1 = ⟨0, 0, -1⟩ := by
    show (if 1 < 2 ∧ 1 % 2 = 1 then _ else _) = _
    rw [if_pos (by norm_num), om1, a0, a1, half _ _ (by norm_num [dot, smul])]
    ext <;> norm_num [Spec.sub, smul, dot, cross]
  have d0 : S3 0 = ⟨1, 0, 0⟩ := by
    show (if 0 < 2 ∧ 0 % 2 = 0 then _ else _) = _
    rw [if_pos (by norm_num), om0, b0, b1, quarter _ _ (by norm_num [dot, smul])]
    ext <;> norm_num [Spec.sub, smul, dot, cross]
  have d1 : S3 1 = ⟨0, 0, -1⟩ := by
    show (if 1 < 2 ∧ 1 % 2 = 0 then _ else _) = _
    rw [if_neg (by norm_num), b1]
  refine ⟨⟨a0, a1⟩, ⟨b0, b1⟩, ⟨d0, d1⟩, ?_, ?_, ?_⟩
  · rw [om0, s1]
    ext <;> norm_num [smul]
  · rw [om1, a0]
    ext <;> norm_num [smul]
  · rw [om0, b1]
    ext <;> norm_num [smul]

theorem demoPair_regular : RegularStep demoPair 2 2 := by
  obtain ⟨_, _, _, o1, o2, o3⟩ := demoPair_steps
  refine ⟨?_, ?_, ?_⟩
  · intro i hi h0
    have : i = 0 := by omega
    subst this
    exact fun h => by simpa [zero] using congrArg V3.z (o1.symm.trans h)
  · intro i hi h0
    have : i = 1 := by omega
    subst this
    exact fun h => by simpa [zero] using congrArg V3.y (o2.symm.trans h)
  · intro i hi h0
    have : i = 0 := by omega
    subst this
    exact fun h => by simpa [zero] using congrArg V3.z (o3.symm.trans h)

/-- C109, the program does not conserve the magnetisation exactly: two isotropically coupled spins without field
have the magnetisation (1, 0, 1) before one update with a large time-step and (1, 0, -1) after it. -/
theorem C109_negation : WF demoPair 2 2 ∧ Isotropic demoPair 2 2 ∧ (∀ x ∈ demoPair.spins, IsUnit3 x) ∧
    RegularRun demoPair 2 2 1 ∧ ∃ c', demoPair.update = .ok c' ∧ demoPair.m_tot = .ok ⟨1, 0, 1⟩ ∧
      c'.m_tot = .ok ⟨1, 0, -1⟩ := by
  refine ⟨demoPair_wf, demoPair_isotropic, demoPair_unit, ?_, ?_⟩
  · intro k hk c' hc
    have : k = 0 := by omega
    subst this
    cases hc
    exact demoPair_regular
  · obtain ⟨c', h1, _, h2⟩ := update_spec demoPair_wf (by norm_num) demoPair_unit demoPair_regular
    have w' : WF c' 2 2 := updates_wf (n := 1) demoPair_wf (by
      show (demoPair.update >>= fun c => .ok c) = _
      rw [h1]
      rfl)
    refine ⟨c', h1, ?_, ?_⟩
    · rw [m_tot_eq demoPair_wf]
      simp [sum_range_succ, S, demoPair]
    · rw [m_tot_eq w', h2]
      obtain ⟨_, _, ⟨d0, d1⟩, _⟩ := demoPair_steps
      have e : step (2 * (2 / 2)) (J demoPair) (B demoPair 2 (demoPair.t + demoPair.vars.dt / 2)) demoPair.vars.dt
          (S demoPair) = subStep 2 0 (J demoPair) (B demoPair 2 (demoPair.t + demoPair.vars.dt / 2)) (Real.pi / 2 / 2)
          (subStep 2 1 (J demoPair) (B demoPair 2 (demoPair.t + demoPair.vars.dt / 2)) (Real.pi / 2)
            (subStep 2 0 (J demoPair) (B demoPair 2 (demoPair.t + demoPair.vars.dt / 2)) (Real.pi / 2 / 2)
              (S demoPair))) := rfl
      rw [e]
      simp only [sum_range_succ, sum_range_zero, d0, d1]
      norm_num

/-- a chain of four spins in fields along z, with couplings that are the same along x and y -/
noncomputable def demoAxial : SpinChain ℝ :=
  { demoStatic with
    j_couple := [⟨1, 1, 1 / 2⟩, ⟨9 / 10, 9 / 10, 1 / 2⟩, ⟨1, 1, 1 / 2⟩, ⟨11 / 10, 11 / 10, 3 / 5⟩]
    static_h := [⟨0, 0, 6 / 5⟩, ⟨0, 0, 6 / 5⟩, ⟨0, 0, 3 / 2⟩, ⟨0, 0, 3 / 2⟩] }

example (n : ℕ) : WF demoAxial 4 2 ∧ AxialCouplings demoAxial 4 ∧ AxialFields demoAxial 4 2 ∧
    (∀ x ∈ demoAxial.spins, IsUnit3 x) ∧ 0 < demoAxial.vars.dt ∧ RegularRun demoAxial 4 2 n ∧
    SameSystem demoAxial demoAxial := by
  have w : WF demoAxial 4 2 := by constructor <;> simp [demoAxial, demoStatic, demo, demoVars]
  refine ⟨w, ?_, ?_, demo_unit, by norm_num [demoAxial, demoStatic, demo, demoVars], ?_, ⟨rfl, rfl, rfl⟩⟩
  · intro i hi
    have : i = 0 ∨ i = 1 ∨ i = 2 ∨ i = 3 := by omega
    rcases this with rfl | rfl | rfl | rfl <;> norm_num [J, demoAxial]
  · intro t i hi
    have : i = 0 ∨ i = 1 ∨ i = 2 ∨ i = 3 := by omega
    rcases this with rfl | rfl | rfl | rfl <;>
      norm_num [B, H0, demoAxial, demoStatic, demo, demoVars, drive, Spec.add, zero]
  · refine regularRun_of_dominant w (by norm_num) demo_unit ?_ n
    intro t i hi
    have : i = 0 ∨ i = 1 ∨ i = 2 ∨ i = 3 := by omega
    rcases this with rfl | rfl | rfl | rfl <;>
      norm_num [J, B, H0, demoAxial, demoStatic, demo, demoVars, left, drive, Spec.add, zero, abs_of_pos]

end Verif.Props
