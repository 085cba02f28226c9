/-
Helper lemmas about the Langevin chain: vanishing fields, energy, time derivative.
-/
import Verif.Lemmas.Langevin
import Verif.Lemmas.Consistency

namespace Verif

open Spec Finset Filter Topology

/-! ### fields that cannot vanish -/

theorem damped_ne {S Ω η : V3 ℝ} (γ : ℝ) (h : dot η η < dot Ω Ω) :
    Spec.sub Ω (Spec.add (smul γ (cross S Ω)) η) ≠ zero := by
  intro h0
  have hx := congrArg V3.x h0
  have hy := congrArg V3.y h0
  have hz := congrArg V3.z h0
  simp only [Spec.sub, Spec.add, smul, cross, zero] at hx hy hz
  have ex : η.x = Ω.x - γ * (S.y * Ω.z - S.z * Ω.y) := by linarith
  have ey : η.y = Ω.y - γ * (S.z * Ω.x - S.x * Ω.z) := by linarith
  have ez : η.z = Ω.z - γ * (S.x * Ω.y - S.y * Ω.x) := by linarith
  have : dot η η = dot Ω Ω + (γ * (S.y * Ω.z - S.z * Ω.y)) ^ 2 + (γ * (S.z * Ω.x - S.x * Ω.z)) ^ 2
      + (γ * (S.x * Ω.y - S.y * Ω.x)) ^ 2 := by
    simp only [dot]; rw [ex, ey, ez]; ring
  nlinarith [sq_nonneg (γ * (S.y * Ω.z - S.z * Ω.y)), sq_nonneg (γ * (S.z * Ω.x - S.x * Ω.z)),
    sq_nonneg (γ * (S.x * Ω.y - S.y * Ω.x))]

theorem subStepG_len {om : (ℕ → V3 ℝ) → ℕ → V3 ℝ} {m par : ℕ} {S : ℕ → V3 ℝ} {dt : ℝ}
    (h : ∀ i < m, len (S i) = 1) : ∀ i < m, len (subStepG om m par dt S i) = 1 := by
  intro i hi
  unfold subStepG
  split
  · rw [len_precess, h i hi]
  · exact h i hi

theorem regularG_of {om : (ℕ → V3 ℝ) → ℕ → V3 ℝ} {m : ℕ} {dt : ℝ} {S : ℕ → V3 ℝ}
    (h : ∀ S : ℕ → V3 ℝ, (∀ i < m, len (S i) = 1) → ∀ i < m, om S i ≠ zero)
    (hS : ∀ i < m, len (S i) = 1) : RegularG om m dt S :=
  ⟨fun i hi _ => h _ hS i hi, fun i hi _ => h _ (subStepG_len hS) i hi,
   fun i hi _ => h _ (subStepG_len (subStepG_len hS)) i hi⟩

theorem openOmega_z {m : ℕ} {J B S : ℕ → V3 ℝ} (hS : ∀ i < m, len (S i) = 1) {i : ℕ} (hi : i < m) :
    |(B i).z| - zBond m J i ≤ |(openOmega m S J B i).z| := by
  have key : ∀ a b c A C : ℝ, |a| ≤ A → |c| ≤ C → |b| - (A + C) ≤ |a + c - b| := by
    intro a b c A C h1 h2
    have h3 := abs_add_le a c
    have h4 := abs_sub_abs_le_abs_sub b (a + c)
    rw [abs_sub_comm] at h4
    linarith
  have hb : ∀ j k : ℕ, k < m → |(J j).z * (S k).z| ≤ |(J j).z| := by
    intro j k hk
    have := abs_z_le_len (S k)
    rw [hS k hk] at this
    rw [abs_mul]
    exact mul_le_of_le_one_right (abs_nonneg _) this
  unfold openOmega zBond
  by_cases h0 : 0 < i <;> by_cases h1 : i + 1 < m <;>
    simp only [h0, h1, if_true, if_false, Spec.sub, Spec.add, had, zero]
  · exact key _ _ _ _ _ (hb _ _ (by omega)) (hb _ _ h1)
  · exact key _ _ _ _ _ (hb _ _ (by omega)) (by simp)
  · exact key _ _ _ _ _ (by simp) (hb _ _ h1)
  · exact key _ _ _ _ _ (by simp) (by simp)

theorem langField_ne {m : ℕ} {γ : ℝ} {J B η S : ℕ → V3 ℝ}
    (hd : ∀ i < m, zBond m J i + len (η i) < |(B i).z|)
    (hS : ∀ i < m, len (S i) = 1) : ∀ i < m, langField m γ J B η S i ≠ zero := by
  intro i hi
  have h1 := openOmega_z (J := J) (B := B) hS hi
  have h2 := hd i hi
  have h3 := abs_z_le_len (openOmega m S J B i)
  have hl : 0 ≤ len (η i) := Real.sqrt_nonneg _
  have h4 : len (η i) < len (openOmega m S J B i) := by linarith
  unfold langField
  split
  · exact damped_ne γ (lt_of_not_ge fun h => absurd (Real.sqrt_le_sqrt h) (not_le.2 h4))
  · intro h0
    rw [h0, len_zero] at h4
    linarith

/-! ### no damping: energy -/

/-- the couplings of the ring with the closing one removed -/
def cutJ (m : ℕ) (J : ℕ → V3 ℝ) (i : ℕ) : V3 ℝ := if i + 1 < m then J i else zero

theorem openOmega_cut {m : ℕ} {J B S : ℕ → V3 ℝ} {i : ℕ} (hi : i < m) :
    openOmega m S J B i = omega m S (cutJ m J) B i := by
  have hz : ∀ v, had zero v = zero := fun v => by ext <;> simp [had, zero]
  unfold openOmega omega cutJ
  congr 2
  · by_cases h0 : i = 0
    · subst h0
      unfold left
      rw [if_neg (by omega), left_zero (by omega), if_neg (by omega), hz]
    · unfold left
      rw [if_pos (by omega), left_pos (by omega) hi, if_pos (by omega)]
  · by_cases h1 : i + 1 < m
    · unfold right
      rw [if_pos h1, if_pos h1, right_lt h1]
    · rw [if_neg h1, if_neg h1, hz]

theorem openEnergy_cut {m : ℕ} (hm : 1 ≤ m) (J B S : ℕ → V3 ℝ) :
    openEnergy m S J B = ringEnergy m S (cutJ m J) B := by
  unfold openEnergy ringEnergy
  rw [sum_add_distrib]
  congr 1
  obtain ⟨n, rfl⟩ : ∃ n, m = n + 1 := ⟨m - 1, by omega⟩
  rw [sum_range_succ, Nat.add_sub_cancel]
  have : -dot (S n) (had (cutJ (n + 1) J n) (S ((n + 1) % (n + 1)))) = 0 := by
    unfold cutJ
    rw [if_neg (by omega)]
    simp [dot, had, zero]
  rw [this, add_zero]
  apply sum_congr rfl
  intro i hi
  rw [mem_range] at hi
  unfold cutJ
  rw [if_pos (by omega), Nat.mod_eq_of_lt (by omega)]

theorem noiseField_zero (m : ℕ) (β dt : ℝ) (z : Noise ℝ) (i : ℕ) :
    noiseField m 0 β dt z i = zero := by
  unfold noiseField
  ext <;> simp [smul, zero]

theorem langField_undamped {m : ℕ} {J B η S : ℕ → V3 ℝ} (hη : ∀ i, η i = zero) {i : ℕ} :
    langField m 0 J B η S i = openOmega m S J B i := by
  unfold langField
  rw [hη i]
  split
  · ext <;> simp [Spec.sub, Spec.add, smul, zero]
  · rfl

theorem stepG_congr {om om' : (ℕ → V3 ℝ) → ℕ → V3 ℝ} {m : ℕ} {dt : ℝ} {S : ℕ → V3 ℝ}
    (h : ∀ S i, i < m → om S i = om' S i) : stepG om m dt S = stepG om' m dt S := by
  have key : ∀ par dt S, subStepG om m par dt S = subStepG om' m par dt S := by
    intro par dt S
    funext i
    unfold subStepG
    by_cases hc : i < m ∧ i % 2 = par
    · rw [if_pos hc, if_pos hc, h _ _ hc.1]
    · rw [if_neg hc, if_neg hc]
  unfold stepG
  rw [key, key, key]

theorem stepG_undamped {m : ℕ} {J B S η : ℕ → V3 ℝ} {dt : ℝ} (hη : ∀ i, η i = zero) :
    stepG (langField m 0 J B η) m dt S = step m (cutJ m J) B dt S := by
  rw [stepG_congr (om' := fun S => omega m S (cutJ m J) B)
    (fun S i hi => by rw [langField_undamped hη, openOmega_cut hi])]
  rfl

theorem l_updates_energy {c c' : LangevinChain ℝ} {L s : ℕ} {zs : List (Noise ℝ)}
    (w : WF c.toSpinChain L s) (hL : 2 ≤ L) (he : L % 2 = 0) (hγ : c.gamma = 0)
    (hd : ∀ t t', drive c.vars t = drive c.vars t')
    (hu : ∀ x ∈ c.spins, IsUnit3 x) (hr : RegularRunL L s zs c) (h : c.updates zs = .ok c') :
    openEnergy L (S c'.toSpinChain) (J c'.toSpinChain) (B c'.toSpinChain s c'.t)
      = openEnergy L (S c.toSpinChain) (J c.toSpinChain) (B c.toSpinChain s c.t) ∧
    c'.vars = c.vars ∧ c'.static_h = c.static_h ∧ c'.j_couple = c.j_couple ∧
      WF c'.toSpinChain L s := by
  induction zs generalizing c with
  | nil => cases h; exact ⟨rfl, rfl, rfl, rfl, w⟩
  | cons z zs ih =>
    obtain ⟨c1, h1, u1, e1⟩ := l_update_spec w hL hu hr.1
    obtain ⟨a1, a2, a3, a4, a5, a6, a7⟩ := l_update_frame h1
    unfold LangevinChain.updates at h
    rw [h1, ok_bind] at h
    obtain ⟨i1, i2, i3, i4, i5⟩ := ih (l_update_wf w h1) (by rw [a7, hγ]) (by rw [a3]; exact hd) u1
      (hr.2 c1 h1) h
    refine ⟨i1.trans ?_, by rw [i2, a3], by rw [i3, a2], by rw [i4, a1], i5⟩
    have hB : B c1.toSpinChain s c1.t = B c.toSpinChain s c.t :=
      B_congr a2 (by rw [a3]; exact hd _ _)
    have hB2 : B c.toSpinChain s (c.t + c.vars.dt) = B c.toSpinChain s c.t := B_congr rfl (hd _ _)
    obtain ⟨l, rfl⟩ : ∃ l, L = 2 * l := ⟨L / 2, by omega⟩
    rw [hB, J_congr a1, e1]
    unfold langOm
    rw [show 2 * (2 * l / 2) = 2 * l by omega, hγ, hB2,
      stepG_undamped (noiseField_zero _ _ _ _), openEnergy_cut (by omega), openEnergy_cut (by omega)]
    exact ringEnergy_step (by omega) _ _ _ _

/-! ### time derivative -/

theorem subStepG_deriv {m par : ℕ} {om : ℝ → (ℕ → V3 ℝ) → ℕ → V3 ℝ} {S : ℝ → ℕ → V3 ℝ}
    {S' : ℕ → V3 ℝ} (a : ℝ)
    (hS : ∀ k, HasDeriv3 (fun x => S x k) (S' k) 0)
    (ho : ∀ S : ℝ → ℕ → V3 ℝ, (∀ k, Cont3 (fun x => S x k) 0) → ∀ i < m,
      Cont3 (fun x => om x (S x) i) 0)
    (h0 : ∀ i < m, om 0 (S 0) i ≠ zero) (k : ℕ) :
    HasDeriv3 (fun x => subStepG (om x) m par (a * x) (S x) k)
      (if k < m ∧ k % 2 = par then
        Spec.add (S' k) (smul a (cross (S 0 k) (om 0 (S 0) k))) else S' k) 0 := by
  by_cases hc : k < m ∧ k % 2 = par
  · rw [if_pos hc]
    have := precess_deriv a (hS k) (ho S (fun k => (hS k).cont) k hc.1) (h0 k hc.1)
    have e : (fun x => subStepG (om x) m par (a * x) (S x) k)
        = fun x => precess (S x k) (om x (S x) k) (a * x) := by
      funext x; exact if_pos hc
    rw [e]
    exact this
  · rw [if_neg hc]
    have e : (fun x => subStepG (om x) m par (a * x) (S x) k) = fun x => S x k := by
      funext x; exact if_neg hc
    rw [e]
    exact hS k

theorem subStepG_zero (om : (ℕ → V3 ℝ) → ℕ → V3 ℝ) (m par : ℕ) (S : ℕ → V3 ℝ) :
    subStepG om m par 0 S = S := by
  funext i
  unfold subStepG
  split
  · exact precess_zero _ _
  · rfl

theorem stepG_deriv {m : ℕ} {S : ℕ → V3 ℝ} {om : ℝ → (ℕ → V3 ℝ) → ℕ → V3 ℝ}
    (ho : ∀ S : ℝ → ℕ → V3 ℝ, (∀ k, Cont3 (fun x => S x k) 0) → ∀ i < m,
      Cont3 (fun x => om x (S x) i) 0)
    (h0 : ∀ i < m, om 0 S i ≠ zero) :
    (∀ k < m, HasDeriv3 (fun x => stepG (om x) m x S k) (cross (S k) (om 0 S k)) 0) ∧
      ∀ᶠ x in 𝓝 (0 : ℝ), RegularG (om x) m x S := by
  have hS0 : ∀ k, HasDeriv3 (fun _ : ℝ => S k) zero 0 := fun k => hasDeriv3_const _ _
  have d1 := subStepG_deriv (S := fun _ => S) (par := 0) (1 / 2) hS0 ho h0
  have z1 : subStepG (om 0) m 0 (1 / 2 * 0) S = S := by rw [mul_zero, subStepG_zero]
  have d2 := subStepG_deriv (S := fun x => subStepG (om x) m 0 (1 / 2 * x) S) (par := 1) 1 d1 ho
    (by rw [z1]; exact h0)
  have z2 : subStepG (om 0) m 1 (1 * 0) (subStepG (om 0) m 0 (1 / 2 * 0) S) = S := by
    rw [z1, mul_zero, subStepG_zero]
  have d3 := subStepG_deriv
    (S := fun x => subStepG (om x) m 1 (1 * x) (subStepG (om x) m 0 (1 / 2 * x) S)) (par := 0)
    (1 / 2) d2 ho (by rw [z2]; exact h0)
  have z3 : subStepG (om 0) m 1 (1 * 0) S = S := by rw [mul_zero, subStepG_zero]
  simp only [z1, z3] at d3
  constructor
  · intro k hk
    have e : (fun x => stepG (om x) m x S k) = fun x =>
        subStepG (om x) m 0 (1 / 2 * x)
          (subStepG (om x) m 1 (1 * x) (subStepG (om x) m 0 (1 / 2 * x) S)) k := by
      funext x
      unfold stepG
      rw [one_mul, show 1 / 2 * x = x / 2 by ring]
    rw [e]
    have := d3 k
    by_cases hp : k % 2 = 0
    · rw [if_pos ⟨hk, hp⟩, if_neg (by omega), if_pos ⟨hk, hp⟩] at this
      convert this using 1
      ext <;> simp only [Spec.add, smul, cross, zero] <;> ring
    · rw [if_neg (by omega), if_pos ⟨hk, by omega⟩, if_neg (by omega)] at this
      convert this using 1
      ext <;> simp only [Spec.add, smul, cross, zero] <;> ring
  · have c0 := ho (fun _ => S) (fun k => (hS0 k).cont)
    have c1 := ho _ (fun k => (d1 k).cont)
    have c2 := ho _ (fun k => (d2 k).cont)
    have e0 : ∀ᶠ x in 𝓝 (0 : ℝ), ∀ i ∈ Finset.range m, om x S i ≠ zero :=
      (Finset.range m).eventually_all.2 fun i hi =>
        eventually_ne_zero (c0 i (Finset.mem_range.1 hi)) (h0 i (Finset.mem_range.1 hi))
    have e1 : ∀ᶠ x in 𝓝 (0 : ℝ), ∀ i ∈ Finset.range m,
        om x (subStepG (om x) m 0 (1 / 2 * x) S) i ≠ zero :=
      (Finset.range m).eventually_all.2 fun i hi =>
        eventually_ne_zero (c1 i (Finset.mem_range.1 hi))
          (by rw [z1]; exact h0 i (Finset.mem_range.1 hi))
    have e2 : ∀ᶠ x in 𝓝 (0 : ℝ), ∀ i ∈ Finset.range m,
        om x (subStepG (om x) m 1 (1 * x) (subStepG (om x) m 0 (1 / 2 * x) S)) i ≠ zero :=
      (Finset.range m).eventually_all.2 fun i hi =>
        eventually_ne_zero (c2 i (Finset.mem_range.1 hi))
          (by rw [z2]; exact h0 i (Finset.mem_range.1 hi))
    filter_upwards [e0, e1, e2] with x h1 h2 h3
    rw [show 1 / 2 * x = x / 2 by ring] at h2 h3
    rw [one_mul] at h3
    exact ⟨fun i hi _ => h1 i (Finset.mem_range.2 hi), fun i hi _ => h2 i (Finset.mem_range.2 hi),
      fun i hi _ => h3 i (Finset.mem_range.2 hi)⟩

theorem Cont3.cross {a b : ℝ → V3 ℝ} {x : ℝ} (ha : Cont3 a x) (hb : Cont3 b x) :
    Cont3 (fun s => Spec.cross (a s) (b s)) x :=
  ⟨(ha.2.1.mul hb.2.2).sub (ha.2.2.mul hb.2.1), (ha.2.2.mul hb.1).sub (ha.1.mul hb.2.2),
    (ha.1.mul hb.2.1).sub (ha.2.1.mul hb.1)⟩

theorem Cont3.smul {a : ℝ → V3 ℝ} {x : ℝ} (r : ℝ) (ha : Cont3 a x) :
    Cont3 (fun s => Spec.smul r (a s)) x :=
  ⟨continuousAt_const.mul ha.1, continuousAt_const.mul ha.2.1, continuousAt_const.mul ha.2.2⟩

theorem openOmega_cont {m i : ℕ} {J : ℕ → V3 ℝ} {S B : ℝ → ℕ → V3 ℝ}
    (hS : ∀ k, Cont3 (fun x => S x k) 0) (hB : ∀ k, Cont3 (fun x => B x k) 0) :
    Cont3 (fun x => openOmega m (S x) J (B x) i) 0 := by
  unfold openOmega
  by_cases h0 : 0 < i <;> by_cases h1 : i + 1 < m <;>
    simp only [h0, h1, if_true, if_false]
  · exact (((cont3_const _ _).had (hS _)).add ((cont3_const _ _).had (hS _))).sub (hB _)
  · exact (((cont3_const _ _).had (hS _)).add (cont3_const _ _)).sub (hB _)
  · exact ((cont3_const _ _).add ((cont3_const _ _).had (hS _))).sub (hB _)
  · exact ((cont3_const _ _).add (cont3_const _ _)).sub (hB _)

theorem langField_cont {m i : ℕ} {γ : ℝ} {J η : ℕ → V3 ℝ} {S B : ℝ → ℕ → V3 ℝ}
    (hS : ∀ k, Cont3 (fun x => S x k) 0) (hB : ∀ k, Cont3 (fun x => B x k) 0) :
    Cont3 (fun x => langField m γ J (B x) η (S x) i) 0 := by
  have ho := openOmega_cont (m := m) (i := i) (J := J) hS hB
  unfold langField
  by_cases h : i = 0 ∨ i + 1 = m
  · simp only [if_pos h]
    exact ho.sub ((((hS i).cross ho).smul γ).add (cont3_const _ _))
  · simp only [if_neg h]
    exact ho

theorem drive_cont' (v : Config ℝ) (t : ℝ) : Cont3 (fun x => drive v (t + x)) 0 := by
  have hc : Continuous fun x : ℝ => Real.cos (2 * Real.pi * (t + x) / v.tau) := by fun_prop
  have hs : Continuous fun x : ℝ => Real.sin (2 * Real.pi * (t + x) / v.tau) := by fun_prop
  unfold drive
  cases v.drive
  · exact ⟨hc.continuousAt, hs.continuousAt, continuousAt_const⟩
  · exact ⟨hc.continuousAt, (continuous_const.mul hs).continuousAt, continuousAt_const⟩
  · exact ⟨hc.continuousAt, continuousAt_const, continuousAt_const⟩
  · exact cont3_const _ _
  · exact cont3_const _ _

theorem B_cont' (c : SpinChain ℝ) (s : ℕ) (t : ℝ) (k : ℕ) :
    Cont3 (fun x => B c s (t + x) k) 0 := by
  unfold B
  by_cases h : k < s
  · simp only [if_pos h]
    exact (cont3_const _ _).add (drive_cont' _ _)
  · simp only [if_neg h]
    exact cont3_const _ _

theorem HasDeriv3.dot {a b : ℝ → V3 ℝ} {a' b' : V3 ℝ} {x : ℝ} (ha : HasDeriv3 a a' x)
    (hb : HasDeriv3 b b' x) :
    HasDerivAt (fun s => Spec.dot (a s) (b s)) (Spec.dot a' (b x) + Spec.dot (a x) b') x := by
  have := ((ha.1.mul hb.1).add (ha.2.1.mul hb.2.1)).add (ha.2.2.mul hb.2.2)
  refine this.congr_deriv ?_
  simp only [Spec.dot]; ring

theorem HasDeriv3.had {a : ℝ → V3 ℝ} {a' : V3 ℝ} {x : ℝ} (j : V3 ℝ) (ha : HasDeriv3 a a' x) :
    HasDeriv3 (fun s => Spec.had j (a s)) (Spec.had j a') x :=
  ⟨ha.1.const_mul _, ha.2.1.const_mul _, ha.2.2.const_mul _⟩

/-- the local fields collect the bond derivatives -/
theorem open_bonds (m : ℕ) (J S S' : ℕ → V3 ℝ) :
    (∑ i ∈ range (m - 1), -(dot (S' i) (had (J i) (S (i + 1))) + dot (S i) (had (J i) (S' (i + 1)))))
      = ∑ i ∈ range m, -dot (S' i) (openOmega m S J (fun _ => zero) i) := by
  have e : ∀ i, -dot (S' i) (openOmega m S J (fun _ => zero) i)
      = -(if i + 1 < m then dot (S' i) (had (J i) (S (i + 1))) else 0)
        - (if 0 < i then dot (S (i - 1)) (had (J (i - 1)) (S' i)) else 0) := by
    intro i
    unfold openOmega
    by_cases h0 : 0 < i <;> by_cases h1 : i + 1 < m <;>
      simp only [h0, h1, if_true, if_false, dot, had, Spec.sub, Spec.add, zero] <;> ring
  rw [sum_congr rfl fun i _ => e i]
  cases m with
  | zero => simp
  | succ n =>
    rw [Nat.add_sub_cancel, sum_sub_distrib, sum_range_succ, sum_range_succ' (fun i => if 0 < i
      then dot (S (i - 1)) (had (J (i - 1)) (S' i)) else 0)]
    simp only [lt_irrefl, if_false, neg_zero, add_zero, Nat.add_sub_cancel,
      Nat.succ_pos, if_true]
    rw [← sum_sub_distrib]
    apply sum_congr rfl
    intro i hi
    rw [mem_range] at hi
    rw [if_pos (by omega)]
    ring

theorem openEnergy_deriv {m : ℕ} {J : ℕ → V3 ℝ} {S B : ℝ → ℕ → V3 ℝ} {S' B' : ℕ → V3 ℝ}
    (hS : ∀ i < m, HasDeriv3 (fun x => S x i) (S' i) 0)
    (hB : ∀ i < m, HasDeriv3 (fun x => B x i) (B' i) 0) :
    HasDerivAt (fun x => openEnergy m (S x) J (B x))
      (∑ i ∈ range m, (-dot (S' i) (openOmega m (S 0) J (B 0) i) + dot (B' i) (S 0 i))) 0 := by
  have h1 : HasDerivAt (fun x => ∑ i ∈ range (m - 1), -dot (S x i) (had (J i) (S x (i + 1))))
      (∑ i ∈ range (m - 1), -(dot (S' i) (had (J i) (S 0 (i + 1)))
        + dot (S 0 i) (had (J i) (S' (i + 1))))) 0 := by
    apply HasDerivAt.fun_sum
    intro i hi
    rw [mem_range] at hi
    exact (HasDeriv3.dot (hS i (by omega)) (HasDeriv3.had (J i) (hS (i + 1) (by omega)))).neg
  have h2 : HasDerivAt (fun x => ∑ i ∈ range m, dot (B x i) (S x i))
      (∑ i ∈ range m, (dot (B' i) (S 0 i) + dot (B 0 i) (S' i))) 0 := by
    apply HasDerivAt.fun_sum
    intro i hi
    rw [mem_range] at hi
    exact HasDeriv3.dot (hB i hi) (hS i hi)
  refine (h1.add h2).congr_deriv ?_
  rw [open_bonds, ← sum_add_distrib]
  apply sum_congr rfl
  intro i _
  unfold openOmega
  by_cases h0 : 0 < i <;> by_cases h1 : i + 1 < m <;>
    simp only [h0, h1, if_true, if_false, dot, had, Spec.sub, Spec.add, zero] <;> ring

/-- work of the damping -/
theorem damping_work (S Ω : V3 ℝ) (γ : ℝ) :
    dot (cross S (Spec.sub Ω (Spec.add (smul γ (cross S Ω)) zero))) Ω
      = γ * (dot S S * dot Ω Ω - dot S Ω ^ 2) := by
  simp only [dot, cross, Spec.sub, Spec.add, smul, zero]; ring

theorem work_zero (S Ω : V3 ℝ) : dot (cross S Ω) Ω = 0 := by
  simp only [dot, cross]; ring

/-- Cauchy–Schwarz -/
theorem gram_nonneg (a b : V3 ℝ) : 0 ≤ dot a a * dot b b - dot a b ^ 2 := by
  have : dot a a * dot b b - dot a b ^ 2 = dot (cross a b) (cross a b) := by
    simp only [dot, cross]; ring
  rw [this]
  simp only [dot]
  nlinarith [sq_nonneg (cross a b).x, sq_nonneg (cross a b).y, sq_nonneg (cross a b).z]

end Verif
