/-
Helper lemmas: the boundary terms, and the mean energy along a run.
-/
import Verif.Lemmas.LongRun
import Verif.Spec.Boundary

namespace Verif

set_option linter.unusedSectionVars false

open Spec Function MeasureTheory ProbabilityTheory

/-! ### closed forms -/

theorem two_edges {L m : ℕ} (h2 : 2 ≤ m) (hm : m ≤ L) (f : ℕ → ℝ) :
    (∑ i : Fin L, if (i : ℕ) = 0 ∨ (i : ℕ) + 1 = m then f i else 0) = f 0 + f (m - 1) := by
  rw [Fin.sum_univ_eq_sum_range (fun i => if i = 0 ∨ i + 1 = m then f i else 0)]
  rw [← Finset.sum_subset (s₁ := {0, m - 1})]
  · rw [Finset.sum_pair (by omega), if_pos (Or.inl rfl), if_pos (Or.inr (by omega))]
  · intro i hi
    simp only [Finset.mem_insert, Finset.mem_singleton] at hi
    rw [Finset.mem_range]
    omega
  · intro i _ hi
    simp only [Finset.mem_insert, Finset.mem_singleton, not_or] at hi
    exact if_neg (by omega)

theorem torque_sq (a b : V3 ℝ) : len (cross a b) ^ 2 = dot a a * dot b b - dot b a * dot b a := by
  rw [sq, len_sq]
  simp only [dot, cross]
  ring

section
variable {L m : ℕ} {β : ℝ} {J B : ℕ → V3 ℝ}

theorem torque_edges (h2 : 2 ≤ m) (hm : m ≤ L) (β : ℝ) (J B : ℕ → V3 ℝ) (v : Fin L → V3 ℝ) :
    torqueExcess m β J B v
      = (len (cross (atSite v 0) (openOmega m (atSite v) J B 0)) ^ 2 - 2 / β * dot (atSite v 0) (openOmega m (atSite v) J B 0))
      + (len (cross (atSite v (m - 1)) (openOmega m (atSite v) J B (m - 1))) ^ 2
        - 2 / β * dot (atSite v (m - 1)) (openOmega m (atSite v) J B (m - 1))) := by
  rw [← two_edges h2 hm fun i => len (cross (atSite v i) (openOmega m (atSite v) J B i)) ^ 2
    - 2 / β * dot (atSite v i) (openOmega m (atSite v) J B i)]
  unfold torqueExcess
  refine Finset.sum_congr rfl fun i _ => ?_
  have : atSite v i = v i := by unfold atSite; rw [dif_pos i.2]
  rw [this]

theorem edge_torque (v : Fin L → V3 ℝ) : edgeTorque m J B v = torqueExcess m 0 J B v := by
  unfold edgeTorque torqueExcess
  refine Finset.sum_congr rfl fun i _ => ?_
  rw [div_zero, zero_mul, sub_zero]

theorem openSum_torque {β' : ℝ} (h2 : 2 ≤ m) (hβ : β ≠ 0) (hβ' : β' ≠ 0) :
    openSum L m β' J B (torqueExcess m β J B) = (1 - β' / β) * openSum L m β' J B (edgeTorque m J B) := by
  have n0 := torque_nice (L := L) (β := 0) (by omega : 0 < m) one_ne_zero J B
  have n1 := torque_nice (L := L) (β := β') (by omega : 0 < m) one_ne_zero J B
  have nW := weight_nice (L := L) (m := m) (β := β') (J := J) (B := B)
  have e : β * openSum L m β' J B (torqueExcess m β J B) = β' * openSum L m β' J B (torqueExcess m β' J B)
      + (β - β') * openSum L m β' J B (torqueExcess m 0 J B) := by
    unfold openSum
    rw [← integral_const_mul, ← integral_const_mul, ← integral_const_mul,
      ← integral_add ((Nice.const _).mul (n1.mul nW)).integrable ((Nice.const _).mul (n0.mul nW)).integrable]
    refine integral_congr_ae (Filter.Eventually.of_forall fun v => ?_)
    dsimp only
    rw [← mul_assoc, torque_split hβ hβ']
    ring
  rw [torque_mean (by omega) hβ', mul_zero, zero_add] at e
  have q : openSum L m β' J B (edgeTorque m J B) = openSum L m β' J B (torqueExcess m 0 J B) := by
    unfold openSum
    simp only [edge_torque]
  rw [q]
  field_simp
  linarith

theorem openSum_edge_pos {β' : ℝ} (h2 : 2 ≤ m) (hm : m ≤ L) (hJ : J 0 ≠ zero) :
    0 < openSum L m β' J B (edgeTorque m J B) := by
  have n0 := torque_nice (L := L) (β := 0) (by omega : 0 < m) one_ne_zero J B
  have nW := weight_nice (L := L) (m := m) (β := β') (J := J) (B := B)
  have hp := torque_pos (B := B) h2 hm hJ
  unfold openSum
  simp only [edge_torque]
  have hq : 0 ≤ᵐ[Measure.pi fun _ : Fin L => sphereMeasure] fun v => torqueExcess m 0 J B v * openWeight m β' J B v :=
    hp.mono fun v hv => mul_nonneg hv.le (Real.exp_nonneg _)
  refine lt_of_le_of_ne (integral_nonneg_of_ae hq) fun z => ?_
  rw [eq_comm, integral_eq_zero_iff_of_nonneg_ae hq (n0.mul nW).integrable] at z
  have : ∀ᵐ _v ∂(Measure.pi fun _ : Fin L => sphereMeasure), False := by
    filter_upwards [z, hp] with v a b
    exact (mul_pos b (Real.exp_pos _)).ne' a
  exact this.exists.elim fun _ h => h

theorem openSum_one_pos {β' : ℝ} : 0 < openSum L m β' J B fun _ => 1 := by
  unfold openSum
  simp only [one_mul]
  exact integral_exp_pos weight_nice.integrable

end

section
variable {c : SpinChain ℝ} {L s : ℕ}

theorem withSpins_wf' (w : WF c L s) (v : Fin L → V3 ℝ) : WF (withSpins c v) L s := by
  refine ⟨w.hsize, w.ssize, w.L_lt, w.s_lt, ?_, w.j, w.h, w.hs⟩
  simp [withSpins]

theorem S_withSpins' (v : Fin L → V3 ℝ) : S (withSpins c v) = atSite v := by
  funext i
  unfold S atSite withSpins
  by_cases h : i < L
  · simp [h]
  · simp [h]

/-- the boundary term of the closed chain -/
theorem boundary_eq (w : WF c L s) (h2 : 2 ≤ s) (hs : s ≤ L) (v : Fin L → V3 ℝ) :
    (withSpins c v).boundary_term = .ok (-torqueExcess s c.vars.beta (J c) (H0 c) v) := by
  have w' := withSpins_wf' w v
  have hsp : ∀ i < L, idx (withSpins c v).spins i = .ok ⟨atSite v i⟩ := fun i hi => by
    rw [(tab_S w').idx hi, S_withSpins']
  have hjj : ∀ i < L, idx (withSpins c v).j_couple i = .ok (J c i) := fun i hi => (tab_J w').idx hi
  have hhh : ∀ i < L, idx (withSpins c v).static_h i = .ok (H0 c i) := fun i hi => (tab_H0 w').idx hi
  have hl2 : s - 1 - 1 = s - 2 := by omega
  unfold SpinChain.boundary_term
  simp only [ssize_nat w', usub_ok (show 1 ≤ s by omega), usub_ok h2, ok_bind,
    hsp 0 (by omega), hsp 1 (by omega), hsp (s - 1) (by omega), hsp (s - 2) (by omega),
    hjj 0 (by omega), hjj (s - 2) (by omega), hhh 0 (by omega), hhh (s - 1) (by omega), m_eq w' hs]
  show Except.ok _ = Except.ok _
  congr 1
  have e0 : openOmega s (atSite v) (J c) (H0 c) 0 = Spec.sub (had (J c 0) (atSite v 1)) (H0 c 0) := by
    unfold openOmega
    rw [if_neg (by omega), if_pos (by omega)]
    ext <;> simp only [Spec.sub, Spec.add, zero] <;> ring
  have e1 : openOmega s (atSite v) (J c) (H0 c) (s - 1)
      = Spec.sub (had (J c (s - 2)) (atSite v (s - 2))) (H0 c (s - 1)) := by
    unfold openOmega
    rw [if_pos (by omega), if_neg (by omega), hl2]
    ext <;> simp only [Spec.sub, Spec.add, zero] <;> ring
  rw [torque_edges h2 hs, torque_sq, torque_sq, e0, e1]
  simp only [SpinChain.sqMacro, SpinChain.dotMacro, SpinChain.j_s, lit_2, lit_1, lit_0, dot, Spec.sub, had, withSpins]
  generalize (2 : ℝ) / c.vars.beta = b
  ring

end

/-! ### Langevin chains -/

section
variable {c : LangevinChain ℝ} {L s : ℕ}

/-- the boundary term of the open chain -/
theorem l_boundary_eq (w : WF c.toSpinChain L L) (h2 : 2 ≤ L) (hl : H0 c.toSpinChain 0 = zero)
    (hr : H0 c.toSpinChain (L - 1) = zero) (t dt : ℝ) (v : Fin L → V3 ℝ) :
    (langevinAt { c with t := t } dt v).boundary_term = .ok (-(c.gamma * torqueExcess L c.vars.beta (J c.toSpinChain)
      (B c.toSpinChain L t) v) + ∑ i : Fin L, dot (drive1 c.vars t) (v i)) := by
  obtain ⟨c1, hc1⟩ : ∃ c1, c1 = langevinAt { c with t := t } dt v := ⟨_, rfl⟩
  have w' : WF c1.toSpinChain L L := by
    rw [hc1]
    exact langevinAt_wf (c := { c with t := t }) ⟨w.hsize, w.ssize, w.L_lt, w.s_lt, w.spins, w.j, w.h, w.hs⟩ dt v
  have eS : S c1.toSpinChain = atSite v := by rw [hc1]; exact S_langevinAt _ dt v
  have hsp : ∀ i < L, idx c1.spins i = .ok ⟨atSite v i⟩ := fun i hi => by rw [(tab_S w').idx hi, eS]
  have hjj : ∀ i < L, idx c1.j_couple i = .ok (J c.toSpinChain i) := fun i hi => by
    rw [(tab_J w').idx hi, hc1]; rfl
  have hl2 : L - 1 - 1 = L - 2 := by omega
  have hd : drive c1.vars c1.t = drive c.vars t := by rw [hc1]; rfl
  rw [← hc1]
  unfold LangevinChain.boundary_term
  simp only [ssize_nat w', usub_ok (show 1 ≤ L by omega), usub_ok h2, ok_bind,
    hsp 0 (by omega), hsp 1 (by omega), hsp (L - 1) (by omega), hsp (L - 2) (by omega),
    hjj 0 (by omega), hjj (L - 2) (by omega), h_ext_eq w', m_eq w' le_rfl]
  show Except.ok _ = Except.ok _
  congr 1
  have e0 : openOmega L (atSite v) (J c.toSpinChain) (B c.toSpinChain L t) 0
      = Spec.sub (had (J c.toSpinChain 0) (atSite v 1)) (drive c.vars t) := by
    unfold openOmega B
    rw [if_neg (by omega), if_pos (by omega), if_pos (by omega), hl]
    ext <;> simp only [Spec.sub, Spec.add, zero] <;> ring
  have e1 : openOmega L (atSite v) (J c.toSpinChain) (B c.toSpinChain L t) (L - 1)
      = Spec.sub (had (J c.toSpinChain (L - 2)) (atSite v (L - 2))) (drive c.vars t) := by
    unfold openOmega B
    rw [if_pos (by omega), if_neg (by omega), if_pos (by omega), hr, hl2]
    ext <;> simp only [Spec.sub, Spec.add, zero] <;> ring
  have hm : (∑ i : Fin L, dot (drive1 c.vars t) (v i))
      = dot (drive1 c.vars t) ⟨∑ i ∈ Finset.range L, (atSite v i).x, ∑ i ∈ Finset.range L, (atSite v i).y,
        ∑ i ∈ Finset.range L, (atSite v i).z⟩ := by
    have : ∀ i : Fin L, atSite v i = v i := fun i => by unfold atSite; rw [dif_pos i.2]
    simp only [← Fin.sum_univ_eq_sum_range (fun i => (atSite v i).x), ← Fin.sum_univ_eq_sum_range (fun i => (atSite v i).y),
      ← Fin.sum_univ_eq_sum_range (fun i => (atSite v i).z), this]
    simp only [dot]
    rw [Finset.sum_add_distrib, Finset.sum_add_distrib, ← Finset.mul_sum, ← Finset.mul_sum, ← Finset.mul_sum]
  have h1 : drive1 c.vars t = smul (2 * Real.pi / c.vars.tau) (c1.h_extp c1.t) := by
    have ev : c1.vars.drive = c.vars.drive := by rw [hc1]; rfl
    have et : c1.t = t := by rw [hc1]; rfl
    have ea : c1.vars.tau = c.vars.tau := by rw [hc1]; rfl
    have ee : c1.vars.e = c.vars.e := by rw [hc1]; rfl
    have q : 2 * Real.pi * t / c.vars.tau = 2 * Real.pi / c.vars.tau * t := by ring
    unfold drive1 SpinChain.h_extp
    rw [ev]
    cases c.vars.drive <;> simp only [fsin_real, fcos_real, fpi_real, lit_2, lit_0, et, ea, ee, q, smul, zero] <;>
      ext <;> simp only <;> ring
  rw [torque_edges h2 le_rfl, torque_sq, torque_sq, e0, e1, hm, h1, eS, hd]
  have eb : c1.vars.beta = c.vars.beta := by rw [hc1]; rfl
  have eg : c1.gamma = c.gamma := by rw [hc1]; rfl
  have ea : c1.vars.tau = c.vars.tau := by rw [hc1]; rfl
  simp only [SpinChain.sqMacro, SpinChain.dotMacro, SpinChain.j_s, lit_2, lit_1, lit_0, fpi_real, dot, Spec.sub, had, smul, eb, eg, ea]
  rw [show 2 * c.gamma / c.vars.beta = c.gamma * (2 / c.vars.beta) by ring]
  generalize (2 : ℝ) / c.vars.beta = b
  ring

/-- means of quantities of the chain along a run -/
theorem meanChain_at (w : WF c.toSpinChain L s) (hL : 2 ≤ L) {dt : ℝ} {v : Fin L → V3 ℝ} (hv : ∀ i, len (v i) = 1) {n : ℕ}
    (hr : SurelyRegular L s n (langevinAt c dt v)) (g : LangevinChain ℝ → ℝ) :
    meanChain g n (langevinAt c dt v) = avg (2 * (L / 2)) c.gamma c.vars.beta (J c.toSpinChain) dt n
      (usedField c.toSpinChain s dt) (fun u => g (langevinAt { c with t := c.t + n * dt } dt u)) v := by
  induction n generalizing c v with
  | zero =>
    show g _ = g _
    congr 1
    simp [langevinAt]
  | succ n ih =>
    show ∫ ζ, (match (langevinAt c dt v).update (noiseOf ζ) with
      | .ok c' => meanChain g n c'
      | .error _ => 0) ∂normals = ∫ ζ, avg _ _ _ _ _ n _ _ (afterStep _ _ _ _ _ _ _ ζ) ∂normals
    refine integral_congr_ae ?_
    filter_upwards [hr] with ζ hζ
    obtain ⟨c', h1, _, _⟩ := l_update_spec (langevinAt_wf w dt v) hL (langevinAt_unit hv dt) hζ.1
    have h3 := langevinAt_next w hL hv hζ.1 h1
    have h4 := hζ.2 c' h1
    rw [h1]
    dsimp only
    rw [h3] at h4 ⊢
    have w' : WF ({ c with t := c.t + dt } : LangevinChain ℝ).toSpinChain L s :=
      ⟨w.hsize, w.ssize, w.L_lt, w.s_lt, w.spins, w.j, w.h, w.hs⟩
    rw [ih w' (fun i => afterStep_len hv ζ i) h4]
    have e1 : usedField ({ c with t := c.t + dt } : LangevinChain ℝ).toSpinChain s dt
        = fun k => usedField c.toSpinChain s dt (k + 1) := by
      funext k
      show B c.toSpinChain s (c.t + dt + (k + 1) * dt) = B c.toSpinChain s (c.t + (((k + 1 : ℕ) : ℝ) + 1) * dt)
      congr 1
      push_cast
      ring
    have e2 : B c.toSpinChain s (c.t + dt) = usedField c.toSpinChain s dt 0 := by
      unfold usedField
      norm_num
    have e3 : ∀ u : Fin L → V3 ℝ, langevinAt { ({ c with t := c.t + dt } : LangevinChain ℝ) with t := c.t + dt + n * dt } dt u
        = langevinAt { c with t := c.t + (n + 1 : ℕ) * dt } dt u := by
      intro u
      have : c.t + dt + n * dt = c.t + (n + 1 : ℕ) * dt := by push_cast; ring
      rw [this]
    rw [e1, e2]
    simp only [e3]
    rfl

end

/-! ### the field between two updates -/

section
variable {L m : ℕ} {β : ℝ} {J : ℕ → V3 ℝ}

theorem drive_step (v : Config ℝ) : ∃ K, 0 ≤ K ∧ ∀ t dt, 0 ≤ dt → len (Spec.sub (drive v (t + dt)) (drive v t)) ≤ K * dt ∧
    len (Spec.sub (Spec.sub (drive v (t + dt)) (drive v t)) (smul dt (drive1 v t))) ≤ K * dt * dt := by
  obtain ⟨K, K0, hK⟩ := drive_bound v
  refine ⟨K, K0, fun t dt h0 => ⟨?_, ?_⟩⟩
  · have := len_int (f := fun u => drive v (t + u)) (g := fun u => drive1 v (t + u)) h0 K0
      (fun u _ _ => hasDeriv3_shift (drive_deriv v (t + u))) fun u _ _ => (hK _).2.1
    simpa using this
  · have h1 : ∀ u, 0 ≤ u → len (Spec.sub (drive1 v (t + u)) (drive1 v t)) ≤ K * u := fun u hu => by
      have := len_int (f := fun u => drive1 v (t + u)) (g := fun u => drive2 v (t + u)) hu K0
        (fun u _ _ => hasDeriv3_shift (drive1_deriv v (t + u))) fun u _ _ => (hK _).2.2
      simpa using this
    have := len_int (f := fun u => Spec.sub (drive v (t + u)) (smul u (drive1 v t)))
      (g := fun u => Spec.sub (drive1 v (t + u)) (drive1 v t)) (K := K * dt) h0 (by positivity)
      (fun u _ _ => hasDeriv3_sub (hasDeriv3_shift (drive_deriv v (t + u))) (hasDeriv3_lin _ u))
      fun u hu hd => (h1 u hu).trans (mul_le_mul_of_nonneg_left hd K0)
    refine le_trans (le_of_eq ?_) this
    congr 1
    simp only [add_zero]
    ext <;> simp only [Spec.sub, smul] <;> ring

/-- difference of two energies in different fields -/
theorem openEnergy_diff (S J B B' : ℕ → V3 ℝ) :
    openEnergy m S J B' - openEnergy m S J B = ∑ i ∈ Finset.range m, dot (Spec.sub (B' i) (B i)) (S i) := by
  unfold openEnergy
  rw [add_sub_add_left_eq_sub, ← Finset.sum_sub_distrib]
  refine Finset.sum_congr rfl fun i _ => ?_
  simp only [dot, Spec.sub]
  ring

theorem openOmega_le {K : ℝ} (hJ : ∀ i, len (J i) ≤ K) {B : ℕ → V3 ℝ} (hB : ∀ i, len (B i) ≤ K) {S : ℕ → V3 ℝ}
    (hS : ∀ i, len (S i) ≤ 1) (i : ℕ) : len (openOmega m S J B i) ≤ 3 * K := by
  have K0 : 0 ≤ K := (len_nonneg _).trans (hJ 0)
  have hh : ∀ a b, len (had (J a) (S b)) ≤ K := fun a b => by
    refine (len_had_le _ _).trans ?_
    nlinarith [hJ a, hS b, len_nonneg (J a), len_nonneg (S b)]
  unfold openOmega
  refine (len_sub_le _ _).trans ?_
  have h1 := len_add_le (if 0 < i then had (J (i - 1)) (S (i - 1)) else zero) (if i + 1 < m then had (J i) (S (i + 1)) else zero)
  have h2 : len (if 0 < i then had (J (i - 1)) (S (i - 1)) else zero) ≤ K := by
    split
    · exact hh _ _
    · rwa [len_zero]
  have h3 : len (if i + 1 < m then had (J i) (S (i + 1)) else zero) ≤ K := by
    split
    · exact hh _ _
    · rwa [len_zero]
  linarith [hB i]

theorem openOmega_diff (S J B B' : ℕ → V3 ℝ) (i : ℕ) :
    Spec.sub (openOmega m S J B' i) (openOmega m S J B i) = Spec.sub (B i) (B' i) := by
  unfold openOmega
  ext <;> simp only [Spec.sub] <;> ring

theorem sq_torque_diff {x a b : V3 ℝ} {M d : ℝ} (hx : len x = 1) (ha : len a ≤ M) (hb : len b ≤ M)
    (hd : len (Spec.sub a b) ≤ d) : |len (cross x a) ^ 2 - len (cross x b) ^ 2| ≤ 2 * M * d := by
  have e : len (cross x a) ^ 2 - len (cross x b) ^ 2 = dot (cross x (Spec.add a b)) (cross x (Spec.sub a b)) := by
    rw [sq, sq, len_sq, len_sq]
    simp only [dot, cross, Spec.add, Spec.sub]
    ring
  rw [e]
  refine (abs_dot_le_len _ _).trans ?_
  have h1 := len_cross_le x (Spec.add a b)
  have h2 := len_cross_le x (Spec.sub a b)
  have h3 := len_add_le a b
  rw [hx, one_mul] at h1 h2
  have := len_nonneg (cross x (Spec.add a b))
  have := len_nonneg (cross x (Spec.sub a b))
  nlinarith

/-- the excess of the torque depends continuously on the fields -/
theorem torque_lip (h2 : 2 ≤ m) (hm : m ≤ L) {K : ℝ} (hJ : ∀ i, len (J i) ≤ K) {B B' : ℕ → V3 ℝ} (hB : ∀ i, len (B i) ≤ K)
    (hB' : ∀ i, len (B' i) ≤ K) {v : Fin L → V3 ℝ} (hv : ∀ i, len (v i) = 1) {d : ℝ}
    (hd : ∀ i < m, len (Spec.sub (B i) (B' i)) ≤ d) :
    |torqueExcess m β J B' v - torqueExcess m β J B v| ≤ 2 * (6 * K + |2 / β|) * d := by
  have hS : ∀ i, len (atSite v i) ≤ 1 := fun i => by
    unfold atSite
    split
    · exact (hv _).le
    · rw [len_zero]; norm_num
  have one : ∀ i < m, |(len (cross (atSite v i) (openOmega m (atSite v) J B' i)) ^ 2
        - 2 / β * dot (atSite v i) (openOmega m (atSite v) J B' i))
      - (len (cross (atSite v i) (openOmega m (atSite v) J B i)) ^ 2
        - 2 / β * dot (atSite v i) (openOmega m (atSite v) J B i))| ≤ (6 * K + |2 / β|) * d := by
    intro i hi
    have hx : len (atSite v i) = 1 := by unfold atSite; rw [dif_pos (by omega)]; exact hv _
    have hs : len (Spec.sub (openOmega m (atSite v) J B' i) (openOmega m (atSite v) J B i)) ≤ d := by
      rw [openOmega_diff]
      exact hd i hi
    have q1 := sq_torque_diff hx (openOmega_le (m := m) hJ hB' hS i) (openOmega_le (m := m) hJ hB hS i) hs
    have q2 : |2 / β * dot (atSite v i) (openOmega m (atSite v) J B' i) - 2 / β * dot (atSite v i) (openOmega m (atSite v) J B i)|
        ≤ |2 / β| * d := by
      have e : 2 / β * dot (atSite v i) (openOmega m (atSite v) J B' i) - 2 / β * dot (atSite v i) (openOmega m (atSite v) J B i)
          = 2 / β * dot (atSite v i) (Spec.sub (openOmega m (atSite v) J B' i) (openOmega m (atSite v) J B i)) := by
        simp only [dot, Spec.sub]
        ring
      rw [e, abs_mul]
      refine mul_le_mul_of_nonneg_left ?_ (abs_nonneg _)
      refine (abs_dot_le_len _ _).trans ?_
      rw [hx, one_mul]
      exact hs
    rw [abs_le] at q1 q2 ⊢
    constructor <;> linarith [q1.1, q1.2, q2.1, q2.2]
  rw [torque_edges h2 hm, torque_edges h2 hm]
  have o1 := one 0 (by omega)
  have o2 := one (m - 1) (by omega)
  rw [abs_le] at o1 o2 ⊢
  constructor <;> linarith [o1.1, o1.2, o2.1, o2.2]

end

/-! ### the mean energy along a run -/

section
variable {c : LangevinChain ℝ} {L : ℕ}

/-- rate of change of the energy at time `t`, noise included -/
noncomputable def rateNow (c : LangevinChain ℝ) (L : ℕ) (t : ℝ) (v : Fin L → V3 ℝ) : ℝ :=
  -(c.gamma * torqueExcess L c.vars.beta (J c.toSpinChain) (B c.toSpinChain L t) v) + ∑ i : Fin L, dot (drive1 c.vars t) (v i)

theorem power_nice (d : V3 ℝ) : Nice fun v : Fin L → V3 ℝ => ∑ i : Fin L, dot d (v i) := by
  have h : Continuous fun x : Fin L → ℝ × ℝ × ℝ => ∑ i : Fin L, (d.x * (x i).1 + d.y * (x i).2.1 + d.z * (x i).2.2) := by
    fun_prop
  exact Nice.smooth h

theorem rateNow_nice (hL : 0 < L) (t : ℝ) : Nice (rateNow c L t) := by
  have h1 := (Nice.const (-c.gamma)).mul (torque_nice (L := L) (β := c.vars.beta) hL one_ne_zero (J c.toSpinChain)
    (B c.toSpinChain L t))
  have h2 := h1.sub ((Nice.const (-1)).mul (power_nice (L := L) (drive1 c.vars t)))
  convert h2 using 2
  unfold rateNow
  ring

/-- one step: the mean energy changes by `dt` times its rate of change -/
theorem energy_step (hL : 2 ≤ L) (hγ : 0 < c.gamma) (hβ : 0 < c.vars.beta) :
    ∃ C, 0 ≤ C ∧ (∀ (t : ℝ) (v : Fin L → V3 ℝ), (∀ i, len (v i) = 1) →
        |openEnergy L (atSite v) (J c.toSpinChain) (B c.toSpinChain L t)| ≤ C) ∧
      ∀ (t dt : ℝ) (v : Fin L → V3 ℝ), (∀ i, len (v i) = 1) → 0 < dt → dt ≤ 1 →
        |∫ ζ, openEnergy L (atSite (afterStep L c.gamma c.vars.beta (J c.toSpinChain) (B c.toSpinChain L (t + dt)) dt v ζ))
            (J c.toSpinChain) (B c.toSpinChain L (t + dt)) ∂normals
          - openEnergy L (atSite v) (J c.toSpinChain) (B c.toSpinChain L t) - dt * rateNow c L t v| ≤ C * (dt * Real.sqrt dt) := by
  obtain ⟨K, K0, hJ, hB⟩ := chain_bound c.toSpinChain L
  obtain ⟨C, C0, hE⟩ := energy_weak (L := L) (m := L) (γ := c.gamma) (β := c.vars.beta) hL le_rfl hγ.le hβ K0 (J c.toSpinChain) hJ
  obtain ⟨D, D0, hD⟩ := drive_step c.vars
  refine ⟨C + L * D + c.gamma * (2 * (6 * K + |2 / c.vars.beta|) * D), by positivity, fun t v hv => ?_,
    fun t dt v hv h0 h1 => ?_⟩
  · have := (hE (B c.toSpinChain L t) v 1 (fun i => hB _ i) hv one_pos le_rfl).1
    have : 0 ≤ L * D + c.gamma * (2 * (6 * K + |2 / c.vars.beta|) * D) := by positivity
    linarith
  have hb := (hE (B c.toSpinChain L (t + dt)) v dt (fun i => hB _ i) hv h0 h1).2
  have dB : ∀ i < L, Spec.sub (B c.toSpinChain L (t + dt) i) (B c.toSpinChain L t i)
      = Spec.sub (drive c.vars (t + dt)) (drive c.vars t) := by
    intro i hi
    unfold B
    rw [if_pos hi, if_pos hi]
    ext <;> simp only [Spec.sub, Spec.add] <;> ring
  have s1 : dt ≤ Real.sqrt dt := by
    have hs := Real.sq_sqrt h0.le
    have : Real.sqrt dt ≤ 1 := by exact Real.sqrt_le_one.2 h1
    nlinarith [Real.sqrt_nonneg dt]
  have t1 := torque_lip (β := c.vars.beta) hL le_rfl hJ (fun i => hB t i) (fun i => hB (t + dt) i) hv (d := D * dt) fun i hi => by
    rw [len_sub_comm, dB i hi]
    exact (hD t dt h0.le).1
  have e1 : |openEnergy L (atSite v) (J c.toSpinChain) (B c.toSpinChain L (t + dt))
      - openEnergy L (atSite v) (J c.toSpinChain) (B c.toSpinChain L t) - dt * ∑ i : Fin L, dot (drive1 c.vars t) (v i)|
      ≤ L * (D * dt * dt) := by
    rw [openEnergy_diff, ← Fin.sum_univ_eq_sum_range (fun i => dot (Spec.sub (B c.toSpinChain L (t + dt) i) (B c.toSpinChain L t i))
      (atSite v i)), Finset.mul_sum, ← Finset.sum_sub_distrib]
    refine (Finset.abs_sum_le_sum_abs _ _).trans ?_
    refine (Finset.sum_le_card_nsmul _ _ (D * dt * dt) fun i _ => ?_).trans (by simp)
    have a1 : atSite v i = v i := by unfold atSite; rw [dif_pos i.2]
    rw [dB i i.2, a1]
    have e : dot (Spec.sub (drive c.vars (t + dt)) (drive c.vars t)) (v i) - dt * dot (drive1 c.vars t) (v i)
        = dot (Spec.sub (Spec.sub (drive c.vars (t + dt)) (drive c.vars t)) (smul dt (drive1 c.vars t))) (v i) := by
      simp only [dot, Spec.sub, smul]
      ring
    rw [e]
    refine (abs_dot_le_len _ _).trans ?_
    rw [hv, mul_one]
    exact (hD t dt h0.le).2
  obtain ⟨X, hX⟩ : ∃ X, X = torqueExcess L c.vars.beta (J c.toSpinChain) (B c.toSpinChain L t) v := ⟨_, rfl⟩
  obtain ⟨X', hX'⟩ : ∃ X, X = torqueExcess L c.vars.beta (J c.toSpinChain) (B c.toSpinChain L (t + dt)) v := ⟨_, rfl⟩
  unfold rateNow
  rw [← hX, ← hX'] at t1
  rw [← hX'] at hb
  rw [← hX]
  have t2 : |dt * (c.gamma * (X' - X))| ≤ dt * (c.gamma * (2 * (6 * K + |2 / c.vars.beta|) * (D * dt))) := by
    rw [abs_mul, abs_mul, abs_of_pos h0, abs_of_pos hγ]
    gcongr
  have u1 : L * (D * dt * dt) ≤ L * D * (dt * Real.sqrt dt) := by
    have : dt * dt ≤ dt * Real.sqrt dt := mul_le_mul_of_nonneg_left s1 h0.le
    calc (L : ℝ) * (D * dt * dt) = L * D * (dt * dt) := by ring
      _ ≤ _ := mul_le_mul_of_nonneg_left this (by positivity)
  have u2 : dt * (c.gamma * (2 * (6 * K + |2 / c.vars.beta|) * (D * dt)))
      ≤ c.gamma * (2 * (6 * K + |2 / c.vars.beta|) * D) * (dt * Real.sqrt dt) := by
    have : dt * dt ≤ dt * Real.sqrt dt := mul_le_mul_of_nonneg_left s1 h0.le
    calc dt * (c.gamma * (2 * (6 * K + |2 / c.vars.beta|) * (D * dt)))
        = c.gamma * (2 * (6 * K + |2 / c.vars.beta|) * D) * (dt * dt) := by ring
      _ ≤ _ := mul_le_mul_of_nonneg_left this (by positivity)
  rw [abs_le] at hb e1 t2 ⊢
  constructor <;> nlinarith [hb.1, hb.2, e1.1, e1.2, t2.1, t2.2]

/-- many steps -/
theorem energy_run (hL : 2 ≤ L) (hγ : 0 < c.gamma) (hβ : 0 < c.vars.beta) :
    ∃ C, 0 ≤ C ∧ (∀ (t : ℝ) (v : Fin L → V3 ℝ), (∀ i, len (v i) = 1) →
        |openEnergy L (atSite v) (J c.toSpinChain) (B c.toSpinChain L t)| ≤ C) ∧
      ∀ (dt : ℝ) (v : Fin L → V3 ℝ) (n : ℕ), (∀ i, len (v i) = 1) → 0 < dt → dt ≤ 1 →
        |avg L c.gamma c.vars.beta (J c.toSpinChain) dt n (usedField c.toSpinChain L dt)
            (fun v => openEnergy L (atSite v) (J c.toSpinChain) (B c.toSpinChain L (c.t + n * dt))) v
          - openEnergy L (atSite v) (J c.toSpinChain) (B c.toSpinChain L c.t)
          - dt * ∑ k ∈ Finset.range n, avg L c.gamma c.vars.beta (J c.toSpinChain) dt k (usedField c.toSpinChain L dt)
              (rateNow c L (c.t + k * dt)) v| ≤ n * (C * (dt * Real.sqrt dt)) := by
  obtain ⟨C, C0, hE, hC⟩ := energy_step (c := c) hL hγ hβ
  refine ⟨C, C0, hE, fun dt v n hv h0 h1 => ?_⟩
  induction n with
  | zero => simp [avg]
  | succ n ih =>
    have nE : ∀ t, Nice fun v : Fin L → V3 ℝ => openEnergy L (atSite v) (J c.toSpinChain) (B c.toSpinChain L t) :=
      fun t => energy_nice _ _
    have nR := rateNow_nice (c := c) (L := L) (by omega) (c.t + n * dt)
    have et : c.t + ((n + 1 : ℕ) : ℝ) * dt = c.t + n * dt + dt := by push_cast; ring
    have eb : usedField c.toSpinChain L dt n = B c.toSpinChain L (c.t + n * dt + dt) := by
      unfold usedField
      congr 1
      ring
    have nA := (nE (c.t + n * dt + dt)).step (m := L) (γ := c.gamma) (β := c.vars.beta) (J := J c.toSpinChain) (dt := dt)
      (B c.toSpinChain L (c.t + n * dt + dt))
    have st : |avg L c.gamma c.vars.beta (J c.toSpinChain) dt (n + 1) (usedField c.toSpinChain L dt)
          (fun v => openEnergy L (atSite v) (J c.toSpinChain) (B c.toSpinChain L (c.t + n * dt + dt))) v
        - avg L c.gamma c.vars.beta (J c.toSpinChain) dt n (usedField c.toSpinChain L dt)
          (fun v => openEnergy L (atSite v) (J c.toSpinChain) (B c.toSpinChain L (c.t + n * dt))) v
        - dt * avg L c.gamma c.vars.beta (J c.toSpinChain) dt n (usedField c.toSpinChain L dt)
              (rateNow c L (c.t + n * dt)) v| ≤ C * (dt * Real.sqrt dt) := by
      rw [avg_back, eb, ← avg_smul, ← avg_sub nA (nE _) n _ hv, ← avg_sub (nA.sub (nE _)) ((Nice.const dt).mul nR) n _ hv]
      exact avg_bound (fun v hv => hC (c.t + n * dt) dt v hv h0 h1) n _ hv
    rw [et, Finset.sum_range_succ, mul_add]
    push_cast
    rw [abs_le] at ih st ⊢
    constructor <;> linarith [ih.1, ih.2, st.1, st.2]

end

end Verif
