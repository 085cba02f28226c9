/-
Helper lemmas: the model's `update` at ℝ and the specification of the dynamics.
-/
import Verif.Lemmas.Update
import Verif.Lemmas.EnergyModel
import Verif.Lemmas.SpinGeom
import Verif.Spec.Dynamics

namespace Verif

open Spec Finset

/-! ### precession -/

theorem nrm_eq (b : V3 ℝ) : nrm b = smul (1 / len b) b := by
  ext <;> simp only [nrm, smul] <;> ring

theorem rodr_eq_precess (b v : V3 ℝ) (t : ℝ) : rodr (nrm b) v (len b * t) = precess v b t := by
  rw [nrm_eq]
  simp only [precess]
  generalize smul (1 / len b) b = n
  ext <;> simp only [rodr, Spec.sub, Spec.add, smul, cross, dot] <;> ring

theorem len_zero : len zero = 0 := by simp [len, dot, zero]

theorem precess_zero_field (v : V3 ℝ) (t : ℝ) : precess v zero t = v := by
  simp [precess, len_zero, smul, Spec.add, Spec.sub, cross]

theorem dot_precess (v b : V3 ℝ) (t : ℝ) : dot (precess v b t) b = dot v b := by
  by_cases hb : b = zero
  · rw [hb, precess_zero_field]
  · rw [← rodr_eq_precess]
    have h := dot_rodr_axis (s := v) (dot_nrm hb) (len b * t)
    have e : ∀ v : V3 ℝ, dot v b = len b * dot v (nrm b) := by
      intro v
      conv_lhs => rw [← smul_nrm hb]
      simp only [dot, smul]; ring
    rw [e, e v, h]

theorem len_precess (v b : V3 ℝ) (t : ℝ) : len (precess v b t) = len v := by
  by_cases hb : b = zero
  · rw [hb, precess_zero_field]
  · rw [← rodr_eq_precess]
    unfold len
    congr 1
    exact dot_rodr_self (dot_nrm hb) _

theorem precess_zero (v b : V3 ℝ) : precess v b 0 = v := by
  rw [← rodr_eq_precess, mul_zero, rodr_zero]

theorem precess_precess (v b : V3 ℝ) (t1 t2 : ℝ) :
    precess (precess v b t1) b t2 = precess v b (t1 + t2) := by
  by_cases hb : b = zero
  · rw [hb, precess_zero_field, precess_zero_field, precess_zero_field]
  · simp only [← rodr_eq_precess]
    rw [rodr_rodr (dot_nrm hb), mul_add]

theorem rotate_precess {s : Spin ℝ} (hs : IsUnit3 s) {b : V3 ℝ} (hb : b ≠ zero) (t : ℝ) :
    s.rotate b t = ⟨precess s.dir b t⟩ := by
  ext1
  rw [rotate_unit_eq hs hb, rodr_eq_precess]

/-! ### ring neighbours -/

theorem left_lt {m i : ℕ} (hm : 1 ≤ m) : left m i < m := Nat.mod_lt _ (by omega)
theorem right_lt' {m i : ℕ} (hm : 1 ≤ m) : right m i < m := Nat.mod_lt _ (by omega)

theorem left_par {l i : ℕ} (hi : i < 2 * l) : left (2 * l) i % 2 = (i + 1) % 2 := by
  unfold left
  by_cases h : i = 0
  · subst h; rw [left_zero (by omega)]; omega
  · rw [left_pos (by omega) hi]; omega

theorem right_par {l i : ℕ} (hi : i < 2 * l) : right (2 * l) i % 2 = (i + 1) % 2 := by
  unfold right
  by_cases h : i + 1 = 2 * l
  · rw [h, Nat.mod_self]; omega
  · rw [right_lt (by omega)]

/-- the local field of a site only depends on the neighbouring spins -/
theorem omega_congr {m i : ℕ} {S S' J B : ℕ → V3 ℝ} (h1 : S (left m i) = S' (left m i))
    (h2 : S (right m i) = S' (right m i)) : omega m S J B i = omega m S' J B i := by
  unfold omega; rw [h1, h2]

theorem subStep_pos {m par : ℕ} {J B S : ℕ → V3 ℝ} {dt : ℝ} {i : ℕ} (h : i < m ∧ i % 2 = par) :
    subStep m par J B dt S i = precess (S i) (omega m S J B i) dt := if_pos h

theorem subStep_neg {m par : ℕ} {J B S : ℕ → V3 ℝ} {dt : ℝ} {i : ℕ} (h : ¬(i < m ∧ i % 2 = par)) :
    subStep m par J B dt S i = S i := if_neg h

theorem omega_subStep {l par i : ℕ} (hi : i < 2 * l) (hp : i % 2 = par) (J B S : ℕ → V3 ℝ)
    (dt : ℝ) :
    omega (2 * l) (subStep (2 * l) par J B dt S) J B i = omega (2 * l) S J B i := by
  apply omega_congr
  · unfold subStep; rw [if_neg]; have := left_par hi; omega
  · unfold subStep; rw [if_neg]; have := right_par hi; omega

theorem subStep_subStep (l par : ℕ) (J B S : ℕ → V3 ℝ) (t1 t2 : ℝ) :
    subStep (2 * l) par J B t2 (subStep (2 * l) par J B t1 S)
      = subStep (2 * l) par J B (t1 + t2) S := by
  funext i
  by_cases h : i < 2 * l ∧ i % 2 = par
  · rw [subStep_pos h, omega_subStep h.1 h.2, subStep_pos h, subStep_pos h, precess_precess]
  · rw [subStep_neg h, subStep_neg h, subStep_neg h]

theorem subStep_zero (m par : ℕ) (J B S : ℕ → V3 ℝ) : subStep m par J B 0 S = S := by
  funext i
  unfold subStep
  split
  · exact precess_zero _ _
  · rfl

theorem subStep_inv (l par : ℕ) (J B S : ℕ → V3 ℝ) (t : ℝ) :
    subStep (2 * l) par J B (-t) (subStep (2 * l) par J B t S) = S := by
  rw [subStep_subStep, add_neg_cancel, subStep_zero]

/-- one step back undoes one step forward -/
theorem step_inv (l : ℕ) (J B S : ℕ → V3 ℝ) (dt : ℝ) :
    step (2 * l) J B (-dt) (step (2 * l) J B dt S) = S := by
  unfold step
  rw [neg_div, subStep_inv, subStep_inv, subStep_inv]

theorem regular_inv {l : ℕ} {J B S : ℕ → V3 ℝ} {dt : ℝ} (h : Regular (2 * l) J B dt S) :
    Regular (2 * l) J B (-dt) (step (2 * l) J B dt S) := by
  obtain ⟨h1, h2, h3⟩ := h
  refine ⟨?_, ?_, ?_⟩
  · intro i hi hp
    unfold step
    rw [omega_subStep hi hp]
    exact h3 i hi hp
  · intro i hi hp
    unfold step
    rw [neg_div, subStep_inv, omega_subStep hi hp]
    exact h2 i hi hp
  · intro i hi hp
    unfold step
    rw [neg_div, subStep_inv, subStep_inv, omega_subStep hi hp]
    exact h1 i hi hp

/-! ### energy of a sublattice step -/

theorem sum_pairs (f : ℕ → ℝ) (l : ℕ) :
    ∑ i ∈ range (2 * l), f i = ∑ k ∈ range l, (f (2 * k) + f (2 * k + 1)) := by
  induction l with
  | zero => simp
  | succ l ih =>
    rw [show 2 * (l + 1) = 2 * l + 1 + 1 by ring, sum_range_succ, sum_range_succ, ih,
      sum_range_succ]
    ring

theorem sum_shift (f : ℕ → ℝ) {l : ℕ} (hl : 1 ≤ l) :
    ∑ k ∈ range l, f (left (2 * l) (2 * k)) = ∑ k ∈ range l, f (2 * k + 1) := by
  obtain ⟨n, rfl⟩ : ∃ n, l = n + 1 := ⟨l - 1, by omega⟩
  rw [sum_range_succ', sum_range_succ]
  have h0 : left (2 * (n + 1)) (2 * 0) = 2 * n + 1 := by
    unfold left; rw [Nat.mod_eq_of_lt (by omega)]; omega
  rw [h0]
  congr 1
  apply sum_congr rfl
  intro k hk
  rw [mem_range] at hk
  unfold left
  rw [left_pos (by omega) (by omega)]
  congr 1

theorem right_left {m i : ℕ} (hi : i < m) : right m (left m i) = i := by
  unfold right left
  by_cases h : i = 0
  · subst h
    rw [left_zero (by omega), right_last (by omega)]
  · rw [left_pos (by omega) hi, Nat.sub_add_cancel (by omega), Nat.mod_eq_of_lt hi]

/-- sum over the sites of one parity -/
def parSum (l par : ℕ) (f : ℕ → ℝ) : ℝ := ∑ k ∈ range l, f (2 * k + par)

/-- The ring energy as a sum of `-Ω·S` over one sublattice plus the field energy of the other. -/
theorem ringEnergy_even {l : ℕ} (hl : 1 ≤ l) (S J B : ℕ → V3 ℝ) :
    ringEnergy (2 * l) S J B
      = parSum l 0 (fun i => -dot (S i) (omega (2 * l) S J B i))
        + parSum l 1 (fun i => dot (B i) (S i)) := by
  unfold ringEnergy parSum
  rw [sum_pairs]
  have hb := sum_shift (fun i => -dot (S i) (had (J i) (S (right (2 * l) i)))) hl
  have : ∀ k ∈ range l,
      -dot (S (2 * k + 0)) (omega (2 * l) S J B (2 * k + 0))
        = -dot (S (left (2 * l) (2 * k)))
              (had (J (left (2 * l) (2 * k))) (S (right (2 * l) (left (2 * l) (2 * k)))))
          + (-dot (S (2 * k)) (had (J (2 * k)) (S (right (2 * l) (2 * k))))
            + dot (B (2 * k)) (S (2 * k))) := by
    intro k hk
    rw [mem_range] at hk
    rw [right_left (by omega), Nat.add_zero]
    simp only [omega, dot, Spec.sub, Spec.add, had]
    ring
  rw [sum_congr rfl this]
  simp only [sum_add_distrib, right] at hb ⊢
  linarith

theorem ringEnergy_odd {l : ℕ} (S J B : ℕ → V3 ℝ) :
    ringEnergy (2 * l) S J B
      = parSum l 1 (fun i => -dot (S i) (omega (2 * l) S J B i))
        + parSum l 0 (fun i => dot (B i) (S i)) := by
  unfold ringEnergy parSum
  rw [sum_pairs, ← sum_add_distrib]
  apply sum_congr rfl
  intro k hk
  rw [mem_range] at hk
  have hleft : left (2 * l) (2 * k + 1) = 2 * k := by
    unfold left; rw [left_pos (by omega) (by omega)]; omega
  have hr : (2 * k + 1) % (2 * l) = 2 * k + 1 := Nat.mod_eq_of_lt (by omega)
  simp only [omega, hleft, right, hr, Nat.add_zero]
  simp only [dot, Spec.sub, Spec.add, had]
  ring

theorem ringEnergy_subStep {l par : ℕ} (hl : 1 ≤ l) (hpar : par < 2) (J B S : ℕ → V3 ℝ) (dt : ℝ) :
    ringEnergy (2 * l) (subStep (2 * l) par J B dt S) J B = ringEnergy (2 * l) S J B := by
  have key : ∀ k ∈ range l,
      -dot (subStep (2 * l) par J B dt S (2 * k + par))
          (omega (2 * l) (subStep (2 * l) par J B dt S) J B (2 * k + par))
        = -dot (S (2 * k + par)) (omega (2 * l) S J B (2 * k + par)) := by
    intro k hk
    rw [mem_range] at hk
    rw [omega_subStep (by omega) (by omega)]
    have : subStep (2 * l) par J B dt S (2 * k + par)
        = precess (S (2 * k + par)) (omega (2 * l) S J B (2 * k + par)) dt := by
      unfold subStep; rw [if_pos (by omega)]
    rw [this, dot_precess]
  have key2 : ∀ par', par' < 2 → par' ≠ par → ∀ k ∈ range l,
      dot (B (2 * k + par')) (subStep (2 * l) par J B dt S (2 * k + par'))
        = dot (B (2 * k + par')) (S (2 * k + par')) := by
    intro par' h1 h2 k _
    unfold subStep
    rw [if_neg (by omega)]
  obtain rfl | rfl : par = 0 ∨ par = 1 := by omega
  · rw [ringEnergy_even hl, ringEnergy_even hl]
    unfold parSum
    rw [sum_congr rfl key, sum_congr rfl (key2 1 (by omega) (by omega))]
  · rw [ringEnergy_odd, ringEnergy_odd]
    unfold parSum
    rw [sum_congr rfl key, sum_congr rfl (key2 0 (by omega) (by omega))]

theorem ringEnergy_step {l : ℕ} (hl : 1 ≤ l) (J B S : ℕ → V3 ℝ) (dt : ℝ) :
    ringEnergy (2 * l) (step (2 * l) J B dt S) J B = ringEnergy (2 * l) S J B := by
  unfold step
  rw [ringEnergy_subStep hl (by omega), ringEnergy_subStep hl (by omega),
    ringEnergy_subStep hl (by omega)]

/-- Replacing one spin changes the energy by `-Ω·(new - old)`. -/
theorem ringEnergy_replace {L n : ℕ} (hL : 2 ≤ L) (hn : n < L) (S J B : ℕ → V3 ℝ) (v : V3 ℝ) :
    ringEnergy L (Function.update S n v) J B - ringEnergy L S J B
      = -dot (omega L S J B n) (Spec.sub v (S n)) := by
  have hne : left L n ≠ n := by
    unfold left
    by_cases h : n = 0
    · subst h; rw [left_zero (by omega)]; omega
    · rw [left_pos (by omega) hn]; omega
  have hrne : right L n ≠ n := by
    unfold right
    by_cases h : n + 1 = L
    · rw [right_last h]; omega
    · rw [right_lt (by omega)]; omega
  have hll : left L n < L := left_lt (by omega)
  unfold ringEnergy
  rw [← sum_sub_distrib]
  rw [sum_eq_add (s := range L) (left L n) n hne]
  · have hrl := right_left hn
    unfold right at hrl hrne
    rw [hrl]
    rw [Function.update_of_ne hne, Function.update_self, Function.update_of_ne hrne]
    simp only [omega, right, dot, Spec.sub, Spec.add, had]
    ring
  · intro i hi hin
    rw [mem_range] at hi
    have h1 : (i + 1) % L ≠ n := by
      intro h
      apply hin.1
      by_cases h2 : i + 1 = L
      · rw [h2, Nat.mod_self] at h
        subst h
        unfold left; rw [left_zero (by omega)]; omega
      · rw [Nat.mod_eq_of_lt (by omega)] at h
        subst h
        unfold left; rw [left_pos (by omega) hn]; omega
    rw [Function.update_of_ne hin.2, Function.update_of_ne h1, sub_self]
  · intro h; exact absurd (mem_range.2 hll) h
  · intro h; exact absurd (mem_range.2 hn) h

/-! ### the model's update -/

theorem omF_real (m : ℕ) (j h : ℕ → V3 ℝ) (sp : ℕ → Spin ℝ) (i : ℕ) :
    omF m j h sp i = omega m (fun k => (sp k).dir) j h i := rfl

theorem subF_real {m par : ℕ} {j h : ℕ → V3 ℝ} {sp : ℕ → Spin ℝ} (dt : ℝ)
    (hu : ∀ i < m, IsUnit3 (sp i))
    (hr : ∀ i < m, i % 2 = par → omega m (fun k => (sp k).dir) j h i ≠ zero) :
    (fun i => (subF m par j h dt sp i).dir) = subStep m par j h dt (fun k => (sp k).dir) ∧
      ∀ i < m, IsUnit3 (subF m par j h dt sp i) := by
  constructor
  · funext i
    unfold subF subStep
    by_cases hc : i < m ∧ i % 2 = par
    · rw [if_pos hc, if_pos hc, omF_real, rotate_precess (hu i hc.1) (hr i hc.1 hc.2)]
    · rw [if_neg hc, if_neg hc]
  · intro i hi
    unfold subF
    by_cases hc : i < m ∧ i % 2 = par
    · rw [if_pos hc, omF_real]
      exact rotate_unit (unit_ne_zero (hu i hi)) (hr i hi hc.2) dt
    · rw [if_neg hc]; exact hu i hi

theorem stepF_real {m : ℕ} {j h : ℕ → V3 ℝ} {sp : ℕ → Spin ℝ} {dt : ℝ}
    (hu : ∀ i < m, IsUnit3 (sp i)) (hr : Regular m j h dt (fun k => (sp k).dir)) :
    (fun i => (stepF m j h dt sp i).dir) = step m j h dt (fun k => (sp k).dir) ∧
      ∀ i < m, IsUnit3 (stepF m j h dt sp i) := by
  unfold stepF step
  rw [lit_2]
  obtain ⟨r1, r2, r3⟩ := hr
  obtain ⟨e1, u1⟩ := subF_real (dt / 2) hu r1
  rw [← e1] at r2 r3
  obtain ⟨e2, u2⟩ := subF_real dt u1 r2
  rw [← e2] at r3
  obtain ⟨e3, u3⟩ := subF_real (dt / 2) u2 r3
  refine ⟨?_, u3⟩
  rw [e3, e2, e1]

section
variable {c : SpinChain ℝ} {L s : ℕ}

theorem tab_S (w : WF c L s) : Tab c.spins L (fun i => ⟨S c i⟩) := by
  refine tab_of_getElem? _ w.spins fun i hi => ?_
  have h' : i < c.spins.length := by rw [w.spins]; exact hi
  rw [S, List.getElem?_eq_getElem h']; rfl

theorem tab_J (w : WF c L s) : Tab c.j_couple L (J c) := by
  refine tab_of_getElem? _ w.j fun i hi => ?_
  have h' : i < c.j_couple.length := by rw [w.j]; exact hi
  rw [J, List.getElem?_eq_getElem h']; rfl

theorem tab_H0 (w : WF c L s) : Tab c.static_h L (H0 c) := by
  refine tab_of_getElem? _ w.h fun i hi => ?_
  have h' : i < c.static_h.length := by rw [w.h]; exact hi
  rw [H0, List.getElem?_eq_getElem h']; rfl

theorem S_of_tab {c' : SpinChain ℝ} {f : ℕ → Spin ℝ} (h : Tab c'.spins L f) {i : ℕ} (hi : i < L) :
    S c' i = (f i).dir := by
  unfold S; rw [h.getElem? hi]; rfl

theorem S_out (w : WF c L s) {i : ℕ} (hi : L ≤ i) : S c i = zero := by
  unfold S; rw [List.getElem?_eq_none (by rw [w.spins]; exact hi)]; rfl

theorem fieldF_real (t : ℝ) : fieldF s (H0 c) (drive c.vars t) = B c s t := by
  funext i; unfold fieldF B; split <;> rfl

theorem unit_of (w : WF c L s) (hu : ∀ x ∈ c.spins, IsUnit3 x) {i : ℕ} (hi : i < L) :
    IsUnit3 (⟨S c i⟩ : Spin ℝ) := unit_S w hu hi

/-- `update` at ℝ, without any hypothesis on the spins -/
theorem update_real (w : WF c L s) (hL : 2 ≤ L) :
    ∃ spins', c.update = .ok { c with spins := spins', t := c.t + c.vars.dt } ∧
      Tab spins' L (stepF (2 * (L / 2)) (J c) (B c s (c.t + c.vars.dt / 2)) c.vars.dt
        (fun i => ⟨S c i⟩)) := by
  have := update_tab w hL (tab_J w) (tab_H0 w) (tab_S w) (h_ext_eq w (c.t + c.vars.dt / 2.0))
  rwa [fieldF_real, lit_2] at this

/-- `update` implements the specified step -/
theorem update_spec (w : WF c L s) (hL : 2 ≤ L) (hu : ∀ x ∈ c.spins, IsUnit3 x)
    (hr : RegularStep c L s) :
    ∃ c', c.update = .ok c' ∧ (∀ x ∈ c'.spins, IsUnit3 x) ∧
      S c' = step (2 * (L / 2)) (J c) (B c s (c.t + c.vars.dt / 2)) c.vars.dt (S c) := by
  obtain ⟨s', h1, t1⟩ := update_real w hL
  obtain ⟨e, u⟩ := stepF_real (m := 2 * (L / 2)) (sp := fun i => ⟨S c i⟩)
    (fun i hi => unit_of w hu (by omega)) hr
  refine ⟨_, h1, ?_, ?_⟩
  · intro x hx
    obtain ⟨i, hi, rfl⟩ := t1.mem.1 hx
    by_cases him : i < 2 * (L / 2)
    · exact u i him
    · have : stepF (2 * (L / 2)) (J c) (B c s (c.t + c.vars.dt / 2)) c.vars.dt
          (fun i => (⟨S c i⟩ : Spin ℝ)) i = ⟨S c i⟩ := by
        unfold stepF subF
        simp only [him, false_and, if_false]
      rw [this]
      exact unit_of w hu hi
  · funext i
    by_cases hi : i < L
    · rw [S_of_tab (c' := { c with spins := s', t := c.t + c.vars.dt }) t1 hi]
      exact congrFun e i
    · rw [S_out (update_wf w h1) (by omega)]
      unfold step subStep
      simp only [show ¬ i < 2 * (L / 2) by omega, false_and, if_false]
      rw [S_out w (by omega)]

theorem J_congr {c' : SpinChain ℝ} (h : c'.j_couple = c.j_couple) : J c' = J c := by
  funext i; unfold J; rw [h]

theorem H0_congr {c' : SpinChain ℝ} (h : c'.static_h = c.static_h) : H0 c' = H0 c := by
  funext i; unfold H0; rw [h]

theorem B_congr {c' : SpinChain ℝ} (h : c'.static_h = c.static_h) {t t' : ℝ}
    (hd : drive c'.vars t' = drive c.vars t) : B c' s t' = B c s t := by
  funext i; unfold B; rw [H0_congr h, hd]

end

end Verif
