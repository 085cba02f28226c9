/-
Helper lemmas: acceptance probabilities and detailed balance.
-/
import Verif.Lemmas.Metropolis

namespace Verif

open Spec Finset MeasureTheory

theorem accept_volume {beta dE : ℝ} (hb : 0 ≤ beta) :
    volume {u : ℝ | 0 ≤ u ∧ u < 1 ∧ (dE < 0 ∨ u < Real.exp (-(beta * dE)))}
      = ENNReal.ofReal (min 1 (Real.exp (-(beta * dE)))) := by
  by_cases h : dE < 0
  · have h1 : 1 ≤ Real.exp (-(beta * dE)) := by
      rw [← Real.exp_zero, Real.exp_le_exp]
      nlinarith
    rw [min_eq_left h1]
    have : {u : ℝ | 0 ≤ u ∧ u < 1 ∧ (dE < 0 ∨ u < Real.exp (-(beta * dE)))} = Set.Ico 0 1 := by
      ext u; simp [h]
    rw [this, Real.volume_Ico, sub_zero]
  · have h1 : Real.exp (-(beta * dE)) ≤ 1 := by
      rw [← Real.exp_zero, Real.exp_le_exp]
      have := mul_nonneg hb (not_lt.1 h)
      linarith
    rw [min_eq_right h1]
    have : {u : ℝ | 0 ≤ u ∧ u < 1 ∧ (dE < 0 ∨ u < Real.exp (-(beta * dE)))}
        = Set.Ico 0 (Real.exp (-(beta * dE))) := by
      ext u
      simp only [h, false_or, Set.mem_ofPred_eq, Set.mem_Ico]
      constructor
      · exact fun h => ⟨h.1, h.2.2⟩
      · exact fun h => ⟨h.1, lt_of_lt_of_le h.2 h1, h.2⟩
    rw [this, Real.volume_Ico, sub_zero]

section
variable {c : SpinChain ℝ} {L s : ℕ}

theorem replace_ne (w : WF c L s) {i : ℕ} (hi : i < L) {v : V3 ℝ} (hv : v ≠ S c i) :
    replace c i v ≠ c := by
  intro h
  apply hv
  have := congrFun (S_replace w hi v) i
  rw [h, Function.update_self] at this
  exact this.symm

theorem replace_back (w : WF c L s) {i : ℕ} (hi : i < L) (v : V3 ℝ) :
    replace (replace c i v) i (S c i) = c := by
  unfold replace
  have hlt : i < c.spins.length := by rw [w.spins]; exact hi
  have : (c.spins.set i ⟨v⟩).set i ⟨S c i⟩ = c.spins := by
    rw [List.set_set]
    apply List.ext_getElem?
    intro k
    by_cases hk : k = i
    · subst hk
      rw [List.getElem?_set_self hlt, List.getElem?_eq_getElem hlt, S,
        List.getElem?_eq_getElem hlt]
      rfl
    · rw [List.getElem?_set_ne (fun h => hk h.symm)]
  rw [this]

/-- a sampler of Metropolis form has the Metropolis acceptance probability -/
theorem acceptProb_eq {upd : SpinChain ℝ → Draw ℝ → R (SpinChain ℝ)} (w : WF c L s)
    (hb : 0 ≤ c.vars.beta) {i : ℕ} (hi : i < L) {v : V3 ℝ} (hv : v ≠ S c i) {u1 u2 dE : ℝ}
    (hupd : ∀ u, upd c ⟨i, u1, u2, u⟩ = .ok (metropolis c.vars.beta dE u c (replace c i v))) :
    acceptProb upd c (replace c i v) i u1 u2
      = ENNReal.ofReal (min 1 (Real.exp (-(c.vars.beta * dE)))) := by
  unfold acceptProb
  rw [← accept_volume hb]
  congr 1
  ext u
  simp only [Set.mem_ofPred_eq, hupd u]
  have hne := replace_ne w hi hv
  unfold metropolis
  split_ifs with h
  · simp [h]
  · constructor
    · intro h'; exact absurd (Except.ok.inj h'.2.2).symm hne
    · intro h'; exact absurd h'.2.2 h

theorem balance_real (beta E E' : ℝ) :
    Real.exp (-(beta * E)) * min 1 (Real.exp (-(beta * (E' - E))))
      = Real.exp (-(beta * E')) * min 1 (Real.exp (-(beta * (E - E')))) := by
  rw [mul_min_of_nonneg _ _ (Real.exp_pos _).le, mul_min_of_nonneg _ _ (Real.exp_pos _).le,
    ← Real.exp_add, ← Real.exp_add, mul_one, mul_one, min_comm]
  congr 2 <;> ring

/-- A sampler that decides by the change of one energy function obeys detailed balance. -/
theorem balance_of_energy {upd : SpinChain ℝ → Draw ℝ → R (SpinChain ℝ)}
    (E : SpinChain ℝ → ℝ)
    (hupd : ∀ (c : SpinChain ℝ) (i : ℕ) (u1 u2 u : ℝ), WF c L s → i < L → 0 ≤ u2 → u2 < 1 →
      upd c ⟨i, u1, u2, u⟩ = .ok (metropolis c.vars.beta
        (E (replace c i (spherePoint u1 u2)) - E c) u c (replace c i (spherePoint u1 u2)))) :
    DetailedBalance upd L s (fun c => Real.exp (-(c.vars.beta * E c))) := by
  intro c i u1 u2 w1 w2 w hb hi h2 h2' hw hw' hS hne
  have hv : spherePoint u1 u2 ≠ S c i := by rw [hS]; exact hne
  have w' := replace_wf w i (spherePoint u1 u2)
  rw [acceptProb_eq w hb hi hv (fun u => hupd c i u1 u2 u w hi h2 h2')]
  have hback : replace (replace c i (spherePoint u1 u2)) i (spherePoint w1 w2) = c := by
    rw [← hS, replace_back w hi]
  have hS' : S (replace c i (spherePoint u1 u2)) i = spherePoint u1 u2 := by
    rw [S_replace w hi, Function.update_self]
  have key := acceptProb_eq (upd := upd) (c := replace c i (spherePoint u1 u2)) w' hb hi
    (v := spherePoint w1 w2) (by rw [hS']; exact hne.symm)
    (fun u => hupd (replace c i (spherePoint u1 u2)) i w1 w2 u w' hi hw hw')
  rw [hback] at key
  rw [key, ← ENNReal.ofReal_mul (Real.exp_pos _).le, ← ENNReal.ofReal_mul (Real.exp_pos _).le]
  congr 1
  exact balance_real _ _ _

/-- Detailed balance fixes the ratio of weights. -/
theorem weight_ratio {upd : SpinChain ℝ → Draw ℝ → R (SpinChain ℝ)} {W : SpinChain ℝ → ℝ}
    (hW : ∀ c, 0 < W c) (hdb : DetailedBalance upd L s W) (w : WF c L s)
    (hb : 0 ≤ c.vars.beta) {i : ℕ} (hi : i < L) {u1 u2 w1 w2 : ℝ}
    (h2 : 0 ≤ u2) (h2' : u2 < 1) (hw : 0 ≤ w2) (hw' : w2 < 1) (hS : S c i = spherePoint w1 w2)
    (hne : spherePoint u1 u2 ≠ spherePoint w1 w2) {dE : ℝ}
    (h1 : ∀ u, upd c ⟨i, u1, u2, u⟩
      = .ok (metropolis c.vars.beta dE u c (replace c i (spherePoint u1 u2))))
    (h3 : ∀ u, upd (replace c i (spherePoint u1 u2)) ⟨i, w1, w2, u⟩
      = .ok (metropolis c.vars.beta (-dE) u (replace c i (spherePoint u1 u2)) c)) :
    W (replace c i (spherePoint u1 u2)) = W c * Real.exp (-(c.vars.beta * dE)) := by
  have hv : spherePoint u1 u2 ≠ S c i := by rw [hS]; exact hne
  have w' := replace_wf w i (spherePoint u1 u2)
  have hback : replace (replace c i (spherePoint u1 u2)) i (spherePoint w1 w2) = c := by
    rw [← hS, replace_back w hi]
  have hS' : S (replace c i (spherePoint u1 u2)) i = spherePoint u1 u2 := by
    rw [S_replace w hi, Function.update_self]
  have key := acceptProb_eq (upd := upd) (c := replace c i (spherePoint u1 u2)) w' hb hi
    (v := spherePoint w1 w2) (u1 := w1) (u2 := w2) (dE := -dE) (by rw [hS']; exact hne.symm)
    (by intro u; rw [hback]; exact h3 u)
  rw [hback] at key
  have h := hdb c i u1 u2 w1 w2 w hb hi h2 h2' hw hw' hS hne
  rw [acceptProb_eq w hb hi hv h1, key, ← ENNReal.ofReal_mul (hW _).le,
    ← ENNReal.ofReal_mul (hW _).le] at h
  have hpos : ∀ x : ℝ, 0 < min 1 (Real.exp x) := fun x => lt_min one_pos (Real.exp_pos _)
  have h4 := (ENNReal.ofReal_eq_ofReal_iff (mul_nonneg (hW _).le (hpos _).le)
    (mul_nonneg (hW _).le (hpos _).le)).1 h
  have hm : min 1 (Real.exp (-(c.vars.beta * dE)))
      = Real.exp (-(c.vars.beta * dE)) * min 1 (Real.exp (-(c.vars.beta * -dE))) := by
    rw [mul_min_of_nonneg _ _ (Real.exp_pos _).le, ← Real.exp_add, mul_one, min_comm]
    congr 1
    rw [← Real.exp_zero]; congr 1; ring
  have hp := hpos (-(c.vars.beta * -dE))
  have h5 : W (replace c i (spherePoint u1 u2)) * min 1 (Real.exp (-(c.vars.beta * -dE)))
      = W c * Real.exp (-(c.vars.beta * dE)) * min 1 (Real.exp (-(c.vars.beta * -dE))) := by
    rw [mul_assoc (W c), ← hm]
    exact h4.symm
  exact mul_right_cancel₀ hp.ne' h5

end

end Verif

namespace Verif

open Spec

/-- Going around a square of two single-spin moves, the energy differences of a balanced sampler must
cancel. -/
theorem square_sum {L s : ℕ} {upd : SpinChain ℝ → Draw ℝ → R (SpinChain ℝ)}
    {W : SpinChain ℝ → ℝ} (hW : ∀ c, 0 < W c) (hdb : DetailedBalance upd L s W)
    (E : ℕ → SpinChain ℝ → ℝ)
    (hupd : ∀ (c : SpinChain ℝ) (i : ℕ) (u1 u2 u : ℝ), WF c L s → i < L → 0 ≤ u2 → u2 < 1 →
      upd c ⟨i, u1, u2, u⟩ = .ok (metropolis c.vars.beta
        (E i (replace c i (spherePoint u1 u2)) - E i c) u c (replace c i (spherePoint u1 u2))))
    {c : SpinChain ℝ} (w : WF c L s) (hb : 0 < c.vars.beta) {a b : ℕ} (ha : a < L) (hbL : b < L)
    (hab : a ≠ b) {u1 u2 w1 w2 : ℝ}
    (h2 : 0 ≤ u2) (h2' : u2 < 1) (hw : 0 ≤ w2) (hw' : w2 < 1)
    (hSa : S c a = spherePoint w1 w2) (hSb : S c b = spherePoint w1 w2)
    (hne : spherePoint u1 u2 ≠ spherePoint w1 w2) :
    (E a (replace c a (spherePoint u1 u2)) - E a c)
      + (E b (replace (replace c a (spherePoint u1 u2)) b (spherePoint u1 u2))
          - E b (replace c a (spherePoint u1 u2)))
      + (E a (replace c b (spherePoint u1 u2))
          - E a (replace (replace c a (spherePoint u1 u2)) b (spherePoint u1 u2)))
      + (E b c - E b (replace c b (spherePoint u1 u2))) = 0 := by
  have move : ∀ (c : SpinChain ℝ) (i : ℕ) (u1 u2 w1 w2 : ℝ), WF c L s → 0 < c.vars.beta → i < L →
      0 ≤ u2 → u2 < 1 → 0 ≤ w2 → w2 < 1 → S c i = spherePoint w1 w2 →
      spherePoint u1 u2 ≠ spherePoint w1 w2 →
      W (replace c i (spherePoint u1 u2)) = W c * Real.exp (-(c.vars.beta *
        (E i (replace c i (spherePoint u1 u2)) - E i c))) := by
    intro c i u1 u2 w1 w2 w hb hi h2 h2' hw hw' hS hne
    have hback : replace (replace c i (spherePoint u1 u2)) i (spherePoint w1 w2) = c := by
      rw [← hS, replace_back w hi]
    refine weight_ratio hW hdb w hb.le hi h2 h2' hw hw' hS hne
      (fun u => hupd c i u1 u2 u w hi h2 h2') (fun u => ?_)
    have := hupd (replace c i (spherePoint u1 u2)) i w1 w2 u (replace_wf w _ _) hi hw hw'
    rw [hback] at this
    rw [this, neg_sub]
    rfl
  set v := spherePoint u1 u2
  set v0 := spherePoint w1 w2
  have w1' := replace_wf w a v
  have wb := replace_wf w b v
  have hS1 : S (replace c a v) b = v0 := by
    rw [S_replace w ha, Function.update_of_ne hab.symm, hSb]
  have hSb' : S (replace c b v) a = v0 := by
    rw [S_replace w hbL, Function.update_of_ne hab, hSa]
  have hcomm : replace (replace c b v) a v = replace (replace c a v) b v := by
    unfold replace
    simp only
    rw [List.set_comm _ _ hab.symm]
  have m1 := move c a u1 u2 w1 w2 w hb ha h2 h2' hw hw' hSa hne
  have m2 := move (replace c a v) b u1 u2 w1 w2 w1' hb hbL h2 h2' hw hw' hS1 hne
  have m3 := move (replace c b v) a u1 u2 w1 w2 wb hb ha h2 h2' hw hw' hSb' hne
  have m4 := move c b u1 u2 w1 w2 w hb hbL h2 h2' hw hw' hSb hne
  rw [hcomm] at m3
  rw [m1] at m2
  rw [m4] at m3
  rw [m2, show (replace c a v).vars = c.vars from rfl, show (replace c b v).vars = c.vars from rfl,
    mul_assoc, mul_assoc, ← Real.exp_add, ← Real.exp_add] at m3
  have := Real.exp_injective (mul_left_cancel₀ (hW c).ne' m3)
  have hb0 := hb.ne'
  have h0 : c.vars.beta * ((E a (replace c a v) - E a c)
      + (E b (replace (replace c a v) b v) - E b (replace c a v))
      + (E a (replace c b v) - E a (replace (replace c a v) b v))
      + (E b c - E b (replace c b v))) = 0 := by linarith
  rcases mul_eq_zero.1 h0 with h | h
  · exact absurd h hb0
  · exact h

end Verif
