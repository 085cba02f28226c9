/-
Helper lemmas: the energy loops of the model at ℝ as sums.
-/
import Verif.Lemmas.Loop
import Verif.Lemmas.Vec
import Verif.Spec.Chain

namespace Verif

open Spec Finset

section access
variable {c : SpinChain ℝ} {L s : ℕ}

theorem idx_spins (w : WF c L s) {i : ℕ} (h : i < L) : idx c.spins i = .ok ⟨S c i⟩ := by
  have h' : i < c.spins.length := by rw [w.spins]; exact h
  rw [idx_ok h', S, List.getElem?_eq_getElem h']
  rfl

theorem idx_j (w : WF c L s) {i : ℕ} (h : i < L) : idx c.j_couple i = .ok (J c i) := by
  have h' : i < c.j_couple.length := by rw [w.j]; exact h
  rw [idx_ok h', J, List.getElem?_eq_getElem h']
  rfl

theorem idx_h (w : WF c L s) {i : ℕ} (h : i < L) : idx c.static_h i = .ok (H0 c i) := by
  have h' : i < c.static_h.length := by rw [w.h]; exact h
  rw [idx_ok h', H0, List.getElem?_eq_getElem h']
  rfl

theorem hsize_nat (w : WF c L s) : asUsize c.vars.hsize = L := by
  rw [w.hsize, asUsize_nat w.L_lt]

theorem ssize_nat (w : WF c L s) : asUsize c.vars.ssize = s := by
  rw [w.ssize, asUsize_nat w.s_lt]

theorem h_ext_eq (w : WF c L s) (t : ℝ) : c.h_ext t = .ok (drive c.vars t) := by
  have hs := w.hs
  unfold SpinChain.h_ext drive
  cases c.vars.drive <;> simp only [fcos_real, fsin_real, fpi_real, lit_2, lit_0]
  · rfl
  · rfl
  · rfl
  · rw [idx_ok (by omega : 0 < c.vars.hs.length), idx_ok (by omega : 1 < c.vars.hs.length),
      idx_ok (by omega : 2 < c.vars.hs.length)]
    simp only [ok_bind, List.getD_eq_getElem?_getD,
      List.getElem?_eq_getElem (by omega : 0 < c.vars.hs.length),
      List.getElem?_eq_getElem (by omega : 1 < c.vars.hs.length),
      List.getElem?_eq_getElem (by omega : 2 < c.vars.hs.length)]
    rfl
  · rfl

end access

theorem bondField_eq (s1 s2 : Spin ℝ) (j h : V3 ℝ) (e : ℝ) :
    SpinChain.bondField s1 s2 j h e
      = e + (-dot s1.dir (had j s2.dir) + dot h s1.dir) := by
  simp only [SpinChain.bondField, for3, V3.get_zero, V3.get_one, V3.get_two, dot, had]
  ring

theorem sjs_eq (s1 s2 : Spin ℝ) (j : V3 ℝ) :
    SpinChain.sjs_energy s1 s2 j = dot s1.dir (had j s2.dir) := by
  simp only [SpinChain.sjs_energy, for3, V3.get_zero, V3.get_one, V3.get_two, dot, had, lit_0]
  ring

theorem sh_eq (s1 : Spin ℝ) (h : V3 ℝ) : SpinChain.sh_energy s1 h = dot h s1.dir := by
  simp only [SpinChain.sh_energy, for3, V3.get_zero, V3.get_one, V3.get_two, dot, lit_0]
  ring

theorem sum_vec_eq (a b : V3 ℝ) : SpinChain.sum_vec a b = add a b := rfl

/-- Splitting the ring sum at the closing bond. -/
theorem ringEnergy_split {L : ℕ} (hL : 1 ≤ L) (S J B : ℕ → V3 ℝ) :
    ringEnergy L S J B =
      (∑ i ∈ range (L - 1), (-dot (S i) (had (J i) (S (i + 1))) + dot (B i) (S i)))
        + (-dot (S (L - 1)) (had (J (L - 1)) (S 0)) + dot (B (L - 1)) (S (L - 1))) := by
  obtain ⟨n, rfl⟩ : ∃ n, L = n + 1 := ⟨L - 1, by omega⟩
  unfold ringEnergy
  rw [sum_range_succ]
  simp only [Nat.add_sub_cancel, Nat.mod_self]
  congr 1
  apply sum_congr rfl
  intro i hi
  rw [mem_range] at hi
  rw [Nat.mod_eq_of_lt (by omega)]

/-- The loop shared by the ring energies of the model. -/
theorem ring_loop {c : SpinChain ℝ} {L s : ℕ} (w : WF c L s) {n : ℕ} (hn : 1 ≤ n) (hnL : n ≤ L)
    (H : List (V3 ℝ)) (B : ℕ → V3 ℝ) (hH : ∀ i, i < n → idx H i = .ok (B i)) :
    (do
      let e ← forRange 0 (n - 1) (0.0 : ℝ) fun i e => do
        return SpinChain.bondField (← idx c.spins i) (← idx c.spins (i + 1)) (← idx c.j_couple i)
          (← idx H i) e
      let e := SpinChain.bondField (← idx c.spins (n - 1)) (← idx c.spins 0)
        (← idx c.j_couple (n - 1)) (← idx H (n - 1)) e
      return e : R ℝ) = .ok (ringEnergy n (S c) (J c) B) := by
  rw [forRange_add (fun i => -dot (S c i) (had (J c i) (S c (i + 1))) + dot (B i) (S c i))]
  · rw [ok_bind, idx_spins w (by omega), ok_bind, idx_spins w (by omega), ok_bind,
      idx_j w (by omega), ok_bind, hH _ (by omega), ok_bind, ringEnergy_split hn, bondField_eq]
    simp only [lit_0, zero_add]
    rfl
  · intro i hi acc
    rw [idx_spins w (by omega), ok_bind, idx_spins w (by omega), ok_bind,
      idx_j w (by omega), ok_bind, hH _ (by omega), ok_bind, bondField_eq]
    rfl

end Verif
