/-
C74, C76: the site-resolved rows of `log_ext` and of the profile modes.
-/
import Verif.Lemmas.Runs
import Verif.Props.Demo

namespace Verif.Props

open Spec Finset

variable {L s : ℕ}

/-! ### C74: `log_ext` -/

/-- What `log_ext` should write for site `j`: the time, the site, half of the energies of its two
bonds plus its energy in the field, and the spin. -/
noncomputable def siteRow (c : SpinChain ℝ) (s j : ℕ) : ℝ × ℕ × ℝ × V3 ℝ :=
  (c.t, j, -(dot (S c (j - 1)) (had (J c (j - 1)) (S c j)) + dot (S c j) (had (J c j) (S c (j + 1)))) / 2
    + dot (B c s c.t j) (S c j), S c j)

/-- `log_ext` writes one row for each site `1 ≤ j < min s (L - 1)`, in order. -/
theorem C74_log_ext (c : SpinChain ℝ) (w : WF c L s) (hL : 1 ≤ L) (hsL : s ≤ L) :
    c.log_ext = .ok ((List.range' 1 (min s (L - 1) - 1)).map (siteRow c s)) := by
  unfold SpinChain.log_ext
  have hL1 : asUsize (c.vars.hsize - 1) = L - 1 := by
    rw [w.hsize, show (L : ℤ) - 1 = ((L - 1 : ℕ) : ℤ) by omega, asUsize_nat (by have := w.L_lt; omega)]
  simp only [ssize_natF w, h_ext_eq w, ok_bind, hL1]
  rw [mapRange_ok (B c s c.t)]
  swap
  · intro i _ hi
    rw [idx_h w (by omega), ok_bind, B, if_pos hi]
    rfl
  rw [ok_bind, List.length_map, List.length_range', Nat.sub_zero]
  apply mapRange_ok
  intro j h1 h2
  unfold SpinChain.logExtRow
  rw [idx_spins w (by omega), ok_bind, idx_j w (by omega), ok_bind, idx_spins w (by omega), ok_bind,
    idx_j w (by omega), ok_bind, idx_spins w (by omega), ok_bind, idx_map_range' _ (by omega), ok_bind]
  simp only [ssize_natF w, if_pos (show j < s by omega), for3, V3.get_zero, V3.get_one, V3.get_two,
    lit_0, lit_half]
  show Except.ok _ = Except.ok _
  congr 1
  unfold siteRow
  refine congrArg (fun e => (c.t, j, e, S c j)) ?_
  simp only [dot, had]
  ring

/-- The first site, and the last site even of a subsystem that is the whole chain, have no row. -/
theorem C74_edges_missing (c : SpinChain ℝ) (w : WF c L s) (hL : 1 ≤ L) (hsL : s ≤ L) :
    ∃ rows, c.log_ext = .ok rows ∧ ∀ r ∈ rows, r.2.1 ≠ 0 ∧ r.2.1 ≠ L - 1 := by
  refine ⟨_, C74_log_ext c w hL hsL, ?_⟩
  intro r hr
  rw [List.mem_map] at hr
  obtain ⟨j, hj, rfl⟩ := hr
  rw [List.mem_range'_1] at hj
  show j ≠ 0 ∧ j ≠ L - 1
  omega

/-- With a subsystem larger than the chain the field table panics. -/
theorem C74_panics (c : SpinChain ℝ) (w : WF c L s) (hsL : L < s) : ∃ p, c.log_ext = .error p := by
  unfold SpinChain.log_ext
  simp only [ssize_natF w, h_ext_eq w, ok_bind]
  obtain ⟨p, hp⟩ := mapRange_error (hi := s) (f := fun x => do
    return SpinChain.sum_vec (← idx c.static_h x) (drive c.vars c.t)) L hsL (by
      refine ⟨.indexOOB, ?_⟩
      have : idx c.static_h L = .error .indexOOB := by
        unfold idx
        rw [List.getElem?_eq_none (by rw [w.h])]
      simp only [this]
      rfl)
  exact ⟨p, by rw [hp]; rfl⟩

example : WF demo 4 2 ∧ 1 ≤ 4 ∧ 2 ≤ 4 := ⟨demo_wf, by norm_num, by norm_num⟩

/-! ### C76: profiles -/

/-- What the profile modes should send for site `i`: half of the exchange energies of the two bonds
of the site on the ring, and the spin. -/
noncomputable def siteMsg (c : SpinChain ℝ) (L i : ℕ) : ℕ × ℝ × V3 ℝ :=
  (i, -(dot (S c (left L i)) (had (J c (left L i)) (S c i)) + dot (S c i) (had (J c i) (S c (right L i)))) / 2,
    S c i)

/-- One message for every site of the chain, in order; the site energies add up to the exchange
energy of the ring. -/
theorem C76_profile (c : SpinChain ℝ) (w : WF c L s) :
    profileMsgs c = .ok ((List.range L).map (siteMsg c L)) ∧
      ∑ i ∈ range L, (siteMsg c L i).2.1 = ringEnergy L (S c) (J c) (fun _ => zero) := by
  constructor
  · unfold profileMsgs
    simp only [hsize_natF w]
    rw [mapRange_ok (siteMsg c L), Nat.sub_zero, List.range_eq_range']
    intro i _ hi
    have hl : left L i < L := left_lt (by omega)
    have hr : right L i < L := right_lt' (by omega)
    unfold profileMsg
    rw [leftIdx_ok hi, ok_bind, idx_spins w hl, ok_bind, idx_spins w hi, ok_bind, rightIdx_ok hi,
      ok_bind, idx_spins w hr, ok_bind, idx_j w hl, ok_bind, idx_j w hi, ok_bind]
    simp only [for3, V3.get_zero, V3.get_one, V3.get_two, lit_0, lit_2]
    show Except.ok _ = Except.ok _
    congr 1
    unfold siteMsg
    refine congrArg (fun e => (i, e, S c i)) ?_
    simp only [dot, had]
    ring
  · have e : ∀ i ∈ range L, (siteMsg c L i).2.1
        = -(dot (S c (left L i)) (had (J c (left L i)) (S c (right L (left L i))))) / 2
          + -(dot (S c i) (had (J c i) (S c (right L i)))) / 2 := by
      intro i hi
      rw [mem_range] at hi
      have : right L (left L i) = i := right_left hi
      rw [this]
      simp only [siteMsg]
      ring
    rw [sum_congr rfl e, sum_add_distrib,
      sum_left (fun i => -(dot (S c i) (had (J c i) (S c (right L i)))) / 2), ← sum_add_distrib]
    unfold ringEnergy
    refine sum_congr rfl fun i _ => ?_
    simp only [right, dot, zero]
    ring

example : WF demo 4 2 := demo_wf

end Verif.Props
