/-
Properties C42–C43: log rows and the spectrum.
-/
import Verif.Lemmas.Spectrum
import Verif.Props.Demo
import Mathlib.Data.List.GetD
import Mathlib.Algebra.Order.Floor.Semifield

namespace Verif.Props

open Spec Finset

/-! ### C42: log rows -/

theorem C42_log_row (c : SpinChain ℝ) (L s : ℕ) (w : WF c L s) (hs : 1 ≤ s) (hsL : s ≤ L) :
    ∃ row : List ℝ, c.log = .ok (if c.file.isSome then some row else none) ∧
      c.total_energy2 = .ok (row.getD 1 0) ∧ c.system_energy = .ok (row.getD 2 0) ∧
      row = [c.t, row.getD 1 0, row.getD 2 0,
        (∑ i ∈ range s, (S c i).x) / s, (∑ i ∈ range s, (S c i).y) / s,
        (∑ i ∈ range s, (S c i).z) / s, (∑ i ∈ range L, (S c i).z) / L,
        (S c (s / 4)).x, (S c (s / 4)).y, (S c (s / 4)).z,
        (S c (3 * s / 4)).x, (S c (3 * s / 4)).y, (S c (3 * s / 4)).z] := by
  have hE := total_energy2_eq w (by omega)
  have hS := system_energy_eq w hs hsL
  set e1 := ringEnergy L (S c) (J c) (B c s c.t) / L with he1
  set e2 := (openEnergy s (S c) (J c) (B c s c.t)
      - dot (B c s c.t (s - 1)) (S c (s - 1))) / ((s : ℝ) - 1) with he2
  refine ⟨[c.t, e1, e2,
        (∑ i ∈ range s, (S c i).x) / s, (∑ i ∈ range s, (S c i).y) / s,
        (∑ i ∈ range s, (S c i).z) / s, (∑ i ∈ range L, (S c i).z) / L,
        (S c (s / 4)).x, (S c (s / 4)).y, (S c (s / 4)).z,
        (S c (3 * s / 4)).x, (S c (3 * s / 4)).y, (S c (3 * s / 4)).z], ?_, hE, hS, rfl⟩
  have n1 : ftoNat (((s : ℤ) : ℝ) / 4) = s / 4 := by
    have : ((s : ℤ) : ℝ) / 4 = ((s : ℕ) : ℝ) / ((4 : ℕ) : ℝ) := by push_cast; ring
    rw [ftoNat_real, this, Nat.floor_div_eq_div]
    have := w.s_lt
    omega
  have n2 : ftoNat (3 * ((s : ℤ) : ℝ) / 4) = 3 * s / 4 := by
    have : 3 * ((s : ℤ) : ℝ) / 4 = ((3 * s : ℕ) : ℝ) / ((4 : ℕ) : ℝ) := by push_cast; ring
    rw [ftoNat_real, this, Nat.floor_div_eq_div]
    have := w.s_lt
    omega
  have i1 : ∀ i < L, ∃ sp : Spin ℝ, idx c.spins i = .ok sp ∧ sp.dir = S c i := by
    intro i hi
    have hlt : i < c.spins.length := by rw [w.spins]; exact hi
    refine ⟨c.spins[i], idx_ok hlt, ?_⟩
    rw [S, List.getElem?_eq_getElem hlt]; rfl
  obtain ⟨p1, a1, b1⟩ := i1 (s / 4) (by omega)
  obtain ⟨p2, a2, b2⟩ := i1 (3 * s / 4) (by omega)
  obtain ⟨ek, hek, -⟩ := spectrum_entries w
  unfold SpinChain.log
  rw [hE, hS, m_eq w hsL, m_tot_eq w]
  simp only [ok_bind, w.hsize, w.ssize, fofInt_real, lit_4, lit_3, n1, n2, a1, a2, hek, b1, b2]
  split_ifs <;> rfl

/-- non-vacuity -/
example : WF demo 4 2 ∧ 1 ≤ 2 ∧ 2 ≤ 4 ∧ demo.file.isSome = true :=
  ⟨demo_wf, by norm_num, by norm_num, rfl⟩

/-- the range of the subsystem size is needed -/
theorem C42_log_panics (c : SpinChain ℝ) (L s : ℕ) (w : WF c L s) (h : s = 0 ∨ L < s) :
    ∃ p, c.log = .error p := by
  have : ∃ p, c.system_energy = .error p := by
    unfold SpinChain.system_energy
    have hss : asUsize c.vars.ssize = s := by rw [w.ssize, asUsize_nat w.s_lt]
    rw [hss]
    cases hh : c.h_ext c.t with
    | error e => exact ⟨e, rfl⟩
    | ok he =>
      rw [ok_bind]
      rcases h with rfl | hs
      · exact ⟨_, rfl⟩
      · obtain ⟨p, hp⟩ := mapRange_error (f := fun x => do
          return SpinChain.sum_vec (← idx c.static_h x) he) (hi := s) L hs
          ⟨.indexOOB, by rw [idx_oob (by rw [w.h])]; rfl⟩
        exact ⟨p, by rw [hp]; rfl⟩
  obtain ⟨p, hp⟩ := this
  refine ⟨p, ?_⟩
  unfold SpinChain.log
  rw [hp]; rfl

/-! ### C43: the spectrum -/

/-- Even length: entry `i` is the power of mode `i + L/2 (mod L)`, so mode 0 sits at `L/2`. -/
theorem C43_even (c : SpinChain ℝ) (L s : ℕ) (w : WF c L s) (hL : L % 2 = 0) (hpos : 0 < L) :
    ∃ ek : List ℝ, c.energy_spectrum = .ok ek ∧ ek.length = L ∧
      (∀ i < L, ek[i]? = some (power L c ((i + L / 2) % L))) ∧
      ek.Perm ((List.range L).map (power L c)) ∧
      ek.sum = L * ∑ j ∈ range L, dot (S c j) (S c j) := by
  obtain ⟨ek, h1, h2, h3, h4, -⟩ := spectrum_entries w
  have hent : ∀ i < L, ek[i]? = some (power L c ((i + L / 2) % L)) := by
    intro i hi
    by_cases h : i < L / 2
    · have := h4 (i + L / 2) (by omega) (by omega) (by omega)
      rw [show i + L / 2 - L / 2 = i by omega] at this
      rw [this, Nat.mod_eq_of_lt (by omega)]
    · have := h3 (i - L / 2) (by omega)
      rw [show i - L / 2 + L / 2 = i by omega] at this
      rw [this, show i + L / 2 = (i - L / 2) + L by omega, Nat.add_mod_right,
        Nat.mod_eq_of_lt (by omega)]
  have heq : ek = (List.range L).map fun i => power L c ((i + L / 2) % L) := by
    apply List.ext_getElem?
    intro i
    by_cases hi : i < L
    · rw [hent i hi]; simp [hi]
    · rw [List.getElem?_eq_none (by omega), List.getElem?_eq_none (by simp; omega)]
  have hrot : (List.range L).map (fun i => (i + L / 2) % L) = (List.range L).rotate (L / 2) := by
    apply List.ext_getElem?
    intro i
    by_cases hi : i < L
    · rw [List.getElem?_rotate (by simpa using hi)]
      simp [hi, Nat.mod_lt _ hpos]
    · rw [List.getElem?_eq_none (by simp; omega), List.getElem?_eq_none (by simp; omega)]
  have hperm : ek.Perm ((List.range L).map (power L c)) := by
    rw [heq, show (fun i => power L c ((i + L / 2) % L))
      = power L c ∘ (fun i => (i + L / 2) % L) from rfl, ← List.map_map, hrot]
    exact (List.rotate_perm _ _).map _
  refine ⟨ek, h1, h2, hent, hperm, ?_⟩
  rw [hperm.sum_eq, ← power_sum (by omega)]
  exact sum_map_range _ _

/-- non-vacuity, and a chain of four sites -/
example : WF demo 4 2 ∧ 4 % 2 = 0 ∧ 0 < 4 := ⟨demo_wf, rfl, by norm_num⟩

/-- Odd length `2m+1 ≥ 3`: the highest mode is lost, the last entry stays zero, and the sum of the
spectrum falls short of the total by the power of the lost mode. -/
theorem C43_odd (c : SpinChain ℝ) (m s : ℕ) (w : WF c (2 * m + 1) s) (hm : 1 ≤ m) :
    ∃ ek : List ℝ, c.energy_spectrum = .ok ek ∧ ek.length = 2 * m + 1 ∧
      (∀ i < m, ek[i]? = some (power (2 * m + 1) c (m + i))) ∧
      (∀ i < m, ek[m + i]? = some (power (2 * m + 1) c i)) ∧ ek[2 * m]? = some 0 ∧
      ek.sum = (2 * m + 1 : ℕ) * ∑ j ∈ range (2 * m + 1), dot (S c j) (S c j)
        - power (2 * m + 1) c (2 * m) := by
  obtain ⟨ek, h1, h2, h3, h4, h5⟩ := spectrum_entries w
  have hd : (2 * m + 1) / 2 = m := by omega
  rw [hd] at h3 h4
  have e1 : ∀ i < m, ek[i]? = some (power (2 * m + 1) c (m + i)) := by
    intro i hi
    have := h4 (m + i) (by omega) (by omega) (by omega)
    rwa [show m + i - m = i by omega] at this
  have e2 : ∀ i < m, ek[m + i]? = some (power (2 * m + 1) c i) := by
    intro i hi
    have := h3 i hi
    rwa [Nat.add_comm] at this
  have e3 : ek[2 * m]? = some 0 := h5 (by omega) (by omega)
  refine ⟨ek, h1, h2, e1, e2, e3, ?_⟩
  have heq : ek = (List.range m).map (fun i => power (2 * m + 1) c (m + i))
      ++ ((List.range m).map (power (2 * m + 1) c) ++ [0]) := by
    apply List.ext_getElem?
    intro i
    rcases lt_or_ge i m with h | h
    · rw [e1 i h, List.getElem?_append_left (by simpa using h)]
      simp [h]
    · rw [List.getElem?_append_right (by simpa using h), List.length_map, List.length_range]
      rcases lt_or_ge i (2 * m) with h' | h'
      · have := e2 (i - m) (by omega)
        rw [show m + (i - m) = i by omega] at this
        rw [this, List.getElem?_append_left (by simp; omega)]
        simp [show i - m < m by omega]
      · rw [List.getElem?_append_right (by simp; omega), List.length_map, List.length_range]
        rcases eq_or_lt_of_le h' with h'' | h''
        · subst h''
          rw [e3, show 2 * m - m - m = 0 by omega]; rfl
        · rw [List.getElem?_eq_none (by omega), List.getElem?_eq_none (by simp; omega)]
  rw [← power_sum (by omega), sum_range_succ, show 2 * m = m + m by omega, Finset.sum_range_add,
    heq, List.sum_append, List.sum_append, sum_map_range, sum_map_range]
  rw [show 2 * m = m + m by omega]
  simp
  ring

end Verif.Props
