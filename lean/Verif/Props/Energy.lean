/-
Properties C16–C21: energies and magnetisation (/repo/src/spinchain.rs), against the Hamiltonian
of Verif/Spec/Chain.lean.
-/
import Verif.Lemmas.EnergyModel
import Verif.Props.Demo

namespace Verif.Props

open Spec Finset

/-! ### C16: `total_energy2` is the documented Hamiltonian per site -/

theorem C16_total_energy2 (c : SpinChain ℝ) (L s : ℕ) (w : WF c L s) (hL : 1 ≤ L) :
    c.total_energy2 = .ok (ringEnergy L (S c) (J c) (B c s c.t) / L) :=
  total_energy2_eq w hL

/-- an empty chain: `l - 1` underflows -/
theorem C16_empty_panics (c : SpinChain ℝ) (s : ℕ) (w : WF c 0 s) :
    c.total_energy2 = .error .underflow :=
  total_energy2_empty w

example : WF demo 4 2 ∧ 1 ≤ 4 := ⟨demo_wf, by norm_num⟩

/-! ### C17: the two total energies agree -/

theorem C17_total_energies_agree (c : SpinChain ℝ) (L s : ℕ) (w : WF c L s) (hL : 1 ≤ L)
    (hs : s ≤ L) :
    c.total_energy = c.total_energy2 ∧
      c.total_energy = .ok (ringEnergy L (S c) (J c) (B c s c.t) / L) := by
  rw [total_energy2_eq w hL, total_energy_eq w hL hs]
  exact ⟨rfl, rfl⟩

/-- outside the range `ssize ≤ hsize` only `total_energy` panics, so `ssize ≤ hsize` is needed -/
theorem C17_oversized_subsystem (c : SpinChain ℝ) (L s : ℕ) (w : WF c L s) (hL : 1 ≤ L)
    (hs : L < s) : c.total_energy = .error .indexOOB :=
  total_energy_oob w hL hs

example : WF demo 4 2 ∧ 1 ≤ 4 ∧ 2 ≤ 4 := ⟨demo_wf, by norm_num, by norm_num⟩

/-! ### C18: `mc_total_energy` is the undriven Hamiltonian, at every time and drive -/

theorem C18_mc_total_energy (c : SpinChain ℝ) (L s : ℕ) (w : WF c L s) (hL : 1 ≤ L) :
    c.mc_total_energy = .ok (ringEnergy L (S c) (J c) (H0 c) / L) ∧
    ∀ t : ℝ, c.mc_total_energy =
      ({ c with t := t, vars := { c.vars with drive := .none } } : SpinChain ℝ).total_energy2 := by
  have h := mc_total_energy_eq w hL
  refine ⟨h, fun t => ?_⟩
  have w' : WF ({ c with t := t, vars := { c.vars with drive := .none } } : SpinChain ℝ) L s :=
    ⟨w.hsize, w.ssize, w.L_lt, w.s_lt, w.spins, w.j, w.h, w.hs⟩
  rw [h, total_energy2_eq w' hL]
  congr 2
  unfold ringEnergy
  apply sum_congr rfl
  intro i _
  have hB : B ({ c with t := t, vars := { c.vars with drive := .none } } : SpinChain ℝ) s t i
      = H0 c i := by
    simp [B, drive, H0, add, zero]
  simp only [hB]
  rfl

/-! ### C19: energy density of the driven subsystem

Full claim: `system_energy = (open-boundary energy of the first ssize spins) / (ssize - 1)`.  The
code leaves out the field energy of the last subsystem spin. -/

/-- What the code computes: missing with respect to the claim is the term `B_{s-1} . S_{s-1}`.  (At
`s = 1` the code divides by zero: `C19_one_site_nan`.) -/
theorem C19_system_energy_partial (c : SpinChain ℝ) (L s : ℕ) (w : WF c L s) (hs : 2 ≤ s)
    (hsL : s ≤ L) :
    c.system_energy = .ok ((openEnergy s (S c) (J c) (B c s c.t)
      - dot (B c s c.t (s - 1)) (S c (s - 1))) / ((s : ℝ) - 1)) :=
  system_energy_eq w (by omega) hsL

/-- The claim fails: a chain on which `system_energy` is not the energy density of the subsystem,
with either normalisation. -/
theorem C19_negation : ∃ (c : SpinChain ℝ) (L s : ℕ), WF c L s ∧ 2 ≤ s ∧ s ≤ L ∧
    (∀ x ∈ c.spins, IsUnit3 x) ∧
    c.system_energy ≠ .ok (openEnergy s (S c) (J c) (B c s c.t) / ((s : ℝ) - 1)) ∧
    c.system_energy ≠ .ok (openEnergy s (S c) (J c) (B c s c.t) / (s : ℝ)) := by
  refine ⟨{ demo with vars := { demoVars with drive := .none } }, 4, 2, ?_, by norm_num,
    by norm_num, demo_unit, ?_, ?_⟩
  · constructor <;> simp [demo, demoVars]
  all_goals
    rw [system_energy_eq (L := 4) (s := 2) _ (by norm_num) (by norm_num)]
    · intro h
      have h := Except.ok.inj h
      revert h
      norm_num [openEnergy, S, J, B, H0, demo, demoVars, drive, dot, had, add, zero,
        sum_range_succ]
    · constructor <;> simp [demo, demoVars]

example : WF demo 4 2 ∧ 2 ≤ 2 ∧ 2 ≤ 4 := ⟨demo_wf, by norm_num, by norm_num⟩

/-! ### C20: `mc_system_energy` closes the subsystem into a ring -/

theorem C20_mc_system_energy (c : SpinChain ℝ) (L s : ℕ) (w : WF c L s) (hs : 1 ≤ s)
    (hsL : s ≤ L) :
    c.mc_system_energy = .ok (ringEnergy s (S c) (J c) (H0 c) / s) :=
  mc_system_energy_eq w hs hsL

theorem C20_full_subsystem (c : SpinChain ℝ) (L : ℕ) (w : WF c L L) :
    c.mc_system_energy = c.mc_total_energy := by
  unfold SpinChain.mc_system_energy SpinChain.mc_total_energy
  rw [hsize_nat w, ssize_nat w]

/-- subsystem larger than the chain, or empty: panic -/
theorem C20_bad_size_panics (c : SpinChain ℝ) (L s : ℕ) (w : WF c L s) (h : s = 0 ∨ L < s) :
    ∃ p, c.mc_system_energy = .error p :=
  mc_system_energy_panics w h

example : WF ({ demo with vars := { demoVars with ssize := 4 } } : SpinChain ℝ) 4 4 := by
  constructor <;> simp [demo, demoVars]

/-! ### C21: magnetisation -/

theorem C21_magnetisation (c : SpinChain ℝ) (L s : ℕ) (w : WF c L s) (hsL : s ≤ L) :
    c.m = .ok ⟨∑ i ∈ range s, (S c i).x, ∑ i ∈ range s, (S c i).y, ∑ i ∈ range s, (S c i).z⟩ ∧
    c.m_tot = .ok ⟨∑ i ∈ range L, (S c i).x, ∑ i ∈ range L, (S c i).y, ∑ i ∈ range L, (S c i).z⟩ :=
  ⟨m_eq w hsL, m_tot_eq w⟩

theorem C21_magnetisation_bound (c : SpinChain ℝ) (L s : ℕ) (w : WF c L s) (hsL : s ≤ L)
    (hu : ∀ x ∈ c.spins, IsUnit3 x) :
    (∀ v, c.m = .ok v → len v ≤ s) ∧ (∀ v, c.m_tot = .ok v → len v ≤ L) :=
  ⟨fun v hv => magSum_len w hsL hu (by rw [← hv]; unfold SpinChain.m; rw [ssize_nat w]),
   fun v hv => magSum_len w le_rfl hu (by rw [← hv]; unfold SpinChain.m_tot; rw [hsize_nat w])⟩

theorem C21_oversized_panics (c : SpinChain ℝ) (L s : ℕ) (w : WF c L s) (hsL : L < s) :
    c.m = .error .indexOOB := by
  unfold SpinChain.m SpinChain.magSum
  rw [ssize_nat w, w.spins, if_neg (by omega)]

example : WF demo 4 2 ∧ 2 ≤ 4 ∧ ∀ x ∈ demo.spins, IsUnit3 x :=
  ⟨demo_wf, by norm_num, demo_unit⟩

end Verif.Props
