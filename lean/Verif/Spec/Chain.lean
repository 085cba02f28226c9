/-
Specification of the spin-chain physics, independent of the model's loops: Hamiltonian, local
fields, drive.  (README.md and the comments at src/spinchain.rs:1298, 1750 give
`E = - S_n J_n S_{n+1} + B_n S_n` and `Ω_n = J_{n-1} S_{n-1} + J_n S_{n+1} - B_n`.)
-/
import Verif.Model.SpinChain
import Verif.Spec.Vec
import Mathlib.Algebra.BigOperators.Group.Finset.Basic
import Mathlib.Analysis.SpecialFunctions.Trigonometric.Basic

namespace Verif.Spec

open Finset

/-- Sizes fit together: `L` sites, subsystem of `s` sites, all vectors of length `L`, `hs` has
(at least) three components, sizes in the range of `i32`. -/
structure WF {F : Type} (c : SpinChain F) (L s : ℕ) : Prop where
  hsize : c.vars.hsize = L
  ssize : c.vars.ssize = s
  L_lt : L < 2 ^ 31
  s_lt : s < 2 ^ 31
  spins : c.spins.length = L
  j : c.j_couple.length = L
  h : c.static_h.length = L
  hs : 3 ≤ c.vars.hs.length

/-- direction of the spin at site `i` (only used for `i` in range) -/
def S (c : SpinChain ℝ) (i : ℕ) : V3 ℝ := ((c.spins[i]?).map Spin.dir).getD zero
/-- coupling between sites `i` and `i+1` (only used for `i` in range) -/
def J (c : SpinChain ℝ) (i : ℕ) : V3 ℝ := (c.j_couple[i]?).getD zero
/-- static field at site `i` (only used for `i` in range) -/
def H0 (c : SpinChain ℝ) (i : ℕ) : V3 ℝ := (c.static_h[i]?).getD zero

/-- The driving field at time `t`. -/
noncomputable def drive (v : Config ℝ) (t : ℝ) : V3 ℝ :=
  match v.drive with
  | .xyplane => ⟨Real.cos (2 * Real.pi * t / v.tau), Real.sin (2 * Real.pi * t / v.tau), 0⟩
  | .uniaxial => ⟨Real.cos (2 * Real.pi * t / v.tau), 0, 0⟩
  | .xyelliptic =>
      ⟨Real.cos (2 * Real.pi * t / v.tau), v.e * Real.sin (2 * Real.pi * t / v.tau), 0⟩
  | .staticfield => ⟨v.hs.getD 0 0, v.hs.getD 1 0, v.hs.getD 2 0⟩
  | .none => zero

/-- Total field at site `i` and time `t`: static field, plus the drive on the first `s` sites. -/
noncomputable def B (c : SpinChain ℝ) (s : ℕ) (t : ℝ) (i : ℕ) : V3 ℝ :=
  if i < s then add (H0 c i) (drive c.vars t) else H0 c i

/-- The Hamiltonian of a ring of `L` spins with couplings `J` (between `i` and `i+1 mod L`) in the
fields `B`. -/
def ringEnergy (L : ℕ) (S J B : ℕ → V3 ℝ) : ℝ :=
  ∑ i ∈ range L, (-dot (S i) (had (J i) (S ((i + 1) % L))) + dot (B i) (S i))

/-- The Hamiltonian of an open chain of `L` spins. -/
def openEnergy (L : ℕ) (S J B : ℕ → V3 ℝ) : ℝ :=
  (∑ i ∈ range (L - 1), -dot (S i) (had (J i) (S (i + 1)))) + ∑ i ∈ range L, dot (B i) (S i)

/-- Left neighbour on the ring. -/
def left (L i : ℕ) : ℕ := (i + L - 1) % L
/-- Right neighbour on the ring. -/
def right (L i : ℕ) : ℕ := (i + 1) % L

/-- Local field `Ω_i = J_{i-1} S_{i-1} + J_i S_{i+1} - B_i` on the ring. -/
def omega (L : ℕ) (S J B : ℕ → V3 ℝ) (i : ℕ) : V3 ℝ :=
  sub (add (had (J (left L i)) (S (left L i))) (had (J i) (S (right L i)))) (B i)

end Verif.Spec
