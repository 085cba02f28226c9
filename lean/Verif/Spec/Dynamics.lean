/-
Specification of the time evolution: precession about the local field, applied to the even and odd
sublattices in turn (second-order Suzuki–Trotter splitting, README.md and
src/spinchain.rs:1764-1768).
-/
import Verif.Spec.Chain
import Verif.Instances.Real

namespace Verif.Spec

/-- Rotation of `v` about the axis `Ω` by the angle `-|Ω| t`: the solution at time `t` of
`dv/dt = v × Ω`.  (For `Ω = 0` nothing moves.) -/
noncomputable def precess (v Ω : V3 ℝ) (t : ℝ) : V3 ℝ :=
  let n := smul (1 / len Ω) Ω
  let θ := len Ω * t
  sub (add (smul (Real.cos θ) v) (smul ((1 - Real.cos θ) * dot n v) n))
    (smul (Real.sin θ) (cross n v))

/-- All sites `i < m` of parity `par` precess for time `dt` about their local fields. -/
noncomputable def subStep (m par : ℕ) (J B : ℕ → V3 ℝ) (dt : ℝ) (S : ℕ → V3 ℝ) (i : ℕ) : V3 ℝ :=
  if i < m ∧ i % 2 = par then precess (S i) (omega m S J B i) dt else S i

/-- One time-step on a ring of `m` sites: even sites for `dt/2`, odd sites for `dt`, even sites for
`dt/2`. -/
noncomputable def step (m : ℕ) (J B : ℕ → V3 ℝ) (dt : ℝ) (S : ℕ → V3 ℝ) : ℕ → V3 ℝ :=
  subStep m 0 J B (dt / 2) (subStep m 1 J B dt (subStep m 0 J B (dt / 2) S))

/-- No local field vanishes at the moment when it is used in a time-step. -/
def Regular (m : ℕ) (J B : ℕ → V3 ℝ) (dt : ℝ) (S : ℕ → V3 ℝ) : Prop :=
  (∀ i < m, i % 2 = 0 → omega m S J B i ≠ zero) ∧
  (∀ i < m, i % 2 = 1 → omega m (subStep m 0 J B (dt / 2) S) J B i ≠ zero) ∧
  (∀ i < m, i % 2 = 0 →
    omega m (subStep m 1 J B dt (subStep m 0 J B (dt / 2) S)) J B i ≠ zero)

/-- The next `update` of chain `c` meets no vanishing local field.  The number of sites that move
is the largest even number up to `L`. -/
def RegularStep (c : SpinChain ℝ) (L s : ℕ) : Prop :=
  Regular (2 * (L / 2)) (J c) (B c s (c.t + c.vars.dt / 2)) c.vars.dt (S c)

/-- The next `n` `update`s of chain `c` meet no vanishing local field. -/
def RegularRun (c : SpinChain ℝ) (L s n : ℕ) : Prop :=
  ∀ k < n, ∀ c', c.updates k = .ok c' → RegularStep c' L s

/-- The chain with the sign of the time-step reversed. -/
def flipDt (c : SpinChain ℝ) : SpinChain ℝ := { c with vars := { c.vars with dt := -c.vars.dt } }

end Verif.Spec
