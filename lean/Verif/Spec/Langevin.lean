/-
Specification of the Langevin dynamics: an open chain whose two edge spins feel Landau–Lifshitz
damping and a noise field (src/spinchain_langevin.rs:1-4 and README.md).
-/
import Verif.Spec.Dynamics
import Verif.Model.Langevin

namespace Verif.Spec

open Finset

/-- Local field at site `i` of an *open* chain of `m` sites. -/
def openOmega (m : ℕ) (S J B : ℕ → V3 ℝ) (i : ℕ) : V3 ℝ :=
  sub (add (if 0 < i then had (J (i - 1)) (S (i - 1)) else zero)
    (if i + 1 < m then had (J i) (S (i + 1)) else zero)) (B i)

/-- Field felt by site `i`: the local field `Ω`, and on the edges also the damping `-γ S × Ω` and the
noise field `-η`. -/
def langField (m : ℕ) (γ : ℝ) (J B η : ℕ → V3 ℝ) (S : ℕ → V3 ℝ) (i : ℕ) : V3 ℝ :=
  if i = 0 ∨ i + 1 = m then
    sub (openOmega m S J B i) (add (smul γ (cross (S i) (openOmega m S J B i))) (η i))
  else openOmega m S J B i

/-- All sites `i < m` of parity `par` precess for time `dt` about the field `om`. -/
noncomputable def subStepG (om : (ℕ → V3 ℝ) → ℕ → V3 ℝ) (m par : ℕ) (dt : ℝ) (S : ℕ → V3 ℝ)
    (i : ℕ) : V3 ℝ :=
  if i < m ∧ i % 2 = par then precess (S i) (om S i) dt else S i

/-- Even sites for `dt/2`, odd sites for `dt`, even sites for `dt/2`. -/
noncomputable def stepG (om : (ℕ → V3 ℝ) → ℕ → V3 ℝ) (m : ℕ) (dt : ℝ) (S : ℕ → V3 ℝ) :
    ℕ → V3 ℝ :=
  subStepG om m 0 (dt / 2) (subStepG om m 1 dt (subStepG om m 0 (dt / 2) S))

/-- No field vanishes at the moment when it is used. -/
def RegularG (om : (ℕ → V3 ℝ) → ℕ → V3 ℝ) (m : ℕ) (dt : ℝ) (S : ℕ → V3 ℝ) : Prop :=
  (∀ i < m, i % 2 = 0 → om S i ≠ zero) ∧
  (∀ i < m, i % 2 = 1 → om (subStepG om m 0 (dt / 2) S) i ≠ zero) ∧
  (∀ i < m, i % 2 = 0 → om (subStepG om m 1 dt (subStepG om m 0 (dt / 2) S)) i ≠ zero)

/-- Noise field: standard normal numbers `z`, scaled so that the kick over one time-step has
variance `2 γ dt / β`. -/
noncomputable def noiseField (m : ℕ) (γ β dt : ℝ) (z : Noise ℝ) (i : ℕ) : V3 ℝ :=
  smul (Real.sqrt (2 * γ * dt / β) / dt) (if i = 0 then z.l else if i + 1 = m then z.r else zero)

/-- The field used in the next Langevin update of chain `c` (which moves the largest even number of
sites up to `L`). -/
noncomputable def langOm (c : LangevinChain ℝ) (L s : ℕ) (z : Noise ℝ) :
    (ℕ → V3 ℝ) → ℕ → V3 ℝ :=
  langField (2 * (L / 2)) c.gamma (J c.toSpinChain)
    (B c.toSpinChain s (c.t + c.vars.dt))
    (noiseField (2 * (L / 2)) c.gamma c.vars.beta c.vars.dt z)

/-- The next Langevin update meets no vanishing field. -/
def RegularStepL (c : LangevinChain ℝ) (L s : ℕ) (z : Noise ℝ) : Prop :=
  RegularG (langOm c L s z) (2 * (L / 2)) c.vars.dt (S c.toSpinChain)

/-- None of the next updates meets a vanishing field. -/
def RegularRunL (L s : ℕ) : List (Noise ℝ) → LangevinChain ℝ → Prop
  | [], _ => True
  | z :: zs, c => RegularStepL c L s z ∧ ∀ c', c.update z = .ok c' → RegularRunL L s zs c'

/-- The parameters for which the noise is defined: non-zero time-step and temperature, and a
non-negative variance.  (Otherwise the program panics or divides by zero.) -/
structure NoiseOK (c : LangevinChain ℝ) : Prop where
  dt : c.vars.dt ≠ 0
  beta : c.vars.beta ≠ 0
  var : 0 ≤ 2 * c.gamma * c.vars.dt / c.vars.beta

/-- strength in the `z` direction of the couplings of site `i` to its neighbours -/
noncomputable def zBond (m : ℕ) (J : ℕ → V3 ℝ) (i : ℕ) : ℝ :=
  (if 0 < i then |(J (i - 1)).z| else 0) + (if i + 1 < m then |(J i).z| else 0)

/-- no noise -/
def quiet : Noise ℝ := ⟨zero, zero⟩

end Verif.Spec
