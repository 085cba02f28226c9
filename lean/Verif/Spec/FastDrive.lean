/-
Specification for C120: a chain under a fast oscillating drive, and the energy of the first-order Magnus
(high-frequency) expansion.
-/
import Verif.Spec.Metropolis
import Mathlib.MeasureTheory.Integral.IntervalIntegral.Basic

namespace Verif.Spec

open Finset

/-- `c` differs from `c0` at most in its spins, its clock, its time-step, its log file and the period of its drive -/
structure SameUpToPeriod (c0 c : SpinChain ℝ) : Prop where
  j : c.j_couple = c0.j_couple
  h : c.static_h = c0.static_h
  v : c.vars = { c0.vars with
                 dt := c.vars.dt
                 tau := c.vars.tau }

/-- the drive oscillates with the period `tau` -/
def Oscillating (v : Config ℝ) : Prop := v.drive = .xyplane ∨ v.drive = .uniaxial ∨ v.drive = .xyelliptic

/-- ratio of the amplitudes of the driving field along y and along x: `h(t) = (cos ωt, e sin ωt, 0)` -/
def ell (v : Config ℝ) : ℝ :=
  match v.drive with
  | .xyplane => 1
  | .xyelliptic => v.e
  | _ => 0

/-- rate at which the magnetisation of the first `s` sites changes without the drive: `Σ_{i<s} S_i × Ω_i`, the local
fields `Ω_i` with the static fields `B` only -/
def drivenTorque (L s : ℕ) (S J B : ℕ → V3 ℝ) : V3 ℝ :=
  ⟨∑ i ∈ range s, (cross (S i) (omega L S J B i)).x, ∑ i ∈ range s, (cross (S i) (omega L S J B i)).y,
    ∑ i ∈ range s, (cross (S i) (omega L S J B i)).z⟩

/-- Effective energy, to first order in the period, of a ring whose first `s` sites are driven by the field
`(cos ωt, e sin ωt, 0)`: the energy `ringEnergy L S J B` in the static fields, minus the part of it that the drive lends
during a period, minus `e/(2ω)` times the driven magnetisation along z. -/
noncomputable def effectiveE (L s : ℕ) (om e t : ℝ) (S J B : ℕ → V3 ℝ) : ℝ :=
  ringEnergy L S J B
    + (Real.sin (om * t) * (drivenTorque L s S J B).x - e * Real.cos (om * t) * (drivenTorque L s S J B).y) / om
    - e / (2 * om) * ∑ i ∈ range s, (S i).z

/-- mean of a quantity over the period `[t, t + tau]` -/
noncomputable def periodMean (tau : ℝ) (f : ℝ → ℝ) (t : ℝ) : ℝ := (∫ u in t..(t + tau), f u) / tau

end Verif.Spec
