/-
Elementary vector geometry used to *state* the properties: inner product, length, cross product.
These definitions do not refer to the model's helpers (except for the record `V3`).
-/
import Verif.Model.Spin
import Mathlib.Analysis.SpecialFunctions.Sqrt

namespace Verif.Spec

/-- inner product -/
def dot (a b : V3 ℝ) : ℝ := a.x * b.x + a.y * b.y + a.z * b.z

/-- Euclidean length -/
noncomputable def len (a : V3 ℝ) : ℝ := Real.sqrt (dot a a)

/-- cross product -/
def cross (a b : V3 ℝ) : V3 ℝ :=
  ⟨a.y * b.z - a.z * b.y, a.z * b.x - a.x * b.z, a.x * b.y - a.y * b.x⟩

def add (a b : V3 ℝ) : V3 ℝ := ⟨a.x + b.x, a.y + b.y, a.z + b.z⟩
def sub (a b : V3 ℝ) : V3 ℝ := ⟨a.x - b.x, a.y - b.y, a.z - b.z⟩
def smul (r : ℝ) (a : V3 ℝ) : V3 ℝ := ⟨r * a.x, r * a.y, r * a.z⟩
def neg (a : V3 ℝ) : V3 ℝ := ⟨-a.x, -a.y, -a.z⟩
def zero : V3 ℝ := ⟨0, 0, 0⟩
/-- component-wise product (diagonal coupling matrix applied to a vector) -/
def had (a b : V3 ℝ) : V3 ℝ := ⟨a.x * b.x, a.y * b.y, a.z * b.z⟩

/-- the spin is a unit vector -/
def IsUnit3 (s : Spin ℝ) : Prop := len s.dir = 1

/-- the curve `c` has derivative `v` at `t`, component-wise -/
def HasDeriv3 (c : ℝ → V3 ℝ) (v : V3 ℝ) (t : ℝ) : Prop :=
  HasDerivAt (fun s => (c s).x) v.x t ∧ HasDerivAt (fun s => (c s).y) v.y t ∧
    HasDerivAt (fun s => (c s).z) v.z t

end Verif.Spec
