/-
A concrete chain used in the `example`s that show the hypotheses of the theorems to be met.
-/
import Verif.Spec.Chain
import Verif.Instances.Real
import Verif.Lemmas.Vec

namespace Verif.Props

open Spec

/-- configuration: four spins, the first two driven -/
noncomputable def demoVars : Config ℝ :=
  { (Config.default : Config ℝ) with
    hsize := 4, ssize := 2, dt := 1 / 50, tau := 10, trel := 0,
    beta := 2, hs := [1 / 10, 0, 1 / 5], hfield := [0, 0, 3 / 2], lambda := 1 / 2, runs := 6 }

/-- four unit spins off the axes, anisotropic couplings that differ from bond to bond, non-zero
static fields -/
noncomputable def demo : SpinChain ℝ where
  j_couple := [⟨1, 1, 1 / 2⟩, ⟨9 / 10, 1, 1 / 2⟩, ⟨1, 11 / 10, 1 / 2⟩, ⟨1, 1, 3 / 5⟩]
  static_h := [⟨1 / 10, 0, 6 / 5⟩, ⟨1 / 10, 0, 6 / 5⟩, ⟨0, 0, 3 / 2⟩, ⟨0, 0, 3 / 2⟩]
  spins := [⟨⟨3 / 13, -4 / 13, 12 / 13⟩⟩, ⟨⟨2 / 3, 2 / 3, -1 / 3⟩⟩, ⟨⟨0, 3 / 5, 4 / 5⟩⟩,
    ⟨⟨1, 0, 0⟩⟩]
  t := 0
  vars := demoVars
  file := some "log0.dat"

theorem demo_wf : WF demo 4 2 := by
  constructor <;> simp [demo, demoVars]

theorem demo_unit : ∀ s ∈ demo.spins, IsUnit3 s := by
  intro s hs
  simp only [demo, List.mem_cons, List.not_mem_nil, or_false] at hs
  rw [unit_iff]
  rcases hs with rfl | rfl | rfl | rfl <;> norm_num [dot]

end Verif.Props
