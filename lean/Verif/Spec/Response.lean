/-
Specification for C123: what a response run measures (/repo/src/obs.rs `run_sim_response`).
-/
import Verif.Spec.Sampling
import Verif.Model.Runs

namespace Verif.Spec

/-- The chain after `n` passes through the loop of a response run: in all fields as long as its time is negative, without
the static fields from then on. -/
noncomputable def passes : ℕ → SpinChain ℝ → R (SpinChain ℝ)
  | 0, c => .ok c
  | n + 1, c => do
    let c' ← responseUpdate c
    passes n c'

/-- Value of the observable `f` of the spins after `n` passes (zero if a pass panics). -/
noncomputable def afterPasses (L n : ℕ) (f : (Fin L → V3 ℝ) → ℝ) (c : SpinChain ℝ) : ℝ :=
  match passes n c with
  | .ok c' => f fun i => S c' i
  | .error _ => 0

/-- The chain in static fields of `a` times the strength. -/
noncomputable def inField (c : SpinChain ℝ) (a : ℝ) : SpinChain ℝ := { c with static_h := c.static_h.map (smul a) }

/-- Energy of the spins in the static fields of `c`. -/
noncomputable def coupled (c : SpinChain ℝ) (L : ℕ) (v : Fin L → V3 ℝ) : ℝ := ∑ i : Fin L, dot (H0 c i) (v i)

end Verif.Spec
