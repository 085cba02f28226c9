/-
Specification of long runs: returns to the starting spins and averages over time.
-/
import Verif.Spec.Markov
import Verif.Spec.Chain

namespace Verif.Spec

open Finset

/-- Started from the spins `v`, the chain comes back arbitrarily close to them, arbitrarily late, after a
multiple of `p` updates. -/
def Recurrent (c : SpinChain ℝ) (L p : ℕ) (v : Fin L → V3 ℝ) : Prop :=
  ∀ ε : ℝ, 0 < ε → ∀ N : ℕ, ∃ n ≥ N, ∃ c', (withSpins c v).updates (n * p) = .ok c' ∧
    ∀ i : Fin L, len (sub (S c' i) (v i)) < ε

/-- The chain with the parameters of `c`, the spins `v` and the clock at `t`. -/
def chainAt (c : SpinChain ℝ) {L : ℕ} (v : Fin L → V3 ℝ) (t : ℝ) : SpinChain ℝ := { withSpins c v with t := t }

/-- Value of `f` after `k` updates of the chain started from the spins `v` (zero if that panics). -/
noncomputable def later (c : SpinChain ℝ) {L : ℕ} (f : SpinChain ℝ → ℝ) (v : Fin L → V3 ℝ) (k : ℕ) : ℝ :=
  match (withSpins c v).updates k with
  | .ok c' => f c'
  | .error _ => 0

/-- Mean of `f` over the first `n` of the times `j, j + p, j + 2 p, …` (counted in updates). -/
noncomputable def timeMean (c : SpinChain ℝ) {L : ℕ} (f : SpinChain ℝ → ℝ) (p j n : ℕ) (v : Fin L → V3 ℝ) : ℝ :=
  (∑ k ∈ range n, later c f v (k * p + j)) / n

end Verif.Spec
