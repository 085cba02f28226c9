/-
Specification for C136: what the workers of `trajectory_mean_e` send.
-/
import Verif.Spec.RunMean
import Verif.Spec.HistMean

namespace Verif.Spec

open MeasureTheory

/-- `sent` are the energies that the `m` workers of `trajectory_mean_e` send, worker by worker; worker `r` has the draws `w r`, and `zj r`,
`zh r` are the normal draws of its couplings and fields. -/
def SamplesOf (conf : Config ℝ) (zj zh : ℕ → ℕ → ℝ) {L per m : ℕ} (w : Fin m → WarmRaw L per) (sent : List (List ℝ)) : Prop :=
  sent.length = m ∧ ∀ (r : Fin m) (h : (r : ℕ) < sent.length), ∃ c last,
    SpinChain.new conf 0 (drawsOf (w r).1) (zj r) (zh r) = .ok c ∧ trajJob conf c (warmDraws (w r).2) = .ok (last, sent[r])

end Verif.Spec
