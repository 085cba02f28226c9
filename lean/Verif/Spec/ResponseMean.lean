/-
Specification for C138: the log files of several response runs and the exact means that the table made by `average` estimates
(/repo/src/obs.rs `run_sim_response`, `average`).
-/
import Verif.Spec.RunMean
import Verif.Spec.Response

namespace Verif.Spec

/-- Value of `f` after `n` passes of a response run, whose clock is set back to `-t` before the first pass (zero if a pass
panics). -/
noncomputable def responded (n : ℕ) (f : SpinChain ℝ → ℝ) (c : SpinChain ℝ) : ℝ :=
  match passes n { c with t := -c.vars.t } with
  | .ok c' => f c'
  | .error _ => 0

/-- `files` are the log files of `m` runs of `run_sim_response`, each of `N` passes; run `r` has the number `num r` and draws
`w r`, and `zj r`, `zh r` are the normal draws of its couplings and fields. -/
def ResponseLogsOf (conf : Config ℝ) (N : ℕ) (num : ℕ → ℕ) (zj zh : ℕ → ℕ → ℝ) {L per m : ℕ} (w : Fin m → WarmRaw L per)
    (files : List (List (Line ℝ))) : Prop :=
  files.length = m ∧ ∀ (r : Fin m) (h : (r : ℕ) < files.length), ∃ c st,
    SpinChain.new conf (num r) (drawsOf (w r).1) (zj r) (zh r) = .ok c ∧
    responseJob c (warmDraws (w r).2) N = .ok (some st) ∧ files[r] = st.rows.map fun row => row.map some

end Verif.Spec
