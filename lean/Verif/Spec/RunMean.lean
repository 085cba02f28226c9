/-
Specification for C134: the random numbers of several runs of the dynamics, the log files they leave and the exact means that
the table made by `average` estimates.
-/
import Verif.Spec.GapMean
import Verif.Model.Runs
import Verif.Model.Writers
import Mathlib.MeasureTheory.Constructions.Pi

namespace Verif.Spec

open MeasureTheory

/-- The uniform numbers of one run: those of `SpinChain::new` and those of the Metropolis updates before the run. -/
abbrev WarmRaw (L per : ℕ) : Type := (Fin L → ℝ × ℝ × ℝ) × (Fin per → Raw L)

/-- all of them independent -/
noncomputable def warmLaw (L per : ℕ) : Measure (WarmRaw L per) :=
  (Measure.pi fun _ => tripleMeasure).prod (Measure.pi fun _ => rawLaw L)

/-- the draws handed to the Metropolis updates -/
def warmDraws {L per : ℕ} (b : Fin per → Raw L) (k : ℕ) : Draw ℝ :=
  if h : k < per then ⟨(b ⟨k, h⟩).1, (b ⟨k, h⟩).2.1, (b ⟨k, h⟩).2.2.1, (b ⟨k, h⟩).2.2.2⟩ else ⟨0, 0, 0, 0⟩

/-- `m` independent runs -/
noncomputable def runsLaw (L per m : ℕ) : Measure (Fin m → WarmRaw L per) := Measure.pi fun _ => warmLaw L per

/-- Column `k` of the row that `log` writes. -/
noncomputable def logged (k : ℕ) (c : SpinChain ℝ) : ℝ :=
  match c.log with
  | .ok (some row) => row.getD k 0
  | _ => 0

/-- `files` are the log files of `m` runs of `run_sim`, each of `N` passes; run `r` has the number `num r` and draws `w r`, and
`zj r`, `zh r` are the normal draws of its couplings and fields. -/
def LogsOf (conf : Config ℝ) (N : ℕ) (num : ℕ → ℕ) (zj zh : ℕ → ℕ → ℝ) {L per m : ℕ} (w : Fin m → WarmRaw L per)
    (files : List (List (Line ℝ))) : Prop :=
  files.length = m ∧ ∀ (r : Fin m) (h : (r : ℕ) < files.length), ∃ c st,
    SpinChain.new conf (num r) (drawsOf (w r).1) (zj r) (zh r) = .ok c ∧
    simJob c (warmDraws (w r).2) N = .ok (some st) ∧ files[r] = st.rows.map fun row => row.map some

/-- A number no smaller than column `k` of a log, for couplings and static fields that add up to at most `K` at each site and
drives of at most the size `D`. -/
noncomputable def logSize (K D : ℝ) (k : ℕ) : ℝ := if k ≤ 2 then K + D else 1

/-- What `per` Metropolis updates leave of the difference between the start of a new chain and the thermal state. -/
noncomputable def warmBias (b K : ℝ) (L per : ℕ) : ℝ := Real.exp ((b / 2 + b * K) * L) * (1 - mixRate b K L) ^ per

end Verif.Spec
