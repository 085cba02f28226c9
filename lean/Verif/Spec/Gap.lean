/-
Specification for C126: means after a number of updates, and the rate at which the sampler forgets.
-/
import Verif.Spec.Cluster
import Verif.Spec.Search

namespace Verif.Spec

open MeasureTheory

/-- Mean of the real quantity `f` after `n` updates started in `c` (positive part minus negative part, see `expect`). -/
noncomputable def expectReal (upd : SpinChain ℝ → Draw ℝ → R (SpinChain ℝ)) (L : ℕ) (f : SpinChain ℝ → ℝ) (n : ℕ) (c : SpinChain ℝ) : ℝ :=
  (expect upd L (fun x => ENNReal.ofReal (f x)) n c).toReal - (expect upd L (fun x => ENNReal.ofReal (-f x)) n c).toReal

/-- What one update forgets, at inverse temperature `b`, for couplings and fields that add up to at most `K` at each of `L` sites. -/
noncomputable def mixRate (b K : ℝ) (L : ℕ) : ℝ := Real.exp (-(26 * (|b| * K))) / (768 * L)

/-- Mean of `g` over the chains made by `SpinChain::new` from independent uniform draws, for given normal draws `zj`, `zh` of the
couplings and fields.  Panicking calls contribute nothing. -/
noncomputable def newMean (conf : Config ℝ) (num : ℕ) (zj zh : ℕ → ℝ) (L : ℕ) (g : SpinChain ℝ → ℝ) : ℝ :=
  ∫ w : Fin L → ℝ × ℝ × ℝ, (match SpinChain.new conf num (drawsOf w) zj zh with
    | .ok c => g c
    | .error _ => 0) ∂(Measure.pi fun _ => tripleMeasure)

end Verif.Spec
