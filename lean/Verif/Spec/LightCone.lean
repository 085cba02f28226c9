/-
Sites counted along the ring by integers, for the comparison of chains of different lengths.
-/
import Verif.Spec.Dynamics

namespace Verif.Spec

/-- `f` at the site reached from site 0 by going `k` sites to the right (to the left for negative `k`) around the ring of
the sites that move, the largest even number up to `L`. -/
def around (L : ℕ) (f : ℕ → V3 ℝ) (k : ℤ) : V3 ℝ := f (k % (2 * (L / 2) : ℕ)).toNat

end Verif.Spec
