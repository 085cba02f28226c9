/-
Property C90: the distribution of the spins of a freshly generated chain.
-/
import Verif.Lemmas.InitLaw
import Verif.Props.Init

namespace Verif.Props

open Spec MeasureTheory
open scoped ENNReal

/-- the spins of the chain made by `SpinChain::new` from the draws `w`, as seen by `f` -/
noncomputable def ofNew {α : Type} [Zero α] (conf : Config ℝ) (num : ℕ) (zj zh : ℕ → ℝ) (L : ℕ)
    (f : (Fin L → V3 ℝ) → α) (w : Fin L → ℝ × ℝ × ℝ) : α :=
  match SpinChain.new conf num (drawsOf w) zj zh with
  | .ok c => f fun i => S c i
  | .error _ => 0

theorem ofNew_ae {α : Type} [Zero α] (conf : Config ℝ) (num : ℕ) (zj zh : ℕ → ℝ) (L : ℕ) (hL : conf.hsize = L)
    (hlt : L < 2 ^ 31) (hf : 3 ≤ conf.hfield.length) (hh : 3 ≤ conf.hs.length) (hb : conf.beta ≠ 0)
    (f : (Fin L → V3 ℝ) → α) : ∀ᵐ w ∂(Measure.pi fun _ : Fin L => tripleMeasure),
      ofNew conf num zj zh L f w = f (path conf.beta L startDir w) := by
  filter_upwards [nonDegenerate_ae hb L, unitDraws_ae L] with w hn hu
  obtain ⟨c, hc, hs⟩ := C11_new_unit conf num (drawsOf w) zj zh L hL hlt hf hh hb hu hn
  unfold ofNew
  rw [hc]
  dsimp only
  congr 1
  funext i
  rw [(hs i i.2).1, (walk_path conf.beta w i i.2).2]

/-- C90: over the independent uniform draws, the spins of a new chain have the Boltzmann distribution, at the
configured inverse temperature, of an open chain of unit couplings whose first spin is attached to the fixed
starting direction (azimuth 0.01 in the x-y plane).  Disorder, anisotropy and fields do not enter. -/
theorem C90_law (conf : Config ℝ) (num : ℕ) (zj zh : ℕ → ℝ) (L : ℕ) (hL : conf.hsize = L) (hlt : L < 2 ^ 31)
    (hf : 3 ≤ conf.hfield.length) (hh : 3 ≤ conf.hs.length) (hb : conf.beta ≠ 0)
    {f : (Fin L → V3 ℝ) → ℝ≥0∞} (hm : Measurable f) :
    ∫⁻ w, ofNew conf num zj zh L f w ∂(Measure.pi fun _ : Fin L => tripleMeasure)
      = hungSum conf.beta L f / hungSum conf.beta L fun _ => 1 := by
  have key : ∀ {g : (Fin L → V3 ℝ) → ℝ≥0∞}, Measurable g →
      ∫⁻ w, g (path conf.beta L startDir w) ∂(Measure.pi fun _ : Fin L => tripleMeasure)
      = ENNReal.ofReal ((conf.beta / Real.sinh conf.beta) ^ L) * hungSum conf.beta L g := by
    intro g hg
    rw [path_law hb L startDir_unit hg, hungSum, ← lintegral_const_mul' _ _ ENNReal.ofReal_ne_top]
    refine lintegral_congr fun v => ?_
    rw [pathWeight_eq hb, ENNReal.ofReal_mul' (Real.exp_pos _).le, mul_assoc]
  have hone := key (g := fun _ => 1) measurable_const
  rw [lintegral_const, measure_univ, mul_one] at hone
  rw [lintegral_congr_ae (ofNew_ae conf num zj zh L hL hlt hf hh hb f), key hm]
  have h0 : hungSum conf.beta L (fun _ => 1) ≠ 0 := by
    intro h
    rw [h, mul_zero] at hone
    exact one_ne_zero hone
  have ht : hungSum conf.beta L (fun _ => 1) ≠ ⊤ := by
    intro h
    rw [h] at hone
    by_cases hz : ENNReal.ofReal ((conf.beta / Real.sinh conf.beta) ^ L) = 0
    · rw [hz, zero_mul] at hone
      exact one_ne_zero hone
    · rw [ENNReal.mul_top hz] at hone
      exact ENNReal.one_ne_top hone
  rw [ENNReal.eq_div_iff h0 ht, ← mul_assoc, mul_comm (hungSum conf.beta L fun _ => 1), ← hone, one_mul]

/-- The partition function of that chain. -/
theorem C90_partition (b : ℝ) (L : ℕ) (hb : b ≠ 0) :
    hungSum b L (fun _ => 1) = ENNReal.ofReal ((Real.sinh b / b) ^ L) := by
  have hpos : 0 < b / Real.sinh b := by
    rcases lt_or_gt_of_ne hb with h | h
    · exact div_pos_of_neg_of_neg h (Real.sinh_neg_iff.2 h)
    · exact div_pos h (Real.sinh_pos_iff.2 h)
  have h := path_law hb L startDir_unit (f := fun _ => 1) measurable_const
  rw [lintegral_const, measure_univ, mul_one] at h
  have e : hungSum b L (fun _ => 1) = ENNReal.ofReal ((Real.sinh b / b) ^ L) *
      ∫⁻ v, pathWeight b L startDir v * 1 ∂(Measure.pi fun _ : Fin L => sphereMeasure) := by
    rw [← lintegral_const_mul' _ _ ENNReal.ofReal_ne_top, hungSum]
    refine lintegral_congr fun v => ?_
    rw [pathWeight_eq hb, mul_one, mul_one, ← ENNReal.ofReal_mul]
    · congr 1
      rw [← mul_assoc, ← mul_pow]
      have : Real.sinh b / b * (b / Real.sinh b) = 1 := by
        have h1 : Real.sinh b ≠ 0 := fun h => by rw [h, div_zero] at hpos; exact lt_irrefl _ hpos
        field_simp
      rw [this, one_pow, one_mul]
    · rw [← inv_div]
      positivity
  rw [e, ← h, mul_one]

/-- The mean of the spin at site `i` is `(coth β - 1/β)^(i+1)` times the starting direction: the new chain is
not drawn from an isotropic distribution, it remembers the starting direction over a correlation length. -/
theorem C90_mean_spin (conf : Config ℝ) (num : ℕ) (zj zh : ℕ → ℝ) (L : ℕ) (hL : conf.hsize = L) (hlt : L < 2 ^ 31)
    (hf : 3 ≤ conf.hfield.length) (hh : 3 ≤ conf.hs.length) (hb : conf.beta ≠ 0) (a : V3 ℝ) (i : Fin L) :
    ∫ w, ofNew conf num zj zh L (fun v => dot a (v i)) w ∂(Measure.pi fun _ : Fin L => tripleMeasure)
      = (Real.cosh conf.beta / Real.sinh conf.beta - 1 / conf.beta) ^ ((i : ℕ) + 1) *
        dot a ⟨Real.cos (1 / 100), Real.sin (1 / 100), 0⟩ := by
  rw [integral_congr_ae (ofNew_ae conf num zj zh L hL hlt hf hh hb _), path_mean hb L startDir_unit]
  rfl

/-- Correlations decay geometrically with the distance. -/
theorem C90_correlation (conf : Config ℝ) (num : ℕ) (zj zh : ℕ → ℝ) (L : ℕ) (hL : conf.hsize = L) (hlt : L < 2 ^ 31)
    (hf : 3 ≤ conf.hfield.length) (hh : 3 ≤ conf.hs.length) (hb : conf.beta ≠ 0) (i j : Fin L) (hij : i ≤ j) :
    ∫ w, ofNew conf num zj zh L (fun v => dot (v i) (v j)) w ∂(Measure.pi fun _ : Fin L => tripleMeasure)
      = (Real.cosh conf.beta / Real.sinh conf.beta - 1 / conf.beta) ^ ((j : ℕ) - i) := by
  rw [integral_congr_ae (ofNew_ae conf num zj zh L hL hlt hf hh hb _), path_corr hb L startDir_unit i j hij]
  rfl

/-- Degenerate draws, which give spins that are not numbers (C11), have probability zero. -/
theorem C90_degenerate_null (beta : ℝ) (L : ℕ) (hb : beta ≠ 0) :
    ∀ᵐ w ∂(Measure.pi fun _ : Fin L => tripleMeasure), UnitDraws (drawsOf w) ∧ NonDegenerate beta (drawsOf w) L := by
  filter_upwards [nonDegenerate_ae hb L, unitDraws_ae L] with w h1 h2
  exact ⟨h2, h1⟩

/-- non-vacuity: the default configuration, the height of the last spin -/
example : ∃ (conf : Config ℝ), conf.hsize = (512 : ℕ) ∧ 3 ≤ conf.hfield.length ∧ 3 ≤ conf.hs.length ∧ conf.beta ≠ 0 ∧
    Measurable fun v : Fin 512 → V3 ℝ => ENNReal.ofReal (v 511).z :=
  ⟨Config.default, rfl, by decide, by decide, by simp [Config.default]; norm_num,
    (measurable_z.comp (measurable_pi_apply 511)).ennreal_ofReal⟩

end Verif.Props
