/-
C125, motion: a part of a thermal chain moves as if the rest of the chain were cut off at some distance
(/repo/src/spinchain.rs `metropolis_update`, `update`).
-/
import Verif.Props.ClusterBath
import Verif.Props.Magnetisation
import Verif.Props.Response

set_option linter.unusedSectionVars false

namespace Verif.Props

open Spec MeasureTheory LightCone
open Finset hiding expect

section
variable {c c2 : SpinChain ℝ} {L s L2 s2 : ℕ}

/-- the reach of distant changes, for all unit spins -/
theorem flow_distant (hL : 2 ≤ L) (hL2 : 2 ≤ L2) (hdt : c2.vars.dt = c.vars.dt) (h0 : 0 ≤ c.vars.dt) {v : Fin L → V3 ℝ}
    {v2 : Fin L2 → V3 ℝ} (hv : ∀ i, len (v i) = 1) (hv2 : ∀ i, len (v2 i) = 1)
    {a K G : ℝ} (ha : 0 ≤ a) (hK : ∀ i < 2 * (L / 2), len (J c i) ≤ K) (k : ℤ) (r : ℕ)
    (hS : ∀ j, |j - k| < r → around L (fld v) j = around L2 (fld v2) j ∧ around L (J c) (j - 1) = around L2 (J c2) (j - 1) ∧
      around L (J c) j = around L2 (J c2) j ∧ ∀ u, around L (B c s (c.t + u)) j = around L2 (B c2 s2 (c2.t + u)) j)
    (hG : ∀ u j, len (sub (around L (J c) (j - 1)) (around L2 (J c2) (j - 1))) + len (sub (around L (J c) j) (around L2 (J c2) j))
      + len (sub (around L (B c s (c.t + u)) j) (around L2 (B c2 s2 (c2.t + u)) j)) ≤ G) (n : ℕ) :
    len (sub (around L (fld (flow c L s n v)) k) (around L2 (fld (flow c2 L2 s2 n v2)) k))
      ≤ (2 + 2 * G * (n * c.vars.dt)) * Real.exp (4 * K * Real.exp a * (n * c.vars.dt) - a * r) := by
  have z : ∀ x : V3 ℝ, len (sub x x) = 0 := fun x => by simp [len, dot, sub]
  have G0 : 0 ≤ G := le_trans (add_nonneg (add_nonneg (len_nonneg _) (len_nonneg _)) (len_nonneg _)) (hG 0 0)
  have far : ∀ j : ℤ, ¬|j - k| < r → max 0 ((r : ℝ) - |((j - k : ℤ) : ℝ)|) = 0 := by
    intro j hj
    rw [max_eq_left]
    have : ((r : ℤ) : ℝ) ≤ ((|j - k| : ℤ) : ℝ) := by exact_mod_cast not_lt.1 hj
    rw [Int.cast_abs] at this
    push_cast at this ⊢
    linarith
  have key := flow_spread (d := fun j => max 0 ((r : ℝ) - |((j - k : ℤ) : ℝ)|)) (W := 2) hL hL2 hdt h0 hv2
    (fun u => ⟨ha, G0, fun j => by
      rw [max_comm, max_comm (0 : ℝ)]
      refine (abs_max_sub_max_le_abs _ _ _).trans ?_
      rw [sub_sub_sub_cancel_left]
      refine (abs_abs_sub_abs_le _ _).trans ?_
      push_cast
      rw [show (j : ℝ) - k - (j + 1 - k) = -1 by ring]
      simp, fun j => hK _ (idx_lt hL j), fun j => by
      by_cases hj : |j - k| < r
      · obtain ⟨-, j1, j2, j3⟩ := hS j hj
        rw [j1, j2, j3 u, z, z, z, add_zero, add_zero]
        exact mul_nonneg G0 (Real.exp_pos _).le
      · rw [far j hj, mul_zero, neg_zero, Real.exp_zero, mul_one]
        exact hG u j⟩) two_pos.le
    (fun j => by
      by_cases hj : |j - k| < r
      · rw [(hS j hj).1, z]
        positivity
      · rw [far j hj, mul_zero, neg_zero, Real.exp_zero, mul_one]
        refine (len_sub_le _ _).trans ?_
        rw [around_fld hL hv, around_fld hL2 hv2]
        norm_num) n k
  refine key.trans (le_of_eq ?_)
  rw [mul_assoc, ← Real.exp_add]
  congr 2
  simp [sub_eq_add_neg]

theorem around_mod (he : L % 2 = 0) (f : ℕ → V3 ℝ) {z : ℤ} {m : ℕ} (h : (m : ℤ) % L = z % L) : around L f z = f (m % L) := by
  unfold around
  rw [show 2 * (L / 2) = L by omega, ← h]
  congr 1

/-- spins `y` on the sites from `k` on and upright spins elsewhere -/
noncomputable def fill (L : ℕ) (k : ℤ) {Q : ℕ} (y : Fin Q → V3 ℝ) : Fin L → V3 ℝ := fun i =>
  if h : (((i : ℕ) - k) % L).toNat < Q then y ⟨(((i : ℕ) - k) % L).toNat, h⟩ else ⟨0, 0, 1⟩

theorem fill_unit (k : ℤ) {Q : ℕ} {y : Fin Q → V3 ℝ} (hy : ∀ j, len (y j) = 1) (i : Fin L) : len (fill L k y i) = 1 := by
  unfold fill
  split_ifs
  · exact hy _
  · simp [len, dot]

theorem fill_meas (L : ℕ) (k : ℤ) (Q : ℕ) : Measurable fun y : Fin Q → V3 ℝ => fill L k y := by
  refine measurable_pi_lambda _ fun i => ?_
  unfold fill
  split_ifs
  · exact measurable_pi_apply _
  · exact measurable_const

theorem fill_around (he : L % 2 = 0) (h0 : 0 < L) (k : ℤ) {Q : ℕ} (hQ : Q ≤ L) (y : Fin Q → V3 ℝ) (j : Fin Q) :
    around L (fld (fill L k y)) (k + (j : ℕ)) = y j := by
  have hz : (0 : ℤ) < L := by exact_mod_cast h0
  have b1 := Int.emod_nonneg (k + (j : ℕ)) hz.ne'
  have b2 := Int.emod_lt_of_pos (k + (j : ℕ)) hz
  unfold around
  rw [show 2 * (L / 2) = L by omega]
  have hi : ((k + (j : ℕ)) % L).toNat < L := by omega
  have e : ((((k + (j : ℕ)) % L).toNat : ℕ) - k : ℤ) % L = (j : ℕ) := by
    rw [Int.toNat_of_nonneg b1, Int.emod_sub_emod, add_sub_cancel_left]
    exact Int.emod_eq_of_lt (by positivity) (by have := j.2; omega)
  unfold fld
  rw [dif_pos hi]
  unfold fill
  dsimp only
  simp only [e, Int.toNat_natCast, j.2, dif_pos, Fin.eta]

theorem around_meas (hL : 2 ≤ L) (z : ℤ) : Measurable fun v : Fin L → V3 ℝ => around L (fld v) z := by
  have h := idx_lt hL z
  have : (z % (2 * (L / 2) : ℕ)).toNat < L := by omega
  unfold around fld
  simp only [this, dif_pos]
  exact measurable_pi_apply _

/-- observables that differ little have means that differ little -/
theorem thermal_mean_close (w : WF c L s) (hL : 2 ≤ L) {C C' E : ℝ} {f g : SpinChain ℝ → ℝ} (hf : BoundedBy c L C f)
    (hg : BoundedBy c L C' g) (h : ∀ v : Fin L → V3 ℝ, (∀ i, len (v i) = 1) → |f (withSpins c v) - g (withSpins c v)| ≤ E) :
    |thermalMean c L (wholeEnergy L) f - thermalMean c L (wholeEnergy L) g| ≤ E := by
  obtain ⟨D, hD⟩ := whole_ae w hL
  have mE := (whole_tame w hL).meas
  have hfg : BoundedBy c L E (fun x => f x + -1 * g x) :=
    ⟨hf.meas.add (hg.meas.const_mul (-1)), fun v hv => by
      have := h v hv
      rwa [neg_one_mul, ← sub_eq_add_neg]⟩
  have h1 := thermal_mean_abs w hL hfg
  have h2 := Response.mean_add (h := fun v => -1 * g (withSpins c v)) (M := C) (N := C') c.vars.beta mE hD hf.meas
    (hg.meas.const_mul (-1)) (BoundedBy_ae hf) (by
      filter_upwards [BoundedBy_ae hg] with v hv
      rwa [neg_one_mul, abs_neg])
  rw [Response.mean_smul] at h2
  rw [thermal_mean_eq] at h1
  rw [thermal_mean_eq, thermal_mean_eq, sub_eq_add_neg, ← neg_one_mul, ← h2]
  exact h1

/-- mean of an observable of the spins after `n` updates, as a mean over the starting spins -/
theorem after_mean (w : WF c L s) (hL : 4 ≤ L) (hJ : ∀ i < 2 * (L / 2), J c i ≠ zero) (n : ℕ) (f : (ℕ → V3 ℝ) → ℝ) :
    thermalMean c L (wholeEnergy L) (afterRun n fun x => f (S x))
      = Response.mean (Measure.pi fun _ : Fin L => sphereMeasure) c.vars.beta (fun v => wholeEnergy L (withSpins c v))
          fun v => f (fld (flow c L s n v)) := by
  rw [thermal_mean_eq]
  refine Response.mean_congr _ ?_
  filter_upwards [C86_generic c L s w hL hJ] with v hv
  obtain ⟨c', h1, h2⟩ := run_flow w (by omega) hv.1 (hv.2 n)
  unfold afterRun
  rw [h1]
  dsimp only
  rw [h2]

theorem withSpins_fld (c : SpinChain ℝ) {L : ℕ} (v : Fin L → V3 ℝ) : (fun i : Fin L => S (withSpins c v) i) = v := by
  funext i
  rw [S_fld, fld_val]

end

/-- C125, motion, with a bound `G` on the difference of the two chains -/
theorem motion_apart (c c' : SpinChain ℝ) (L L' s s' n : ℕ) (w : WF c L s) (w' : WF c' L' s') (hL : 4 ≤ L) (hL' : 4 ≤ L')
    (he : L % 2 = 0) (he' : L' % 2 = 0) (hne : ∀ i < L, J c i ≠ zero) (hne' : ∀ i < L', J c' i ≠ zero)
    (hβ : c'.vars.beta = c.vars.beta) (hdt : c'.vars.dt = c.vars.dt) (h0 : 0 ≤ c.vars.dt)
    (K : ℝ) (hK : ∀ i < L, len (J c i) + len (H0 c i) ≤ K) (hK' : ∀ i < L', len (J c' i) + len (H0 c' i) ≤ K)
    (k : ℤ) (q r d : ℕ) (q0 : 0 < q) (hq : q + 2 * r + 2 * d < L) (hq' : q + 2 * r + 2 * d < L')
    (hJ : ∀ z : ℤ, k - r - d - 1 ≤ z → z < k + q + r + d → around L (J c) z = around L' (J c') z
      ∧ around L (H0 c) z = around L' (H0 c') z)
    (hB : ∀ (u : ℝ) (z : ℤ), k - r < z → z < k + q + r → around L (B c s (c.t + u)) z = around L' (B c' s' (c'.t + u)) z)
    (a G : ℝ) (ha : 0 ≤ a)
    (hG : ∀ u j, len (sub (around L (J c) (j - 1)) (around L' (J c') (j - 1))) + len (sub (around L (J c) j) (around L' (J c') j))
      + len (sub (around L (B c s (c.t + u)) j) (around L' (B c' s' (c'.t + u)) j)) ≤ G)
    (F : (Fin q → V3 ℝ) → ℝ) (C Λ : ℝ) (mF : Measurable F) (bF : ∀ y, (∀ j, len (y j) = 1) → |F y| ≤ C)
    (lF : ∀ y y', (∀ j, len (y j) = 1) → (∀ j, len (y' j) = 1) → ∀ E, (∀ j, len (sub (y j) (y' j)) ≤ E) → |F y - F y'| ≤ Λ * E) :
    |thermalMean c L (wholeEnergy L) (afterRun n fun x => F fun j => around L (S x) (k + (j : ℕ)))
        - thermalMean c' L' (wholeEnergy L') (afterRun n fun x => F fun j => around L' (S x) (k + (j : ℕ)))|
      ≤ Λ * ((4 + 2 * G * (n * c.vars.dt)) * Real.exp (4 * K * Real.exp a * (n * c.vars.dt) - a * r))
        + ((1 + influence c.vars.beta K d) ^ 2 - 1) * C := by
  have z0 : ∀ x : V3 ℝ, len (sub x x) = 0 := fun x => by simp [len, dot, sub]
  have kJ : ∀ i < 2 * (L / 2), len (J c i) ≤ K := fun i hi => by
    have := hK i (by omega)
    have := len_nonneg (H0 c i)
    linarith
  -- the block with `r` further sites on either side
  set Q := q + 2 * r with hQ
  set k0 : ℤ := k - r with hk0
  -- the motion with the spins outside the block upright
  set Gf : (Fin Q → V3 ℝ) → ℝ := fun y => F fun j => around L (fld (flow c L s n (fill L k0 y))) (k + (j : ℕ)) with hGf
  have mflow : ∀ (c : SpinChain ℝ) (L s : ℕ), 2 ≤ L → Measurable fun v : Fin L → V3 ℝ => F fun j => around L (fld (flow c L s n v)) (k + (j : ℕ)) :=
    fun c L s hL => mF.comp (measurable_pi_lambda _ fun j => (around_meas hL _).comp (flow_preserving c L s n).measurable)
  have mG : Measurable Gf := (mflow c L s (by omega)).comp (fill_meas L k0 Q)
  have bG : ∀ y, (∀ j, len (y j) = 1) → |Gf y| ≤ C := fun y hy =>
    bF _ fun j => flow_around_unit (by omega) (fill_unit k0 hy) n _
  have hpos : ∀ (M : ℕ), 4 ≤ M → ∃ m : ℕ, (m : ℤ) % M = k0 % M ∧ m < M := fun M hM => by
    have hz : (0 : ℤ) < M := by omega
    have b1 := Int.emod_nonneg k0 hz.ne'
    have b2 := Int.emod_lt_of_pos k0 hz
    exact ⟨(k0 % M).toNat, by rw [Int.toNat_of_nonneg b1, Int.emod_emod], by omega⟩
  obtain ⟨m, hm, hmL⟩ := hpos L hL
  obtain ⟨m', hm', hmL'⟩ := hpos L' hL'
  have shift : ∀ {M m : ℕ}, (m : ℤ) % M = k0 % M → ∀ j : ℕ, ((m + j : ℕ) : ℤ) % M = (k0 + j) % M := fun h j => by
    push_cast
    rw [Int.add_emod, h, ← Int.add_emod]
  have back : ∀ {M m : ℕ}, (m : ℤ) % M = k0 % M → d + 1 ≤ M → ∀ j : ℕ, ((m + M - d - 1 + j : ℕ) : ℤ) % M = (k0 - d - 1 + j) % M :=
    fun {M m} h hd j => by
    rw [show ((m + M - d - 1 + j : ℕ) : ℤ) = m + (j - d - 1) + M by omega, Int.add_emod_right, Int.add_emod, h, ← Int.add_emod]
    congr 1
    ring
  have key := C125_bath c c' L L' s s' w w' (by omega) (by omega) hβ K hK hK' m m' d Q (by omega) (by omega) (by omega)
    (fun j hj => by
      rw [← around_mod he (J c) (back hm (by omega) j), ← around_mod he' (J c') (back hm' (by omega) j),
        ← around_mod he (H0 c) (back hm (by omega) j), ← around_mod he' (H0 c') (back hm' (by omega) j)]
      exact hJ _ (by omega) (by omega)) Gf C mG bG
  -- the spins of the block, in the two chains
  have rd : ∀ {M : ℕ} {m : ℕ}, M % 2 = 0 → (m : ℤ) % M = k0 % M → ∀ x : SpinChain ℝ,
      (fun j : Fin Q => S x ((m + (j : ℕ)) % M)) = fun j : Fin Q => around M (S x) (k0 + (j : ℕ)) := fun he h x => by
    funext j
    rw [← around_mod he (S x) (shift h j)]
  have mblock : ∀ (c : SpinChain ℝ) (L : ℕ), 2 ≤ L → BoundedBy c L C fun x => Gf fun j => around L (S x) (k0 + (j : ℕ)) := fun c L hL => by
    refine ⟨?_, fun v hv => bG _ fun j => ?_⟩
    · simp only [S_fld]
      exact mG.comp (measurable_pi_lambda _ fun j => around_meas hL _)
    · rw [S_fld]
      exact around_fld hL hv _
  have mafter : ∀ (c : SpinChain ℝ) (L s : ℕ), 2 ≤ L →
      BoundedBy c L C fun x => F fun j => around L (fld (flow c L s n fun i : Fin L => S x i)) (k + (j : ℕ)) := fun c L s hL => by
    refine ⟨?_, fun v hv => bF _ fun j => ?_⟩
    · simp only [withSpins_fld]
      exact mflow c L s hL
    · rw [withSpins_fld]
      exact flow_around_unit hL hv n _
  have ea : ∀ {c : SpinChain ℝ} {L s : ℕ}, WF c L s → 4 ≤ L → L % 2 = 0 → (∀ i < L, J c i ≠ zero) →
      thermalMean c L (wholeEnergy L) (afterRun n fun x => F fun j => around L (S x) (k + (j : ℕ)))
        = thermalMean c L (wholeEnergy L) fun x => F fun j => around L (fld (flow c L s n fun i : Fin L => S x i)) (k + (j : ℕ)) :=
    fun {c L s} w hL he hne => by
    have := after_mean w hL (fun i hi => hne i (by omega)) n fun σ => F fun j => around L σ (k + (j : ℕ))
    rw [this, thermal_mean_eq]
    simp only [withSpins_fld]
  -- the motion in the first chain
  have c1 := thermal_mean_close w (by omega) (mafter c L s (by omega)) (mblock c L (by omega))
    (E := Λ * (2 * Real.exp (4 * K * Real.exp a * (n * c.vars.dt) - a * r))) fun v hv => by
    rw [withSpins_fld, S_fld]
    refine lF _ _ (fun j => flow_around_unit (by omega) hv n _)
      (fun j => flow_around_unit (by omega) (fill_unit k0 fun j => around_fld (by omega) hv _) n _) _ fun j => ?_
    have := flow_distant (c := c) (c2 := c) (L := L) (L2 := L) (s := s) (s2 := s) (G := 0) (a := a) (K := K) (by omega) (by omega) rfl h0
      hv (fill_unit k0 (y := fun j : Fin Q => around L (fld v) (k0 + (j : ℕ))) fun j => around_fld (by omega) hv _) ha kJ (k + (j : ℕ)) r
      (fun z hz => ⟨by
        have hz := abs_lt.1 hz
        have hj := j.2
        have := fill_around he (by omega) k0 (Q := Q) (by omega) (fun j : Fin Q => around L (fld v) (k0 + (j : ℕ))) ⟨(z - k0).toNat, by omega⟩
        dsimp only at this
        rw [show k0 + ((z - k0).toNat : ℕ) = z by omega] at this
        exact this.symm, rfl, rfl, fun _ => rfl⟩) (fun u j => by rw [z0, z0, z0]; norm_num) n
    simpa using this
  -- and in the second
  have c2 := thermal_mean_close w' (by omega) (mafter c' L' s' (by omega)) (mblock c' L' (by omega))
    (E := Λ * ((2 + 2 * G * (n * c.vars.dt)) * Real.exp (4 * K * Real.exp a * (n * c.vars.dt) - a * r))) fun v hv => by
    rw [withSpins_fld, S_fld, abs_sub_comm]
    refine lF _ _ (fun j => flow_around_unit (by omega) (fill_unit k0 fun j => around_fld (by omega) hv _) n _)
      (fun j => flow_around_unit (by omega) hv n _) _ fun j => ?_
    exact flow_distant (c := c) (c2 := c') (L := L) (L2 := L') (s := s) (s2 := s') (G := G) (a := a) (K := K) (by omega) (by omega) hdt h0
      (fill_unit k0 (y := fun j : Fin Q => around L' (fld v) (k0 + (j : ℕ))) fun j => around_fld (by omega) hv _) hv ha kJ (k + (j : ℕ)) r
      (fun z hz => by
        have hz := abs_lt.1 hz
        have hj := j.2
        refine ⟨?_, (hJ _ (by omega) (by omega)).1, (hJ _ (by omega) (by omega)).1, fun u => hB u z (by omega) (by omega)⟩
        have := fill_around he (by omega) k0 (Q := Q) (by omega) (fun j : Fin Q => around L' (fld v) (k0 + (j : ℕ))) ⟨(z - k0).toNat, by omega⟩
        dsimp only at this
        rwa [show k0 + ((z - k0).toNat : ℕ) = z by omega] at this) hG n
  rw [ea w hL he hne, ea w' hL' he' hne']
  simp only [rd he hm, rd he' hm'] at key
  set A := thermalMean c L (wholeEnergy L) fun x => F fun j => around L (fld (flow c L s n fun i : Fin L => S x i)) (k + (j : ℕ))
  set A' := thermalMean c' L' (wholeEnergy L') fun x => F fun j => around L' (fld (flow c' L' s' n fun i : Fin L' => S x i)) (k + (j : ℕ))
  set D := thermalMean c L (wholeEnergy L) fun x => Gf fun j => around L (S x) (k0 + (j : ℕ))
  set D' := thermalMean c' L' (wholeEnergy L') fun x => Gf fun j => around L' (S x) (k0 + (j : ℕ))
  have e : A - A' = (A - D) + (D - D') - (A' - D') := by ring
  have t1 := abs_sub ((A - D) + (D - D')) (A' - D')
  have t2 := abs_add_le (A - D) (D - D')
  rw [e]
  have f : Λ * ((4 + 2 * G * (n * c.vars.dt)) * Real.exp (4 * K * Real.exp a * (n * c.vars.dt) - a * r))
      = Λ * (2 * Real.exp (4 * K * Real.exp a * (n * c.vars.dt) - a * r))
        + Λ * ((2 + 2 * G * (n * c.vars.dt)) * Real.exp (4 * K * Real.exp a * (n * c.vars.dt) - a * r)) := by ring
  linarith

/-- C125, motion. Two chains, perhaps of different lengths, at the same temperature and with the same couplings and fields
on the `q` sites from site `k` on and on the `r + d` sites on either side of these. Both are sampled thermally and then
updated `n` times, driven or not. The means of an observable of the `q` sites which is bounded by `C` and has Lipschitz
constant `Λ` differ by at most `Λ (4 + 4 (2 K + A) t) exp (4 K e^a t - a r)`, for every `a ≥ 0`, plus
`((1 + influence d)² - 1) C`, where `t = n dt` and `A`
bounds the drive. -/
theorem C125_motion (c c' : SpinChain ℝ) (L L' s s' n : ℕ) (w : WF c L s) (w' : WF c' L' s') (hL : 4 ≤ L) (hL' : 4 ≤ L')
    (he : L % 2 = 0) (he' : L' % 2 = 0) (hne : ∀ i < L, J c i ≠ zero) (hne' : ∀ i < L', J c' i ≠ zero)
    (hβ : c'.vars.beta = c.vars.beta) (hdt : c'.vars.dt = c.vars.dt) (h0 : 0 ≤ c.vars.dt)
    (K A : ℝ) (hK : ∀ i < L, len (J c i) + len (H0 c i) ≤ K) (hK' : ∀ i < L', len (J c' i) + len (H0 c' i) ≤ K)
    (hA : ∀ t, len (drive c.vars t) ≤ A) (hA' : ∀ t, len (drive c'.vars t) ≤ A)
    (k : ℤ) (q r d : ℕ) (q0 : 0 < q) (hq : q + 2 * r + 2 * d < L) (hq' : q + 2 * r + 2 * d < L')
    (hJ : ∀ z : ℤ, k - r - d - 1 ≤ z → z < k + q + r + d → around L (J c) z = around L' (J c') z
      ∧ around L (H0 c) z = around L' (H0 c') z)
    (hB : ∀ (u : ℝ) (z : ℤ), k - r < z → z < k + q + r → around L (B c s (c.t + u)) z = around L' (B c' s' (c'.t + u)) z)
    (a : ℝ) (ha : 0 ≤ a)
    (F : (Fin q → V3 ℝ) → ℝ) (C Λ : ℝ) (mF : Measurable F) (bF : ∀ y, (∀ j, len (y j) = 1) → |F y| ≤ C)
    (lF : ∀ y y', (∀ j, len (y j) = 1) → (∀ j, len (y' j) = 1) → ∀ E, (∀ j, len (sub (y j) (y' j)) ≤ E) → |F y - F y'| ≤ Λ * E) :
    |thermalMean c L (wholeEnergy L) (afterRun n fun x => F fun j => around L (S x) (k + (j : ℕ)))
        - thermalMean c' L' (wholeEnergy L') (afterRun n fun x => F fun j => around L' (S x) (k + (j : ℕ)))|
      ≤ Λ * ((4 + 4 * (2 * K + A) * (n * c.vars.dt)) * Real.exp (4 * K * Real.exp a * (n * c.vars.dt) - a * r))
        + ((1 + influence c.vars.beta K d) ^ 2 - 1) * C := by
  have A0 : 0 ≤ A := (len_nonneg _).trans (hA 0)
  have b : ∀ {c : SpinChain ℝ} {L s : ℕ}, (∀ i < L, len (J c i) + len (H0 c i) ≤ K) → (∀ t, len (drive c.vars t) ≤ A) → 4 ≤ L →
      ∀ t (z : ℤ), len (around L (J c) (z - 1)) + len (around L (J c) z) + len (around L (B c s t) z) ≤ 2 * K + A :=
    fun {c L s} hK hA hL t z => by
    have i1 := idx_lt (L := L) (by omega) (z - 1)
    have i2 := idx_lt (L := L) (by omega) z
    unfold around
    set x := ((z - 1) % (2 * (L / 2) : ℕ)).toNat
    set y := (z % (2 * (L / 2) : ℕ)).toNat
    have h1 := hK x (by omega)
    have h2 := hK y (by omega)
    have h3 := len_nonneg (H0 c x)
    have h4 : len (B c s t y) ≤ len (H0 c y) + A := by
      unfold B
      split_ifs
      · exact (len_add_le _ _).trans (add_le_add le_rfl (hA t))
      · linarith
    linarith
  have := motion_apart c c' L L' s s' n w w' hL hL' he he' hne hne' hβ hdt h0 K hK hK' k q r d q0 hq hq' hJ hB a (2 * (2 * K + A)) ha
    (fun u j => by
      have h1 := b (s := s) hK hA hL (c.t + u) j
      have h2 := b (s := s') hK' hA' hL' (c'.t + u) j
      have l1 := len_sub_le (around L (J c) (j - 1)) (around L' (J c') (j - 1))
      have l2 := len_sub_le (around L (J c) j) (around L' (J c') j)
      have l3 := len_sub_le (around L (B c s (c.t + u)) j) (around L' (B c' s' (c'.t + u)) j)
      linarith) F C Λ mF bF lF
  refine this.trans (le_of_eq ?_)
  ring

/-- the z-component of the first spin of the demonstration chain and of the longer one, which agree up to one site on
either side of site 0 -/
example : WF demo 4 2 ∧ WF demoLong 6 2 ∧ (∀ i < 4, J demo i ≠ zero) ∧ (∀ i < 6, J demoLong i ≠ zero) ∧
    demoLong.vars.beta = demo.vars.beta ∧ demoLong.vars.dt = demo.vars.dt ∧ 0 ≤ demo.vars.dt ∧
    (∀ i < 4, len (J demo i) + len (H0 demo i) ≤ 4) ∧ (∀ i < 6, len (J demoLong i) + len (H0 demoLong i) ≤ 4) ∧
    (∀ t, len (drive demo.vars t) ≤ 1) ∧ (∀ t, len (drive demoLong.vars t) ≤ 1) ∧ 1 + 2 * 1 + 2 * 0 < 4 ∧
    (∀ z : ℤ, 0 - (1 : ℕ) - (0 : ℕ) - 1 ≤ z → z < 0 + (1 : ℕ) + (1 : ℕ) + (0 : ℕ) →
      around 4 (J demo) z = around 6 (J demoLong) z ∧ around 4 (H0 demo) z = around 6 (H0 demoLong) z) ∧
    (∀ (u : ℝ) (z : ℤ), 0 - (1 : ℕ) < z → z < 0 + (1 : ℕ) + (1 : ℕ) →
      around 4 (B demo 2 (demo.t + u)) z = around 6 (B demoLong 2 (demoLong.t + u)) z) ∧
    (∀ y y' : Fin 1 → V3 ℝ, (∀ j, len (y j) = 1) → (∀ j, len (y' j) = 1) → ∀ E, (∀ j, len (sub (y j) (y' j)) ≤ E) →
      |(y 0).z - (y' 0).z| ≤ 1 * E) := by
  refine ⟨demo_wf, demoLong_wf, demo_bonds, fun i hi h => ?_, rfl, rfl, by norm_num [demo, demoVars], demo_strength, demoLong_strength,
    fun t => ?_, fun t => ?_, by norm_num, fun z h1 h2 => ?_, fun u z h1 h2 => ?_, fun y y' _ _ E hE => ?_⟩
  · have hz := congrArg V3.z h
    have : i = 0 ∨ i = 1 ∨ i = 2 ∨ i = 3 ∨ i = 4 ∨ i = 5 := by omega
    rcases this with rfl | rfl | rfl | rfl | rfl | rfl <;> norm_num [J, demoLong, zero] at hz
  · rw [len]
    simp [drive, demo, demoVars, Config.default, dot, ← sq]
  · rw [len]
    simp [drive, demoLong, demoVars, Config.default, dot, ← sq]
  · have : z = -2 ∨ z = -1 ∨ z = 0 ∨ z = 1 := by
      push_cast at h1 h2
      omega
    rcases this with rfl | rfl | rfl | rfl <;> simp [around, J, H0, demo, demoLong]
  · have : z = 0 ∨ z = 1 := by
      push_cast at h1 h2
      omega
    rcases this with rfl | rfl <;> simp [around, B, H0, demo, demoLong, demoVars, drive]
  · rw [one_mul]
    exact (comp_le_len (sub (y 0) (y' 0))).2.2.trans (hE 0)

end Verif.Props
