/-
C125: thermal means of a part of the chain and the rest of it (/repo/src/spinchain.rs `metropolis_update`,
`mc_total_energy`, `update`).
-/
import Verif.Props.Cluster
import Verif.Props.LightCone
import Verif.Lemmas.ClusterBath

set_option linter.unusedSectionVars false

namespace Verif.Props

open Spec MeasureTheory
open Finset hiding expect

section
variable {c : SpinChain ℝ} {L s : ℕ}

theorem S_block (hL : 0 < L) (a : ℕ) (u : Fin L → V3 ℝ) (j : ℕ) : S (withSpins c (turned hL a u)) ((a + j) % L) = Cluster.at' hL u j := by
  rw [S_fld, fld_turned]

/-- mean of a block observable in the positions counted from the first site beyond the `d` sites right of the block -/
theorem block_mean (w : WF c L s) (hL : 2 ≤ L) {K : ℝ} (hK : ∀ i < L, len (J c i) + len (H0 c i) ≤ K) (a : ℕ) {p d q : ℕ}
    (e : p + d + q + d = L) {F : (Fin q → V3 ℝ) → ℝ} {C : ℝ} (mF : Measurable F)
    (bF : ∀ y, (∀ j, len (y j) = 1) → |F y| ≤ C) :
    thermalMean c L (wholeEnergy L) (fun x => F fun j => S x ((a + j) % L)) =
      (∫ u, Cluster.ring (kern c L (a + q + d) K) (by omega) u * clip (-C) C (F (Cluster.blockAt (by omega) (p + d) q u))
        ∂(Measure.pi fun _ : Fin L => sphereMeasure)) /
        ∫ u, Cluster.ring (kern c L (a + q + d) K) (by omega) u ∂(Measure.pi fun _ : Fin L => sphereMeasure) := by
  have hL0 : 0 < L := by omega
  have hm : ∀ i, Measurable fun v : Fin L → V3 ℝ => S (withSpins c v) (i % L) := fun i => by
    have : ∀ v : Fin L → V3 ℝ, S (withSpins c v) (i % L) = v ⟨i % L, Nat.mod_lt _ hL0⟩ := fun v => by
      rw [S_fld]
      exact dif_pos _
    simp only [this]
    exact measurable_pi_apply _
  unfold thermalMean
  rw [weight_norm w hL (a + q + d) hK]
  congr 1
  refine weight_int w hL (a + q + d) hK (F := fun x => F fun j => S x ((a + j) % L)) (mF.comp (measurable_pi_iff.2 fun j => hm _))
    fun u hu => ?_
  have hb : (fun j : Fin q => S (withSpins c (turned hL0 (a + q + d) u)) ((a + j) % L)) = Cluster.blockAt hL0 (p + d) q u := by
    funext j
    have : (a + j) % L = (a + q + d + (p + d + j)) % L := by
      rw [show a + q + d + (p + d + j) = a + j + L by omega, Nat.add_mod_right]
    rw [this, S_block]
    rfl
  have hv : |F (Cluster.blockAt hL0 (p + d) q u)| ≤ C := bF _ fun j => hu _
  rw [abs_le] at hv
  rw [clip_eq hv.1 hv.2, ← hb]

end

/-- C125: the thermal mean of an observable of a block of the chain hardly depends on what the chain is like more than `d`
sites away: on how long it is, nor on its couplings and fields there. -/
theorem C125_bath (c c' : SpinChain ℝ) (L L' s s' : ℕ) (w : WF c L s) (w' : WF c' L' s') (hL : 2 ≤ L) (hL' : 2 ≤ L')
    (hβ : c'.vars.beta = c.vars.beta) (K : ℝ) (hK : ∀ i < L, len (J c i) + len (H0 c i) ≤ K)
    (hK' : ∀ i < L', len (J c' i) + len (H0 c' i) ≤ K) (a a' d q : ℕ) (q0 : 0 < q) (hq : q + 2 * d < L) (hq' : q + 2 * d < L')
    (hJ : ∀ j ≤ q + 2 * d, J c ((a + L - d - 1 + j) % L) = J c' ((a' + L' - d - 1 + j) % L')
      ∧ H0 c ((a + L - d - 1 + j) % L) = H0 c' ((a' + L' - d - 1 + j) % L'))
    (F : (Fin q → V3 ℝ) → ℝ) (C : ℝ) (mF : Measurable F) (bF : ∀ y, (∀ j, len (y j) = 1) → |F y| ≤ C) :
    |thermalMean c L (wholeEnergy L) (fun x => F fun j => S x ((a + j) % L))
        - thermalMean c' L' (wholeEnergy L') (fun x => F fun j => S x ((a' + j) % L'))|
      ≤ ((1 + influence c.vars.beta K d) ^ 2 - 1) * C := by
  obtain ⟨p, e⟩ : ∃ p, p + d + q + d = L := ⟨L - q - 2 * d, by omega⟩
  obtain ⟨p', e'⟩ : ∃ p', p' + d + q + d = L' := ⟨L' - q - 2 * d, by omega⟩
  have p0 : 0 < p := by omega
  have p0' : 0 < p' := by omega
  have C0 : 0 ≤ C := (abs_nonneg _).trans (bF (fun _ => ⟨0, 0, 1⟩) fun _ => by simp [len, dot])
  have K0 := K_nonneg hL hK
  have Kk := kern_kernels c L (a + q + d) K0
  have Kk' := kern_kernels c' L' (a' + q + d) K0
  rw [hβ] at Kk'
  have key := Cluster.ring_bath (μ := sphereMeasure) Kk Kk' (by omega : 0 < L) (by omega : 0 < L') p0 p0' q0 e e'
    (fun j hj => by
      obtain ⟨h1, h2⟩ := hJ j (by omega)
      funext x y
      unfold kern bondAt
      rw [hβ, show a + q + d + (p - 1 + j) = a + L - d - 1 + j by omega,
        show a' + q + d + (p' - 1 + j) = a' + L' - d - 1 + j by omega, h1, h2])
    (F := fun y => clip (-C) C (F y)) (C := C) (measurable_const.max (measurable_const.min mF))
    fun y => abs_le.2 ⟨le_max_left _ _, max_le (by linarith) (min_le_left _ _)⟩
  rw [block_mean w hL hK a e mF bF, block_mean w' hL' hK' a' e' mF bF]
  have Z := ring_pos (c := c) (a := a + q + d) (by omega : 0 < L) K0
  have Z' := ring_pos (c := c') (a := a' + q + d) (by omega : 0 < L') K0
  rw [slack_influence] at key
  set z := ∫ u, Cluster.ring (kern c L (a + q + d) K) (by omega : 0 < L) u ∂(Measure.pi fun _ : Fin L => sphereMeasure)
  set z' := ∫ u, Cluster.ring (kern c' L' (a' + q + d) K) (by omega : 0 < L') u ∂(Measure.pi fun _ : Fin L' => sphereMeasure)
  set x := ∫ u, Cluster.ring (kern c L (a + q + d) K) (by omega : 0 < L) u
    * clip (-C) C (F (Cluster.blockAt (by omega : 0 < L) (p + d) q u)) ∂(Measure.pi fun _ : Fin L => sphereMeasure)
  set x' := ∫ u, Cluster.ring (kern c' L' (a' + q + d) K) (by omega : 0 < L') u
    * clip (-C) C (F (Cluster.blockAt (by omega : 0 < L') (p' + d) q u)) ∂(Measure.pi fun _ : Fin L' => sphereMeasure)
  rw [div_sub_div _ _ Z.ne' Z'.ne', abs_div, abs_of_pos (mul_pos Z Z'), div_le_iff₀ (mul_pos Z Z'), mul_comm z x']
  exact key

theorem demoLong_wf : WF demoLong 6 2 := by constructor <;> simp [demoLong, demoVars]

theorem demoLong_strength : ∀ i < 6, len (J demoLong i) + len (H0 demoLong i) ≤ 4 := by
  have h : ∀ v : V3 ℝ, dot v v ≤ 4 → len v ≤ 2 := fun v hv => by
    unfold len
    rw [Real.sqrt_le_left (by norm_num)]
    linarith
  intro i hi
  have h1 : len (J demoLong i) ≤ 2 := h _ (by interval_cases i <;> norm_num [J, demoLong, dot])
  have h2 : len (H0 demoLong i) ≤ 2 := h _ (by interval_cases i <;> norm_num [H0, demoLong, dot])
  linarith

/-- the demonstration chain and the longer one agree up to one site on either side of site 0 -/
example : WF demo 4 2 ∧ WF demoLong 6 2 ∧ demoLong.vars.beta = demo.vars.beta ∧ (∀ i < 4, len (J demo i) + len (H0 demo i) ≤ 4) ∧
    (∀ i < 6, len (J demoLong i) + len (H0 demoLong i) ≤ 4) ∧ 1 + 2 * 1 < 4 ∧ 1 + 2 * 1 < 6 ∧
    (∀ j ≤ 1 + 2 * 1, J demo ((0 + 4 - 1 - 1 + j) % 4) = J demoLong ((0 + 6 - 1 - 1 + j) % 6)
      ∧ H0 demo ((0 + 4 - 1 - 1 + j) % 4) = H0 demoLong ((0 + 6 - 1 - 1 + j) % 6)) ∧
    (Measurable fun y : Fin 1 → V3 ℝ => (y 0).z) ∧ ∀ y : Fin 1 → V3 ℝ, (∀ j, len (y j) = 1) → |(y 0).z| ≤ 1 := by
  refine ⟨demo_wf, demoLong_wf, rfl, demo_strength, demoLong_strength, by norm_num, by norm_num, fun j hj => ?_,
    measurable_z.comp (measurable_pi_apply 0), fun y hy => (comp_le (hy 0)).2.2⟩
  have : j = 0 ∨ j = 1 ∨ j = 2 ∨ j = 3 := by omega
  rcases this with rfl | rfl | rfl | rfl <;> simp [J, H0, demo, demoLong]

end Verif.Props
