/-
Helper lemmas for the Metropolis updates.
-/
import Verif.Spec.Metropolis
import Verif.Model.MagFull
import Verif.Lemmas.Dynamics
import Verif.Lemmas.EnergyModel

set_option linter.unusedSectionVars false

namespace Verif

open Spec Finset

/-! ### ring geometry -/

theorem left_eq {L n : ℕ} (hn : n < L) : left L n = if n = 0 then L - 1 else n - 1 := by
  unfold left
  split
  · next h => subst h; rw [left_zero (by omega)]
  · next h => rw [left_pos (by omega) hn]

theorem right_eq {L n : ℕ} (hn : n < L) : right L n = if n + 1 = L then 0 else n + 1 := by
  unfold right
  split
  · next h => rw [right_last h]
  · next h => rw [right_lt (by omega)]

theorem left_right {L n : ℕ} (hn : n < L) : left L (right L n) = n := by
  rw [left_eq (right_lt' (by omega)), right_eq hn]
  by_cases h : n + 1 = L
  · simp only [h, if_true]; omega
  · simp only [h, if_false]; rw [if_neg (by omega)]; omega

theorem left_ne {L n : ℕ} (hL : 2 ≤ L) (hn : n < L) : left L n ≠ n := by
  rw [left_eq hn]; split_ifs <;> omega

theorem right_ne {L n : ℕ} (hL : 2 ≤ L) (hn : n < L) : right L n ≠ n := by
  rw [right_eq hn]; split_ifs <;> omega

theorem left_ne_right {L n : ℕ} (hL : 3 ≤ L) (hn : n < L) : left L n ≠ right L n := by
  rw [left_eq hn, right_eq hn]; split_ifs <;> omega

theorem left_left_ne {L n : ℕ} (hL : 3 ≤ L) (hn : n < L) : left L (left L n) ≠ n := by
  rw [left_eq (left_lt (by omega)), left_eq hn]; split_ifs <;> omega

theorem right_right_ne {L n : ℕ} (hL : 3 ≤ L) (hn : n < L) : right L (right L n) ≠ n := by
  rw [right_eq (right_lt' (by omega)), right_eq hn]; split_ifs <;> omega

theorem sum_left {L : ℕ} (f : ℕ → ℝ) : ∑ i ∈ range L, f (left L i) = ∑ i ∈ range L, f i := by
  refine sum_nbij' (left L) (right L) ?_ ?_ ?_ ?_ ?_ <;>
    intro i hi <;> have hi' := mem_range.1 hi
  · exact mem_range.2 (left_lt (by omega))
  · exact mem_range.2 (right_lt' (by omega))
  · exact right_left hi'
  · exact left_right hi'
  · rfl

theorem sum_right {L : ℕ} (f : ℕ → ℝ) : ∑ i ∈ range L, f (right L i) = ∑ i ∈ range L, f i := by
  refine sum_nbij' (right L) (left L) ?_ ?_ ?_ ?_ ?_ <;>
    intro i hi <;> have hi' := mem_range.1 hi
  · exact mem_range.2 (right_lt' (by omega))
  · exact mem_range.2 (left_lt (by omega))
  · exact left_right hi'
  · exact right_left hi'
  · rfl

/-- sums over the ring of a function that changes at three neighbouring sites only -/
theorem sum_three {L n : ℕ} (hL : 3 ≤ L) (hn : n < L) (g g' : ℕ → ℝ)
    (h : ∀ i < L, i ≠ n → left L i ≠ n → right L i ≠ n → g' i = g i) :
    ∑ i ∈ range L, g' i - ∑ i ∈ range L, g i
      = (g' (left L n) - g (left L n)) + (g' n - g n) + (g' (right L n) - g (right L n)) := by
  rw [← sum_sub_distrib]
  have hsub : ({left L n, n, right L n} : Finset ℕ) ⊆ range L := by
    intro i hi
    simp only [mem_insert, mem_singleton] at hi
    rcases hi with rfl | rfl | rfl
    · exact mem_range.2 (left_lt (by omega))
    · exact mem_range.2 hn
    · exact mem_range.2 (right_lt' (by omega))
  rw [← sum_subset hsub]
  · rw [sum_insert, sum_insert, sum_singleton]
    · ring
    · simp only [mem_singleton]; exact (right_ne (by omega) hn).symm
    · simp only [mem_insert, mem_singleton, not_or]
      exact ⟨left_ne (by omega) hn, left_ne_right hL hn⟩
  · intro i hi hi'
    have hi2 := mem_range.1 hi
    simp only [mem_insert, mem_singleton, not_or] at hi'
    rw [h i hi2 hi'.2.1, sub_self]
    · intro hc; exact hi'.2.2 (by rw [← hc, right_left hi2])
    · intro hc; exact hi'.1 (by rw [← hc, left_right hi2])

/-! ### neighbour indices -/

theorem leftIdx_ok {L i : ℕ} (hi : i < L) : leftIdx L i = .ok (left L i) := by
  unfold leftIdx
  rw [left_eq hi]
  split
  · exact usub_ok (by omega)
  · rfl

theorem rightIdx_ok {L i : ℕ} (hi : i < L) : rightIdx L i = .ok (right L i) := by
  unfold rightIdx
  rw [right_eq hi, usub_ok (by omega), ok_bind]
  by_cases h : i + 1 = L
  · rw [if_pos (by omega), if_pos h]; rfl
  · rw [if_neg (by omega), if_neg h]; rfl

theorem left2Idx_ok {L i : ℕ} (hL : 2 ≤ L) (hi : i < L) :
    left2Idx L i = .ok (left L (left L i)) := by
  unfold left2Idx
  rw [left_eq (left_lt (by omega)), left_eq hi]
  by_cases h0 : i = 0
  · rw [if_pos h0, if_pos h0, if_neg (by omega), usub_ok (by omega)]; rfl
  · rw [if_neg h0, if_neg h0]
    by_cases h1 : i = 1
    · rw [if_pos h1, if_pos (by omega), usub_ok (by omega)]
    · rw [if_neg h1, if_neg (by omega)]; rfl

theorem right2Idx_ok {L i : ℕ} (hL : 2 ≤ L) (hi : i < L) :
    right2Idx L i = .ok (right L (right L i)) := by
  unfold right2Idx
  rw [right_eq (right_lt' (by omega)), right_eq hi, usub_ok hL, ok_bind, usub_ok (by omega)]
  simp only [ok_bind]
  split_ifs <;> first | omega | rfl

section anyF
variable {F : Type} [Add F] [Sub F] [Mul F] [Div F] [Neg F] [OfScientific F] [FOps F]
variable {c c' : SpinChain F} {L s : ℕ}

theorem genRange_ok (hL : 1 ≤ L) (r : ℕ) : genRange L r = .ok (r % L) := by
  unfold genRange; rw [if_neg (by omega)]

theorem finish_ok {i : ℕ} (hi : i < c.spins.length) (v : Spin F) (de u : F) :
    c.finish i v de u = .ok (if SpinChain.accept c.vars.beta de u then
      { c with spins := c.spins.set i v } else c) := by
  unfold SpinChain.finish
  split
  · rw [setIdx_ok hi]; rfl
  · rfl

/-- what every update does, whatever the energy difference -/
theorem finish_frame {i : ℕ} {v : Spin F} {de u : F} (h : c.finish i v de u = .ok c') :
    c' = c ∨ (i < c.spins.length ∧ c' = { c with spins := c.spins.set i v }) := by
  unfold SpinChain.finish at h
  split at h
  · obtain ⟨sp, h1, h2⟩ := bind_eq_ok h
    cases h2
    obtain ⟨h3, h4⟩ := setIdx_eq_ok h1
    right
    exact ⟨h4, by rw [h3]⟩
  · cases h; exact Or.inl rfl

theorem nbhd1_ok (w : WF c L s) {i : ℕ} (hi : i < L) : ∃ n, c.nbhd1 L i = .ok n := by
  have h1 : ∀ k < L, ∃ x, idx c.spins k = .ok x := fun k hk => ⟨_, idx_ok (by rw [w.spins]; exact hk)⟩
  have h2 : ∀ k < L, ∃ x, idx c.j_couple k = .ok x := fun k hk => ⟨_, idx_ok (by rw [w.j]; exact hk)⟩
  obtain ⟨a, ha⟩ := h1 i hi
  obtain ⟨b, hb⟩ := h1 _ (left_lt (m := L) (i := i) (by omega))
  obtain ⟨d, hd⟩ := h1 _ (right_lt' (m := L) (i := i) (by omega))
  obtain ⟨e, he⟩ := h2 i hi
  obtain ⟨f, hf⟩ := h2 _ (left_lt (m := L) (i := i) (by omega))
  unfold SpinChain.nbhd1
  rw [idx_ok (by rw [w.h]; exact hi), leftIdx_ok hi, rightIdx_ok hi]
  simp only [ok_bind, ha, hb, hd, he, hf]
  exact ⟨_, rfl⟩

theorem nbhd_ok (w : WF c L s) (hL : 2 ≤ L) {i : ℕ} (hi : i < L) : ∃ n, c.nbhd L i = .ok n := by
  have h1 : ∀ k < L, ∃ x, idx c.spins k = .ok x := fun k hk => ⟨_, idx_ok (by rw [w.spins]; exact hk)⟩
  have h2 : ∀ k < L, ∃ x, idx c.j_couple k = .ok x := fun k hk => ⟨_, idx_ok (by rw [w.j]; exact hk)⟩
  obtain ⟨a, ha⟩ := h1 i hi
  obtain ⟨b, hb⟩ := h1 (left L i) (left_lt (by omega))
  obtain ⟨b2, hb2⟩ := h1 (left L (left L i)) (left_lt (by omega))
  obtain ⟨d, hd⟩ := h1 (right L i) (right_lt' (by omega))
  obtain ⟨d2, hd2⟩ := h1 (right L (right L i)) (right_lt' (by omega))
  obtain ⟨e, he⟩ := h2 i hi
  obtain ⟨f, hf⟩ := h2 (left L i) (left_lt (by omega))
  obtain ⟨f2, hf2⟩ := h2 (left L (left L i)) (left_lt (by omega))
  obtain ⟨g, hg⟩ := h2 (right L i) (right_lt' (by omega))
  unfold SpinChain.nbhd
  rw [leftIdx_ok hi, rightIdx_ok hi, left2Idx_ok hL hi, right2Idx_ok hL hi]
  simp only [ok_bind, ha, hb, hb2, hd, hd2, he, hf, hf2, hg]
  exact ⟨_, rfl⟩

end anyF

section real
variable {c : SpinChain ℝ} {L s : ℕ}

theorem nbhd1_eq (w : WF c L s) {i : ℕ} (hi : i < L) :
    c.nbhd1 L i = .ok ⟨⟨S c (left L i)⟩, ⟨S c i⟩, ⟨S c (right L i)⟩, J c (left L i), J c i, H0 c i⟩ := by
  have hl := left_lt (m := L) (i := i) (by omega)
  have hr := right_lt' (m := L) (i := i) (by omega)
  unfold SpinChain.nbhd1
  rw [leftIdx_ok hi, rightIdx_ok hi]
  simp only [ok_bind, idx_h w hi, idx_spins w hi, idx_spins w hl, idx_spins w hr, idx_j w hi,
    idx_j w hl]
  rfl

/-- the neighbourhood of site `i` in specification terms -/
def nb (L : ℕ) (S J : ℕ → V3 ℝ) (i : ℕ) : Nbhd ℝ :=
  ⟨⟨S (left L (left L i))⟩, ⟨S (left L i)⟩, ⟨S i⟩, ⟨S (right L i)⟩, ⟨S (right L (right L i))⟩,
    J (left L (left L i)), J (left L i), J i, J (right L i)⟩

theorem nbhd_eq (w : WF c L s) (hL : 2 ≤ L) {i : ℕ} (hi : i < L) :
    c.nbhd L i = .ok (nb L (S c) (J c) i) := by
  have hl := left_lt (m := L) (i := i) (by omega)
  have hr := right_lt' (m := L) (i := i) (by omega)
  have hll := left_lt (m := L) (i := left L i) (by omega)
  have hrr := right_lt' (m := L) (i := right L i) (by omega)
  unfold SpinChain.nbhd
  rw [leftIdx_ok hi, rightIdx_ok hi, left2Idx_ok hL hi, right2Idx_ok hL hi]
  simp only [ok_bind, idx_spins w hi, idx_spins w hl, idx_spins w hr, idx_j w hi,
    idx_j w hl, idx_spins w hll, idx_spins w hrr, idx_j w hll, idx_j w hr]
  rfl

theorem replace_wf (w : WF c L s) (i : ℕ) (v : V3 ℝ) : WF (replace c i v) L s :=
  ⟨w.hsize, w.ssize, w.L_lt, w.s_lt, by simp [replace, w.spins], w.j, w.h, w.hs⟩

theorem S_replace (w : WF c L s) {i : ℕ} (hi : i < L) (v : V3 ℝ) :
    S (replace c i v) = Function.update (S c) i v := by
  funext k
  unfold S replace
  by_cases hk : k = i
  · subst hk
    simp [w.spins, hi]
  · rw [Function.update_of_ne hk, List.getElem?_set_ne (fun h => hk h.symm)]

theorem J_replace (i : ℕ) (v : V3 ℝ) : J (replace c i v) = J c := rfl
theorem H0_replace (i : ℕ) (v : V3 ℝ) : H0 (replace c i v) = H0 c := rfl

theorem proposal_eq {u1 u2 : ℝ} (h0 : 0 ≤ u2) (h1 : u2 ≤ 1) :
    SpinChain.proposal u1 u2 = ⟨spherePoint u1 u2⟩ := by
  unfold SpinChain.proposal Spin.new_from_angles spherePoint
  simp only [lit_1, lit_2, fpi_real, facos_real, fcos_real, fsin_real]
  rw [Real.sin_arccos, Real.cos_arccos (by linarith) (by linarith)]
  congr 2 <;> ring

theorem finish_eq (w : WF c L s) {i : ℕ} (hi : i < L) (v : V3 ℝ) (de u : ℝ) :
    c.finish i ⟨v⟩ de u = .ok (metropolis c.vars.beta de u c (replace c i v)) := by
  rw [finish_ok (by rw [w.spins]; exact hi)]
  unfold SpinChain.accept metropolis replace
  simp only [flt_real, lit_0, fexp_real, Bool.or_eq_true, decide_eq_true_eq, neg_mul]

theorem sphere_unit {u1 u2 : ℝ} (h0 : 0 ≤ u2) (h1 : u2 ≤ 1) : len (spherePoint u1 u2) = 1 := by
  have hs : 0 ≤ 1 - (1 - 2 * u2) ^ 2 := by nlinarith
  have h2 := Real.mul_self_sqrt hs
  have h3 := Real.sin_sq_add_cos_sq (2 * Real.pi * u1)
  unfold len
  rw [show dot (spherePoint u1 u2) (spherePoint u1 u2) = 1 from ?_, Real.sqrt_one]
  unfold spherePoint dot
  simp only
  generalize Real.sqrt (1 - (1 - 2 * u2) ^ 2) = q at *
  linear_combination q * q * h3 + h2

/-- proposals are unit vectors whatever the numbers drawn -/
theorem proposal_unit (u1 u2 : ℝ) : IsUnit3 (SpinChain.proposal u1 u2) := by
  rw [unit_iff]
  unfold SpinChain.proposal Spin.new_from_angles dot
  simp only [fcos_real, fsin_real]
  generalize (2.0 * fpi * u1 : ℝ) = a
  generalize (facos (1.0 - 2.0 * u2) : ℝ) = b
  have h1 := Real.sin_sq_add_cos_sq a
  have h2 := Real.sin_sq_add_cos_sq b
  linear_combination (Real.sin b) ^ 2 * h1 + h2

/-! ### energy differences -/

theorem metroDe_eq (S J H : ℕ → V3 ℝ) {i : ℕ} (hL : 2 ≤ L) (hi : i < L) (v : V3 ℝ) :
    SpinChain.metroDe ⟨⟨S (left L i)⟩, ⟨S i⟩, ⟨S (right L i)⟩, J (left L i), J i, H i⟩ ⟨v⟩
      = ringEnergy L (Function.update S i v) J H - ringEnergy L S J H := by
  rw [ringEnergy_replace hL hi]
  simp only [SpinChain.metroDe, for3, V3.get_zero, V3.get_one, V3.get_two, omega, dot, had, Spec.sub,
    Spec.add, lit_0]
  ring

theorem maglabDe_eq (S J H : ℕ → V3 ℝ) {i : ℕ} (hL : 2 ≤ L) (hi : i < L) (om : ℝ) (v : V3 ℝ) :
    SpinChain.maglabDe om ⟨⟨S (left L i)⟩, ⟨S i⟩, ⟨S (right L i)⟩, J (left L i), J i, H i⟩ ⟨v⟩
      = maglabE L om 0 0 (Function.update S i v) J - maglabE L om 0 0 S J := by
  unfold maglabE corr
  have h := ringEnergy_replace hL hi S J (fun _ => ⟨0, 0, -(1 / (2 * om))⟩) v
  simp only [zero_mul, add_zero, zero_div, sub_zero]
  rw [h]
  simp only [SpinChain.maglabDe, for3, V3.get_zero, V3.get_one, V3.get_two, omega, dot, had,
    Spec.sub, Spec.add, lit_0, lit_2]
  ring

theorem bondCorr_replace (S J : ℕ → V3 ℝ) {i : ℕ} (hL : 3 ≤ L) (hi : i < L) (v : V3 ℝ) :
    ∑ k ∈ range L, bondCorr L (Function.update S i v) J k - ∑ k ∈ range L, bondCorr L S J k
      = (bondCorr L (Function.update S i v) J (left L i) - bondCorr L S J (left L i))
        + (bondCorr L (Function.update S i v) J i - bondCorr L S J i) := by
  rw [sum_three hL hi]
  · have : bondCorr L (Function.update S i v) J (right L i) = bondCorr L S J (right L i) := by
      unfold bondCorr
      rw [Function.update_of_ne (right_ne (by omega) hi), Function.update_of_ne (right_right_ne hL hi)]
    rw [this]; ring
  · intro k _ h1 _ h3
    unfold bondCorr
    rw [Function.update_of_ne h1, Function.update_of_ne h3]

theorem tripCorr_replace (S J : ℕ → V3 ℝ) {i : ℕ} (hL : 3 ≤ L) (hi : i < L) (v : V3 ℝ) :
    ∑ k ∈ range L, tripCorr L (Function.update S i v) J k - ∑ k ∈ range L, tripCorr L S J k
      = (tripCorr L (Function.update S i v) J (left L i) - tripCorr L S J (left L i))
        + (tripCorr L (Function.update S i v) J i - tripCorr L S J i)
        + (tripCorr L (Function.update S i v) J (right L i) - tripCorr L S J (right L i)) := by
  rw [sum_three hL hi]
  intro k _ h1 h2 h3
  unfold tripCorr
  rw [Function.update_of_ne h1, Function.update_of_ne h3, Function.update_of_ne h2]

theorem rotDe_eq (S J : ℕ → V3 ℝ) {i : ℕ} (hL : 3 ≤ L) (hi : i < L) (om : ℝ) (v : V3 ℝ) :
    SpinChain.rotDe om (nb L S J i) (decide (i < s)) ⟨v⟩
      = rotE L s om 1 1 (Function.update S i v) J - rotE L s om 1 1 S J := by
  unfold rotE corr
  have h := ringEnergy_replace (by omega) hi S (fun i => rotJ (J i))
    (fun i => ⟨if i < s then 1 else 0, 0, -om⟩) v
  have hb := bondCorr_replace S J hL hi v
  have ht := tripCorr_replace S J hL hi v
  have key : rotE L s om 1 1 (Function.update S i v) J - rotE L s om 1 1 S J
      = -dot (omega L S (fun i => rotJ (J i)) (fun i => ⟨if i < s then 1 else 0, 0, -om⟩) i)
          (Spec.sub v (S i))
        - ((bondCorr L (Function.update S i v) J (left L i) - bondCorr L S J (left L i))
        + (bondCorr L (Function.update S i v) J i - bondCorr L S J i)
        + ((tripCorr L (Function.update S i v) J (left L i) - tripCorr L S J (left L i))
        + (tripCorr L (Function.update S i v) J i - tripCorr L S J i)
        + (tripCorr L (Function.update S i v) J (right L i) - tripCorr L S J (right L i))))
          / (16 * om) := by
    unfold rotE corr
    rw [← hb, ← ht, ← h]
    ring
  unfold rotE corr at key
  rw [key]
  simp only [SpinChain.rotDe, SpinChain.rotEnergy, SpinChain.mgAcc, SpinChain.zxi_trip, nb, for2,
    V3.get_zero, V3.get_one, omega, dot, had, Spec.sub, Spec.add, lit_0, lit_1, lit_half, lit_16,
    bondCorr, tripCorr, rotJ, aniso, right_left hi, left_right hi, Function.update_self,
    Function.update_of_ne (left_ne (by omega) hi), Function.update_of_ne (right_ne (by omega) hi),
    Function.update_of_ne (left_left_ne hL hi), Function.update_of_ne (right_right_ne hL hi),
    decide_eq_true_eq]
  split_ifs <;> ring

/-- the accumulated correction of the energy functions -/
theorem mgAcc_eq (S J : ℕ → V3 ℝ) {i : ℕ} (hi : i < L) (mg : ℝ) :
    SpinChain.mgAcc (nb L S J i) (nb L S J i).s_j mg
      = mg + (bondCorr L S J i + bondCorr L S J (left L i) + tripCorr L S J i
        + tripCorr L S J (left L i) + tripCorr L S J (right L i)) := by
  simp only [SpinChain.mgAcc, SpinChain.zxi_trip, nb, bondCorr, tripCorr, aniso, right_left hi,
    left_right hi]
  ring

theorem mgSum_eq (w : WF c L s) (hL : 2 ≤ L) :
    c.mgSum L = .ok (corr L 2 3 (S c) (J c)) := by
  unfold SpinChain.mgSum
  rw [forRange_add (fun i => bondCorr L (S c) (J c) i + bondCorr L (S c) (J c) (left L i)
    + tripCorr L (S c) (J c) i + tripCorr L (S c) (J c) (left L i)
    + tripCorr L (S c) (J c) (right L i))]
  · simp only [sum_add_distrib]
    rw [sum_left (bondCorr L (S c) (J c)), sum_left (tripCorr L (S c) (J c)),
      sum_right (tripCorr L (S c) (J c))]
    unfold corr
    congr 1
    rw [lit_0]
    ring
  · intro i hi acc
    rw [nbhd_eq w hL hi, ok_bind]
    show Except.ok _ = _
    rw [mgAcc_eq _ _ hi]

/-- a ring energy with zero field, in pieces -/
theorem ring_pieces {L : ℕ} (hL : 1 ≤ L) (S J B : ℕ → V3 ℝ) :
    ringEnergy L S J B =
      (∑ i ∈ range (L - 1), -dot (S i) (had (J i) (S (i + 1))))
        + -dot (S (L - 1)) (had (J (L - 1)) (S 0)) + ∑ i ∈ range L, dot (B i) (S i) := by
  rw [ringEnergy_split hL, sum_add_distrib]
  obtain ⟨n, rfl⟩ : ∃ n, L = n + 1 := ⟨L - 1, by omega⟩
  rw [sum_range_succ (fun i => dot (B i) (S i))]
  simp only [Nat.add_sub_cancel]
  ring

theorem om_real : c.om = 2 * Real.pi / c.vars.tau := by
  unfold SpinChain.om; simp

theorem mc_system_energy_maglab_eq (w : WF c L s) (hL : 2 ≤ L) :
    c.mc_system_energy_maglab
      = .ok (maglabE L (2 * Real.pi / c.vars.tau) 2 3 (S c) (J c) / L) := by
  unfold SpinChain.mc_system_energy_maglab
  simp only [hsize_nat w, usub_ok (by omega : 1 ≤ L), ok_bind]
  rw [forRange_add (fun i => -dot (S c i) (had (J c i) (S c (i + 1))))]
  swap
  · intro i hi acc
    rw [idx_spins w (by omega), ok_bind, idx_spins w (by omega), ok_bind, idx_j w (by omega),
      ok_bind]
    show Except.ok _ = Except.ok _
    congr 1
    simp only [for3, V3.get_zero, V3.get_one, V3.get_two, dot, had]
    ring
  rw [ok_bind, idx_spins w (by omega), ok_bind, idx_spins w (by omega), ok_bind,
    idx_j w (by omega), ok_bind]
  rw [forRange_add (fun i => dot ⟨0, 0, -(1 / (2 * (2 * Real.pi / c.vars.tau)))⟩ (S c i))]
  swap
  · intro i hi acc
    rw [idx_spins w (by omega), ok_bind, om_real]
    show Except.ok _ = Except.ok _
    congr 1
    simp only [dot, lit_2]
    ring
  rw [ok_bind, mgSum_eq w hL, ok_bind, om_real]
  show Except.ok _ = Except.ok _
  congr 1
  unfold maglabE
  rw [ring_pieces (by omega)]
  simp only [for3, V3.get_zero, V3.get_one, V3.get_two, dot, had, lit_0, lit_16, fofInt_real]
  push_cast
  ring

theorem mc_system_energy_rot_eq (w : WF c L s) (hL : 2 ≤ L) (hs : s ≤ L) :
    c.mc_system_energy_rot
      = .ok (rotE L s (2 * Real.pi / c.vars.tau) 2 3 (S c) (J c) / L) := by
  unfold SpinChain.mc_system_energy_rot
  simp only [hsize_nat w, ssize_nat w, usub_ok (by omega : 1 ≤ L), ok_bind]
  rw [forRange_add (fun i => -dot (S c i) (had (rotJ (J c i)) (S c (i + 1))))]
  swap
  · intro i hi acc
    rw [idx_spins w (by omega), ok_bind, idx_spins w (by omega), ok_bind, idx_j w (by omega),
      ok_bind]
    show Except.ok _ = Except.ok _
    congr 1
    simp only [for2, V3.get_zero, V3.get_one, dot, had, rotJ, lit_half]
    ring
  rw [ok_bind, idx_spins w (by omega), ok_bind, idx_spins w (by omega), ok_bind,
    idx_j w (by omega), ok_bind]
  rw [forRange_add (fun i => (S c i).x)]
  swap
  · intro i hi acc
    rw [idx_spins w (by omega), ok_bind]
    rfl
  rw [ok_bind, forRange_add (fun i => -(2 * Real.pi / c.vars.tau) * (S c i).z)]
  swap
  · intro i hi acc
    rw [idx_spins w (by omega), ok_bind, om_real]
    rfl
  rw [ok_bind, mgSum_eq w hL, ok_bind, om_real]
  show Except.ok _ = Except.ok _
  congr 1
  unfold rotE
  rw [ring_pieces (by omega)]
  have hB : ∑ i ∈ range L, dot (⟨if i < s then 1 else 0, 0, -(2 * Real.pi / c.vars.tau)⟩ : V3 ℝ)
      (S c i) = ∑ i ∈ range s, (S c i).x + ∑ i ∈ range L, -(2 * Real.pi / c.vars.tau) * (S c i).z := by
    have : ∑ i ∈ range s, (S c i).x = ∑ i ∈ range L, if i < s then (S c i).x else 0 := by
      rw [← sum_filter]
      apply sum_congr _ (fun _ _ => rfl)
      ext i
      simp only [mem_range, mem_filter]
      omega
    rw [this, ← sum_add_distrib]
    apply sum_congr rfl
    intro i _
    simp only [dot]
    split_ifs <;> ring
  rw [hB]
  simp only [for2, V3.get_zero, V3.get_one, dot, had, rotJ, lit_0, lit_16, lit_half, fofInt_real]
  push_cast
  ring

theorem magTerm_local (S J : ℕ → V3 ℝ) {i k : ℕ} (v : V3 ℝ) (h1 : k ≠ i) (h2 : left L k ≠ i)
    (h3 : right L k ≠ i) : magTerm L (Function.update S i v) J k = magTerm L S J k := by
  unfold magTerm
  rw [Function.update_of_ne h1, Function.update_of_ne h2, Function.update_of_ne h3]

/-- The energy difference of `metropolis_update_magnus` for a site of the subsystem. -/
theorem magnusDe_in (S J : ℕ → V3 ℝ) {i : ℕ} (hL : 3 ≤ L) (hs : s < L) (hi : i < s) (tau : ℝ)
    (v : V3 ℝ) :
    SpinChain.magnusDe tau (nb L S J i) true (decide (i = 0)) (decide (i = s - 1)) ⟨v⟩
      = magnusE L s tau 0 (Function.update S i v) J - magnusE L s tau 0 S J := by
  have hiL : i < L := by omega
  have h := ringEnergy_replace (by omega) hiL S J (fun _ => zero) v
  have hm : ∑ k ∈ range s, (0 * (Function.update S i v k).z
        + 2 * magTerm L (Function.update S i v) J k)
      - ∑ k ∈ range s, (0 * (S k).z + 2 * magTerm L S J k)
      = 2 * ((if i = 0 then 0 else magTerm L (Function.update S i v) J (left L i)
            - magTerm L S J (left L i))
          + (magTerm L (Function.update S i v) J i - magTerm L S J i)
          + (if i = s - 1 then 0 else magTerm L (Function.update S i v) J (right L i)
            - magTerm L S J (right L i))) := by
    have hext : ∀ f : ℕ → ℝ, ∑ k ∈ range s, f k = ∑ k ∈ range L, if k < s then f k else 0 := by
      intro f
      rw [← sum_filter]
      apply sum_congr _ (fun _ _ => rfl)
      ext k
      simp only [mem_range, mem_filter]
      omega
    rw [hext, hext, sum_three hL hiL]
    · have hl : left L i < s ↔ ¬ i = 0 := by rw [left_eq hiL]; split_ifs <;> omega
      have hr : right L i < s ↔ ¬ i = s - 1 := by rw [right_eq hiL]; split_ifs <;> omega
      rw [if_pos hi, if_pos hi]
      simp only [hl, hr]
      split_ifs <;> ring
    · intro k _ h1 h2 h3
      rw [magTerm_local S J v h1 h2 h3]
      ring_nf
  have key : magnusE L s tau 0 (Function.update S i v) J - magnusE L s tau 0 S J
      = -dot (omega L S J (fun _ => zero) i) (Spec.sub v (S i))
        - Real.pi / tau * (2 * ((if i = 0 then 0 else magTerm L (Function.update S i v) J (left L i)
            - magTerm L S J (left L i))
          + (magTerm L (Function.update S i v) J i - magTerm L S J i)
          + (if i = s - 1 then 0 else magTerm L (Function.update S i v) J (right L i)
            - magTerm L S J (right L i)))) := by
    unfold magnusE
    rw [← hm, ← h]
    ring
  rw [key]
  simp only [SpinChain.magnusDe, SpinChain.magnusBracket, nb, for3,
    V3.get_zero, V3.get_one, V3.get_two, omega, dot, had, Spec.sub, Spec.add, lit_0, lit_2, zero,
    magTerm, right_left hiL, left_right hiL, Function.update_self,
    Function.update_of_ne (left_ne (by omega) hiL), Function.update_of_ne (right_ne (by omega) hiL),
    Function.update_of_ne (left_left_ne hL hiL), Function.update_of_ne (right_right_ne hL hiL),
    decide_eq_true_eq, fpi_real, if_true]
  split_ifs <;> ring

/-- The energy difference of `metropolis_update_magnus` outside the subsystem: bare couplings. -/
theorem magnusDe_out (S J : ℕ → V3 ℝ) {i : ℕ} (hL : 2 ≤ L) (hi : i < L) (tau : ℝ)
    (a b : Bool) (v : V3 ℝ) :
    SpinChain.magnusDe tau (nb L S J i) false a b ⟨v⟩
      = ringEnergy L (Function.update S i v) J (fun _ => zero)
        - ringEnergy L S J (fun _ => zero) := by
  rw [ringEnergy_replace hL hi]
  simp only [SpinChain.magnusDe, nb, for3,
    V3.get_zero, V3.get_one, V3.get_two, omega, dot, had, Spec.sub, Spec.add, lit_0, zero,
    Bool.false_eq_true, if_false]
  ring

end real

end Verif
