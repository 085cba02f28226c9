/-
Helper lemmas: a ring of variables with nearest-neighbour weights bounded above and below satisfies, with a constant that does
not depend on the number of variables, the inequality "variance at most a constant times the sum of the mean squared changes
under replacement of single entries".
-/
import Verif.Lemmas.Gap
import Verif.Lemmas.Cluster

set_option linter.unusedSectionVars false

namespace Verif.Gap

open MeasureTheory Function
open Cluster (Kernels at' ring)

section
variable {X : Type} [MeasurableSpace X] [Nonempty X] {L : ℕ} {σ : Measure X} [IsProbabilityMeasure σ] {k : ℕ → X → X → ℝ} {a b : ℝ}

/-- weight of the `n` bonds from site `s` on, summed over the sites after `s` -/
noncomputable def hh (σ : Measure X) (k : ℕ → X → X → ℝ) : ℕ → ℕ → X → ℝ
  | 0, _, _ => 1
  | n + 1, s, x => ∫ y, k s x y * hh σ k n (s + 1) y ∂σ

variable (H : Kernels k a b)
include H

theorem k_nice (j : ℕ) : Nice fun q : X × X => k j q.1 q.2 :=
  ⟨H.meas j, b, fun q => by
    rw [abs_of_nonneg (H.pos.le.trans (H.lo j _ _))]
    exact H.hi j _ _⟩

theorem hh_nice (n s : ℕ) : Nice (hh σ k n s) := by
  induction n generalizing s with
  | zero => exact Nice.const 1
  | succ n ih => exact ((k_nice H s).mul ((ih (s + 1)).comp measurable_snd)).integral σ

omit H in
/-- a function bounded below by a positive number has positive integral -/
theorem int_pos {g : X → ℝ} (hg : Nice g) {ε : ℝ} (h : ∀ x, ε ≤ g x) : ε ≤ ∫ x, g x ∂σ := by
  have := integral_mono ((Nice.const ε).int σ) (hg.int σ) h
  simpa using this

theorem hh_pos (n s : ℕ) : ∃ ε, 0 < ε ∧ ∀ x, ε ≤ hh σ k n s x := by
  induction n generalizing s with
  | zero => exact ⟨1, one_pos, fun _ => le_rfl⟩
  | succ n ih =>
    obtain ⟨ε, ε0, hε⟩ := ih (s + 1)
    refine ⟨a * ε, mul_pos H.pos ε0, fun x => ?_⟩
    have n1 : Nice fun y => k s x y * hh σ k n (s + 1) y := ((k_nice H s).comp (measurable_const.prodMk measurable_id)).mul (hh_nice H n (s + 1))
    exact int_pos n1 fun y => mul_le_mul (H.lo s x y) (hε y) ε0.le (H.pos.le.trans (H.lo s x y))

theorem hh_ratio (n s : ℕ) (x y : X) : a * hh σ k n s x ≤ b * hh σ k n s y := by
  have b0 := H.pos.trans_le (H.le)
  cases n with
  | zero => simpa [hh] using H.le
  | succ n =>
    have n0 := hh_nice (σ := σ) H n (s + 1)
    obtain ⟨ε, ε0, hε⟩ := hh_pos (σ := σ) H n (s + 1)
    have n1 : ∀ x, Nice fun y => k s x y * hh σ k n (s + 1) y := fun x => ((k_nice H s).comp (measurable_const.prodMk measurable_id)).mul n0
    have h1 : hh σ k (n + 1) s x ≤ b * ∫ z, hh σ k n (s + 1) z ∂σ := by
      rw [← integral_const_mul]
      exact integral_mono ((n1 x).int σ) (((Nice.const b).mul n0).int σ) fun z => mul_le_mul_of_nonneg_right (H.hi s x z) (ε0.le.trans (hε z))
    have h2 : a * ∫ z, hh σ k n (s + 1) z ∂σ ≤ hh σ k (n + 1) s y := by
      rw [← integral_const_mul]
      exact integral_mono (((Nice.const a).mul n0).int σ) ((n1 y).int σ) fun z => mul_le_mul_of_nonneg_right (H.lo s y z) (ε0.le.trans (hε z))
    calc a * hh σ k (n + 1) s x ≤ a * (b * ∫ z, hh σ k n (s + 1) z ∂σ) := mul_le_mul_of_nonneg_left h1 H.pos.le
      _ = b * (a * ∫ z, hh σ k n (s + 1) z ∂σ) := by ring
      _ ≤ _ := mul_le_mul_of_nonneg_left h2 b0.le

omit H in
/-- weight of the bond to `i` -/
noncomputable def qq (k : ℕ → X → X → ℝ) (a : ℝ) (hL : 0 < L) (i : Fin L) (v : Fin L → X) (y : X) : ℝ :=
  if (i : ℕ) = 0 then a else k (i - 1) (at' hL v (i - 1)) y

omit H in
/-- weight of the sites after `i` -/
noncomputable def Hh (σ : Measure X) (k : ℕ → X → X → ℝ) (i : Fin L) (y : X) : ℝ := hh σ k (L - 1 - i) i y

omit H in
/-- transition densities of the open chain -/
noncomputable def MK (σ : Measure X) (k : ℕ → X → X → ℝ) (a : ℝ) (hL : 0 < L) (i : Fin L) (v : Fin L → X) (y : X) : ℝ :=
  qq k a hL i v y * Hh σ k i y / ∫ z, qq k a hL i v z * Hh σ k i z ∂σ

theorem qq_lo (hL : 0 < L) (i : Fin L) (v : Fin L → X) (y : X) : a ≤ qq k a hL i v y := by
  unfold qq
  split_ifs
  · exact le_rfl
  · exact H.lo _ _ _

theorem qq_hi (hL : 0 < L) (i : Fin L) (v : Fin L → X) (y : X) : qq k a hL i v y ≤ b := by
  unfold qq
  split_ifs
  · exact H.le
  · exact H.hi _ _ _

theorem qq_nice (hL : 0 < L) (i : Fin L) : Nice fun q : (Fin L → X) × X => qq k a hL i q.1 q.2 := by
  unfold qq
  split_ifs
  · exact Nice.const a
  · have m1 : Measurable fun q : (Fin L → X) × X => (at' hL q.1 (i - 1), q.2) :=
      ((measurable_pi_apply _).comp measurable_fst).prodMk measurable_snd
    exact (k_nice H _).comp m1

theorem MK_kern (hL : 0 < L) : Kern σ (1 / 2 * (a / b) ^ 2) (MK (L := L) σ k a hL) := by
  have a0 := H.pos
  have ab := H.le
  have b0 := a0.trans_le ab
  have r1 : a / b ≤ 1 := (div_le_one b0).2 ab
  have r0 : 0 < a / b := by positivity
  have nH : ∀ i : Fin L, Nice (Hh σ k i) := fun i => hh_nice H _ _
  have nqh : ∀ i : Fin L, Nice fun q : (Fin L → X) × X => qq k a hL i q.1 q.2 * Hh σ k i q.2 := fun i =>
    (qq_nice H hL i).mul ((nH i).comp measurable_snd)
  have nqh' : ∀ (i : Fin L) v, Nice fun z => qq k a hL i v z * Hh σ k i z := fun i v => (nqh i).comp (measurable_const.prodMk measurable_id)
  have Hpos : ∀ (i : Fin L) y, 0 < Hh σ k i y := fun i y => by
    obtain ⟨ε, ε0, hε⟩ := hh_pos (σ := σ) H (L - 1 - i) i
    exact ε0.trans_le (hε y)
  have rat : ∀ (i : Fin L) y z, a * Hh σ k i y ≤ b * Hh σ k i z := fun i y z => hh_ratio H _ _ y z
  have Zpos : ∀ (i : Fin L) v, 0 < ∫ z, qq k a hL i v z * Hh σ k i z ∂σ := fun i v => by
    obtain ⟨ε, ε0, hε⟩ := hh_pos (σ := σ) H (L - 1 - i) i
    exact (mul_pos a0 ε0).trans_le (int_pos (nqh' i v) fun z =>
      mul_le_mul (qq_lo H hL i v z) (hε z) ε0.le (a0.le.trans (qq_lo H hL i v z)))
  have up : ∀ (i : Fin L) v y, a * ∫ z, qq k a hL i v z * Hh σ k i z ∂σ ≤ b * (b * Hh σ k i y) := fun i v y => by
    rw [← integral_const_mul]
    have : ∀ z, a * (qq k a hL i v z * Hh σ k i z) ≤ b * (b * Hh σ k i y) := fun z => by
      calc a * (qq k a hL i v z * Hh σ k i z) = qq k a hL i v z * (a * Hh σ k i z) := by ring
        _ ≤ b * (b * Hh σ k i y) := mul_le_mul (qq_hi H hL i v z) (rat i z y) (mul_pos a0 (Hpos i z)).le b0.le
    have h := integral_mono (((Nice.const a).mul (nqh' i v)).int σ) ((Nice.const _).int σ) this
    simpa using h
  have dn : ∀ (i : Fin L) v y, a * (a * Hh σ k i y) ≤ b * ∫ z, qq k a hL i v z * Hh σ k i z ∂σ := fun i v y => by
    rw [← integral_const_mul]
    have : ∀ z, a * (a * Hh σ k i y) ≤ b * (qq k a hL i v z * Hh σ k i z) := fun z => by
      calc a * (a * Hh σ k i y) ≤ qq k a hL i v z * (b * Hh σ k i z) :=
            mul_le_mul (qq_lo H hL i v z) (rat i y z) (mul_pos a0 (Hpos i y)).le (a0.le.trans (qq_lo H hL i v z))
        _ = _ := by ring
    have h := integral_mono ((Nice.const _).int σ) (((Nice.const b).mul (nqh' i v)).int σ) this
    simpa using h
  refine ⟨by positivity, ?_, fun i => ?_, fun i v y => ?_, fun i v y => ?_, fun i v => ?_⟩
  · have : (a / b) ^ 2 ≤ 1 := pow_le_one₀ r0.le r1
    linarith
  · exact (nqh i).meas.div ((nqh i).integral σ |>.meas.comp measurable_fst)
  · have h1 : (a / b) ^ 2 ≤ MK σ k a hL i v y := by
      unfold MK
      rw [le_div_iff₀ (Zpos i v), div_pow, div_mul_eq_mul_div, div_le_iff₀ (by positivity)]
      have := mul_le_mul_of_nonneg_left (up i v y) a0.le
      have h2 := mul_le_mul_of_nonneg_right (qq_lo H hL i v y) (Hpos i y).le
      have h3 := mul_le_mul_of_nonneg_left h2 (sq_nonneg b)
      nlinarith
    have : 0 < (a / b) ^ 2 := by positivity
    linarith
  · have h1 : MK σ k a hL i v y ≤ ((a / b) ^ 2)⁻¹ := by
      unfold MK
      rw [div_le_iff₀ (Zpos i v), inv_mul_eq_div, le_div_iff₀ (by positivity), div_pow, mul_div_assoc', div_le_iff₀ (by positivity)]
      have h2 := mul_le_mul_of_nonneg_right (qq_hi H hL i v y) (Hpos i y).le
      have h3 := mul_le_mul_of_nonneg_left (dn i v y) b0.le
      have h4 := mul_le_mul_of_nonneg_right h2 (sq_nonneg a)
      nlinarith
    have : ((a / b) ^ 2)⁻¹ ≤ (1 / 2 * (a / b) ^ 2)⁻¹ := by
      refine inv_anti₀ (by positivity) ?_
      have : 0 < (a / b) ^ 2 := by positivity
      linarith
    exact h1.trans this
  · unfold MK
    rw [integral_div, div_self (Zpos i v).ne']

omit H in
theorem at_update_ne (hL : 0 < L) (v : Fin L → X) (j : Fin L) (z : X) {m : ℕ} (hm : m < L) (h : m ≠ j) :
    at' hL (update v j z) m = at' hL v m := by
  unfold at'
  rw [update_of_ne]
  intro e
  have := congrArg Fin.val e
  simp only [Nat.mod_eq_of_lt hm] at this
  exact h this

omit H in
theorem MK_free (hL : 0 < L) {i j : Fin L} (h : (j : ℕ) + 1 ≠ i) : Free (MK σ k a hL) i j := fun v z => by
  have e : ∀ y, qq k a hL i (update v j z) y = qq k a hL i v y := fun y => by
    unfold qq
    split_ifs with h0
    · rfl
    · rw [at_update_ne hL v j z (by omega) (by omega)]
  funext y
  unfold MK
  simp only [e]

omit H in
theorem MK_line (hL : 0 < L) {l : List (Fin L)} (hl : l.Pairwise (· < ·)) : Line (MK σ k a hL) l := by
  induction l with
  | nil => trivial
  | cons i l ih =>
    obtain ⟨h1, h2⟩ := List.pairwise_cons.1 hl
    refine ⟨fun hi => lt_irrefl _ (h1 i hi), fun j hj => ?_, fun m hm => ?_, ih h2⟩
    · refine MK_free hL ?_
      rcases List.mem_cons.1 hj with e | e
      · rw [e]
        omega
      · have : (i : ℕ) < j := h1 j e
        omega
    · cases l with
      | nil => simp at hm
      | cons j l =>
        have e1 : (i : ℕ) < j := h1 j List.mem_cons_self
        have e2 : (j : ℕ) < m := (List.pairwise_cons.1 h2).1 m hm
        exact MK_free hL (by omega)

omit H in
theorem at_val (hL : 0 < L) (v : Fin L → X) (i : Fin L) : at' hL v i = v i := by
  unfold at'
  congr 1
  exact Fin.ext (Nat.mod_eq_of_lt i.2)

/-- the joint density of the open chain -/
theorem MK_prod (hL : 0 < L) (v : Fin L → X) :
    ((List.finRange L).map fun i => MK σ k a hL i v (v i)).prod
      = (∏ j ∈ Finset.range (L - 1), k j (at' hL v j) (at' hL v (j + 1))) / ∫ z, hh σ k (L - 1) 0 z ∂σ := by
  obtain ⟨N, rfl⟩ : ∃ N, L = N + 1 := ⟨L - 1, by omega⟩
  have a0 := H.pos
  have Hp : ∀ n s y, 0 < hh σ k n s y := fun n s y => by
    obtain ⟨ε, ε0, hε⟩ := hh_pos (σ := σ) H n s
    exact ε0.trans_le (hε y)
  have Ip : 0 < ∫ z, hh σ k N 0 z ∂σ := by
    obtain ⟨ε, ε0, hε⟩ := hh_pos (σ := σ) H N 0
    exact ε0.trans_le (int_pos (hh_nice H N 0) hε)
  rw [← List.ofFn_eq_map, List.prod_ofFn, Fin.prod_univ_succ]
  set u : ℕ → ℝ := fun j => hh σ k (N - j) j (at' hL v j) with hu
  have e0 : MK σ k a hL 0 v (v 0) = u 0 / ∫ z, hh σ k N 0 z ∂σ := by
    unfold MK Hh qq
    simp only [Fin.val_zero, if_true, hu]
    rw [integral_const_mul, mul_div_mul_left _ _ a0.ne']
    simp only [Nat.add_sub_cancel, Nat.sub_zero]
    rw [← at_val hL v 0]
    rfl
  have e1 : ∀ i : Fin N, MK σ k a hL i.succ v (v i.succ) = k i (at' hL v i) (at' hL v (i + 1)) * (u (i + 1) / u i) := fun i => by
    unfold MK Hh qq
    simp only [Fin.val_succ, Nat.add_eq_zero_iff, one_ne_zero, and_false, if_false, Nat.add_sub_cancel, hu]
    have hi := i.2
    have e2 : ∫ z, k i (at' hL v i) z * hh σ k (N - (i + 1)) (i + 1) z ∂σ = hh σ k (N - i) i (at' hL v i) := by
      rw [show N - (i : ℕ) = N - (i + 1) + 1 by omega]
      rfl
    rw [e2, ← at_val hL v i.succ, Fin.val_succ, mul_div_assoc]
  rw [e0]
  simp only [e1]
  have e3 : ∏ i : Fin N, k i (at' hL v i) (at' hL v (i + 1)) * (u (i + 1) / u i)
      = ∏ j ∈ Finset.range N, k j (at' hL v j) (at' hL v (j + 1)) * (u (j + 1) / u j) :=
    Fin.prod_univ_eq_prod_range (fun j => k j (at' hL v j) (at' hL v (j + 1)) * (u (j + 1) / u j)) N
  rw [e3, Finset.prod_mul_distrib]
  have e4 : ∀ n, ∏ j ∈ Finset.range n, u (j + 1) / u j = u n / u 0 := fun n => by
    induction n with
    | zero =>
      rw [Finset.prod_range_zero, div_self]
      exact (Hp _ _ _).ne'
    | succ n ih =>
      rw [Finset.prod_range_succ, ih]
      have h1 : u n ≠ 0 := (Hp _ _ _).ne'
      have h2 : u 0 ≠ 0 := (Hp _ _ _).ne'
      field_simp
  have uN : u N = 1 := by
    simp only [hu, Nat.sub_self]
    rfl
  have h2 : u 0 ≠ 0 := (Hp _ _ _).ne'
  rw [e4, uN, Nat.add_sub_cancel]
  field_simp

theorem ring_nice (hL : 0 < L) : Nice (ring k hL) := by
  have e : ring k hL = Cluster.arc k hL 0 L := by
    funext v
    rw [ring, Cluster.arc, Finset.range_eq_Ico]
  rw [e]
  exact ⟨Cluster.arc_meas H hL 0 L, _, Cluster.arc_abs H hL 0 L⟩

theorem ring_pos' (hL : 0 < L) (v : Fin L → X) : 0 < ring k hL v := Finset.prod_pos fun l _ => H.pos.trans_le (H.lo l _ _)

/-- the variance in the ring -/
theorem ring_poincare (hL : 0 < L) {f : (Fin L → X) → ℝ} (hf : Nice f) (f0 : ∫ v, ring k hL v * f v ∂(Measure.pi fun _ => σ) = 0) :
    ∫ v, ring k hL v * f v ^ 2 ∂(Measure.pi fun _ => σ)
      ≤ 384 * (b / a) ^ 11 * ∑ i, ∫ v, ring k hL v * G σ i f v ∂(Measure.pi fun _ => σ) := by
  set π : Measure (Fin L → X) := Measure.pi fun _ => σ with hπ
  have a0 := H.pos
  have ab := H.le
  have b0 := a0.trans_le ab
  set w : (Fin L → X) → ℝ := fun v => ∏ j ∈ Finset.range (L - 1), k j (at' hL v j) (at' hL v (j + 1)) with hw
  set I := ∫ z, hh σ k (L - 1) 0 z ∂σ with hI
  have Ip : 0 < I := by
    obtain ⟨ε, ε0, hε⟩ := hh_pos (σ := σ) H (L - 1) 0
    exact ε0.trans_le (int_pos (hh_nice H (L - 1) 0) hε)
  have w0 : ∀ v, 0 < w v := fun v => Finset.prod_pos fun l _ => a0.trans_le (H.lo l _ _)
  have nw : Nice w := by
    have e : w = Cluster.arc k hL 0 (L - 1) := by
      funext v
      rw [hw, Cluster.arc, Finset.range_eq_Ico]
    rw [e]
    exact ⟨Cluster.arc_meas H hL 0 _, _, Cluster.arc_abs H hL 0 _⟩
  have nR := ring_nice H hL (X := X) (L := L)
  have rw1 : ∀ v, ring k hL v = w v * k (L - 1) (at' hL v (L - 1)) (at' hL v (L - 1 + 1)) := fun v => by
    rw [hw, ring]
    dsimp only
    rw [← Finset.prod_range_succ, Nat.sub_add_cancel (by omega)]
  have Rhi : ∀ v, ring k hL v ≤ b * w v := fun v => by
    rw [rw1, mul_comm]
    exact mul_le_mul_of_nonneg_right (H.hi _ _ _) (w0 v).le
  have Rlo : ∀ v, a * w v ≤ ring k hL v := fun v => by
    rw [rw1, mul_comm (w v)]
    exact mul_le_mul_of_nonneg_right (H.lo _ _ _) (w0 v).le
  have hp : (∫ v, w v / I * f v ^ 2 ∂π) - (∫ v, w v / I * f v ∂π) ^ 2
      ≤ 12 / (1 / 2 * (a / b) ^ 2) ^ 5 * ((List.finRange L).map fun i => ∫ v, w v / I * G σ i f v ∂π).sum := by
    have hp := poincare (MK_kern (σ := σ) H hL) hf (MK_line hL (List.pairwise_lt_finRange L)) (List.mem_finRange)
    simp only [MK_prod H hL] at hp
    exact hp
  set m := ∫ v, w v / I * f v ∂π with hm
  -- variance in the open chain
  have one : ∫ v, w v / I ∂π = 1 := by
    obtain ⟨x⟩ : Nonempty (Fin L → X) := inferInstance
    have Hk := MK_kern (σ := σ) H hL
    have h1 := T_all Hk (Nice.const 1) (MK_line hL (List.pairwise_lt_finRange L)) (List.mem_finRange) x
    have h2 : ∀ (l : List (Fin L)) x, T σ (MK σ k a hL) l (fun _ => 1) x = 1 := fun l => by
      induction l with
      | nil => exact fun _ => rfl
      | cons i l ih =>
        intro x
        rw [T_cons]
        unfold E
        simp only [ih, mul_one]
        exact Hk.one i x
    rw [h2] at h1
    simp only [MK_prod H hL, mul_one] at h1
    exact h1.symm
  have nwI : Nice fun v => w v / I := by
    have e : (fun v => w v / I) = fun v => w v * I⁻¹ := by
      funext v
      rw [div_eq_mul_inv]
    rw [e]
    exact nw.mul (Nice.const _)
  have v1 : ∫ v, w v / I * (f v - m) ^ 2 ∂π = ∫ v, w v / I * f v ^ 2 ∂π - m ^ 2 := by
    have e1 : ∀ v, w v / I * (f v - m) ^ 2 = (w v / I * f v ^ 2 - 2 * m * (w v / I * f v)) + m ^ 2 * (w v / I) := fun v => by ring
    simp only [e1]
    rw [integral_add, integral_sub, integral_const_mul, integral_const_mul, one, ← hm]
    · ring
    · exact (nwI.mul hf.sq).int π
    · exact ((Nice.const _).mul (nwI.mul hf)).int π
    · exact ((nwI.mul hf.sq).sub ((Nice.const _).mul (nwI.mul hf))).int π
    · exact ((Nice.const _).mul nwI).int π
  -- variance in the ring
  have v2 : ∫ v, ring k hL v * f v ^ 2 ∂π ≤ ∫ v, ring k hL v * (f v - m) ^ 2 ∂π := by
    have e1 : ∀ v, ring k hL v * (f v - m) ^ 2 = (ring k hL v * f v ^ 2 - 2 * m * (ring k hL v * f v)) + m ^ 2 * ring k hL v := fun v => by ring
    simp only [e1]
    rw [integral_add, integral_sub, integral_const_mul, integral_const_mul, f0]
    · have : 0 ≤ ∫ v, ring k hL v ∂π := integral_nonneg fun v => (ring_pos' H hL v).le
      have := mul_nonneg (sq_nonneg m) this
      linarith
    · exact (nR.mul hf.sq).int π
    · exact ((Nice.const _).mul (nR.mul hf)).int π
    · exact ((nR.mul hf.sq).sub ((Nice.const _).mul (nR.mul hf))).int π
    · exact ((Nice.const _).mul nR).int π
  have v3 : ∫ v, ring k hL v * (f v - m) ^ 2 ∂π ≤ b * I * ∫ v, w v / I * (f v - m) ^ 2 ∂π := by
    rw [← integral_const_mul]
    have n1 : Nice fun v => (f v - m) ^ 2 := (hf.sub (Nice.const m)).sq
    refine integral_mono ((nR.mul n1).int π) (((Nice.const _).mul (nwI.mul n1)).int π) fun v => ?_
    have e : b * I * (w v / I * (f v - m) ^ 2) = b * w v * (f v - m) ^ 2 := by field_simp
    show _ ≤ b * I * (w v / I * (f v - m) ^ 2)
    rw [e]
    exact mul_le_mul_of_nonneg_right (Rhi v) (sq_nonneg _)
  have v4 : ∀ i, I * ∫ v, w v / I * G σ i f v ∂π ≤ a⁻¹ * ∫ v, ring k hL v * G σ i f v ∂π := fun i => by
    rw [← integral_const_mul, ← integral_const_mul]
    have n1 := G_nice (σ := σ) hf i
    refine integral_mono (((Nice.const _).mul (nwI.mul n1)).int π) (((Nice.const _).mul (nR.mul n1)).int π) fun v => ?_
    have g0 : 0 ≤ G σ i f v := integral_nonneg fun y => sq_nonneg _
    have e : I * (w v / I * G σ i f v) = a⁻¹ * (a * w v * G σ i f v) := by field_simp
    show I * (w v / I * G σ i f v) ≤ a⁻¹ * (ring k hL v * G σ i f v)
    rw [e]
    exact mul_le_mul_of_nonneg_left (mul_le_mul_of_nonneg_right (Rlo v) g0) (inv_nonneg.2 a0.le)
  have v5 : I * ((List.finRange L).map fun i => ∫ v, w v / I * G σ i f v ∂π).sum ≤ a⁻¹ * ∑ i, ∫ v, ring k hL v * G σ i f v ∂π := by
    rw [← List.ofFn_eq_map, List.sum_ofFn, Finset.mul_sum, Finset.mul_sum]
    exact Finset.sum_le_sum fun i _ => v4 i
  have c0 : (0 : ℝ) ≤ 12 / (1 / 2 * (a / b) ^ 2) ^ 5 := by positivity
  calc ∫ v, ring k hL v * f v ^ 2 ∂π ≤ b * I * ∫ v, w v / I * (f v - m) ^ 2 ∂π := v2.trans v3
    _ ≤ b * I * (12 / (1 / 2 * (a / b) ^ 2) ^ 5 * ((List.finRange L).map fun i => ∫ v, w v / I * G σ i f v ∂π).sum) := by
        rw [v1]
        exact mul_le_mul_of_nonneg_left hp (by positivity)
    _ = b * (12 / (1 / 2 * (a / b) ^ 2) ^ 5) * (I * ((List.finRange L).map fun i => ∫ v, w v / I * G σ i f v ∂π).sum) := by ring
    _ ≤ b * (12 / (1 / 2 * (a / b) ^ 2) ^ 5) * (a⁻¹ * ∑ i, ∫ v, ring k hL v * G σ i f v ∂π) :=
        mul_le_mul_of_nonneg_left v5 (by positivity)
    _ = _ := by
        field_simp
        ring

/-- changing one entry changes the weight of the ring by a bounded factor -/
theorem ring_update (hL : 0 < L) (v : Fin L → X) (i : Fin L) (x : X) : (a / b) ^ 2 * ring k hL v ≤ ring k hL (update v i x) := by
  have a0 := H.pos
  have ab := H.le
  have b0 := a0.trans_le ab
  have r1 : a / b ≤ 1 := (div_le_one b0).2 ab
  have r0 : 0 < a / b := by positivity
  have hat : ∀ j, j % L ≠ i → at' hL (update v i x) j = at' hL v j := fun j hj => by
    unfold at'
    rw [update_of_ne]
    intro e
    exact hj (congrArg Fin.val e)
  set r : ℕ → ℝ := fun j => if j % L = i ∨ (j + 1) % L = i then a / b else 1 with hr
  have h1 : ∏ j ∈ Finset.range L, r j * k j (at' hL v j) (at' hL v (j + 1)) ≤ ring k hL (update v i x) := by
    refine Finset.prod_le_prod (fun j _ => mul_nonneg ?_ (a0.le.trans (H.lo _ _ _))) fun j _ => ?_
    · rw [hr]
      dsimp only
      split_ifs
      · exact r0.le
      · exact zero_le_one
    · rw [hr]
      dsimp only
      split_ifs with h
      · calc a / b * k j (at' hL v j) (at' hL v (j + 1)) ≤ a / b * b := mul_le_mul_of_nonneg_left (H.hi _ _ _) r0.le
          _ = a := by field_simp
          _ ≤ _ := H.lo _ _ _
      · rw [one_mul, hat j fun e => h (Or.inl e), hat (j + 1) fun e => h (Or.inr e)]
  rw [Finset.prod_mul_distrib] at h1
  refine le_trans (mul_le_mul_of_nonneg_right ?_ (ring_pos' H hL v).le) h1
  have h2 : ∏ j ∈ Finset.range L, r j = (a / b) ^ ((Finset.range L).filter fun j => j % L = i ∨ (j + 1) % L = i).card := by
    rw [hr, Finset.prod_ite, Finset.prod_const, Finset.prod_const_one, mul_one]
  rw [h2]
  refine pow_le_pow_of_le_one r0.le r1 ?_
  have hsub : ((Finset.range L).filter fun j => j % L = i ∨ (j + 1) % L = i) ⊆ {(i : ℕ), ((i : ℕ) + L - 1) % L} := fun j hj => by
    rw [Finset.mem_filter, Finset.mem_range] at hj
    rw [Finset.mem_insert, Finset.mem_singleton]
    obtain ⟨h3, h4 | h4⟩ := hj
    · exact Or.inl (by rwa [Nat.mod_eq_of_lt h3] at h4)
    · right
      by_cases e : j + 1 = L
      · rw [e, Nat.mod_self] at h4
        rw [← h4, Nat.mod_eq_of_lt (by omega)]
        omega
      · rw [Nat.mod_eq_of_lt (by omega)] at h4
        rw [← h4, show j + 1 + L - 1 = j + L by omega, Nat.add_mod_right, Nat.mod_eq_of_lt h3]
  exact (Finset.card_le_card hsub).trans Finset.card_le_two

end

end Verif.Gap
