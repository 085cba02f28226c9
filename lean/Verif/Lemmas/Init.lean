/-
Helper lemmas for the construction of a chain.
-/
import Verif.Spec.Init
import Verif.Lemmas.SpinGeom
import Verif.Lemmas.Metropolis
import Mathlib.MeasureTheory.Integral.IntervalIntegral.FundThmCalculus
import Mathlib.Analysis.SpecialFunctions.Log.Deriv
import Mathlib.Analysis.SpecialFunctions.ExpDeriv

namespace Verif

open Spec

theorem perpUnit_eq {d r : V3 ℝ} (hd : dot d d = 1) : Spin.gs d r = perpUnit d r := by
  rw [gs_eq]
  have : gsSub d r = sub r (smul (dot r d) d) := by
    ext <;> simp [gsSub, sub, smul, hd]
  rw [this]
  ext <;> simp only [nrm, perpUnit, smul] <;> ring

theorem perpUnit_props {d r : V3 ℝ} (hd : dot d d = 1) (hc : cross d r ≠ zero) :
    dot (perpUnit d r) (perpUnit d r) = 1 ∧ dot d (perpUnit d r) = 0 := by
  have ho : d ≠ zero := by rintro rfl; simp [dot, zero] at hd
  have hne := gsSub_ne_zero ho hc
  rw [← perpUnit_eq hd, gs_eq]
  refine ⟨dot_nrm hne, ?_⟩
  have := gsSub_dot_old ho r
  rw [dot_comm]
  have h2 : dot (nrm (gsSub d r)) d = dot (gsSub d r) d / len (gsSub d r) := by
    simp only [dot, nrm]; ring
  rw [h2, this, zero_div]

theorem turn_unit {d r : V3 ℝ} (hd : dot d d = 1) (hc : cross d r ≠ zero) (a : ℝ) :
    dot (turn d r a) (turn d r a) = 1 := by
  obtain ⟨h1, h2⟩ := perpUnit_props hd hc
  have h3 : dot (turn d r a) (turn d r a) = Real.cos a ^ 2 * dot d d + Real.sin a ^ 2 *
      dot (cross (perpUnit d r) d) (cross (perpUnit d r) d)
      + 2 * Real.cos a * Real.sin a * dot (cross (perpUnit d r) d) d := by
    simp only [turn, dot, add, smul]; ring
  rw [h3, cross_dot_right, lagrange, dot_comm (perpUnit d r) d, h2, h1, hd]
  linear_combination Real.sin_sq_add_cos_sq a

theorem turn_dot {d r : V3 ℝ} (hd : dot d d = 1) (a : ℝ) :
    dot (turn d r a) d = Real.cos a := by
  have h3 : dot (turn d r a) d = Real.cos a * dot d d
      + Real.sin a * dot (cross (perpUnit d r) d) d := by
    simp only [turn, dot, add, smul]; ring
  rw [h3, cross_dot_right, hd]; ring

/-- One step of the generator in terms of directions. -/
theorem rot_perp_turn {st : ℝ × ℝ} {d r : V3 ℝ} {a : ℝ}
    (hst : (Spin.new_from_angles st.1 st.2).dir = d) (hc : cross d r ≠ zero)
    (hx : (turn d r a).x ≠ 0) :
    (Spin.new_from_angles (Spin.rot_perp st r a).1 (Spin.rot_perp st r a).2).dir
      = turn d r a := by
  obtain ⟨theta, phi⟩ := st
  set old := Spin.new_from_angles theta phi with hold
  have hu : IsUnit3 old := angles_unit theta phi
  change old.dir = d at hst
  subst hst
  have hd := unit_iff.1 hu
  obtain ⟨hg1, hg2⟩ := perpUnit_props hd hc
  set p := perpUnit old.dir r with hp
  have hpz : p ≠ zero := by
    intro h; rw [h] at hg1; simp [dot, zero] at hg1
  have hl : len p = 1 := by rw [len, hg1, Real.sqrt_one]
  have hnp : nrm p = p := by ext <;> simp [nrm, hl]
  have hrot : (old.rotate p (-a)).dir = turn old.dir r a := by
    rw [rotate_unit_eq hu hpz, hl, one_mul, hnp]
    ext <;> simp only [rodr, hg2, Real.cos_neg, Real.sin_neg, turn, add, smul, cross, ← hp] <;> ring
  have hux : IsUnit3 (old.rotate p (-a)) := rotate_unit (unit_ne_zero hu) hpz _
  have hrx : (old.rotate p (-a)).dir.x ≠ 0 := by rw [hrot]; exact hx
  have hback := angles_roundtrip hux hrx
  have : Spin.rot_perp (theta, phi) r a
      = ((old.rotate p (-a)).theta, (old.rotate p (-a)).phi) := by
    rw [hp, ← perpUnit_eq hd]; rfl
  rw [this]
  simp only [hback]
  exact hrot

theorem new_xyz_angles (theta phi : ℝ) :
    Spin.new_xyz [fcos theta * fsin phi, fsin theta * fsin phi, fcos phi]
      = .ok (Spin.new_from_angles theta phi) := by
  have h := unit_iff.1 (angles_unit theta phi)
  have : fsqrt (sumSqList [fcos theta * fsin phi, fsin theta * fsin phi, fcos phi]) = 1 := by
    have : sumSqList [fcos theta * fsin phi, fsin theta * fsin phi, fcos phi]
        = dot (Spin.new_from_angles theta phi).dir (Spin.new_from_angles theta phi).dir := by
      simp [sumSqList, dot, Spin.new_from_angles]
    rw [this, h, fsqrt_real, Real.sqrt_one]
  simp only [Spin.new_xyz, this, div_one]
  rfl

/-- the pure version of one step of the generator -/
noncomputable def genStep (b : ℝ) (st : ℝ × ℝ) (u1 u2 u3 : ℝ) : ℝ × ℝ :=
  Spin.rot_perp st ⟨Real.cos (2 * Real.pi * u1) * Real.sin (Real.arccos (1 - 2 * u2)),
    Real.sin (2 * Real.pi * u1) * Real.sin (Real.arccos (1 - 2 * u2)),
    Real.cos (Real.arccos (1 - 2 * u2))⟩
    (Real.arccos (Real.log (Real.exp b - u3 * (Real.exp b - 1 / Real.exp b)) / b))

noncomputable def genState (b : ℝ) (u : ℕ → ℝ) : ℕ → ℝ × ℝ
  | 0 => (0.01, Real.pi / 2)
  | x + 1 => genStep b (genState b u x) (u (3 * x)) (u (3 * x + 1)) (u (3 * x + 2))

theorem newSpinStep_eq (b : ℝ) (st : ℝ × ℝ) (u1 u2 u3 : ℝ) :
    SpinChain.newSpinStep b st u1 u2 u3 = .ok (genStep b st u1 u2 u3,
      Spin.new_from_angles (genStep b st u1 u2 u3).1 (genStep b st u1 u2 u3).2) := by
  unfold SpinChain.newSpinStep
  dsimp only
  rw [new_xyz_angles]
  simp [genStep]

theorem newSpins_eq (b : ℝ) (u : ℕ → ℝ) (n : ℕ) :
    SpinChain.newSpins b u n = .ok ((List.range n).map fun x =>
      Spin.new_from_angles (genState b u (x + 1)).1 (genState b u (x + 1)).2) := by
  have key : ∀ n, forRange 0 n ((((0.01 : ℝ), (fpi / 2.0 : ℝ)), ([] : List (Spin ℝ))))
      (fun x acc => do
        let (st, sp) ← SpinChain.newSpinStep b acc.1 (u (3 * x)) (u (3 * x + 1)) (u (3 * x + 2))
        return (st, acc.2 ++ [sp])) = .ok (genState b u n, (List.range n).map fun x =>
      Spin.new_from_angles (genState b u (x + 1)).1 (genState b u (x + 1)).2) := by
    intro n
    induction n with
    | zero => simp [forRange, genState]; rfl
    | succ n ih =>
      unfold forRange at ih ⊢
      rw [Nat.sub_zero] at ih ⊢
      rw [List.range'_concat, List.foldlM_append, ih, ok_bind]
      simp only [List.foldlM_cons, List.foldlM_nil, newSpinStep_eq, Nat.one_mul, Nat.zero_add,
        ok_bind, List.range_succ, List.map_append, List.map_cons, List.map_nil]
      rfl
  unfold SpinChain.newSpins
  rw [key]
  rfl

theorem genRot_eq {u1 u2 : ℝ} (h0 : 0 ≤ u2) (h1 : u2 < 1) :
    (⟨Real.cos (2 * Real.pi * u1) * Real.sin (Real.arccos (1 - 2 * u2)),
    Real.sin (2 * Real.pi * u1) * Real.sin (Real.arccos (1 - 2 * u2)),
    Real.cos (Real.arccos (1 - 2 * u2))⟩ : V3 ℝ) = spherePoint u1 u2 := by
  rw [Real.sin_arccos, Real.cos_arccos (by linarith) (by linarith)]
  ext <;> simp only [spherePoint] <;> ring

theorem genState_walk {b : ℝ} {u : ℕ → ℝ} (hu : UnitDraws u) {n : ℕ}
    (hn : NonDegenerate b u n) : ∀ x ≤ n,
    (Spin.new_from_angles (genState b u x).1 (genState b u x).2).dir = walk b u x := by
  intro x hx
  induction x with
  | zero =>
    simp only [genState, walk, Spin.new_from_angles, fcos_real, fsin_real]
    norm_num
  | succ x ih =>
    obtain ⟨h1, h2⟩ := hn x hx
    have hr := genRot_eq (u1 := u (3 * x)) (hu (3 * x + 1)).1 (hu (3 * x + 1)).2
    simp only [genState, genStep, hr]
    have ho : Real.log (Real.exp b - u (3 * x + 2) * (Real.exp b - 1 / Real.exp b)) / b
        = overlap b (u (3 * x + 2)) := by
      rw [overlap, Real.exp_neg, one_div]
    rw [ho]
    exact rot_perp_turn (ih (by omega)) h1 h2

theorem walk_unit {b : ℝ} {u : ℕ → ℝ} {n : ℕ}
    (hn : NonDegenerate b u n) : ∀ x ≤ n, dot (walk b u x) (walk b u x) = 1 := by
  intro x hx
  induction x with
  | zero =>
    simp only [walk, dot]
    linear_combination Real.sin_sq_add_cos_sq (1 / 100)
  | succ x ih => exact turn_unit (ih (by omega)) (hn x hx).1 _

/-! ### The Boltzmann overlap -/

theorem sub_exp_neg_ne {b : ℝ} (hb : b ≠ 0) : Real.exp b - Real.exp (-b) ≠ 0 := by
  intro h
  have : Real.exp b = Real.exp (-b) := by linarith
  have := Real.exp_injective this
  apply hb; linarith

/-- the argument of the logarithm lies between `e^b` and `e^{-b}` -/
theorem overlap_arg_pos (b : ℝ) {u : ℝ} (h0 : 0 ≤ u) (h1 : u ≤ 1) :
    0 < Real.exp b - u * (Real.exp b - Real.exp (-b)) := by
  have hp := Real.exp_pos b
  have hm := Real.exp_pos (-b)
  rcases eq_or_lt_of_le h1 with rfl | h
  · linarith
  · nlinarith [mul_pos (sub_pos.2 h) hp, mul_nonneg h0 hm.le]

theorem exp_overlap {b : ℝ} (hb : b ≠ 0) {u : ℝ} (h0 : 0 ≤ u) (h1 : u ≤ 1) :
    Real.exp (b * overlap b u) = Real.exp b - u * (Real.exp b - Real.exp (-b)) := by
  rw [overlap, mul_div_cancel₀ _ hb, Real.exp_log (overlap_arg_pos b h0 h1)]

theorem overlap_le_iff {b : ℝ} (hb : b ≠ 0) {u c : ℝ} (h0 : 0 ≤ u) (h1 : u ≤ 1) :
    overlap b u ≤ c ↔ (Real.exp b - Real.exp (b * c)) / (Real.exp b - Real.exp (-b)) ≤ u := by
  have e := exp_overlap hb h0 h1
  rcases lt_or_gt_of_ne hb with h | h
  · have hd : Real.exp b - Real.exp (-b) < 0 := by
      rw [sub_neg, Real.exp_lt_exp]; linarith
    rw [div_le_iff_of_neg hd, ← mul_le_mul_left_of_neg h, ← Real.exp_le_exp, e]
    constructor <;> intro <;> linarith
  · have hd : 0 < Real.exp b - Real.exp (-b) := by
      rw [sub_pos, Real.exp_lt_exp]; linarith
    rw [div_le_iff₀ hd, ← mul_le_mul_iff_right₀ h, ← Real.exp_le_exp, e]
    constructor <;> intro <;> linarith

theorem overlap_ge_iff {b : ℝ} (hb : b ≠ 0) {u c : ℝ} (h0 : 0 ≤ u) (h1 : u ≤ 1) :
    c ≤ overlap b u ↔ u ≤ (Real.exp b - Real.exp (b * c)) / (Real.exp b - Real.exp (-b)) := by
  have e := exp_overlap hb h0 h1
  rcases lt_or_gt_of_ne hb with h | h
  · have hd : Real.exp b - Real.exp (-b) < 0 := by
      rw [sub_neg, Real.exp_lt_exp]; linarith
    rw [le_div_iff_of_neg hd, ← mul_le_mul_left_of_neg h, ← Real.exp_le_exp, e]
    constructor <;> intro <;> linarith
  · have hd : 0 < Real.exp b - Real.exp (-b) := by
      rw [sub_pos, Real.exp_lt_exp]; linarith
    rw [le_div_iff₀ hd, ← mul_le_mul_iff_right₀ h, ← Real.exp_le_exp, e]
    constructor <;> intro <;> linarith

theorem overlap_mem {b : ℝ} (hb : b ≠ 0) {u : ℝ} (h0 : 0 ≤ u) (h1 : u ≤ 1) :
    -1 ≤ overlap b u ∧ overlap b u ≤ 1 := by
  rw [overlap_ge_iff hb h0 h1, overlap_le_iff hb h0 h1]
  have := sub_exp_neg_ne hb
  simp only [mul_neg, mul_one, sub_self, zero_div]
  rw [div_self this]
  exact ⟨h1, h0⟩

theorem overlap_inj {b : ℝ} (hb : b ≠ 0) {u v : ℝ} (h0 : 0 ≤ u) (h1 : u ≤ 1) (h0' : 0 ≤ v)
    (h1' : v ≤ 1) (h : overlap b u = overlap b v) : u = v := by
  have e1 := exp_overlap hb h0 h1
  have e2 := exp_overlap hb h0' h1'
  rw [h, e2] at e1
  have : (v - u) * (Real.exp b - Real.exp (-b)) = 0 := by linarith
  rcases mul_eq_zero.1 this with h | h
  · linarith
  · exact absurd h (sub_exp_neg_ne hb)

theorem integral_exp_mul (b lo hi : ℝ) (hb : b ≠ 0) :
    ∫ t in lo..hi, Real.exp (b * t) = (Real.exp (b * hi) - Real.exp (b * lo)) / b := by
  have h : ∀ t ∈ Set.uIcc lo hi, HasDerivAt (fun t => Real.exp (b * t) / b) (Real.exp (b * t)) t := by
    intro t _
    have := (((hasDerivAt_id' t).const_mul b).exp).div_const b
    rwa [mul_one, mul_div_cancel_right₀ _ hb] at this
  rw [intervalIntegral.integral_eq_sub_of_hasDerivAt h (by
    apply Continuous.intervalIntegrable; fun_prop)]
  ring

open MeasureTheory in
theorem overlap_volume {b : ℝ} (hb : b ≠ 0) {c : ℝ} (h1 : c ≤ 1) :
    volume {u : ℝ | 0 ≤ u ∧ u < 1 ∧ overlap b u ≤ c}
      = ENNReal.ofReal ((∫ t in (-1)..c, Real.exp (b * t)) / ∫ t in (-1)..1, Real.exp (b * t)) := by
  have hd := sub_exp_neg_ne hb
  rw [integral_exp_mul b _ _ hb, integral_exp_mul b _ _ hb]
  set k := (Real.exp b - Real.exp (b * c)) / (Real.exp b - Real.exp (-b)) with hk
  have hk0 : 0 ≤ k := by
    rw [hk]
    rcases lt_or_gt_of_ne hb with h | h
    · apply div_nonneg_of_nonpos
      · rw [sub_nonpos, Real.exp_le_exp]; nlinarith
      · rw [sub_nonpos, Real.exp_le_exp]; linarith
    · apply div_nonneg
      · rw [sub_nonneg, Real.exp_le_exp]; nlinarith
      · rw [sub_nonneg, Real.exp_le_exp]; linarith
  have hset : {u : ℝ | 0 ≤ u ∧ u < 1 ∧ overlap b u ≤ c} = Set.Ico k 1 := by
    ext u
    simp only [Set.mem_ofPred_eq, Set.mem_Ico]
    constructor
    · rintro ⟨a1, a2, a3⟩
      exact ⟨(overlap_le_iff hb a1 a2.le).1 a3, a2⟩
    · rintro ⟨a1, a2⟩
      exact ⟨hk0.trans a1, a2, (overlap_le_iff hb (hk0.trans a1) a2.le).2 a1⟩
  rw [hset, Real.volume_Ico]
  congr 1
  rw [hk]
  simp only [mul_neg, mul_one]
  field_simp
  ring

theorem overlap_mean {b : ℝ} (hb : b ≠ 0) :
    ∫ u in (0:ℝ)..1, overlap b u = Real.cosh b / Real.sinh b - 1 / b := by
  have hd := sub_exp_neg_ne hb
  set D := Real.exp b - Real.exp (-b) with hD
  have h : ∀ u ∈ Set.uIcc (0:ℝ) 1, HasDerivAt (fun u => -((Real.exp b - u * D)
      * Real.log (Real.exp b - u * D) - (Real.exp b - u * D)) / (b * D)) (overlap b u) u := by
    intro u hu
    rw [Set.uIcc_of_le zero_le_one] at hu
    have hp := overlap_arg_pos b hu.1 hu.2
    have hv : HasDerivAt (fun u => Real.exp b - u * D) (-D) u := by
      have := ((hasDerivAt_id' u).mul_const D).const_sub (Real.exp b)
      simpa using this
    have := (((hv.mul (hv.log hp.ne')).sub hv).neg).div_const (b * D)
    have e : overlap b u = Real.log (Real.exp b - u * D) / b := by rw [overlap, hD]
    rw [e]
    refine this.congr_deriv ?_
    have hp' : Real.exp b - u * D ≠ 0 := hp.ne'
    rw [mul_div_cancel₀ _ hp']
    field_simp
    ring
  have hint : IntervalIntegrable (overlap b) MeasureTheory.volume 0 1 := by
    apply ContinuousOn.intervalIntegrable
    rw [Set.uIcc_of_le zero_le_one]
    unfold overlap
    apply ContinuousOn.div_const
    apply ContinuousOn.log
    · fun_prop
    · intro u hu
      exact (overlap_arg_pos b hu.1 hu.2).ne'
  rw [intervalIntegral.integral_eq_sub_of_hasDerivAt h hint]
  have e1 : Real.exp b - 1 * D = Real.exp (-b) := by rw [hD]; ring
  rw [e1, Real.log_exp]
  simp only [zero_mul, sub_zero, Real.log_exp]
  rw [Real.cosh_eq, Real.sinh_eq, ← hD]
  field_simp
  ring

end Verif
