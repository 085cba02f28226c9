/-
C122: nearby runs separate at a bounded rate, and distant changes are felt late (/repo/src/spinchain.rs `update`).
-/
import Verif.Lemmas.LightCone
import Verif.Lemmas.Search
import Verif.Props.Recurrence

set_option linter.unusedSectionVars false

namespace Verif.Props

open Spec LightCone

section
variable {c c2 : SpinChain ℝ} {L s L2 s2 : ℕ} {a K W G : ℝ} {d : ℤ → ℝ}

theorem around_fld (hL : 2 ≤ L) {v : Fin L → V3 ℝ} (hv : ∀ i, len (v i) = 1) (k : ℤ) : len (around L (fld v) k) = 1 := by
  have := idx_lt hL k
  unfold around fld
  rw [dif_pos (by omega)]
  exact hv _

theorem flow_around_unit (hL : 2 ≤ L) {v : Fin L → V3 ℝ} (hv : ∀ i, len (v i) = 1) (n : ℕ) (k : ℤ) :
    len (around L (fld (flow c L s n v)) k) = 1 := by
  induction n generalizing k with
  | zero => exact around_fld hL hv k
  | succ n ih =>
    show len (around L (fld (stepFin _ _ _ _ (flow c L s n v))) k) = 1
    rw [fld_stepFin (by omega)]
    exact unit_sub hL (unit_sub hL (unit_sub hL ih 0 _) 1 _) 0 _ k

theorem flow_spread (hL : 2 ≤ L) (hL2 : 2 ≤ L2) (hdt : c2.vars.dt = c.vars.dt) (h0 : 0 ≤ c.vars.dt) {v : Fin L → V3 ℝ}
    {v2 : Fin L2 → V3 ℝ} (hv2 : ∀ i, len (v2 i) = 1)
    (C : ∀ u : ℝ, Close L L2 (J c) (B c s (c.t + u)) (J c2) (B c2 s2 (c2.t + u)) a K G d) (W0 : 0 ≤ W)
    (hW : ∀ k, len (sub (around L (fld v) k) (around L2 (fld v2) k)) ≤ W * Real.exp (-(a * d k))) (n : ℕ) (k : ℤ) :
    len (sub (around L (fld (flow c L s n v)) k) (around L2 (fld (flow c2 L2 s2 n v2)) k))
      ≤ (W + 2 * G * (n * c.vars.dt)) * Real.exp (4 * K * Real.exp a * (n * c.vars.dt)) * Real.exp (-(a * d k)) := by
  induction n generalizing k with
  | zero =>
    simp only [Nat.cast_zero, zero_mul, mul_zero, add_zero, Real.exp_zero, mul_one]
    exact hW k
  | succ n ih =>
    show len (sub (around L (fld (stepFin _ _ _ _ (flow c L s n v))) k)
      (around L2 (fld (stepFin _ _ _ _ (flow c2 L2 s2 n v2))) k)) ≤ _
    rw [fld_stepFin (by omega), fld_stepFin (by omega), hdt, add_assoc c.t, add_assoc c2.t]
    have h := (C (n * c.vars.dt + c.vars.dt / 2)).step (x := 2 * (n * c.vars.dt)) (W := W) hL hL2 W0 (by positivity)
      (fun k => (ih k).trans (le_of_eq (by ring_nf)))
      (flow_around_unit hL2 hv2 n) h0 k
    refine h.trans (le_of_eq ?_)
    push_cast
    ring_nf

theorem run_around (w : WF c L s) (hL : 2 ≤ L) (hu : ∀ x ∈ c.spins, IsUnit3 x) {n : ℕ} (hr : RegularRun c L s n)
    {c' : SpinChain ℝ} (h : c.updates n = .ok c') :
    (∀ i : Fin L, len (S c i) = 1) ∧ S c = fld (fun i : Fin L => S c i) ∧ S c' = fld (flow c L s n fun i : Fin L => S c i) := by
  have e := withSpins_self w
  have hv : ∀ i : Fin L, len (S c i) = 1 := fun i => unit_of w hu i.2
  obtain ⟨c1, h1, h2⟩ := run_flow (n := n) w hL hv (by rw [e]; exact hr)
  rw [e, h] at h1
  cases h1
  exact ⟨hv, by rw [← S_fld c, e], h2⟩

end

/-- C122, general form. Two chains, perhaps of different lengths, are compared site by site around their rings, with a
weight `exp (-a d)`, where `d` changes by at most one from site to site. If their spins differ by at most `W` and their
couplings and fields by at most `G`, in units of this weight, then after `n` updates the spins differ by at most
`(W + 2 G t) exp (4 K e^a t)` in these units, where `t = n dt` and `K` bounds the couplings: the length of the time-step
plays no role. -/
theorem C122_spread (c c2 c' c2' : SpinChain ℝ) (L s L2 s2 n : ℕ) (w : WF c L s) (w2 : WF c2 L2 s2) (hL : 2 ≤ L) (hL2 : 2 ≤ L2)
    (hu : ∀ x ∈ c.spins, IsUnit3 x) (hu2 : ∀ x ∈ c2.spins, IsUnit3 x)
    (hr : RegularRun c L s n) (hr2 : RegularRun c2 L2 s2 n) (hdt : c2.vars.dt = c.vars.dt) (h0 : 0 ≤ c.vars.dt)
    (h : c.updates n = .ok c') (h2 : c2.updates n = .ok c2')
    (a K W G : ℝ) (d : ℤ → ℝ) (ha : 0 ≤ a) (W0 : 0 ≤ W) (G0 : 0 ≤ G) (hd : ∀ k, |d (k + 1) - d k| ≤ 1)
    (hK : ∀ k, len (around L (J c) k) ≤ K)
    (hW : ∀ k, len (sub (around L (S c) k) (around L2 (S c2) k)) ≤ W * Real.exp (-(a * d k)))
    (hG : ∀ u k, len (sub (around L (J c) (k - 1)) (around L2 (J c2) (k - 1))) + len (sub (around L (J c) k) (around L2 (J c2) k))
      + len (sub (around L (B c s (c.t + u)) k) (around L2 (B c2 s2 (c2.t + u)) k)) ≤ G * Real.exp (-(a * d k))) (k : ℤ) :
    len (sub (around L (S c') k) (around L2 (S c2') k))
      ≤ (W + 2 * G * (n * c.vars.dt)) * Real.exp (4 * K * Real.exp a * (n * c.vars.dt)) * Real.exp (-(a * d k)) := by
  obtain ⟨-, e1, e2⟩ := run_around w hL hu hr h
  obtain ⟨v2, f1, f2⟩ := run_around w2 hL2 hu2 hr2 h2
  rw [e2, f2]
  refine flow_spread hL hL2 hdt h0 v2 (fun u => ⟨ha, G0, hd, hK, hG u⟩) W0 (fun k => ?_) n k
  rw [← e1, ← f1]
  exact hW k

theorem around_nat {L : ℕ} {f : ℕ → V3 ℝ} {i : ℕ} (hi : i < 2 * (L / 2)) : around L f i = f i := by
  unfold around
  congr 1
  rw [Int.emod_eq_of_lt (by omega) (by omega)]
  rfl

/-- C122, nearby starts: two runs of the same system whose spins differ by at most `E` differ by at most
`exp (4 K t) E` after the time `t = n dt`, `K` being a bound for the couplings. -/
theorem C122_nearby (c c2 c' c2' : SpinChain ℝ) (L s n : ℕ) (w : WF c L s) (w2 : WF c2 L s) (hL : 2 ≤ L)
    (hu : ∀ x ∈ c.spins, IsUnit3 x) (hu2 : ∀ x ∈ c2.spins, IsUnit3 x)
    (hr : RegularRun c L s n) (hr2 : RegularRun c2 L s n)
    (hj : c2.j_couple = c.j_couple) (hh : c2.static_h = c.static_h) (hv : c2.vars = c.vars) (ht : c2.t = c.t)
    (h0 : 0 ≤ c.vars.dt) (h : c.updates n = .ok c') (h2 : c2.updates n = .ok c2')
    (K E : ℝ) (hK : ∀ i < 2 * (L / 2), len (J c i) ≤ K)
    (hE : ∀ i < 2 * (L / 2), len (sub (S c i) (S c2 i)) ≤ E) (i : ℕ) (hi : i < 2 * (L / 2)) :
    len (sub (S c' i) (S c2' i)) ≤ Real.exp (4 * K * (n * c.vars.dt)) * E := by
  have E0 : 0 ≤ E := (len_nonneg _).trans (hE i hi)
  have z : ∀ x : V3 ℝ, len (sub x x) = 0 := fun x => by simp [len, dot, sub]
  have := C122_spread c c2 c' c2' L s L s n w w2 hL hL hu hu2 hr hr2 (by rw [hv]) h0 h h2 0 K E 0 (fun _ => 0) le_rfl E0 le_rfl
    (fun _ => by simp) (fun k => hK _ (idx_lt hL k)) (fun k => by
      rw [zero_mul, neg_zero, Real.exp_zero, mul_one]
      exact hE _ (idx_lt hL k))
    (fun u k => by rw [J_congr hj, ht, B_congr hh (by rw [hv]), z, z, z]; simp) i
  rw [around_nat hi, around_nat hi] at this
  refine this.trans (le_of_eq ?_)
  simp only [Real.exp_zero, zero_mul, neg_zero, mul_zero, mul_one, add_zero]
  ring

/-- C122, distant changes. If two chains, perhaps of different lengths, agree within `r` sites of site `k` in their spins,
couplings and fields, and their couplings and fields elsewhere differ by at most `G`, then after `n` updates the spins at
site `k` differ by at most `(2 + 2 G t) exp (4 K e^a t - a r)`, for every `a ≥ 0`: changes travel with a velocity below
`4 e K`, and what is ahead of this is exponentially small. -/
theorem C122_distant (c c2 c' c2' : SpinChain ℝ) (L s L2 s2 n : ℕ) (w : WF c L s) (w2 : WF c2 L2 s2) (hL : 2 ≤ L) (hL2 : 2 ≤ L2)
    (hu : ∀ x ∈ c.spins, IsUnit3 x) (hu2 : ∀ x ∈ c2.spins, IsUnit3 x)
    (hr : RegularRun c L s n) (hr2 : RegularRun c2 L2 s2 n) (hdt : c2.vars.dt = c.vars.dt) (h0 : 0 ≤ c.vars.dt)
    (h : c.updates n = .ok c') (h2 : c2.updates n = .ok c2')
    (a K G : ℝ) (ha : 0 ≤ a) (hK : ∀ i < 2 * (L / 2), len (J c i) ≤ K) (k : ℤ) (r : ℕ)
    (hS : ∀ j, |j - k| < r → around L (S c) j = around L2 (S c2) j ∧ around L (J c) (j - 1) = around L2 (J c2) (j - 1) ∧
      around L (J c) j = around L2 (J c2) j ∧ ∀ u, around L (B c s (c.t + u)) j = around L2 (B c2 s2 (c2.t + u)) j)
    (hG : ∀ u j, len (sub (around L (J c) (j - 1)) (around L2 (J c2) (j - 1))) + len (sub (around L (J c) j) (around L2 (J c2) j))
      + len (sub (around L (B c s (c.t + u)) j) (around L2 (B c2 s2 (c2.t + u)) j)) ≤ G) :
    len (sub (around L (S c') k) (around L2 (S c2') k))
      ≤ (2 + 2 * G * (n * c.vars.dt)) * Real.exp (4 * K * Real.exp a * (n * c.vars.dt) - a * r) := by
  have z : ∀ x : V3 ℝ, len (sub x x) = 0 := fun x => by simp [len, dot, sub]
  have G0 : 0 ≤ G := le_trans (add_nonneg (add_nonneg (len_nonneg _) (len_nonneg _)) (len_nonneg _)) (hG 0 0)
  have far : ∀ j : ℤ, ¬|j - k| < r → max 0 ((r : ℝ) - |((j - k : ℤ) : ℝ)|) = 0 := by
    intro j hj
    rw [max_eq_left]
    have : ((r : ℤ) : ℝ) ≤ ((|j - k| : ℤ) : ℝ) := by exact_mod_cast not_lt.1 hj
    rw [Int.cast_abs] at this
    push_cast at this ⊢
    linarith
  have u1 : ∀ j, len (around L (S c) j) = 1 := fun j => unit_of w hu (by have := idx_lt hL j; omega)
  have u2 : ∀ j, len (around L2 (S c2) j) = 1 := fun j => unit_of w2 hu2 (by have := idx_lt hL2 j; omega)
  have key := C122_spread c c2 c' c2' L s L2 s2 n w w2 hL hL2 hu hu2 hr hr2 hdt h0 h h2 a K 2 G
    (fun j => max 0 ((r : ℝ) - |((j - k : ℤ) : ℝ)|)) ha two_pos.le G0
    (fun j => by
      rw [max_comm, max_comm (0 : ℝ)]
      refine (abs_max_sub_max_le_abs _ _ _).trans ?_
      rw [sub_sub_sub_cancel_left]
      refine (abs_abs_sub_abs_le _ _).trans ?_
      push_cast
      rw [show (j : ℝ) - k - (j + 1 - k) = -1 by ring]
      simp)
    (fun j => hK _ (idx_lt hL j))
    (fun j => by
      by_cases hj : |j - k| < r
      · rw [(hS j hj).1, z]
        positivity
      · rw [far j hj, mul_zero, neg_zero, Real.exp_zero, mul_one]
        refine (len_sub_le _ _).trans ?_
        rw [u1, u2]
        norm_num)
    (fun u j => by
      by_cases hj : |j - k| < r
      · obtain ⟨-, j1, j2, j3⟩ := hS j hj
        rw [j1, j2, j3 u, z, z, z, add_zero, add_zero]
        exact mul_nonneg G0 (Real.exp_pos _).le
      · rw [far j hj, mul_zero, neg_zero, Real.exp_zero, mul_one]
        exact hG u j) k
  refine key.trans (le_of_eq ?_)
  rw [mul_assoc, ← Real.exp_add]
  congr 2
  simp [sub_eq_add_neg]

/-! ### the hypotheses are met -/

/-- six sites; the demonstration chain with two sites inserted opposite to the driven ones -/
noncomputable def demoLong : SpinChain ℝ where
  j_couple := [⟨1, 1, 1 / 2⟩, ⟨9 / 10, 1, 1 / 2⟩, ⟨1, 1, 1 / 2⟩, ⟨1, 1, 1 / 2⟩, ⟨1, 11 / 10, 1 / 2⟩, ⟨1, 1, 3 / 5⟩]
  static_h := [⟨1 / 10, 0, 6 / 5⟩, ⟨1 / 10, 0, 6 / 5⟩, ⟨0, 0, 3 / 2⟩, ⟨0, 0, 3 / 2⟩, ⟨0, 0, 3 / 2⟩, ⟨0, 0, 3 / 2⟩]
  spins := [⟨⟨3 / 13, -4 / 13, 12 / 13⟩⟩, ⟨⟨2 / 3, 2 / 3, -1 / 3⟩⟩, ⟨⟨1, 0, 0⟩⟩, ⟨⟨0, 1, 0⟩⟩, ⟨⟨0, 0, 1⟩⟩, ⟨⟨1, 0, 0⟩⟩]
  t := 0
  vars := { demoVars with hsize := 6 }
  file := some "log1.dat"

/-- the two chains agree around site 0 and have regular runs -/
example (n : ℕ) : WF demo 4 2 ∧ WF demoLong 6 2 ∧ (∀ x ∈ demo.spins, IsUnit3 x) ∧ (∀ x ∈ demoLong.spins, IsUnit3 x) ∧
    RegularRun demo 4 2 n ∧ RegularRun demoLong 6 2 n ∧ demoLong.vars.dt = demo.vars.dt ∧ 0 ≤ demo.vars.dt ∧
    ∀ j : ℤ, |j - 0| < (2 : ℕ) → around 4 (S demo) j = around 6 (S demoLong) j ∧
      around 4 (J demo) (j - 1) = around 6 (J demoLong) (j - 1) ∧ around 4 (J demo) j = around 6 (J demoLong) j ∧
      ∀ u, around 4 (B demo 2 (demo.t + u)) j = around 6 (B demoLong 2 (demoLong.t + u)) j := by
  have w : WF demoLong 6 2 := by constructor <;> simp [demoLong, demoVars]
  have hu : ∀ s ∈ demoLong.spins, IsUnit3 s := by
    intro s hs
    simp only [demoLong, List.mem_cons, List.not_mem_nil, or_false] at hs
    rw [unit_iff]
    rcases hs with rfl | rfl | rfl | rfl | rfl | rfl <;> norm_num [dot]
  refine ⟨demo_wf, w, demo_unit, hu, demo_regular n, regularRun_of_dominant w (by norm_num) hu ?_ n, rfl,
    by norm_num [demo, demoVars], fun j hj => ?_⟩
  · intro t i hi
    have : i = 0 ∨ i = 1 ∨ i = 2 ∨ i = 3 ∨ i = 4 ∨ i = 5 := by omega
    rcases this with rfl | rfl | rfl | rfl | rfl | rfl <;>
      norm_num [J, B, H0, demoLong, demoVars, left, drive, Spec.add, zero, Config.default, abs_of_pos]
  · have : j = -1 ∨ j = 0 ∨ j = 1 := by
      have := abs_lt.1 hj
      omega
    rcases this with rfl | rfl | rfl <;>
      refine ⟨?_, ?_, ?_, fun u => ?_⟩ <;>
      simp [around, S, J, B, H0, demo, demoLong, demoVars, drive]

end Verif.Props
