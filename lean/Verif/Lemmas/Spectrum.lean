/-
Helper lemmas: the spectrum, Parseval's identity.
-/
import Verif.Spec.Fourier
import Verif.Lemmas.EnergyModel
import Mathlib.RingTheory.RootsOfUnity.Complex
import Mathlib.Algebra.Ring.GeomSum

namespace Verif

open Spec Finset

/-- a loop of assignments to distinct places -/
theorem forRange_setIdx {α : Type} (lo hi : ℕ) (off : ℕ → ℕ) (f : ℕ → α) (xs : List α)
    (hoff : ∀ i, lo ≤ i → i < hi → off i < xs.length)
    (hinj : ∀ i i', lo ≤ i → i < hi → lo ≤ i' → i' < hi → off i = off i' → i = i') :
    ∃ ys, forRange lo hi xs (fun i ek => setIdx ek (off i) (f i)) = .ok ys ∧
      ys.length = xs.length ∧ (∀ i, lo ≤ i → i < hi → ys[off i]? = some (f i)) ∧
      ∀ k, (∀ i, lo ≤ i → i < hi → off i ≠ k) → ys[k]? = xs[k]? := by
  by_cases hlo : lo ≤ hi
  swap
  · refine ⟨xs, ?_, rfl, fun i h1 h2 => by omega, fun _ _ => rfl⟩
    unfold forRange
    rw [show hi - lo = 0 by omega]
    rfl
  obtain ⟨n, rfl⟩ : ∃ n, hi = lo + n := ⟨hi - lo, by omega⟩
  clear hlo
  induction n with
  | zero =>
    refine ⟨xs, ?_, rfl, fun i h1 h2 => by omega, fun _ _ => rfl⟩
    unfold forRange
    rw [show lo + 0 - lo = 0 by omega]
    rfl
  | succ n ih =>
    obtain ⟨ys, h1, h2, h3, h4⟩ := ih (fun i a b => hoff i a (by omega))
      (fun i i' a b c d => hinj i i' a (by omega) c (by omega))
    have hl : off (lo + n) < ys.length := by rw [h2]; exact hoff _ (by omega) (by omega)
    refine ⟨ys.set (off (lo + n)) (f (lo + n)), ?_, by simp [h2], ?_, ?_⟩
    · unfold forRange at h1 ⊢
      rw [show lo + n - lo = n by omega] at h1
      rw [show lo + (n + 1) - lo = n + 1 by omega, List.range'_concat, List.foldlM_append, h1,
        ok_bind]
      simp only [List.foldlM_cons, List.foldlM_nil, Nat.one_mul, setIdx_ok hl, ok_bind]
      rfl
    · intro i a b
      by_cases hi : i = lo + n
      · subst hi; rw [List.getElem?_set_self hl]
      · rw [List.getElem?_set_ne]
        · exact h3 i a (by omega)
        · intro he
          exact hi (hinj i (lo + n) a b (by omega) (by omega) he.symm)
    · intro k hk
      rw [List.getElem?_set_ne (hk (lo + n) (by omega) (by omega))]
      exact h4 k (fun i a b => hk i a (by omega))

theorem dft_fold (g : ℕ → ℝ) (xs : List ℝ) (m : ℕ) (a : ℝ × ℝ) :
    (xs.zipIdx m).foldl (fun acc p =>
      (acc.1 + p.1 * Real.cos (g p.2), acc.2 - p.1 * Real.sin (g p.2))) a
    = (a.1 + ∑ j ∈ range xs.length, xs.getD j 0 * Real.cos (g (m + j)),
       a.2 - ∑ j ∈ range xs.length, xs.getD j 0 * Real.sin (g (m + j))) := by
  induction xs generalizing m a with
  | nil => simp
  | cons x xs ih =>
    rw [List.zipIdx_cons, List.foldl_cons, ih, List.length_cons, sum_range_succ', sum_range_succ']
    simp only [List.getD_cons_succ, List.getD_cons_zero, Nat.add_zero]
    have : ∀ j, m + 1 + j = m + (j + 1) := fun j => by omega
    simp only [this]
    ext <;> dsimp only <;> ring

theorem fourier_parts (L : ℕ) (x : ℕ → ℝ) (n : ℕ) :
    fourier L x n = ⟨∑ j ∈ range L, x j * Real.cos (2 * Real.pi * n * j / L),
      -∑ j ∈ range L, x j * Real.sin (2 * Real.pi * n * j / L)⟩ := by
  unfold fourier
  have h : ∀ j : ℕ, (x j : ℂ) * Complex.exp (-(2 * Real.pi * n * j / L : ℝ) * Complex.I)
      = ⟨x j * Real.cos (2 * Real.pi * n * j / L), -(x j * Real.sin (2 * Real.pi * n * j / L))⟩ := by
    intro j
    rw [show (-(2 * Real.pi * n * j / L : ℝ) * Complex.I : ℂ)
      = ((-(2 * Real.pi * n * j / L) : ℝ) : ℂ) * Complex.I by push_cast; ring]
    rw [Complex.exp_mul_I, ← Complex.ofReal_cos, ← Complex.ofReal_sin, Real.cos_neg, Real.sin_neg]
    generalize Real.cos (2 * Real.pi * n * j / L) = p
    generalize Real.sin (2 * Real.pi * n * j / L) = q
    apply Complex.ext <;> simp
  rw [sum_congr rfl (fun j _ => h j)]
  apply Complex.ext
  · rw [Complex.re_sum]
  · rw [Complex.im_sum, sum_neg_distrib]

theorem dft_eq (L : ℕ) (x : ℕ → ℝ) (xs : List ℝ) (hl : xs.length = L)
    (hx : ∀ j < L, xs.getD j 0 = x j) (n : ℕ) :
    SpinChain.dft xs L n = ((fourier L x n).re, (fourier L x n).im) := by
  have h := dft_fold (fun j => 2 * Real.pi * ((n * j : ℕ) : ℤ) / (L : ℤ)) xs 0 (0, 0)
  rw [fourier_parts]
  unfold SpinChain.dft
  simp only [fcos_real, fsin_real, fpi_real, fofInt_real, lit_2, lit_0]
  refine h.trans ?_
  rw [hl]
  have e : ∀ j : ℕ, (2 * Real.pi * (((n * j : ℕ) : ℤ) : ℝ) / ((L : ℤ) : ℝ))
      = 2 * Real.pi * n * j / L := by
    intro j; push_cast; ring
  simp only [zero_add, e, zero_sub]
  congr 1
  · exact sum_congr rfl fun j hj => by rw [hx j (mem_range.1 hj)]
  · congr 1
    exact sum_congr rfl fun j hj => by rw [hx j (mem_range.1 hj)]

variable {c : SpinChain ℝ} {L s : ℕ}

theorem getD_spins (w : WF c L s) (f : V3 ℝ → ℝ) {j : ℕ} (hj : j < L) :
    (c.spins.map fun s => f s.dir).getD j 0 = f (S c j) := by
  have hlt : j < c.spins.length := by rw [w.spins]; exact hj
  simp [S, List.getD, hlt]

theorem modePower_eq (w : WF c L s) (n : ℕ) :
    SpinChain.modePower c.spins L n = power L c n := by
  have hl : ∀ f : V3 ℝ → ℝ, (c.spins.map fun s => f s.dir).length = L := by simp [w.spins]
  unfold SpinChain.modePower power
  rw [dft_eq L (fun j => (S c j).x) _ (hl fun v => v.x) (fun j hj => getD_spins w (fun v => v.x) hj),
    dft_eq L (fun j => (S c j).y) _ (hl fun v => v.y) (fun j hj => getD_spins w (fun v => v.y) hj),
    dft_eq L (fun j => (S c j).z) _ (hl fun v => v.z) (fun j hj => getD_spins w (fun v => v.z) hj)]
  simp only [Complex.normSq_apply]
  ring

/-- the spectrum, entry by entry -/
theorem spectrum_entries (w : WF c L s) :
    ∃ ek, c.energy_spectrum = .ok ek ∧ ek.length = L ∧
      (∀ i < L / 2, ek[i + L / 2]? = some (power L c i)) ∧
      (∀ i, L / 2 ≤ i → i < L → (i - L / 2 < L / 2 ∨ 2 * (L / 2) ≤ i - L / 2) →
        ek[i - L / 2]? = some (power L c i)) ∧
      (L % 2 = 1 → 1 < L → ek[L - 1]? = some 0) := by
  have hh : asUsize c.vars.hsize = L := by rw [w.hsize, asUsize_nat w.L_lt]
  obtain ⟨e1, a1, a2, a3, a4⟩ := forRange_setIdx (L / 2) L (fun i => i - L / 2)
    (fun i => SpinChain.modePower c.spins L i) (List.replicate L (0.0 : ℝ))
    (fun i h1 h2 => by simp; omega) (fun i i' h1 h2 h3 h4 h => by omega)
  rw [List.length_replicate] at a2
  obtain ⟨e2, b1, b2, b3, b4⟩ := forRange_setIdx 0 (L / 2) (fun i => i + L / 2)
    (fun i => SpinChain.modePower c.spins L i) e1
    (fun i h1 h2 => by rw [a2]; omega) (fun i i' h1 h2 h3 h4 h => by omega)
  refine ⟨e2, ?_, by rw [b2, a2], ?_, ?_, ?_⟩
  · unfold SpinChain.energy_spectrum
    simp only [hh, w.spins, ne_eq, not_true_eq_false, if_false]
    rw [a1, ok_bind, b1]
  · intro i hi
    rw [b3 i (by omega) hi, modePower_eq w]
  · intro i h1 h2 h3
    rw [b4 _ (fun k h4 h5 h6 => by omega), a3 i h1 h2, modePower_eq w]
  · intro hodd h1
    rw [b4 _ (fun k h4 h5 h6 => by omega), a4 _ (fun k h4 h5 h6 => by omega)]
    rw [List.getElem?_replicate, if_pos (by omega)]; simp

theorem sum_map_range (f : ℕ → ℝ) (n : ℕ) :
    ((List.range n).map f).sum = ∑ i ∈ range n, f i := by
  induction n with
  | zero => simp
  | succ n ih => rw [List.range_succ, List.map_append, List.sum_append, ih, sum_range_succ]; simp

theorem mapRange_error {α : Type} {f : ℕ → R α} {hi : ℕ} (k : ℕ) (hk : k < hi)
    (h : ∃ p, f k = .error p) : ∃ p, mapRange 0 hi f = .error p := by
  obtain ⟨p, hp⟩ := h
  have key : ∀ l : List ℕ, k ∈ l → ∃ p, l.mapM f = .error p := by
    intro l hl
    induction l with
    | nil => simp at hl
    | cons a l ih =>
      rw [List.mapM_cons]
      cases ha : f a with
      | error e => exact ⟨e, rfl⟩
      | ok b =>
        rcases List.mem_cons.1 hl with rfl | h
        · rw [hp] at ha; cases ha
        · obtain ⟨q, hq⟩ := ih h
          exact ⟨q, by rw [ok_bind, hq]; rfl⟩
  exact key _ (by simp; omega)

/-! ### Parseval -/

theorem sum_roots {L : ℕ} (hL : L ≠ 0) (j k : ℕ) (hj : j < L) (hk : k < L) :
    ∑ n ∈ range L, Complex.exp (-(2 * Real.pi * n * j / L : ℝ) * Complex.I)
        * Complex.exp ((2 * Real.pi * n * k / L : ℝ) * Complex.I)
      = if j = k then (L : ℂ) else 0 := by
  have hLc : (L : ℂ) ≠ 0 := Nat.cast_ne_zero.2 hL
  set ζ := Complex.exp (2 * Real.pi * Complex.I / L) with hζ
  have hp : IsPrimitiveRoot ζ L := Complex.isPrimitiveRoot_exp L hL
  have hz : ζ ≠ 0 := Complex.exp_ne_zero _
  have e : ∀ n : ℕ, Complex.exp (-(2 * Real.pi * n * j / L : ℝ) * Complex.I)
        * Complex.exp ((2 * Real.pi * n * k / L : ℝ) * Complex.I) = (ζ ^ k / ζ ^ j) ^ n := by
    intro n
    rw [hζ, ← Complex.exp_nat_mul, ← Complex.exp_nat_mul, ← Complex.exp_sub, ← Complex.exp_nat_mul,
      ← Complex.exp_add]
    congr 1
    push_cast
    field_simp
    ring
  rw [sum_congr rfl (fun n _ => e n)]
  split_ifs with h
  · subst h
    rw [div_self (pow_ne_zero _ hz)]
    simp
  · have hne : ζ ^ k / ζ ^ j ≠ 1 := by
      intro h1
      rw [div_eq_one_iff_eq (pow_ne_zero _ hz)] at h1
      exact h (hp.pow_inj hj hk h1.symm)
    have h1 : (ζ ^ k / ζ ^ j) ^ L = 1 := by
      rw [div_pow, ← pow_mul, ← pow_mul, mul_comm k, mul_comm j, pow_mul, pow_mul, hp.pow_eq_one]
      simp
    have := geom_sum_eq hne L
    rw [this, h1]
    simp

theorem parseval {L : ℕ} (hL : L ≠ 0) (x : ℕ → ℝ) :
    ∑ n ∈ range L, Complex.normSq (fourier L x n) = L * ∑ j ∈ range L, x j ^ 2 := by
  have h : ∀ n : ℕ, ((Complex.normSq (fourier L x n) : ℝ) : ℂ)
      = ∑ j ∈ range L, ∑ k ∈ range L, (x j : ℂ) * (x k : ℂ) *
        (Complex.exp (-(2 * Real.pi * n * j / L : ℝ) * Complex.I)
          * Complex.exp ((2 * Real.pi * n * k / L : ℝ) * Complex.I)) := by
    intro n
    rw [← Complex.mul_conj, fourier, map_sum, sum_mul_sum]
    apply sum_congr rfl; intro j _
    apply sum_congr rfl; intro k _
    rw [map_mul, Complex.conj_ofReal, ← Complex.exp_conj]
    have : (starRingEnd ℂ) (-(2 * Real.pi * n * k / L : ℝ) * Complex.I)
        = ((2 * Real.pi * n * k / L : ℝ) : ℂ) * Complex.I := by
      rw [map_mul, map_neg, Complex.conj_ofReal, Complex.conj_I]; ring
    rw [this]; ring
  have key : ((∑ n ∈ range L, Complex.normSq (fourier L x n) : ℝ) : ℂ)
      = ((L * ∑ j ∈ range L, x j ^ 2 : ℝ) : ℂ) := by
    push_cast
    rw [sum_congr rfl (fun n _ => h n), sum_comm, mul_sum]
    apply sum_congr rfl; intro j hj
    rw [sum_comm]
    have : ∀ k ∈ range L, ∑ n ∈ range L, (x j : ℂ) * (x k : ℂ) *
        (Complex.exp (-(2 * Real.pi * n * j / L : ℝ) * Complex.I)
          * Complex.exp ((2 * Real.pi * n * k / L : ℝ) * Complex.I))
        = if j = k then (L : ℂ) * (x j : ℂ) ^ 2 else 0 := by
      intro k hk
      rw [← mul_sum, sum_roots hL j k (mem_range.1 hj) (mem_range.1 hk)]
      split_ifs with h
      · subst h; ring
      · ring
    rw [sum_congr rfl this, sum_ite_eq, if_pos hj]
  exact_mod_cast key

theorem power_sum {L : ℕ} (hL : L ≠ 0) (c : SpinChain ℝ) :
    ∑ n ∈ range L, power L c n = L * ∑ j ∈ range L, dot (S c j) (S c j) := by
  unfold power
  rw [sum_add_distrib, sum_add_distrib, parseval hL, parseval hL, parseval hL, ← mul_add, ← mul_add,
    ← sum_add_distrib, ← sum_add_distrib]
  congr 1
  apply sum_congr rfl; intro j _
  simp only [dot]; ring

end Verif
