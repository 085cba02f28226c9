/-
Helper lemmas about the loop combinators and checked accesses (any scalar type).
-/
import Verif.Model.Scalar
import Mathlib.Algebra.BigOperators.Group.Finset.Basic
import Mathlib.Algebra.BigOperators.Intervals
import Mathlib.Data.Real.Basic

namespace Verif

theorem ok_bind {α β : Type} (a : α) (f : α → R β) : (Except.ok a >>= f) = f a := rfl

theorem error_bind {α β : Type} (e : Panic) (f : α → R β) :
    ((Except.error e : R α) >>= f) = Except.error e := rfl

theorem idx_ok {α : Type} {xs : List α} {i : ℕ} (h : i < xs.length) : idx xs i = .ok xs[i] := by
  simp [idx, h]

theorem idx_some {α : Type} {xs : List α} {i : ℕ} {a : α} (h : xs[i]? = some a) :
    idx xs i = .ok a := by
  simp [idx, h]

theorem idx_oob {α : Type} {xs : List α} {i : ℕ} (h : xs.length ≤ i) :
    idx xs i = .error .indexOOB := by
  simp [idx, h]

theorem idx_eq_ok {α : Type} {xs : List α} {i : ℕ} {a : α} (h : idx xs i = .ok a) :
    xs[i]? = some a := by
  unfold idx at h
  split at h
  · next b hb => cases h; exact hb
  · cases h

theorem setIdx_ok {α : Type} {xs : List α} {i : ℕ} (h : i < xs.length) (a : α) :
    setIdx xs i a = .ok (xs.set i a) := by
  simp [setIdx, h]

theorem usub_ok {a b : ℕ} (h : b ≤ a) : usub a b = .ok (a - b) := by simp [usub, h]

theorem usub_err {a b : ℕ} (h : a < b) : usub a b = .error .underflow := by
  simp [usub, not_le.2 h]

theorem asUsize_nat {n : ℕ} (h : n < 2 ^ 31) : asUsize (n : ℤ) = n := by
  unfold asUsize
  omega

theorem foldlM_ok {α σ : Type} (body : σ → α → R σ) (g : σ → α → σ) (l : List α)
    (h : ∀ i ∈ l, ∀ acc, body acc i = .ok (g acc i)) (init : σ) :
    l.foldlM body init = .ok (l.foldl g init) := by
  induction l generalizing init with
  | nil => rfl
  | cons a l ih =>
    rw [List.foldlM_cons, h a (by simp), ok_bind, ih (fun i hi => h i (by simp [hi]))]
    rfl

theorem forRange_ok {σ : Type} {lo hi : ℕ} {body : ℕ → σ → R σ} (g : ℕ → σ → σ)
    (h : ∀ i, lo ≤ i → i < hi → ∀ acc, body i acc = .ok (g i acc)) (init : σ) :
    forRange lo hi init body =
      .ok ((List.range' lo (hi - lo)).foldl (fun acc i => g i acc) init) := by
  unfold forRange
  apply foldlM_ok
  intro i hi' acc
  rw [List.mem_range'_1] at hi'
  exact h i hi'.1 (by omega) acc

theorem foldl_add_range' (f : ℕ → ℝ) (lo n : ℕ) (init : ℝ) :
    (List.range' lo n).foldl (fun acc i => acc + f i) init
      = init + ∑ i ∈ Finset.range n, f (lo + i) := by
  induction n generalizing init with
  | zero => simp
  | succ n ih =>
    rw [List.range'_concat, List.foldl_append, ih, Finset.sum_range_succ]
    simp [add_assoc]

/-- a loop that adds `f i` in every pass -/
theorem forRange_add {hi : ℕ} {body : ℕ → ℝ → R ℝ} (f : ℕ → ℝ)
    (h : ∀ i, i < hi → ∀ acc, body i acc = .ok (acc + f i)) (init : ℝ) :
    forRange 0 hi init body = .ok (init + ∑ i ∈ Finset.range hi, f i) := by
  rw [forRange_ok (fun i acc => acc + f i) (fun i _ h2 acc => h i h2 acc), foldl_add_range']
  simp

theorem mapM_ok {α β : Type} (f : α → R β) (g : α → β) (l : List α)
    (h : ∀ i ∈ l, f i = .ok (g i)) : l.mapM f = .ok (l.map g) := by
  induction l with
  | nil => rfl
  | cons a l ih =>
    rw [List.mapM_cons, h a (by simp), ok_bind, ih (fun i hi => h i (by simp [hi])), ok_bind]
    rfl

theorem mapRange_ok {α : Type} {lo hi : ℕ} {f : ℕ → R α} (g : ℕ → α)
    (h : ∀ i, lo ≤ i → i < hi → f i = .ok (g i)) :
    mapRange lo hi f = .ok ((List.range' lo (hi - lo)).map g) := by
  unfold mapRange
  apply mapM_ok
  intro i hi'
  rw [List.mem_range'_1] at hi'
  exact h i hi'.1 (by omega)

theorem getElem?_map_range' {α : Type} (g : ℕ → α) (n i : ℕ) (h : i < n) :
    ((List.range' 0 n).map g)[i]? = some (g i) := by
  simp [h]

end Verif
