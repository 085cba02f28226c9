/-
Helper lemmas: a search asks each estimate at a temperature that depends on the earlier estimates only, so the probabilities that
single estimates are off add up, one for each estimate.
-/
import Verif.Lemmas.Search
import Mathlib.MeasureTheory.Constructions.Pi

set_option linter.unusedSectionVars false

namespace Verif.Search

open MeasureTheory Finset
open scoped ENNReal

section
variable {l h target : ℝ}

/-- the half of the bracket kept -/
noncomputable def half (target : ℝ) (b : Bisect ℝ) : Bisect ℝ :=
  if flt target b.e_mid then { b with low := b.mid } else { b with high := b.mid }

/-- the search after `j` passes, whatever its width, with estimates that do not panic -/
noncomputable def stt (l h target : ℝ) (e : ℕ → ℝ → ℝ) : ℕ → Bisect ℝ
  | 0 => ⟨l, 0.5 * (l + h), h, e 1 (0.5 * (l + h)), 3⟩
  | j + 1 =>
    let b := half target (stt l h target e j)
    { b with
      mid := 0.5 * (b.low + b.high)
      e_mid := e (3 + j) (0.5 * (b.low + b.high))
      calls := 3 + (j + 1) }

/-- where the search asks the `k`-th estimate -/
noncomputable def ask (l h target : ℝ) (e : ℕ → ℝ → ℝ) : ℕ → ℝ
  | 0 => l
  | 1 => 0.5 * (l + h)
  | 2 => h
  | j + 3 => 0.5 * ((half target (stt l h target e j)).low + (half target (stt l h target e j)).high)

theorem stt_calls (e : ℕ → ℝ → ℝ) (j : ℕ) : (stt l h target e j).calls = 3 + j := by
  cases j <;> rfl

/-- what an estimate says where it is not asked does not matter -/
theorem stt_congr {e e' : ℕ → ℝ → ℝ} (j : ℕ) (he : ∀ k < 3 + j, e k (ask l h target e k) = e' k (ask l h target e k)) :
    stt l h target e j = stt l h target e' j := by
  induction j with
  | zero =>
    have h1 := he 1 (by omega)
    simp only [ask] at h1
    simp only [stt, h1]
  | succ j ih =>
    have hj := ih fun k hk => he k (by omega)
    have h1 := he (3 + j) (by omega)
    rw [show 3 + j = j + 3 by omega] at h1
    simp only [ask] at h1
    simp only [stt]
    rw [← hj, show 3 + j = j + 3 by omega, h1]

theorem ask_congr {e e' : ℕ → ℝ → ℝ} (k : ℕ) (he : ∀ i < k, e i = e' i) : ask l h target e k = ask l h target e' k := by
  match k with
  | 0 => rfl
  | 1 => rfl
  | 2 => rfl
  | j + 3 =>
    simp only [ask]
    rw [stt_congr j fun i hi => by rw [he i (by omega)]]

theorem bisect_ask {e e' : ℕ → ℝ → ℝ} (N : ℕ) (he : ∀ k < 3 + N, e k (ask l h target e k) = e' k (ask l h target e k)) :
    bisect l h target (fun k x => .ok (e k x)) N = bisect l h target (fun k x => .ok (e' k x)) N := by
  have h1 := he 1 (by omega)
  simp only [ask] at h1
  have e0 : bisectInit l h (fun k x => (.ok (e k x) : R ℝ)) = .ok (stt l h target e 0) := rfl
  have e0' : bisectInit l h (fun k x => (.ok (e' k x) : R ℝ)) = .ok (stt l h target e 0) := by
    simp only [stt, h1]
    rfl
  unfold bisect
  rw [e0, e0']
  show whileN _ _ N _ = whileN _ _ N _
  refine whileN_congr (N := N) (Inv := fun j b => b = stt l h target e j) (fun j b hj hb => ?_) N 0 _ (by omega) rfl
  have hk := he (3 + j) (by omega)
  rw [show 3 + j = j + 3 by omega] at hk
  simp only [ask] at hk
  have hb1 : ∀ g : ℕ → ℝ → ℝ, bisectBody target (fun k x => (.ok (g k x) : R ℝ)) b = .ok { half target b with
      mid := 0.5 * ((half target b).low + (half target b).high)
      e_mid := g b.calls (0.5 * ((half target b).low + (half target b).high))
      calls := b.calls + 1 } := fun g => rfl
  rw [hb1, hb1]
  subst hb
  rw [stt_calls, show 3 + j = j + 3 by omega, hk]
  refine ⟨rfl, fun s' hs => ?_⟩
  cases hs
  simp only [stt]
  rw [show 3 + j = j + 3 by omega, hk, show 3 + (j + 1) = j + 3 + 1 by omega]

variable {X : Type} [MeasurableSpace X] {ν : Measure X} [IsProbabilityMeasure ν] {T : ℕ → ℝ → X → ℝ} {f : ℝ → ℝ}

/-- the estimates made from the random numbers `r` -/
noncomputable def ests (T : ℕ → ℝ → X → ℝ) (f : ℝ → ℝ) (r : Fin 16 → X) (k : ℕ) (x : ℝ) : ℝ :=
  if hk : k < 16 then T k x (r ⟨k, hk⟩) else f x

variable (hT : ∀ k, Measurable fun q : ℝ × X => T k q.1 q.2) (hf : Measurable f)
include hT hf

theorem meas_ests (k : ℕ) {x : (Fin 16 → X) → ℝ} (hx : Measurable x) : Measurable fun r => ests T f r k (x r) := by
  unfold ests
  by_cases hk : k < 16
  · simp only [dif_pos hk]
    exact (hT k).comp (hx.prodMk (measurable_pi_apply _))
  · simp only [dif_neg hk]
    exact hf.comp hx

theorem meas_stt (j : ℕ) : Measurable (fun r => (stt l h target (ests T f r) j).low) ∧
    Measurable (fun r => (stt l h target (ests T f r) j).mid) ∧ Measurable (fun r => (stt l h target (ests T f r) j).high) ∧
    Measurable fun r => (stt l h target (ests T f r) j).e_mid := by
  induction j with
  | zero => exact ⟨measurable_const, measurable_const, measurable_const, meas_ests hT hf 1 measurable_const⟩
  | succ j ih =>
    obtain ⟨h1, h2, h3, h4⟩ := ih
    have hs : MeasurableSet {r : Fin 16 → X | flt target (stt l h target (ests T f r) j).e_mid = true} := by
      have : {r : Fin 16 → X | flt target (stt l h target (ests T f r) j).e_mid = true}
          = {r | target < (stt l h target (ests T f r) j).e_mid} := by
        ext r
        simp [flt]
      rw [this]
      exact measurableSet_lt measurable_const h4
    have el : (fun r => (half target (stt l h target (ests T f r) j)).low)
        = fun r => if flt target (stt l h target (ests T f r) j).e_mid = true then (stt l h target (ests T f r) j).mid
          else (stt l h target (ests T f r) j).low := by
      funext r
      unfold half
      split <;> rfl
    have eh : (fun r => (half target (stt l h target (ests T f r) j)).high)
        = fun r => if flt target (stt l h target (ests T f r) j).e_mid = true then (stt l h target (ests T f r) j).high
          else (stt l h target (ests T f r) j).mid := by
      funext r
      unfold half
      split <;> rfl
    have ml : Measurable fun r => (half target (stt l h target (ests T f r) j)).low := by
      rw [el]
      exact Measurable.ite hs h2 h1
    have mh : Measurable fun r => (half target (stt l h target (ests T f r) j)).high := by
      rw [eh]
      exact Measurable.ite hs h3 h2
    have mm : Measurable fun r => (0.5 : ℝ) * ((half target (stt l h target (ests T f r) j)).low
        + (half target (stt l h target (ests T f r) j)).high) := (ml.add mh).const_mul _
    exact ⟨ml, mm, mh, meas_ests hT hf (3 + j) mm⟩

theorem meas_ask (k : ℕ) : Measurable fun r => ask l h target (ests T f r) k := by
  match k with
  | 0 => exact measurable_const
  | 1 => exact measurable_const
  | 2 => exact measurable_const
  | j + 3 => exact (meas_stt hT hf (j + 1)).2.1

/-- one estimate, asked where the earlier ones say -/
theorem asked_bad {δ : ℝ} {p : ℝ≥0∞} (hp : ∀ k x, ν {a | δ < |T k x a - f x|} ≤ p) (k : Fin 16) :
    (Measure.pi fun _ : Fin 16 => ν) {r | δ < |T k (ask l h target (ests T f r) k) (r k) - f (ask l h target (ests T f r) k)|} ≤ p := by
  have hB : MeasurableSet {q : ℝ × X | δ < |T k q.1 q.2 - f q.1|} :=
    measurableSet_lt measurable_const (continuous_abs.measurable.comp ((hT k).sub (hf.comp measurable_fst)))
  have hS : MeasurableSet {r : Fin 16 → X | δ < |T k (ask l h target (ests T f r) k) (r k) - f (ask l h target (ests T f r) k)|} :=
    ((meas_ask hT hf k).prodMk (measurable_pi_apply k)) hB
  have mp := (measurePreserving_piFinSuccAbove (fun _ : Fin 16 => ν) k).symm
  have e := mp.measure_preimage hS.nullMeasurableSet
  rw [← e]
  obtain ⟨a0⟩ : Nonempty X := by
    by_contra hne
    rw [not_nonempty_iff] at hne
    have : ν Set.univ = 0 := by rw [Set.univ_eq_empty_iff.2 hne, measure_empty]
    rw [measure_univ] at this
    exact one_ne_zero this
  have hq : ∀ (a a' : X) (q : Fin 15 → X), ask l h target (ests T f (k.insertNth (α := fun _ => X) a q)) k
      = ask l h target (ests T f (k.insertNth (α := fun _ => X) a' q)) k := by
    intro a a' q
    refine ask_congr _ fun i hi => ?_
    funext x
    unfold ests
    have hi' : i < 16 := by have := k.2; omega
    rw [dif_pos hi', dif_pos hi']
    obtain ⟨j, hj⟩ := Fin.exists_succAbove_eq (x := (⟨i, hi'⟩ : Fin 16)) (y := k) (fun h => by
      have := congrArg Fin.val h
      simp at this
      omega)
    rw [← hj, Fin.insertNth_apply_succAbove, Fin.insertNth_apply_succAbove]
  have hset : (MeasurableEquiv.piFinSuccAbove (fun _ : Fin 16 => X) k).symm ⁻¹'
      {r | δ < |T k (ask l h target (ests T f r) k) (r k) - f (ask l h target (ests T f r) k)|}
      = {q : X × (Fin 15 → X) | δ < |T k (ask l h target (ests T f (k.insertNth (α := fun _ => X) a0 q.2)) k) q.1
        - f (ask l h target (ests T f (k.insertNth (α := fun _ => X) a0 q.2)) k)|} := by
    ext ⟨a, q⟩
    have e1 : (MeasurableEquiv.piFinSuccAbove (fun _ : Fin 16 => X) k).symm (a, q) = k.insertNth (α := fun _ => X) a q := rfl
    have e2 : (k.insertNth (α := fun _ => X) a q : Fin 16 → X) k = a := Fin.insertNth_apply_same (α := fun _ => X) k a q
    simp only [Set.mem_preimage, Set.mem_setOf_eq]
    rw [e1, e2, hq a a0 q]
  have hm := mp.measurable hS
  rw [hset] at hm ⊢
  rw [Measure.prod_apply_symm hm]
  have hle : ∀ q : Fin 15 → X, ν ((fun x => (x, q)) ⁻¹' {q : X × (Fin 15 → X) |
      δ < |T k (ask l h target (ests T f (k.insertNth (α := fun _ => X) a0 q.2)) k) q.1
        - f (ask l h target (ests T f (k.insertNth (α := fun _ => X) a0 q.2)) k)|}) ≤ p := fun q => hp k (ask l h target (ests T f (k.insertNth (α := fun _ => X) a0 q)) k)
  refine (lintegral_mono hle).trans ?_
  rw [lintegral_const, measure_univ, mul_one]

/-- a whole search -/
theorem search_adaptive {δ : ℝ} {p : ℝ≥0∞} (hp : ∀ k x, ν {a | δ < |T k x a - f x|} ≤ p) :
    (Measure.pi fun _ : Fin 16 => ν) {r | ¬ ∀ k : Fin 16, |T k (ask l h target (ests T f r) k) (r k) - f (ask l h target (ests T f r) k)| ≤ δ}
      ≤ 16 * p := by
  calc _ ≤ (Measure.pi fun _ : Fin 16 => ν) (⋃ k ∈ (univ : Finset (Fin 16)),
        {r | δ < |T k (ask l h target (ests T f r) k) (r k) - f (ask l h target (ests T f r) k)|}) := by
        refine measure_mono fun r hr => ?_
        have hr : ¬ ∀ k : Fin 16, |T k (ask l h target (ests T f r) k) (r k) - f (ask l h target (ests T f r) k)| ≤ δ := hr
        simp only [not_forall, not_le] at hr
        obtain ⟨k, hk⟩ := hr
        simp only [Set.mem_iUnion]
        exact ⟨k, mem_univ _, hk⟩
    _ ≤ ∑ _k : Fin 16, p := (measure_biUnion_finset_le _ _).trans (sum_le_sum fun k _ => asked_bad hT hf hp k)
    _ = _ := by simp

end

end Verif.Search
