/-
Helper lemmas: derivative of one time-step with respect to its length.
-/
import Verif.Lemmas.Regular
import Mathlib.Analysis.Calculus.Deriv.Mul
import Mathlib.Analysis.SpecialFunctions.Trigonometric.Deriv

namespace Verif

open Spec Filter Topology

/-- component-wise continuity at `x` -/
def Cont3 (c : ℝ → V3 ℝ) (x : ℝ) : Prop :=
  ContinuousAt (fun s => (c s).x) x ∧ ContinuousAt (fun s => (c s).y) x ∧
    ContinuousAt (fun s => (c s).z) x

theorem Spec.HasDeriv3.cont {c : ℝ → V3 ℝ} {v : V3 ℝ} {x : ℝ} (h : HasDeriv3 c v x) : Cont3 c x :=
  ⟨h.1.continuousAt, h.2.1.continuousAt, h.2.2.continuousAt⟩

theorem cont3_const (v : V3 ℝ) (x : ℝ) : Cont3 (fun _ => v) x :=
  ⟨continuousAt_const, continuousAt_const, continuousAt_const⟩

theorem hasDeriv3_const (v : V3 ℝ) (x : ℝ) : HasDeriv3 (fun _ => v) zero x :=
  ⟨hasDerivAt_const _ _, hasDerivAt_const _ _, hasDerivAt_const _ _⟩

theorem Cont3.add {a b : ℝ → V3 ℝ} {x : ℝ} (ha : Cont3 a x) (hb : Cont3 b x) :
    Cont3 (fun s => Spec.add (a s) (b s)) x :=
  ⟨ha.1.add hb.1, ha.2.1.add hb.2.1, ha.2.2.add hb.2.2⟩

theorem Cont3.sub {a b : ℝ → V3 ℝ} {x : ℝ} (ha : Cont3 a x) (hb : Cont3 b x) :
    Cont3 (fun s => Spec.sub (a s) (b s)) x :=
  ⟨ha.1.sub hb.1, ha.2.1.sub hb.2.1, ha.2.2.sub hb.2.2⟩

theorem Cont3.had {a b : ℝ → V3 ℝ} {x : ℝ} (ha : Cont3 a x) (hb : Cont3 b x) :
    Cont3 (fun s => Spec.had (a s) (b s)) x :=
  ⟨ha.1.mul hb.1, ha.2.1.mul hb.2.1, ha.2.2.mul hb.2.2⟩

theorem Cont3.dot {a b : ℝ → V3 ℝ} {x : ℝ} (ha : Cont3 a x) (hb : Cont3 b x) :
    ContinuousAt (fun s => Spec.dot (a s) (b s)) x :=
  ((ha.1.mul hb.1).add (ha.2.1.mul hb.2.1)).add (ha.2.2.mul hb.2.2)

theorem Cont3.len {a : ℝ → V3 ℝ} {x : ℝ} (ha : Cont3 a x) :
    ContinuousAt (fun s => Spec.len (a s)) x :=
  (Real.continuous_sqrt.continuousAt).comp (ha.dot ha)

/-- a function that vanishes at 0, times a continuous one -/
theorem hasDerivAt_mul_cont {f g : ℝ → ℝ} {d : ℝ} (hf : HasDerivAt f d 0) (h0 : f 0 = 0)
    (hg : ContinuousAt g 0) : HasDerivAt (fun x => f x * g x) (d * g 0) 0 := by
  rw [hasDerivAt_iff_tendsto_slope] at hf ⊢
  have h1 : Tendsto g (𝓝[≠] 0) (𝓝 (g 0)) := hg.tendsto.mono_left nhdsWithin_le_nhds
  refine (hf.mul h1).congr fun x => ?_
  simp only [slope_def_field, h0]
  ring

theorem precess_deriv {v Ω : ℝ → V3 ℝ} {v' : V3 ℝ} (a : ℝ) (hv : HasDeriv3 v v' 0)
    (hΩ : Cont3 Ω 0) (h0 : Ω 0 ≠ zero) :
    HasDeriv3 (fun x => precess (v x) (Ω x) (a * x))
      (Spec.add v' (smul a (cross (v 0) (Ω 0)))) 0 := by
  have hl := hΩ.len
  have hlne : len (Ω 0) ≠ 0 := (len_pos h0).ne'
  have hθ : HasDerivAt (fun x => len (Ω x) * (a * x)) (a * len (Ω 0)) 0 := by
    have h1 : HasDerivAt (fun x : ℝ => a * x) a 0 := by
      simpa using (hasDerivAt_id' (0 : ℝ)).const_mul a
    have := hasDerivAt_mul_cont h1 (mul_zero a) hl
    refine this.congr_of_eventuallyEq (Eventually.of_forall fun x => ?_)
    simp only; ring
  have hsin : HasDerivAt (fun x => Real.sin (len (Ω x) * (a * x))) (a * len (Ω 0)) 0 := by
    have := hθ.sin
    simpa using this
  have hcos : HasDerivAt (fun x => 1 - Real.cos (len (Ω x) * (a * x))) 0 0 := by
    have := (hθ.cos).const_sub 1
    simpa using this
  have hs0 : Real.sin (len (Ω 0) * (a * 0)) = 0 := by simp
  have hc0 : 1 - Real.cos (len (Ω 0) * (a * 0)) = 0 := by simp
  have hinv : ContinuousAt (fun x => 1 / len (Ω x)) 0 := continuousAt_const.div hl hlne
  have hn : Cont3 (fun x => smul (1 / len (Ω x)) (Ω x)) 0 :=
    ⟨hinv.mul hΩ.1, hinv.mul hΩ.2.1, hinv.mul hΩ.2.2⟩
  have hvc := hv.cont
  have hnv := hn.dot hvc
  have comp : ∀ (p q r : ℝ → ℝ) (p' : ℝ), HasDerivAt p p' 0 → ContinuousAt q 0 →
      ContinuousAt r 0 →
      HasDerivAt (fun x => p x + ((1 - Real.cos (len (Ω x) * (a * x))) * q x
        - Real.sin (len (Ω x) * (a * x)) * r x)) (p' + (0 * q 0 - a * len (Ω 0) * r 0)) 0 := by
    intro p q r p' hp hq hr
    exact hp.add ((hasDerivAt_mul_cont hcos hc0 hq).sub (hasDerivAt_mul_cont hsin hs0 hr))
  refine ⟨?_, ?_, ?_⟩
  · have := comp (fun x => (v x).x)
      (fun x => dot (smul (1 / len (Ω x)) (Ω x)) (v x) * (smul (1 / len (Ω x)) (Ω x)).x - (v x).x)
      (fun x => (cross (smul (1 / len (Ω x)) (Ω x)) (v x)).x) v'.x hv.1
      ((hnv.mul hn.1).sub hvc.1) ((hn.2.1.mul hvc.2.2).sub (hn.2.2.mul hvc.2.1))
    refine (this.congr_of_eventuallyEq (Eventually.of_forall fun x => ?_)).congr_deriv ?_
    · simp only [precess, Spec.sub, Spec.add, smul, cross]; ring
    · simp only [Spec.add, smul, cross]; field_simp; ring
  · have := comp (fun x => (v x).y)
      (fun x => dot (smul (1 / len (Ω x)) (Ω x)) (v x) * (smul (1 / len (Ω x)) (Ω x)).y - (v x).y)
      (fun x => (cross (smul (1 / len (Ω x)) (Ω x)) (v x)).y) v'.y hv.2.1
      ((hnv.mul hn.2.1).sub hvc.2.1) ((hn.2.2.mul hvc.1).sub (hn.1.mul hvc.2.2))
    refine (this.congr_of_eventuallyEq (Eventually.of_forall fun x => ?_)).congr_deriv ?_
    · simp only [precess, Spec.sub, Spec.add, smul, cross]; ring
    · simp only [Spec.add, smul, cross]; field_simp; ring
  · have := comp (fun x => (v x).z)
      (fun x => dot (smul (1 / len (Ω x)) (Ω x)) (v x) * (smul (1 / len (Ω x)) (Ω x)).z - (v x).z)
      (fun x => (cross (smul (1 / len (Ω x)) (Ω x)) (v x)).z) v'.z hv.2.2
      ((hnv.mul hn.2.2).sub hvc.2.2) ((hn.1.mul hvc.2.1).sub (hn.2.1.mul hvc.1))
    refine (this.congr_of_eventuallyEq (Eventually.of_forall fun x => ?_)).congr_deriv ?_
    · simp only [precess, Spec.sub, Spec.add, smul, cross]; ring
    · simp only [Spec.add, smul, cross]; field_simp; ring

theorem omega_cont {m i : ℕ} {J : ℕ → V3 ℝ} {S B : ℝ → ℕ → V3 ℝ} (hS : ∀ k, Cont3 (fun x => S x k) 0)
    (hB : ∀ k, Cont3 (fun x => B x k) 0) : Cont3 (fun x => omega m (S x) J (B x) i) 0 :=
  (((cont3_const _ _).had (hS _)).add ((cont3_const _ _).had (hS _))).sub (hB _)

/-- derivative of a sub-step of length `a x` at `x = 0` -/
theorem subStep_deriv {m par : ℕ} {J : ℕ → V3 ℝ} {S B : ℝ → ℕ → V3 ℝ} {S' : ℕ → V3 ℝ} (a : ℝ)
    (hS : ∀ k, HasDeriv3 (fun x => S x k) (S' k) 0) (hB : ∀ k, Cont3 (fun x => B x k) 0)
    (h0 : ∀ i < m, omega m (S 0) J (B 0) i ≠ zero) (k : ℕ) :
    HasDeriv3 (fun x => subStep m par J (B x) (a * x) (S x) k)
      (if k < m ∧ k % 2 = par then
        Spec.add (S' k) (smul a (cross (S 0 k) (omega m (S 0) J (B 0) k))) else S' k) 0 := by
  by_cases hc : k < m ∧ k % 2 = par
  · rw [if_pos hc]
    have := precess_deriv a (hS k) (omega_cont (m := m) (i := k) (J := J)
      (fun k => (hS k).cont) hB) (h0 k hc.1)
    have e : (fun x => subStep m par J (B x) (a * x) (S x) k)
        = fun x => precess (S x k) (omega m (S x) J (B x) k) (a * x) := by
      funext x; exact subStep_pos hc
    rw [e]
    exact this
  · rw [if_neg hc]
    have e : (fun x => subStep m par J (B x) (a * x) (S x) k) = fun x => S x k := by
      funext x; exact subStep_neg hc
    rw [e]
    exact hS k

theorem eventually_ne_zero {Ω : ℝ → V3 ℝ} (h : Cont3 Ω 0) (h0 : Ω 0 ≠ zero) :
    ∀ᶠ x in 𝓝 (0 : ℝ), Ω x ≠ zero := by
  have h1 : ∀ᶠ x in 𝓝 (0 : ℝ), 0 < dot (Ω x) (Ω x) :=
    (h.dot h).eventually (lt_mem_nhds (dot_self_pos h0))
  filter_upwards [h1] with x hx h'
  rw [h'] at hx
  simp [dot, zero] at hx

theorem step_deriv {m : ℕ} {J S : ℕ → V3 ℝ} {B : ℝ → ℕ → V3 ℝ}
    (hB : ∀ k, Cont3 (fun x => B x k) 0) (h0 : ∀ i < m, omega m S J (B 0) i ≠ zero) :
    (∀ k < m, HasDeriv3 (fun x => step m J (B x) x S k) (cross (S k) (omega m S J (B 0) k)) 0) ∧
      ∀ᶠ x in 𝓝 (0 : ℝ), Regular m J (B x) x S := by
  have hS0 : ∀ k, HasDeriv3 (fun _ : ℝ => S k) zero 0 := fun k => hasDeriv3_const _ _
  have d1 := subStep_deriv (S := fun _ => S) (par := 0) (1 / 2) hS0 hB h0
  have z1 : subStep m 0 J (B 0) (1 / 2 * 0) S = S := by rw [mul_zero, subStep_zero]
  have d2 := subStep_deriv (S := fun x => subStep m 0 J (B x) (1 / 2 * x) S) (par := 1) 1 d1 hB
    (by rw [z1]; exact h0)
  have z2 : subStep m 1 J (B 0) (1 * 0) (subStep m 0 J (B 0) (1 / 2 * 0) S) = S := by
    rw [z1, mul_zero, subStep_zero]
  have d3 := subStep_deriv
    (S := fun x => subStep m 1 J (B x) (1 * x) (subStep m 0 J (B x) (1 / 2 * x) S)) (par := 0)
    (1 / 2) d2 hB (by rw [z2]; exact h0)
  have z3 : subStep m 1 J (B 0) (1 * 0) S = S := by rw [mul_zero, subStep_zero]
  simp only [z1, z3] at d3
  constructor
  · intro k hk
    have e : (fun x => step m J (B x) x S k) = fun x =>
        subStep m 0 J (B x) (1 / 2 * x)
          (subStep m 1 J (B x) (1 * x) (subStep m 0 J (B x) (1 / 2 * x) S)) k := by
      funext x
      unfold step
      rw [one_mul, show 1 / 2 * x = x / 2 by ring]
    rw [e]
    have := d3 k
    by_cases hp : k % 2 = 0
    · rw [if_pos ⟨hk, hp⟩, if_neg (by omega), if_pos ⟨hk, hp⟩] at this
      convert this using 1
      ext <;> simp only [Spec.add, smul, cross, zero] <;> ring
    · rw [if_neg (by omega), if_pos ⟨hk, by omega⟩, if_neg (by omega)] at this
      convert this using 1
      ext <;> simp only [Spec.add, smul, cross, zero] <;> ring
  · have c0 : ∀ i, Cont3 (fun x => omega m S J (B x) i) 0 := fun i =>
      omega_cont (S := fun _ => S) (fun k => (hS0 k).cont) hB
    have c1 : ∀ i, Cont3 (fun x => omega m (subStep m 0 J (B x) (1 / 2 * x) S) J (B x) i) 0 :=
      fun i => omega_cont (fun k => (d1 k).cont) hB
    have c2 : ∀ i, Cont3 (fun x => omega m (subStep m 1 J (B x) (1 * x)
        (subStep m 0 J (B x) (1 / 2 * x) S)) J (B x) i) 0 :=
      fun i => omega_cont (fun k => (d2 k).cont) hB
    have e0 : ∀ᶠ x in 𝓝 (0 : ℝ), ∀ i ∈ Finset.range m, omega m S J (B x) i ≠ zero :=
      (Finset.range m).eventually_all.2 fun i hi =>
        eventually_ne_zero (c0 i) (h0 i (Finset.mem_range.1 hi))
    have e1 : ∀ᶠ x in 𝓝 (0 : ℝ), ∀ i ∈ Finset.range m,
        omega m (subStep m 0 J (B x) (1 / 2 * x) S) J (B x) i ≠ zero :=
      (Finset.range m).eventually_all.2 fun i hi =>
        eventually_ne_zero (c1 i) (by rw [z1]; exact h0 i (Finset.mem_range.1 hi))
    have e2 : ∀ᶠ x in 𝓝 (0 : ℝ), ∀ i ∈ Finset.range m,
        omega m (subStep m 1 J (B x) (1 * x) (subStep m 0 J (B x) (1 / 2 * x) S)) J (B x) i
          ≠ zero :=
      (Finset.range m).eventually_all.2 fun i hi =>
        eventually_ne_zero (c2 i) (by rw [z2]; exact h0 i (Finset.mem_range.1 hi))
    filter_upwards [e0, e1, e2] with x h1 h2 h3
    rw [show 1 / 2 * x = x / 2 by ring] at h2 h3
    rw [one_mul] at h3
    exact ⟨fun i hi _ => h1 i (Finset.mem_range.2 hi), fun i hi _ => h2 i (Finset.mem_range.2 hi),
      fun i hi _ => h3 i (Finset.mem_range.2 hi)⟩

theorem drive_cont (v : Config ℝ) (t : ℝ) : Cont3 (fun x => drive v (t + x / 2)) 0 := by
  have hc : Continuous fun x : ℝ => Real.cos (2 * Real.pi * (t + x / 2) / v.tau) := by fun_prop
  have hs : Continuous fun x : ℝ => Real.sin (2 * Real.pi * (t + x / 2) / v.tau) := by fun_prop
  unfold drive
  cases v.drive
  · exact ⟨hc.continuousAt, hs.continuousAt, continuousAt_const⟩
  · exact ⟨hc.continuousAt, (continuous_const.mul hs).continuousAt, continuousAt_const⟩
  · exact ⟨hc.continuousAt, continuousAt_const, continuousAt_const⟩
  · exact cont3_const _ _
  · exact cont3_const _ _

theorem B_cont (c : SpinChain ℝ) (s : ℕ) (t : ℝ) (k : ℕ) :
    Cont3 (fun x => B c s (t + x / 2) k) 0 := by
  unfold B
  by_cases h : k < s
  · simp only [if_pos h]
    exact (cont3_const _ _).add (drive_cont _ _)
  · simp only [if_neg h]
    exact cont3_const _ _

end Verif
