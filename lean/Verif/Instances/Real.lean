/-
Exact real arithmetic as an instance of the scalar interface: the idealisation of `f64` without
rounding, overflow or NaN.
-/
import Verif.Model.Scalar
import Mathlib.Analysis.SpecialFunctions.Trigonometric.Inverse
import Mathlib.Analysis.SpecialFunctions.Trigonometric.Arctan
import Mathlib.Analysis.SpecialFunctions.Log.Basic
import Mathlib.Analysis.SpecialFunctions.Sqrt
import Mathlib.Algebra.Order.Round
import Mathlib.Analysis.Complex.Trigonometric

namespace Verif

/-- Rust `f64::round`: to the nearest integer, ties away from zero. -/
noncomputable def realRound (x : ℝ) : ℝ :=
  if 0 ≤ x then (⌊x + 1 / 2⌋ : ℝ) else -(⌊-x + 1 / 2⌋ : ℝ)

noncomputable instance : FOps ℝ where
  fsqrt := Real.sqrt
  fsin := Real.sin
  fcos := Real.cos
  facos := Real.arccos
  fatan := Real.arctan
  fexp := Real.exp
  fln := Real.log
  ftanh := Real.tanh
  fabs := fun x => |x|
  fround := realRound
  fpi := Real.pi
  flt := fun a b => decide (a < b)
  fle := fun a b => decide (a ≤ b)
  fisFinite := fun _ => true
  fofInt := fun n => (n : ℝ)
  ftoNat := fun x => min ⌊x⌋₊ (2 ^ 64 - 1)

@[simp] theorem fsqrt_real (x : ℝ) : fsqrt x = Real.sqrt x := rfl
@[simp] theorem fsin_real (x : ℝ) : fsin x = Real.sin x := rfl
@[simp] theorem fcos_real (x : ℝ) : fcos x = Real.cos x := rfl
@[simp] theorem facos_real (x : ℝ) : facos x = Real.arccos x := rfl
@[simp] theorem fatan_real (x : ℝ) : fatan x = Real.arctan x := rfl
@[simp] theorem fexp_real (x : ℝ) : fexp x = Real.exp x := rfl
@[simp] theorem fln_real (x : ℝ) : fln x = Real.log x := rfl
@[simp] theorem ftanh_real (x : ℝ) : ftanh x = Real.tanh x := rfl
@[simp] theorem fabs_real (x : ℝ) : fabs x = |x| := rfl
@[simp] theorem fround_real (x : ℝ) : fround x = realRound x := rfl
@[simp] theorem fpi_real : (fpi : ℝ) = Real.pi := rfl
@[simp] theorem flt_real (x y : ℝ) : flt x y = decide (x < y) := rfl
@[simp] theorem fle_real (x y : ℝ) : fle x y = decide (x ≤ y) := rfl
@[simp] theorem fisFinite_real (x : ℝ) : fisFinite x = true := rfl
@[simp] theorem fofInt_real (n : ℤ) : (fofInt n : ℝ) = (n : ℝ) := rfl
@[simp] theorem ftoNat_real (x : ℝ) : ftoNat x = min ⌊x⌋₊ (2 ^ 64 - 1) := rfl

/-! Rust float literals at `ℝ`. -/

@[simp] theorem lit_0 : (0.0 : ℝ) = 0 := by norm_num
@[simp] theorem lit_1 : (1.0 : ℝ) = 1 := by norm_num
@[simp] theorem lit_2 : (2.0 : ℝ) = 2 := by norm_num
@[simp] theorem lit_3 : (3.0 : ℝ) = 3 := by norm_num
@[simp] theorem lit_4 : (4.0 : ℝ) = 4 := by norm_num
@[simp] theorem lit_10 : (10.0 : ℝ) = 10 := by norm_num
@[simp] theorem lit_16 : (16.0 : ℝ) = 16 := by norm_num
@[simp] theorem lit_20 : (20.0 : ℝ) = 20 := by norm_num
@[simp] theorem lit_half : (0.5 : ℝ) = 1 / 2 := by norm_num
@[simp] theorem lit_three_half : (1.5 : ℝ) = 3 / 2 := by norm_num

end Verif
