/-
Scalars, panics, vectors and loops: the vocabulary in which the Rust code is transcribed.

The Rust code computes in `f64`.  The model is polymorphic in the scalar type `F`; the
arithmetic operators are the ordinary Lean classes, and everything else the code uses from
`f64` is collected in `FOps`.  No law is assumed here.
-/
namespace Verif

/-- The non-arithmetic `f64` operations used by `/repo/src`:
`f64::sqrt, sin, cos, acos, atan, exp, ln, tanh, abs, round`, `std::f64::consts::PI`,
the comparison `<`, `is_finite`, integer-to-float `as f64` and the saturating
float-to-integer cast `as usize` / `as u64` (Rust reference, "numeric cast": truncate
towards zero, saturate, NaN to 0). -/
class FOps (F : Type) where
  fsqrt : F → F
  fsin : F → F
  fcos : F → F
  facos : F → F
  fatan : F → F
  fexp : F → F
  fln : F → F
  ftanh : F → F
  fabs : F → F
  fround : F → F
  fpi : F
  /-- Rust `a < b` (false if either is NaN). -/
  flt : F → F → Bool
  /-- Rust `a <= b` (false if either is NaN). -/
  fle : F → F → Bool
  fisFinite : F → Bool
  /-- Rust `x as f64` for an integer `x`. -/
  fofInt : Int → F
  /-- Rust `x as usize` / `x as u64` for a float `x` (64-bit target). -/
  ftoNat : F → Nat

export FOps (fsqrt fsin fcos facos fatan fexp fln ftanh fabs fround fpi flt fle fisFinite
  fofInt ftoNat)

/-- Ways in which the Rust code can panic. -/
inductive Panic where
  /-- slice or array index out of range -/
  | indexOOB
  /-- `usize` subtraction below zero (debug build; a release build wraps around) -/
  | underflow
  /-- integer arithmetic overflow (debug build) -/
  | overflow
  /-- integer division or remainder by zero -/
  | divZero
  /-- `gen_range` on an empty range -/
  | emptyRange
  /-- `Normal::new(..).unwrap()` with a non-finite standard deviation -/
  | badVariance
  /-- `collect` into a `Vec` of absurd capacity -/
  | capacity
  /-- other `unwrap` on `None`/`Err` -/
  | unwrap
  /-- `panic!("Invalid configuration")` -/
  | invalidConfig
  deriving DecidableEq, Repr

/-- Result of a Rust function that may panic. -/
abbrev R (α : Type) := Except Panic α

/-- `xs[i]` -/
def idx {α : Type} (xs : List α) (i : Nat) : R α :=
  match xs[i]? with
  | some a => .ok a
  | none => .error .indexOOB

/-- `xs[i] = a` -/
def setIdx {α : Type} (xs : List α) (i : Nat) (a : α) : R (List α) :=
  if i < xs.length then .ok (xs.set i a) else .error .indexOOB

/-- `a - b` on `usize` -/
def usub (a b : Nat) : R Nat := if b ≤ a then .ok (a - b) else .error .underflow

/-- `x as usize` for an `i32` (sign extension, then reinterpretation as 64 bits). -/
def asUsize (x : Int) : Nat := (x % (2 ^ 64 : Int)).toNat

/-- `for i in lo..hi { acc = body(i, acc) }` -/
def forRange {σ : Type} (lo hi : Nat) (init : σ) (body : Nat → σ → R σ) : R σ :=
  (List.range' lo (hi - lo)).foldlM (fun acc i => body i acc) init

/-- `(lo..hi).map(f).collect::<Vec<_>>()` -/
def mapRange {α : Type} (lo hi : Nat) (f : Nat → R α) : R (List α) :=
  (List.range' lo (hi - lo)).mapM f

/-- `[f64; 3]` -/
@[ext] structure V3 (F : Type) where
  x : F
  y : F
  z : F
  deriving DecidableEq, Repr

/-- `v[k]` for a constant-bounded index `k < 3` -/
def V3.get {F : Type} (v : V3 F) : Fin 3 → F
  | 0 => v.x
  | 1 => v.y
  | 2 => v.z

/-- `for k in 0..3 { acc = body(k, acc) }` -/
def for3 {σ : Type} (init : σ) (body : Fin 3 → σ → σ) : σ :=
  body 2 (body 1 (body 0 init))

/-- `for k in 0..2 { acc = body(k, acc) }` on three-component arrays -/
def for2 {σ : Type} (init : σ) (body : Fin 3 → σ → σ) : σ :=
  body 1 (body 0 init)

@[simp] theorem V3.get_zero {F : Type} (v : V3 F) : v.get 0 = v.x := rfl
@[simp] theorem V3.get_one {F : Type} (v : V3 F) : v.get 1 = v.y := rfl
@[simp] theorem V3.get_two {F : Type} (v : V3 F) : v.get 2 = v.z := rfl

end Verif
