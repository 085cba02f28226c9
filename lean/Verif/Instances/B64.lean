/-
IEEE-754 binary64 arithmetic: addition, subtraction, multiplication, division and literals are
rounded to nearest, ties to even, with overflow to infinity and gradual underflow.  The functions of
the mathematics library (and `sqrt`) are left open: they are a parameter of the type, about which
nothing is assumed.  Finite numbers are stored as rationals, so everything is computable.
-/
import Verif.Model.Scalar
import Mathlib.Data.Rat.Floor
import Mathlib.Algebra.Order.Ring.Rat

namespace Verif

/-- `2 ^ k` -/
def pow2 (k : ℤ) : ℚ :=
  if 0 ≤ k then ((2 ^ k.toNat : ℕ) : ℚ) else mkRat 1 (2 ^ (-k).toNat)

/-- the exponent `e` with `2 ^ e ≤ |q| < 2 ^ (e + 1)`, for `q ≠ 0` -/
def expo (q : ℚ) : ℤ :=
  let a := q.num.natAbs
  let b := q.den
  let e : ℤ := (a.log2 : ℤ) - b.log2
  if 0 ≤ e then (if b <<< e.toNat ≤ a then e else e - 1)
  else (if b ≤ a <<< (-e).toNat then e else e - 1)

/-- exponent of the unit in the last place: 53 bits, not below the subnormal unit -/
def ulpExp (q : ℚ) : ℤ := max (expo q) (-1022) - 52

/-- nearest integer, ties to even -/
def rne (q : ℚ) : ℤ :=
  let f := q.floor
  let r := q - f
  if r < 1 / 2 then f
  else if 1 / 2 < r then f + 1
  else if f % 2 = 0 then f else f + 1

/-- nearest number with 53 bits (no upper bound on the exponent) -/
def rnd (q : ℚ) : ℚ := if q = 0 then 0 else rne (q / pow2 (ulpExp q)) * pow2 (ulpExp q)

/-- The values: `fin 0` is the positive zero, `inf true` is minus infinity. -/
inductive B64v where
  | nan
  | inf (neg : Bool)
  | nzero
  | fin (q : ℚ)
  deriving DecidableEq

/-- the functions that are left open -/
structure Libm where
  sqrt : B64v → B64v
  sin : B64v → B64v
  cos : B64v → B64v
  acos : B64v → B64v
  atan : B64v → B64v
  exp : B64v → B64v
  ln : B64v → B64v
  tanh : B64v → B64v

/-- binary64 numbers with the mathematics library `m` -/
def B64 (_ : Libm) := B64v

namespace B64v

/-- round a real result; `neg` is the sign of an exact zero -/
def round (q : ℚ) (neg : Bool) : B64v :=
  if q = 0 then (if neg then nzero else fin 0)
  else
    let r := rnd q
    if r = 0 then (if q < 0 then nzero else fin 0)
    else if pow2 1024 ≤ r then inf false
    else if r ≤ -pow2 1024 then inf true
    else fin r

/-- the sign bit -/
def sgn : B64v → Bool
  | nan => false
  | inf b => b
  | nzero => true
  | fin q => decide (q < 0)

/-- the rational value of a finite number -/
def val : B64v → ℚ
  | fin q => q
  | _ => 0

def add : B64v → B64v → B64v
  | nan, _ => nan
  | _, nan => nan
  | inf a, inf b => if a = b then inf a else nan
  | inf a, _ => inf a
  | _, inf b => inf b
  | nzero, nzero => nzero
  | x, y => round (x.val + y.val) false

def neg : B64v → B64v
  | nan => nan
  | inf b => inf !b
  | nzero => fin 0
  | fin q => if q = 0 then nzero else fin (-q)

def mul : B64v → B64v → B64v
  | nan, _ => nan
  | _, nan => nan
  | inf a, inf b => inf (a != b)
  | inf a, y => if y.val = 0 then nan else inf (a != y.sgn)
  | x, inf b => if x.val = 0 then nan else inf (x.sgn != b)
  | x, y => round (x.val * y.val) (x.sgn != y.sgn)

def div : B64v → B64v → B64v
  | nan, _ => nan
  | _, nan => nan
  | inf _, inf _ => nan
  | inf a, y => inf (a != y.sgn)
  | x, inf b => round 0 (x.sgn != b)
  | x, y =>
    if y.val = 0 then (if x.val = 0 then nan else inf (x.sgn != y.sgn))
    else round (x.val / y.val) (x.sgn != y.sgn)

def lt : B64v → B64v → Bool
  | nan, _ => false
  | _, nan => false
  | inf a, inf b => a && !b
  | inf a, _ => a
  | _, inf b => !b
  | x, y => decide (x.val < y.val)

def le : B64v → B64v → Bool
  | nan, _ => false
  | _, nan => false
  | inf a, inf b => a || !b
  | inf a, _ => a
  | _, inf b => !b
  | x, y => decide (x.val ≤ y.val)

/-- `as u64` / `as usize` -/
def toNat : B64v → ℕ
  | inf false => 2 ^ 64 - 1
  | fin q => min q.floor.toNat (2 ^ 64 - 1)
  | _ => 0

/-- `f64::round`: half away from zero -/
def roundHalf : B64v → B64v
  | fin q => if q < 0 then round (-((-q + 1 / 2).floor : ℚ)) true
      else round ((q + 1 / 2).floor : ℚ) false
  | x => x

/-- the double nearest to π -/
def pi : B64v := fin (884279719003555 / 281474976710656)

/-- a decimal literal -/
def lit (m : ℕ) (s : Bool) (e : ℕ) : B64v :=
  round (if s then mkRat m (10 ^ e) else ((m * 10 ^ e : ℕ) : ℚ)) false

end B64v

variable {m : Libm}

instance : Add (B64 m) := ⟨B64v.add⟩
instance : Neg (B64 m) := ⟨B64v.neg⟩
instance : Sub (B64 m) := ⟨fun a b => B64v.add a (B64v.neg b)⟩
instance : Mul (B64 m) := ⟨B64v.mul⟩
instance : Div (B64 m) := ⟨B64v.div⟩
instance : OfScientific (B64 m) := ⟨B64v.lit⟩

instance : FOps (B64 m) where
  fsqrt := m.sqrt
  fsin := m.sin
  fcos := m.cos
  facos := m.acos
  fatan := m.atan
  fexp := m.exp
  fln := m.ln
  ftanh := m.tanh
  fabs := fun x => if x.sgn then B64v.neg x else x
  fround := B64v.roundHalf
  fpi := B64v.pi
  flt := B64v.lt
  fle := B64v.le
  fisFinite := fun
    | B64v.nan => false
    | B64v.inf _ => false
    | _ => true
  fofInt := fun n => B64v.round n false
  ftoNat := B64v.toNat

end Verif
