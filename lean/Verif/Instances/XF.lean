/-
Exact arithmetic extended by the IEEE-754 exceptional values: NaN, the two infinities and the
negative zero.  Finite values are real numbers and are not rounded (so overflow and underflow do
not occur); the rules for the exceptional values are those of IEEE-754 / Rust `f64`.
-/
import Verif.Instances.Real

namespace Verif

open Classical in
/-- `fin 0` is the positive zero, `nzero` the negative zero; `inf true` is minus infinity. -/
inductive XF where
  | nan
  | inf (neg : Bool)
  | nzero
  | fin (r : ℝ)

namespace XF

open Classical

/-- the sign bit -/
noncomputable def sgn : XF → Bool
  | nan => false
  | inf b => b
  | nzero => true
  | fin r => decide (r < 0)

/-- a finite result with the given sign if it is zero -/
noncomputable def mk (r : ℝ) (neg : Bool) : XF :=
  if r = 0 then (if neg then nzero else fin 0) else fin r

noncomputable def add : XF → XF → XF
  | nan, _ => nan
  | _, nan => nan
  | inf a, inf b => if a = b then inf a else nan
  | inf a, _ => inf a
  | _, inf b => inf b
  | nzero, nzero => nzero
  | nzero, fin r => fin r
  | fin r, nzero => fin r
  | fin r, fin q => fin (r + q)

noncomputable def neg : XF → XF
  | nan => nan
  | inf b => inf !b
  | nzero => fin 0
  | fin r => if r = 0 then nzero else fin (-r)

/-- multiplication of values that are finite: their real values -/
def real : XF → ℝ
  | fin r => r
  | _ => 0

noncomputable def mul : XF → XF → XF
  | nan, _ => nan
  | _, nan => nan
  | inf a, inf b => inf (a != b)
  | inf a, y => if y.real = 0 then nan else inf (a != y.sgn)
  | x, inf b => if x.real = 0 then nan else inf (x.sgn != b)
  | x, y => mk (x.real * y.real) (x.sgn != y.sgn)

noncomputable def div : XF → XF → XF
  | nan, _ => nan
  | _, nan => nan
  | inf _, inf _ => nan
  | inf a, y => inf (a != y.sgn)
  | x, inf b => mk 0 (x.sgn != b)
  | x, y =>
    if y.real = 0 then (if x.real = 0 then nan else inf (x.sgn != y.sgn))
    else mk (x.real / y.real) (x.sgn != y.sgn)

noncomputable instance : Add XF := ⟨add⟩
noncomputable instance : Neg XF := ⟨neg⟩
noncomputable instance : Sub XF := ⟨fun a b => a + -b⟩
noncomputable instance : Mul XF := ⟨mul⟩
noncomputable instance : Div XF := ⟨div⟩
noncomputable instance : OfScientific XF := ⟨fun m s e => fin (OfScientific.ofScientific m s e)⟩

/-- lift a function defined on all reals, with given values at the infinities and at `-0` -/
def lift (f : ℝ → ℝ) (atPos atNeg atNZ : XF) : XF → XF
  | nan => nan
  | inf false => atPos
  | inf true => atNeg
  | nzero => atNZ
  | fin r => fin (f r)

noncomputable instance : FOps XF where
  fsqrt := fun
    | nan => nan
    | inf false => inf false
    | inf true => nan
    | nzero => nzero
    | fin r => if r < 0 then nan else fin (Real.sqrt r)
  fsin := lift Real.sin nan nan nzero
  fcos := lift Real.cos nan nan (fin 1)
  facos := fun
    | nzero => fin (Real.pi / 2)
    | fin r => if -1 ≤ r ∧ r ≤ 1 then fin (Real.arccos r) else nan
    | _ => nan
  fatan := lift Real.arctan (fin (Real.pi / 2)) (fin (-(Real.pi / 2))) nzero
  fexp := lift Real.exp (inf false) (fin 0) (fin 1)
  fln := fun
    | nan => nan
    | inf false => inf false
    | inf true => nan
    | nzero => inf true
    | fin r => if r < 0 then nan else if r = 0 then inf true else fin (Real.log r)
  ftanh := lift Real.tanh (fin 1) (fin (-1)) nzero
  fabs := fun
    | nan => nan
    | inf _ => inf false
    | nzero => fin 0
    | fin r => fin |r|
  fround := fun
    | fin r => mk (realRound r) (decide (r < 0))
    | x => x
  fpi := fin Real.pi
  flt := fun
    | nan, _ => false
    | _, nan => false
    | inf a, inf b => a && !b
    | inf a, _ => a
    | _, inf b => !b
    | x, y => decide (x.real < y.real)
  fle := fun
    | nan, _ => false
    | _, nan => false
    | inf a, inf b => a || !b
    | inf a, _ => a
    | _, inf b => !b
    | x, y => decide (x.real ≤ y.real)
  fisFinite := fun
    | nan => false
    | inf _ => false
    | _ => true
  fofInt := fun n => fin n
  ftoNat := fun
    | inf false => 2 ^ 64 - 1
    | fin r => min ⌊r⌋₊ (2 ^ 64 - 1)
    | _ => 0

/-! Simplification rules -/

@[simp] theorem nan_add (x : XF) : nan + x = nan := by cases x <;> rfl
@[simp] theorem add_nan (x : XF) : x + nan = nan := by cases x <;> rfl
@[simp] theorem neg_nan : -nan = nan := rfl
@[simp] theorem nan_sub (x : XF) : nan - x = nan := by
  change nan + -x = nan; simp
@[simp] theorem sub_nan (x : XF) : x - nan = nan := by
  change x + -nan = nan; simp
@[simp] theorem nan_mul (x : XF) : nan * x = nan := by cases x <;> rfl
@[simp] theorem mul_nan (x : XF) : x * nan = nan := by cases x <;> rfl
@[simp] theorem nan_div (x : XF) : nan / x = nan := by cases x <;> rfl
@[simp] theorem div_nan (x : XF) : x / nan = nan := by cases x <;> rfl
@[simp] theorem sqrt_nan : fsqrt nan = nan := rfl
@[simp] theorem sin_nan : fsin nan = nan := rfl
@[simp] theorem cos_nan : fcos nan = nan := rfl
@[simp] theorem acos_nan : facos nan = nan := rfl
@[simp] theorem atan_nan : fatan nan = nan := rfl
@[simp] theorem exp_nan : fexp nan = nan := rfl
@[simp] theorem ln_nan : fln nan = nan := rfl
@[simp] theorem abs_nan : fabs nan = nan := rfl
@[simp] theorem nan_lt (x : XF) : flt nan x = false := by cases x <;> rfl
@[simp] theorem lt_nan (x : XF) : flt x nan = false := by cases x <;> rfl

@[simp] theorem fin_add (r q : ℝ) : fin r + fin q = fin (r + q) := rfl
@[simp] theorem fin_neg (r : ℝ) : -fin r = if r = 0 then nzero else fin (-r) := rfl
@[simp] theorem nzero_add (r : ℝ) : nzero + fin r = fin r := rfl
@[simp] theorem add_nzero (r : ℝ) : fin r + nzero = fin r := rfl
@[simp] theorem fin_sub (r q : ℝ) : fin r - fin q = fin (r - q) := by
  change fin r + -fin q = _
  by_cases h : q = 0
  · subst h; simp
  · simp [h, sub_eq_add_neg]
@[simp] theorem fin_mul (r q : ℝ) : fin r * fin q = mk (r * q) (decide (r < 0) != decide (q < 0)) :=
  rfl
theorem fin_div (r q : ℝ) : fin r / fin q =
    if q = 0 then (if r = 0 then nan else inf (decide (r < 0) != decide (q < 0)))
    else mk (r / q) (decide (r < 0) != decide (q < 0)) := rfl
theorem fin_div_of_ne (r : ℝ) {q : ℝ} (h : q ≠ 0) :
    fin r / fin q = mk (r / q) (decide (r < 0) != decide (q < 0)) := by
  rw [fin_div, if_neg h]
theorem zero_div_zero : fin 0 / fin 0 = nan := by simp [fin_div]
@[simp] theorem fin_sin (r : ℝ) : fsin (fin r) = fin (Real.sin r) := rfl
@[simp] theorem fin_cos (r : ℝ) : fcos (fin r) = fin (Real.cos r) := rfl
@[simp] theorem fin_atan (r : ℝ) : fatan (fin r) = fin (Real.arctan r) := rfl
theorem fin_sqrt {r : ℝ} (h : 0 ≤ r) : fsqrt (fin r) = fin (Real.sqrt r) := by
  change (if r < 0 then nan else fin (Real.sqrt r)) = _
  rw [if_neg (not_lt.2 h)]
@[simp] theorem fin_lt (r q : ℝ) : flt (fin r) (fin q) = decide (r < q) := rfl
@[simp] theorem lit (m : ℕ) (s : Bool) (e : ℕ) :
    (OfScientific.ofScientific m s e : XF) = fin (OfScientific.ofScientific m s e) := rfl
@[simp] theorem pi_eq : (fpi : XF) = fin Real.pi := rfl

/-- zero of either sign -/
def IsZero (x : XF) : Prop := x = fin 0 ∨ x = nzero

theorem mk_zero_isZero (b : Bool) : IsZero (mk 0 b) := by
  cases b <;> simp [mk, IsZero]

theorem isZero_sq {x : XF} (h : IsZero x) : x * x = fin 0 := by
  rcases h with h | h <;> subst h
  · simp [mk]
  · change mk (0 * 0) (true != true) = fin 0
    simp [mk]

theorem isZero_div_zero {x : XF} (h : IsZero x) : x / fin 0 = nan := by
  rcases h with h | h <;> subst h
  · exact zero_div_zero
  · change (if (0:ℝ) = 0 then (if (0:ℝ) = 0 then nan else _) else _) = nan
    simp

/-! Finite values: `Rep x r` says that `x` is a finite value equal to the real number `r`
(for `r = 0` of either sign). -/

def Rep (x : XF) (r : ℝ) : Prop := x = fin r ∨ (x = nzero ∧ r = 0)

theorem Rep.fin (r : ℝ) : Rep (fin r) r := Or.inl rfl

theorem Rep.isFinite {x : XF} {r : ℝ} (h : Rep x r) : fisFinite x = true := by
  rcases h with rfl | ⟨rfl, _⟩ <;> rfl

theorem Rep.real_eq {x : XF} {r : ℝ} (h : Rep x r) : x.real = r := by
  rcases h with rfl | ⟨rfl, rfl⟩ <;> rfl

theorem rep_mk (r : ℝ) (b : Bool) : Rep (mk r b) r := by
  unfold mk
  split
  · rename_i h; subst h
    cases b
    · exact Or.inl rfl
    · exact Or.inr ⟨rfl, rfl⟩
  · exact Or.inl rfl

theorem Rep.add {x y : XF} {r q : ℝ} (hx : Rep x r) (hy : Rep y q) : Rep (x + y) (r + q) := by
  rcases hx with rfl | ⟨rfl, rfl⟩ <;> rcases hy with rfl | ⟨rfl, rfl⟩
  · exact Or.inl rfl
  · rw [add_zero]; exact Or.inl rfl
  · rw [zero_add]; exact Or.inl rfl
  · exact Or.inr ⟨rfl, by norm_num⟩

theorem Rep.neg {x : XF} {r : ℝ} (hx : Rep x r) : Rep (-x) (-r) := by
  rcases hx with rfl | ⟨rfl, rfl⟩
  · rw [fin_neg]
    split
    · rename_i h; subst h; exact Or.inr ⟨rfl, by norm_num⟩
    · exact Or.inl rfl
  · rw [neg_zero]; exact Or.inl rfl

theorem Rep.sub {x y : XF} {r q : ℝ} (hx : Rep x r) (hy : Rep y q) : Rep (x - y) (r - q) := by
  rw [sub_eq_add_neg]; exact hx.add hy.neg

theorem Rep.mul {x y : XF} {r q : ℝ} (hx : Rep x r) (hy : Rep y q) : Rep (x * y) (r * q) := by
  rcases hx with rfl | ⟨rfl, rfl⟩ <;> rcases hy with rfl | ⟨rfl, rfl⟩ <;> exact rep_mk _ _

theorem Rep.div {x y : XF} {r q : ℝ} (hx : Rep x r) (hy : Rep y q) (h : q ≠ 0) :
    Rep (x / y) (r / q) := by
  rcases hy with rfl | ⟨rfl, rfl⟩
  · rcases hx with rfl | ⟨rfl, rfl⟩
    · rw [fin_div_of_ne _ h]; exact rep_mk _ _
    · have : nzero / XF.fin q = mk (0 / q) (true != decide (q < 0)) := by
        change (if q = 0 then _ else _) = _
        rw [if_neg h]; rfl
      rw [this]; exact rep_mk _ _
  · exact absurd rfl h

theorem Rep.sqrt {x : XF} {r : ℝ} (hx : Rep x r) (h : 0 ≤ r) : Rep (fsqrt x) (Real.sqrt r) := by
  rcases hx with rfl | ⟨rfl, rfl⟩
  · rw [fin_sqrt h]; exact Or.inl rfl
  · exact Or.inr ⟨rfl, Real.sqrt_zero⟩

theorem Rep.sin {x : XF} {r : ℝ} (hx : Rep x r) : Rep (fsin x) (Real.sin r) := by
  rcases hx with rfl | ⟨rfl, rfl⟩
  · exact Or.inl rfl
  · exact Or.inr ⟨rfl, Real.sin_zero⟩

theorem Rep.cos {x : XF} {r : ℝ} (hx : Rep x r) : Rep (fcos x) (Real.cos r) := by
  rcases hx with rfl | ⟨rfl, rfl⟩
  · exact Or.inl rfl
  · rw [Real.cos_zero]; exact Or.inl rfl

end XF

end Verif
