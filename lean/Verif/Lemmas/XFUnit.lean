/-
Helper lemmas: in the extended scalars a rotated spin is a unit vector as soon as it is finite.
-/
import Verif.Lemmas.XFRotate
import Verif.Lemmas.Regular

namespace Verif

open Spec

namespace XF

/-- NaN or plus infinity -/
def Bad (x : XF) : Prop := x = nan ∨ x = inf false

theorem rep_of_finite {x : XF} (h : fisFinite x = true) : Rep x x.real := by
  cases x with
  | nan => cases h
  | inf b => cases h
  | nzero => exact Or.inr ⟨rfl, rfl⟩
  | fin r => exact Or.inl rfl

theorem finite_or (x : XF) : fisFinite x = true ∨ x = nan ∨ ∃ b, x = inf b := by
  cases x with
  | nan => exact Or.inr (Or.inl rfl)
  | inf b => exact Or.inr (Or.inr ⟨b, rfl⟩)
  | nzero => exact Or.inl rfl
  | fin r => exact Or.inl rfl

theorem sq_ne_ninf (x : XF) : x * x ≠ inf true := by
  cases x with
  | nan => intro h; cases h
  | inf b =>
    have : inf b * inf b = inf (b != b) := rfl
    rw [this]; simp
  | nzero =>
    intro h
    have := (Rep.mul (x := nzero) (y := nzero) (Or.inr ⟨rfl, rfl⟩) (Or.inr ⟨rfl, rfl⟩)).isFinite
    rw [h] at this; cases this
  | fin r =>
    intro h
    have := ((Rep.fin r).mul (Rep.fin r)).isFinite
    rw [h] at this; cases this

theorem sq_bad {x : XF} (h : x = nan ∨ ∃ b, x = inf b) : Bad (x * x) := by
  rcases h with rfl | ⟨b, rfl⟩
  · left; simp
  · right
    have : inf b * inf b = inf (b != b) := rfl
    rw [this]; simp

theorem bad_add {x y : XF} (h : Bad x) (hy : y ≠ inf true) : Bad (x + y) := by
  rcases h with rfl | rfl
  · left; simp
  · cases y with
    | nan => left; rfl
    | inf b =>
      cases b
      · right; rfl
      · exact absurd rfl hy
    | nzero => right; rfl
    | fin r => right; rfl

theorem add_bad {x y : XF} (h : Bad y) (hx : x ≠ inf true) : Bad (x + y) := by
  rcases h with rfl | rfl
  · left; simp
  · cases x with
    | nan => left; rfl
    | inf b =>
      cases b
      · right; rfl
      · exact absurd rfl hx
    | nzero => right; rfl
    | fin r => right; rfl

theorem Bad.ne {x : XF} (h : Bad x) : x ≠ inf true := by
  rcases h with rfl | rfl <;> simp

theorem add_ne {x y : XF} (hx : x ≠ inf true) (hy : y ≠ inf true) : x + y ≠ inf true := by
  rcases finite_or x with h | h
  · rcases finite_or y with h' | h'
    · intro e
      have := ((rep_of_finite h).add (rep_of_finite h')).isFinite
      rw [e] at this; cases this
    · have : Bad y := by
        rcases h' with h' | ⟨b, rfl⟩
        · exact Or.inl h'
        · cases b
          · exact Or.inr rfl
          · exact absurd rfl hy
      exact (add_bad this hx).ne
  · have : Bad x := by
      rcases h with h | ⟨b, rfl⟩
      · exact Or.inl h
      · cases b
        · exact Or.inr rfl
        · exact absurd rfl hx
    exact (bad_add this hy).ne

theorem sqrt_bad {x : XF} (h : Bad x) : Bad (fsqrt x) := by
  rcases h with rfl | rfl
  · left; rfl
  · right; rfl

theorem div_bad_not_finite {x s : XF} (hs : Bad s) (hx : x = nan ∨ ∃ b, x = inf b) :
    fisFinite (x / s) = false := by
  rcases hs with rfl | rfl
  · simp; rfl
  · rcases hx with rfl | ⟨b, rfl⟩
    · rfl
    · rfl

end XF

open XF in
/-- a vector divided by its length is a unit vector if it is finite -/
theorem xf_normalised {v : V3 XF}
    (hx : fisFinite (v.x / fsqrt (sumSq v)) = true) (hy : fisFinite (v.y / fsqrt (sumSq v)) = true)
    (hz : fisFinite (v.z / fsqrt (sumSq v)) = true) :
    (v.x / fsqrt (sumSq v)).real ^ 2 + (v.y / fsqrt (sumSq v)).real ^ 2
      + (v.z / fsqrt (sumSq v)).real ^ 2 = 1 := by
  have h0 : (0.0 : XF) ≠ inf true := by simp
  have bx : (v.x = nan ∨ ∃ b, v.x = inf b) → False := by
    intro h
    have : Bad (sumSq v) := bad_add (bad_add (add_bad (sq_bad h) h0) (sq_ne_ninf _)) (sq_ne_ninf _)
    rw [div_bad_not_finite (sqrt_bad this) h] at hx
    cases hx
  have by' : (v.y = nan ∨ ∃ b, v.y = inf b) → False := by
    intro h
    have : Bad (sumSq v) := bad_add (add_bad (sq_bad h) (add_ne h0 (sq_ne_ninf _))) (sq_ne_ninf _)
    rw [div_bad_not_finite (sqrt_bad this) h] at hy
    cases hy
  have bz : (v.z = nan ∨ ∃ b, v.z = inf b) → False := by
    intro h
    have : Bad (sumSq v) := add_bad (sq_bad h) (add_ne (add_ne h0 (sq_ne_ninf _)) (sq_ne_ninf _))
    rw [div_bad_not_finite (sqrt_bad this) h] at hz
    cases hz
  have fx := rep_of_finite ((finite_or v.x).resolve_right bx)
  have fy := rep_of_finite ((finite_or v.y).resolve_right by')
  have fz := rep_of_finite ((finite_or v.z).resolve_right bz)
  set r : V3 ℝ := ⟨v.x.real, v.y.real, v.z.real⟩ with hr
  have hs := (rep_sumSq (v := v) (r := r) ⟨fx, fy, fz⟩).sqrt
    (by rw [sumSq_real]; exact dot_self_nonneg _)
  have hpos : Real.sqrt (sumSq r) ≠ 0 := by
    intro h
    rw [h] at hs
    have hzero : r = zero := by
      rw [sumSq_real] at h
      exact dot_self_eq_zero.1 ((Real.sqrt_eq_zero (dot_self_nonneg _)).1 h)
    have h1 : v.x.real = 0 := congrArg V3.x hzero
    rw [h1] at fx
    rcases hs with hs | ⟨hs, _⟩ <;> rw [hs] at hx <;> rcases fx with fx | ⟨fx, _⟩ <;> rw [fx] at hx
    · rw [zero_div_zero] at hx; cases hx
    · rw [isZero_div_zero (Or.inr rfl)] at hx; cases hx
    · rw [show fin 0 / nzero = nan by
        change (if (0:ℝ) = 0 then (if (0:ℝ) = 0 then nan else _) else _) = nan
        simp] at hx
      cases hx
    · rw [show nzero / nzero = nan by
        change (if (0:ℝ) = 0 then (if (0:ℝ) = 0 then nan else _) else _) = nan
        simp] at hx
      cases hx
  rw [(fx.div hs hpos).real_eq, (fy.div hs hpos).real_eq, (fz.div hs hpos).real_eq]
  have h2 : Real.sqrt (sumSq r) ^ 2 = dot r r := by
    rw [Real.sq_sqrt (by rw [sumSq_real]; exact dot_self_nonneg _), sumSq_real]
  rw [div_pow, div_pow, div_pow, h2, ← add_div, ← add_div,
    show v.x.real ^ 2 + v.y.real ^ 2 + v.z.real ^ 2 = dot r r by simp only [dot, hr]; ring]
  apply div_self
  rw [← h2]
  exact pow_ne_zero 2 hpos

/-- the result of a rotation is a unit vector if it is finite, whatever the arguments -/
theorem xf_rotate_unit (s : Spin XF) (f : V3 XF) (dt : XF)
    (hx : fisFinite (s.rotate f dt).dir.x = true) (hy : fisFinite (s.rotate f dt).dir.y = true)
    (hz : fisFinite (s.rotate f dt).dir.z = true) :
    (s.rotate f dt).dir.x.real ^ 2 + (s.rotate f dt).dir.y.real ^ 2
      + (s.rotate f dt).dir.z.real ^ 2 = 1 :=
  xf_normalised hx hy hz

section
variable {F : Type} [Add F] [Sub F] [Mul F] [Div F] [Neg F] [OfScientific F] [FOps F]

/-- every site that moves ends as the result of a rotation -/
theorem stepF_is_rotate (m : ℕ) (j h : ℕ → V3 F) (dt : F) (sp : ℕ → Spin F) {i : ℕ} (hi : i < m) :
    ∃ (x : Spin F) (f : V3 F) (d : F), stepF m j h dt sp i = x.rotate f d := by
  unfold stepF
  by_cases hp : i % 2 = 0
  · exact ⟨_, _, _, if_pos ⟨hi, hp⟩⟩
  · rw [subF_other hp]
    exact ⟨_, _, _, if_pos ⟨hi, by omega⟩⟩

theorem updates_is_rotate {c c' : SpinChain F} {L s n : ℕ} (w : WF c L s) (hL : 2 ≤ L) (hn : 1 ≤ n)
    (h : c.updates n = .ok c') {i : ℕ} (hi : i < 2 * (L / 2)) :
    ∃ (x : Spin F) (f : V3 F) (d : F), c'.spins[i]? = some (x.rotate f d) := by
  obtain ⟨k, rfl⟩ : ∃ k, n = k + 1 := ⟨n - 1, by omega⟩
  obtain ⟨c1, h1, h2⟩ := updates_succ'.1 h
  have w1 := updates_wf w h1
  obtain ⟨j, hh, sp, hj, hhh, hsp⟩ := wf_tabs w1 (by omega)
  obtain ⟨e, he⟩ := h_ext_ok w1.hs (c1.t + c1.vars.dt / 2.0)
  obtain ⟨s', g1, g2⟩ := update_tab w1 hL hj hhh hsp he
  rw [h2] at g1
  cases g1
  obtain ⟨x, f, d, hx⟩ := stepF_is_rotate (2 * (L / 2)) j (fieldF s hh e) c1.vars.dt sp hi
  exact ⟨x, f, d, by rw [← hx]; exact g2.getElem? (by omega)⟩

end

end Verif
