/-
Properties C01–C10: the single spin (/repo/src/spin.rs).
-/
import Verif.Lemmas.SpinGeom
import Verif.Lemmas.XFRotate

namespace Verif.Props

open Spec

/-! ### C01: rotation returns a unit spin -/

theorem C01_rotate_unit (s : Spin ℝ) (field : V3 ℝ) (dt : ℝ) (hs : s.dir ≠ zero)
    (hf : field ≠ zero) : len (s.rotate field dt).dir = 1 :=
  rotate_unit hs hf dt

example : (⟨⟨3, -4, 12⟩⟩ : Spin ℝ).dir ≠ zero ∧ (⟨1, 2, -2⟩ : V3 ℝ) ≠ zero := by
  constructor <;> · intro h; simpa [zero] using congrArg V3.y h

/-! ### C02: rotation is the precession flow `dS/dt = S × field` -/

theorem C02_rotate_flow (s : Spin ℝ) (field : V3 ℝ) (hs : IsUnit3 s) (hf : field ≠ zero) :
    s.rotate field 0 = s ∧
    (∀ t, HasDeriv3 (fun t => (s.rotate field t).dir) (cross (s.rotate field t).dir field) t) ∧
    (∀ t, dot (s.rotate field t).dir field = dot s.dir field) :=
  ⟨rotate_zero hs hf, rotate_hasDeriv hs hf, rotate_dot_axis hs hf⟩

/-- non-vacuity: a spin off every axis and a field off every axis -/
example : IsUnit3 ⟨⟨3 / 13, -4 / 13, 12 / 13⟩⟩ ∧ (⟨1, 2, -2⟩ : V3 ℝ) ≠ zero := by
  constructor
  · rw [unit_iff]; norm_num [dot]
  · intro h; simpa [zero] using congrArg V3.x h

/-- A component-wise derivative statement of C02 determines the direction of rotation: the doctest
of the crate (`field = y`, `dt = π/2` takes `x` to `z`) is an instance. -/
example : ((⟨⟨1, 0, 0⟩⟩ : Spin ℝ).rotate ⟨0, 1, 0⟩ (Real.pi / 2)).dir = ⟨0, 0, 1⟩ := by
  have hu : IsUnit3 (⟨⟨1, 0, 0⟩⟩ : Spin ℝ) := by rw [unit_iff]; norm_num [dot]
  have hb : (⟨0, 1, 0⟩ : V3 ℝ) ≠ zero := by intro h; simpa [zero] using congrArg V3.y h
  have hl : len (⟨0, 1, 0⟩ : V3 ℝ) = 1 := by simp [len, dot]
  rw [rotate_unit_eq hu hb, hl]
  ext <;> simp [rodr, nrm, hl, dot]

/-! ### C03: rotations about one field compose and invert -/

theorem C03_rotate_compose (s : Spin ℝ) (field : V3 ℝ) (hs : IsUnit3 s) (hf : field ≠ zero)
    (dt1 dt2 : ℝ) :
    (s.rotate field dt1).rotate field dt2 = s.rotate field (dt1 + dt2) :=
  rotate_rotate hs hf dt1 dt2

theorem C03_rotate_inverse (s : Spin ℝ) (field : V3 ℝ) (hs : IsUnit3 s) (hf : field ≠ zero)
    (dt : ℝ) : (s.rotate field dt).rotate field (-dt) = s := by
  rw [rotate_rotate hs hf, add_neg_cancel, rotate_zero hs hf]

example : IsUnit3 ⟨⟨2 / 3, 2 / 3, -1 / 3⟩⟩ ∧ (⟨0, 0, 5⟩ : V3 ℝ) ≠ zero := by
  constructor
  · rw [unit_iff]; norm_num [dot]
  · intro h; simpa [zero] using congrArg V3.z h

/-! ### C04: finiteness for every field

Full claim: for every finite spin and *every* finite field the rotated spin is finite (and of unit
length if the spin is non-zero).  The code violates it at field = 0. -/

/-- every component is a finite number -/
def Finite3 (v : V3 XF) : Prop :=
  fisFinite v.x = true ∧ fisFinite v.y = true ∧ fisFinite v.z = true

/-- The part that holds: for finite inputs, a non-zero spin and a non-zero field the result is
finite and of length 1.  Missing: field = 0. -/
theorem C04_rotate_finite_partial (s : Spin XF) (field : V3 XF) (dt : XF) (sr fr : V3 ℝ) (tr : ℝ)
    (hs : Rep3 s.dir sr) (hf : Rep3 field fr) (ht : dt.Rep tr) (hs0 : sr ≠ zero) (hf0 : fr ≠ zero) :
    Finite3 (s.rotate field dt).dir ∧
      ∃ r : V3 ℝ, Rep3 (s.rotate field dt).dir r ∧ len r = 1 := by
  have h := rep_rotate hs hf ht hs0 hf0
  exact ⟨⟨h.1.isFinite, h.2.1.isFinite, h.2.2.isFinite⟩, _, h, rotate_unit (s := ⟨sr⟩) hs0 hf0 tr⟩

example : Rep3 ⟨.fin 1, .nzero, .fin 0⟩ ⟨1, 0, 0⟩ ∧ (⟨1, 0, 0⟩ : V3 ℝ) ≠ zero :=
  ⟨⟨Or.inl rfl, Or.inr ⟨rfl, rfl⟩, Or.inl rfl⟩, by
    intro h; simpa [zero] using congrArg V3.x h⟩

/-- The violation: in a zero field (components zero of either sign) every component of every spin
becomes NaN, for every time-step, zero included. -/
theorem C04_zero_field_nan (s : Spin XF) (field : V3 XF) (dt : XF) (hx : field.x.IsZero)
    (hy : field.y.IsZero) (hz : field.z.IsZero) :
    (s.rotate field dt).dir = ⟨.nan, .nan, .nan⟩ := by
  have h0 : fsqrt (sumSq field) = XF.fin 0 := by
    simp only [sumSq, XF.isZero_sq hx, XF.isZero_sq hy, XF.isZero_sq hz, XF.lit, lit_0, XF.fin_add]
    rw [XF.fin_sqrt (by norm_num)]
    norm_num
  simp only [Spin.rotate, h0, XF.isZero_div_zero hx, XF.isZero_div_zero hy, XF.isZero_div_zero hz]
  simp [sumSq]

/-- so the full claim is false of the code -/
theorem C04_negation : ¬ ∀ (s : Spin XF) (field : V3 XF) (dt : XF), Finite3 s.dir →
    Finite3 field → fisFinite dt = true → Finite3 (s.rotate field dt).dir := by
  intro h
  have := h ⟨⟨.fin 1, .fin 0, .fin 0⟩⟩ ⟨.fin 0, .fin 0, .fin 0⟩ (.fin (1 / 2))
    ⟨rfl, rfl, rfl⟩ ⟨rfl, rfl, rfl⟩ rfl
  rw [C04_zero_field_nan _ _ _ (Or.inl rfl) (Or.inl rfl) (Or.inl rfl)] at this
  exact absurd this.1 (by change ¬ (false = true); simp)

example : XF.IsZero (.fin 0) ∧ XF.IsZero .nzero := ⟨Or.inl rfl, Or.inr rfl⟩

/-! ### C05: `new_xyz` -/

theorem C05_new_xyz (a b c : ℝ) (h : (⟨a, b, c⟩ : V3 ℝ) ≠ zero) :
    ∃ s : Spin ℝ, Spin.new_xyz [a, b, c] = .ok s ∧ len s.dir = 1 ∧
      (∃ k, 0 < k ∧ (⟨a, b, c⟩ : V3 ℝ) = smul k s.dir) ∧
      ∀ r, 0 < r → Spin.new_xyz [r * a, r * b, r * c] = .ok s := by
  have hl := len_pos h
  have e : ∀ x y z : ℝ, Spin.new_xyz [x, y, z] = .ok ⟨nrm ⟨x, y, z⟩⟩ := by
    intro x y z
    have : fsqrt (sumSqList [x, y, z]) = len ⟨x, y, z⟩ := by
      simp [sumSqList, len, dot]
    simp only [Spin.new_xyz, this]
    rfl
  refine ⟨⟨nrm ⟨a, b, c⟩⟩, e a b c, ?_, ⟨len ⟨a, b, c⟩, hl, (smul_nrm h).symm⟩, ?_⟩
  · show IsUnit3 _
    rw [unit_iff]; exact dot_nrm h
  · intro r hr
    rw [e]
    have hlr : len ⟨r * a, r * b, r * c⟩ = r * len ⟨a, b, c⟩ := by
      have : dot ⟨r * a, r * b, r * c⟩ ⟨r * a, r * b, r * c⟩
          = (r * r) * dot ⟨a, b, c⟩ ⟨a, b, c⟩ := by simp only [dot]; ring
      unfold len
      rw [this, Real.sqrt_mul (mul_self_nonneg r), Real.sqrt_mul_self hr.le]
    congr 2
    ext <;> simp only [nrm, hlr] <;> field_simp

/-- the rejected inputs: fewer than three numbers (any scalar type) -/
theorem C05_short_panics {F : Type} [Add F] [Sub F] [Mul F] [Div F] [Neg F] [OfScientific F]
    [FOps F] (xs : List F) (h : xs.length < 3) : Spin.new_xyz xs = .error .indexOOB := by
  rcases xs with _ | ⟨a, _ | ⟨b, _ | ⟨c, xs⟩⟩⟩
  · rfl
  · rfl
  · rfl
  · simp at h; omega

/-- more than three numbers: the extra ones enter the norm, so the spin is a unit vector only if
they vanish -/
theorem C05_long (a b c : ℝ) (rest : List ℝ) (h : (⟨a, b, c⟩ : V3 ℝ) ≠ zero) :
    ∃ s : Spin ℝ, Spin.new_xyz (a :: b :: c :: rest) = .ok s ∧
      (len s.dir = 1 ↔ ∀ x ∈ rest, x = 0) := by
  have fold : ∀ (l : List ℝ) (init : ℝ), l.foldl (fun acc x => acc + x * x) init
      = init + (l.map fun x => x * x).sum := by
    intro l
    induction l with
    | nil => intro i; simp
    | cons x l ih => intro i; simp [ih]; ring
  have nn : ∀ l : List ℝ, 0 ≤ (l.map fun x => x * x).sum := by
    intro l
    apply List.sum_nonneg
    intro x hx
    obtain ⟨y, -, rfl⟩ := List.mem_map.1 hx
    exact mul_self_nonneg y
  have zero_iff : ∀ l : List ℝ, (l.map fun x => x * x).sum = 0 ↔ ∀ x ∈ l, x = 0 := by
    intro l
    induction l with
    | nil => simp
    | cons x l ih =>
      simp only [List.map_cons, List.sum_cons, List.mem_cons, forall_eq_or_imp]
      rw [← ih]
      constructor
      · intro hh
        have h1 := mul_self_nonneg x
        have h2 := nn l
        exact ⟨mul_self_eq_zero.1 (by linarith), by linarith⟩
      · rintro ⟨rfl, h2⟩; simp [h2]
  set q := (rest.map fun x => x * x).sum with hq
  set d := dot ⟨a, b, c⟩ ⟨a, b, c⟩ with hd
  have hdp : 0 < d := dot_self_pos h
  have hn : fsqrt (sumSqList (a :: b :: c :: rest)) = Real.sqrt (d + q) := by
    simp only [sumSqList, fold, fsqrt_real, lit_0, zero_add, hd, hq, dot, List.map_cons,
      List.sum_cons]
    congr 1; ring
  have hpos : 0 < d + q := by have := nn rest; linarith
  refine ⟨⟨⟨a / Real.sqrt (d + q), b / Real.sqrt (d + q), c / Real.sqrt (d + q)⟩⟩, ?_, ?_⟩
  · simp only [Spin.new_xyz, hn]; rfl
  · rw [← zero_iff rest, ← hq]
    change IsUnit3 _ ↔ _
    rw [unit_iff]
    have : dot ⟨a / Real.sqrt (d + q), b / Real.sqrt (d + q), c / Real.sqrt (d + q)⟩
        ⟨a / Real.sqrt (d + q), b / Real.sqrt (d + q), c / Real.sqrt (d + q)⟩ = d / (d + q) := by
      have hs := (Real.sqrt_pos.2 hpos).ne'
      have hm := Real.mul_self_sqrt hpos.le
      have e1 : dot ⟨a / Real.sqrt (d + q), b / Real.sqrt (d + q), c / Real.sqrt (d + q)⟩
          ⟨a / Real.sqrt (d + q), b / Real.sqrt (d + q), c / Real.sqrt (d + q)⟩
          = dot ⟨a, b, c⟩ ⟨a, b, c⟩ / (Real.sqrt (d + q) * Real.sqrt (d + q)) := by
        generalize Real.sqrt (d + q) = w at *
        simp only [dot]; field_simp
      rw [e1, hm]
    rw [this, div_eq_one_iff_eq hpos.ne']
    constructor <;> intro hh <;> linarith

example : (⟨1, 0, 1⟩ : V3 ℝ) ≠ zero := by intro h; simpa [zero] using congrArg V3.x h

/-! ### C06: angle constructors -/

theorem C06_angles (theta phi : ℝ) (old : Spin ℝ) :
    len (Spin.new_from_angles theta phi).dir = 1 ∧
      old.set_angles theta phi = Spin.new_from_angles theta phi :=
  ⟨angles_unit theta phi, rfl⟩

/-- spherical coordinates: `phi` is the angle to the z axis, `theta` the azimuth -/
theorem C06_coordinates (theta phi : ℝ) :
    (Spin.new_from_angles theta phi).dir.z = Real.cos phi ∧
    (Spin.new_from_angles theta phi).dir.x = Real.cos theta * Real.sin phi ∧
    (Spin.new_from_angles theta phi).dir.y = Real.sin theta * Real.sin phi :=
  ⟨rfl, rfl, rfl⟩

/-! ### C07: `theta`/`phi` recover the direction

Full claim: `new_from_angles (s.theta) (s.phi) = s` for every unit spin.  Proved off the circle
x = 0; on that circle the code returns the spin with the y component reversed. -/

theorem C07_angles_roundtrip_partial (s : Spin ℝ) (hs : IsUnit3 s) (hx : s.dir.x ≠ 0) :
    Spin.new_from_angles s.theta s.phi = s :=
  angles_roundtrip hs hx

/-- non-vacuity: both hemispheres -/
example : (IsUnit3 ⟨⟨3 / 13, -4 / 13, 12 / 13⟩⟩ ∧ (3 / 13 : ℝ) ≠ 0) ∧
    (IsUnit3 ⟨⟨-2 / 3, 2 / 3, 1 / 3⟩⟩ ∧ (-2 / 3 : ℝ) ≠ 0) := by
  refine ⟨⟨?_, by norm_num⟩, ⟨?_, by norm_num⟩⟩ <;> · rw [unit_iff]; norm_num [dot]

/-- The violation: a unit spin `(+0, y, z)`, `y ≠ 0`, comes back as `(0, -y, z)`. -/
theorem C07_x_zero_flips (y z : ℝ) (hy : y ≠ 0) (hu : y * y + z * z = 1) :
    let s : Spin XF := ⟨⟨.fin 0, .fin y, .fin z⟩⟩
    (Spin.new_from_angles s.theta s.phi).dir.y = .fin (-y) ∧
      (Spin.new_from_angles s.theta s.phi).dir.z = .fin z := by
  intro s
  have hz1 : -1 ≤ z := by nlinarith [mul_self_pos.2 hy]
  have hz2 : z ≤ 1 := by nlinarith [mul_self_pos.2 hy]
  have hphi : s.phi = .fin (Real.arccos z) := by
    change (if -1 ≤ z ∧ z ≤ 1 then XF.fin (Real.arccos z) else .nan) = _
    rw [if_pos ⟨hz1, hz2⟩]
  have hsin : Real.sin (Real.arccos z) = |y| := by
    rw [Real.sin_arccos, show 1 - z ^ 2 = y ^ 2 by nlinarith, Real.sqrt_sq_eq_abs]
  have hcos : Real.cos (Real.arccos z) = z := Real.cos_arccos hz1 hz2
  have hdiv : (XF.fin y / XF.fin 0) = .inf (decide (y < 0)) := by
    rw [XF.fin_div, if_pos rfl, if_neg hy]; simp
  have htheta : s.theta = .fin ((if y < 0 then -(Real.pi / 2) else Real.pi / 2) + Real.pi) := by
    simp only [Spin.theta, s, hdiv, XF.lit, lit_0, XF.fin_lt, lt_self_iff_false, decide_false,
      XF.pi_eq]
    by_cases h : y < 0
    · simp only [h, decide_true, if_true]; rfl
    · simp only [h, decide_false, if_false]; rfl
  constructor
  · simp only [Spin.new_from_angles, htheta, hphi, XF.fin_sin, XF.fin_mul, hsin,
      Real.sin_add_pi]
    by_cases h : y < 0
    · simp only [h, if_true, Real.sin_neg, Real.sin_pi_div_two, neg_neg, one_mul, abs_of_neg h]
      simp [XF.mk, hy]
    · have hp : 0 < y := lt_of_le_of_ne (not_lt.1 h) (Ne.symm hy)
      simp only [h, if_false, Real.sin_pi_div_two, abs_of_pos hp]
      simp [XF.mk, hy]
  · simp only [Spin.new_from_angles, hphi, XF.fin_cos, hcos]

/-- At the poles the angles are not even numbers. -/
theorem C07_pole_nan (z : XF) :
    (⟨⟨.fin 0, .fin 0, z⟩⟩ : Spin XF).theta = .nan := by
  simp [Spin.theta, XF.zero_div_zero]

/-- so the full claim is false of the code -/
theorem C07_negation : ¬ ∀ (x y z : ℝ), x * x + y * y + z * z = 1 →
    Spin.new_from_angles (⟨⟨.fin x, .fin y, .fin z⟩⟩ : Spin XF).theta
      (⟨⟨.fin x, .fin y, .fin z⟩⟩ : Spin XF).phi = ⟨⟨.fin x, .fin y, .fin z⟩⟩ := by
  intro h
  have h1 := h 0 1 0 (by norm_num)
  have h2 := (C07_x_zero_flips 1 0 (by norm_num) (by norm_num)).1
  rw [h1] at h2
  rw [XF.fin.injEq] at h2
  norm_num at h2

/-! ### C08: Gram–Schmidt -/

theorem C08_gram_schmidt (old perp : V3 ℝ) (hind : cross old perp ≠ zero) :
    len (Spin.gs old perp) = 1 ∧ dot (Spin.gs old perp) old = 0 ∧
      0 < dot (Spin.gs old perp) perp ∧
      ∃ a b, 0 < b ∧ Spin.gs old perp = add (smul a old) (smul b perp) := by
  have ho : old ≠ zero := by
    rintro rfl; apply hind; ext <;> simp [cross, zero]
  have hne := gsSub_ne_zero ho hind
  have hl := len_pos hne
  have hd := gsSub_dot_old ho perp
  have hq := (dot_self_pos ho).ne'
  rw [gs_eq]
  have hdn : ∀ v, dot (nrm (gsSub old perp)) v = dot (gsSub old perp) v / len (gsSub old perp) := by
    intro v; simp only [dot, nrm]; ring
  refine ⟨?_, ?_, ?_, ?_⟩
  · have := dot_nrm hne
    unfold len; rw [this, Real.sqrt_one]
  · rw [hdn, hd, zero_div]
  · rw [hdn]
    apply div_pos _ hl
    have : dot (gsSub old perp) perp = dot (gsSub old perp) (gsSub old perp)
        + dot perp old / dot old old * dot (gsSub old perp) old := by
      simp only [gsSub]
      generalize dot perp old = d
      generalize dot old old = q
      simp only [dot]; ring
    rw [this, hd, mul_zero, add_zero]
    exact dot_self_pos hne
  · refine ⟨-(dot perp old / dot old old / len (gsSub old perp)), 1 / len (gsSub old perp),
      by positivity, ?_⟩
    ext <;> simp only [nrm, gsSub, add, smul] <;>
      generalize len (gsSub old perp) = w at * <;> ring

/-- non-vacuity: the crate's doctest vectors -/
example : cross (⟨2, 1, 3⟩ : V3 ℝ) ⟨1, 1, 0⟩ ≠ zero := by
  intro h; have := congrArg V3.z h; norm_num [cross, zero] at this

theorem sqrt_zeros {x y z : XF} (hx : x.IsZero) (hy : y.IsZero) (hz : z.IsZero) : fsqrt (sumSq (⟨x, y, z⟩ : V3 XF)) = XF.fin 0 := by
  simp only [sumSq, XF.isZero_sq hx, XF.isZero_sq hy, XF.isZero_sq hz, XF.lit, lit_0, XF.fin_add]
  rw [XF.fin_sqrt (by norm_num)]
  norm_num

/-- parallel vectors: the direction is not a number -/
theorem C08_parallel_nan (old perp : V3 XF) (o : V3 ℝ) (k : ℝ) (ho : Rep3 old o) (hp : Rep3 perp (smul k o)) (h0 : o ≠ zero) :
    Spin.gs old perp = ⟨.nan, .nan, .nan⟩ := by
  have n0 : sumSq o ≠ 0 := by
    have := dot_self_pos h0
    simp only [dot] at this
    have e : sumSq o = o.x * o.x + o.y * o.y + o.z * o.z := by simp [sumSq]
    rw [e]
    exact this.ne'
  have hs := rep_sumSq ho
  obtain ⟨ox, oy, oz⟩ := ho
  obtain ⟨px, py, pz⟩ := hp
  have hd := ((px.mul ox).add (py.mul oy)).add (pz.mul oz)
  have ed : (smul k o).x * o.x + (smul k o).y * o.y + (smul k o).z * o.z = k * sumSq o := by
    simp only [smul, sumSq, lit_0]
    ring
  rw [ed] at hd
  have comp : ∀ {p q : XF} {c : ℝ}, p.Rep (k * c) → q.Rep c →
      (p - (perp.x * old.x + perp.y * old.y + perp.z * old.z) * q / sumSq old).IsZero := fun {p q c} hp hq => by
    have h := hp.sub ((hd.mul hq).div hs n0)
    have e : k * c - k * sumSq o * c / sumSq o = 0 := by
      field_simp
      ring
    rw [e] at h
    exact h.imp id And.left
  have zx := comp px ox
  have zy := comp py oy
  have zz := comp pz oz
  have hq := sqrt_zeros zx zy zz
  simp only [Spin.gs, hq, XF.isZero_div_zero zx, XF.isZero_div_zero zy, XF.isZero_div_zero zz]

example : ∃ (old perp : V3 XF) (o : V3 ℝ) (k : ℝ), Rep3 old o ∧ Rep3 perp (smul k o) ∧ o ≠ zero := by
  refine ⟨⟨.fin 1, .fin 3, .nzero⟩, ⟨.fin (-2 * 1), .fin (-2 * 3), .fin 0⟩, ⟨1, 3, 0⟩, -2, ⟨.inl rfl, .inl rfl, .inr ⟨rfl, rfl⟩⟩,
    ⟨.inl rfl, .inl rfl, .inl ?_⟩, fun h => ?_⟩
  · simp [smul]
  · have := congrArg V3.x h
    norm_num [zero] at this

/-! ### C09: `rot_perp` turns by exactly the requested angle, about the given direction

`old` is the direction with angles `(theta, phi)`, and `p` the unit vector perpendicular to it in the
half-plane of `dir`.  The turn is about `p`, right-handed: the new direction is
`cos a • old + sin a • (p × old)`.  The hypothesis `hx` keeps it off the circle x = 0 excluded by
C07. -/

/-- there is only one unit vector perpendicular to `old` on the side of `perp` -/
theorem gs_unique {old perp p : V3 ℝ} (hind : cross old perp ≠ zero) (h1 : len p = 1)
    (h2 : dot p old = 0) {b c : ℝ} (hc : 0 < c) (hp : p = add (smul b old) (smul c perp)) :
    p = Spin.gs old perp := by
  obtain ⟨g1, g2, -, b', c', hc', hg⟩ := C08_gram_schmidt old perp hind
  have ho : old ≠ zero := by
    rintro rfl; apply hind; ext <;> simp [cross, zero]
  have hq := dot_self_pos ho
  obtain ⟨g, hgd⟩ : ∃ g, g = Spin.gs old perp := ⟨_, rfl⟩
  rw [← hgd] at g1 g2 hg ⊢
  -- `c' p - c g` is parallel to `old` and perpendicular to it
  have hz : c' * b - c * b' = 0 := by
    have e : c' * dot p old - c * dot g old = (c' * b - c * b') * dot old old := by
      rw [hp, hg]; simp only [dot, add, smul]; ring
    rw [h2, g2] at e
    have : (c' * b - c * b') * dot old old = 0 := by rw [← e]; ring
    exact (mul_eq_zero.1 this).resolve_right hq.ne'
  have hpar : smul c' p = smul c g := by
    rw [hp, hg]
    ext <;> simp only [add, smul]
    · linear_combination old.x * hz
    · linear_combination old.y * hz
    · linear_combination old.z * hz
  have hl : c' * len p = c * len g := by
    have e : dot (smul c' p) (smul c' p) = dot (smul c g) (smul c g) := by rw [hpar]
    have e1 : c' ^ 2 * (len p * len p) = c ^ 2 * (len g * len g) := by
      rw [len_sq, len_sq]
      have : c' ^ 2 * dot p p = dot (smul c' p) (smul c' p) := by
        simp only [dot, smul]; ring
      rw [this, e]; simp only [dot, smul]; ring
    rw [h1, g1] at e1 ⊢
    have : c' ^ 2 = c ^ 2 := by linarith
    rw [(sq_eq_sq₀ hc'.le hc.le).1 this]
  rw [h1, g1, mul_one, mul_one] at hl
  have hx := congrArg V3.x hpar
  have hy := congrArg V3.y hpar
  have hzz := congrArg V3.z hpar
  simp only [smul, hl] at hx hy hzz
  ext
  · exact mul_left_cancel₀ hc.ne' hx
  · exact mul_left_cancel₀ hc.ne' hy
  · exact mul_left_cancel₀ hc.ne' hzz

theorem C09_rot_perp_turn (theta phi : ℝ) (dir p : V3 ℝ) (a b c : ℝ)
    (hind : cross (Spin.new_from_angles theta phi).dir dir ≠ zero)
    (hp1 : len p = 1) (hp2 : dot p (Spin.new_from_angles theta phi).dir = 0) (hc : 0 < c)
    (hp : p = add (smul b (Spin.new_from_angles theta phi).dir) (smul c dir))
    (hx : Real.cos a * (Spin.new_from_angles theta phi).dir.x
      + Real.sin a * (cross p (Spin.new_from_angles theta phi).dir).x ≠ 0) :
    (Spin.new_from_angles (Spin.rot_perp (theta, phi) dir a).1
        (Spin.rot_perp (theta, phi) dir a).2).dir
      = add (smul (Real.cos a) (Spin.new_from_angles theta phi).dir)
          (smul (Real.sin a) (cross p (Spin.new_from_angles theta phi).dir)) := by
  obtain ⟨old, hold⟩ : ∃ o, o = Spin.new_from_angles theta phi := ⟨_, rfl⟩
  rw [← hold] at hind hp2 hp hx ⊢
  have hu : IsUnit3 old := by rw [hold]; exact angles_unit theta phi
  have hgs := gs_unique hind hp1 hp2 hc hp
  have hpz : p ≠ zero := by
    intro h; rw [h] at hp1; simp [len, dot, zero] at hp1
  have hnp : nrm p = p := by ext <;> simp [nrm, hp1]
  have hds : dot old.dir p = 0 := by rw [dot_comm]; exact hp2
  have hrot : (old.rotate p (-a)).dir = add (smul (Real.cos a) old.dir)
      (smul (Real.sin a) (cross p old.dir)) := by
    rw [rotate_unit_eq hu hpz, hp1, one_mul, hnp]
    ext <;> simp only [rodr, hds, Real.cos_neg, Real.sin_neg, add, smul, cross] <;> ring
  have hux : IsUnit3 (old.rotate p (-a)) := rotate_unit (unit_ne_zero hu) hpz _
  have hrx : (old.rotate p (-a)).dir.x ≠ 0 := by rw [hrot]; exact hx
  have hback := angles_roundtrip hux hrx
  have : Spin.rot_perp (theta, phi) dir a
      = ((old.rotate p (-a)).theta, (old.rotate p (-a)).phi) := by
    rw [hgs, hold]; rfl
  rw [this]
  simp only [hback]
  exact hrot

/-- in particular the angle between the two directions is `a` -/
theorem C09_rot_perp_angle (theta phi : ℝ) (dir p : V3 ℝ) (a b c : ℝ)
    (hind : cross (Spin.new_from_angles theta phi).dir dir ≠ zero)
    (hp1 : len p = 1) (hp2 : dot p (Spin.new_from_angles theta phi).dir = 0) (hc : 0 < c)
    (hp : p = add (smul b (Spin.new_from_angles theta phi).dir) (smul c dir))
    (hx : Real.cos a * (Spin.new_from_angles theta phi).dir.x
      + Real.sin a * (cross p (Spin.new_from_angles theta phi).dir).x ≠ 0) :
    dot (Spin.new_from_angles (Spin.rot_perp (theta, phi) dir a).1
        (Spin.rot_perp (theta, phi) dir a).2).dir (Spin.new_from_angles theta phi).dir
      = Real.cos a := by
  rw [C09_rot_perp_turn theta phi dir p a b c hind hp1 hp2 hc hp hx]
  obtain ⟨old, hold⟩ : ∃ o, o = Spin.new_from_angles theta phi := ⟨_, rfl⟩
  rw [← hold]
  have h1 := unit_iff.1 (show IsUnit3 old by rw [hold]; exact angles_unit theta phi)
  have h2 := cross_dot_right p old.dir
  have : dot (add (smul (Real.cos a) old.dir) (smul (Real.sin a) (cross p old.dir))) old.dir
      = Real.cos a * dot old.dir old.dir + Real.sin a * dot (cross p old.dir) old.dir := by
    simp only [dot, add, smul]; ring
  rw [this, h1, h2]; ring

/-- the hypotheses can always be met: such a `p` exists -/
example (old dir : V3 ℝ) (h : cross old dir ≠ zero) : ∃ (p : V3 ℝ) (b c : ℝ), len p = 1 ∧
    dot p old = 0 ∧ 0 < c ∧ p = add (smul b old) (smul c dir) := by
  obtain ⟨h1, h2, -, b, c, hc, h3⟩ := C08_gram_schmidt old dir h
  exact ⟨_, b, c, h1, h2, hc, h3⟩

/-- non-vacuity: `old = x`, direction `x + 2 z`, a sixth of a turn about `p = z` -/
example : cross (Spin.new_from_angles (0 : ℝ) (Real.pi / 2)).dir ⟨1, 0, 2⟩ ≠ zero ∧
    len (⟨0, 0, 1⟩ : V3 ℝ) = 1 ∧ dot ⟨0, 0, 1⟩ (Spin.new_from_angles (0 : ℝ) (Real.pi / 2)).dir = 0 ∧
    (⟨0, 0, 1⟩ : V3 ℝ) = add (smul (-(1 / 2)) (Spin.new_from_angles (0 : ℝ) (Real.pi / 2)).dir)
      (smul (1 / 2) ⟨1, 0, 2⟩) ∧
    Real.cos (Real.pi / 3) * (Spin.new_from_angles (0 : ℝ) (Real.pi / 2)).dir.x
      + Real.sin (Real.pi / 3) * (cross ⟨0, 0, 1⟩
        (Spin.new_from_angles (0 : ℝ) (Real.pi / 2)).dir).x ≠ 0 := by
  have e : (Spin.new_from_angles (0 : ℝ) (Real.pi / 2)).dir = ⟨1, 0, 0⟩ := by
    ext <;> simp [Spin.new_from_angles]
  rw [e]
  refine ⟨?_, by simp [len, dot], by simp [dot], by ext <;> norm_num [add, smul], by simp [cross]⟩
  intro h; have := congrArg V3.y h; norm_num [cross, zero] at this

/-! ### C10: spin equality is a tolerance relation -/

theorem C10_eq_iff (a b : Spin ℝ) : a.eq b = true ↔
    |a.dir.x - b.dir.x| < 1 / 1000 ∧ |a.dir.y - b.dir.y| < 1 / 1000 ∧
      |a.dir.z - b.dir.z| < 1 / 1000 := by
  have : (0.001 : ℝ) = 1 / 1000 := by norm_num
  simp only [Spin.eq, fabs_real, flt_real, Bool.and_eq_true, decide_eq_true_eq, this, and_assoc]

theorem C10_eq_refl (a : Spin ℝ) : a.eq a = true := by
  rw [C10_eq_iff]; simp

theorem C10_eq_symm (a b : Spin ℝ) : a.eq b = b.eq a := by
  rw [Bool.eq_iff_iff, C10_eq_iff, C10_eq_iff, abs_sub_comm a.dir.x, abs_sub_comm a.dir.y,
    abs_sub_comm a.dir.z]

/-- not transitive, even among unit spins -/
theorem C10_not_transitive : ∃ a b c : Spin ℝ, IsUnit3 a ∧ IsUnit3 b ∧ IsUnit3 c ∧
    a.eq b = true ∧ b.eq c = true ∧ a.eq c = false := by
  -- unit vectors near the z axis, x-components -0.0009.., 0, +0.0009..
  let k : ℝ := 2 / 2201
  have key : ∀ t : ℝ, IsUnit3 ⟨⟨2 * t / (1 + t ^ 2), 0, (1 - t ^ 2) / (1 + t ^ 2)⟩⟩ := by
    intro t
    rw [unit_iff]
    have : (1 + t ^ 2) ≠ 0 := by positivity
    simp only [dot]; field_simp; ring
  refine ⟨⟨⟨2 * (-(1/2201)) / (1 + (-(1/2201)) ^ 2), 0,
      (1 - (-(1/2201)) ^ 2) / (1 + (-(1/2201)) ^ 2)⟩⟩, ⟨⟨0, 0, 1⟩⟩,
    ⟨⟨2 * (1/2201) / (1 + (1/2201) ^ 2), 0, (1 - (1/2201) ^ 2) / (1 + (1/2201) ^ 2)⟩⟩,
    key _, ?_, key _, ?_, ?_, ?_⟩
  · rw [unit_iff]; norm_num [dot]
  · rw [C10_eq_iff]; norm_num [abs_lt]
  · rw [C10_eq_iff]; norm_num [abs_lt]
  · rw [Bool.eq_false_iff]; intro h; rw [C10_eq_iff] at h
    have := h.1
    norm_num [abs_lt] at this

/-- A spin containing a NaN is not even equal to itself. -/
theorem C10_nan_not_refl (s : Spin XF) (h : s.dir.x = .nan ∨ s.dir.y = .nan ∨ s.dir.z = .nan) :
    s.eq s = false := by
  rcases h with h | h | h <;> simp [Spin.eq, h]

end Verif.Props
