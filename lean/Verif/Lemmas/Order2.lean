/-
Helper lemmas: one time-step of the integrator against the exact motion, to second order in the
length of the step.
-/
import Verif.Lemmas.Order

namespace Verif

open Spec

/-- a motion of the chain, a starting time and a site -/
structure Fam where
  X : ℝ → ℕ → V3 ℝ
  t0 : ℝ
  i : ℕ

/-- bounds on the couplings, the fields and the first two derivatives of the fields in time -/
structure FieldData (m : ℕ) (J : ℕ → V3 ℝ) (b b1 b2 : ℝ → ℕ → V3 ℝ) (K : ℝ) : Prop where
  leJ : ∀ i < m, len (J i) ≤ K
  le0 : ∀ t i, len (b t i) ≤ K
  le1 : ∀ t i, len (b1 t i) ≤ K
  le2 : ∀ t i, len (b2 t i) ≤ K
  d1 : ∀ t i, HasDeriv3 (fun t => b t i) (b1 t i) t
  d2 : ∀ t i, HasDeriv3 (fun t => b1 t i) (b2 t i) t

/-- `X` obeys the equations of motion for a time `h ≤ 1` from `t0` on, starting from unit spins -/
def Sol (m : ℕ) (J : ℕ → V3 ℝ) (b : ℝ → ℕ → V3 ℝ) (p : Fam) (h : ℝ) : Prop :=
  0 ≤ h ∧ h ≤ 1 ∧ p.i < m ∧ (∀ j < m, len (p.X p.t0 j) = 1) ∧
  ∀ u, 0 ≤ u → u ≤ h → ∀ j < m, HasDeriv3 (fun t => p.X t j)
    (cross (p.X (p.t0 + u) j) (omega m (p.X (p.t0 + u)) J (b (p.t0 + u)) j)) (p.t0 + u)

theorem hasDeriv3_shift {f : ℝ → V3 ℝ} {v : V3 ℝ} {t0 u : ℝ} (h : HasDeriv3 f v (t0 + u)) :
    HasDeriv3 (fun u => f (t0 + u)) v u :=
  ⟨h.1.comp_const_add t0 u, h.2.1.comp_const_add t0 u, h.2.2.comp_const_add t0 u⟩

section
variable {m : ℕ} {J : ℕ → V3 ℝ} {b b1 b2 : ℝ → ℕ → V3 ℝ} {K : ℝ}

theorem sol_dom : Dom (Sol m J b) where
  nonneg _ _ a := a.1
  le_one _ _ a := a.2.1
  down _ _ _ a u0 u1 := ⟨u0, u1.trans a.2.1, a.2.2.1, a.2.2.2.1, fun w w0 w1 => a.2.2.2.2 w w0 (w1.trans u1)⟩

/-- the spin at time `u` after the start -/
def xx (p : Fam) (u : ℝ) : V3 ℝ := p.X (p.t0 + u) p.i
/-- its field -/
def Om (m : ℕ) (J : ℕ → V3 ℝ) (b : ℝ → ℕ → V3 ℝ) (p : Fam) (u : ℝ) : V3 ℝ :=
  omega m (p.X (p.t0 + u)) J (b (p.t0 + u)) p.i
/-- its velocity at the start -/
def vel (m : ℕ) (J : ℕ → V3 ℝ) (b : ℝ → ℕ → V3 ℝ) (p : Fam) : V3 ℝ := cross (xx p 0) (Om m J b p 0)
def lf (m : ℕ) (p : Fam) : Fam := { p with i := left m p.i }
def rg (m : ℕ) (p : Fam) : Fam := { p with i := right m p.i }
/-- rate of change of the exchange part of the field at the start -/
def nbv (m : ℕ) (J : ℕ → V3 ℝ) (b : ℝ → ℕ → V3 ℝ) (p : Fam) : V3 ℝ :=
  Spec.add (had (J (left m p.i)) (vel m J b (lf m p))) (had (J p.i) (vel m J b (rg m p)))

theorem sol_lf (p : Fam) (h : ℝ) (a : Sol m J b p h) : Sol m J b (lf m p) h :=
  ⟨a.1, a.2.1, left_lt (by have := a.2.2.1; omega), a.2.2.2.1, a.2.2.2.2⟩

theorem sol_rg (p : Fam) (h : ℝ) (a : Sol m J b p h) : Sol m J b (rg m p) h :=
  ⟨a.1, a.2.1, right_lt' (by have := a.2.2.1; omega), a.2.2.2.1, a.2.2.2.2⟩

theorem sol_start (p : Fam) (h : ℝ) (a : Sol m J b p h) : Sol m J b p 0 :=
  sol_dom.down p h 0 a le_rfl a.1

theorem sol_deriv (p : Fam) (h : ℝ) (a : Sol m J b p h) :
    HasDeriv3 (xx p) (cross (xx p h) (Om m J b p h)) h :=
  hasDeriv3_shift (f := fun t => p.X t p.i) (a.2.2.2.2 h a.1 le_rfl p.i a.2.2.1)

theorem sol_len (p : Fam) (h : ℝ) (a : Sol m J b p h) : len (xx p h) = 1 := by
  have hd : ∀ u ∈ Set.Icc (0 : ℝ) h, HasDerivWithinAt (fun u => dot (xx p u) (xx p u)) 0 (Set.Icc 0 h) u := by
    intro u hu
    obtain ⟨d1, d2, d3⟩ := sol_deriv p u (sol_dom.down p h u a hu.1 hu.2)
    have := ((d1.mul d1).add (d2.mul d2)).add (d3.mul d3)
    refine (this.congr_deriv ?_).hasDerivWithinAt
    simp only [cross]; ring
  have := (convex_Icc (0 : ℝ) h).norm_image_sub_le_of_norm_hasDerivWithin_le (C := 0) hd (by simp)
      (Set.left_mem_Icc.2 a.1) (Set.right_mem_Icc.2 a.1)
  rw [zero_mul] at this
  have e : dot (xx p h) (xx p h) = dot (xx p 0) (xx p 0) := by
    have := norm_le_zero_iff.1 this
    linarith
  have h0 : len (xx p 0) = 1 := by
    have := a.2.2.2.1 p.i a.2.2.1
    simpa [xx] using this
  unfold len at h0 ⊢
  rw [e, h0]

theorem vo_xx : VO (Sol m J b) 0 xx := VO.of_le (K := 1) fun p h a => (sol_len p h a).le
theorem vo_x0 : VO (Sol m J b) 0 (fun p _ => xx p 0) :=
  VO.of_le (K := 1) fun p h a => (sol_len p 0 (sol_start p h a)).le

theorem vo_J (D : FieldData m J b b1 b2 K) (f : Fam → ℕ)
    (hf : ∀ p h, Sol m J b p h → f p < m) : VO (Sol m J b) 0 (fun p _ => J (f p)) :=
  VO.of_le fun p h a => D.leJ (f p) (hf p h a)

/-- an expression of the shape of a local field -/
theorem vo_field (D : FieldData m J b b1 b2 K) {k : ℕ} {f g e : Fam → ℝ → V3 ℝ} (hf : VO (Sol m J b) k f)
    (hg : VO (Sol m J b) k g) (he : VO (Sol m J b) k e) : VO (Sol m J b) k (fun p h =>
      Spec.sub (Spec.add (had (J (left m p.i)) (f p h)) (had (J p.i) (g p h))) (e p h)) := by
  have h1 := VO.had sol_dom (vo_J D (fun p => left m p.i) fun p h a => (sol_lf p h a).2.2.1) hf
  have h2 := VO.had sol_dom (vo_J D (fun p => p.i) fun p h a => a.2.2.1) hg
  rw [zero_add] at h1 h2
  exact (h1.add h2).sub he

theorem vo_Om (D : FieldData m J b b1 b2 K) : VO (Sol m J b) 0 (Om m J b) :=
  vo_field D (vo_xx.comp (lf m) sol_lf) (vo_xx.comp (rg m) sol_rg)
    (VO.of_le fun p h _ => D.le0 (p.t0 + h) p.i)

theorem vo_start {f : Fam → ℝ → V3 ℝ} (hf : VO (Sol m J b) 0 f) :
    VO (Sol m J b) 0 (fun p _ => f p 0) := by
  obtain ⟨M, hM, h1⟩ := hf
  exact ⟨M, hM, fun p h a => by simpa using h1 p 0 (sol_start p h a)⟩

theorem vo_Om0 (D : FieldData m J b b1 b2 K) : VO (Sol m J b) 0 (fun p _ => Om m J b p 0) :=
  vo_start (vo_Om D)

theorem vo_vel (D : FieldData m J b b1 b2 K) : VO (Sol m J b) 0 (fun p _ => vel m J b p) :=
  VO.cross sol_dom vo_x0 (vo_Om0 D)

theorem vo_h {k : ℕ} {f : Fam → ℝ → V3 ℝ} (r : ℝ) (hf : VO (Sol m J b) k f) :
    VO (Sol m J b) (1 + k) (fun p h => Spec.smul (r * h) (f p h)) := by
  refine hf.smul sol_dom (j := 1) (M := |r|) fun p h a => ?_
  rw [abs_mul, abs_of_nonneg a.1, pow_one]

theorem vo_c {k : ℕ} {f : Fam → ℝ → V3 ℝ} (r : ℝ) (hf : VO (Sol m J b) k f) :
    VO (Sol m J b) k (fun p h => Spec.smul r (f p h)) := by
  have := hf.smul sol_dom (j := 0) (r := fun _ _ => r) (M := |r|) fun p h a => by simp
  rwa [zero_add] at this

/-! #### the external field -/

theorem vo_b1 (D : FieldData m J b b1 b2 K) : VO (Sol m J b) 1 (fun p h =>
    Spec.sub (b1 (p.t0 + h) p.i) (b1 p.t0 p.i)) := by
  have := VO.int (A := Sol m J b) (k := 0) sol_dom (f := fun p h => Spec.sub (b1 (p.t0 + h) p.i) (b1 p.t0 p.i))
    (g := fun p h => Spec.sub (b2 (p.t0 + h) p.i) zero)
    (VO.sub (VO.of_le fun p h _ => D.le2 (p.t0 + h) p.i) (VO.of_le fun p h _ => len_zero.le))
    (fun p h _ => hasDeriv3_sub (hasDeriv3_shift (D.d2 (p.t0 + h) p.i)) (hasDeriv3_const _ _))
    (fun p h _ => by ext <;> simp [Spec.sub, zero])
  exact this

theorem vo_b (D : FieldData m J b b1 b2 K) : VO (Sol m J b) 2 (fun p h =>
    Spec.sub (Spec.sub (b (p.t0 + h) p.i) (b p.t0 p.i)) (smul h (b1 p.t0 p.i))) := by
  have := VO.int (A := Sol m J b) (k := 1) sol_dom
    (f := fun p h => Spec.sub (Spec.sub (b (p.t0 + h) p.i) (b p.t0 p.i)) (smul h (b1 p.t0 p.i)))
    (g := fun p h => Spec.sub (Spec.sub (b1 (p.t0 + h) p.i) zero) (b1 p.t0 p.i))
    ((vo_b1 D).congr fun p h _ => by ext <;> simp [Spec.sub, zero])
    (fun p h _ => hasDeriv3_sub (hasDeriv3_sub (hasDeriv3_shift (D.d1 (p.t0 + h) p.i))
      (hasDeriv3_const _ _)) (hasDeriv3_lin _ _))
    (fun p h _ => by ext <;> simp [Spec.sub, zero, smul])
  exact this

theorem vo_b_half (D : FieldData m J b b1 b2 K) : VO (Sol m J b) 2 (fun p h =>
    Spec.sub (Spec.sub (b (p.t0 + h / 2) p.i) (b p.t0 p.i)) (smul (1 / 2 * h) (b1 p.t0 p.i))) := by
  obtain ⟨M, hM, h1⟩ := vo_b (m := m) (J := J) D
  refine ⟨M, hM, fun p h a => ?_⟩
  have h2 := h1 p (h / 2) (sol_dom.down p h _ a (by have := a.1; linarith) (by have := a.1; linarith))
  dsimp only at h2 ⊢
  rw [show 1 / 2 * h = h / 2 by ring]
  refine h2.trans (mul_le_mul_of_nonneg_left ?_ hM)
  rw [div_pow]
  have := sq_nonneg h
  linarith

theorem vo_b1c (D : FieldData m J b b1 b2 K) : VO (Sol m J b) 0 (fun p _ => b1 p.t0 p.i) :=
  VO.of_le fun p _ _ => D.le1 p.t0 p.i

/-! #### the exact motion -/

theorem vo_x1 (D : FieldData m J b b1 b2 K) : VO (Sol m J b) 1 (fun p h => Spec.sub (xx p h) (xx p 0)) := by
  have := VO.int (A := Sol m J b) (k := 0) sol_dom (f := fun p h => Spec.sub (xx p h) (xx p 0))
    (g := fun p h => Spec.sub (cross (xx p h) (Om m J b p h)) zero)
    (VO.sub (VO.cross sol_dom vo_xx (vo_Om D)) (VO.of_le fun p h _ => len_zero.le))
    (fun p h a => hasDeriv3_sub (sol_deriv p h a) (hasDeriv3_const _ _))
    (fun p h _ => by ext <;> simp [Spec.sub, zero])
  exact this

theorem vo_Om1 (D : FieldData m J b b1 b2 K) :
    VO (Sol m J b) 1 (fun p h => Spec.sub (Om m J b p h) (Om m J b p 0)) := by
  have hb : VO (Sol m J b) 1 (fun p h => Spec.sub (b (p.t0 + h) p.i) (b p.t0 p.i)) := by
    have h1 := ((vo_b D).mono sol_dom (by norm_num : 1 ≤ 2)).add (vo_h 1 (vo_b1c (m := m) (J := J) D))
    exact h1.congr fun p h _ => by ext <;> simp only [Spec.sub, Spec.add, smul] <;> ring
  refine (vo_field D ((vo_x1 D).comp (lf m) sol_lf) ((vo_x1 D).comp (rg m) sol_rg) hb).congr
    fun p h _ => ?_
  ext <;> simp only [Om, omega, xx, lf, rg, Spec.sub, Spec.add, had, add_zero] <;> ring

theorem vo_x2 (D : FieldData m J b b1 b2 K) :
    VO (Sol m J b) 2 (fun p h => Spec.sub (Spec.sub (xx p h) (xx p 0)) (smul h (vel m J b p))) := by
  have h1 := VO.cross sol_dom (vo_x1 D) (vo_Om D)
  have h2 := VO.cross sol_dom (vo_x0 (m := m) (J := J) (b := b)) (vo_Om1 D)
  have := VO.int (A := Sol m J b) (k := 1) sol_dom
    (f := fun p h => Spec.sub (Spec.sub (xx p h) (xx p 0)) (smul h (vel m J b p)))
    (g := fun p h => Spec.sub (Spec.sub (cross (xx p h) (Om m J b p h)) zero) (vel m J b p))
    ((h1.add h2).congr fun p h _ => by
      ext <;> simp only [Spec.sub, Spec.add, cross, zero, vel] <;> ring)
    (fun p h a => hasDeriv3_sub (hasDeriv3_sub (sol_deriv p h a) (hasDeriv3_const _ _)) (hasDeriv3_lin _ _))
    (fun p h _ => by ext <;> simp [Spec.sub, zero, smul])
  exact this

/-- rate of change of the whole field at the start -/
def rate (m : ℕ) (J : ℕ → V3 ℝ) (b b1 : ℝ → ℕ → V3 ℝ) (p : Fam) : V3 ℝ :=
  Spec.sub (nbv m J b p) (b1 p.t0 p.i)

theorem vo_nb (D : FieldData m J b b1 b2 K) : VO (Sol m J b) 0 (fun p _ => nbv m J b p) := by
  have h1 := VO.had sol_dom (vo_J D (fun p => left m p.i) fun p h a => (sol_lf p h a).2.2.1) ((vo_vel D).comp (lf m) sol_lf)
  have h2 := VO.had sol_dom (vo_J D (fun p => p.i) fun p h a => a.2.2.1) ((vo_vel D).comp (rg m) sol_rg)
  exact h1.add h2

theorem vo_rate (D : FieldData m J b b1 b2 K) : VO (Sol m J b) 0 (fun p _ => rate m J b b1 p) :=
  (vo_nb D).sub (vo_b1c D)

theorem vo_Om2 (D : FieldData m J b b1 b2 K) : VO (Sol m J b) 2 (fun p h =>
    Spec.sub (Spec.sub (Om m J b p h) (Om m J b p 0)) (smul h (rate m J b b1 p))) := by
  refine (vo_field D ((vo_x2 D).comp (lf m) sol_lf) ((vo_x2 D).comp (rg m) sol_rg) (vo_b D)).congr
    fun p h _ => ?_
  ext <;> simp only [Om, omega, xx, lf, rg, Spec.sub, Spec.add, had, add_zero, rate, nbv, smul] <;> ring

/-- second-order expansion -/
noncomputable def taylor (m : ℕ) (J : ℕ → V3 ℝ) (b b1 : ℝ → ℕ → V3 ℝ) (p : Fam) (h : ℝ) : V3 ℝ :=
  Spec.add (Spec.add (xx p 0) (smul h (vel m J b p)))
    (smul (h ^ 2 / 2) (Spec.add (cross (vel m J b p) (Om m J b p 0)) (cross (xx p 0) (rate m J b b1 p))))

theorem vo_exact (D : FieldData m J b b1 b2 K) :
    VO (Sol m J b) 3 (fun p h => Spec.sub (xx p h) (taylor m J b b1 p h)) := by
  have h1 := VO.cross sol_dom (vo_x2 D) (vo_Om D)
  have h2 := vo_h 1 (VO.cross sol_dom (vo_vel D) (vo_Om1 D))
  have h3 := VO.cross sol_dom (vo_x0 (m := m) (J := J) (b := b)) (vo_Om2 D)
  have := VO.int (A := Sol m J b) (k := 2) sol_dom
    (f := fun p h => Spec.sub (Spec.sub (Spec.sub (xx p h) (xx p 0)) (smul h (vel m J b p)))
      (smul (h ^ 2 / 2) (Spec.add (cross (vel m J b p) (Om m J b p 0)) (cross (xx p 0) (rate m J b b1 p)))))
    (g := fun p h => Spec.sub (Spec.sub (Spec.sub (cross (xx p h) (Om m J b p h)) zero) (vel m J b p))
      (smul h (Spec.add (cross (vel m J b p) (Om m J b p 0)) (cross (xx p 0) (rate m J b b1 p)))))
    (((h1.add h2).add h3).congr fun p h _ => by
      ext <;> simp only [Spec.sub, Spec.add, cross, zero, vel, smul] <;> ring)
    (fun p h a => hasDeriv3_sub (hasDeriv3_sub (hasDeriv3_sub (sol_deriv p h a) (hasDeriv3_const _ _))
      (hasDeriv3_lin _ _)) (hasDeriv3_quad _ _))
    (fun p h _ => by ext <;> simp [Spec.sub, zero, smul])
  exact this.congr fun p h _ => by ext <;> simp only [Spec.sub, Spec.add, taylor] <;> ring

/-! #### the integrator -/

/-- precession of a bounded family in a bounded field -/
theorem vo_precess {v w : Fam → ℝ → V3 ℝ} (r : ℝ) (hr : 0 ≤ r) (hv : VO (Sol m J b) 0 v)
    (hw : VO (Sol m J b) 0 w) : VO (Sol m J b) 3 (fun p h =>
      Spec.sub (Spec.sub (Spec.sub (precess (v p h) (w p h) (r * h)) (v p h))
        (smul (r * h) (cross (v p h) (w p h)))) (smul ((r * h) ^ 2 / 2) (cross (cross (v p h) (w p h)) (w p h)))) := by
  obtain ⟨M, hM, h1⟩ := hv
  obtain ⟨N, hN, h2⟩ := hw
  refine ⟨M * N ^ 3 * r ^ 3, by positivity, fun p h a => ?_⟩
  have e1 := h1 p h a
  have e2 := h2 p h a
  rw [pow_zero, mul_one] at e1 e2
  have h0 := a.1
  refine (precess_order3 _ _ (mul_nonneg hr h0)).trans ?_
  rw [mul_pow, ← mul_assoc]
  have e3 : len (v p h) * len (w p h) ^ 3 ≤ M * N ^ 3 :=
    mul_le_mul e1 (pow_le_pow_left₀ (len_nonneg _) e2 3) (pow_nonneg (len_nonneg _) 3) hM
  have := len_nonneg (v p h)
  gcongr

theorem vo_precess1 {v w : Fam → ℝ → V3 ℝ} (r : ℝ) (hr : 0 ≤ r) (hv : VO (Sol m J b) 0 v)
    (hw : VO (Sol m J b) 0 w) : VO (Sol m J b) 2 (fun p h =>
      Spec.sub (Spec.sub (precess (v p h) (w p h) (r * h)) (v p h)) (smul (r * h) (cross (v p h) (w p h)))) := by
  obtain ⟨M, hM, h1⟩ := hv
  obtain ⟨N, hN, h2⟩ := hw
  refine ⟨M * N ^ 2 * r ^ 2, by positivity, fun p h a => ?_⟩
  have e1 := h1 p h a
  have e2 := h2 p h a
  rw [pow_zero, mul_one] at e1 e2
  have h0 := a.1
  refine (precess_order2 _ _ (mul_nonneg hr h0)).trans ?_
  rw [mul_pow, ← mul_assoc]
  have e3 : len (v p h) * len (w p h) ^ 2 ≤ M * N ^ 2 :=
    mul_le_mul e1 (pow_le_pow_left₀ (len_nonneg _) e2 2) (pow_nonneg (len_nonneg _) 2) hM
  have := len_nonneg (v p h)
  gcongr

/-- field in the first half-step -/
noncomputable def Oa (m : ℕ) (J : ℕ → V3 ℝ) (b : ℝ → ℕ → V3 ℝ) (p : Fam) (h : ℝ) : V3 ℝ :=
  omega m (p.X p.t0) J (b (p.t0 + h / 2)) p.i
/-- even spin after the first half-step -/
noncomputable def ya (m : ℕ) (J : ℕ → V3 ℝ) (b : ℝ → ℕ → V3 ℝ) (p : Fam) (h : ℝ) : V3 ℝ :=
  precess (xx p 0) (Oa m J b p h) (1 / 2 * h)
/-- field of odd spins in the second sub-step -/
noncomputable def Ob (m : ℕ) (J : ℕ → V3 ℝ) (b : ℝ → ℕ → V3 ℝ) (p : Fam) (h : ℝ) : V3 ℝ :=
  Spec.sub (Spec.add (had (J (left m p.i)) (ya m J b (lf m p) h)) (had (J p.i) (ya m J b (rg m p) h)))
    (b (p.t0 + h / 2) p.i)
/-- odd spin after the step -/
noncomputable def yb (m : ℕ) (J : ℕ → V3 ℝ) (b : ℝ → ℕ → V3 ℝ) (p : Fam) (h : ℝ) : V3 ℝ :=
  precess (xx p 0) (Ob m J b p h) (1 * h)
/-- field of even spins in the last half-step -/
noncomputable def Oc (m : ℕ) (J : ℕ → V3 ℝ) (b : ℝ → ℕ → V3 ℝ) (p : Fam) (h : ℝ) : V3 ℝ :=
  Spec.sub (Spec.add (had (J (left m p.i)) (yb m J b (lf m p) h)) (had (J p.i) (yb m J b (rg m p) h)))
    (b (p.t0 + h / 2) p.i)
/-- even spin after the step -/
noncomputable def yc (m : ℕ) (J : ℕ → V3 ℝ) (b : ℝ → ℕ → V3 ℝ) (p : Fam) (h : ℝ) : V3 ℝ :=
  precess (ya m J b p h) (Oc m J b p h) (1 / 2 * h)

theorem vo_prec0 {v w : Fam → ℝ → V3 ℝ} (r : ℝ) (hv : VO (Sol m J b) 0 v) :
    VO (Sol m J b) 0 (fun p h => precess (v p h) (w p h) (r * h)) := by
  obtain ⟨M, hM, h1⟩ := hv
  exact ⟨M, hM, fun p h a => by rw [len_precess]; exact h1 p h a⟩

theorem vo_bh (D : FieldData m J b b1 b2 K) : VO (Sol m J b) 0 (fun p h => b (p.t0 + h / 2) p.i) :=
  VO.of_le fun _ _ _ => D.le0 _ _

theorem vo_Oa (D : FieldData m J b b1 b2 K) : VO (Sol m J b) 0 (Oa m J b) :=
  (vo_field D (vo_x0.comp (lf m) sol_lf) (vo_x0.comp (rg m) sol_rg) (vo_bh D)).congr fun p h _ => by
    simp only [Oa, omega, xx, lf, rg, add_zero]

theorem vo_Oa2 (D : FieldData m J b b1 b2 K) : VO (Sol m J b) 2 (fun p h =>
    Spec.add (Spec.sub (Oa m J b p h) (Om m J b p 0)) (smul (1 / 2 * h) (b1 p.t0 p.i))) :=
  (vo_c (-1) (vo_b_half D)).congr fun p h _ => by
    ext <;> simp only [Oa, Om, omega, Spec.sub, Spec.add, had, add_zero, smul] <;> ring

theorem vo_Oa1 (D : FieldData m J b b1 b2 K) : VO (Sol m J b) 1 (fun p h =>
    Spec.sub (Oa m J b p h) (Om m J b p 0)) :=
  (((vo_Oa2 D).mono sol_dom (by norm_num : 1 ≤ 2)).sub (vo_h (1 / 2) (vo_b1c (m := m) (J := J) D))).congr
    fun p h _ => by ext <;> simp only [Spec.sub, Spec.add, smul] <;> ring

theorem vo_ya (D : FieldData m J b b1 b2 K) : VO (Sol m J b) 2 (fun p h =>
    Spec.sub (Spec.sub (ya m J b p h) (xx p 0)) (smul (1 / 2 * h) (vel m J b p))) := by
  have h1 := vo_precess1 (1 / 2) (by norm_num) (vo_x0 (m := m) (J := J) (b := b)) (vo_Oa D)
  have h2 := vo_h (1 / 2) (VO.cross sol_dom (vo_x0 (m := m) (J := J) (b := b)) (vo_Oa1 D))
  exact (h1.add h2).congr fun p h _ => by
    ext <;> simp only [ya, vel, Spec.sub, Spec.add, cross, smul] <;> ring

theorem vo_Ob (D : FieldData m J b b1 b2 K) : VO (Sol m J b) 0 (Ob m J b) :=
  vo_field D ((vo_prec0 _ vo_x0).comp (lf m) sol_lf) ((vo_prec0 _ vo_x0).comp (rg m) sol_rg) (vo_bh D)

theorem vo_Ob2 (D : FieldData m J b b1 b2 K) : VO (Sol m J b) 2 (fun p h =>
    Spec.sub (Spec.sub (Ob m J b p h) (Om m J b p 0)) (smul (1 / 2 * h) (rate m J b b1 p))) := by
  refine (vo_field D ((vo_ya D).comp (lf m) sol_lf) ((vo_ya D).comp (rg m) sol_rg) (vo_b_half D)).congr
    fun p h _ => ?_
  ext <;> simp only [Ob, Om, omega, xx, lf, rg, Spec.sub, Spec.add, had, add_zero, rate, nbv, smul] <;> ring

theorem vo_Ob1 (D : FieldData m J b b1 b2 K) : VO (Sol m J b) 1 (fun p h =>
    Spec.sub (Ob m J b p h) (Om m J b p 0)) :=
  (((vo_Ob2 D).mono sol_dom (by norm_num : 1 ≤ 2)).add (vo_h (1 / 2) (vo_rate D))).congr
    fun p h _ => by ext <;> simp only [Spec.sub, Spec.add, smul] <;> ring

theorem vo_yb3 (D : FieldData m J b b1 b2 K) :
    VO (Sol m J b) 3 (fun p h => Spec.sub (yb m J b p h) (taylor m J b b1 p h)) := by
  have x0 := vo_x0 (m := m) (J := J) (b := b)
  have h1 := vo_precess 1 (by norm_num) x0 (vo_Ob D)
  have h2 := vo_h 1 (VO.cross sol_dom x0 (vo_Ob2 D))
  have h3 := vo_h (1 / 2) (vo_h 1 (VO.cross sol_dom (VO.cross sol_dom x0 (vo_Ob1 D)) (vo_Ob D)))
  have h4 := vo_h (1 / 2) (vo_h 1 (VO.cross sol_dom (vo_vel D) (vo_Ob1 D)))
  exact (((h1.add h2).add h3).add h4).congr fun p h _ => by
    ext <;> simp only [yb, taylor, vel, Spec.sub, Spec.add, cross, smul] <;> ring

theorem vo_yb (D : FieldData m J b b1 b2 K) : VO (Sol m J b) 2 (fun p h =>
    Spec.sub (Spec.sub (yb m J b p h) (xx p 0)) (smul (1 * h) (vel m J b p))) := by
  have x0 := vo_x0 (m := m) (J := J) (b := b)
  have h1 := vo_precess1 1 (by norm_num) x0 (vo_Ob D)
  have h2 := vo_h 1 (VO.cross sol_dom x0 (vo_Ob1 D))
  exact (h1.add h2).congr fun p h _ => by
    ext <;> simp only [yb, vel, Spec.sub, Spec.add, cross, smul] <;> ring

theorem vo_Oc (D : FieldData m J b b1 b2 K) : VO (Sol m J b) 0 (Oc m J b) :=
  vo_field D ((vo_prec0 _ vo_x0).comp (lf m) sol_lf) ((vo_prec0 _ vo_x0).comp (rg m) sol_rg) (vo_bh D)

theorem vo_Oc2 (D : FieldData m J b b1 b2 K) : VO (Sol m J b) 2 (fun p h =>
    Spec.sub (Spec.sub (Oc m J b p h) (Om m J b p 0))
      (Spec.sub (smul h (nbv m J b p)) (smul (1 / 2 * h) (b1 p.t0 p.i)))) := by
  refine (vo_field D ((vo_yb D).comp (lf m) sol_lf) ((vo_yb D).comp (rg m) sol_rg) (vo_b_half D)).congr
    fun p h _ => ?_
  ext <;> simp only [Oc, Om, omega, xx, lf, rg, Spec.sub, Spec.add, had, add_zero, nbv, smul] <;> ring

theorem vo_Oc1 (D : FieldData m J b b1 b2 K) : VO (Sol m J b) 1 (fun p h =>
    Spec.sub (Oc m J b p h) (Om m J b p 0)) :=
  (((vo_Oc2 D).mono sol_dom (by norm_num : 1 ≤ 2)).add ((vo_h 1 (vo_nb D)).sub
    (vo_h (1 / 2) (vo_b1c (m := m) (J := J) D)))).congr
    fun p h _ => by ext <;> simp only [Spec.sub, Spec.add, smul] <;> ring

theorem vo_ya1 (D : FieldData m J b b1 b2 K) : VO (Sol m J b) 1 (fun p h =>
    Spec.sub (ya m J b p h) (xx p 0)) :=
  (((vo_ya D).mono sol_dom (by norm_num : 1 ≤ 2)).add (vo_h (1 / 2) (vo_vel D))).congr
    fun p h _ => by ext <;> simp only [Spec.sub, Spec.add, smul] <;> ring

theorem vo_yc3 (D : FieldData m J b b1 b2 K) :
    VO (Sol m J b) 3 (fun p h => Spec.sub (yc m J b p h) (taylor m J b b1 p h)) := by
  have x0 := vo_x0 (m := m) (J := J) (b := b)
  have ya0 : VO (Sol m J b) 0 (ya m J b) := vo_prec0 _ x0
  -- expansions of the two precessions
  have h1 := vo_precess (1 / 2) (by norm_num) x0 (vo_Oa D)
  have h2 := vo_precess (1 / 2) (by norm_num) ya0 (vo_Oc D)
  -- linear terms
  have h3 := vo_h (1 / 2) (VO.cross sol_dom x0 (vo_Oa2 D))
  have h4 := vo_h (1 / 2) (VO.cross sol_dom (vo_ya D) (vo_Oc D))
  have h5 := vo_h (1 / 2) (VO.cross sol_dom x0 (vo_Oc2 D))
  have h6 := vo_h (1 / 2) (vo_h (1 / 2) (VO.cross sol_dom (vo_vel D) (vo_Oc1 D)))
  -- quadratic terms
  have h7 := vo_h (1 / 4) (vo_h (1 / 2) (VO.cross sol_dom (VO.cross sol_dom x0 (vo_Oa1 D)) (vo_Oa D)))
  have h8 := vo_h (1 / 4) (vo_h (1 / 2) (VO.cross sol_dom (vo_vel D) (vo_Oa1 D)))
  have h9 := vo_h (1 / 4) (vo_h (1 / 2) (VO.cross sol_dom (VO.cross sol_dom (vo_ya1 D) (vo_Oc D)) (vo_Oc D)))
  have h10 := vo_h (1 / 4) (vo_h (1 / 2) (VO.cross sol_dom (VO.cross sol_dom x0 (vo_Oc1 D)) (vo_Oc D)))
  have h11 := vo_h (1 / 4) (vo_h (1 / 2) (VO.cross sol_dom (vo_vel D) (vo_Oc1 D)))
  refine (((((((((((h1.add h2).add h3).add h4).add h5).add h6).add h7).add h8).add h9).add h10).add
    h11)).congr fun p h _ => ?_
  ext <;> simp only [yc, rate, taylor, vel, Spec.sub, Spec.add, cross, smul, ya] <;> ring

end

end Verif
