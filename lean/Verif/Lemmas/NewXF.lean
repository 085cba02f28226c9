/-
Helper lemmas: NaN in the generator of a new chain; null sets of degenerate draws.
-/
import Verif.Lemmas.New

namespace Verif

open Spec MeasureTheory

/-- one step of the generator producing only NaN -/
def NanStep (b : XF) (st : XF × XF) (u1 u2 u3 : XF) : Prop :=
  SpinChain.newSpinStep b st u1 u2 u3 = .ok ((.nan, .nan), ⟨⟨.nan, .nan, .nan⟩⟩)

theorem rotate_nan_field (s : Spin XF) (t : XF) :
    s.rotate ⟨.nan, .nan, .nan⟩ t = ⟨⟨.nan, .nan, .nan⟩⟩ := by
  simp [Spin.rotate, sumSq]

theorem rotate_nan_time (s : Spin XF) (f : V3 XF) :
    s.rotate f .nan = ⟨⟨.nan, .nan, .nan⟩⟩ := by
  simp [Spin.rotate, sumSq]

theorem rot_perp_nan_angle (st : XF × XF) (r : V3 XF) :
    Spin.rot_perp st r .nan = (.nan, .nan) := by
  simp [Spin.rot_perp, rotate_nan_time, Spin.theta, Spin.phi]

theorem rot_perp_nan_dir (st : XF × XF) (r : V3 XF) (a : XF)
    (h : Spin.gs (Spin.new_from_angles st.1 st.2).dir r = ⟨.nan, .nan, .nan⟩) :
    Spin.rot_perp st r a = (.nan, .nan) := by
  simp [Spin.rot_perp, h, rotate_nan_field, Spin.theta, Spin.phi]

theorem gs_nan (r : V3 XF) : Spin.gs ⟨.nan, .nan, .nan⟩ r = ⟨.nan, .nan, .nan⟩ := by
  simp [Spin.gs, sumSq]

theorem step_of_rot {b : XF} {st : XF × XF} {u1 u2 u3 : XF}
    (h : Spin.rot_perp st
      ⟨fcos (2.0 * fpi * u1) * fsin (facos (1.0 - 2.0 * u2)),
        fsin (2.0 * fpi * u1) * fsin (facos (1.0 - 2.0 * u2)), fcos (facos (1.0 - 2.0 * u2))⟩
      (facos (fln (fexp b - u3 * (fexp b - 1.0 / fexp b)) / b)) = (.nan, .nan)) :
    NanStep b st u1 u2 u3 := by
  unfold NanStep SpinChain.newSpinStep
  dsimp only
  rw [h]
  simp [Spin.new_xyz, idx, sumSqList]
  rfl

theorem nanStep_of_nan (b u1 u2 u3 : XF) : NanStep b (.nan, .nan) u1 u2 u3 := by
  apply step_of_rot
  apply rot_perp_nan_dir
  simp [Spin.new_from_angles, gs_nan]

theorem newStep_beta_zero (st : XF × XF) (u1 u2 : XF) (r : ℝ) :
    NanStep (.fin 0) st u1 u2 (.fin r) := by
  apply step_of_rot
  have h1 : fexp (XF.fin 0) = XF.fin 1 := by
    change XF.fin (Real.exp 0) = _
    rw [Real.exp_zero]
  have h2 : (1.0 : XF) / XF.fin 1 = XF.fin 1 := by
    simp [XF.fin_div_of_ne, XF.mk]
  have h3 : XF.fin r * (XF.fin 1 - XF.fin 1) = .nzero ∨
      XF.fin r * (XF.fin 1 - XF.fin 1) = .fin 0 := by
    rw [XF.fin_sub, sub_self, XF.fin_mul, mul_zero]
    unfold XF.mk
    rw [if_pos rfl]
    split_ifs
    · exact Or.inl rfl
    · exact Or.inr rfl
  have h4 : XF.fin 1 - XF.fin r * (XF.fin 1 - XF.fin 1) = .fin 1 := by
    rcases h3 with h | h <;> rw [h]
    · change XF.fin (1 + 0) = _
      rw [add_zero]
    · rw [XF.fin_sub, sub_zero]
  have h5 : fln (XF.fin 1) = .fin 0 := by
    change (if (1:ℝ) < 0 then XF.nan else if (1:ℝ) = 0 then XF.inf true else XF.fin (Real.log 1)) = _
    rw [if_neg (by norm_num), if_neg (by norm_num), Real.log_one]
  rw [h1, h2, h4, h5, XF.zero_div_zero, XF.acos_nan, rot_perp_nan_angle]

theorem gs_self {c s : ℝ} (h : c * c + s * s = 1) (hc : c ≠ 0) (hs : s ≠ 0) :
    Spin.gs (⟨.fin c, .fin s, .fin 0⟩ : V3 XF) ⟨.fin c, .fin s, .fin 0⟩ = ⟨.nan, .nan, .nan⟩ := by
  have m0 : ∀ b, XF.fin 0 + XF.mk 0 b = XF.fin 0 := by
    intro b; cases b <;> simp [XF.mk]
  have hcc : XF.fin c * XF.fin c = .fin (c * c) := by simp [XF.mk, hc]
  have hss : XF.fin s * XF.fin s = .fin (s * s) := by simp [XF.mk, hs]
  have h00 : XF.fin 0 * XF.fin 0 = .fin 0 := by simp [XF.mk]
  have hdot : XF.fin c * XF.fin c + XF.fin s * XF.fin s + XF.fin 0 * XF.fin 0 = XF.fin 1 := by
    rw [hcc, hss, h00, XF.fin_add, XF.fin_add, h, add_zero]
  have hon : sumSq (⟨.fin c, .fin s, .fin 0⟩ : V3 XF) = .fin 1 := by
    simp only [sumSq, hcc, hss, h00, XF.lit, XF.fin_add]
    rw [← h]; norm_num
  have q : ∀ x : ℝ, x ≠ 0 → XF.fin x - XF.fin 1 * XF.fin x / XF.fin 1 = .fin 0 := by
    intro x hx
    have : XF.fin 1 * XF.fin x / XF.fin 1 = .fin x := by
      simp [XF.mk, hx, XF.fin_div_of_ne]
    rw [this, XF.fin_sub, sub_self]
  have q0 : XF.fin 0 - XF.fin 1 * XF.fin 0 / XF.fin 1 = .fin 0 := by
    have : XF.fin 1 * XF.fin 0 / XF.fin 1 = .fin 0 := by
      have h1 : ¬ ((1:ℝ) < 0) := by norm_num
      simp [XF.mk, h1, XF.fin_div_of_ne]
    rw [this, XF.fin_sub, sub_self]
  have hz : fsqrt (sumSq (⟨.fin 0, .fin 0, .fin 0⟩ : V3 XF)) = .fin 0 := by
    have : sumSq (⟨.fin 0, .fin 0, .fin 0⟩ : V3 XF) = .fin 0 := by
      simp only [sumSq, h00, XF.lit, XF.fin_add]; norm_num
    rw [this, XF.fin_sqrt le_rfl, Real.sqrt_zero]
  simp only [Spin.gs, hdot, hon, q c hc, q s hs, q0, hz, XF.zero_div_zero]

theorem newStep_degenerate (b u1 u2 u3 : XF) (h0 : u1 = .fin (1 / 100 / (2 * Real.pi)))
    (h1 : u2 = .fin (1 / 2)) :
    NanStep b (0.01, fpi / 2.0) u1 u2 u3 := by
  have hpi := Real.pi_pos
  have hc : Real.cos (1 / 100) ≠ 0 := by
    apply (Real.cos_pos_of_mem_Ioo ⟨by linarith, ?_⟩).ne'
    linarith [Real.one_le_pi_div_two]
  have hs : Real.sin (1 / 100) ≠ 0 :=
    (Real.sin_pos_of_pos_of_lt_pi (by norm_num) (by linarith [Real.one_le_pi_div_two])).ne'
  have e1 : (2.0 : XF) * fpi * u1 = .fin (1 / 100) := by
    have a : (2.0 : XF) * fpi = .fin (2 * Real.pi) := by
      simp [XF.mk, hpi.ne']
    rw [a, h0, XF.fin_mul, mul_div_cancel₀ _ (by positivity)]
    simp [XF.mk]
  have e2 : facos ((1.0 : XF) - 2.0 * u2) = .fin (Real.pi / 2) := by
    have a : (1.0 : XF) - 2.0 * u2 = .fin 0 := by
      rw [h1]; simp [XF.mk]
    rw [a]
    change (if (-1:ℝ) ≤ 0 ∧ (0:ℝ) ≤ 1 then XF.fin (Real.arccos 0) else .nan) = _
    rw [if_pos (by norm_num), Real.arccos_zero]
  have e3 : (fpi : XF) / 2.0 = .fin (Real.pi / 2) := by
    simp [XF.fin_div_of_ne, XF.mk, hpi.ne']
  have e4 : (0.01 : XF) = .fin (1 / 100) := by
    rw [XF.lit]; norm_num
  apply step_of_rot
  apply rot_perp_nan_dir
  rw [e1, e2, e3, e4]
  have m1 : ∀ x : ℝ, x ≠ 0 → XF.fin x * XF.fin 1 = .fin x := by
    intro x hx; simp [XF.mk, hx]
  simp only [Spin.new_from_angles, XF.fin_cos, XF.fin_sin, Real.sin_pi_div_two,
    Real.cos_pi_div_two, m1 _ hc, m1 _ hs]
  apply gs_self _ hc hs
  linear_combination Real.sin_sq_add_cos_sq (1 / 100)

theorem newSpins_nan {b : XF} {u : ℕ → XF} {n : ℕ} {l : List (Spin XF)}
    (hl : SpinChain.newSpins b u n = .ok l)
    (h : NanStep b (0.01, fpi / 2.0) (u 0) (u 1) (u 2)) :
    ∀ s ∈ l, s = ⟨⟨.nan, .nan, .nan⟩⟩ := by
  have key : ∀ n, ∃ r, forRange 0 (n + 1) ((((0.01 : XF), (fpi / 2.0 : XF)), ([] : List (Spin XF))))
      (fun x acc => do
        let (st, sp) ← SpinChain.newSpinStep b acc.1 (u (3 * x)) (u (3 * x + 1)) (u (3 * x + 2))
        return (st, acc.2 ++ [sp])) = .ok r ∧ r.1 = (.nan, .nan) ∧
        ∀ s ∈ r.2, s = ⟨⟨.nan, .nan, .nan⟩⟩ := by
    intro n
    induction n with
    | zero =>
      refine ⟨((.nan, .nan), [⟨⟨.nan, .nan, .nan⟩⟩]), ?_, rfl, by simp⟩
      unfold forRange
      simp only [Nat.zero_add, Nat.sub_zero, List.range'_one, List.foldlM_cons, List.foldlM_nil]
      unfold NanStep at h
      rw [Nat.mul_zero, Nat.zero_add, Nat.zero_add, h]
      rfl
    | succ n ih =>
      obtain ⟨r, h1, h2, h3⟩ := ih
      refine ⟨((.nan, .nan), r.2 ++ [⟨⟨.nan, .nan, .nan⟩⟩]), ?_, rfl, ?_⟩
      · have hn := nanStep_of_nan b (u (3 * (n + 1))) (u (3 * (n + 1) + 1)) (u (3 * (n + 1) + 2))
        unfold NanStep at hn
        unfold forRange at h1 ⊢
        rw [Nat.sub_zero] at h1 ⊢
        rw [List.range'_concat, List.foldlM_append, h1, ok_bind]
        simp only [List.foldlM_cons, List.foldlM_nil, Nat.one_mul, Nat.zero_add, h2, hn, ok_bind]
        rfl
      · intro s hs
        rcases List.mem_append.1 hs with hs | hs
        · exact h3 s hs
        · simpa using hs
  unfold SpinChain.newSpins at hl
  cases n with
  | zero =>
    have : l = [] := (Except.ok.inj hl).symm
    simp [this]
  | succ n =>
    obtain ⟨r, h1, -, h3⟩ := key n
    rw [h1] at hl
    have : l = r.2 := (Except.ok.inj hl).symm
    rw [this]; exact h3

theorem new_spins_nan {conf : Config XF} {num : ℕ} {u zj zh : ℕ → XF} {c : SpinChain XF}
    (hc : SpinChain.new conf num u zj zh = .ok c)
    (h : NanStep conf.beta (0.01, fpi / 2.0) (u 0) (u 1) (u 2)) :
    ∀ s ∈ c.spins, s = ⟨⟨.nan, .nan, .nan⟩⟩ := by
  unfold SpinChain.new at hc
  by_cases h0 : conf.hsize < 0
  · rw [if_pos h0] at hc; cases hc
  · rw [if_neg h0] at hc
    dsimp only at hc
    obtain ⟨sp, hs, hc⟩ := bind_eq_ok hc
    have hsp := newSpins_nan hs h
    obtain ⟨_, -, hc⟩ := bind_eq_ok hc
    obtain ⟨_, -, hc⟩ := bind_eq_ok hc
    obtain ⟨_, -, hc⟩ := bind_eq_ok hc
    obtain ⟨_, -, hc⟩ := bind_eq_ok hc
    obtain rfl := Except.ok.inj hc
    exact hsp

/-! ### Null sets -/

theorem bad_null (b : ℝ) (hb : b ≠ 0) {u : ℕ → ℝ} {i : ℕ} (hn : NonDegenerate b u (i + 1)) :
    volume {w : ℝ | 0 ≤ w ∧ w < 1 ∧ (turn (walk b u (i + 1))
      (spherePoint (u (3 * (i + 1))) (u (3 * (i + 1) + 1)))
      (Real.arccos (overlap b w))).x = 0} = 0 := by
  set d := walk b u (i + 1)
  set r := spherePoint (u (3 * (i + 1))) (u (3 * (i + 1) + 1))
  have hdx : d.x ≠ 0 := (hn i (by omega)).2
  set q := (cross (perpUnit d r) d).x with hq
  have hpos : 0 < d.x ^ 2 + q ^ 2 := by positivity
  apply Set.Finite.measure_zero
  -- the square of the overlap is determined, so at most two values of the draw are bad
  have hsub : {w : ℝ | 0 ≤ w ∧ w < 1 ∧ (turn d r (Real.arccos (overlap b w))).x = 0}
      ⊆ {w | 0 ≤ w ∧ w < 1 ∧ overlap b w = Real.sqrt (q ^ 2 / (d.x ^ 2 + q ^ 2))} ∪
        {w | 0 ≤ w ∧ w < 1 ∧ overlap b w = -Real.sqrt (q ^ 2 / (d.x ^ 2 + q ^ 2))} := by
    rintro w ⟨h0, h1, h⟩
    have hm := overlap_mem hb h0 h1.le
    have hc := Real.cos_arccos hm.1 hm.2
    have hs := Real.sin_sq_add_cos_sq (Real.arccos (overlap b w))
    simp only [turn, add, smul, ← hq, hc] at h
    rw [hc] at hs
    set v := overlap b w
    set sn := Real.sin (Real.arccos v)
    have hv : v ^ 2 = q ^ 2 / (d.x ^ 2 + q ^ 2) := by
      rw [eq_div_iff hpos.ne']
      have : (v * d.x) ^ 2 = (sn * q) ^ 2 := by
        have : v * d.x = -(sn * q) := by linarith
        rw [this]; ring
      linear_combination this + q ^ 2 * hs
    rw [← hv, Real.sqrt_sq_eq_abs]
    rcases abs_cases v with ⟨ha, -⟩ | ⟨ha, -⟩
    · exact Or.inl ⟨h0, h1, ha.symm⟩
    · exact Or.inr ⟨h0, h1, by change v = _; rw [ha]; ring⟩
  have hfin : ∀ k, {w : ℝ | 0 ≤ w ∧ w < 1 ∧ overlap b w = k}.Finite := by
    intro k
    apply Set.Subsingleton.finite
    rintro w ⟨h0, h1, h⟩ w' ⟨h0', h1', h'⟩
    exact overlap_inj hb h0 h1.le h0' h1'.le (h.trans h'.symm)
  exact ((hfin _).union (hfin _)).subset hsub

theorem walk_congr {b : ℝ} {u v : ℕ → ℝ} {n : ℕ} (h : ∀ k < 3 * n, u k = v k) :
    ∀ x ≤ n, walk b u x = walk b v x := by
  intro x hx
  induction x with
  | zero => rfl
  | succ x ih =>
    rw [walk, walk, ih (by omega), h _ (by omega), h _ (by omega), h _ (by omega)]

theorem new_overlap (conf : Config ℝ) (num : ℕ) (u zj zh : ℕ → ℝ) (L i : ℕ)
    (hL : conf.hsize = L) (hlt : L < 2 ^ 31) (hf : 3 ≤ conf.hfield.length)
    (hh : 3 ≤ conf.hs.length) (hb : conf.beta ≠ 0) (hu : UnitDraws u) (hi : i + 1 < L)
    (hn : NonDegenerate conf.beta u (i + 1))
    (hx : cross (walk conf.beta u (i + 1))
      (spherePoint (u (3 * (i + 1))) (u (3 * (i + 1) + 1))) ≠ zero)
    {w : ℝ} (h0 : 0 ≤ w) (h1 : w < 1)
    (hw : ¬ (turn (walk conf.beta u (i + 1))
      (spherePoint (u (3 * (i + 1))) (u (3 * (i + 1) + 1)))
      (Real.arccos (overlap conf.beta w))).x = 0) (c : SpinChain ℝ)
    (hc : SpinChain.new conf num (Function.update u (3 * (i + 1) + 2) w) zj zh = .ok c) :
    dot (S c i) (S c (i + 1)) = overlap conf.beta w := by
  set v := Function.update u (3 * (i + 1) + 2) w with hv
  have hvne : ∀ k, k ≠ 3 * (i + 1) + 2 → v k = u k := fun k hk => Function.update_of_ne hk _ _
  have hvself : v (3 * (i + 1) + 2) = w := Function.update_self _ _ _
  have hvu : UnitDraws v := by
    intro k
    by_cases hk : k = 3 * (i + 1) + 2
    · rw [hk, hvself]; exact ⟨h0, h1⟩
    · rw [hvne k hk]; exact hu k
  have hwalk : ∀ x ≤ i + 1, walk conf.beta v x = walk conf.beta u x :=
    walk_congr (fun k hk => hvne k (by omega))
  have hwalk2 : walk conf.beta v (i + 2) = turn (walk conf.beta u (i + 1))
      (spherePoint (u (3 * (i + 1))) (u (3 * (i + 1) + 1))) (Real.arccos (overlap conf.beta w)) := by
    rw [walk, hwalk _ le_rfl, hvself, hvne _ (by omega), hvne _ (by omega)]
  have hnv : NonDegenerate conf.beta v (i + 2) := by
    intro x hx'
    rcases Nat.lt_succ_iff_lt_or_eq.1 hx' with h | h
    · rw [hwalk x (by omega), hwalk (x + 1) (by omega), hvne _ (by omega), hvne _ (by omega)]
      exact hn x h
    · rw [h, hwalk2, hwalk _ le_rfl, hvne _ (by omega), hvne _ (by omega)]
      exact ⟨hx, hw⟩
  obtain ⟨f0, f1, f2, fr, hf⟩ := three_le hf
  obtain ⟨g0, g1, g2, hr, hh⟩ := three_le hh
  have hnew := new_eq hL hlt hf hh rfl rfl num v zj zh (newSpins_eq _ _ _)
  obtain rfl := Except.ok.inj (hnew.symm.trans hc)
  have e : ∀ x < L, x + 1 ≤ i + 2 → ∀ c : SpinChain ℝ, c.spins = ((List.range L).map fun x =>
      Spin.new_from_angles (genState conf.beta v (x + 1)).1 (genState conf.beta v (x + 1)).2) →
      S c x = walk conf.beta v (x + 1) := by
    intro x hx hx2 c hc
    rw [S, hc]
    simp only [List.getElem?_map, List.getElem?_range hx, Option.map_some, Option.getD_some]
    exact genState_walk hvu hnv (x + 1) hx2
  rw [e i (by omega) (by omega) _ rfl, e (i + 1) hi (by omega) _ rfl, dot_comm,
    hwalk _ le_rfl, hwalk2]
  have hm := overlap_mem hb h0 h1.le
  rw [turn_dot (walk_unit hn _ le_rfl), Real.cos_arccos hm.1 hm.2]

/-- draws for two sites without degeneracy: both axes along `z` and turns by `π/3` around them -/
theorem demo_nondegenerate : ∃ u : ℕ → ℝ, UnitDraws u ∧ NonDegenerate 1 u 2 := by
  have hd := sub_exp_neg_ne (b := 1) one_ne_zero
  set k : ℝ := (Real.exp 1 - Real.exp (1 * (1 / 2))) / (Real.exp 1 - Real.exp (-1)) with hk
  have hpos : 0 < Real.exp 1 - Real.exp (-1) := by
    rw [sub_pos, Real.exp_lt_exp]; norm_num
  have hk0 : 0 ≤ k := by
    apply div_nonneg _ hpos.le
    rw [sub_nonneg, Real.exp_le_exp]; norm_num
  have hk1 : k < 1 := by
    rw [hk, div_lt_one hpos]
    have : Real.exp (-1) < Real.exp (1 * (1 / 2)) := by rw [Real.exp_lt_exp]; norm_num
    linarith
  have hov : overlap 1 k = 1 / 2 := by
    apply le_antisymm
    · exact (overlap_le_iff one_ne_zero hk0 hk1.le).2 le_rfl
    · exact (overlap_ge_iff one_ne_zero hk0 hk1.le).2 le_rfl
  have hac : Real.arccos (1 / 2) = Real.pi / 3 := by
    rw [← Real.cos_pi_div_three, Real.arccos_cos] <;> linarith [Real.pi_pos]
  let u : ℕ → ℝ := fun k' => if k' % 3 = 2 then k else 0
  have u0 : ∀ x, u (3 * x) = 0 := by intro x; simp only [u]; rw [if_neg (by omega)]
  have u1 : ∀ x, u (3 * x + 1) = 0 := by intro x; simp only [u]; rw [if_neg (by omega)]
  have u2 : ∀ x, u (3 * x + 2) = k := by intro x; simp only [u]; rw [if_pos (by omega)]
  have hsp : spherePoint 0 0 = ⟨0, 0, 1⟩ := by
    ext <;> simp [spherePoint]
  have hturn : ∀ t : ℝ, turn ⟨Real.cos t, Real.sin t, 0⟩ ⟨0, 0, 1⟩ (Real.pi / 3)
      = ⟨Real.cos (t + Real.pi / 3), Real.sin (t + Real.pi / 3), 0⟩ := by
    intro t
    have hp : perpUnit ⟨Real.cos t, Real.sin t, 0⟩ ⟨0, 0, 1⟩ = ⟨0, 0, 1⟩ := by
      ext <;> simp [perpUnit, sub, smul, dot, len]
    rw [turn, hp]
    ext <;> simp only [add, smul, cross, Real.cos_add, Real.sin_add] <;> ring
  have hwalk : ∀ x, walk 1 u x = ⟨Real.cos (1 / 100 + x * (Real.pi / 3)),
      Real.sin (1 / 100 + x * (Real.pi / 3)), 0⟩ := by
    intro x
    induction x with
    | zero => simp [walk]
    | succ x ih =>
      rw [walk, ih, u0, u1, u2, hov, hac, hsp, hturn]
      push_cast
      congr 2 <;> ring
  refine ⟨u, ?_, ?_⟩
  · intro k'
    simp only [u]
    split_ifs
    · exact ⟨hk0, hk1⟩
    · norm_num
  · intro x hx
    rw [hwalk, hwalk, u0, u1, hsp]
    constructor
    · intro h
      have h1 := congrArg V3.x h
      have h2 := congrArg V3.y h
      simp only [cross, zero] at h1 h2
      have := Real.sin_sq_add_cos_sq (1 / 100 + (x : ℝ) * (Real.pi / 3))
      nlinarith
    · have hp := Real.one_le_pi_div_two
      have hp4 := Real.pi_le_four
      dsimp only
      interval_cases x
      · apply ne_of_gt
        apply Real.cos_pos_of_mem_Ioo
        constructor <;> push_cast <;> linarith
      · apply ne_of_lt
        apply Real.cos_neg_of_pi_div_two_lt_of_lt <;> push_cast <;> linarith

end Verif
