/-
Properties C11–C15: construction of a chain and the inverse temperature of an energy density.
-/
import Verif.Lemmas.NewXF

namespace Verif.Props

open Spec MeasureTheory

/-! ### C11: a new chain is well formed -/

section anyF
variable {F : Type} [Add F] [Sub F] [Mul F] [Div F] [Neg F] [OfScientific F] [FOps F]

theorem C11_new_wf (conf : Config F) (num : ℕ) (u zj zh : ℕ → F) (L : ℕ)
    (hL : conf.hsize = L) (hlt : L < 2 ^ 31) (hf : 3 ≤ conf.hfield.length)
    (hh : 3 ≤ conf.hs.length) (hj : fisFinite conf.jvar = true)
    (hv : fisFinite conf.hvar = true) :
    ∃ c : SpinChain F, SpinChain.new conf num u zj zh = .ok c ∧
      c.spins.length = L ∧ c.j_couple.length = L ∧ c.static_h.length = L ∧ c.t = -conf.trel ∧
      c.vars = conf ∧
      (conf.log = true → c.file = some (conf.file ++ toString num ++ ".dat")) ∧
      (conf.log = false → c.file = none) := by
  obtain ⟨sp, hs, hlen⟩ := newSpins_ok conf.beta u L
  obtain ⟨f0, f1, f2, fr, hf⟩ := three_le hf
  obtain ⟨h0, h1, h2, hr, hh⟩ := three_le hh
  refine ⟨_, new_eq hL hlt hf hh hj hv num u zj zh hs, hlen, by simp, by simp, rfl, rfl, ?_, ?_⟩
  · intro h; simp [h, SpinChain.logName]
  · intro h; simp [h]

/-- in particular it satisfies the well-formedness under which the other properties are proved -/
theorem C11_new_wf' (conf : Config F) (num : ℕ) (u zj zh : ℕ → F) (L s : ℕ)
    (hL : conf.hsize = L) (hlt : L < 2 ^ 31) (hs : conf.ssize = s) (hslt : s < 2 ^ 31)
    (hf : 3 ≤ conf.hfield.length) (hh : 3 ≤ conf.hs.length)
    (hj : fisFinite conf.jvar = true) (hv : fisFinite conf.hvar = true) :
    ∃ c : SpinChain F, SpinChain.new conf num u zj zh = .ok c ∧ WF c L s := by
  obtain ⟨c, h1, h2, h3, h4, h5, h6, -, -⟩ := C11_new_wf conf num u zj zh L hL hlt hf hh hj hv
  exact ⟨c, h1, ⟨by rw [h6, hL], by rw [h6, hs], hlt, hslt, h2, h3, h4, by rw [h6]; exact hh⟩⟩

/-- the error branches -/
theorem C11_new_panics (conf : Config F) (num : ℕ) (u zj zh : ℕ → F) :
    (conf.hsize < 0 → SpinChain.new conf num u zj zh = .error .capacity) ∧
    (0 ≤ conf.hsize → fisFinite conf.jvar = false →
      SpinChain.new conf num u zj zh = .error .badVariance) ∧
    (0 ≤ conf.hsize → fisFinite conf.jvar = true → fisFinite conf.hvar = false →
      SpinChain.new conf num u zj zh = .error .badVariance) ∧
    (0 < conf.hsize → fisFinite conf.jvar = true → fisFinite conf.hvar = true →
      conf.hfield = [] → SpinChain.new conf num u zj zh = .error .indexOOB) := by
  obtain ⟨sp, hs, hlen⟩ := newSpins_ok conf.beta u (asUsize conf.hsize)
  refine ⟨?_, ?_, ?_, ?_⟩
  · intro h
    unfold SpinChain.new
    rw [if_pos h]; rfl
  · intro h hj
    unfold SpinChain.new
    rw [if_neg (by omega), hs]
    simp only [SpinChain.normalNew, hj]
    rfl
  · intro h hj hv
    unfold SpinChain.new
    rw [if_neg (by omega), hs, newCouplings_eq]
    simp only [SpinChain.normalNew, hj, hv]
    rfl
  · intro h hj hv hf
    unfold SpinChain.new
    rw [if_neg (by omega), hs, newCouplings_eq]
    simp only [SpinChain.normalNew, hj, hv, hf]
    obtain ⟨n, hn⟩ : ∃ n, conf.hsize.toNat = n + 1 := ⟨conf.hsize.toNat - 1, by omega⟩
    rw [hn]
    unfold SpinChain.newFields mapRange
    rw [Nat.sub_zero, List.range'_succ, List.mapM_cons]
    have : ∀ x : ℕ, idx ([] : List F) x = .error .indexOOB := fun x => rfl
    by_cases hss : (((0 : ℕ) : ℤ) < conf.ssize)
    · rw [if_pos hss]; rfl
    · rw [if_neg hss]; rfl

end anyF

/-- Apart from degenerate directions the spins are unit vectors, and follow the walk.  (At `beta = 0` the
code divides by zero: `C13_beta_zero_nan`.) -/
theorem C11_new_unit (conf : Config ℝ) (num : ℕ) (u zj zh : ℕ → ℝ) (L : ℕ)
    (hL : conf.hsize = L) (hlt : L < 2 ^ 31) (hf : 3 ≤ conf.hfield.length)
    (hh : 3 ≤ conf.hs.length) (_hb : conf.beta ≠ 0) (hu : UnitDraws u)
    (hn : NonDegenerate conf.beta u L) :
    ∃ c : SpinChain ℝ, SpinChain.new conf num u zj zh = .ok c ∧
      ∀ i < L, S c i = walk conf.beta u (i + 1) ∧ len (S c i) = 1 := by
  obtain ⟨f0, f1, f2, fr, hf⟩ := three_le hf
  obtain ⟨h0, h1, h2, hr, hh⟩ := three_le hh
  refine ⟨_, new_eq hL hlt hf hh rfl rfl num u zj zh (newSpins_eq _ _ _), ?_⟩
  intro i hi
  have e : ∀ c : SpinChain ℝ, c.spins = ((List.range L).map fun x =>
      Spin.new_from_angles (genState conf.beta u (x + 1)).1 (genState conf.beta u (x + 1)).2) →
      S c i = walk conf.beta u (i + 1) := by
    intro c hc
    rw [S, hc]
    simp only [List.getElem?_map, List.getElem?_range hi, Option.map_some, Option.getD_some]
    exact genState_walk hu hn (i + 1) hi
  rw [e _ rfl]
  exact ⟨rfl, by rw [len, walk_unit hn (i + 1) hi, Real.sqrt_one]⟩

/-- A degenerate direction poisons the chain: if the first sampled axis is the starting direction
itself, every spin of the new chain is NaN, whatever the other draws. -/
theorem C11_degenerate_nan (conf : Config XF) (num : ℕ) (u zj zh : ℕ → XF) (c : SpinChain XF)
    (h0 : u 0 = .fin (1 / 100 / (2 * Real.pi))) (h1 : u 1 = .fin (1 / 2))
    (hc : SpinChain.new conf num u zj zh = .ok c) :
    ∀ s ∈ c.spins, s = ⟨⟨.nan, .nan, .nan⟩⟩ :=
  new_spins_nan hc (newStep_degenerate _ _ _ _ h0 h1)

/-- the hypotheses are met: such a chain exists, with as many spins as desired -/
example : ∃ (conf : Config XF) (u zj zh : ℕ → XF) (c : SpinChain XF),
    u 0 = .fin (1 / 100 / (2 * Real.pi)) ∧ u 1 = .fin (1 / 2) ∧
    SpinChain.new conf 0 u zj zh = .ok c ∧ c.spins.length = 512 := by
  obtain ⟨c, h1, h2, -⟩ := C11_new_wf (Config.default : Config XF) 0
    (fun k => if k = 0 then .fin (1 / 100 / (2 * Real.pi)) else .fin (1 / 2))
    (fun _ => .fin 0) (fun _ => .fin 0) 512 rfl (by norm_num) (by decide) (by decide) rfl rfl
  exact ⟨_, _, _, _, c, rfl, rfl, h1, h2⟩

/-! ### C12: couplings and static fields -/

theorem C12_couplings_fields (conf : Config ℝ) (num : ℕ) (u zj zh : ℕ → ℝ) (L : ℕ)
    (hL : conf.hsize = L) (hlt : L < 2 ^ 31) (f h : V3 ℝ) (fr hr : List ℝ)
    (hf : conf.hfield = f.x :: f.y :: f.z :: fr) (hh : conf.hs = h.x :: h.y :: h.z :: hr) :
    ∃ c : SpinChain ℝ, SpinChain.new conf num u zj zh = .ok c ∧ ∀ i < L,
      J c i = add ⟨1, 1, conf.lambda⟩
        (smul conf.jvar ⟨zj (3 * i), zj (3 * i + 1), zj (3 * i + 2)⟩) ∧
      H0 c i = add (if (i : ℤ) < conf.ssize then add f h else f)
        (smul conf.hvar ⟨zh (3 * i), zh (3 * i + 1), zh (3 * i + 2)⟩) := by
  refine ⟨_, new_eq hL hlt hf hh rfl rfl num u zj zh (newSpins_eq _ _ _), ?_⟩
  intro i hi
  constructor
  · simp only [J, List.getElem?_map, List.getElem?_range hi, Option.map_some, Option.getD_some,
      coupF, add, smul, lit_0, lit_1, zero_add]
  · simp only [H0, List.getElem?_map, List.getElem?_range hi, Option.map_some, Option.getD_some,
      fieldN, add, smul, lit_0, zero_add]
    split_ifs <;> rfl

/-- non-vacuity: the default configuration -/
example : (Config.default : Config ℝ).hsize = (512 : ℕ) ∧
    (Config.default : Config ℝ).hfield = (⟨0, 0, 0⟩ : V3 ℝ).x :: (⟨0, 0, 0⟩ : V3 ℝ).y ::
      (⟨0, 0, 0⟩ : V3 ℝ).z :: [] := by
  refine ⟨rfl, ?_⟩
  simp [Config.default]

/-! ### C13: neighbouring spins have Boltzmann-distributed inner products -/

theorem C13_neighbour_overlap (conf : Config ℝ) (num : ℕ) (u zj zh : ℕ → ℝ) (L : ℕ)
    (hL : conf.hsize = L) (hlt : L < 2 ^ 31) (hf : 3 ≤ conf.hfield.length)
    (hh : 3 ≤ conf.hs.length) (hb : conf.beta ≠ 0) (hu : UnitDraws u)
    (hn : NonDegenerate conf.beta u L) :
    ∃ c : SpinChain ℝ, SpinChain.new conf num u zj zh = .ok c ∧ ∀ i, i + 1 < L →
      dot (S c i) (S c (i + 1)) = Real.log (Real.exp conf.beta - u (3 * (i + 1) + 2) *
        (Real.exp conf.beta - Real.exp (-conf.beta))) / conf.beta ∧
      -1 ≤ dot (S c i) (S c (i + 1)) ∧ dot (S c i) (S c (i + 1)) ≤ 1 := by
  obtain ⟨c, h1, h2⟩ := C11_new_unit conf num u zj zh L hL hlt hf hh hb hu hn
  refine ⟨c, h1, ?_⟩
  intro i hi
  rw [(h2 i (by omega)).1, (h2 (i + 1) hi).1, dot_comm]
  have hw := walk_unit hn (i + 1) (by omega)
  have hm := overlap_mem hb (hu (3 * (i + 1) + 2)).1 (hu (3 * (i + 1) + 2)).2.le
  have e : dot (walk conf.beta u (i + 1 + 1)) (walk conf.beta u (i + 1))
      = overlap conf.beta (u (3 * (i + 1) + 2)) := by
    conv_lhs => rw [walk]
    rw [turn_dot hw, Real.cos_arccos hm.1 hm.2]
  rw [e]
  exact ⟨rfl, hm⟩

/-- Law of the inner product of the spins at `i` and `i+1`, over the draw `w` used for it, all
other draws fixed: the distribution function of the density `∝ e^{β c}` on `[-1, 1]`. -/
theorem C13_overlap_law (conf : Config ℝ) (num : ℕ) (u zj zh : ℕ → ℝ) (L i : ℕ)
    (hL : conf.hsize = L) (hlt : L < 2 ^ 31) (hf : 3 ≤ conf.hfield.length)
    (hh : 3 ≤ conf.hs.length) (hb : conf.beta ≠ 0) (hu : UnitDraws u) (hi : i + 1 < L)
    (hn : NonDegenerate conf.beta u (i + 1))
    (hx : cross (walk conf.beta u (i + 1))
      (spherePoint (u (3 * (i + 1))) (u (3 * (i + 1) + 1))) ≠ zero)
    (k : ℝ) (hk : k ≤ 1) :
    volume {w : ℝ | 0 ≤ w ∧ w < 1 ∧ ∃ c,
        SpinChain.new conf num (Function.update u (3 * (i + 1) + 2) w) zj zh = .ok c ∧
        dot (S c i) (S c (i + 1)) ≤ k}
      = ENNReal.ofReal ((∫ t in (-1)..k, Real.exp (conf.beta * t))
          / ∫ t in (-1)..1, Real.exp (conf.beta * t)) := by
  rw [← overlap_volume hb hk]
  apply measure_congr
  have hbad := bad_null conf.beta hb hn
  rw [Filter.eventuallyEq_set]
  filter_upwards [measure_eq_zero_iff_ae_notMem.1 hbad] with w hw
  constructor
  · rintro ⟨h0, h1, c, hc, hd⟩
    refine ⟨h0, h1, ?_⟩
    rwa [new_overlap conf num u zj zh L i hL hlt hf hh hb hu hi hn hx h0 h1
      (fun h => hw ⟨h0, h1, h⟩) c hc] at hd
  · rintro ⟨h0, h1, hd⟩
    obtain ⟨c, hc, -⟩ := C11_new_wf conf num (Function.update u (3 * (i + 1) + 2) w) zj zh L hL hlt
      hf hh rfl rfl
    refine ⟨h0, h1, c, hc, ?_⟩
    rwa [new_overlap conf num u zj zh L i hL hlt hf hh hb hu hi hn hx h0 h1
      (fun h => hw ⟨h0, h1, h⟩) c hc]

/-- At infinite temperature (`beta = 0`, excluded above) the generator divides zero by zero: every
spin of the new chain is NaN. -/
theorem C13_beta_zero_nan (conf : Config XF) (num : ℕ) (u zj zh : ℕ → XF) (c : SpinChain XF)
    (hb : conf.beta = .fin 0) (hu : ∃ r, u 2 = .fin r)
    (hc : SpinChain.new conf num u zj zh = .ok c) :
    ∀ s ∈ c.spins, s = ⟨⟨.nan, .nan, .nan⟩⟩ := by
  obtain ⟨r, hr⟩ := hu
  refine new_spins_nan hc ?_
  rw [hb, hr]
  exact newStep_beta_zero _ _ _ _

/-! ### C14: mean energy of a new chain -/

/-- `f w` is the inner product of the spins at `i` and `i+1` of the chain generated with the draw
`w`; its mean is `coth β - 1/β`. -/
theorem C14_mean_overlap (conf : Config ℝ) (num : ℕ) (u zj zh : ℕ → ℝ) (L i : ℕ)
    (hL : conf.hsize = L) (hlt : L < 2 ^ 31) (hf : 3 ≤ conf.hfield.length)
    (hh : 3 ≤ conf.hs.length) (hb : conf.beta ≠ 0) (hu : UnitDraws u) (hi : i + 1 < L)
    (hn : NonDegenerate conf.beta u (i + 1))
    (hx : cross (walk conf.beta u (i + 1))
      (spherePoint (u (3 * (i + 1))) (u (3 * (i + 1) + 1))) ≠ zero)
    (f : ℝ → ℝ) (hfw : ∀ w, 0 ≤ w → w < 1 → ∃ c,
      SpinChain.new conf num (Function.update u (3 * (i + 1) + 2) w) zj zh = .ok c ∧
      f w = dot (S c i) (S c (i + 1))) :
    ∫ w in (0:ℝ)..1, f w = Real.cosh conf.beta / Real.sinh conf.beta - 1 / conf.beta := by
  rw [← overlap_mean hb]
  have hbad := bad_null conf.beta hb hn
  have h1null : volume ({1} : Set ℝ) = 0 := by simp
  apply intervalIntegral.integral_congr_ae
  filter_upwards [measure_eq_zero_iff_ae_notMem.1 hbad, measure_eq_zero_iff_ae_notMem.1 h1null]
    with w hw hw1 hmem
  rw [Set.uIoc_of_le zero_le_one] at hmem
  have h1 : w < 1 := lt_of_le_of_ne hmem.2 hw1
  obtain ⟨c, hc, e⟩ := hfw w hmem.1.le h1
  rw [e]
  exact new_overlap conf num u zj zh L i hL hlt hf hh hb hu hi hn hx hmem.1.le h1
    (fun h => hw ⟨hmem.1.le, h1, h⟩) c hc

/-- Without disorder (`λ = 1`, `jvar = 0`) the mean energy of a bond is `1/β - coth β`, the energy
density whose inverse temperature `solve_beta` determines. -/
theorem C14_mean_bond_energy (conf : Config ℝ) (num : ℕ) (u zj zh : ℕ → ℝ) (L i : ℕ)
    (hL : conf.hsize = L) (hlt : L < 2 ^ 31) (hf : 3 ≤ conf.hfield.length)
    (hh : 3 ≤ conf.hs.length) (hb : conf.beta ≠ 0) (hu : UnitDraws u) (hi : i + 1 < L)
    (hn : NonDegenerate conf.beta u (i + 1))
    (hx : cross (walk conf.beta u (i + 1))
      (spherePoint (u (3 * (i + 1))) (u (3 * (i + 1) + 1))) ≠ zero)
    (hlam : conf.lambda = 1) (hjv : conf.jvar = 0)
    (f : ℝ → ℝ) (hfw : ∀ w, 0 ≤ w → w < 1 → ∃ c,
      SpinChain.new conf num (Function.update u (3 * (i + 1) + 2) w) zj zh = .ok c ∧
      f w = -dot (S c i) (had (J c i) (S c (i + 1)))) :
    ∫ w in (0:ℝ)..1, f w = 1 / conf.beta - Real.cosh conf.beta / Real.sinh conf.beta := by
  have h := C14_mean_overlap conf num u zj zh L i hL hlt hf hh hb hu hi hn hx (fun w => -f w) (by
    intro w h0 h1
    obtain ⟨c, hc, e⟩ := hfw w h0 h1
    refine ⟨c, hc, ?_⟩
    obtain ⟨f0, f1, f2, fr, hf⟩ := three_le hf
    obtain ⟨g0, g1, g2, hr, hh⟩ := three_le hh
    obtain ⟨c', hc', hJ⟩ := C12_couplings_fields conf num
      (Function.update u (3 * (i + 1) + 2) w) zj zh L hL hlt ⟨f0, f1, f2⟩ ⟨g0, g1, g2⟩ fr hr hf hh
    obtain rfl : c' = c := Except.ok.inj (hc'.symm.trans hc)
    have := (hJ i (by omega)).1
    rw [e, this, hlam, hjv]
    simp only [dot, had, add, smul]
    ring)
  rw [intervalIntegral.integral_neg] at h
  linarith

/-- non-vacuity of the hypotheses of C11–C14: two sites, clean couplings, axes along `z` -/
example : ∃ (conf : Config ℝ) (u : ℕ → ℝ), conf.hsize = (2 : ℕ) ∧ 3 ≤ conf.hfield.length ∧
    3 ≤ conf.hs.length ∧ conf.beta ≠ 0 ∧ conf.lambda = 1 ∧ conf.jvar = 0 ∧ UnitDraws u ∧
    NonDegenerate conf.beta u 2 ∧ NonDegenerate conf.beta u (0 + 1) ∧
    cross (walk conf.beta u (0 + 1))
      (spherePoint (u (3 * (0 + 1))) (u (3 * (0 + 1) + 1))) ≠ zero := by
  obtain ⟨u, h1, h2⟩ := demo_nondegenerate
  refine ⟨{ (Config.default : Config ℝ) with
    hsize := 2
    beta := 1
    lambda := 1
    jvar := 0 }, u, rfl, le_refl 3, le_refl 3, one_ne_zero, rfl, rfl, h1, h2, ?_, (h2 1 (by omega)).1⟩
  intro x hx
  exact h2 x (by omega)

/-! ### C15: `solve_beta` -/

theorem C15_solve_beta (e : ℝ) (he : -1 < e) :
    ∃ b, SolveBeta e b ∧ (∀ b', SolveBeta e b' → b' = b) ∧ 0 < b ∧
      ∃ b0, 0 < b0 ∧ |b - b0| ≤ 1 / 100 ∧ 1 / b = e + Real.cosh b0 / Real.sinh b0 := by
  classical
  have hex := betaSeq_close he
  have hstop := solveBetaLoop_stop e (Nat.find hex) (Nat.find_spec hex)
    (fun k hk => Nat.find_min hex hk)
  refine ⟨betaSeq e (Nat.find hex + 1), ⟨_, hstop⟩, ?_, betaSeq_pos he _,
    betaSeq e (Nat.find hex), betaSeq_pos he _, Nat.find_spec hex, ?_⟩
  · rintro b' ⟨n, hn⟩
    exact solveBetaLoop_det hn hstop
  · rw [betaSeq, one_div_one_div, Real.tanh_eq_sinh_div_cosh, one_div_div]

example : (-1 : ℝ) < -0.66 := by norm_num

/-- The bound is sharp: at `e = -1` the loop never ends (in exact arithmetic). -/
theorem C15_diverges_at_minus_one : ¬ ∃ b : ℝ, SolveBeta (-1) b := by
  rintro ⟨b, n, hn⟩
  have grow : ∀ x : ℝ, 20 ≤ x → x + 1 ≤ 1 / (-1 + 1 / Real.tanh x) := by
    intro x hx
    have h1 : 1 / (-1 + 1 / Real.tanh x) = (Real.exp (2 * x) - 1) / 2 := by
      have hs : Real.sinh x ≠ 0 := (Real.sinh_pos_iff.2 (by linarith)).ne'
      have hcs : Real.cosh x - Real.sinh x = Real.exp (-x) := Real.cosh_sub_sinh x
      have e2 : Real.exp (2 * x) = Real.exp x * Real.exp x := by rw [← Real.exp_add]; ring_nf
      rw [Real.tanh_eq_sinh_div_cosh, one_div_div]
      have : -1 + Real.cosh x / Real.sinh x = Real.exp (-x) / Real.sinh x := by
        rw [← hcs]; field_simp; ring
      rw [this, one_div_div, Real.sinh_eq, e2, Real.exp_neg]
      have := (Real.exp_pos x).ne'
      field_simp
    rw [h1]
    have := Real.quadratic_le_exp_of_nonneg (x := 2 * x) (by linarith)
    nlinarith
  have key : ∀ n (p : ℝ × ℝ), 20 ≤ p.1 → 1 ≤ |p.1 - p.2| → solveBetaLoop (-1) n p = none := by
    intro n
    induction n with
    | zero => intro p _ _; rfl
    | succ n ih =>
      intro p h1 h2
      rw [solveBetaLoop, solveBetaCond_real, if_pos (by simp; linarith), solveBetaStep_real]
      have := grow p.1 h1
      apply ih
      · exact le_trans (by linarith) this
      · rw [abs_of_nonneg] <;> dsimp only <;> linarith
  rw [key n _ (by norm_num) (by norm_num [abs_of_pos])] at hn
  cases hn

end Verif.Props
