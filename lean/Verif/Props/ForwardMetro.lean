/-
C106: rounding errors of the Monte-Carlo sampler (/repo/src/spinchain.rs `metropolis_update`).

IEEE binary64 arithmetic (`Instances/B64.lean`) with a mathematics library of accuracy `ε` (`SamplesTo`).
-/
import Verif.Props.ForwardEnergy
import Verif.Props.Metropolis
import Verif.Model.Obs
import Verif.Lemmas.ForwardMetro

set_option linter.unusedSectionVars false

namespace Verif.Props

open Verif Verif.Spec Verif.Forward Finset

variable {m : Libm}

/-- The same random numbers: `x` as the program holds them, `y` as real numbers.  The uniform numbers lie in `[0, 1)`; the
second is a multiple of `2 ^ -53`, as those of the crate `rand` are (they are multiples of `2 ^ -52`). -/
structure DrawnAs (x : Draw (B64 m)) (y : Draw ℝ) : Prop where
  site : x.site = y.site
  u1 : IsVal x.u1 y.u1
  u2 : ∃ k : ℕ, k < 2 ^ 53 ∧ HasVal x.u2 (k / 2 ^ 53) ∧ y.u2 = k / 2 ^ 53
  u3 : IsVal x.u3 y.u3
  valid : ValidDraw y

/-- `c` is a computed state of the system `d` to be sampled: same temperature (at most `b`), couplings and static fields
(at most `M`); the spins of `d` are unit vectors, those of `c` are within `D` of them. -/
structure Sampled (ε D b M : ℝ) (L s : ℕ) (c : SpinChain (B64 m)) (d : SpinChain ℝ) : Prop where
  wc : WF c L s
  wd : WF d L s
  beta : IsVal c.vars.beta d.vars.beta
  beta0 : 0 ≤ d.vars.beta
  beta1 : d.vars.beta ≤ b
  j : List.Forall₂ IsVal3 c.j_couple d.j_couple
  h : List.Forall₂ IsVal3 c.static_h d.static_h
  bj : ∀ i < L, len (J d i) ≤ M
  bh : ∀ i < L, len (H0 d i) ≤ M
  unit : ∀ x ∈ d.spins, IsUnit3 x
  close : Close ε D c d

/-- the constants -/
structure Margins (ε D b M : ℝ) : Prop where
  b1 : 1 ≤ b
  M1 : 1 ≤ M
  bM : b * M ≤ 2 ^ 20
  lo : 56 * ε ≤ D
  hi : D ≤ 1 / 20

/-- energy of the proposed state minus energy of the present one -/
noncomputable def change (L : ℕ) (d : SpinChain ℝ) (y : Draw ℝ) : ℝ :=
  ringEnergy L (S (replace d (y.site % L) (spherePoint y.u1 y.u2))) (J d) (H0 d) - ringEnergy L (S d) (J d) (H0 d)

/-- probability with which the proposed state is accepted -/
noncomputable def acceptance (L : ℕ) (d : SpinChain ℝ) (y : Draw ℝ) : ℝ :=
  min 1 (Real.exp (-(d.vars.beta * change L d y)))

/-- half the width of the interval in which rounding errors can decide -/
noncomputable def doubt (ε D b M : ℝ) : ℝ := 8 * b * M * (77 * ε + D)

section
variable {ε D b M : ℝ} {c : SpinChain (B64 m)} {d : SpinChain ℝ} {L s : ℕ} {x : Draw (B64 m)} {y : Draw ℝ}

/-- the computed state after accepting -/
theorem sampled_set (he : Tol ε) (hm : SamplesTo ε m) (hg : Margins ε D b M) (h : Sampled ε D b M L s c d) (hL : 2 ≤ L)
    (hxy : DrawnAs x y) :
    Sampled ε D b M L s { c with spins := c.spins.set (y.site % L) (SpinChain.proposal x.u1 x.u2) }
      (replace d (y.site % L) (spherePoint y.u1 y.u2)) := by
  obtain ⟨k, k1, k2, k3⟩ := hxy.u2
  have u1 := hxy.valid.u1
  obtain ⟨v, v1, v2, v3⟩ := proposal_near he hm hxy.u1 (by rw [abs_of_nonneg u1.1]; exact u1.2.le) k1.le k2
  have hi : y.site % L < L := Nat.mod_lt _ (by omega)
  refine ⟨⟨h.wc.hsize, h.wc.ssize, h.wc.L_lt, h.wc.s_lt, by simp [h.wc.spins], h.wc.j, h.wc.h, h.wc.hs⟩,
    replace_wf h.wd _ _, h.beta, h.beta0, h.beta1, h.j, h.h, h.bj, h.bh, ?_, ?_⟩
  · intro z hz
    rcases List.mem_or_eq_of_mem_set hz with hz | rfl
    · exact h.unit z hz
    · exact sphere_unit hxy.valid.u2.1 hxy.valid.u2.2.le
  · intro i p q hp hq
    have hp' : (c.spins.set (y.site % L) (SpinChain.proposal x.u1 x.u2))[i]? = some p := hp
    have hq' : (d.spins.set (y.site % L) ⟨spherePoint y.u1 y.u2⟩)[i]? = some q := hq
    rw [List.getElem?_set] at hp' hq'
    by_cases hii : y.site % L = i
    · rw [if_pos hii, if_pos (by rw [h.wc.spins]; exact hi)] at hp'
      rw [if_pos hii, if_pos (by rw [h.wd.spins]; exact hi)] at hq'
      cases hp'
      cases hq'
      refine ⟨v, v1, v2, ?_⟩
      rw [k3]
      exact v3.trans hg.lo
    · rw [if_neg hii] at hp' hq'
      exact h.close i p q hp' hq'

/-- One update.  The program either proposes and keeps, or proposes and replaces; away from the doubtful interval its
decision is that of the exact algorithm. -/
theorem update_near (he : Tol ε) (hm : SamplesTo ε m) (hg : Margins ε D b M) (h : Sampled ε D b M L s c d) (hL : 2 ≤ L)
    (hxy : DrawnAs x y) :
    ∃ a : Bool, c.metropolis_update x = .ok (if a then
        { c with spins := c.spins.set (y.site % L) (SpinChain.proposal x.u1 x.u2) } else c) ∧
      (doubt ε D b M ≤ |y.u3 - acceptance L d y| → a = decide (y.u3 < acceptance L d y)) := by
  obtain ⟨j, hf, sp, V, tj, th, tsp, vj, vh, vs, dS, bS⟩ := tabs_of he h.wc h.wd (by omega) h.j h.h h.close (fun z hz => by
    rw [show len z.dir = 1 from h.unit z hz]; norm_num)
  have hi : y.site % L < L := Nat.mod_lt _ (by omega)
  generalize hidx : y.site % L = i at *
  have hl := left_lt (m := L) (i := i) (by omega)
  have hr := right_lt' (m := L) (i := i) (by omega)
  have e0 := Tol.pos he
  have eh : ε ≤ 1 / 1000 := he.hi.trans (by norm_num)
  have M1 := hg.M1
  have b1 := hg.b1
  have M20 : M ≤ 2 ^ 20 := by
    have := hg.bM
    nlinarith
  obtain ⟨k, k1, k2, k3⟩ := hxy.u2
  have u1 := hxy.valid.u1
  obtain ⟨v, v1, v2, v3⟩ := proposal_near he hm hxy.u1 (by rw [abs_of_nonneg u1.1]; exact u1.2.le) k1.le k2
  rw [← k3] at v3
  have lv : len v ≤ 11 / 10 := by
    have := (abs_le.1 v2).2
    linarith
  have unit : ∀ i < L, len (S d i) = 1 := fun i hi => unit_S h.wd h.unit hi
  have hn := de_near (m := m) (M := M) (n := ⟨sp (left L i), sp i, sp (right L i), j (left L i), j i, hf i⟩)
    (k := ⟨⟨V (left L i)⟩, ⟨V i⟩, ⟨V (right L i)⟩, J d (left L i), J d i, H0 d i⟩)
    ⟨M1, M20.trans (pow_le_pow_right₀ (by norm_num) (by norm_num)), vs _ hl, vs i hi, vs _ hr, ⟨vj _ hl, h.bj _ hl⟩,
      ⟨vj i hi, h.bj i hi⟩, ⟨vh i hi, h.bh i hi⟩⟩ v1 lv
  have ch : change L d y = SpinChain.metroDe (⟨⟨S d (left L i)⟩, ⟨S d i⟩, ⟨S d (right L i)⟩, J d (left L i), J d i, H0 d i⟩ :
      Nbhd1 ℝ) ⟨spherePoint y.u1 y.u2⟩ := by
    rw [metroDe_eq (S d) (J d) (H0 d) hL hi, change, hidx, S_replace h.wd hi]
  have su : len (spherePoint y.u1 y.u2) = 1 := sphere_unit hxy.valid.u2.1 hxy.valid.u2.2.le
  have hp := de_lip (M := M) (D := D) (ρ := 56 * ε)
    (k := ⟨⟨V (left L i)⟩, ⟨V i⟩, ⟨V (right L i)⟩, J d (left L i), J d i, H0 d i⟩)
    (k' := ⟨⟨S d (left L i)⟩, ⟨S d i⟩, ⟨S d (right L i)⟩, J d (left L i), J d i, H0 d i⟩)
    (v := v) (v' := spherePoint y.u1 y.u2) M1 rfl rfl rfl (vs _ hl).2 (vs _ hr).2 (h.bj _ hl) (h.bj i hi) (h.bh i hi)
    (unit i hi) su (dS _ hl) (dS i hi) (dS _ hr) v3
  rw [← ch] at hp
  have hde := hn.shift hp
  refine ⟨SpinChain.accept c.vars.beta (SpinChain.metroDe
    ⟨sp (left L i), sp i, sp (right L i), j (left L i), j i, hf i⟩ (SpinChain.proposal x.u1 x.u2)) x.u3, ?_, ?_⟩
  · unfold SpinChain.metropolis_update
    rw [hsize_natF h.wc]
    dsimp only
    rw [genRange_ok (by omega : 1 ≤ L), ok_bind, hxy.site, hidx]
    unfold SpinChain.nbhd1
    rw [leftIdx_ok hi, rightIdx_ok hi]
    simp only [ok_bind, th.idx hi, tsp.idx hi, tsp.idx hl, tsp.idx hr, tj.idx hi, tj.idx hl]
    exact finish_ok (by rw [h.wc.spins]; exact hi) _ _ _
  · intro hmar
    have D0 : 0 ≤ D := by linarith [hg.lo]
    have ub : M * (1 / 2 ^ 52) ≤ M * ε := mul_le_mul_of_nonneg_left he.lo (by linarith)
    have Me : M * ε ≤ M * (1 / 2 ^ 30) := mul_le_mul_of_nonneg_left he.hi (by linarith)
    have MD : M * D ≤ M * (1 / 20) := mul_le_mul_of_nonneg_left hg.hi (by linarith)
    have hδ : 360 * M / 2 ^ 52 + (8 * M * D + 16 / 5 * M * (56 * ε)) ≤ 540 * M * ε + 8 * M * D := by
      norm_num at *
      linarith
    have hch : |change L d y| ≤ 22 * M := by
      rw [ch, de_real]
      have g1 : len (had (J d (left L i)) (S d (left L i))) ≤ M * 1 :=
        (len_had_le _ _).trans (mul_le_mul (h.bj _ hl) (unit _ hl).le (len_nonneg _) (by linarith))
      have g2 : len (had (J d i) (S d (right L i))) ≤ M * 1 :=
        (len_had_le _ _).trans (mul_le_mul (h.bj _ hi) (unit _ hr).le (len_nonneg _) (by linarith))
      have g3 := len_sub_le (Spec.sub (H0 d i) (had (J d (left L i)) (S d (left L i)))) (had (J d i) (S d (right L i)))
      have g4 := len_sub_le (H0 d i) (had (J d (left L i)) (S d (left L i)))
      have g5 := len_sub_le (spherePoint y.u1 y.u2) (S d i)
      rw [su, unit i hi] at g5
      refine (abs_dot_le_len _ _).trans ((mul_le_mul g5 (show _ ≤ 3 * M from ?_) (len_nonneg _) (by norm_num)).trans ?_)
      · have := h.bh i hi
        dsimp only at *
        linarith
      · linarith
    refine accept_near (Δ := change L d y) (β := d.vars.beta) he hm h.beta h.beta0 h.beta1 b1 M1 hg.bM hch (hde.mono hδ) (by
      norm_num at *
      linarith) hxy.u3 hxy.valid.u3.2 (le_trans ?_ hmar)
    have : 0 ≤ b * M * ε := by positivity
    unfold doubt
    nlinarith

/-- what the exact algorithm does -/
theorem exact_update (h : Sampled ε D b M L s c d) (hL : 2 ≤ L) (hy : ValidDraw y) :
    d.metropolis_update y = .ok (if y.u3 < acceptance L d y then replace d (y.site % L) (spherePoint y.u1 y.u2) else d) := by
  rw [plain_form h.wd hL y hy.u2.1 hy.u2.2.le]
  unfold metropolis
  have := acc_iff (beta := d.vars.beta) (dE := change L d y) h.beta0 hy.u3.2
  congr 1
  exact if_congr this rfl rfl

/-- **One update.**  Unless the uniform number `u3` falls within `doubt` of the probability of acceptance, the program
accepts exactly if the exact algorithm does; and the errors in the spins do not grow. -/
theorem C106_update (he : Tol ε) (hm : SamplesTo ε m) (hg : Margins ε D b M) (h : Sampled ε D b M L s c d) (hL : 2 ≤ L)
    (hxy : DrawnAs x y) (hmar : doubt ε D b M ≤ |y.u3 - acceptance L d y|) :
    ∃ c' d', c.metropolis_update x = .ok c' ∧ d.metropolis_update y = .ok d' ∧ Sampled ε D b M L s c' d' := by
  obtain ⟨a, a1, a2⟩ := update_near he hm hg h hL hxy
  have a3 := a2 hmar
  refine ⟨_, _, a1, exact_update h hL hxy.valid, ?_⟩
  by_cases hu : y.u3 < acceptance L d y
  · rw [a3, decide_eq_true hu, if_pos rfl, if_pos hu]
    exact sampled_set he hm hg h hL hxy
  · rw [a3, decide_eq_false hu, if_neg (by simp), if_neg hu]
    exact h

/-- Whatever the number `u3`, the program moves to a state that is within `D` of one of the two the exact algorithm
chooses from. -/
theorem C106_always (he : Tol ε) (hm : SamplesTo ε m) (hg : Margins ε D b M) (h : Sampled ε D b M L s c d) (hL : 2 ≤ L)
    (hxy : DrawnAs x y) :
    ∃ c', c.metropolis_update x = .ok c' ∧
      (Sampled ε D b M L s c' d ∨ Sampled ε D b M L s c' (replace d (y.site % L) (spherePoint y.u1 y.u2))) := by
  obtain ⟨a, a1, -⟩ := update_near he hm hg h hL hxy
  refine ⟨_, a1, ?_⟩
  cases a
  · exact .inl h
  · exact .inr (sampled_set he hm hg h hL hxy)

end

/-! ### Runs, over all random numbers -/

/-- number of values of a uniform number of the crate `rand` (the multiples of `2 ^ -52` in `[0, 1)`) -/
def grid : ℕ := 2 ^ 52

theorem grid_eq : (grid : ℝ) = 2 ^ 52 := by
  unfold grid
  norm_num

theorem grid_pos : 0 < grid := by
  unfold grid
  positivity

/-- the random numbers of one update: all values are equally likely -/
abbrev Grid (L : ℕ) : Type := Fin L × Fin grid × Fin grid × Fin grid

/-- as real numbers -/
noncomputable def gridDraw {L : ℕ} (o : Grid L) : Draw ℝ :=
  ⟨o.1, (o.2.1 : ℕ) / 2 ^ 52, (o.2.2.1 : ℕ) / 2 ^ 52, (o.2.2.2 : ℕ) / 2 ^ 52⟩

/-- as binary64 numbers -/
def gridDraw64 (m : Libm) {L : ℕ} (o : Grid L) : Draw (B64 m) :=
  ⟨o.1, B64v.fin ((o.2.1 : ℕ) / 2 ^ 52), B64v.fin ((o.2.2.1 : ℕ) / 2 ^ 52), B64v.fin ((o.2.2.2 : ℕ) / 2 ^ 52)⟩

theorem grid_unit (k : Fin grid) : 0 ≤ ((k : ℕ) : ℝ) / 2 ^ 52 ∧ ((k : ℕ) : ℝ) / 2 ^ 52 < 1 := by
  refine ⟨by positivity, ?_⟩
  rw [div_lt_one (by positivity), ← grid_eq]
  exact_mod_cast k.2

theorem grid_drawn {L : ℕ} (o : Grid L) : DrawnAs (gridDraw64 m o) (gridDraw o) := by
  refine ⟨rfl, ⟨_, .inl rfl, by simp [gridDraw]⟩, ⟨2 * (o.2.2.1 : ℕ), ?_, ?_, ?_⟩, ⟨_, .inl rfl, by simp [gridDraw]⟩,
    ⟨grid_unit _, grid_unit _, grid_unit _⟩⟩
  · have := o.2.2.1.2
    unfold grid at this
    omega
  · left
    show B64v.fin _ = B64v.fin _
    congr 1
    push_cast
    ring
  · show ((o.2.2.1 : ℕ) : ℝ) / 2 ^ 52 = _
    push_cast
    ring

/-- the draws of a run; the value after the end is never used -/
def drawSeq {F α : Type} {n : ℕ} (f : α → Draw F) (junk : Draw F) (ω : Fin n → α) (k : ℕ) : Draw F :=
  if h : k < n then f (ω ⟨k, h⟩) else junk

/-- the run of the program -/
def run64 {L n : ℕ} (ω : Fin n → Grid L) (k : ℕ) (c : SpinChain (B64 m)) : R (SpinChain (B64 m)) :=
  sweeps SpinChain.metropolis_update (drawSeq (gridDraw64 m) ⟨0, B64v.fin 0, B64v.fin 0, B64v.fin 0⟩ ω) k c

/-- the run of the exact algorithm with the same random numbers -/
noncomputable def runReal {L n : ℕ} (ω : Fin n → Grid L) (k : ℕ) (d : SpinChain ℝ) : R (SpinChain ℝ) :=
  sweeps SpinChain.metropolis_update (drawSeq gridDraw ⟨0, 0, 0, 0⟩ ω) k d

/-- the program follows the exact algorithm for the whole run, within `D` -/
def Follows (ε D : ℝ) {L n : ℕ} (ω : Fin n → Grid L) (c : SpinChain (B64 m)) (d : SpinChain ℝ) : Prop :=
  ∀ k ≤ n, ∃ c' d', run64 ω k c = .ok c' ∧ runReal ω k d = .ok d' ∧ Close ε D c' d'

theorem sweeps_succ {F : Type} (upd : SpinChain F → Draw F → R (SpinChain F)) (ds : ℕ → Draw F) (k : ℕ) (c : SpinChain F) :
    sweeps upd ds (k + 1) c = (upd c (ds 0) >>= fun c => sweeps upd (fun i => ds (i + 1)) k c) := by
  unfold sweeps forRange
  simp only [Nat.sub_zero]
  rw [List.range'_succ, List.foldlM_cons]
  congr 1
  funext c
  rw [zero_add, List.range'_eq_map_range (s := 1), List.foldlM_map, List.range_eq_range']
  congr 1
  funext c i
  rw [add_comm]

theorem drawSeq_cons {F α : Type} {n : ℕ} (f : α → Draw F) (junk : Draw F) (o : α) (ω : Fin n → α) :
    (fun i => drawSeq f junk (Fin.cons o ω : Fin (n + 1) → α) (i + 1)) = drawSeq f junk ω := by
  funext i
  unfold drawSeq
  by_cases h : i < n
  · rw [dif_pos h, dif_pos (by omega : i + 1 < n + 1)]
    rfl
  · rw [dif_neg h, dif_neg (by omega)]

theorem follows_cons {ε D b M : ℝ} {L s n : ℕ} {c : SpinChain (B64 m)} {d : SpinChain ℝ} (o : Grid L) (ω : Fin n → Grid L)
    {c1 : SpinChain (B64 m)} {d1 : SpinChain ℝ} (h : Sampled ε D b M L s c d)
    (h1 : c.metropolis_update (gridDraw64 m o) = .ok c1) (h2 : d.metropolis_update (gridDraw o) = .ok d1)
    (hf : Follows ε D ω c1 d1) : Follows ε D (Fin.cons o ω : Fin (n + 1) → Grid L) c d := by
  intro k hk
  cases k with
  | zero => exact ⟨c, d, rfl, rfl, h.close⟩
  | succ k =>
    obtain ⟨c', d', e1, e2, e3⟩ := hf k (by omega)
    refine ⟨c', d', ?_, ?_, e3⟩
    · unfold run64 at *
      rw [sweeps_succ, drawSeq_cons]
      rw [show drawSeq (gridDraw64 m) ⟨0, B64v.fin 0, B64v.fin 0, B64v.fin 0⟩ (Fin.cons o ω : Fin (n + 1) → Grid L) 0
        = gridDraw64 m o from rfl, h1, ok_bind]
      exact e1
    · unfold runReal at *
      rw [sweeps_succ, drawSeq_cons]
      rw [show drawSeq gridDraw ⟨0, 0, 0, 0⟩ (Fin.cons o ω : Fin (n + 1) → Grid L) 0 = gridDraw o from rfl, h2, ok_bind]
      exact e2

/-- few grid points lie in an interval -/
theorem grid_count (a η : ℝ) (hη : 0 ≤ η) :
    ((univ.filter fun k : Fin grid => |((k : ℕ) : ℝ) / 2 ^ 52 - a| < η).card : ℝ) ≤ 2 * η * grid + 1 := by
  generalize hA : (univ.filter fun k : Fin grid => |((k : ℕ) : ℝ) / 2 ^ 52 - a| < η) = A
  have g0 : (0 : ℝ) < grid := by exact_mod_cast grid_pos
  rcases A.eq_empty_or_nonempty with h | h
  · rw [h, card_empty]
    push_cast
    positivity
  · have mem : ∀ k ∈ A, |((k : ℕ) : ℝ) / 2 ^ 52 - a| < η := fun k hk => by
      rw [← hA] at hk
      exact (mem_filter.1 hk).2
    have sub : A ⊆ Finset.Icc (A.min' h) (A.max' h) := fun k hk => by
      rw [Finset.mem_Icc]
      exact ⟨A.min'_le k hk, A.le_max' k hk⟩
    have c1 := card_le_card sub
    rw [Fin.card_Icc] at c1
    have h1 := abs_lt.1 (mem _ (A.min'_mem h))
    have h2 := abs_lt.1 (mem _ (A.max'_mem h))
    have h3 : (((A.max' h : Fin grid) : ℕ) : ℝ) - ((A.min' h : Fin grid) : ℕ) < 2 * η * grid := by
      have : (((A.max' h : Fin grid) : ℕ) : ℝ) / 2 ^ 52 - (((A.min' h : Fin grid) : ℕ) : ℝ) / 2 ^ 52 < 2 * η := by linarith
      rw [← sub_div, div_lt_iff₀ (by positivity), ← grid_eq] at this
      exact this
    have h4 : ((A.min' h : Fin grid) : ℕ) ≤ ((A.max' h : Fin grid) : ℕ) := A.min'_le_max' h
    have h5 : (A.card : ℝ) ≤ ((A.max' h : Fin grid) : ℕ) + 1 - ((A.min' h : Fin grid) : ℕ) := by
      have : A.card + ((A.min' h : Fin grid) : ℕ) ≤ ((A.max' h : Fin grid) : ℕ) + 1 := by omega
      have : (A.card : ℝ) + ((A.min' h : Fin grid) : ℕ) ≤ ((A.max' h : Fin grid) : ℕ) + 1 := by exact_mod_cast this
      linarith
    linarith

open Classical in
/-- the doubtful random numbers of one update -/
theorem doubt_count {L : ℕ} (d : SpinChain ℝ) {η : ℝ} (hη : 0 ≤ η) :
    ((univ.filter fun o : Grid L => |(gridDraw o).u3 - acceptance L d (gridDraw o)| < η).card : ℝ)
      ≤ (2 * η + 1 / 2 ^ 52) * Fintype.card (Grid L) := by
  have g0 : (0 : ℝ) < grid := by exact_mod_cast grid_pos
  have e1 : ((univ.filter fun o : Grid L => |(gridDraw o).u3 - acceptance L d (gridDraw o)| < η).card : ℝ)
      = ∑ i : Fin L, ∑ k1 : Fin grid, ∑ k2 : Fin grid,
        ((univ.filter fun k : Fin grid => |((k : ℕ) : ℝ) / 2 ^ 52 - acceptance L d (gridDraw (i, k1, k2, k))| < η).card : ℝ) := by
    rw [card_filter]
    push_cast
    rw [Fintype.sum_prod_type]
    refine sum_congr rfl fun i _ => ?_
    rw [Fintype.sum_prod_type]
    refine sum_congr rfl fun k1 _ => ?_
    rw [Fintype.sum_prod_type]
    refine sum_congr rfl fun k2 _ => ?_
    rw [card_filter]
    push_cast
    rfl
  rw [e1]
  calc _ ≤ ∑ i : Fin L, ∑ k1 : Fin grid, ∑ k2 : Fin grid, (2 * η * grid + 1) := by
        refine sum_le_sum fun i _ => sum_le_sum fun k1 _ => sum_le_sum fun k2 _ => ?_
        exact grid_count (acceptance L d ⟨i, (k1 : ℕ) / 2 ^ 52, (k2 : ℕ) / 2 ^ 52, 0⟩) η hη
    _ = _ := by
        simp only [sum_const, card_univ, Fintype.card_fin, Fintype.card_prod, nsmul_eq_mul]
        push_cast
        rw [← grid_eq]
        field_simp

open Classical in
/-- **Runs.**  Of all sequences of random numbers for `n` updates, those for which the program ever departs from the exact
algorithm by more than `D` are at most a fraction `n (2 doubt + 2 ^ -52)`. -/
theorem C106_fraction {ε D b M : ℝ} {L s : ℕ} (he : Tol ε) (hm : SamplesTo ε m) (hg : Margins ε D b M) (hL : 2 ≤ L) (n : ℕ)
    (c : SpinChain (B64 m)) (d : SpinChain ℝ) (h : Sampled ε D b M L s c d) :
    ((univ.filter fun ω : Fin n → Grid L => ¬Follows ε D ω c d).card : ℝ)
      ≤ n * (2 * doubt ε D b M + 1 / 2 ^ 52) * Fintype.card (Fin n → Grid L) := by
  have D0 : 0 ≤ D := by linarith [hg.lo, Tol.pos he]
  have d0 : 0 ≤ doubt ε D b M := by
    have := Tol.pos he
    have := hg.b1
    have := hg.M1
    unfold doubt
    positivity
  have key : ∀ (n : ℕ) (c : SpinChain (B64 m)) (d : SpinChain ℝ), Sampled ε D b M L s c d →
      ∑ ω : Fin n → Grid L, (if Follows ε D ω c d then (0 : ℝ) else 1)
        ≤ n * (2 * doubt ε D b M + 1 / 2 ^ 52) * (Fintype.card (Grid L) : ℝ) ^ n := by
    intro n
    induction n with
    | zero =>
      intro c d h
      refine le_of_eq ?_
      rw [Nat.cast_zero, zero_mul, zero_mul]
      refine sum_eq_zero fun ω _ => if_pos ?_
      intro k hk
      obtain rfl : k = 0 := by omega
      exact ⟨c, d, rfl, rfl, h.close⟩
    | succ n ih =>
      intro c d h
      rw [← (Fin.consEquiv fun _ : Fin (n + 1) => Grid L).sum_comp, Fintype.sum_prod_type]
      have inner : ∀ o : Grid L, ∑ ω : Fin n → Grid L,
          (if Follows ε D ((Fin.consEquiv fun _ : Fin (n + 1) => Grid L) (o, ω)) c d then (0 : ℝ) else 1)
          ≤ n * (2 * doubt ε D b M + 1 / 2 ^ 52) * (Fintype.card (Grid L) : ℝ) ^ n
            + (if |(gridDraw o).u3 - acceptance L d (gridDraw o)| < doubt ε D b M then 1 else 0)
              * (Fintype.card (Grid L) : ℝ) ^ n := by
        intro o
        by_cases ho : |(gridDraw o).u3 - acceptance L d (gridDraw o)| < doubt ε D b M
        · rw [if_pos ho, one_mul]
          have : ∑ ω : Fin n → Grid L,
              (if Follows ε D ((Fin.consEquiv fun _ : Fin (n + 1) => Grid L) (o, ω)) c d then (0 : ℝ) else 1)
              ≤ ∑ ω : Fin n → Grid L, 1 := sum_le_sum fun ω _ => by split_ifs <;> norm_num
          refine this.trans ?_
          rw [sum_const, card_univ, nsmul_eq_mul, mul_one, Fintype.card_pi]
          simp only [prod_const, card_univ, Fintype.card_fin]
          push_cast
          have : 0 ≤ (n : ℝ) * (2 * doubt ε D b M + 1 / 2 ^ 52) * ((Fintype.card (Grid L) : ℕ) : ℝ) ^ n := by positivity
          linarith
        · rw [if_neg ho, zero_mul, add_zero]
          obtain ⟨c1, d1, h1, h2, h3⟩ := C106_update he hm hg h hL (grid_drawn (m := m) o) (not_lt.1 ho)
          refine le_trans (sum_le_sum fun ω _ => ?_) (ih c1 d1 h3)
          by_cases hf : Follows ε D ω c1 d1
          · rw [if_pos hf, if_pos]
            exact follows_cons o ω h h1 h2 hf
          · rw [if_neg hf]
            split_ifs <;> norm_num
      refine (sum_le_sum fun o _ => inner o).trans ?_
      rw [sum_add_distrib, sum_const, card_univ, nsmul_eq_mul, ← sum_mul]
      have dc := doubt_count (L := L) d d0
      rw [card_filter] at dc
      push_cast at dc
      have := mul_le_mul_of_nonneg_right dc (show 0 ≤ (Fintype.card (Grid L) : ℝ) ^ n by positivity)
      rw [pow_succ (Fintype.card (Grid L) : ℝ) n]
      push_cast
      linarith
  have := key n c d h
  rw [card_filter]
  push_cast
  refine le_trans (le_of_eq ?_) (this.trans (le_of_eq ?_))
  · refine sum_congr rfl fun ω _ => ?_
    by_cases hf : Follows ε D ω c d
    · rw [if_pos hf, if_neg (not_not.2 hf)]
    · rw [if_neg hf, if_pos hf]
  · rw [Fintype.card_pi]
    simp only [prod_const, card_univ, Fintype.card_fin]
    push_cast
    rfl

/-! ### Averages over all random numbers -/

theorem run64_cons {L n : ℕ} (o : Grid L) (ω : Fin n → Grid L) (k : ℕ) (c : SpinChain (B64 m)) :
    run64 (Fin.cons o ω : Fin (n + 1) → Grid L) (k + 1) c = (c.metropolis_update (gridDraw64 m o) >>= run64 ω k) := by
  unfold run64
  rw [sweeps_succ, drawSeq_cons]
  rfl

theorem runReal_cons {L n : ℕ} (o : Grid L) (ω : Fin n → Grid L) (k : ℕ) (d : SpinChain ℝ) :
    runReal (Fin.cons o ω : Fin (n + 1) → Grid L) (k + 1) d = (d.metropolis_update (gridDraw o) >>= runReal ω k) := by
  unfold runReal
  rw [sweeps_succ, drawSeq_cons]
  rfl

/-- the computed state is always within `D` of some chain of unit vectors -/
theorem run_shadow {ε D b M : ℝ} {L s : ℕ} (he : Tol ε) (hm : SamplesTo ε m) (hg : Margins ε D b M) (hL : 2 ≤ L) (n : ℕ) :
    ∀ (ω : Fin n → Grid L) (c : SpinChain (B64 m)) (d : SpinChain ℝ), Sampled ε D b M L s c d →
      ∃ c' d', run64 ω n c = .ok c' ∧ c'.j_couple = c.j_couple ∧ c'.static_h = c.static_h ∧ Sampled ε D b M L s c' d' := by
  induction n with
  | zero => exact fun ω c d h => ⟨c, d, rfl, rfl, rfl, h⟩
  | succ n ih =>
    intro ω c d h
    rw [← Fin.cons_self_tail ω]
    obtain ⟨a, a1, -⟩ := update_near he hm hg h hL (grid_drawn (m := m) (ω 0))
    have key : ∃ c1 d1, c.metropolis_update (gridDraw64 m (ω 0)) = .ok c1 ∧ c1.j_couple = c.j_couple ∧
        c1.static_h = c.static_h ∧ Sampled ε D b M L s c1 d1 := by
      cases a
      · exact ⟨c, d, a1, rfl, rfl, h⟩
      · exact ⟨_, _, a1, rfl, rfl, sampled_set he hm hg h hL (grid_drawn (m := m) (ω 0))⟩
    obtain ⟨c1, d1, h1, h2, h3, h4⟩ := key
    obtain ⟨c', d', k1, k2, k3, k4⟩ := ih (Fin.tail ω) c1 d1 h4
    refine ⟨c', d', ?_, k2.trans h2, k3.trans h3, k4⟩
    rw [run64_cons, h1, ok_bind]
    exact k1

/-- the exact run -/
theorem run_exact {L s : ℕ} (hL : 2 ≤ L) (n : ℕ) :
    ∀ (ω : Fin n → Grid L) (d : SpinChain ℝ), WF d L s → (∀ x ∈ d.spins, IsUnit3 x) →
      ∃ d', runReal ω n d = .ok d' ∧ d'.j_couple = d.j_couple ∧ d'.static_h = d.static_h ∧ WF d' L s ∧
        ∀ x ∈ d'.spins, IsUnit3 x := by
  induction n with
  | zero => exact fun ω d w u => ⟨d, rfl, rfl, rfl, w, u⟩
  | succ n ih =>
    intro ω d w u
    rw [← Fin.cons_self_tail ω]
    have v := (grid_drawn (m := fineLibm) (ω 0)).valid
    have key : ∃ d1, d.metropolis_update (gridDraw (ω 0)) = .ok d1 ∧ d1.j_couple = d.j_couple ∧
        d1.static_h = d.static_h ∧ WF d1 L s ∧ ∀ x ∈ d1.spins, IsUnit3 x := by
      refine ⟨_, plain_form w hL _ v.u2.1 v.u2.2.le, ?_⟩
      unfold metropolis
      split_ifs
      · refine ⟨rfl, rfl, replace_wf w _ _, fun z hz => ?_⟩
        rcases List.mem_or_eq_of_mem_set hz with hz | rfl
        · exact u z hz
        · exact sphere_unit v.u2.1 v.u2.2.le
      · exact ⟨rfl, rfl, w, u⟩
    obtain ⟨d1, h1, h2, h3, h4, h5⟩ := key
    obtain ⟨d', k1, k2, k3, k4⟩ := ih (Fin.tail ω) d1 h4 h5
    refine ⟨d', ?_, k2.trans h2, k3.trans h3, k4⟩
    rw [runReal_cons, h1, ok_bind]
    exact k1

/-- energies per site of two chains of unit vectors -/
theorem energy_gap {M : ℝ} {L : ℕ} (hL : 1 ≤ L) {d e : SpinChain ℝ} (ud : ∀ i < L, len (S d i) = 1)
    (ue : ∀ i < L, len (S e i) = 1) (jd : ∀ i < L, len (J d i) ≤ M) (je : ∀ i < L, len (J e i) ≤ M)
    (hd : ∀ i < L, len (H0 d i) ≤ M) (he : ∀ i < L, len (H0 e i) ≤ M) :
    |ringEnergy L (S d) (J d) (H0 d) / L - ringEnergy L (S e) (J e) (H0 e) / L| ≤ 4 * M := by
  refine mean_lip (fun i => siteE (S d i) (S d ((i + 1) % L)) (J d i) (H0 d i))
        (fun i => siteE (S e i) (S e ((i + 1) % L)) (J e i) (H0 e i)) hL fun i hi => ?_
  have key : ∀ {v w J B : V3 ℝ}, len v = 1 → len w = 1 → len J ≤ M → len B ≤ M → |siteE v w J B| ≤ 2 * M := by
    intro v w J B h1 h2 h3 h4
    have a1 := abs_dot_le_len v (had J w)
    have a2 := len_had_le J w
    have a3 := abs_dot_le_len B v
    have a4 := abs_add_le (-dot v (had J w)) (dot B v)
    rw [abs_neg] at a4
    rw [h1] at a1 a3
    rw [h2] at a2
    unfold siteE
    linarith
  have hm : (i + 1) % L < L := Nat.mod_lt _ (by omega)
  have g1 := key (ud i hi) (ud _ hm) (jd i hi) (hd i hi)
  have g2 := key (ue i hi) (ue _ hm) (je i hi) (he i hi)
  have g3 := abs_sub (siteE (S d i) (S d ((i + 1) % L)) (J d i) (H0 d i)) (siteE (S e i) (S e ((i + 1) % L)) (J e i) (H0 e i))
  linarith

/-- **Averages.**  Over all sequences of random numbers for `n` updates, the mean of the energy reported by the program
differs from the mean for the exact algorithm by at most `128 M L / 2 ^ 52 + 5 M D` (rounding errors of a report) plus
`4 M n (2 doubt + 2 ^ -52)` (decisions taken differently). -/
theorem C106_mean {ε D b M : ℝ} {L s : ℕ} (he : Tol ε) (hm : SamplesTo ε m) (hg : Margins ε D b M) (hL : 2 ≤ L) (hs : 1 ≤ s)
    (hsL : s ≤ L) (n : ℕ) (c : SpinChain (B64 m)) (d : SpinChain ℝ) (h : Sampled ε D b M L s c d) :
    ∃ E E' : (Fin n → Grid L) → ℝ,
      (∀ ω, ∃ c' x, run64 ω n c = .ok c' ∧ c'.mc_total_energy = .ok x ∧ IsVal x (E ω)) ∧
      (∀ ω, ∃ d', runReal ω n d = .ok d' ∧ d'.mc_total_energy = .ok (E' ω)) ∧
      |(∑ ω, E ω) / Fintype.card (Fin n → Grid L) - (∑ ω, E' ω) / Fintype.card (Fin n → Grid L)|
        ≤ 128 * M * L / 2 ^ 52 + 5 * M * D + 4 * M * n * (2 * doubt ε D b M + 1 / 2 ^ 52) := by
  classical
  have M1 := hg.M1
  have b1 := hg.b1
  have M20 : M ≤ 2 ^ 20 := by
    have := hg.bM
    nlinarith
  have le11 : ∀ {e : SpinChain ℝ}, (∀ x ∈ e.spins, IsUnit3 x) → ∀ x ∈ e.spins, len x.dir ≤ 11 / 10 := fun {e} u z hz => by
    rw [show len z.dir = 1 from u z hz]; norm_num
  have all : ∀ ω : Fin n → Grid L, ∃ y y' : ℝ, (∃ c' x, run64 ω n c = .ok c' ∧ c'.mc_total_energy = .ok x ∧ IsVal x y) ∧
      (∃ d', runReal ω n d = .ok d' ∧ d'.mc_total_energy = .ok y') ∧
      |y - y'| ≤ 128 * M * L / 2 ^ 52 + 5 * M * D + 4 * M * (if ¬Follows ε D ω c d then 1 else 0) := by
    intro ω
    obtain ⟨c', e, a1, a2, a3, a4⟩ := run_shadow he hm hg hL n ω c d h
    obtain ⟨d', g1, g2, g3, g4, g5⟩ := run_exact hL n ω d h.wd h.unit
    have jJ : J d' = J d := by funext i; unfold J; rw [g2]
    have hH : H0 d' = H0 d := by funext i; unfold H0; rw [g3]
    obtain ⟨⟨x, x1, q, x2, x3⟩, -⟩ := mc_near he a4.wc a4.wd hs hsL a4.j a4.h a4.close (le11 a4.unit) M1 M20 a4.bj a4.bh
    refine ⟨q, _, ⟨c', x, a1, x1, q, x2, rfl⟩, ⟨d', g1, (C18_mc_total_energy d' L s g4 (by omega)).1⟩, ?_⟩
    by_cases hf : Follows ε D ω c d
    · obtain ⟨c2, d2, f1, f2, f3⟩ := hf n le_rfl
      rw [a1] at f1
      cases f1
      rw [g1] at f2
      cases f2
      obtain ⟨⟨y, y1, r, y2, y3⟩, -⟩ := mc_near he a4.wc g4 hs hsL (by rw [a2, g2]; exact h.j) (by rw [a3, g3]; exact h.h) f3
        (le11 g5) M1 M20 (by rw [jJ]; exact h.bj) (by rw [hH]; exact h.bh)
      rw [x1] at y1
      cases y1
      rw [if_neg (not_not.2 hf), mul_zero, add_zero]
      rw [show q = r from (HasVal.val x2).symm.trans (HasVal.val y2)]
      exact y3
    · rw [if_pos hf, mul_one]
      have gap := energy_gap (M := M) (L := L) (by omega) (fun i hi => unit_S a4.wd a4.unit hi) (fun i hi => unit_S g4 g5 hi)
        a4.bj (by rw [jJ]; exact h.bj) a4.bh (by rw [hH]; exact h.bh)
      have := abs_sub_le (q : ℝ) (ringEnergy L (S e) (J e) (H0 e) / L) (ringEnergy L (S d') (J d') (H0 d') / L)
      linarith
  choose E E' h1 h2 h3 using all
  refine ⟨E, E', h1, h2, ?_⟩
  have := C106_fraction he hm hg hL n c d h
  have : Nonempty (Grid L) := ⟨⟨⟨0, by omega⟩, ⟨0, grid_pos⟩, ⟨0, grid_pos⟩, ⟨0, grid_pos⟩⟩⟩
  have c0 : (0 : ℝ) < Fintype.card (Fin n → Grid L) := by exact_mod_cast Fintype.card_pos
  rw [← sub_div, ← sum_sub_distrib, abs_div, abs_of_pos c0, div_le_iff₀ c0]
  refine (abs_sum_le_sum_abs _ _).trans ((sum_le_sum fun ω _ => h3 ω).trans ?_)
  rw [sum_add_distrib, sum_const, card_univ, nsmul_eq_mul, ← mul_sum]
  rw [card_filter] at *
  push_cast at *
  nlinarith

/-! ### An instance -/

theorem fineLibm_samples : SamplesTo (1 / 2 ^ 50) fineLibm := by
  refine ⟨fineLibm_accurate, ?_, ?_⟩
  · intro x q hx _
    have h : ∃ r : ℚ, |(r : ℝ) - Real.arccos x.val| ≤ 1 / 2 ^ 50 := exists_near _ _ (by norm_num)
    refine ⟨h.choose, .inl (dif_pos h), ?_⟩
    have hv := hx.val
    subst hv
    exact h.choose_spec
  · intro x q hx _
    have h : ∃ r : ℚ, |(r : ℝ) - Real.exp x.val| ≤ 1 / 2 ^ 50 := exists_near _ _ (by norm_num)
    refine ⟨h.choose, .inl (dif_pos h), ?_⟩
    have hv := hx.val
    subst hv
    refine h.choose_spec.trans (by norm_num)

/-- the chain of C95 at inverse temperature 3 -/
def warmChain (m : Libm) : SpinChain (B64 m) :=
  { fineChain m with
    vars := { (fineChain m).vars with
      beta := B64v.fin 3 } }

/-- the same system in exact arithmetic -/
noncomputable def warmReal : SpinChain ℝ :=
  { fineReal with
    vars := { fineReal.vars with
      beta := 3 } }

theorem warm_sampled : Sampled (1 / 2 ^ 50) (56 / 2 ^ 50) 3 6 4 2 (warmChain fineLibm) warmReal := by
  refine ⟨⟨rfl, rfl, by norm_num, by norm_num, rfl, rfl, rfl, le_refl 3⟩,
    ⟨rfl, rfl, by norm_num, by norm_num, rfl, rfl, rfl, le_refl 3⟩, ⟨3, .inl rfl, by norm_num [warmReal]⟩, by norm_num [warmReal],
    by norm_num [warmReal], fine_same.j, fine_same.h, ?_, ?_, fineReal_unit, ?_⟩
  · intro i hi
    rw [show J warmReal i = J fineReal i from rfl, fineReal_J hi]
    exact (len_le_sum _).trans (by norm_num)
  · intro i hi
    rw [show H0 warmReal i = H0 fineReal i from rfl, fineReal_H hi]
    exact (len_le_sum _).trans (by norm_num)
  · intro i x y hx hy
    obtain ⟨v, v1, v2, v3⟩ := fine_close i x y hx hy
    exact ⟨v, v1, v2, v3.trans (by norm_num)⟩

theorem warm_margins : Margins (1 / 2 ^ 50) (56 / 2 ^ 50) 3 6 :=
  ⟨by norm_num, by norm_num, by norm_num, by norm_num, by norm_num⟩

theorem warm_doubt : doubt (1 / 2 ^ 50) (56 / 2 ^ 50) 3 6 ≤ 1 / 2 ^ 35 := by
  norm_num [doubt]

/-- a proposal for the third spin, which lowers the energy by 28/5 -/
def warmDraw : Grid 4 := (2, ⟨0, grid_pos⟩, ⟨2 ^ 51, by norm_num [grid]⟩, ⟨2 ^ 51, by norm_num [grid]⟩)

theorem warm_point : spherePoint (gridDraw warmDraw).u1 (gridDraw warmDraw).u2 = ⟨1, 0, 0⟩ := by
  have : (gridDraw warmDraw).u1 = 0 := by norm_num [gridDraw, warmDraw]
  have : (gridDraw warmDraw).u2 = 1 / 2 := by norm_num [gridDraw, warmDraw]
  simp only [*]
  norm_num [spherePoint]

theorem warm_change : change 4 warmReal (gridDraw warmDraw) = -(28 / 5) := by
  have e2 : (gridDraw warmDraw).site % 4 = 2 := rfl
  unfold change
  rw [warm_point, e2]
  norm_num [ringEnergy, sum_range_succ, S, J, H0, replace, warmReal, fineReal, dot, had]

/-- the hypotheses of `C106_update` and `C106_always`: the program accepts this proposal -/
example : ∃ c' d', (warmChain fineLibm).metropolis_update (gridDraw64 fineLibm warmDraw) = .ok c' ∧
    warmReal.metropolis_update (gridDraw warmDraw) = .ok d' ∧ S d' 2 = ⟨1, 0, 0⟩ ∧
    Sampled (1 / 2 ^ 50) (56 / 2 ^ 50) 3 6 4 2 c' d' := by
  have a : acceptance 4 warmReal (gridDraw warmDraw) = 1 := by
    unfold acceptance
    rw [warm_change, min_eq_left]
    exact Real.one_le_exp (by norm_num [warmReal])
  have u : (gridDraw warmDraw).u3 = 1 / 2 := by norm_num [gridDraw, warmDraw]
  obtain ⟨c', d', h1, h2, h3⟩ := C106_update ⟨by norm_num, by norm_num⟩ fineLibm_samples warm_margins warm_sampled (by norm_num)
    (grid_drawn warmDraw) (by
      rw [a, u]
      exact warm_doubt.trans (by norm_num [abs_of_nonpos]))
  refine ⟨c', d', h1, h2, ?_, h3⟩
  rw [exact_update warm_sampled (by norm_num) (grid_drawn (m := fineLibm) warmDraw).valid, a, u, if_pos (by norm_num)] at h2
  cases h2
  rw [show (gridDraw warmDraw).site % 4 = 2 from rfl, warm_point]
  rfl

open Classical in
/-- `C106_fraction` for 1000 updates: one sequence of random numbers in ten million -/
example : ((univ.filter fun ω : Fin 1000 → Grid 4 =>
      ¬Follows (1 / 2 ^ 50) (56 / 2 ^ 50) ω (warmChain fineLibm) warmReal).card : ℝ)
    ≤ 1 / 10 ^ 7 * Fintype.card (Fin 1000 → Grid 4) := by
  refine (C106_fraction ⟨by norm_num, by norm_num⟩ fineLibm_samples warm_margins (by norm_num) 1000 _ _ warm_sampled).trans ?_
  refine mul_le_mul_of_nonneg_right ?_ (by positivity)
  have := warm_doubt
  push_cast
  norm_num at *
  linarith

/-- `C106_mean` for 1000 updates -/
example : ∃ E E' : (Fin 1000 → Grid 4) → ℝ,
    (∀ ω, ∃ c' x, run64 ω 1000 (warmChain fineLibm) = .ok c' ∧ c'.mc_total_energy = .ok x ∧ IsVal x (E ω)) ∧
    (∀ ω, ∃ d', runReal ω 1000 warmReal = .ok d' ∧ d'.mc_total_energy = .ok (E' ω)) ∧
    |(∑ ω, E ω) / Fintype.card (Fin 1000 → Grid 4) - (∑ ω, E' ω) / Fintype.card (Fin 1000 → Grid 4)| ≤ 1 / 10 ^ 5 := by
  obtain ⟨E, E', h1, h2, h3⟩ := C106_mean ⟨by norm_num, by norm_num⟩ fineLibm_samples warm_margins (by norm_num)
    (by norm_num : 1 ≤ 2) (by norm_num) 1000 _ _ warm_sampled
  refine ⟨E, E', h1, h2, h3.trans ?_⟩
  clear h3 h1 h2
  have := warm_doubt
  push_cast
  norm_num at *
  linarith

end Verif.Props
