/-
Helper lemmas about the Langevin chain.
-/
import Verif.Lemmas.Regular
import Verif.Spec.Langevin

set_option linter.unusedSectionVars false

namespace Verif

open Spec Finset

section anyF
variable {F : Type} [Add F] [Sub F] [Mul F] [Div F] [Neg F] [OfScientific F] [FOps F]

open LangevinChain in
/-- closed form of the fields of a Langevin step -/
def langF (γ dt : F) (m : ℕ) (j h : ℕ → V3 F) (nl nr : V3 F) (sp : ℕ → Spin F) (i : ℕ) : V3 F :=
  if i = 0 then edgeField γ dt (j 0) (sp 1) (sp 0) (h 0) nl
  else if i + 1 = m then edgeField γ dt (j (i - 1)) (sp (i - 1)) (sp i) (h i) nr
  else SpinChain.ssh_sum (SpinChain.j_s (j (i - 1)) (sp (i - 1)))
    (SpinChain.j_s (j i) (sp (i + 1))) (h i)

/-- a sub-step with general fields -/
def subGF (om : (ℕ → Spin F) → ℕ → V3 F) (m par : ℕ) (dt : F) (sp : ℕ → Spin F) (i : ℕ) : Spin F :=
  if i < m ∧ i % 2 = par then (sp i).rotate (om sp i) dt else sp i

/-- the three sub-steps with general fields -/
def stepGF (om : (ℕ → Spin F) → ℕ → V3 F) (m : ℕ) (dt : F) (sp : ℕ → Spin F) : ℕ → Spin F :=
  subGF om m 0 (dt / 2.0) (subGF om m 1 dt (subGF om m 0 (dt / 2.0) sp))

section
variable {js hs : List (V3 F)} {spins : List (Spin F)} {L : ℕ} {j h : ℕ → V3 F} {sp : ℕ → Spin F}

theorem lEvenOmega_tab (γ dt : F) (nl nr : V3 F) (hj : Tab js L j) (hh : Tab hs L h)
    (hsp : Tab spins L sp) (hL : 2 ≤ L) :
    LangevinChain.evenOmega γ dt js spins hs nl
      = .ok ((List.range (L / 2)).map fun k => langF γ dt (2 * (L / 2)) j h nl nr sp (2 * k)) := by
  unfold LangevinChain.evenOmega
  rw [hsp.length]
  obtain ⟨n, hn⟩ : ∃ n, L / 2 = n + 1 := ⟨L / 2 - 1, by omega⟩
  have hlL : 2 * (n + 1) ≤ L := by omega
  simp only [hn]
  rw [hj.idx (by omega), ok_bind, hsp.idx (by omega), ok_bind,
    hh.idx (by omega), ok_bind, hsp.idx (by omega), ok_bind]
  rw [mapRange_ok (fun k => langF γ dt (2 * (n + 1)) j h nl nr sp (2 * k))]
  · rw [ok_bind, List.range_eq_range', List.range'_succ, List.map_cons, Nat.add_sub_cancel]
    rfl
  · intro k h0 h1
    rw [hj.idx (by omega), ok_bind, hsp.idx (by omega), ok_bind,
      hj.idx (by omega), ok_bind, hsp.idx (by omega), ok_bind, hh.idx (by omega), ok_bind]
    unfold langF
    rw [if_neg (by omega), if_neg (by omega)]
    rfl

theorem lOddOmega_tab (γ dt : F) (nl nr : V3 F) (hj : Tab js L j) (hh : Tab hs L h)
    (hsp : Tab spins L sp) (hL : 2 ≤ L) :
    LangevinChain.oddOmega γ dt js spins hs nr
      = .ok ((List.range (L / 2)).map fun k =>
          langF γ dt (2 * (L / 2)) j h nl nr sp (2 * k + 1)) := by
  unfold LangevinChain.oddOmega
  rw [hsp.length]
  obtain ⟨n, hn⟩ : ∃ n, L / 2 = n + 1 := ⟨L / 2 - 1, by omega⟩
  have hlL : 2 * (n + 1) ≤ L := by omega
  simp only [hn]
  rw [usub_ok (by omega), ok_bind, Nat.add_sub_cancel,
    mapRange_ok (fun k => langF γ dt (2 * (n + 1)) j h nl nr sp (2 * k + 1))]
  · rw [ok_bind, hj.idx (by omega), ok_bind, hsp.idx (by omega), ok_bind,
      hh.idx (by omega), ok_bind, hsp.idx (by omega), ok_bind]
    rw [List.range_succ, List.map_append, List.range_eq_range', Nat.sub_zero]
    show Except.ok (_ ++ [_]) = Except.ok (_ ++ [_])
    congr 3
    unfold langF
    dsimp only
    rw [if_neg (by omega), if_pos (by omega)]
    rfl
  · intro k h0 h1
    rw [hj.idx (by omega), ok_bind, hsp.idx (by omega), ok_bind,
      hj.idx (by omega), ok_bind, hsp.idx (by omega), ok_bind, hh.idx (by omega), ok_bind]
    unfold langF
    rw [if_neg (by omega), if_neg (by omega)]
    rfl

theorem l_even_sub (γ dt0 : F) (nl nr : V3 F) (hj : Tab js L j) (hh : Tab hs L h)
    (hsp : Tab spins L sp) (hL : 2 ≤ L) (dt : F) :
    ∃ spins', (LangevinChain.evenOmega γ dt0 js spins hs nl >>= fun om =>
        SpinChain.rotateSub 0 spins om dt) = .ok spins' ∧
      Tab spins' L (subGF (langF γ dt0 (2 * (L / 2)) j h nl nr) (2 * (L / 2)) 0 dt sp) := by
  rw [lEvenOmega_tab γ dt0 nl nr hj hh hsp hL, ok_bind]
  obtain ⟨s', h1, h2⟩ := rotateSub_tab hsp 0 (L / 2) (by omega)
    (fun k => langF γ dt0 (2 * (L / 2)) j h nl nr sp (2 * k)) dt (by omega)
  refine ⟨s', h1, h2.congr fun i hi => ?_⟩
  unfold subGF
  split
  · next hc => simp only [show 2 * (i / 2) = i by omega]
  · rfl

theorem l_odd_sub (γ dt0 : F) (nl nr : V3 F) (hj : Tab js L j) (hh : Tab hs L h)
    (hsp : Tab spins L sp) (hL : 2 ≤ L) (dt : F) :
    ∃ spins', (LangevinChain.oddOmega γ dt0 js spins hs nr >>= fun om =>
        SpinChain.rotateSub 1 spins om dt) = .ok spins' ∧
      Tab spins' L (subGF (langF γ dt0 (2 * (L / 2)) j h nl nr) (2 * (L / 2)) 1 dt sp) := by
  rw [lOddOmega_tab γ dt0 nl nr hj hh hsp hL, ok_bind]
  obtain ⟨s', h1, h2⟩ := rotateSub_tab hsp 1 (L / 2) (by omega)
    (fun k => langF γ dt0 (2 * (L / 2)) j h nl nr sp (2 * k + 1)) dt (by omega)
  refine ⟨s', h1, h2.congr fun i hi => ?_⟩
  unfold subGF
  split
  · next hc => simp only [show 2 * (i / 2) + 1 = i by omega]
  · rfl

end

/-- standard deviation of the noise -/
def lSigma (c : LangevinChain F) : F := fsqrt (2.0 * c.gamma * c.vars.dt / c.vars.beta)

theorem l_update_tab {c : LangevinChain F} {L s : ℕ} (w : WF c.toSpinChain L s) (hL : 2 ≤ L)
    (z : Noise F) {j h : ℕ → V3 F} {sp : ℕ → Spin F}
    (hj : Tab c.j_couple L j) (hh : Tab c.static_h L h) (hsp : Tab c.spins L sp) {e : V3 F}
    (he : c.h_ext (c.t + c.vars.dt) = .ok e) (hf : fisFinite (lSigma c) = true) :
    ∃ spins', c.update z = .ok { c with
                                 spins := spins'
                                 t := c.t + c.vars.dt } ∧
      Tab spins' L (stepGF (langF c.gamma c.vars.dt (2 * (L / 2)) j (fieldF s h e)
        (LangevinChain.sample3 (lSigma c) z.l) (LangevinChain.sample3 (lSigma c) z.r))
        (2 * (L / 2)) c.vars.dt sp) := by
  have hh' := updateField_tab hh s e
  obtain ⟨s1, h1, t1⟩ := l_even_sub c.gamma c.vars.dt (LangevinChain.sample3 (lSigma c) z.l)
    (LangevinChain.sample3 (lSigma c) z.r) hj hh' hsp hL (c.vars.dt / 2.0)
  obtain ⟨s2, h2, t2⟩ := l_odd_sub c.gamma c.vars.dt (LangevinChain.sample3 (lSigma c) z.l)
    (LangevinChain.sample3 (lSigma c) z.r) hj hh' t1 hL c.vars.dt
  obtain ⟨s3, h3, t3⟩ := l_even_sub c.gamma c.vars.dt (LangevinChain.sample3 (lSigma c) z.l)
    (LangevinChain.sample3 (lSigma c) z.r) hj hh' t2 hL (c.vars.dt / 2.0)
  refine ⟨s3, ?_, t3⟩
  unfold LangevinChain.update
  rw [he, ok_bind, ssize_natF w]
  unfold SpinChain.normalNew
  unfold lSigma at hf h1 h2 h3
  simp only
  rw [if_pos hf, ok_bind, h1, ok_bind, h2, ok_bind, h3, ok_bind]
  rfl

theorem l_update_frame {c c' : LangevinChain F} {z : Noise F} (h : c.update z = .ok c') :
    c'.j_couple = c.j_couple ∧ c'.static_h = c.static_h ∧ c'.vars = c.vars ∧ c'.file = c.file ∧
      c'.spins.length = c.spins.length ∧ c'.t = c.t + c.vars.dt ∧ c'.gamma = c.gamma := by
  unfold LangevinChain.update at h
  obtain ⟨_, _, h⟩ := bind_eq_ok h
  obtain ⟨_, _, h⟩ := bind_eq_ok h
  obtain ⟨s1, h1, h⟩ := bind_eq_ok h
  obtain ⟨s2, h2, h⟩ := bind_eq_ok h
  obtain ⟨s3, h3, h⟩ := bind_eq_ok h
  cases h
  obtain ⟨_, _, h1⟩ := bind_eq_ok h1
  obtain ⟨_, _, h2⟩ := bind_eq_ok h2
  obtain ⟨_, _, h3⟩ := bind_eq_ok h3
  exact ⟨rfl, rfl, rfl, rfl,
    (rotateSub_length h3).trans ((rotateSub_length h2).trans (rotateSub_length h1)), rfl, rfl⟩

theorem l_update_wf {c c' : LangevinChain F} {L s : ℕ} {z : Noise F} (w : WF c.toSpinChain L s)
    (h : c.update z = .ok c') : WF c'.toSpinChain L s := by
  obtain ⟨h1, h2, h3, h4, h5, h6, _⟩ := l_update_frame h
  exact ⟨by rw [h3, w.hsize], by rw [h3, w.ssize], w.L_lt, w.s_lt, by rw [h5, w.spins],
    by rw [h1, w.j], by rw [h2, w.h], by rw [h3]; exact w.hs⟩

/-- fields and sub-steps do not see couplings beyond the chain of moving sites -/
theorem langF_congr {γ dt : F} {m : ℕ} {j j' h : ℕ → V3 F} {nl nr : V3 F} {sp : ℕ → Spin F}
    (hm : 2 ≤ m) (hj : ∀ i, i + 1 < m → j i = j' i) {i : ℕ} (hi : i < m) :
    langF γ dt m j h nl nr sp i = langF γ dt m j' h nl nr sp i := by
  unfold langF
  by_cases h0 : i = 0
  · rw [if_pos h0, if_pos h0, hj 0 (by omega)]
  · rw [if_neg h0, if_neg h0, hj (i - 1) (by omega)]
    by_cases h1 : i + 1 = m
    · rw [if_pos h1, if_pos h1]
    · rw [if_neg h1, if_neg h1, hj i (by omega)]

theorem subGF_congr {om om' : (ℕ → Spin F) → ℕ → V3 F} {m par : ℕ} {dt : F} {sp : ℕ → Spin F}
    (h : ∀ sp i, i < m → om sp i = om' sp i) : subGF om m par dt sp = subGF om' m par dt sp := by
  funext i
  unfold subGF
  by_cases hc : i < m ∧ i % 2 = par
  · rw [if_pos hc, if_pos hc, h _ _ hc.1]
  · rw [if_neg hc, if_neg hc]

theorem stepGF_congr {om om' : (ℕ → Spin F) → ℕ → V3 F} {m : ℕ} {dt : F} {sp : ℕ → Spin F}
    (h : ∀ sp i, i < m → om sp i = om' sp i) : stepGF om m dt sp = stepGF om' m dt sp := by
  unfold stepGF
  simp only [subGF_congr h]

end anyF

/-! ### the model at ℝ -/

theorem langF_real {γ dt σ : ℝ} {m : ℕ} (hm : 2 ≤ m) (j h : ℕ → V3 ℝ) (z : Noise ℝ)
    (sp : ℕ → Spin ℝ) {i : ℕ} (hi : i < m) :
    langF γ dt m j h (LangevinChain.sample3 σ z.l) (LangevinChain.sample3 σ z.r) sp i
      = langField m γ j h (fun i => smul (σ / dt)
          (if i = 0 then z.l else if i + 1 = m then z.r else zero)) (fun k => (sp k).dir) i := by
  unfold langF langField
  by_cases h0 : i = 0
  · subst h0
    simp only [if_true, true_or]
    ext <;>
    simp only [openOmega, lt_irrefl, if_false, zero_add, show 1 < m by omega, if_true,
      LangevinChain.edgeField, SpinChain.ssh_sum, SpinChain.j_s, LangevinChain.cross,
      LangevinChain.sample3, SpinChain.normalSample, Spec.sub, Spec.add, Spec.cross, smul, had,
      Spec.zero, lit_0] <;> ring
  · rw [if_neg h0]
    by_cases h1 : i + 1 = m
    · rw [if_pos h1, if_pos (Or.inr h1)]
      ext <;>
      simp only [openOmega, show 0 < i by omega, h1, lt_irrefl, if_false, if_true, h0,
        LangevinChain.edgeField, SpinChain.ssh_sum, SpinChain.j_s, LangevinChain.cross,
        LangevinChain.sample3, SpinChain.normalSample, Spec.sub, Spec.add, Spec.cross, smul, had,
        Spec.zero, lit_0] <;> ring
    · rw [if_neg h1, if_neg (by omega)]
      ext <;>
      simp only [openOmega, show 0 < i by omega, show i + 1 < m by omega, if_true,
        SpinChain.ssh_sum, SpinChain.j_s, Spec.sub, Spec.add, had]

theorem subGF_real {om : (ℕ → V3 ℝ) → ℕ → V3 ℝ} {omF : (ℕ → Spin ℝ) → ℕ → V3 ℝ} {m par : ℕ}
    {sp : ℕ → Spin ℝ} (dt : ℝ)
    (ho : ∀ sp : ℕ → Spin ℝ, ∀ i < m, omF sp i = om (fun k => (sp k).dir) i)
    (hu : ∀ i < m, IsUnit3 (sp i))
    (hr : ∀ i < m, i % 2 = par → om (fun k => (sp k).dir) i ≠ zero) :
    (fun i => (subGF omF m par dt sp i).dir) = subStepG om m par dt (fun k => (sp k).dir) ∧
      ∀ i < m, IsUnit3 (subGF omF m par dt sp i) := by
  constructor
  · funext i
    unfold subGF subStepG
    by_cases hc : i < m ∧ i % 2 = par
    · rw [if_pos hc, if_pos hc, ho _ _ hc.1, rotate_precess (hu i hc.1) (hr i hc.1 hc.2)]
    · rw [if_neg hc, if_neg hc]
  · intro i hi
    unfold subGF
    by_cases hc : i < m ∧ i % 2 = par
    · rw [if_pos hc, ho _ _ hi]
      exact rotate_unit (unit_ne_zero (hu i hi)) (hr i hi hc.2) dt
    · rw [if_neg hc]; exact hu i hi

theorem stepGF_real {om : (ℕ → V3 ℝ) → ℕ → V3 ℝ} {omF : (ℕ → Spin ℝ) → ℕ → V3 ℝ} {m : ℕ}
    {sp : ℕ → Spin ℝ} {dt : ℝ}
    (ho : ∀ sp : ℕ → Spin ℝ, ∀ i < m, omF sp i = om (fun k => (sp k).dir) i)
    (hu : ∀ i < m, IsUnit3 (sp i)) (hr : RegularG om m dt (fun k => (sp k).dir)) :
    (fun i => (stepGF omF m dt sp i).dir) = stepG om m dt (fun k => (sp k).dir) ∧
      ∀ i < m, IsUnit3 (stepGF omF m dt sp i) := by
  unfold stepGF stepG
  rw [lit_2]
  obtain ⟨r1, r2, r3⟩ := hr
  obtain ⟨e1, u1⟩ := subGF_real (dt / 2) ho hu r1
  rw [← e1] at r2 r3
  obtain ⟨e2, u2⟩ := subGF_real dt ho u1 r2
  rw [← e2] at r3
  obtain ⟨e3, u3⟩ := subGF_real (dt / 2) ho u2 r3
  refine ⟨?_, u3⟩
  rw [e3, e2, e1]

section
variable {c : LangevinChain ℝ} {L s : ℕ} {z : Noise ℝ}

theorem lSigma_real : lSigma c = Real.sqrt (2 * c.gamma * c.vars.dt / c.vars.beta) := by
  unfold lSigma; rw [fsqrt_real, lit_2]

/-- `update` implements the specified step -/
theorem l_update_spec (w : WF c.toSpinChain L s) (hL : 2 ≤ L) (hu : ∀ x ∈ c.spins, IsUnit3 x)
    (hr : RegularStepL c L s z) :
    ∃ c', c.update z = .ok c' ∧ (∀ x ∈ c'.spins, IsUnit3 x) ∧
      S c'.toSpinChain = stepG (langOm c L s z) (2 * (L / 2)) c.vars.dt (S c.toSpinChain) := by
  obtain ⟨s', h1, t1⟩ := l_update_tab w hL z (tab_J w) (tab_H0 w) (tab_S w)
    (h_ext_eq w (c.t + c.vars.dt)) (by rfl)
  rw [fieldF_real] at t1
  have ho : ∀ sp : ℕ → Spin ℝ, ∀ i < 2 * (L / 2),
      langF c.gamma c.vars.dt (2 * (L / 2)) (J c.toSpinChain)
        (B c.toSpinChain s (c.t + c.vars.dt)) (LangevinChain.sample3 (lSigma c) z.l)
        (LangevinChain.sample3 (lSigma c) z.r) sp i
        = langOm c L s z (fun k => (sp k).dir) i := by
    intro sp i hi
    rw [langF_real (by omega) _ _ z sp hi, lSigma_real]
    rfl
  obtain ⟨e, u⟩ := stepGF_real (m := 2 * (L / 2)) (sp := fun i => ⟨S c.toSpinChain i⟩) ho
    (fun i hi => unit_of w hu (by omega)) hr
  refine ⟨_, h1, ?_, ?_⟩
  · intro x hx
    obtain ⟨i, hi, rfl⟩ := t1.mem.1 hx
    by_cases him : i < 2 * (L / 2)
    · exact u i him
    · unfold stepGF subGF
      simp only [him, false_and, if_false]
      exact unit_of w hu hi
  · funext i
    by_cases hi : i < L
    · rw [S_of_tab (c' := { c.toSpinChain with
                            spins := s'
                            t := c.t + c.vars.dt }) t1 hi]
      exact congrFun e i
    · rw [S_out (l_update_wf w h1) (by omega)]
      unfold stepG subStepG
      simp only [show ¬ i < 2 * (L / 2) by omega, false_and, if_false]
      rw [S_out w (by omega)]

theorem l_updates_unit {zs : List (Noise ℝ)} (w : WF c.toSpinChain L s) (hL : 2 ≤ L)
    (hu : ∀ x ∈ c.spins, IsUnit3 x) (hr : RegularRunL L s zs c) :
    ∃ c', c.updates zs = .ok c' ∧ WF c'.toSpinChain L s ∧ ∀ x ∈ c'.spins, IsUnit3 x := by
  induction zs generalizing c with
  | nil => exact ⟨c, rfl, w, hu⟩
  | cons z zs ih =>
    obtain ⟨c1, h1, u1, _⟩ := l_update_spec w hL hu hr.1
    obtain ⟨c2, h2, w2, u2⟩ := ih (l_update_wf w h1) u1 (hr.2 c1 h1)
    exact ⟨c2, by unfold LangevinChain.updates; rw [h1, ok_bind, h2], w2, u2⟩

end

end Verif
