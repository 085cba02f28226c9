/-
Lemmas for C130: samplers that differ from `metropolis_update` in the static field only.
-/
import Verif.Props.HeatCap
import Verif.Spec.Frames

set_option linter.unusedSectionVars false

namespace Verif.Frames

open Spec Props
open MeasureTheory
open scoped ENNReal

variable {c c' : SpinChain ℝ} {L s : ℕ} {h : ℕ → V3 ℝ}

/-- Two chains which differ in the static fields (and in entries of the configuration that a Metropolis update does not read); those
of the second are `h`. -/
structure Twin (c c' : SpinChain ℝ) (L s : ℕ) (h : ℕ → V3 ℝ) : Prop where
  w : WF c L s
  w' : WF c' L s
  spins : c'.spins = c.spins
  j : c'.j_couple = c.j_couple
  beta : c'.vars.beta = c.vars.beta
  field : ∀ i < L, H0 c' i = h i

/-- An update that does to the spins of `c` what `metropolis_update` does to those of `c'`. -/
def Same (upd : SpinChain ℝ → Draw ℝ → R (SpinChain ℝ)) (L : ℕ) (c c' : SpinChain ℝ) : Prop :=
  ∀ d, ∃ sp : List (Spin ℝ), sp.length = L ∧ upd c d = .ok { c with spins := sp } ∧
    c'.metropolis_update d = .ok { c' with spins := sp }

theorem finish_twin (t : Twin c c' L s h) {i : ℕ} (hi : i < L) (p : Spin ℝ) (de u : ℝ) :
    ∃ sp : List (Spin ℝ), sp.length = L ∧ c.finish i p de u = .ok { c with spins := sp } ∧
      c'.finish i p de u = .ok { c' with spins := sp } := by
  unfold SpinChain.finish
  rw [t.beta]
  by_cases a : SpinChain.accept c.vars.beta de u = true
  · refine ⟨c.spins.set i p, by simp [t.w.spins], ?_, ?_⟩
    · simp [a, setIdx, t.w.spins, hi, bind, Except.bind, pure, Except.pure]
    · simp [a, setIdx, t.spins, t.w.spins, hi, bind, Except.bind, pure, Except.pure]
  · refine ⟨c.spins, t.w.spins, ?_, ?_⟩
    · simp [a, pure, Except.pure]
    · simp [a, ← t.spins, pure, Except.pure]

theorem S_twin (t : Twin c c' L s h) : S c' = S c := by
  unfold S
  rw [t.spins]

theorem J_twin (t : Twin c c' L s h) : J c' = J c := by
  unfold J
  rw [t.j]

theorem plain_twin (t : Twin c c' L s h) (hL : 1 ≤ L) (d : Draw ℝ) : c'.metropolis_update d
    = c'.finish (d.site % L) (SpinChain.proposal d.u1 d.u2) (SpinChain.metroDe ⟨⟨S c (left L (d.site % L))⟩, ⟨S c (d.site % L)⟩,
      ⟨S c (right L (d.site % L))⟩, J c (left L (d.site % L)), J c (d.site % L), h (d.site % L)⟩ (SpinChain.proposal d.u1 d.u2)) d.u3 := by
  have hi : d.site % L < L := Nat.mod_lt _ (by omega)
  unfold SpinChain.metropolis_update
  simp only [hsize_nat t.w', genRange_ok hL, ok_bind, nbhd1_eq t.w' hi, S_twin t, J_twin t, t.field _ hi]

theorem lab_same (t : Twin c c' L s fun _ => labField c.vars.tau) (hL : 1 ≤ L) : Same SpinChain.metropolis_update_maglab L c c' := by
  intro d
  have hi : d.site % L < L := Nat.mod_lt _ (by omega)
  rw [plain_twin t hL]
  unfold SpinChain.metropolis_update_maglab
  simp only [hsize_nat t.w, genRange_ok hL, ok_bind, nbhd1_eq t.w hi]
  have e : ∀ (n : Nbhd1 ℝ) p, SpinChain.maglabDe c.om n p = SpinChain.metroDe { n with h := labField c.vars.tau } p := fun n p => by
    simp only [SpinChain.maglabDe, SpinChain.metroDe, for3, V3.get_zero, V3.get_one, V3.get_two, lit_0, lit_2, om_real, labField]
    have : ∀ x : ℝ, x / (2 * (2 * Real.pi / c.vars.tau)) = x * (c.vars.tau / (4 * Real.pi)) := fun x => by
      rw [show (2 : ℝ) * (2 * Real.pi / c.vars.tau) = (4 * Real.pi) / c.vars.tau by ring, div_div_eq_mul_div]
      ring
    rw [this, this]
    ring
  rw [e]
  exact finish_twin t hi _ _ _

theorem langevin_full (gamma : ℝ) (t : Twin c c' L s fun _ => zero) (hL : 1 ≤ L) (d : Draw ℝ) : ∃ sp : List (Spin ℝ), sp.length = L ∧
    LangevinChain.metropolis_update ⟨c, gamma⟩ d = .ok ⟨{ c with spins := sp }, gamma⟩ ∧ c'.metropolis_update d = .ok { c' with spins := sp } := by
  have hi : d.site % L < L := Nat.mod_lt _ (by omega)
  rw [plain_twin t hL]
  have hl := left_lt (m := L) (i := d.site % L) (by omega)
  have hr := right_lt' (m := L) (i := d.site % L) (by omega)
  unfold LangevinChain.metropolis_update
  simp only [hsize_nat t.w, genRange_ok hL, ok_bind, leftIdx_ok hi, rightIdx_ok hi, idx_spins t.w hi, idx_spins t.w hl,
    idx_spins t.w hr, idx_j t.w hi, idx_j t.w hl, lit_0]
  obtain ⟨sp, h1, h2, h3⟩ := finish_twin t hi (SpinChain.proposal d.u1 d.u2) (SpinChain.metroDe ⟨⟨S c (left L (d.site % L))⟩,
    ⟨S c (d.site % L)⟩, ⟨S c (right L (d.site % L))⟩, J c (left L (d.site % L)), J c (d.site % L), zero⟩ (SpinChain.proposal d.u1 d.u2)) d.u3
  refine ⟨sp, h1, ?_, h3⟩
  rw [show (⟨0, 0, 0⟩ : V3 ℝ) = zero from rfl, h2]
  rfl

theorem langevin_same (gamma : ℝ) (t : Twin c c' L s fun _ => zero) (hL : 1 ≤ L) : Same (langevinUpd gamma) L c c' := by
  intro d
  obtain ⟨sp, h1, h2, h3⟩ := langevin_full gamma t hL d
  refine ⟨sp, h1, ?_, h3⟩
  unfold langevinUpd
  rw [h2]
  rfl

theorem rot_same (t : Twin c c' L s (rotField s c.vars.tau)) (hL : 2 ≤ L) (hiso : ∀ i < L, (J c i).x = (J c i).y) :
    Same SpinChain.metropolis_update_rot_magnus L c c' := by
  intro d
  have hi : d.site % L < L := Nat.mod_lt _ (by omega)
  have hl := left_lt (m := L) (i := d.site % L) (by omega)
  have hr := right_lt' (m := L) (i := d.site % L) (by omega)
  have hll := left_lt (m := L) (i := left L (d.site % L)) (by omega)
  rw [plain_twin t (by omega)]
  unfold SpinChain.metropolis_update_rot_magnus
  simp only [hsize_nat t.w, ssize_nat t.w, genRange_ok (by omega : 1 ≤ L), ok_bind, nbhd_eq t.w (by omega) hi, idx_h t.w hi]
  have e : ∀ p, SpinChain.rotDe c.om (nb L (S c) (J c) (d.site % L)) (decide (d.site % L < s)) p
      = SpinChain.metroDe ⟨⟨S c (left L (d.site % L))⟩, ⟨S c (d.site % L)⟩,
      ⟨S c (right L (d.site % L))⟩, J c (left L (d.site % L)), J c (d.site % L), rotField s c.vars.tau (d.site % L)⟩ p := fun p => by
    simp only [SpinChain.rotDe, SpinChain.rotEnergy, SpinChain.mgAcc, SpinChain.zxi_trip, SpinChain.metroDe, for3, for2, V3.get_zero,
      V3.get_one, V3.get_two, lit_0, lit_1, om_real, rotField, nb, hiso _ hi, hiso _ hl, hiso _ hr, hiso _ hll, sub_self, zero_mul,
      mul_zero, add_zero, zero_div, decide_eq_true_eq]
    norm_num
    ring
  rw [e]
  exact finish_twin t hi _ _ _

/-! ### Chains of the program -/

/-- The configuration with the fields `a` everywhere and `a + g` on the subsystem, without disorder of the fields. -/
noncomputable def frameConf (conf : Config ℝ) (a g : V3 ℝ) : Config ℝ :=
  { conf with
    hvar := 0
    hfield := [a.x, a.y, a.z]
    hs := [g.x, g.y, g.z] }

/-- The field those configurations describe. -/
noncomputable def frameField (s : ℕ) (a g : V3 ℝ) (i : ℕ) : V3 ℝ := if i < s then ⟨a.x + g.x, a.y + g.y, a.z + g.z⟩ else a

theorem frame_valid {conf : Config ℝ} (v : ValidConf conf L s) (a g : V3 ℝ) : ValidConf (frameConf conf a g) L s :=
  ⟨v.hsize, v.ssize, v.L_two, v.L_lt, v.s_lt, by simp [frameConf], by simp [frameConf], v.jvar, rfl⟩

theorem ofFn_spins {l : List (Spin ℝ)} (hl : l.length = L) : ∃ v : Fin L → V3 ℝ, l = List.ofFn fun i => (⟨v i⟩ : Spin ℝ) := by
  subst hl
  exact ⟨fun i => (l.get i).dir, (List.ofFn_get l).symm⟩

/-- The new chains of a configuration and of its frame configuration. -/
theorem frame_new {conf : Config ℝ} (v : ValidConf conf L s) (a g : V3 ℝ) {num : ℕ} {u0 zj zh : ℕ → ℝ}
    (hc : SpinChain.new conf num u0 zj zh = .ok c) :
    ∃ c', SpinChain.new (frameConf conf a g) num u0 zj zh = .ok c' ∧ c.vars = conf ∧ c'.vars = frameConf conf a g ∧
      (∀ b, ∀ q : Fin L → V3 ℝ, Twin (withSpins (atBeta c b) q) (withSpins (atBeta c' b) q) L s (frameField s a g)) ∧
      (∀ i, J c' i = J c i) ∧ (∀ i < L, H0 c' i = frameField s a g i) ∧
      ∀ u, ∃ q : Fin L → V3 ℝ, SpinChain.new conf num u zj zh = .ok (withSpins c q) ∧
        SpinChain.new (frameConf conf a g) num u zj zh = .ok (withSpins c' q) := by
  obtain ⟨f0, f1, f2, fr, hf⟩ := three_le v.hfield
  obtain ⟨h0, h1, h2, hr, hh⟩ := three_le v.hs
  have v' := frame_valid v a g
  have e : ∀ u {sp : List (Spin ℝ)}, SpinChain.newSpins conf.beta u L = .ok sp → _ := fun u sp hsp =>
    new_eq v.hsize v.L_lt hf hh v.jvar v.hvar num u zj zh hsp
  have e' : ∀ u {sp : List (Spin ℝ)}, SpinChain.newSpins conf.beta u L = .ok sp → _ := fun u sp hsp =>
    new_eq (conf := frameConf conf a g) v'.hsize v'.L_lt rfl rfl v'.jvar v'.hvar num u zj zh hsp
  obtain ⟨sp, hsp, hl⟩ := newSpins_ok conf.beta u0 L
  obtain ⟨c1, hc1, w⟩ := C11_new_wf' conf num u0 zj zh L s v.hsize v.L_lt v.ssize v.s_lt v.hfield v.hs v.jvar v.hvar
  obtain ⟨c2, hc2, w'⟩ := C11_new_wf' (frameConf conf a g) num u0 zj zh L s v'.hsize v'.L_lt v'.ssize v'.s_lt v'.hfield v'.hs v'.jvar v'.hvar
  have q1 := hc.symm.trans (e u0 hsp)
  have q2 := hc2.symm.trans (e' u0 hsp)
  rw [hc] at hc1
  cases hc1
  refine ⟨c2, hc2, ?_, ?_, ?_, ?_, ?_, ?_⟩
  · cases q1
    rfl
  · cases q2
    rfl
  all_goals
    have hJ : c2.j_couple = c.j_couple := by
      cases q1
      cases q2
      rfl
    have hb : ∀ i < L, H0 c2 i = frameField s a g i := fun i hi => by
      cases q2
      have : ((i : ℤ) < conf.ssize) ↔ i < s := by rw [v.ssize]; exact Nat.cast_lt
      simp only [H0, List.getElem?_map, List.getElem?_range hi, Option.map_some, Option.getD_some, fieldN, frameField,
        frameConf, this, lit_0, zero_mul, add_zero]
  · intro b q
    exact ⟨withSpins_wf (at_wf w b) q, withSpins_wf (at_wf w' b) q, rfl, hJ, rfl, hb⟩
  · intro i
    unfold J
    rw [hJ]
  · exact hb
  · intro u
    obtain ⟨sp', hsp', hl'⟩ := newSpins_ok conf.beta u L
    obtain ⟨q, hq⟩ := ofFn_spins hl'
    refine ⟨q, ?_, ?_⟩
    · rw [e u hsp']
      cases q1
      simp only [withSpins, hq]
    · rw [e' u hsp']
      cases q2
      simp only [withSpins, hq]

/-! ### Means -/

/-- The spins of `y` in the chain `c0`. -/
def back (c0 y : SpinChain ℝ) : SpinChain ℝ := { c0 with spins := y.spins }

variable {upd : SpinChain ℝ → Draw ℝ → R (SpinChain ℝ)}

theorem step_same (H : ∀ q : Fin L → V3 ℝ, Same upd L (withSpins c q) (withSpins c' q)) (q : Fin L → V3 ℝ) (d : Draw ℝ) :
    ∃ q' : Fin L → V3 ℝ, upd (withSpins c q) d = .ok (withSpins c q') ∧ (withSpins c' q).metropolis_update d = .ok (withSpins c' q') := by
  obtain ⟨sp, h1, h2, h3⟩ := H q d
  obtain ⟨q', rfl⟩ := ofFn_spins h1
  exact ⟨q', h2, h3⟩

theorem expect_frame (H : ∀ q : Fin L → V3 ℝ, Same upd L (withSpins c q) (withSpins c' q)) (f : SpinChain ℝ → ℝ≥0∞) (n : ℕ)
    (q : Fin L → V3 ℝ) : expect upd L f n (withSpins c q)
      = expect (fun c d => c.metropolis_update d) L (fun y => f (back c y)) n (withSpins c' q) := by
  induction n generalizing q with
  | zero => rfl
  | succ n ih =>
    unfold expect
    congr 1
    refine Finset.sum_congr rfl fun i _ => ?_
    refine lintegral_congr fun u1 => lintegral_congr fun u2 => lintegral_congr fun u3 => ?_
    obtain ⟨q', h1, h2⟩ := step_same H q ⟨i, u1, u2, u3⟩
    simp only [h1, h2]
    exact ih q'

theorem expectReal_frame (H : ∀ q : Fin L → V3 ℝ, Same upd L (withSpins c q) (withSpins c' q)) (f : SpinChain ℝ → ℝ) (n : ℕ)
    (q : Fin L → V3 ℝ) : expectReal upd L f n (withSpins c q)
      = expectReal (fun c d => c.metropolis_update d) L (fun y => f (back c y)) n (withSpins c' q) := by
  unfold expectReal
  rw [expect_frame H, expect_frame H]

theorem mean_frame {E : SpinChain ℝ → ℝ} (hb : c'.vars.beta = c.vars.beta)
    (hE : ∀ q : Fin L → V3 ℝ, E (withSpins c q) = wholeEnergy L (withSpins c' q)) (f f' : SpinChain ℝ → ℝ)
    (hf : ∀ q : Fin L → V3 ℝ, f (withSpins c q) = f' (withSpins c' q)) :
    thermalMean c L E f = thermalMean c' L (wholeEnergy L) f' := by
  unfold thermalMean
  simp only [hE, hb, hf]

theorem bounded_frame {C : ℝ} {f : SpinChain ℝ → ℝ} (hf : BoundedBy c L C f) : BoundedBy c' L C fun y => f (back c y) :=
  ⟨hf.meas, hf.bound⟩

theorem sweeps_same (H : ∀ q : Fin L → V3 ℝ, Same upd L (withSpins c q) (withSpins c' q)) (ds : ℕ → Draw ℝ) (n : ℕ)
    (q : Fin L → V3 ℝ) : ∃ q' : Fin L → V3 ℝ, sweeps upd ds n (withSpins c q) = .ok (withSpins c q') ∧
      sweeps SpinChain.metropolis_update ds n (withSpins c' q) = .ok (withSpins c' q') := by
  unfold sweeps forRange
  induction List.range' 0 (n - 0) generalizing q with
  | nil => exact ⟨q, rfl, rfl⟩
  | cons i l ih =>
    obtain ⟨q', h1, h2⟩ := step_same H q (ds i)
    obtain ⟨q'', h3, h4⟩ := ih q'
    refine ⟨q'', ?_, ?_⟩
    · simp only [List.foldlM_cons, h1, ok_bind]
      exact h3
    · simp only [List.foldlM_cons, h2, ok_bind]
      exact h4

theorem loop_same (H : ∀ q : Fin L → V3 ℝ, Same upd L (withSpins c q) (withSpins c' q)) {obs obs' : SpinChain ℝ → R ℝ}
    (ho : ∀ q : Fin L → V3 ℝ, obs (withSpins c q) = obs' (withSpins c' q)) (ds : ℕ → ℕ → Draw ℝ) (per n : ℕ) (q : Fin L → V3 ℝ) :
    (sampleLoop upd per n obs ds (withSpins c q)).map Prod.snd
      = (sampleLoop SpinChain.metropolis_update per n obs' ds (withSpins c' q)).map Prod.snd := by
  unfold sampleLoop forRange
  have key : ∀ (l : List ℕ) (q : Fin L → V3 ℝ) (acc : List ℝ),
      (List.foldlM (fun (st : SpinChain ℝ × List ℝ) i => do
        let c ← sweeps upd (ds i) per st.1
        let e ← obs c
        return (c, st.2 ++ [e])) (withSpins c q, acc) l).map Prod.snd
      = (List.foldlM (fun (st : SpinChain ℝ × List ℝ) i => do
        let c ← sweeps SpinChain.metropolis_update (ds i) per st.1
        let e ← obs' c
        return (c, st.2 ++ [e])) (withSpins c' q, acc) l).map Prod.snd := by
    intro l
    induction l with
    | nil => exact fun _ _ => rfl
    | cons i l ih =>
      intro q acc
      obtain ⟨q', h1, h2⟩ := sweeps_same H (ds i) per q
      rw [List.foldlM_cons, List.foldlM_cons]
      simp only [h1, h2, ok_bind]
      rw [ho q']
      rcases obs' (withSpins c' q') with p | e
      · rfl
      · exact ih q' _
  exact key _ q []

theorem estimate_frame {conf conf' : Config ℝ} {b : ℝ} {r : Rand ℝ} {q : Fin L → V3 ℝ} (per n : ℕ)
    (h1 : SpinChain.new conf 0 r.u r.zj r.zh = .ok (withSpins c q)) (h2 : SpinChain.new conf' 0 r.u r.zj r.zh = .ok (withSpins c' q))
    (H : ∀ q : Fin L → V3 ℝ, Same upd L (withSpins (atBeta c b) q) (withSpins (atBeta c' b) q)) {obs obs' : SpinChain ℝ → R ℝ}
    (ho : ∀ q : Fin L → V3 ℝ, obs (withSpins (atBeta c b) q) = obs' (withSpins (atBeta c' b) q)) :
    estimate upd per n obs conf b r = estimate SpinChain.metropolis_update per n obs' conf' b r := by
  unfold estimate
  rw [h1, h2, ok_bind, ok_bind]
  have := loop_same H ho r.ds per n q
  change (sampleLoop upd per n obs r.ds (withSpins (atBeta c b) q) >>= _)
    = (sampleLoop SpinChain.metropolis_update per n obs' r.ds (withSpins (atBeta c' b) q) >>= _)
  revert this
  rcases sampleLoop upd per n obs r.ds (withSpins (atBeta c b) q) with p | x <;>
    rcases sampleLoop SpinChain.metropolis_update per n obs' r.ds (withSpins (atBeta c' b) q) with p' | x' <;> intro this
  · cases this
    rfl
  · cases this
  · cases this
  · have e : x.2 = x'.2 := by injection this
    show Except.ok _ = Except.ok _
    rw [e]

end Verif.Frames
