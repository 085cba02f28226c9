/-
Helper lemmas: a run of a chain with finite numbers stays finite exactly as long as no local field
vanishes, and then agrees with exact arithmetic.
-/
import Verif.Lemmas.Exact
import Verif.Lemmas.Langevin
import Verif.Props.NaN
import Verif.Props.Spin

namespace Verif

open Spec Props

/-- every spin is NaN in all components or none of the moving ones is -/
abbrev LostX (v : V3 XF) : Prop := Lost XF.nan v

theorem rotate_lost {sp : Spin XF} (h : LostX sp.dir) (f : V3 XF) (dt : XF) :
    LostX (sp.rotate f dt).dir := C64_rotate xf_absorbing _ _ _ (.inl h.sick)

theorem rep_zero_rotate {f : V3 XF} (hf : Rep3 f zero) (sp : Spin XF) (dt : XF) :
    LostX (sp.rotate f dt).dir := by
  have key : ∀ {x : XF}, x.Rep 0 → x.IsZero := by
    rintro x (h | ⟨h, _⟩)
    · exact .inl h
    · exact .inr h
  rw [C04_zero_field_nan sp f dt (key hf.1) (key hf.2.1) (key hf.2.2)]
  exact ⟨rfl, rfl, rfl⟩

section sub

variable {omX : (ℕ → Spin XF) → ℕ → V3 XF} {om : (ℕ → V3 ℝ) → ℕ → V3 ℝ} {m par : ℕ} {dt : XF}
  {dt' : ℝ} {sp : ℕ → Spin XF} {S : ℕ → V3 ℝ}

/-- fields computed from related spins are related -/
def RepOm (omX : (ℕ → Spin XF) → ℕ → V3 XF) (om : (ℕ → V3 ℝ) → ℕ → V3 ℝ) (m : ℕ) : Prop :=
  ∀ (sp : ℕ → Spin XF) (S : ℕ → V3 ℝ), (∀ i < m, Rep3 (sp i).dir (S i)) →
    ∀ i < m, Rep3 (omX sp i) (om S i)

theorem subGF_rep (hO : RepOm omX om m) (hdt : dt.Rep dt')
    (hs : ∀ i < m, Rep3 (sp i).dir (S i)) (hu : ∀ i < m, len (S i) = 1)
    (hr : ∀ i < m, i % 2 = par → om S i ≠ zero) :
    (∀ i < m, Rep3 (subGF omX m par dt sp i).dir (subStepG om m par dt' S i)) ∧
      ∀ i < m, len (subStepG om m par dt' S i) = 1 := by
  constructor
  · intro i hi
    unfold subGF subStepG
    by_cases hc : i < m ∧ i % 2 = par
    · rw [if_pos hc, if_pos hc]
      have hu' : IsUnit3 (⟨S i⟩ : Spin ℝ) := hu i hi
      have h0 := hr i hi hc.2
      have := rep_rotate (hs i hi) (hO sp S hs i hi) hdt (unit_ne_zero hu') h0
      rwa [rotate_precess hu' h0] at this
    · rw [if_neg hc, if_neg hc]
      exact hs i hi
  · intro i hi
    unfold subStepG
    by_cases hc : i < m ∧ i % 2 = par
    · rw [if_pos hc, len_precess]; exact hu i hi
    · rw [if_neg hc]; exact hu i hi

theorem subGF_fail (hO : RepOm omX om m) (hs : ∀ i < m, Rep3 (sp i).dir (S i)) {i : ℕ} (hi : i < m)
    (hp : i % 2 = par) (h0 : om S i = zero) : LostX (subGF omX m par dt sp i).dir := by
  unfold subGF
  rw [if_pos ⟨hi, hp⟩]
  have := hO sp S hs i hi
  rw [h0] at this
  exact rep_zero_rotate this _ _

theorem subGF_lost {i : ℕ} (h : LostX (sp i).dir) : LostX (subGF omX m par dt sp i).dir := by
  unfold subGF
  split
  · exact rotate_lost h _ _
  · exact h

theorem stepGF_lost {i : ℕ} (h : LostX (sp i).dir) : LostX (stepGF omX m dt sp i).dir :=
  subGF_lost (subGF_lost (subGF_lost h))

theorem stepGF_rep (hO : RepOm omX om m) (hdt : dt.Rep dt')
    (hs : ∀ i < m, Rep3 (sp i).dir (S i)) (hu : ∀ i < m, len (S i) = 1)
    (hr : RegularG om m dt' S) :
    ∀ i < m, Rep3 (stepGF omX m dt sp i).dir (stepG om m dt' S i) := by
  have hdt2 : (dt / 2.0).Rep (dt' / 2) := by
    have := hdt.div (rep_lit 20 true 1) (by norm_num)
    rwa [lit_2] at this
  obtain ⟨r1, r2, r3⟩ := hr
  obtain ⟨a1, u1⟩ := subGF_rep hO hdt2 hs hu r1
  obtain ⟨a2, u2⟩ := subGF_rep hO hdt a1 u1 r2
  exact (subGF_rep hO hdt2 a2 u2 r3).1

theorem stepGF_fail (hO : RepOm omX om m) (hdt : dt.Rep dt')
    (hs : ∀ i < m, Rep3 (sp i).dir (S i)) (hu : ∀ i < m, len (S i) = 1)
    (hr : ¬RegularG om m dt' S) : ∃ i < m, LostX (stepGF omX m dt sp i).dir := by
  have hdt2 : (dt / 2.0).Rep (dt' / 2) := by
    have := hdt.div (rep_lit 20 true 1) (by norm_num)
    rwa [lit_2] at this
  by_cases r1 : ∀ i < m, i % 2 = 0 → om S i ≠ zero
  · obtain ⟨a1, u1⟩ := subGF_rep hO hdt2 hs hu r1
    by_cases r2 : ∀ i < m, i % 2 = 1 → om (subStepG om m 0 (dt' / 2) S) i ≠ zero
    · obtain ⟨a2, u2⟩ := subGF_rep hO hdt a1 u1 r2
      have r3 : ¬∀ i < m, i % 2 = 0 →
          om (subStepG om m 1 dt' (subStepG om m 0 (dt' / 2) S)) i ≠ zero :=
        fun r3 => hr ⟨r1, r2, r3⟩
      push Not at r3
      obtain ⟨i, hi, hp, h0⟩ := r3
      exact ⟨i, hi, subGF_fail hO a2 hi hp h0⟩
    · push Not at r2
      obtain ⟨i, hi, hp, h0⟩ := r2
      exact ⟨i, hi, subGF_lost (subGF_fail hO a1 hi hp h0)⟩
  · push Not at r1
    obtain ⟨i, hi, hp, h0⟩ := r1
    exact ⟨i, hi, subGF_lost (subGF_lost (subGF_fail hO hs hi hp h0))⟩

end sub

/-! ### the ring -/

theorem forall₂_tab {α β : Type} {r : α → β → Prop} {xs : List α} {ys : List β} {n : ℕ}
    {f : ℕ → α} {g : ℕ → β} (hx : Tab xs n f) (hy : Tab ys n g) :
    List.Forall₂ r xs ys ↔ ∀ i < n, r (f i) (g i) := by
  constructor
  · intro h i hi
    rcases forall₂_getElem? h i with ⟨a, b, h1, h2, h3⟩ | ⟨h1, _⟩
    · rw [hx.getElem? hi] at h1
      rw [hy.getElem? hi] at h2
      cases h1; cases h2
      exact h3
    · rw [hx.getElem? hi] at h1
      cases h1
  · intro h
    rw [hx, hy]
    exact List.forall₂_map_left_iff.2 (List.forall₂_map_right_iff.2
      (List.forall₂_same.2 fun i hi => h i (List.mem_range.1 hi)))

theorem Spec.RepChain.wf {c : SpinChain XF} {d : SpinChain ℝ} {L s : ℕ} (h : RepChain c d)
    (w : WF d L s) : WF c L s :=
  ⟨by rw [h.vars.hsize, w.hsize], by rw [h.vars.ssize, w.ssize], w.L_lt, w.s_lt,
    by rw [h.spins.length_eq, w.spins], by rw [h.j.length_eq, w.j], by rw [h.h.length_eq, w.h],
    by rw [h.vars.hs.length_eq]; exact w.hs⟩

theorem repR_ok {α β : Type} {r : α → β → Prop} {x : R α} {y : R β} (h : RepR r x y) {b : β}
    (hb : y = .ok b) : ∃ a, x = .ok a ∧ r a b := by
  cases h with
  | ok h => cases hb; exact ⟨_, rfl, h⟩
  | error e => cases hb

section ring

variable {c : SpinChain XF} {d : SpinChain ℝ} {L s : ℕ}

theorem omF_rep {m : ℕ} (hm : 1 ≤ m) {j h : ℕ → V3 XF} {j' h' : ℕ → V3 ℝ}
    (hj : ∀ i < m, Rep3 (j i) (j' i)) (hh : ∀ i < m, Rep3 (h i) (h' i)) :
    RepOm (omF m j h) (fun S => omega m S j' h') m := by
  intro sp S hs i hi
  have h1 : (i + m - 1) % m < m := Nat.mod_lt _ hm
  have h2 : (i + 1) % m < m := Nat.mod_lt _ hm
  exact SpinChain.rep_ssh_sum (r := SpinChain.j_s (j i) (sp ((i + 1) % m)))
    (l' := had _ _) (r' := had _ _) (SpinChain.rep_j_s (s' := ⟨S _⟩) (hj _ h1) (hs _ h1))
    (SpinChain.rep_j_s (s' := ⟨S _⟩) (hj i hi) (hs _ h2)) (hh i hi)

theorem fieldF_rep {h : ℕ → V3 XF} {h' : ℕ → V3 ℝ} {e : V3 XF} {e' : V3 ℝ} {L : ℕ}
    (hh : ∀ i < L, Rep3 (h i) (h' i)) (he : Rep3 e e') (s : ℕ) :
    ∀ i < L, Rep3 (fieldF s h e i) (fieldF s h' e' i) := by
  intro i hi
  unfold fieldF
  split
  · exact SpinChain.rep_sum_vec (hh i hi) he
  · exact hh i hi

theorem update_exact (h : RepChain c d) (hd : DriveOK d.vars) (w : WF d L s) (hL : 2 ≤ L)
    (hu : ∀ x ∈ d.spins, IsUnit3 x) {c' : SpinChain XF} (hc : c.update = .ok c') :
    (RegularStep d L s → ∃ d', d.update = .ok d' ∧ RepChain c' d') ∧
      (¬RegularStep d L s → ∃ i < 2 * (L / 2), LostAt XF.nan c' i) := by
  have wc := h.wf w
  obtain ⟨j, hh, sp, tj, th, tsp⟩ := wf_tabs wc (by omega)
  have hj := (forall₂_tab tj (tab_J w)).1 h.j
  have hh' := (forall₂_tab th (tab_H0 w)).1 h.h
  have hs' := (forall₂_tab tsp (tab_S w)).1 h.spins
  have hdt2 : (c.t + c.vars.dt / 2.0).Rep (d.t + d.vars.dt / 2.0) :=
    h.t.add (h.vars.dt.div (rep_lit _ _ _) (by norm_num))
  obtain ⟨e, he, hee⟩ := repR_ok (SpinChain.rep_h_ext h hd hdt2) (h_ext_eq w _)
  obtain ⟨s1, g1, g2⟩ := update_tab wc hL tj th tsp he
  rw [hc] at g1
  cases g1
  have hB := fieldF_rep hh' hee s
  rw [fieldF_real, lit_2] at hB
  have hO := omF_rep (m := 2 * (L / 2)) (by omega) (fun i hi => hj i (by omega))
    fun i hi => hB i (by omega)
  have hsm : ∀ i < 2 * (L / 2), Rep3 (sp i).dir (S d i) := fun i hi => hs' i (by omega)
  have hum : ∀ i < 2 * (L / 2), len (S d i) = 1 := fun i hi => unit_S w hu (by omega)
  constructor
  · intro hr
    obtain ⟨d', k1, k2, k3⟩ := update_spec w hL hu hr
    refine ⟨d', k1, ?_⟩
    have hstep := stepGF_rep hO h.vars.dt hsm hum hr
    obtain ⟨f1, f2, f3, f4, f5, f6⟩ := update_frame k1
    refine ⟨by rw [f1]; exact h.j, by rw [f2]; exact h.h, ?_, by rw [f6]; exact h.t.add h.vars.dt,
      by rw [f3]; exact h.vars, by rw [f4]; exact h.file⟩
    refine (forall₂_tab g2 (tab_S (update_wf w k1))).2 fun i hi => ?_
    by_cases him : i < 2 * (L / 2)
    · rw [k3]
      exact hstep i him
    · have e1 : stepF (2 * (L / 2)) j (fieldF s hh e) c.vars.dt sp i = sp i := by
        unfold stepF subF
        simp only [him, false_and, if_false]
      have e2 : S d' i = S d i := by
        rw [k3]
        unfold step subStep
        simp only [him, false_and, if_false]
      rw [e1, e2]
      exact hs' i hi
  · intro hr
    obtain ⟨i, hi, hl⟩ := stepGF_fail hO h.vars.dt hsm hum hr
    exact ⟨i, hi, _, g2.getElem? (by omega), hl⟩

theorem lost_updates (w : WF c L s) (hL : 2 ≤ L) {n : ℕ} {c' : SpinChain XF}
    (h : c.updates n = .ok c') {i : ℕ} (hi : i < 2 * (L / 2)) (hl : LostAt XF.nan c i) :
    LostAt XF.nan c' i := by
  rcases Nat.eq_zero_or_pos n with rfl | hn
  · cases h; exact hl
  · have := (C64_spreads xf_absorbing w hL hi hl.sick n hn h 0 (by omega)).1
    rwa [Nat.add_zero, Nat.mod_eq_of_lt hi] at this

theorem updates_exact (w : WF d L s) (hL : 2 ≤ L) (hd : DriveOK d.vars)
    (hu : ∀ x ∈ d.spins, IsUnit3 x) (h : RepChain c d) (n : ℕ) {c' : SpinChain XF}
    (hc : c.updates n = .ok c') :
    (RegularRun d L s n → ∃ d', d.updates n = .ok d' ∧ RepChain c' d') ∧
      (¬RegularRun d L s n → ∃ i < 2 * (L / 2), LostAt XF.nan c' i) := by
  induction n generalizing c c' d with
  | zero =>
    cases hc
    exact ⟨fun _ => ⟨d, rfl, h⟩, fun hr => absurd (fun k hk => by omega) hr⟩
  | succ n ih =>
    obtain ⟨c1, h1, h2⟩ := updates_succ hc
    obtain ⟨a1, a2⟩ := update_exact h hd w hL hu h1
    have wc1 := update_wf (h.wf w) h1
    by_cases hr : RegularStep d L s
    · obtain ⟨d1, k1, k2⟩ := a1 hr
      obtain ⟨_, _, f3, _⟩ := update_frame k1
      obtain ⟨d1', k1', u1, _⟩ := update_spec w hL hu hr
      rw [k1] at k1'
      cases k1'
      obtain ⟨b1, b2⟩ := ih (update_wf w k1) (by rw [f3]; exact hd) u1 k2 h2
      have hiff : RegularRun d L s (n + 1) ↔ RegularRun d1 L s n := by
        constructor
        · intro hR k hk x hx
          exact hR (k + 1) (by omega) x (by unfold SpinChain.updates; rw [k1, ok_bind, hx])
        · intro hR k hk x hx
          cases k with
          | zero => cases hx; exact hr
          | succ k =>
            obtain ⟨y, y1, y2⟩ := updates_succ hx
            rw [k1] at y1
            cases y1
            exact hR k (by omega) x y2
      rw [hiff]
      refine ⟨fun hR => ?_, b2⟩
      obtain ⟨d', q1, q2⟩ := b1 hR
      exact ⟨d', by unfold SpinChain.updates; rw [k1, ok_bind, q1], q2⟩
    · refine ⟨fun hR => absurd (hR 0 (by omega) d rfl) hr, fun _ => ?_⟩
      obtain ⟨i, hi, hl⟩ := a2 hr
      exact ⟨i, hi, lost_updates wc1 hL h2 hi hl⟩

end ring

/-! ### the extended log -/

theorem rep_log_ext {c : SpinChain XF} {d : SpinChain ℝ} (h : RepChain c d) (hd : DriveOK d.vars) :
    RepR (List.Forall₂ fun a b => a.1.Rep b.1 ∧ a.2.1 = b.2.1 ∧ a.2.2.1.Rep b.2.2.1 ∧
      Rep3 a.2.2.2 b.2.2.2) c.log_ext d.log_ext := by
  unfold SpinChain.log_ext
  rw [h.vars.hsize, h.vars.ssize]
  refine (SpinChain.rep_h_ext h hd h.t).bind fun e e' he => ?_
  refine (RepR.mapRange (r := Rep3) fun i _ _ =>
    (RepR.idx h.h i).bind fun _ _ hh => .ok (SpinChain.rep_sum_vec hh he)).bind fun f f' hf => ?_
  dsimp only
  rw [hf.length_eq]
  refine RepR.mapRange fun i _ _ => ?_
  unfold SpinChain.logExtRow
  rw [h.vars.ssize]
  refine (RepR.idx h.spins _).bind fun _ _ h1 => ?_
  refine (RepR.idx h.j _).bind fun _ _ h2 => ?_
  refine (RepR.idx h.spins _).bind fun _ _ h3 => ?_
  refine (RepR.idx h.j _).bind fun _ _ h4 => ?_
  refine (RepR.idx h.spins _).bind fun _ _ h5 => ?_
  refine (RepR.idx hf _).bind fun _ _ h6 => ?_
  refine .ok ⟨h.t, rfl, ?_, h3⟩
  have key : ∀ (a j s k p q : XF) (a' j' s' k' p' q' : ℝ) (x : XF) (x' : ℝ), a.Rep a' → j.Rep j' →
      s.Rep s' → k.Rep k' → p.Rep p' → q.Rep q' → x.Rep x' → ∀ b : Prop, ∀ [Decidable b],
      (if b then x - 0.5 * (a * j * s + s * k * p) + q * s
        else x - 0.5 * (a * j * s + s * k * p)).Rep
      (if b then x' - 0.5 * (a' * j' * s' + s' * k' * p') + q' * s'
        else x' - 0.5 * (a' * j' * s' + s' * k' * p')) := by
    intro a j s k p q a' j' s' k' p' q' x x' ha hj hs hk hp hq hx b _
    have h0 := hx.sub ((rep_lit 5 true 1).mul (((ha.mul hj).mul hs).add ((hs.mul hk).mul hp)))
    split
    · exact h0.add (hq.mul hs)
    · exact h0
  obtain ⟨a1, a2, a3⟩ := h1
  obtain ⟨b1, b2, b3⟩ := h2
  obtain ⟨c1, c2, c3⟩ := h3
  obtain ⟨d1, d2, d3⟩ := h4
  obtain ⟨e1, e2, e3⟩ := h5
  obtain ⟨f1, f2, f3⟩ := h6
  exact key _ _ _ _ _ _ _ _ _ _ _ _ _ _ a3 b3 c3 d3 e3 f3
    (key _ _ _ _ _ _ _ _ _ _ _ _ _ _ a2 b2 c2 d2 e2 f2
      (key _ _ _ _ _ _ _ _ _ _ _ _ _ _ a1 b1 c1 d1 e1 f1 (rep_lit _ _ _) _) _) _

/-! ### the Langevin chain -/

section langevin

open LangevinChain

variable {c : LangevinChain XF} {d : LangevinChain ℝ} {L s : ℕ}

theorem rep_edgeField {γ dt : XF} {γ' dt' : ℝ} (hg : γ.Rep γ') (hdt : dt.Rep dt') (h0 : dt' ≠ 0)
    {j h n : V3 XF} {j' h' n' : V3 ℝ} (hj : Rep3 j j') (hh : Rep3 h h') (hn : Rep3 n n')
    {a b : Spin XF} {a' b' : Spin ℝ} (ha : Rep3 a.dir a'.dir) (hb : Rep3 b.dir b'.dir) :
    Rep3 (edgeField γ dt j a b h n) (edgeField γ' dt' j' a' b' h' n') := by
  have hjs := SpinChain.rep_j_s hj ha
  have ho : Rep3 ⟨(SpinChain.j_s j a).x - h.x, (SpinChain.j_s j a).y - h.y,
      (SpinChain.j_s j a).z - h.z⟩ ⟨(SpinChain.j_s j' a').x - h'.x, (SpinChain.j_s j' a').y - h'.y,
      (SpinChain.j_s j' a').z - h'.z⟩ :=
    ⟨hjs.1.sub hh.1, hjs.2.1.sub hh.2.1, hjs.2.2.sub hh.2.2⟩
  refine SpinChain.rep_ssh_sum ho ?_ ⟨hn.1.div hdt h0, hn.2.1.div hdt h0, hn.2.2.div hdt h0⟩
  obtain ⟨b1, b2, b3⟩ := hb
  obtain ⟨o1, o2, o3⟩ := ho
  exact ⟨hg.neg.mul ((b2.mul o3).sub (o2.mul b3)), hg.neg.mul ((b3.mul o1).sub (o3.mul b1)),
    hg.neg.mul ((b1.mul o2).sub (o1.mul b2))⟩

theorem rep_sample3 {σ : XF} {σ' : ℝ} (hs : σ.Rep σ') {z : V3 XF} {z' : V3 ℝ} (hz : Rep3 z z') :
    Rep3 (sample3 σ z) (sample3 σ' z') := by
  obtain ⟨z1, z2, z3⟩ := hz
  exact ⟨(rep_lit _ _ _).add (hs.mul z1), (rep_lit _ _ _).add (hs.mul z2),
    (rep_lit _ _ _).add (hs.mul z3)⟩

theorem rep_lSigma (h : RepLangevin c d) (hn : NoiseOK d) : (lSigma c).Rep (lSigma d) := by
  unfold lSigma
  have hv : (2.0 : ℝ) * d.gamma * d.vars.dt / d.vars.beta = 2 * d.gamma * d.vars.dt / d.vars.beta := by
    rw [lit_2]
  refine XF.Rep.rsqrt ((((rep_lit 20 true 1).mul h.gamma).mul h.chain.vars.dt).div
    h.chain.vars.beta hn.beta) ?_
  rw [hv]
  exact hn.var

theorem langOm_rep (hL : 2 ≤ L) (h : RepLangevin c d) (hn : NoiseOK d) {z : Noise XF}
    {z' : Noise ℝ} (hz : RepNoise z z') {j b : ℕ → V3 XF}
    (hj : ∀ i < L, Rep3 (j i) (J d.toSpinChain i))
    (hb : ∀ i < L, Rep3 (b i) (B d.toSpinChain s (d.t + d.vars.dt) i)) :
    RepOm (langF c.gamma c.vars.dt (2 * (L / 2)) j b (sample3 (lSigma c) z.l)
      (sample3 (lSigma c) z.r)) (langOm d L s z') (2 * (L / 2)) := by
  intro sp S' hs i hi
  have hσ := rep_lSigma h hn
  have hl := rep_sample3 hσ hz.l
  have hr := rep_sample3 hσ hz.r
  have e := langF_real (γ := d.gamma) (dt := d.vars.dt) (σ := lSigma d) (m := 2 * (L / 2))
    (by omega) (J d.toSpinChain) (B d.toSpinChain s (d.t + d.vars.dt)) z' (fun i => ⟨S' i⟩) hi
  rw [lSigma_real] at e
  have e' : langOm d L s z' S' i = _ := e.symm
  rw [e', ← lSigma_real]
  unfold langF
  split
  · exact rep_edgeField h.gamma h.chain.vars.dt hn.dt (hj 0 (by omega)) (hb 0 (by omega)) hl
      (hs 1 (by omega)) (hs 0 (by omega))
  · split
    · exact rep_edgeField h.gamma h.chain.vars.dt hn.dt (hj _ (by omega)) (hb _ (by omega)) hr
        (hs _ (by omega)) (hs i hi)
    · exact SpinChain.rep_ssh_sum
        (SpinChain.rep_j_s (s' := ⟨S' (i - 1)⟩) (hj _ (by omega)) (hs _ (by omega)))
        (SpinChain.rep_j_s (s' := ⟨S' (i + 1)⟩) (hj _ (by omega)) (hs _ (by omega))) (hb _ (by omega))

theorem l_update_exact (h : RepLangevin c d) (hd : DriveOK d.vars) (hn : NoiseOK d)
    (w : WF d.toSpinChain L s) (hL : 2 ≤ L) (hu : ∀ x ∈ d.spins, IsUnit3 x) {z : Noise XF}
    {z' : Noise ℝ} (hz : RepNoise z z') :
    ∃ c', c.update z = .ok c' ∧
      (RegularStepL d L s z' → ∃ d', d.update z' = .ok d' ∧ RepLangevin c' d') ∧
      (¬RegularStepL d L s z' → ∃ i < 2 * (L / 2), LostAt XF.nan c'.toSpinChain i) := by
  have wc := h.chain.wf w
  obtain ⟨j, hh, sp, tj, th, tsp⟩ := wf_tabs wc (by omega)
  have hj := (forall₂_tab tj (tab_J w)).1 h.chain.j
  have hh' := (forall₂_tab th (tab_H0 w)).1 h.chain.h
  have hs' := (forall₂_tab tsp (tab_S w)).1 h.chain.spins
  have hdt2 : (c.t + c.vars.dt).Rep (d.t + d.vars.dt) := h.chain.t.add h.chain.vars.dt
  obtain ⟨e, he, hee⟩ := repR_ok (SpinChain.rep_h_ext h.chain hd hdt2) (h_ext_eq w _)
  have hf : fisFinite (lSigma c) = true := (rep_lSigma h hn).isFinite
  obtain ⟨s1, g1, g2⟩ := l_update_tab wc hL z tj th tsp he hf
  refine ⟨_, g1, ?_⟩
  have hB := fieldF_rep hh' hee s
  rw [fieldF_real] at hB
  have hO := langOm_rep hL h hn hz hj hB
  have hsm : ∀ i < 2 * (L / 2), Rep3 (sp i).dir (S d.toSpinChain i) := fun i hi => hs' i (by omega)
  have hum : ∀ i < 2 * (L / 2), len (S d.toSpinChain i) = 1 := fun i hi => unit_S w hu (by omega)
  constructor
  · intro hr
    obtain ⟨d', k1, k2, k3⟩ := l_update_spec w hL hu hr
    refine ⟨d', k1, ?_⟩
    have hstep := stepGF_rep hO h.chain.vars.dt hsm hum hr
    obtain ⟨f1, f2, f3, f4, f5, f6, f7⟩ := l_update_frame k1
    refine ⟨⟨by rw [f1]; exact h.chain.j, by rw [f2]; exact h.chain.h, ?_,
      by rw [f6]; exact h.chain.t.add h.chain.vars.dt, by rw [f3]; exact h.chain.vars,
      by rw [f4]; exact h.chain.file⟩, by rw [f7]; exact h.gamma⟩
    refine (forall₂_tab g2 (tab_S (l_update_wf w k1))).2 fun i hi => ?_
    by_cases him : i < 2 * (L / 2)
    · rw [k3]
      exact hstep i him
    · have e1 : stepGF (langF c.gamma c.vars.dt (2 * (L / 2)) j (fieldF s hh e)
          (sample3 (lSigma c) z.l) (sample3 (lSigma c) z.r)) (2 * (L / 2)) c.vars.dt sp i = sp i := by
        unfold stepGF subGF
        simp only [him, false_and, if_false]
      have e2 : S d'.toSpinChain i = S d.toSpinChain i := by
        rw [k3]
        unfold stepG subStepG
        simp only [him, false_and, if_false]
      rw [e1, e2]
      exact hs' i hi
  · intro hr
    obtain ⟨i, hi, hl⟩ := stepGF_fail hO h.chain.vars.dt hsm hum hr
    exact ⟨i, hi, _, g2.getElem? (by omega), hl⟩

theorem l_lost_update {c c' : LangevinChain XF} (w : WF c.toSpinChain L s) (hL : 2 ≤ L)
    {z : Noise XF} (h : c.update z = .ok c') {i : ℕ} (hi : i < 2 * (L / 2))
    (hl : LostAt XF.nan c.toSpinChain i) : LostAt XF.nan c'.toSpinChain i := by
  obtain ⟨j, hh, sp, tj, th, tsp⟩ := wf_tabs w (by omega)
  obtain ⟨e, he⟩ := h_ext_ok w.hs (c.t + c.vars.dt)
  have hf : fisFinite (lSigma c) = true := by
    unfold LangevinChain.update at h
    obtain ⟨_, _, h⟩ := bind_eq_ok h
    obtain ⟨_, h1, h⟩ := bind_eq_ok h
    unfold SpinChain.normalNew at h1
    unfold lSigma
    by_contra hne
    rw [if_neg hne] at h1
    cases h1
  obtain ⟨s1, g1, g2⟩ := l_update_tab w hL z tj th tsp he hf
  rw [h] at g1
  cases g1
  obtain ⟨x, hx, hlx⟩ := hl
  rw [tsp.getElem? (by omega)] at hx
  cases hx
  exact ⟨_, g2.getElem? (by omega), stepGF_lost hlx⟩

theorem l_updates_exact (w : WF d.toSpinChain L s) (hL : 2 ≤ L) (hd : DriveOK d.vars)
    (hn : NoiseOK d) (hu : ∀ x ∈ d.spins, IsUnit3 x) (h : RepLangevin c d) {zs : List (Noise XF)}
    {zs' : List (Noise ℝ)} (hz : List.Forall₂ RepNoise zs zs') :
    ∀ {c'}, c.updates zs = .ok c' →
      (RegularRunL L s zs' d → ∃ d', d.updates zs' = .ok d' ∧ RepLangevin c' d') ∧
      (¬RegularRunL L s zs' d → ∃ i < 2 * (L / 2), LostAt XF.nan c'.toSpinChain i) := by
  induction hz generalizing c d with
  | nil =>
    intro c' hc
    cases hc
    exact ⟨fun _ => ⟨d, rfl, h⟩, fun hr => absurd trivial hr⟩
  | @cons z z' zs zs' hz hzs ih =>
    intro c' hc
    obtain ⟨c1, h1, h2⟩ := bind_eq_ok hc
    obtain ⟨c1', h1', a1, a2⟩ := l_update_exact h hd hn w hL hu hz
    rw [h1] at h1'
    cases h1'
    by_cases hr : RegularStepL d L s z'
    · obtain ⟨d1, k1, k2⟩ := a1 hr
      obtain ⟨_, _, f3, _, _, _, f7⟩ := l_update_frame k1
      obtain ⟨d1', k1', u1, _⟩ := l_update_spec w hL hu hr
      rw [k1] at k1'
      cases k1'
      have hn1 : NoiseOK d1 := ⟨by rw [f3]; exact hn.dt, by rw [f3]; exact hn.beta,
        by rw [f3, f7]; exact hn.var⟩
      obtain ⟨b1, b2⟩ := ih (l_update_wf w k1) (by rw [f3]; exact hd) hn1 u1 k2 h2
      have hiff : RegularRunL L s (z' :: zs') d ↔ RegularRunL L s zs' d1 := by
        constructor
        · intro hR; exact hR.2 d1 k1
        · intro hR
          refine ⟨hr, fun x hx => ?_⟩
          rw [k1] at hx
          cases hx
          exact hR
      rw [hiff]
      refine ⟨fun hR => ?_, b2⟩
      obtain ⟨d', q1, q2⟩ := b1 hR
      exact ⟨d', by unfold LangevinChain.updates; rw [k1, ok_bind, q1], q2⟩
    · refine ⟨fun hR => absurd hR.1 hr, fun _ => ?_⟩
      obtain ⟨i, hi, hl⟩ := a2 hr
      refine ⟨i, hi, ?_⟩
      have wc1 := l_update_wf (h.chain.wf w) h1
      clear ih a1 a2 h1 hc hzs
      induction zs generalizing c1 with
      | nil => cases h2; exact hl
      | cons y ys ih =>
        obtain ⟨c2, q1, q2⟩ := bind_eq_ok h2
        exact ih c2 q2 (l_lost_update wc1 hL q1 hi hl) (l_update_wf wc1 q1)

theorem l_updates_total (w : WF d.toSpinChain L s) (hL : 2 ≤ L) (hn : NoiseOK d)
    (h : RepLangevin c d) (zs : List (Noise XF)) : ∃ c', c.updates zs = .ok c' := by
  have wc := h.chain.wf w
  have hf : fisFinite (lSigma c) = true := (rep_lSigma h hn).isFinite
  clear h hn w
  induction zs generalizing c with
  | nil => exact ⟨c, rfl⟩
  | cons z zs ih =>
    obtain ⟨j, hh, sp, tj, th, tsp⟩ := wf_tabs wc (by omega)
    obtain ⟨e, he⟩ := h_ext_ok wc.hs (c.t + c.vars.dt)
    obtain ⟨s1, g1, _⟩ := l_update_tab wc hL z tj th tsp he hf
    obtain ⟨c', g⟩ := ih (l_update_wf wc g1) hf
    exact ⟨c', by unfold LangevinChain.updates; rw [g1, ok_bind, g]⟩

theorem rep_l_m_tot (h : RepLangevin c d) : Rep3 c.m_tot d.m_tot :=
  SpinChain.rep_foldl_mag h.chain.spins ⟨rep_lit _ _ _, rep_lit _ _ _, rep_lit _ _ _⟩

theorem rep_l_boundary_term (h : RepLangevin c d) (h0 : d.vars.beta ≠ 0) (ht : d.vars.tau ≠ 0) :
    RepR XF.Rep c.boundary_term d.boundary_term := by
  unfold LangevinChain.boundary_term
  have hc := h.chain
  have hd : DriveOK d.vars := .inr (.inr ht)
  rw [hc.vars.ssize]
  dsimp only
  refine (RepR.idx hc.spins 0).bind fun _ _ h1 => ?_
  refine RepR.bindEq fun l1 => ?_
  refine (RepR.idx hc.spins l1).bind fun _ _ h2 => ?_
  refine (SpinChain.rep_h_ext hc hd hc.t).bind fun _ _ he => ?_
  refine (RepR.idx hc.j 0).bind fun _ _ h3 => ?_
  refine (RepR.idx hc.spins 1).bind fun _ _ h4 => ?_
  refine RepR.bindEq fun l2 => ?_
  refine (RepR.idx hc.j l2).bind fun _ _ h5 => ?_
  refine (RepR.idx hc.spins l2).bind fun _ _ h6 => ?_
  refine (SpinChain.rep_m hc).bind fun m m' hm => ?_
  have j1 := SpinChain.rep_j_s h3 h4
  have j2 := SpinChain.rep_j_s h5 h6
  have o1 := (show Rep3 ⟨_, _, _⟩ ⟨_, _, _⟩ from
    ⟨j1.1.sub he.1, j1.2.1.sub he.2.1, j1.2.2.sub he.2.2⟩)
  have o2 := (show Rep3 ⟨_, _, _⟩ ⟨_, _, _⟩ from
    ⟨j2.1.sub he.1, j2.2.1.sub he.2.1, j2.2.2.sub he.2.2⟩)
  have q1 := SpinChain.rep_dot o1 h1
  have q2 := SpinChain.rep_dot o2 h2
  refine .ok (((((rep_lit _ _ _).mul h.gamma).div hc.vars.beta h0).mul (q1.add q2)).sub
    (h.gamma.mul (((((SpinChain.rep_sq h1).mul (SpinChain.rep_sq o1)).sub (q1.mul q1)).add
      ((SpinChain.rep_sq h2).mul (SpinChain.rep_sq o2))).sub (q2.mul q2))) |>.add ?_)
  exact ((((rep_lit _ _ _).mul XF.rpi).mul (SpinChain.rep_dot
    (SpinChain.rep_h_extp hc hd hc.t) hm)).div hc.vars.tau ht)

theorem rep_l_log (h : RepLangevin c d) (hb : d.vars.beta ≠ 0) (ht : d.vars.tau ≠ 0)
    (h0 : d.vars.hsize ≠ 0) (h1 : d.vars.ssize ≠ 0) (h2 : asUsize d.vars.ssize ≠ 1) :
    RepR (List.Forall₂ XF.Rep) c.log d.log := by
  unfold LangevinChain.log
  have hc := h.chain
  have hd : DriveOK d.vars := .inr (.inr ht)
  rw [hc.vars.ssize, hc.vars.hsize]
  refine (SpinChain.rep_system_energy hc hd h2).bind fun _ _ he => ?_
  refine (SpinChain.rep_m hc).bind fun m m' hm => ?_
  refine (rep_l_boundary_term h hb ht).bind fun _ _ hbt => ?_
  have hs : (fofInt d.vars.ssize : XF).Rep (fofInt d.vars.ssize : ℝ) := XF.rint _
  have hh : (fofInt d.vars.hsize : XF).Rep (fofInt d.vars.hsize : ℝ) := XF.rint _
  have hs0 : (fofInt d.vars.ssize : ℝ) ≠ 0 := by rw [fofInt_real]; exact_mod_cast h1
  have hh0 : (fofInt d.vars.hsize : ℝ) ≠ 0 := by rw [fofInt_real]; exact_mod_cast h0
  exact .ok (.cons hc.t (.cons he (.cons he (.cons (hm.1.div hs hs0) (.cons (hm.2.1.div hs hs0)
    (.cons (hm.2.2.div hs hs0) (.cons ((rep_l_m_tot h).2.2.div hh hh0) (.cons hbt .nil))))))))

theorem rep_l_metropolis (h : RepLangevin c d) {a : Draw XF} {b : Draw ℝ} (hab : RepDraw a b)
    (h0 : 0 ≤ b.u2) (h1 : b.u2 ≤ 1) :
    RepR RepLangevin (c.metropolis_update a) (d.metropolis_update b) := by
  unfold LangevinChain.metropolis_update
  have hc := h.chain
  rw [hc.vars.hsize, hab.site]
  refine RepR.bindEq fun i => ?_
  refine (RepR.idx hc.spins i).bind fun _ _ s1 => ?_
  refine RepR.bindEq fun l => ?_
  refine (RepR.idx hc.spins l).bind fun _ _ s2 => ?_
  refine RepR.bindEq fun r => ?_
  refine (RepR.idx hc.spins r).bind fun _ _ s3 => ?_
  refine RepR.bindEq fun l' => ?_
  refine (RepR.idx hc.j l').bind fun _ _ j1 => ?_
  refine (RepR.idx hc.j i).bind fun _ _ j2 => ?_
  have hp := SpinChain.rep_proposal hab.u1 hab.u2 h0 h1
  have hN : SpinChain.RepN1 ⟨_, _, _, _, _, ⟨0.0, 0.0, 0.0⟩⟩ ⟨_, _, _, _, _, ⟨0.0, 0.0, 0.0⟩⟩ :=
    ⟨s2, s1, s3, j1, j2, rep_lit _ _ _, rep_lit _ _ _, rep_lit _ _ _⟩
  exact (SpinChain.rep_finish hc i hp (SpinChain.rep_metroDe hN hp) hab.u3).bind
    fun _ _ hx => .ok ⟨hx, h.gamma⟩

theorem rep_l_magnus (h : RepLangevin c d) (ht : d.vars.tau ≠ 0) {a : Draw XF} {b : Draw ℝ}
    (hab : RepDraw a b) (h0 : 0 ≤ b.u2) (h1 : b.u2 ≤ 1) :
    RepR RepLangevin (c.metropolis_update_magnus a) (d.metropolis_update_magnus b) := by
  unfold LangevinChain.metropolis_update_magnus
  exact (SpinChain.rep_magnus h.chain ht hab h0 h1).bind fun _ _ hx => .ok ⟨hx, h.gamma⟩

end langevin

end Verif
