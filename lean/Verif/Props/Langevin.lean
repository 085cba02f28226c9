/-
Properties C44–C48, C68 and C69: the Langevin chain of /repo/src/spinchain_langevin.rs.
-/
import Verif.Lemmas.LangevinEnergy
import Verif.Lemmas.XFUnit
import Verif.Props.Metropolis
import Verif.Props.Dynamics

namespace Verif.Props

open Spec Finset

/-- the chain `demo` with damping, all four sites driven -/
noncomputable def demoL : LangevinChain ℝ :=
  { demo with
    vars := { demoVars with ssize := 4 }
    static_h := [⟨0, 0, 2⟩, ⟨1 / 10, 0, 6 / 5⟩, ⟨0, 0, 3 / 2⟩, ⟨0, 0, 2⟩]
    gamma := 1 / 10 }

theorem demoL_wf : WF demoL.toSpinChain 4 4 := by constructor <;> simp [demoL, demo, demoVars]

theorem demoL_noise : NoiseOK demoL := by
  constructor <;> norm_num [demoL, demo, demoVars]

/-! ### C44: unit vectors along every noise history -/

theorem C44_unit (c : LangevinChain ℝ) (L s : ℕ) (zs : List (Noise ℝ)) (w : WF c.toSpinChain L s)
    (hL : 2 ≤ L) (_hn : NoiseOK c) (hu : ∀ x ∈ c.spins, IsUnit3 x) (hr : RegularRunL L s zs c) :
    ∃ c', c.updates zs = .ok c' ∧ ∀ x ∈ c'.spins, IsUnit3 x := by
  obtain ⟨c', h1, _, h2⟩ := l_updates_unit w hL hu hr
  exact ⟨c', h1, h2⟩

/-- A condition on chain and noise that rules out vanishing fields in all histories. -/
theorem C44_strong_field (c : LangevinChain ℝ) (L s : ℕ) (zs : List (Noise ℝ))
    (w : WF c.toSpinChain L s) (hL : 2 ≤ L) (hn : NoiseOK c) (hu : ∀ x ∈ c.spins, IsUnit3 x)
    (hd : ∀ z ∈ zs, ∀ t, ∀ i < 2 * (L / 2),
      zBond (2 * (L / 2)) (J c.toSpinChain) i
        + len (noiseField (2 * (L / 2)) c.gamma c.vars.beta c.vars.dt z i)
        < |(B c.toSpinChain s t i).z|) :
    RegularRunL L s zs c ∧ ∃ c', c.updates zs = .ok c' ∧ ∀ x ∈ c'.spins, IsUnit3 x := by
  have key : RegularRunL L s zs c := by
    clear hn
    induction zs generalizing c with
    | nil => trivial
    | cons z zs ih =>
      have hreg : RegularStepL c L s z := by
        refine regularG_of ?_ (fun i hi => unit_S w hu (by omega))
        intro S hS i hi
        exact langField_ne (fun i hi => hd z (by simp) _ i hi) hS i hi
      refine ⟨hreg, fun c1 h1 => ?_⟩
      obtain ⟨c2, h2, u2, _⟩ := l_update_spec w hL hu hreg
      rw [h1] at h2
      cases h2
      obtain ⟨a1, a2, a3, _, _, _, a7⟩ := l_update_frame h1
      refine ih c1 (l_update_wf w h1) u2 ?_
      intro z hz t i hi
      rw [J_congr a1, a3, a7, B_congr (c := c.toSpinChain) a2 (t := t) (by rw [a3])]
      exact hd z (by simp [hz]) t i hi
  exact ⟨key, C44_unit c L s zs w hL hn hu key⟩

/-- With NaN and infinities in the picture and no assumption on chain or noise: after at least one
update every spin that moves is a unit vector or has a component that is NaN or infinite. -/
theorem C44_unit_or_nonfinite (c c' : LangevinChain XF) (L s : ℕ) (zs : List (Noise XF))
    (z : Noise XF) (w : WF c.toSpinChain L s) (hL : 2 ≤ L)
    (h : c.updates (zs ++ [z]) = .ok c') (i : ℕ) (hi : i < 2 * (L / 2)) :
    ∃ x, c'.spins[i]? = some x ∧
      (fisFinite x.dir.x = true → fisFinite x.dir.y = true → fisFinite x.dir.z = true →
        x.dir.x.real ^ 2 + x.dir.y.real ^ 2 + x.dir.z.real ^ 2 = 1) := by
  induction zs generalizing c with
  | cons z' zs ih =>
    obtain ⟨c1, h1, h2⟩ := bind_eq_ok h
    exact ih c1 (l_update_wf w h1) h2
  | nil =>
    obtain ⟨c1, h1, h2⟩ := bind_eq_ok h
    cases h2
    obtain ⟨j, hh, sp, hj, hhh, hsp⟩ := wf_tabs w (by omega)
    obtain ⟨e, he⟩ := h_ext_ok w.hs (c.t + c.vars.dt)
    have hf : fisFinite (lSigma c) = true := by
      by_contra hf
      unfold LangevinChain.update SpinChain.normalNew at h1
      rw [he, ok_bind] at h1
      unfold lSigma at hf
      simp only [hf] at h1
      cases h1
    obtain ⟨s', g1, g2⟩ := l_update_tab w hL z hj hhh hsp he hf
    rw [h1] at g1
    cases g1
    refine ⟨_, g2.getElem? (by omega), ?_⟩
    unfold stepGF
    by_cases hp : i % 2 = 0
    · unfold subGF
      rw [if_pos ⟨hi, hp⟩]
      exact fun a b c => xf_rotate_unit _ _ _ a b c
    · rw [show ∀ (om : (ℕ → Spin XF) → ℕ → V3 XF) d sp', subGF om (2 * (L / 2)) 0 d sp' i = sp' i from
        fun om d sp' => if_neg (fun h => hp h.2)]
      unfold subGF
      rw [if_pos ⟨hi, by omega⟩]
      exact fun a b c => xf_rotate_unit _ _ _ a b c

section anyF
variable {F : Type} [Add F] [Sub F] [Mul F] [Div F] [Neg F] [OfScientific F] [FOps F]

/-- Without a finite standard deviation every update panics. -/
theorem C44_no_noise_panics (c : LangevinChain F) (z : Noise F)
    (h : fisFinite (fsqrt (2.0 * c.gamma * c.vars.dt / c.vars.beta)) = false) :
    ∃ p, c.update z = .error p := by
  unfold LangevinChain.update SpinChain.normalNew
  cases c.h_ext (c.t + c.vars.dt) with
  | error p => exact ⟨p, rfl⟩
  | ok e =>
    rw [ok_bind]
    simp only [h]
    exact ⟨_, rfl⟩

end anyF

/-- The hypothesis is met by every negative damping constant (at positive temperature). -/
theorem C44_negative_gamma_panics (c : LangevinChain XF) (z : Noise XF) (g d b : ℝ)
    (hg : c.gamma = .fin g) (hd : c.vars.dt = .fin d) (hb : c.vars.beta = .fin b) (h0 : g < 0)
    (h1 : 0 < d) (h2 : 0 < b) : ∃ p, c.update z = .error p := by
  apply C44_no_noise_panics
  rw [hg, hd, hb]
  have hm : ∀ r b, r ≠ 0 → XF.mk r b = .fin r := by
    intro r b hr
    unfold XF.mk
    rw [if_neg hr]
  have hn : 2 * g * d < 0 := by nlinarith
  have e1 : (2.0 : XF) * .fin g = .fin (2 * g) := by
    rw [XF.lit, XF.fin_mul, lit_2, hm _ _ (by linarith)]
  have e2 : XF.fin (2 * g) * .fin d = .fin (2 * g * d) := by rw [XF.fin_mul, hm _ _ hn.ne]
  have e3 : XF.fin (2 * g * d) / .fin b = .fin (2 * g * d / b) := by
    rw [XF.fin_div_of_ne _ h2.ne', hm _ _ (div_neg_of_neg_of_pos hn h2).ne]
  rw [e1, e2, e3]
  show fisFinite (if 2 * g * d / b < 0 then XF.nan else _) = false
  rw [if_pos (div_neg_of_neg_of_pos hn h2)]
  rfl

/-- three histories of noise that differ, all moderate -/
example : WF demoL.toSpinChain 4 4 ∧ NoiseOK demoL ∧ (∀ x ∈ demoL.spins, IsUnit3 x) ∧
    RegularRunL 4 4 [⟨⟨1 / 100, 0, -1 / 100⟩, ⟨0, 1 / 50, 0⟩⟩, quiet,
      ⟨⟨0, 0, -1 / 100⟩, ⟨1 / 70, 1 / 50, 0⟩⟩] demoL := by
  refine ⟨demoL_wf, demoL_noise, demo_unit, ?_⟩
  refine (C44_strong_field demoL 4 4 _ demoL_wf (by norm_num) demoL_noise demo_unit ?_).1
  have hσ : Real.sqrt (2 * demoL.gamma * demoL.vars.dt / demoL.vars.beta) / demoL.vars.dt ≤ 3 := by
    rw [div_le_iff₀ (by norm_num [demoL, demo, demoVars])]
    apply Real.sqrt_le_iff.2
    constructor <;> norm_num [demoL, demo, demoVars]
  have hσ0 : 0 ≤ Real.sqrt (2 * demoL.gamma * demoL.vars.dt / demoL.vars.beta) / demoL.vars.dt :=
    div_nonneg (Real.sqrt_nonneg _) (by norm_num [demoL, demo, demoVars])
  have hlen : ∀ r v, 0 ≤ r → r ≤ 3 → dot v v ≤ 1 / 100 → len (smul r v) < 2 / 5 := by
    intro r v h0 h1 h2
    have e : dot (smul r v) (smul r v) = r ^ 2 * dot v v := by simp only [dot, smul]; ring
    have h3 : 0 ≤ dot v v := dot_self_nonneg _
    unfold len
    rw [Real.sqrt_lt' (by norm_num), e]
    nlinarith [mul_le_mul (pow_le_pow_left₀ h0 h1 2) h2 h3 (by norm_num)]
  intro z hz t i hi
  have hη : len (noiseField (2 * (4 / 2)) demoL.gamma demoL.vars.beta demoL.vars.dt z i) < 2 / 5 := by
    unfold noiseField
    apply hlen _ _ hσ0 hσ
    simp only [List.mem_cons, List.not_mem_nil, or_false] at hz
    rcases hz with rfl | rfl | rfl <;> split_ifs <;> norm_num [dot, quiet, zero]
  have hb : zBond (2 * (4 / 2)) (J demoL.toSpinChain) i + 2 / 5
      ≤ |(B demoL.toSpinChain 4 t i).z| + if i = 1 ∨ i = 2 then 2 / 5 else 0 := by
    have hi' : i = 0 ∨ i = 1 ∨ i = 2 ∨ i = 3 := by omega
    rcases hi' with rfl | rfl | rfl | rfl <;>
      norm_num [zBond, J, B, H0, demoL, demo, demoVars, drive, Config.default, Spec.add, abs_of_pos]
  by_cases hi2 : i = 1 ∨ i = 2
  · have hz0 : len (noiseField (2 * (4 / 2)) demoL.gamma demoL.vars.beta demoL.vars.dt z i) = 0 := by
      unfold noiseField
      rw [if_neg (by omega), if_neg (by omega)]
      norm_num [len, dot, smul, zero]
    rw [hz0, add_zero]
    rcases hi2 with rfl | rfl <;>
      norm_num [zBond, J, B, H0, demoL, demo, demoVars, drive, Config.default, Spec.add, abs_of_pos]
  · rw [if_neg hi2] at hb
    linarith

/-! ### C45: the damping lowers the energy of the edge spins -/

/-- the chain with time-step `dt` -/
def withDt (c : LangevinChain ℝ) (dt : ℝ) : LangevinChain ℝ :=
  { c with vars := { c.vars with dt := dt } }

/-- spin `n` after one noise-free update with time-step `dt` (`zero` in the case of a panic, which is
excluded in the theorems) -/
noncomputable def quietAfter (c : LangevinChain ℝ) (n : ℕ) (dt : ℝ) : V3 ℝ :=
  match (withDt c dt).update quiet with
  | .ok c' => S c'.toSpinChain n
  | .error _ => zero

theorem quiet_deriv {c : LangevinChain ℝ} {L s : ℕ} (w : WF c.toSpinChain L s) (hL : 2 ≤ L)
    (heven : L % 2 = 0) (hu : ∀ x ∈ c.spins, IsUnit3 x)
    (h0 : ∀ i < L, openOmega L (S c.toSpinChain) (J c.toSpinChain) (B c.toSpinChain s c.t) i ≠ zero)
    (n : ℕ) (hn : n < L) :
    HasDeriv3 (fun dt => quietAfter c n dt)
      (cross (S c.toSpinChain n) (langField L c.gamma (J c.toSpinChain) (B c.toSpinChain s c.t)
        (fun _ => zero) (S c.toSpinChain) n)) 0 := by
  have wd : ∀ dt, WF (withDt c dt).toSpinChain L s := fun dt =>
    ⟨w.hsize, w.ssize, w.L_lt, w.s_lt, w.spins, w.j, w.h, w.hs⟩
  have hB0 : B c.toSpinChain s (c.t + 0) = B c.toSpinChain s c.t := by rw [add_zero]
  have h0' : ∀ i < L, langField L c.gamma (J c.toSpinChain) (B c.toSpinChain s c.t)
      (fun _ => zero) (S c.toSpinChain) i ≠ zero := by
    intro i hi
    unfold langField
    split
    · refine damped_ne _ ?_
      have := dot_self_pos (h0 i hi)
      simpa [dot, zero] using this
    · exact h0 i hi
  obtain ⟨d, hreg⟩ := stepG_deriv (m := L) (S := S c.toSpinChain)
    (om := fun x => langField L c.gamma (J c.toSpinChain) (B c.toSpinChain s (c.t + x))
      (fun _ => zero))
    (fun S' hS' i _ => langField_cont hS' (fun k => B_cont' c.toSpinChain s c.t k))
    (by rw [hB0]; exact h0')
  have hd := d n hn
  rw [hB0] at hd
  have hnf : ∀ x, noiseField L c.gamma c.vars.beta x quiet = fun _ => zero := by
    intro x
    funext i
    unfold noiseField
    rw [show (if i = 0 then quiet.l else if i + 1 = L then quiet.r else zero) = zero by
      split_ifs <;> rfl]
    ext <;> simp [smul, zero]
  have hom : ∀ x, langOm (withDt c x) L s quiet
      = langField L c.gamma (J c.toSpinChain) (B c.toSpinChain s (c.t + x)) (fun _ => zero) := by
    intro x
    unfold langOm
    rw [show 2 * (L / 2) = L by omega]
    rw [← hnf x]
    rfl
  have heq : (fun x => quietAfter c n x) =ᶠ[nhds 0] fun x =>
      stepG (langField L c.gamma (J c.toSpinChain) (B c.toSpinChain s (c.t + x)) (fun _ => zero)) L x
        (S c.toSpinChain) n := by
    filter_upwards [hreg] with x hx
    have hr : RegularStepL (withDt c x) L s quiet := by
      unfold RegularStepL
      rw [hom, show 2 * (L / 2) = L by omega]
      exact hx
    obtain ⟨c', h1, _, h3⟩ := l_update_spec (wd x) hL hu hr
    unfold quietAfter
    rw [h1]
    simp only
    rw [h3, hom, show 2 * (L / 2) = L by omega]
    rfl
  refine ⟨?_, ?_, ?_⟩
  · exact hd.1.congr_of_eventuallyEq (heq.mono fun x hx => by simp only [hx])
  · exact hd.2.1.congr_of_eventuallyEq (heq.mono fun x hx => by simp only [hx])
  · exact hd.2.2.congr_of_eventuallyEq (heq.mono fun x hx => by simp only [hx])

/-- `Ω` is the local field of the edge spin at the start of the step. The time-step tends to zero from
above (for negative ones the noise would have a negative variance). -/
theorem C45_damping (c : LangevinChain ℝ) (L s : ℕ) (w : WF c.toSpinChain L s) (hL : 2 ≤ L)
    (heven : L % 2 = 0) (hu : ∀ x ∈ c.spins, IsUnit3 x) (_hb : 0 < c.vars.beta)
    (hγ : 0 ≤ c.gamma)
    (h0 : ∀ i < L, openOmega L (S c.toSpinChain) (J c.toSpinChain) (B c.toSpinChain s c.t) i ≠ zero)
    (n : ℕ) (hn : n = 0 ∨ n + 1 = L) (Sn Ω : V3 ℝ) (hS : Sn = S c.toSpinChain n)
    (hΩ : Ω = openOmega L (S c.toSpinChain) (J c.toSpinChain) (B c.toSpinChain s c.t) n) :
    (∀ dt, 0 < dt → ∃ c', (withDt c dt).update quiet = .ok c') ∧
    HasDerivWithinAt (fun dt => -dot (quietAfter c n dt) Ω)
      (-(c.gamma * (dot Sn Sn * dot Ω Ω - dot Sn Ω ^ 2))) (Set.Ici 0) 0 ∧
    -(c.gamma * (dot Sn Sn * dot Ω Ω - dot Sn Ω ^ 2)) ≤ 0 := by
  subst hS hΩ
  have wd : ∀ dt, WF (withDt c dt).toSpinChain L s := fun dt =>
    ⟨w.hsize, w.ssize, w.L_lt, w.s_lt, w.spins, w.j, w.h, w.hs⟩
  refine ⟨?_, ?_, ?_⟩
  · intro dt _
    obtain ⟨s', h1, _⟩ := l_update_tab (wd dt) hL quiet (tab_J (wd dt)) (tab_H0 (wd dt))
      (tab_S (wd dt)) (h_ext_eq (wd dt) _) (by rfl)
    exact ⟨_, h1⟩
  · apply HasDerivAt.hasDerivWithinAt
    have hd := quiet_deriv w hL heven hu h0 n (by omega)
    have := (HasDeriv3.dot hd (hasDeriv3_const (openOmega L (S c.toSpinChain) (J c.toSpinChain)
      (B c.toSpinChain s c.t) n) 0)).neg
    refine this.congr_deriv ?_
    have hz : ∀ v, dot v zero = 0 := fun v => by simp [dot, zero]
    rw [hz, add_zero]
    unfold langField
    rw [if_pos hn, damping_work]
  · have := mul_nonneg hγ (gram_nonneg (S c.toSpinChain n) (openOmega L (S c.toSpinChain)
      (J c.toSpinChain) (B c.toSpinChain s c.t) n))
    linarith

theorem demoL_omega (i : ℕ) (hi : i < 4) :
    openOmega 4 (S demoL.toSpinChain) (J demoL.toSpinChain) (B demoL.toSpinChain 4 demoL.t) i
      ≠ zero := by
  intro h
  have h3 : openOmega 4 (S demoL.toSpinChain) (J demoL.toSpinChain)
      (B demoL.toSpinChain 4 demoL.t) i = zero := h
  have h1 := openOmega_z (m := 4) (J := J demoL.toSpinChain) (B := B demoL.toSpinChain 4 demoL.t)
    (S := S demoL.toSpinChain) (fun i hi => unit_S demoL_wf demo_unit hi) hi
  rw [h3] at h1
  have hi' : i = 0 ∨ i = 1 ∨ i = 2 ∨ i = 3 := by omega
  rcases hi' with rfl | rfl | rfl | rfl <;>
    norm_num [zBond, J, B, H0, demoL, demo, demoVars, drive, Config.default, Spec.add, abs_of_pos,
      zero] at h1

example : WF demoL.toSpinChain 4 4 ∧ (∀ x ∈ demoL.spins, IsUnit3 x) ∧ 0 < demoL.vars.beta ∧
    0 < demoL.gamma ∧
    (∀ i < 4, openOmega 4 (S demoL.toSpinChain) (J demoL.toSpinChain)
      (B demoL.toSpinChain 4 demoL.t) i ≠ zero) :=
  ⟨demoL_wf, demo_unit, by norm_num [demoL, demo, demoVars], by norm_num [demoL, demo, demoVars],
    demoL_omega⟩

/-! ### C46: without damping the energy of the open chain is conserved -/

theorem C46_energy_conserved (c : LangevinChain ℝ) (L s : ℕ) (zs : List (Noise ℝ))
    (w : WF c.toSpinChain L s) (hL : 2 ≤ L) (heven : L % 2 = 0) (hγ : c.gamma = 0)
    (_hdt : c.vars.dt ≠ 0) (_hb : c.vars.beta ≠ 0)
    (hd : c.vars.drive = .none ∨ c.vars.drive = .staticfield)
    (hu : ∀ x ∈ c.spins, IsUnit3 x) (hr : RegularRunL L s zs c) :
    ∃ c', c.updates zs = .ok c' ∧
      openEnergy L (S c'.toSpinChain) (J c'.toSpinChain) (B c'.toSpinChain s c'.t)
        = openEnergy L (S c.toSpinChain) (J c.toSpinChain) (B c.toSpinChain s c.t) := by
  obtain ⟨c', h, _, _⟩ := l_updates_unit w hL hu hr
  have hdr : ∀ t t', drive c.vars t = drive c.vars t' := by
    intro t t'
    unfold drive
    rcases hd with hd | hd <;> rw [hd]
  exact ⟨c', h, (l_updates_energy w hL heven hγ hdr hu hr h).1⟩

/-- The energy the program logs (`system_energy`) is conserved too if no field acts on the last
spin (which that function forgets, see C19). -/
theorem C46_logged_energy (c : LangevinChain ℝ) (L : ℕ) (zs : List (Noise ℝ))
    (w : WF c.toSpinChain L L) (hL : 2 ≤ L) (heven : L % 2 = 0) (hγ : c.gamma = 0)
    (_hdt : c.vars.dt ≠ 0) (_hb : c.vars.beta ≠ 0)
    (hd : c.vars.drive = .none ∨ c.vars.drive = .staticfield)
    (hlast : B c.toSpinChain L c.t (L - 1) = zero)
    (hu : ∀ x ∈ c.spins, IsUnit3 x) (hr : RegularRunL L L zs c) :
    ∃ c', c.updates zs = .ok c' ∧
      c'.toSpinChain.system_energy = c.toSpinChain.system_energy ∧
      ∃ e, c.toSpinChain.system_energy = .ok e := by
  obtain ⟨c', h, _, _⟩ := l_updates_unit w hL hu hr
  have hdr : ∀ t t', drive c.vars t = drive c.vars t' := by
    intro t t'
    unfold drive
    rcases hd with hd | hd <;> rw [hd]
  obtain ⟨h1, h2, h3, h4, h5⟩ := l_updates_energy w hL heven hγ hdr hu hr h
  have hB : B c'.toSpinChain L c'.t = B c.toSpinChain L c.t := B_congr h3 (by rw [h2]; exact hdr _ _)
  have hz : ∀ v, dot zero v = 0 := fun v => by simp [dot, zero]
  refine ⟨c', h, ?_, _, system_energy_eq w (by omega) (by omega)⟩
  rw [system_energy_eq w (by omega) (by omega), system_energy_eq h5 (by omega) (by omega), h1, hB,
    hlast, hz, hz]

/-- non-vacuity: the chain `demoL` without damping and drive, any noise -/
example (zs : List (Noise ℝ)) : ∃ c : LangevinChain ℝ, WF c.toSpinChain 4 4 ∧ c.gamma = 0 ∧
    c.vars.dt ≠ 0 ∧ c.vars.beta ≠ 0 ∧ c.vars.drive = .none ∧ (∀ x ∈ c.spins, IsUnit3 x) ∧
    RegularRunL 4 4 zs c := by
  let c : LangevinChain ℝ := { demoL with
                               gamma := 0
                               vars := { demoL.vars with drive := .none } }
  have w : WF c.toSpinChain 4 4 := by constructor <;> simp [c, demoL, demo, demoVars]
  have hn : NoiseOK c := by constructor <;> norm_num [c, demoL, demo, demoVars]
  refine ⟨c, w, rfl, hn.dt, hn.beta, rfl, demo_unit, ?_⟩
  refine (C44_strong_field c 4 4 zs w (by norm_num) hn demo_unit ?_).1
  intro z _ t i hi
  rw [show c.gamma = 0 from rfl, noiseField_zero, len_zero, add_zero]
  have hi' : i = 0 ∨ i = 1 ∨ i = 2 ∨ i = 3 := by omega
  rcases hi' with rfl | rfl | rfl | rfl <;>
    norm_num [zBond, J, B, H0, c, demoL, demo, demoVars, drive, Spec.add, abs_of_pos, zero]

section anyF
variable {F : Type} [Add F] [Sub F] [Mul F] [Div F] [Neg F] [OfScientific F] [FOps F]

/-! ### C47: the closing coupling is never used -/

/-- the chain with the coupling between the last and the first site replaced -/
def setClosing (L : ℕ) (v : V3 F) (c : LangevinChain F) : LangevinChain F :=
  { c with j_couple := c.j_couple.set (L - 1) v }

theorem closing_step (c : LangevinChain F) (L s : ℕ) (z : Noise F) (w : WF c.toSpinChain L s)
    (hL : 2 ≤ L) (v : V3 F) :
    (setClosing L v c).update z = (c.update z).map (setClosing L v) := by
  obtain ⟨j, hh, sp, hj, hhh, hsp⟩ := wf_tabs w (by omega)
  obtain ⟨e, he⟩ := h_ext_ok w.hs (c.t + c.vars.dt)
  have hj' : Tab (setClosing L v c).j_couple L (fun i => if i = L - 1 then v else j i) := by
    apply tab_of_getElem?
    · simp [setClosing, w.j]
    · intro i hi
      simp only [setClosing]
      by_cases h : i = L - 1
      · rw [if_pos h, h, List.getElem?_set_self (by rw [w.j]; omega)]
      · rw [if_neg h, List.getElem?_set_ne (fun h' => h h'.symm), hj.getElem? hi]
  have w' : WF (setClosing L v c).toSpinChain L s :=
    ⟨w.hsize, w.ssize, w.L_lt, w.s_lt, w.spins, by simp [setClosing, w.j], w.h, w.hs⟩
  by_cases hf : fisFinite (lSigma c) = true
  · obtain ⟨s1, g1, g2⟩ := l_update_tab w hL z hj hhh hsp he hf
    obtain ⟨s2, g3, g4⟩ := l_update_tab w' hL z hj' hhh hsp he hf
    have hs : s1 = s2 := by
      unfold Tab at g2 g4
      rw [g2, g4]
      congr 1
      apply stepGF_congr
      intro sp i hi
      apply langF_congr (by omega) _ hi
      intro k hk
      rw [if_neg (by omega)]
    rw [g1, g3, hs]
    rfl
  · have key : ∀ d : LangevinChain F, d.h_ext (d.t + d.vars.dt) = .ok e →
        ¬ fisFinite (lSigma d) = true → d.update z = .error .badVariance := by
      intro d hd hf
      unfold lSigma at hf
      unfold LangevinChain.update SpinChain.normalNew
      rw [hd, ok_bind]
      simp only [hf]
      rfl
    rw [key c he hf, key (setClosing L v c) he hf]
    rfl

/-- For any arithmetic and any noise history: changing the coupling that would close the ring changes
nothing but that coupling itself, including whether the program panics. -/
theorem C47_open (c : LangevinChain F) (L s : ℕ) (zs : List (Noise F)) (w : WF c.toSpinChain L s)
    (hL : 2 ≤ L) (v : V3 F) :
    (setClosing L v c).updates zs = (c.updates zs).map (setClosing L v) := by
  induction zs generalizing c with
  | nil => rfl
  | cons z zs ih =>
    unfold LangevinChain.updates
    rw [closing_step c L s z w hL v]
    cases h : c.update z with
    | error p => rfl
    | ok c1 => exact ih c1 (l_update_wf w h)

example : WF demoL.toSpinChain 4 4 ∧ 2 ≤ 4 ∧ setClosing 4 zero demoL ≠ demoL := by
  refine ⟨demoL_wf, by norm_num, fun h => ?_⟩
  have := congrArg (fun c : LangevinChain ℝ => (J c.toSpinChain 3).x) h
  norm_num [setClosing, J, demoL, demo, zero] at this

end anyF

/-! ### C48: the Metropolis update of the Langevin chain -/

theorem langevin_form (c : LangevinChain ℝ) (L s : ℕ) (d : Draw ℝ)
    (w : WF c.toSpinChain L s) (hL : 2 ≤ L) (h2 : 0 ≤ d.u2) (h2' : d.u2 ≤ 1) :
    c.metropolis_update d = .ok { metropolis c.vars.beta
      (ringEnergy L (S (replace c.toSpinChain (d.site % L) (spherePoint d.u1 d.u2)))
          (J c.toSpinChain) (fun _ => zero)
        - ringEnergy L (S c.toSpinChain) (J c.toSpinChain) (fun _ => zero)) d.u3 c.toSpinChain
      (replace c.toSpinChain (d.site % L) (spherePoint d.u1 d.u2)) with gamma := c.gamma } := by
  have hi : d.site % L < L := Nat.mod_lt _ (by omega)
  have hll : left L (d.site % L) < L := left_lt (by omega)
  have hrr : right L (d.site % L) < L := right_lt' (by omega)
  have hsp : ∀ i < L, idx c.spins i = .ok ⟨S c.toSpinChain i⟩ := fun i hi => (tab_S w).idx hi
  have hjj : ∀ i < L, idx c.j_couple i = .ok (J c.toSpinChain i) := fun i hi => (tab_J w).idx hi
  unfold LangevinChain.metropolis_update
  simp only [hsize_nat w, genRange_ok (by omega : 1 ≤ L), ok_bind, leftIdx_ok hi, rightIdx_ok hi,
    hsp _ hi, hsp _ hll, hsp _ hrr, hjj _ hi, hjj _ hll, proposal_eq h2 h2']
  have := metroDe_eq (S c.toSpinChain) (J c.toSpinChain) (fun _ => zero) hL hi
    (spherePoint d.u1 d.u2)
  have hz : (⟨0.0, 0.0, 0.0⟩ : V3 ℝ) = zero := by rw [lit_0]; rfl
  rw [hz, this, S_replace w hi, finish_eq w hi, ok_bind]
  rfl

/-- Full claim: the energy is that of the open chain and includes the static fields `H0`.  Proved: the
decision is the one for the *ring without* static field. -/
theorem C48_metropolis_partial (c : LangevinChain ℝ) (L s : ℕ) (d : Draw ℝ)
    (w : WF c.toSpinChain L s) (hL : 2 ≤ L) (hd : ValidDraw d) :
    c.metropolis_update d = .ok { metropolis c.vars.beta
      (ringEnergy L (S (replace c.toSpinChain (d.site % L) (spherePoint d.u1 d.u2)))
          (J c.toSpinChain) (fun _ => zero)
        - ringEnergy L (S c.toSpinChain) (J c.toSpinChain) (fun _ => zero)) d.u3 c.toSpinChain
      (replace c.toSpinChain (d.site % L) (spherePoint d.u1 d.u2)) with gamma := c.gamma } :=
  langevin_form c L s d w hL hd.u2.1 hd.u2.2.le

/-- Without static field it is the energy of the ring. -/
theorem C48_no_static_field_partial (c : LangevinChain ℝ) (L s : ℕ) (d : Draw ℝ)
    (w : WF c.toSpinChain L s) (hL : 2 ≤ L) (hd : ValidDraw d)
    (h0 : ∀ i < L, H0 c.toSpinChain i = zero) :
    c.metropolis_update d = .ok { metropolis c.vars.beta
      (ringEnergy L (S (replace c.toSpinChain (d.site % L) (spherePoint d.u1 d.u2)))
          (J c.toSpinChain) (H0 c.toSpinChain)
        - ringEnergy L (S c.toSpinChain) (J c.toSpinChain) (H0 c.toSpinChain)) d.u3 c.toSpinChain
      (replace c.toSpinChain (d.site % L) (spherePoint d.u1 d.u2)) with gamma := c.gamma } := by
  have : H0 c.toSpinChain = fun _ => zero := by
    funext i
    by_cases hi : i < L
    · exact h0 i hi
    · unfold H0
      rw [List.getElem?_eq_none (by rw [w.h]; omega)]
      rfl
  rw [this]
  exact C48_metropolis_partial c L s d w hL hd

example : ∃ c : LangevinChain ℝ, WF c.toSpinChain 4 4 ∧ (∀ i < 4, H0 c.toSpinChain i = zero) ∧
    J c.toSpinChain 0 ≠ zero := by
  refine ⟨{ demoL with
            static_h := [zero, zero, zero, zero] }, ?_, ?_, ?_⟩
  · constructor <;> simp [demoL, demo, demoVars]
  · intro i hi
    have hi' : i = 0 ∨ i = 1 ∨ i = 2 ∨ i = 3 := by omega
    rcases hi' with rfl | rfl | rfl | rfl <;> rfl
  · intro h
    have := congrArg V3.x h
    norm_num [J, demoL, demo, zero] at this

/-- The full claim holds for chains without static field and without the coupling that closes the ring. -/
theorem C48_open_partial (c : LangevinChain ℝ) (L s : ℕ) (d : Draw ℝ)
    (w : WF c.toSpinChain L s) (hL : 2 ≤ L) (hd : ValidDraw d)
    (h0 : ∀ i < L, H0 c.toSpinChain i = zero) (hJ : J c.toSpinChain (L - 1) = zero) :
    c.metropolis_update d = .ok { metropolis c.vars.beta
      (openEnergy L (S (replace c.toSpinChain (d.site % L) (spherePoint d.u1 d.u2)))
          (J c.toSpinChain) (H0 c.toSpinChain)
        - openEnergy L (S c.toSpinChain) (J c.toSpinChain) (H0 c.toSpinChain)) d.u3 c.toSpinChain
      (replace c.toSpinChain (d.site % L) (spherePoint d.u1 d.u2)) with gamma := c.gamma } := by
  have : cutJ L (J c.toSpinChain) = J c.toSpinChain := by
    funext i
    unfold cutJ
    split_ifs with h
    · rfl
    · rcases Nat.lt_or_ge i L with hi | hi
      · rw [show i = L - 1 by omega, hJ]
      · unfold J
        rw [List.getElem?_eq_none (by rw [w.j]; omega)]
        rfl
  rw [openEnergy_cut (by omega), openEnergy_cut (by omega), this]
  exact C48_no_static_field_partial c L s d w hL hd h0

example : ∃ c : LangevinChain ℝ, WF c.toSpinChain 4 4 ∧ (∀ i < 4, H0 c.toSpinChain i = zero) ∧
    J c.toSpinChain (4 - 1) = zero ∧ J c.toSpinChain 0 ≠ zero := by
  refine ⟨{ demoL with
            static_h := [zero, zero, zero, zero]
            j_couple := [⟨1, 1, 1⟩, ⟨1, 1, 1⟩, ⟨1, 1, 1⟩, zero] }, ?_, ?_, rfl, ?_⟩
  · constructor <;> simp [demoL, demo, demoVars]
  · intro i hi
    have hi' : i = 0 ∨ i = 1 ∨ i = 2 ∨ i = 3 := by omega
    rcases hi' with rfl | rfl | rfl | rfl <;> rfl
  · intro h
    have := congrArg V3.x h
    norm_num [J, zero] at this

/-- three spins without static field -/
noncomputable def bondOnly : LangevinChain ℝ where
  j_couple := [⟨1, 0, 0⟩, ⟨1, 0, 0⟩, ⟨1, 0, 0⟩]
  static_h := [zero, zero, zero]
  spins := [⟨⟨0, 0, -1⟩⟩, ⟨⟨-1, 0, 0⟩⟩, ⟨⟨-1, 0, 0⟩⟩]
  t := 0
  vars := { demoVars with hsize := 3, ssize := 3, beta := 1 }
  file := none
  gamma := 1 / 10

theorem bondOnly_wf : WF bondOnly.toSpinChain 3 3 := by
  constructor <;> simp [bondOnly, demoVars]

/-- The sampler couples the two ends of the open chain: even without static field its decision is not
that of the energy of the open chain. -/
theorem C48_negation_open : ∃ (c : LangevinChain ℝ) (d : Draw ℝ), WF c.toSpinChain 3 3 ∧ ValidDraw d ∧
    (∀ x ∈ c.spins, IsUnit3 x) ∧ (∀ i < 3, H0 c.toSpinChain i = zero) ∧
    c.metropolis_update d ≠ .ok { metropolis c.vars.beta
      (openEnergy 3 (S (replace c.toSpinChain (d.site % 3) (spherePoint d.u1 d.u2)))
          (J c.toSpinChain) (H0 c.toSpinChain)
        - openEnergy 3 (S c.toSpinChain) (J c.toSpinChain) (H0 c.toSpinChain)) d.u3 c.toSpinChain
      (replace c.toSpinChain (d.site % 3) (spherePoint d.u1 d.u2)) with gamma := c.gamma } := by
  have w := bondOnly_wf
  have hd : ValidDraw ⟨0, 0, (1 : ℝ) / 2, Real.exp (-(1 * 2))⟩ :=
    exp_draw (by norm_num) 0 (by norm_num) (by norm_num)
  refine ⟨bondOnly, ⟨0, 0, 1 / 2, Real.exp (-(1 * 2))⟩, w, hd, ?_, ?_, ?_⟩
  · intro x hx
    simp only [bondOnly, List.mem_cons, List.not_mem_nil, or_false] at hx
    rw [unit_iff]
    rcases hx with rfl | rfl | rfl <;> norm_num [dot]
  · intro i hi
    have hi' : i = 0 ∨ i = 1 ∨ i = 2 := by omega
    rcases hi' with rfl | rfl | rfl <;> rfl
  · rw [C48_metropolis_partial bondOnly 3 3 _ w (by norm_num) hd]
    simp only [Nat.zero_mod, x_point]
    rw [S_replace w (by norm_num)]
    have e1 : ringEnergy 3 (Function.update (S bondOnly.toSpinChain) 0 ⟨1, 0, 0⟩)
        (J bondOnly.toSpinChain) (fun _ => zero)
        - ringEnergy 3 (S bondOnly.toSpinChain) (J bondOnly.toSpinChain) (fun _ => zero) = 2 := by
      norm_num [ringEnergy, sum_range_succ, S, J, bondOnly, dot, had, zero, Function.update, right]
    have e2 : openEnergy 3 (Function.update (S bondOnly.toSpinChain) 0 ⟨1, 0, 0⟩)
        (J bondOnly.toSpinChain) (H0 bondOnly.toSpinChain)
        - openEnergy 3 (S bondOnly.toSpinChain) (J bondOnly.toSpinChain)
          (H0 bondOnly.toSpinChain) = 1 := by
      norm_num [openEnergy, sum_range_succ, S, J, H0, bondOnly, dot, had, Function.update, zero]
    rw [e1, e2]
    intro h
    refine metropolis_differ (beta := 1) (a := 1) (b := 2) (by norm_num) (by norm_num)
      (by norm_num) (replace_ne (c := bondOnly.toSpinChain) w (i := 0) (v := ⟨1, 0, 0⟩)
        (by norm_num) ?_) ?_
    · intro h
      have := congrArg V3.x h
      norm_num [S, bondOnly] at this
    · exact (congrArg LangevinChain.toSpinChain (Except.ok.inj h)).symm

/-- three free spins along `-z`, in static fields of strength 1 along `z` -/
noncomputable def fieldOnly : LangevinChain ℝ where
  j_couple := [⟨1, 0, 0⟩, ⟨1, 0, 0⟩, ⟨1, 0, 0⟩]
  static_h := [⟨0, 0, 1⟩, ⟨0, 0, 1⟩, ⟨0, 0, 1⟩]
  spins := [⟨⟨0, 0, -1⟩⟩, ⟨⟨-1, 0, 0⟩⟩, ⟨⟨0, 0, -1⟩⟩]
  t := 0
  vars := { demoVars with hsize := 3, ssize := 3, beta := 1 }
  file := none
  gamma := 1 / 10

theorem fieldOnly_wf : WF fieldOnly.toSpinChain 3 3 := by
  constructor <;> simp [fieldOnly, demoVars]

/-- The sampler of the Langevin chain ignores the static field: a proposal is accepted that the
energy of the chain in its field would reject. -/
theorem C48_negation : ∃ (c : LangevinChain ℝ) (d : Draw ℝ), WF c.toSpinChain 3 3 ∧ ValidDraw d ∧
    (∀ x ∈ c.spins, IsUnit3 x) ∧
    c.metropolis_update d ≠ .ok { metropolis c.vars.beta
      (ringEnergy 3 (S (replace c.toSpinChain (d.site % 3) (spherePoint d.u1 d.u2)))
          (J c.toSpinChain) (H0 c.toSpinChain)
        - ringEnergy 3 (S c.toSpinChain) (J c.toSpinChain) (H0 c.toSpinChain)) d.u3 c.toSpinChain
      (replace c.toSpinChain (d.site % 3) (spherePoint d.u1 d.u2)) with gamma := c.gamma } := by
  have w := fieldOnly_wf
  have hd : ValidDraw ⟨0, 0, (1 : ℝ) / 2, Real.exp (-(1 * 2))⟩ :=
    exp_draw (by norm_num) 0 (by norm_num) (by norm_num)
  refine ⟨fieldOnly, ⟨0, 0, 1 / 2, Real.exp (-(1 * 2))⟩, w, hd, ?_, ?_⟩
  · intro x hx
    simp only [fieldOnly, List.mem_cons, List.not_mem_nil, or_false] at hx
    rw [unit_iff]
    rcases hx with rfl | rfl | rfl <;> norm_num [dot]
  · rw [C48_metropolis_partial fieldOnly 3 3 _ w (by norm_num) hd]
    simp only [Nat.zero_mod, x_point]
    rw [S_replace w (by norm_num)]
    have e1 : ringEnergy 3 (Function.update (S fieldOnly.toSpinChain) 0 ⟨1, 0, 0⟩)
        (J fieldOnly.toSpinChain) (fun _ => zero)
        - ringEnergy 3 (S fieldOnly.toSpinChain) (J fieldOnly.toSpinChain) (fun _ => zero) = 1 := by
      norm_num [ringEnergy, sum_range_succ, S, J, fieldOnly, dot, had, zero, Function.update, right]
    have e2 : ringEnergy 3 (Function.update (S fieldOnly.toSpinChain) 0 ⟨1, 0, 0⟩)
        (J fieldOnly.toSpinChain) (H0 fieldOnly.toSpinChain)
        - ringEnergy 3 (S fieldOnly.toSpinChain) (J fieldOnly.toSpinChain)
          (H0 fieldOnly.toSpinChain) = 2 := by
      norm_num [ringEnergy, sum_range_succ, S, J, H0, fieldOnly, dot, had, Function.update, right]
    rw [e1, e2]
    intro h
    refine metropolis_differ (beta := 1) (a := 1) (b := 2) (by norm_num) (by norm_num)
      (by norm_num) (replace_ne (c := fieldOnly.toSpinChain) w (i := 0) (v := ⟨1, 0, 0⟩)
        (by norm_num) ?_) ?_
    · intro h
      have := congrArg V3.x h
      norm_num [S, fieldOnly] at this
    · exact congrArg LangevinChain.toSpinChain (Except.ok.inj h)

/-! ### C68: the boundary term is the rate of change of the energy -/

/-- energy of the open chain `dt` after the start of a noise-free update with time-step `dt` -/
noncomputable def quietEnergy (c : LangevinChain ℝ) (L : ℕ) (dt : ℝ) : ℝ :=
  openEnergy L (fun i => quietAfter c i dt) (J c.toSpinChain) (B c.toSpinChain L (c.t + dt))

theorem quietEnergy_deriv {c : LangevinChain ℝ} {L : ℕ} (w : WF c.toSpinChain L L) (hL : 2 ≤ L)
    (heven : L % 2 = 0) (hu : ∀ x ∈ c.spins, IsUnit3 x)
    (h0 : ∀ i < L, openOmega L (S c.toSpinChain) (J c.toSpinChain) (B c.toSpinChain L c.t) i ≠ zero) :
    HasDerivAt (quietEnergy c L)
      (-(∑ i ∈ range L, if i = 0 ∨ i + 1 = L then
          c.gamma * (dot (S c.toSpinChain i) (S c.toSpinChain i)
            * dot (openOmega L (S c.toSpinChain) (J c.toSpinChain) (B c.toSpinChain L c.t) i)
              (openOmega L (S c.toSpinChain) (J c.toSpinChain) (B c.toSpinChain L c.t) i)
            - dot (S c.toSpinChain i)
              (openOmega L (S c.toSpinChain) (J c.toSpinChain) (B c.toSpinChain L c.t) i) ^ 2)
          else 0)
        + 2 * Real.pi / c.vars.tau * ∑ i ∈ range L, dot (c.h_extp c.t) (S c.toSpinChain i)) 0 := by
  have hS := fun i (hi : i < L) => quiet_deriv w hL heven hu h0 i hi
  have hB : ∀ i < L, HasDeriv3 (fun x => B c.toSpinChain L (c.t + x) i)
      (smul (2 * Real.pi / c.vars.tau) (c.h_extp c.t)) 0 := by
    intro i hi
    have hd := C32_derivative c.toSpinChain c.t
    simp only [h_ext_eq w] at hd
    have hx : HasDerivAt (fun x : ℝ => c.t + x) 1 0 := by
      simpa using (hasDerivAt_id' (0 : ℝ)).const_add c.t
    have ht : c.t = c.t + 0 := (add_zero _).symm
    unfold B
    simp only [if_pos hi]
    refine ⟨?_, ?_, ?_⟩
    · have := hd.1
      rw [ht] at this
      have := (this.comp 0 hx).const_add (H0 c.toSpinChain i).x
      exact this.congr_deriv (by rw [mul_one, add_zero])
    · have := hd.2.1
      rw [ht] at this
      have := (this.comp 0 hx).const_add (H0 c.toSpinChain i).y
      exact this.congr_deriv (by rw [mul_one, add_zero])
    · have := hd.2.2
      rw [ht] at this
      have := (this.comp 0 hx).const_add (H0 c.toSpinChain i).z
      exact this.congr_deriv (by rw [mul_one, add_zero])
  have hz : ∀ i < L, quietAfter c i 0 = S c.toSpinChain i := by
    intro i hi
    have hr : RegularStepL (withDt c 0) L L quiet := by
      have hnf : noiseField (2 * (L / 2)) c.gamma c.vars.beta 0 quiet = fun _ => zero := by
        funext i
        ext <;> simp [noiseField, smul, zero]
      have hf : ∀ i < L, langOm (withDt c 0) L L quiet (S c.toSpinChain) i ≠ zero := by
        intro i hi
        show langField (2 * (L / 2)) c.gamma (J c.toSpinChain) (B c.toSpinChain L (c.t + 0))
          (noiseField (2 * (L / 2)) c.gamma c.vars.beta 0 quiet) (S c.toSpinChain) i ≠ zero
        rw [hnf, add_zero, show 2 * (L / 2) = L by omega]
        unfold langField
        split
        · refine damped_ne _ ?_
          have := dot_self_pos (h0 i hi)
          simpa [dot, zero] using this
        · exact h0 i hi
      show RegularG _ _ 0 (S c.toSpinChain)
      unfold RegularG
      rw [zero_div, subStepG_zero, subStepG_zero, show 2 * (L / 2) = L by omega]
      exact ⟨fun i hi _ => hf i hi, fun i hi _ => hf i hi, fun i hi _ => hf i hi⟩
    have wd : WF (withDt c 0).toSpinChain L L :=
      ⟨w.hsize, w.ssize, w.L_lt, w.s_lt, w.spins, w.j, w.h, w.hs⟩
    obtain ⟨c', h1, _, h3⟩ := l_update_spec wd hL hu hr
    unfold quietAfter
    rw [h1]
    show S c'.toSpinChain i = _
    rw [h3]
    show stepG _ _ 0 (S c.toSpinChain) i = _
    unfold stepG
    rw [zero_div, subStepG_zero, subStepG_zero, subStepG_zero]
  have hd := openEnergy_deriv (m := L) (J := J c.toSpinChain) hS hB
  refine hd.congr_deriv ?_
  rw [mul_sum, ← sum_neg_distrib, ← sum_add_distrib]
  apply sum_congr rfl
  intro i hi
  rw [mem_range] at hi
  have ho : openOmega L (fun k => quietAfter c k 0) (J c.toSpinChain) (B c.toSpinChain L (c.t + 0)) i
      = openOmega L (S c.toSpinChain) (J c.toSpinChain) (B c.toSpinChain L c.t) i := by
    unfold openOmega
    rw [add_zero]
    by_cases a : 0 < i <;> by_cases b : i + 1 < L <;> simp only [a, b, if_true, if_false]
    · rw [hz _ (by omega), hz _ b]
    · rw [hz _ (by omega)]
    · rw [hz _ b]
  rw [ho, hz i hi]
  congr 1
  · unfold langField
    split
    · rw [damping_work]
    · rw [work_zero]
  · simp only [dot, smul]; ring

/-- The boundary term as the code computes it, on chains driven as a whole and without static field
on the two ends: the rate of change of the energy of the open chain in a noise-free update, plus the
mean contribution of the noise (see `C68_noise_contribution`). -/
theorem C68_boundary_partial (c : LangevinChain ℝ) (L : ℕ) (w : WF c.toSpinChain L L) (hL : 2 ≤ L)
    (heven : L % 2 = 0) (hu : ∀ x ∈ c.spins, IsUnit3 x) (_hb : 0 < c.vars.beta)
    (_hγ : 0 ≤ c.gamma) (_hτ : c.vars.tau ≠ 0)
    (hl : H0 c.toSpinChain 0 = zero) (hr : H0 c.toSpinChain (L - 1) = zero)
    (h0 : ∀ i < L, openOmega L (S c.toSpinChain) (J c.toSpinChain) (B c.toSpinChain L c.t) i ≠ zero) :
    ∃ rate, HasDerivWithinAt (quietEnergy c L) rate (Set.Ici 0) 0 ∧
      c.boundary_term = .ok (rate + 2 * c.gamma / c.vars.beta *
        (dot (S c.toSpinChain 0) (openOmega L (S c.toSpinChain) (J c.toSpinChain)
            (B c.toSpinChain L c.t) 0)
          + dot (S c.toSpinChain (L - 1)) (openOmega L (S c.toSpinChain) (J c.toSpinChain)
            (B c.toSpinChain L c.t) (L - 1)))) := by
  refine ⟨_, (quietEnergy_deriv w hL heven hu h0).hasDerivWithinAt, ?_⟩
  have hsp : ∀ i < L, idx c.spins i = .ok ⟨S c.toSpinChain i⟩ := fun i hi => (tab_S w).idx hi
  have hjj : ∀ i < L, idx c.j_couple i = .ok (J c.toSpinChain i) := fun i hi => (tab_J w).idx hi
  have hl2 : L - 1 - 1 = L - 2 := by omega
  unfold LangevinChain.boundary_term
  simp only [ssize_nat w, usub_ok (show 1 ≤ L by omega), usub_ok (show 2 ≤ L by omega), ok_bind,
    hsp 0 (by omega), hsp 1 (by omega), hsp (L - 1) (by omega), hsp (L - 2) (by omega),
    hjj 0 (by omega), hjj (L - 2) (by omega), h_ext_eq w, m_eq w le_rfl]
  show Except.ok _ = Except.ok _
  congr 1
  have e0 : openOmega L (S c.toSpinChain) (J c.toSpinChain) (B c.toSpinChain L c.t) 0
      = Spec.sub (had (J c.toSpinChain 0) (S c.toSpinChain 1)) (drive c.vars c.t) := by
    unfold openOmega B
    rw [if_neg (by omega), if_pos (by omega), if_pos (by omega), hl]
    ext <;> simp only [Spec.sub, Spec.add, zero] <;> ring
  have e1 : openOmega L (S c.toSpinChain) (J c.toSpinChain) (B c.toSpinChain L c.t) (L - 1)
      = Spec.sub (had (J c.toSpinChain (L - 2)) (S c.toSpinChain (L - 2))) (drive c.vars c.t) := by
    unfold openOmega B
    rw [if_pos (by omega), if_neg (by omega), if_pos (by omega), hr, hl2]
    ext <;> simp only [Spec.sub, Spec.add, zero] <;> ring
  have hsum : ∀ f : ℕ → ℝ, (∑ i ∈ range L, if i = 0 ∨ i + 1 = L then f i else 0)
      = f 0 + f (L - 1) := by
    intro f
    obtain ⟨n, rfl⟩ : ∃ n, L = n + 2 := ⟨L - 2, by omega⟩
    rw [sum_range_succ, sum_range_succ', if_pos (by omega), if_pos (by omega),
      sum_eq_zero (fun i hi => by rw [mem_range] at hi; rw [if_neg (by omega)])]
    rw [show n + 2 - 1 = n + 1 by omega]
    ring
  rw [hsum, e0, e1]
  have hm : ∑ i ∈ range L, dot (c.h_extp c.t) (S c.toSpinChain i)
      = dot (c.h_extp c.t) ⟨∑ i ∈ range L, (S c.toSpinChain i).x, ∑ i ∈ range L,
        (S c.toSpinChain i).y, ∑ i ∈ range L, (S c.toSpinChain i).z⟩ := by
    simp only [dot]
    rw [sum_add_distrib, sum_add_distrib, ← mul_sum, ← mul_sum, ← mul_sum]
  rw [hm]
  simp only [SpinChain.sqMacro, SpinChain.dotMacro, SpinChain.j_s, lit_0, lit_1, lit_2, fpi_real, dot,
    Spec.sub, had]
  ring

/-- non-vacuity: `demoL` without static field on the ends -/
example : ∃ c : LangevinChain ℝ, WF c.toSpinChain 4 4 ∧ (∀ x ∈ c.spins, IsUnit3 x) ∧
    0 < c.vars.beta ∧ 0 < c.gamma ∧ c.vars.tau ≠ 0 ∧ H0 c.toSpinChain 0 = zero ∧
    H0 c.toSpinChain 3 = zero ∧ ∀ i < 4, openOmega 4 (S c.toSpinChain) (J c.toSpinChain)
      (B c.toSpinChain 4 c.t) i ≠ zero := by
  let c : LangevinChain ℝ := { demoL with
    static_h := [zero, ⟨1 / 10, 0, 6⟩, ⟨0, 0, 6⟩, zero]
    j_couple := [⟨1, 1, 9⟩, ⟨1, 1, 1⟩, ⟨1, 1, 9⟩, ⟨1, 1, 1⟩]
    spins := [⟨⟨0, 0, 1⟩⟩, ⟨⟨0, 0, 1⟩⟩, ⟨⟨0, 0, 1⟩⟩, ⟨⟨0, 0, 1⟩⟩] }
  refine ⟨c, ?_, ?_, ?_, ?_, ?_, rfl, rfl, ?_⟩
  · constructor <;> simp [c, demoL, demo, demoVars]
  · intro x hx
    simp only [c, List.mem_cons, List.not_mem_nil, or_false, or_self] at hx
    rw [unit_iff, hx]
    norm_num [dot]
  · norm_num [c, demoL, demo, demoVars]
  · norm_num [c, demoL, demo, demoVars]
  · norm_num [c, demoL, demo, demoVars, Config.default]
  · intro i hi h
    have := congrArg V3.z h
    have hi' : i = 0 ∨ i = 1 ∨ i = 2 ∨ i = 3 := by omega
    rcases hi' with rfl | rfl | rfl | rfl <;>
      norm_num [openOmega, J, B, S, H0, c, demoL, demo, demoVars, drive, Config.default, Spec.add,
        Spec.sub, had, zero] at this

/-- Mean contribution of the noise: kicks about the three axes, each of variance `σ²`, change the
energy `-S·Ω` of a spin by `σ² S·Ω` on average to lowest order (half the sum of the second
derivatives); per unit time `σ² = 2γ/β`. -/
theorem C68_noise_contribution (v Ω : V3 ℝ) :
    ∃ f' f'' : V3 ℝ → ℝ → ℝ,
      (∀ e ∈ [⟨1, 0, 0⟩, ⟨0, 1, 0⟩, ⟨0, 0, 1⟩], ∀ θ,
        HasDerivAt (fun θ => -dot (precess v e θ) Ω) (f' e θ) θ ∧
        HasDerivAt (f' e) (f'' e θ) θ) ∧
      1 / 2 * (f'' ⟨1, 0, 0⟩ 0 + f'' ⟨0, 1, 0⟩ 0 + f'' ⟨0, 0, 1⟩ 0) = dot v Ω := by
  let p : V3 ℝ → ℝ := fun e => dot e v * dot e Ω
  let q : V3 ℝ → ℝ := fun e => dot v Ω - dot e v * dot e Ω
  let r : V3 ℝ → ℝ := fun e => dot (cross e v) Ω
  refine ⟨fun e θ => q e * Real.sin θ + r e * Real.cos θ,
    fun e θ => q e * Real.cos θ - r e * Real.sin θ, ?_, ?_⟩
  · intro e he θ
    have hl : len e = 1 := by
      simp only [List.mem_cons, List.not_mem_nil, or_false] at he
      rcases he with rfl | rfl | rfl <;> norm_num [len, dot]
    constructor
    · have hf : (fun θ => -dot (precess v e θ) Ω)
          = fun θ => -p e - q e * Real.cos θ + r e * Real.sin θ := by
        funext θ
        unfold precess
        rw [hl]
        simp only [p, q, r, dot, cross, Spec.add, Spec.sub, smul, one_mul, div_one]
        ring
      rw [hf]
      have := (((Real.hasDerivAt_cos θ).const_mul (q e)).const_sub (-p e)).add
        ((Real.hasDerivAt_sin θ).const_mul (r e))
      refine this.congr_deriv ?_
      ring
    · have := ((Real.hasDerivAt_sin θ).const_mul (q e)).add
        ((Real.hasDerivAt_cos θ).const_mul (r e))
      refine this.congr_deriv ?_
      ring
  · simp only [q, r, dot, Real.cos_zero, Real.sin_zero]
    ring

/-- two free spins along `x` in a static field along `z` -/
noncomputable def freeL : LangevinChain ℝ where
  j_couple := [zero, zero]
  static_h := [⟨0, 0, 1⟩, ⟨0, 0, 1⟩]
  spins := [⟨⟨1, 0, 0⟩⟩, ⟨⟨1, 0, 0⟩⟩]
  t := 0
  vars := { demoVars with hsize := 2, ssize := 2, beta := 1, drive := .none }
  file := none
  gamma := 1

theorem freeL_wf : WF freeL.toSpinChain 2 2 := by constructor <;> simp [freeL, demoVars]

/-- With static fields on the ends the logged boundary term is not the rate: the code leaves the
static field out, the dynamics do not. -/
theorem C68_negation : ∃ (c : LangevinChain ℝ) (rate : ℝ), WF c.toSpinChain 2 2 ∧
    (∀ x ∈ c.spins, IsUnit3 x) ∧ 0 < c.vars.beta ∧ 0 < c.gamma ∧ c.vars.tau ≠ 0 ∧
    HasDerivWithinAt (quietEnergy c 2) rate (Set.Ici 0) 0 ∧
    (∀ n < 2, dot (S c.toSpinChain n) (openOmega 2 (S c.toSpinChain) (J c.toSpinChain)
      (B c.toSpinChain 2 c.t) n) = 0) ∧
    rate = -2 ∧ c.boundary_term = .ok 0 := by
  have w := freeL_wf
  have hu : ∀ x ∈ freeL.spins, IsUnit3 x := by
    intro x hx
    simp only [freeL, List.mem_cons, List.not_mem_nil, or_false, or_self] at hx
    rw [unit_iff, hx]
    norm_num [dot]
  have hom : ∀ i < 2, openOmega 2 (S freeL.toSpinChain) (J freeL.toSpinChain)
      (B freeL.toSpinChain 2 freeL.t) i = ⟨0, 0, -1⟩ := by
    intro i hi
    have hi' : i = 0 ∨ i = 1 := by omega
    rcases hi' with rfl | rfl <;>
      norm_num [openOmega, S, J, B, H0, freeL, drive, Spec.add, Spec.sub, had, zero, demoVars]
  have hd := quietEnergy_deriv w (by norm_num) (by norm_num) hu (by
    intro i hi h
    rw [hom i hi] at h
    have := congrArg V3.z h
    norm_num [zero] at this)
  refine ⟨freeL, _, w, hu, by norm_num [freeL], by norm_num [freeL], ?_, hd.hasDerivWithinAt, ?_, ?_,
    ?_⟩
  · norm_num [freeL, demoVars, Config.default]
  · intro n hn
    rw [hom n hn]
    have hi' : n = 0 ∨ n = 1 := by omega
    rcases hi' with rfl | rfl <;> norm_num [S, freeL, dot]
  · rw [sum_range_succ, sum_range_succ, sum_range_succ, sum_range_succ, hom 0 (by norm_num),
      hom 1 (by norm_num)]
    norm_num [S, freeL, dot, SpinChain.h_extp, demoVars]
  · have hm := m_eq w le_rfl
    have hh := h_ext_eq w freeL.t
    unfold LangevinChain.boundary_term
    rw [hm, hh]
    norm_num [S, freeL, dot, SpinChain.h_extp, demoVars, sum_range_succ, idx, usub, asUsize, drive,
      SpinChain.sqMacro, SpinChain.dotMacro, SpinChain.j_s, ok_bind, zero]

/-! ### C69: rows of the Langevin log -/

theorem C69_row (c : LangevinChain ℝ) (L s : ℕ) (w : WF c.toSpinChain L s) (hs : 2 ≤ s)
    (hsL : s ≤ L) :
    ∃ row : List ℝ, c.log = .ok row ∧ c.toSpinChain.system_energy = .ok (row.getD 1 0) ∧
      c.boundary_term = .ok (row.getD 7 0) ∧
      row = [c.t, row.getD 1 0, row.getD 1 0,
        (∑ i ∈ range s, (S c.toSpinChain i).x) / s, (∑ i ∈ range s, (S c.toSpinChain i).y) / s,
        (∑ i ∈ range s, (S c.toSpinChain i).z) / s, (∑ i ∈ range L, (S c.toSpinChain i).z) / L,
        row.getD 7 0] := by
  have hE := system_energy_eq w (by omega) hsL
  have hsp : ∀ i < L, idx c.spins i = .ok ⟨S c.toSpinChain i⟩ := fun i hi => (tab_S w).idx hi
  have hjj : ∀ i < L, idx c.j_couple i = .ok (J c.toSpinChain i) := fun i hi => (tab_J w).idx hi
  have hbt : ∃ b, c.boundary_term = .ok b := by
    unfold LangevinChain.boundary_term
    simp only [ssize_nat w, usub_ok (show 1 ≤ s by omega), usub_ok (show 2 ≤ s by omega), ok_bind,
      hsp 0 (by omega), hsp 1 (by omega), hsp (s - 1) (by omega), hsp (s - 2) (by omega),
      hjj 0 (by omega), hjj (s - 2) (by omega), h_ext_eq w, m_eq w hsL]
    exact ⟨_, rfl⟩
  obtain ⟨b, hb⟩ := hbt
  have hmt : c.m_tot.z = ∑ i ∈ range L, (S c.toSpinChain i).z := by
    unfold LangevinChain.m_tot
    have key : ∀ (xs : List (Spin ℝ)) (a : V3 ℝ),
        (xs.foldl (fun acc x => ⟨acc.x + x.dir.x, acc.y + x.dir.y, acc.z + x.dir.z⟩) a : V3 ℝ).z
          = a.z + (xs.map fun x => x.dir.z).sum := by
      intro xs
      induction xs with
      | nil => intro a; simp
      | cons x xs ih => intro a; rw [List.foldl_cons, ih, List.map_cons, List.sum_cons]; ring
    rw [key, lit_0, zero_add]
    rw [← w.spins, ← Fin.sum_univ_eq_sum_range (fun i => (S c.toSpinChain i).z), ← List.sum_ofFn]
    congr 1
    apply List.ext_getElem
    · simp
    · intro i h1 h2
      simp only [List.getElem_map, List.getElem_ofFn, S]
      rw [List.getElem?_eq_getElem (by simpa using h1)]
      rfl
  set e := (openEnergy s (S c.toSpinChain) (J c.toSpinChain) (B c.toSpinChain s c.t)
      - dot (B c.toSpinChain s c.t (s - 1)) (S c.toSpinChain (s - 1))) / ((s : ℝ) - 1) with he
  refine ⟨[c.t, e, e,
        (∑ i ∈ range s, (S c.toSpinChain i).x) / s, (∑ i ∈ range s, (S c.toSpinChain i).y) / s,
        (∑ i ∈ range s, (S c.toSpinChain i).z) / s, (∑ i ∈ range L, (S c.toSpinChain i).z) / L,
        b], ?_, hE, hb, rfl⟩
  unfold LangevinChain.log
  rw [hE, hb, m_eq w hsL, ok_bind, ok_bind]
  simp only [hmt, w.hsize, w.ssize, fofInt_real]
  rfl

example : WF demoL.toSpinChain 4 4 ∧ 2 ≤ 4 ∧ 4 ≤ 4 := ⟨demoL_wf, by norm_num, by norm_num⟩

end Verif.Props
