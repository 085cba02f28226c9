/-
Property C103: floating point with infinities and NaN, but without rounding, does what exact
arithmetic does.  The model with extended numbers (`XF`: division by zero gives an infinity or NaN)
is compared with the model over ℝ (where division by zero gives 0): the hypotheses of the
theorems below are the complete list of divisors that must not vanish.
-/
import Verif.Lemmas.ExactRun
import Verif.Props.Langevin
import Verif.Props.Energy

namespace Verif.Props

open Spec

/-! ### runs -/

theorem rep_finite {c : SpinChain XF} {d : SpinChain ℝ} (h : RepChain c d) : FiniteSpins c := by
  intro x hx
  obtain ⟨i, hi⟩ := List.mem_iff_getElem?.1 hx
  rcases forall₂_getElem? h.spins i with ⟨a, b, h1, _, h3⟩ | ⟨h1, _⟩
  · rw [hi] at h1
    cases h1
    exact ⟨h3.1.isFinite, h3.2.1.isFinite, h3.2.2.isFinite⟩
  · rw [hi] at h1
    cases h1

theorem lost_not_finite {c : SpinChain XF} {i : ℕ} (h : LostAt XF.nan c i) : ¬FiniteSpins c := by
  obtain ⟨x, hx, hl⟩ := h
  intro hf
  have := (hf x (List.mem_of_getElem? hx)).1
  rw [hl.1] at this
  cases this

/-- The run never panics; it ends with finite spins if and only if no local field vanished on the
way, and then every number of the chain has the value of exact arithmetic; otherwise some spin has
three `NaN` components. -/
theorem C103_updates (c : SpinChain XF) (d : SpinChain ℝ) (L s n : ℕ) (h : RepChain c d)
    (w : WF d L s) (hL : 2 ≤ L) (hd : DriveOK d.vars) (hu : ∀ x ∈ d.spins, IsUnit3 x) :
    ∃ c', c.updates n = .ok c' ∧ (FiniteSpins c' ↔ RegularRun d L s n) ∧
      (RegularRun d L s n → ∃ d', d.updates n = .ok d' ∧ RepChain c' d') ∧
      (¬RegularRun d L s n → ∃ i < L, LostAt XF.nan c' i) := by
  obtain ⟨c', hc⟩ := updates_ok (h.wf w) hL n
  obtain ⟨h1, h2⟩ := updates_exact w hL hd hu h n hc
  refine ⟨c', hc, ⟨fun hf => ?_, fun hr => ?_⟩, h1, fun hr => ?_⟩
  · by_contra hr
    obtain ⟨i, _, hl⟩ := h2 hr
    exact lost_not_finite hl hf
  · obtain ⟨d', _, hd'⟩ := h1 hr
    exact rep_finite hd'
  · obtain ⟨i, hi, hl⟩ := h2 hr
    exact ⟨i, by omega, hl⟩

/-- the same with damping and noise -/
theorem C103_langevin_updates (c : LangevinChain XF) (d : LangevinChain ℝ) (L s : ℕ)
    (zs : List (Noise XF)) (zs' : List (Noise ℝ)) (h : RepLangevin c d)
    (hz : List.Forall₂ RepNoise zs zs') (w : WF d.toSpinChain L s) (hL : 2 ≤ L)
    (hd : DriveOK d.vars) (hn : NoiseOK d) (hu : ∀ x ∈ d.spins, IsUnit3 x) :
    ∃ c', c.updates zs = .ok c' ∧ (FiniteSpins c'.toSpinChain ↔ RegularRunL L s zs' d) ∧
      (RegularRunL L s zs' d → ∃ d', d.updates zs' = .ok d' ∧ RepLangevin c' d') ∧
      (¬RegularRunL L s zs' d → ∃ i < L, LostAt XF.nan c'.toSpinChain i) := by
  obtain ⟨c', hc⟩ := l_updates_total w hL hn h zs
  obtain ⟨h1, h2⟩ := l_updates_exact w hL hd hn hu h hz hc
  refine ⟨c', hc, ⟨fun hf => ?_, fun hr => ?_⟩, h1, fun hr => ?_⟩
  · by_contra hr
    obtain ⟨i, _, hl⟩ := h2 hr
    exact lost_not_finite hl hf
  · obtain ⟨d', _, hd'⟩ := h1 hr
    exact rep_finite hd'.chain
  · obtain ⟨i, hi, hl⟩ := h2 hr
    exact ⟨i, by omega, hl⟩

/-! ### a real chain as a chain of extended numbers -/

theorem rep_finV (v : V3 ℝ) : Rep3 (finV v) v := ⟨.inl rfl, .inl rfl, .inl rfl⟩

theorem rep_finL (l : List ℝ) : List.Forall₂ XF.Rep (l.map .fin) l :=
  List.forall₂_map_left_iff.2 (List.forall₂_same.2 fun _ _ => .inl rfl)

theorem rep_finChain (d : SpinChain ℝ) : RepChain (finChain d) d where
  j := List.forall₂_map_left_iff.2 (List.forall₂_same.2 fun _ _ => rep_finV _)
  h := List.forall₂_map_left_iff.2 (List.forall₂_same.2 fun _ _ => rep_finV _)
  spins := List.forall₂_map_left_iff.2 (List.forall₂_same.2 fun _ _ => rep_finV _)
  t := .inl rfl
  vars := ⟨rfl, rfl, .inl rfl, .inl rfl, rfl, .inl rfl, rfl, .inl rfl, .inl rfl, rep_finL _,
    rep_finL _, .inl rfl, .inl rfl, rfl, .inl rfl, rfl, rfl, rfl, .inl rfl, rfl, .inl rfl, rfl, rfl⟩
  file := rfl

theorem demo_drive : DriveOK demo.vars := .inr (.inr (by norm_num [demo, demoVars]))

/-- driven chain: finite for ever -/
example (n : ℕ) : ∃ c', (finChain demo).updates n = .ok c' ∧ FiniteSpins c' := by
  obtain ⟨c', h1, h2, _⟩ := C103_updates (finChain demo) demo 4 2 n (rep_finChain _) demo_wf
    (by norm_num) demo_drive demo_unit
  exact ⟨c', h1, h2.2 (demo_regular n)⟩

/-- two spins; the field on the first cancels: the coupling to the second one (twice, it is the
neighbour on both sides) against the static field -/
noncomputable def demoStuck : SpinChain ℝ where
  j_couple := [⟨1, 1, 1⟩, ⟨1, 1, 1⟩]
  static_h := [⟨0, 0, 2⟩, ⟨0, 0, 1⟩]
  spins := [⟨⟨3 / 5, 0, 4 / 5⟩⟩, ⟨⟨0, 0, 1⟩⟩]
  t := 0
  vars := { demoVars with
            hsize := 2
            drive := .none }
  file := none

theorem demoStuck_wf : WF demoStuck 2 2 := by constructor <;> simp [demoStuck, demoVars]

theorem demoStuck_unit : ∀ x ∈ demoStuck.spins, IsUnit3 x := by
  intro x hx
  simp only [demoStuck, List.mem_cons, List.not_mem_nil, or_false] at hx
  rw [unit_iff]
  rcases hx with rfl | rfl <;> norm_num [dot]

theorem demoStuck_irregular : ¬RegularRun demoStuck 2 2 1 := by
  intro hr
  refine (hr 0 (by norm_num) demoStuck rfl).1 0 (by norm_num) rfl ?_
  unfold omega
  simp [demoStuck, S, J, B, H0, drive, add, sub, had, zero, left, right]
  norm_num

/-- the first update leaves a spin of three `NaN` components -/
example : ∃ c', (finChain demoStuck).updates 1 = .ok c' ∧ ¬FiniteSpins c' ∧
    ∃ i < 2, LostAt XF.nan c' i := by
  obtain ⟨c', h1, h2, _, h3⟩ := C103_updates (finChain demoStuck) demoStuck 2 2 1 (rep_finChain _)
    demoStuck_wf (by norm_num) (.inl rfl) demoStuck_unit
  exact ⟨c', h1, fun hf => demoStuck_irregular (h2.1 hf), h3 demoStuck_irregular⟩

/-- real noise as extended numbers -/
def finNoise (z : Noise ℝ) : Noise XF := ⟨finV z.l, finV z.r⟩

theorem rep_finNoise (zs : List (Noise ℝ)) : List.Forall₂ RepNoise (zs.map finNoise) zs :=
  List.forall₂_map_left_iff.2 (List.forall₂_same.2 fun _ _ => ⟨rep_finV _, rep_finV _⟩)

/-- the damped chain `demoL` -/
noncomputable def finL (d : LangevinChain ℝ) : LangevinChain XF :=
  { finChain d.toSpinChain with gamma := .fin d.gamma }

theorem rep_finLangevin (d : LangevinChain ℝ) : RepLangevin (finL d) d :=
  ⟨rep_finChain d.toSpinChain, .inl rfl⟩

example : RepLangevin (finL demoL) demoL ∧ WF demoL.toSpinChain 4 4 ∧ DriveOK demoL.vars ∧
    NoiseOK demoL ∧ (∀ x ∈ demoL.spins, IsUnit3 x) ∧
    List.Forall₂ RepNoise ([⟨⟨1 / 100, 0, -1 / 100⟩, ⟨0, 1 / 50, 0⟩⟩, quiet].map finNoise)
      [⟨⟨1 / 100, 0, -1 / 100⟩, ⟨0, 1 / 50, 0⟩⟩, quiet] :=
  ⟨rep_finLangevin _, demoL_wf, .inr (.inr (by norm_num [demoL, demo, demoVars])), demoL_noise,
    demo_unit, rep_finNoise _⟩

/-! ### what is reported -/

section reported

variable (c : SpinChain XF) (d : SpinChain ℝ) (h : RepChain c d)

include h

/-- Energies: the drive must not divide by a period of zero; `total_energy2` and `total_energy`
divide by the number of sites, `system_energy` by the number of bonds of the subsystem. -/
theorem C103_energies (hd : DriveOK d.vars) :
    (d.vars.hsize ≠ 0 → RepR XF.Rep c.total_energy2 d.total_energy2) ∧
    (asUsize d.vars.hsize ≠ 0 → RepR XF.Rep c.total_energy d.total_energy) ∧
    (asUsize d.vars.ssize ≠ 1 → RepR XF.Rep c.system_energy d.system_energy) ∧
    RepR XF.Rep c.mc_total_energy d.mc_total_energy ∧
    RepR XF.Rep c.mc_system_energy d.mc_system_energy :=
  ⟨SpinChain.rep_total_energy2 h hd, SpinChain.rep_total_energy h hd,
    SpinChain.rep_system_energy h hd, SpinChain.rep_mc_total h, SpinChain.rep_mc_system h⟩

/-- Energies of the frame that follows the drive (they always divide by the frequency). -/
theorem C103_magnus_energies (ht : d.vars.tau ≠ 0) :
    RepR XF.Rep c.mc_system_energy_maglab d.mc_system_energy_maglab ∧
      RepR XF.Rep c.mc_system_energy_rot d.mc_system_energy_rot :=
  ⟨SpinChain.rep_energy_maglab h ht, SpinChain.rep_energy_rot h ht⟩

/-- Magnetisations and spectrum: without condition. -/
theorem C103_magnetisation : RepR Rep3 c.m d.m ∧ RepR Rep3 c.m_tot d.m_tot ∧
    RepR (List.Forall₂ XF.Rep) c.energy_spectrum d.energy_spectrum :=
  ⟨SpinChain.rep_m h, SpinChain.rep_m_tot h, SpinChain.rep_energy_spectrum h⟩

theorem C103_boundary_term (hb : d.vars.beta ≠ 0) :
    RepR XF.Rep c.boundary_term d.boundary_term :=
  SpinChain.rep_boundary_term h hb

/-- The row written by `log`: the decision whether to write the spectrum as well is the same, and so
are the thirteen numbers. -/
theorem C103_log (ht : d.vars.tau ≠ 0) (h0 : d.vars.hsize ≠ 0) (h1 : d.vars.ssize ≠ 0)
    (h2 : asUsize d.vars.ssize ≠ 1) : RepR RepRow c.log d.log :=
  SpinChain.rep_log h ht h0 h1 h2

/-- The rows written by `log_ext`: time, site, local energy and spin. -/
theorem C103_log_ext (hd : DriveOK d.vars) :
    RepR (List.Forall₂ fun a b => a.1.Rep b.1 ∧ a.2.1 = b.2.1 ∧ a.2.2.1.Rep b.2.2.1 ∧
      Rep3 a.2.2.2 b.2.2.2) c.log_ext d.log_ext :=
  rep_log_ext h hd

/-! ### samplers -/

/-- The plain sampler accepts and rejects as in exact arithmetic, and proposes the same spin. -/
theorem C103_metropolis (a : Draw XF) (b : Draw ℝ) (hab : RepDraw a b) (h0 : 0 ≤ b.u2)
    (h1 : b.u2 ≤ 1) : RepR RepChain (c.metropolis_update a) (d.metropolis_update b) :=
  SpinChain.rep_metropolis h hab h0 h1

/-- The samplers for the driven chain divide by the frequency. -/
theorem C103_samplers (ht : d.vars.tau ≠ 0) (a : Draw XF) (b : Draw ℝ) (hab : RepDraw a b)
    (h0 : 0 ≤ b.u2) (h1 : b.u2 ≤ 1) :
    RepR RepChain (c.metropolis_update_maglab a) (d.metropolis_update_maglab b) ∧
    RepR RepChain (c.metropolis_update_rot_magnus a) (d.metropolis_update_rot_magnus b) ∧
    RepR RepChain (c.metropolis_update_magnus a) (d.metropolis_update_magnus b) ∧
    RepR RepChain (c.metropolis_update_mag_full a) (d.metropolis_update_mag_full b) :=
  ⟨SpinChain.rep_maglab h ht hab h0 h1, SpinChain.rep_rot_magnus h ht hab h0 h1,
    SpinChain.rep_magnus h ht hab h0 h1, SpinChain.rep_mag_full h ht hab h0 h1⟩

end reported

/-- the hypotheses of the theorems above, met by the chain `demo` -/
example : RepChain (finChain demo) demo ∧ DriveOK demo.vars ∧ demo.vars.tau ≠ 0 ∧
    demo.vars.hsize ≠ 0 ∧ asUsize demo.vars.hsize ≠ 0 ∧ demo.vars.ssize ≠ 0 ∧
    asUsize demo.vars.ssize ≠ 1 ∧ demo.vars.beta ≠ 0 ∧
    RepDraw ⟨2, .fin (1 / 3), .fin (1 / 4), .fin (1 / 2)⟩ ⟨2, 1 / 3, 1 / 4, 1 / 2⟩ ∧
    (0 : ℝ) ≤ 1 / 4 ∧ (1 / 4 : ℝ) ≤ 1 := by
  refine ⟨rep_finChain _, demo_drive, ?_, ?_, ?_, ?_, ?_, ?_,
    ⟨rfl, .inl rfl, .inl rfl, .inl rfl⟩, by norm_num, by norm_num⟩ <;>
  norm_num [demo, demoVars, asUsize]
  decide

/-- The damped chain: boundary term, log and samplers. -/
theorem C103_langevin_reported (c : LangevinChain XF) (d : LangevinChain ℝ) (h : RepLangevin c d) :
    Rep3 c.m_tot d.m_tot ∧
    (d.vars.beta ≠ 0 → d.vars.tau ≠ 0 → RepR XF.Rep c.boundary_term d.boundary_term) ∧
    (d.vars.beta ≠ 0 → d.vars.tau ≠ 0 → d.vars.hsize ≠ 0 → d.vars.ssize ≠ 0 →
      asUsize d.vars.ssize ≠ 1 → RepR (List.Forall₂ XF.Rep) c.log d.log) ∧
    ∀ a b, RepDraw a b → 0 ≤ b.u2 → b.u2 ≤ 1 →
      RepR RepLangevin (c.metropolis_update a) (d.metropolis_update b) ∧
      (d.vars.tau ≠ 0 →
        RepR RepLangevin (c.metropolis_update_magnus a) (d.metropolis_update_magnus b)) :=
  ⟨rep_l_m_tot h, fun hb ht => rep_l_boundary_term h hb ht,
    fun hb ht h0 h1 h2 => rep_l_log h hb ht h0 h1 h2,
    fun _ _ hab h0 h1 => ⟨rep_l_metropolis h hab h0 h1, fun ht => rep_l_magnus h ht hab h0 h1⟩⟩

/-! ### together with the theorems about exact arithmetic -/

/-- Example of use: the reported energy of a chain of finite numbers is a finite number, the
documented Hamiltonian per site. -/
theorem C103_hamiltonian (c : SpinChain XF) (d : SpinChain ℝ) (L s : ℕ) (h : RepChain c d)
    (w : WF d L s) (hL : 1 ≤ L) (hd : DriveOK d.vars) :
    ∃ e, c.total_energy2 = .ok e ∧ e.Rep (ringEnergy L (S d) (J d) (B d s d.t) / L) := by
  have h0 : d.vars.hsize ≠ 0 := by rw [w.hsize]; exact_mod_cast (by omega : L ≠ 0)
  exact repR_ok (SpinChain.rep_total_energy2 h hd h0) (C16_total_energy2 d L s w hL)

example : ∃ e, (finChain demo).total_energy2 = .ok e ∧
    e.Rep (ringEnergy 4 (S demo) (J demo) (B demo 2 demo.t) / (4 : ℕ)) :=
  C103_hamiltonian _ _ 4 2 (rep_finChain _) demo_wf (by norm_num) demo_drive

end Verif.Props
