/-
Properties C22–C33: time evolution (/repo/src/spinchain.rs `update` and its parts).
-/
import Verif.Lemmas.Consistency
import Verif.Lemmas.XFUnit
import Verif.Props.Demo

namespace Verif.Props

open Spec Finset

/-! ### Non-vacuity: the demo chain has only regular runs -/

theorem demo_dominant : ∀ t, ∀ i < 2 * (4 / 2),
    |(J demo (left (2 * (4 / 2)) i)).z| + |(J demo i).z| < |(B demo 2 t i).z| := by
  intro t i hi
  have : i = 0 ∨ i = 1 ∨ i = 2 ∨ i = 3 := by omega
  rcases this with rfl | rfl | rfl | rfl <;>
    norm_num [J, B, H0, demo, demoVars, left, drive, Spec.add, zero, Config.default, abs_of_pos]

theorem demo_regular (n : ℕ) : RegularRun demo 4 2 n :=
  regularRun_of_dominant demo_wf (by norm_num) demo_unit demo_dominant n

/-- the demo chain without drive -/
noncomputable def demoStatic : SpinChain ℝ := { demo with vars := { demoVars with drive := .none } }

theorem demoStatic_wf : WF demoStatic 4 2 := by
  constructor <;> simp [demoStatic, demo, demoVars]

theorem demoStatic_regular (n : ℕ) : RegularRun demoStatic 4 2 n := by
  refine regularRun_of_dominant demoStatic_wf (by norm_num) demo_unit ?_ n
  intro t i hi
  have : i = 0 ∨ i = 1 ∨ i = 2 ∨ i = 3 := by omega
  rcases this with rfl | rfl | rfl | rfl <;>
    norm_num [J, B, H0, demoStatic, demo, demoVars, left, drive, Spec.add, zero, abs_of_pos]

/-! ### C22: unit vectors along every history -/

theorem C22_updates_unit (c : SpinChain ℝ) (L s n : ℕ) (w : WF c L s) (hL : 2 ≤ L)
    (hu : ∀ x ∈ c.spins, IsUnit3 x) (hr : RegularRun c L s n) :
    ∃ c', c.updates n = .ok c' ∧ ∀ x ∈ c'.spins, IsUnit3 x := by
  obtain ⟨c', h⟩ := updates_ok w hL n
  exact ⟨c', h, (updates_unit w hL hu hr h).2⟩

/-- A condition on the chain alone that rules out vanishing local fields in all histories. -/
theorem C22_strong_field (c : SpinChain ℝ) (L s n : ℕ) (w : WF c L s) (hL : 2 ≤ L)
    (hu : ∀ x ∈ c.spins, IsUnit3 x)
    (hd : ∀ t, ∀ i < 2 * (L / 2),
      |(J c (left (2 * (L / 2)) i)).z| + |(J c i).z| < |(B c s t i).z|) :
    ∃ c', c.updates n = .ok c' ∧ ∀ x ∈ c'.spins, IsUnit3 x :=
  C22_updates_unit c L s n w hL hu (regularRun_of_dominant w hL hu hd n)

/-- With NaN and infinities in the picture and *no* assumption on the chain: after at least one
update every spin (except the last one of a chain of odd length, which never moves) is a unit
vector or has a component that is NaN or infinite. -/
theorem C22_unit_or_nonfinite (c c' : SpinChain XF) (L s n : ℕ) (w : WF c L s) (hL : 2 ≤ L)
    (hn : 1 ≤ n) (h : c.updates n = .ok c') (i : ℕ) (hi : i < 2 * (L / 2)) :
    ∃ x, c'.spins[i]? = some x ∧
      (fisFinite x.dir.x = true → fisFinite x.dir.y = true → fisFinite x.dir.z = true →
        x.dir.x.real ^ 2 + x.dir.y.real ^ 2 + x.dir.z.real ^ 2 = 1) := by
  obtain ⟨x, f, d, hx⟩ := updates_is_rotate w hL hn h hi
  exact ⟨_, hx, fun h1 h2 h3 => xf_rotate_unit x f d h1 h2 h3⟩

example (n : ℕ) : WF demo 4 2 ∧ (2 ≤ 4) ∧ (∀ x ∈ demo.spins, IsUnit3 x) ∧ RegularRun demo 4 2 n :=
  ⟨demo_wf, by norm_num, demo_unit, demo_regular n⟩

/-! ### C23: energy conservation -/

theorem C23_energy_conserved (c : SpinChain ℝ) (L s n : ℕ) (w : WF c L s) (hL : 2 ≤ L)
    (heven : L % 2 = 0) (hd : c.vars.drive = .none ∨ c.vars.drive = .staticfield)
    (hu : ∀ x ∈ c.spins, IsUnit3 x) (hr : RegularRun c L s n) :
    ∃ c', c.updates n = .ok c' ∧ c'.total_energy2 = c.total_energy2 ∧
      (s ≤ L → c'.total_energy = c.total_energy) ∧
      c.total_energy2 = .ok (ringEnergy L (S c) (J c) (B c s c.t) / L) := by
  obtain ⟨c', h⟩ := updates_ok w hL n
  have w' := updates_wf w h
  have hdr : ∀ t t', drive c.vars t = drive c.vars t' := by
    intro t t'
    unfold drive
    rcases hd with hd | hd <;> rw [hd]
  have he := updates_energy w hL heven hdr hu hr h
  refine ⟨c', h, ?_, ?_, total_energy2_eq w (by omega)⟩
  · rw [total_energy2_eq w (by omega), total_energy2_eq w' (by omega), he]
  · intro hs
    rw [total_energy_eq w (by omega) hs, total_energy_eq w' (by omega) hs, he]

example (n : ℕ) : WF demoStatic 4 2 ∧ demoStatic.vars.drive = .none ∧
    (∀ x ∈ demoStatic.spins, IsUnit3 x) ∧ RegularRun demoStatic 4 2 n :=
  ⟨demoStatic_wf, rfl, demo_unit, demoStatic_regular n⟩

/-! ### C24: reversibility, for any number of steps and any drive -/

theorem C24_reversible (c : SpinChain ℝ) (L s n : ℕ) (w : WF c L s) (hL : 2 ≤ L)
    (hu : ∀ x ∈ c.spins, IsUnit3 x) (hr : RegularRun c L s n) :
    ∃ c1 c2, c.updates n = .ok c1 ∧ (flipDt c1).updates n = .ok c2 ∧
      c2.spins = c.spins ∧ c2.t = c.t := by
  obtain ⟨c1, h⟩ := updates_ok w hL n
  exact ⟨c1, flipDt c, h, updates_reverse w hL hu hr h, rfl, rfl⟩

example (n : ℕ) : WF demo 4 2 ∧ (∀ x ∈ demo.spins, IsUnit3 x) ∧ RegularRun demo 4 2 n :=
  ⟨demo_wf, demo_unit, demo_regular n⟩

section anyF
variable {F : Type} [Add F] [Sub F] [Mul F] [Div F] [Neg F] [OfScientific F] [FOps F]

/-! ### C25: frame and time -/

theorem C25_update_frame (c c' : SpinChain F) (n : ℕ) (h : c.updates n = .ok c') :
    c'.j_couple = c.j_couple ∧ c'.static_h = c.static_h ∧ c'.vars = c.vars ∧ c'.file = c.file ∧
      c'.spins.length = c.spins.length ∧ c'.t = (fun t => t + c.vars.dt)^[n] c.t :=
  updates_frame h

/-- well-formed chains of at least two spins never panic -/
theorem C25_update_total (c : SpinChain F) (L s n : ℕ) (w : WF c L s) (hL : 2 ≤ L) :
    ∃ c', c.updates n = .ok c' :=
  updates_ok w hL n

/-- chains of fewer than two spins always panic -/
theorem C25_short_panics (c : SpinChain F) (L s : ℕ) (w : WF c L s) (hL : L < 2) :
    ∃ p, c.update = .error p := by
  obtain ⟨e, he⟩ := h_ext_ok w.hs (c.t + c.vars.dt / 2.0)
  refine ⟨.underflow, ?_⟩
  unfold SpinChain.update
  rw [he, ok_bind]
  unfold SpinChain.trotter SpinChain.evenOmega
  rw [w.spins, show L / 2 = 0 by omega]
  rfl

theorem C25_time (c c' : SpinChain ℝ) (n : ℕ) (h : c.updates n = .ok c') :
    c'.t = c.t + n * c.vars.dt := by
  rw [(updates_frame h).2.2.2.2.2, iterate_add_real]

example : WF demo 4 2 ∧ 2 ≤ 4 := ⟨demo_wf, by norm_num⟩

/-! ### C26: light cone

`m` is the number of sites that move, the largest even number up to `L` (so `m = L` for chains of
even length).  Site `i` after an update depends only on the data at sites `i + d mod m`. -/

theorem C26_light_cone (c d c' d' : SpinChain F) (L s m : ℕ) (hm : m = 2 * (L / 2))
    (wc : WF c L s) (wd : WF d L s) (hL : 2 ≤ L) (hv : c.vars = d.vars) (ht : c.t = d.t)
    (hc : c.update = .ok c') (hd : d.update = .ok d') (i : ℕ) (hi : i < m) (r : ℤ)
    (hr : r = if i % 2 = 0 then 3 else 2)
    (hag : ∀ k : ℤ, |k| ≤ r →
      c.spins[(((i : ℤ) + k) % m).toNat]? = d.spins[(((i : ℤ) + k) % m).toNat]? ∧
      c.j_couple[(((i : ℤ) + k) % m).toNat]? = d.j_couple[(((i : ℤ) + k) % m).toNat]? ∧
      c.static_h[(((i : ℤ) + k) % m).toNat]? = d.static_h[(((i : ℤ) + k) % m).toNat]?) :
    c'.spins[i]? = d'.spins[i]? := by
  subst hm
  obtain ⟨j, hh, sp, hj, hhh, hsp⟩ := wf_tabs wc (by omega)
  obtain ⟨j', hh', sp', hj', hhh', hsp'⟩ := wf_tabs wd (by omega)
  obtain ⟨e, he⟩ := h_ext_ok wc.hs (c.t + c.vars.dt / 2.0)
  have he' : d.h_ext (d.t + d.vars.dt / 2.0) = .ok e := by
    rw [← h_ext_vars hv, ← hv, ← ht, he]
  obtain ⟨s1, g1, g2⟩ := update_tab wc hL hj hhh hsp he
  obtain ⟨s2, g3, g4⟩ := update_tab wd hL hj' hhh' hsp' he'
  rw [hc] at g1
  rw [hd] at g3
  cases g1
  cases g3
  show s1[i]? = s2[i]?
  rw [g2.getElem? (by omega), g4.getElem? (by omega)]
  congr 1
  have hm1 : 1 ≤ 2 * (L / 2) := by omega
  have hlt : ∀ k : ℤ, site (2 * (L / 2)) ((i : ℤ) + k) < L := fun k => by
    have := site_lt hm1 ((i : ℤ) + k); omega
  have nj : Near (2 * (L / 2)) i r j j' := by
    intro k hk
    have := (hag k hk).2.1
    have e1 := hj.getElem? (hlt k)
    have e2 := hj'.getElem? (hlt k)
    exact Option.some.inj (e1.symm.trans (this.trans e2))
  have nh : Near (2 * (L / 2)) i r (fieldF s hh e) (fieldF s hh' e) := by
    intro k hk
    have := (hag k hk).2.2
    have e1 := hhh.getElem? (hlt k)
    have e2 := hhh'.getElem? (hlt k)
    have := Option.some.inj (e1.symm.trans (this.trans e2))
    unfold fieldF
    rw [this]
  have ns : Near (2 * (L / 2)) i r sp sp' := by
    intro k hk
    have := (hag k hk).1
    have e1 := hsp.getElem? (hlt k)
    have e2 := hsp'.getElem? (hlt k)
    exact Option.some.inj (e1.symm.trans (this.trans e2))
  have key := stepF_near (l := L / 2) (by omega) c.vars.dt (x := (i : ℤ)) (r := r)
    (by rw [hr]; congr 1; simp only [eq_iff_iff]; omega) nj nh ns
  rw [site_self hi] at key
  rw [key, hv]

/-- non-vacuity: a ring of eight sites, site 0 and a difference at site 4 only -/
example : ∃ c d : SpinChain ℝ, WF c 8 2 ∧ WF d 8 2 ∧ c.vars = d.vars ∧ c.t = d.t ∧
    c.spins ≠ d.spins ∧
    ∀ k : ℤ, |k| ≤ 3 → c.spins[(((0 : ℤ) + k) % 8).toNat]? = d.spins[(((0 : ℤ) + k) % 8).toNat]? := by
  refine ⟨{ demo with vars := { demoVars with hsize := 8 }
                      spins := List.replicate 8 ⟨⟨1, 0, 0⟩⟩
                      j_couple := List.replicate 8 ⟨1, 1, 1⟩
                      static_h := List.replicate 8 ⟨0, 0, 1⟩ },
    { demo with vars := { demoVars with hsize := 8 }
                spins := (List.replicate 8 ⟨⟨1, 0, 0⟩⟩).set 4 ⟨⟨0, 1, 0⟩⟩
                j_couple := List.replicate 8 ⟨1, 1, 1⟩
                static_h := List.replicate 8 ⟨0, 0, 1⟩ }, ?_, ?_, rfl, rfl, ?_, ?_⟩
  · constructor <;> simp [demoVars]
  · constructor <;> simp [demoVars]
  · intro h
    have := congrArg (fun l => l[4]?) h
    simp at this
  · intro k hk
    have : k = -3 ∨ k = -2 ∨ k = -1 ∨ k = 0 ∨ k = 1 ∨ k = 2 ∨ k = 3 := by
      rw [abs_le] at hk; omega
    rcases this with rfl | rfl | rfl | rfl | rfl | rfl | rfl <;> simp

/-! ### C27 (any scalar): for odd length the last spin never moves -/

theorem C27_odd_last_frozen (c c' : SpinChain F) (L s n : ℕ) (w : WF c L s) (hL : 2 ≤ L)
    (hodd : L % 2 = 1) (h : c.updates n = .ok c') : c'.spins[L - 1]? = c.spins[L - 1]? := by
  induction n generalizing c' with
  | zero => cases h; rfl
  | succ n ih =>
    obtain ⟨c1, h1, h2⟩ := updates_succ'.1 h
    have w1 := updates_wf w h1
    rw [← ih c1 h1]
    obtain ⟨j, hh, sp, hj, hhh, hsp⟩ := wf_tabs w1 (by omega)
    obtain ⟨e, he⟩ := h_ext_ok w1.hs (c1.t + c1.vars.dt / 2.0)
    obtain ⟨s1, g1, g2⟩ := update_tab w1 hL hj hhh hsp he
    rw [h2] at g1
    cases g1
    show s1[L - 1]? = _
    rw [g2.getElem? (by omega), hsp.getElem? (by omega)]
    congr 1
    unfold stepF subF
    simp only [show ¬ L - 1 < 2 * (L / 2) by omega, false_and, if_false]

end anyF

/-! ### C27: every site is driven by its documented local field

Full claim: for every chain.  True for even length (the theorem below identifies the new spins with
the specified Suzuki–Trotter step built from `Ω_n = J_{n-1} S_{n-1} + J_n S_{n+1} - B_n`); false for
odd length. -/

/-- What is missing with respect to the full claim: chains of odd length. -/
theorem C27_local_field_partial (c : SpinChain ℝ) (L s : ℕ) (w : WF c L s) (hL : 2 ≤ L)
    (heven : L % 2 = 0) (hu : ∀ x ∈ c.spins, IsUnit3 x) (hr : RegularStep c L s) :
    ∃ c', c.update = .ok c' ∧
      ∀ i, S c' i = step L (J c) (B c s (c.t + c.vars.dt / 2)) c.vars.dt (S c) i := by
  obtain ⟨c', h1, _, h3⟩ := update_spec w hL hu hr
  refine ⟨c', h1, fun i => ?_⟩
  rw [h3, show 2 * (L / 2) = L by omega]

/-- A chain of three spins whose last spin is not parallel to its local field, and yet no number of
updates moves it, whatever the time-step. -/
theorem C27_negation : ∃ (c : SpinChain ℝ), WF c 3 2 ∧ (∀ x ∈ c.spins, IsUnit3 x) ∧
    cross (S c 2) (omega 3 (S c) (J c) (B c 2 c.t) 2) ≠ zero ∧
    ∀ (dt : ℝ) (n : ℕ) (c' : SpinChain ℝ),
      ({ c with vars := { c.vars with dt := dt } } : SpinChain ℝ).updates n = .ok c' →
      S c' 2 = S c 2 := by
  refine ⟨{ demo with spins := demo.spins.take 3, j_couple := demo.j_couple.take 3,
                      static_h := demo.static_h.take 3,
                      vars := { demoVars with hsize := 3, drive := .none } }, ?_, ?_, ?_, ?_⟩
  · constructor <;> simp [demo, demoVars]
  · exact fun x hx => demo_unit x (List.mem_of_mem_take hx)
  · intro h
    have := congrArg V3.x h
    norm_num [cross, S, omega, J, B, H0, demo, demoVars, left, right, Spec.sub, Spec.add, had,
      zero] at this
  · intro dt n c' h
    have := C27_odd_last_frozen _ c' 3 2 n (by constructor <;> simp [demo, demoVars]) (by norm_num)
      (by norm_num) h
    unfold S
    rw [show (2 : ℕ) = 3 - 1 by norm_num, this]

example : WF demo 4 2 ∧ (∀ x ∈ demo.spins, IsUnit3 x) ∧ RegularStep demo 4 2 :=
  ⟨demo_wf, demo_unit, demo_regular 1 0 (by norm_num) demo rfl⟩

/-! ### C28: the local field is minus the energy gradient -/

theorem C28_gradient (c : SpinChain ℝ) (L s n : ℕ) (w : WF c L s) (hL : 2 ≤ L) (hn : n < L)
    (v : V3 ℝ) : ∃ e e',
    c.total_energy2 = .ok e ∧
    ({ c with spins := c.spins.set n ⟨v⟩ } : SpinChain ℝ).total_energy2 = .ok e' ∧
    L * (e' - e) = -dot (omega L (S c) (J c) (B c s c.t) n) (sub v (S c n)) := by
  have w' : WF ({ c with spins := c.spins.set n ⟨v⟩ } : SpinChain ℝ) L s :=
    ⟨w.hsize, w.ssize, w.L_lt, w.s_lt, by simp [w.spins], w.j, w.h, w.hs⟩
  refine ⟨_, _, total_energy2_eq w (by omega), total_energy2_eq w' (by omega), ?_⟩
  have hS : S ({ c with spins := c.spins.set n ⟨v⟩ } : SpinChain ℝ)
      = Function.update (S c) n v := by
    funext i
    unfold S
    by_cases hin : i = n
    · subst hin
      simp [w.spins, hn]
    · rw [Function.update_of_ne hin, List.getElem?_set_ne (fun h => hin h.symm)]
  rw [hS]
  have hL0 : (L : ℝ) ≠ 0 := by positivity
  have := ringEnergy_replace hL hn (S c) (J c) (B c s c.t) v
  rw [← this]
  field_simp
  rfl

/-- The fields that `even_omega` and `odd_omega` compute for the integrator: entry `n / 2` of the one for
even sites `n`, of the other for odd ones, is minus the gradient of `L` times the energy per site. -/
theorem C28_integrator_field (c : SpinChain ℝ) (L s : ℕ) (w : WF c L s) (hL : 2 ≤ L) (heven : L % 2 = 0) :
    ∃ ext ev od, c.h_ext c.t = .ok ext ∧
      SpinChain.evenOmega c.j_couple c.spins (SpinChain.updateField c.static_h (asUsize c.vars.ssize) ext) = .ok ev ∧
      SpinChain.oddOmega c.j_couple c.spins (SpinChain.updateField c.static_h (asUsize c.vars.ssize) ext) = .ok od ∧
      ∀ n < L, ∃ Ω, (if n % 2 = 0 then ev else od)[n / 2]? = some Ω ∧
        ∀ v, ∃ e e', c.total_energy2 = .ok e ∧
          ({ c with spins := c.spins.set n ⟨v⟩ } : SpinChain ℝ).total_energy2 = .ok e' ∧
          L * (e' - e) = -dot Ω (sub v (S c n)) := by
  have hj := tab_J w
  have hh := tab_H0 w
  have hsp := tab_S w
  have he := h_ext_eq w c.t
  have hu := updateField_tab hh s (drive c.vars c.t)
  have hB : (fun i => if i < s then SpinChain.sum_vec (H0 c i) (drive c.vars c.t) else H0 c i) = B c s c.t :=
    fieldF_real c.t
  rw [hB] at hu
  have hm : 2 * (L / 2) = L := by omega
  rw [ssize_natF w]
  refine ⟨_, _, _, he, evenOmega_tab hj hu hsp hL, oddOmega_tab hj hu hsp hL, fun n hn => ?_⟩
  refine ⟨omega L (S c) (J c) (B c s c.t) n, ?_, C28_gradient c L s n w hL hn⟩
  rw [hm]
  split
  · rw [List.getElem?_map, List.getElem?_range (by omega), Option.map_some, omF_real, show 2 * (n / 2) = n by omega]
  · rw [List.getElem?_map, List.getElem?_range (by omega), Option.map_some, omF_real, show 2 * (n / 2) + 1 = n by omega]

example : WF demo 4 2 ∧ 2 ≤ 4 ∧ 3 < 4 := ⟨demo_wf, by norm_num, by norm_num⟩

/-! ### C29: consistency with `dS_n/dt = S_n × Ω_n` -/

/-- spin `n` after one update with time-step `dt` (`zero` in the case of a panic, which is excluded
in the theorem) -/
noncomputable def spinAfter (c : SpinChain ℝ) (n : ℕ) (dt : ℝ) : V3 ℝ :=
  match ({ c with vars := { c.vars with dt := dt } } : SpinChain ℝ).update with
  | .ok c' => S c' n
  | .error _ => zero

theorem C29_consistent (c : SpinChain ℝ) (L s : ℕ) (w : WF c L s) (hL : 2 ≤ L)
    (heven : L % 2 = 0) (hu : ∀ x ∈ c.spins, IsUnit3 x)
    (h0 : ∀ i < L, omega L (S c) (J c) (B c s c.t) i ≠ zero) (n : ℕ) (hn : n < L) :
    (∀ dt, ∃ c', ({ c with vars := { c.vars with dt := dt } } : SpinChain ℝ).update = .ok c') ∧
    HasDeriv3 (fun dt => spinAfter c n dt)
      (cross (S c n) (omega L (S c) (J c) (B c s c.t) n)) 0 := by
  have wd : ∀ dt, WF ({ c with vars := { c.vars with dt := dt } } : SpinChain ℝ) L s := fun dt =>
    ⟨w.hsize, w.ssize, w.L_lt, w.s_lt, w.spins, w.j, w.h, w.hs⟩
  refine ⟨fun dt => update_ok (wd dt) hL, ?_⟩
  have hB0 : B c s (c.t + 0 / 2) = B c s c.t := by rw [zero_div, add_zero]
  obtain ⟨d, hreg⟩ := step_deriv (m := L) (J := J c) (S := S c)
    (B := fun x => B c s (c.t + x / 2)) (fun k => B_cont c s c.t k) (by rw [hB0]; exact h0)
  have hd := d n hn
  rw [hB0] at hd
  have heq : (fun x => spinAfter c n x)
      =ᶠ[nhds 0] fun x => step L (J c) (B c s (c.t + x / 2)) x (S c) n := by
    filter_upwards [hreg] with x hx
    have hr : RegularStep ({ c with vars := { c.vars with dt := x } } : SpinChain ℝ) L s := by
      unfold RegularStep
      rw [show 2 * (L / 2) = L by omega]
      exact hx
    obtain ⟨c', h1, _, h3⟩ := update_spec (wd x) hL hu hr
    unfold spinAfter
    rw [h1]
    simp only
    rw [h3, show 2 * (L / 2) = L by omega]
    rfl
  refine ⟨?_, ?_, ?_⟩
  · exact hd.1.congr_of_eventuallyEq (heq.mono fun x hx => by simp only [hx])
  · exact hd.2.1.congr_of_eventuallyEq (heq.mono fun x hx => by simp only [hx])
  · exact hd.2.2.congr_of_eventuallyEq (heq.mono fun x hx => by simp only [hx])

example : WF demo 4 2 ∧ (∀ x ∈ demo.spins, IsUnit3 x) ∧
    ∀ i < 4, omega 4 (S demo) (J demo) (B demo 2 demo.t) i ≠ zero :=
  ⟨demo_wf, demo_unit, omega_ne_of_dominant (by norm_num) (demo_dominant 0)
    (fun i hi => unit_S demo_wf demo_unit hi)⟩

/-! ### C30: uncoupled spins precess exactly -/

theorem C30_uncoupled (c : SpinChain ℝ) (L s k : ℕ) (w : WF c L s) (hL : 2 ≤ L)
    (hu : ∀ x ∈ c.spins, IsUnit3 x) (hJ : ∀ i < L, J c i = zero) (hd : c.vars.drive = .none)
    (hH : ∀ i < 2 * (L / 2), H0 c i ≠ zero) :
    ∃ c', c.updates k = .ok c' ∧ ∀ i < 2 * (L / 2),
      S c' i = precess (S c i) (neg (H0 c i)) (k * c.vars.dt) := by
  obtain ⟨c', h⟩ := updates_ok w hL k
  exact ⟨c', h, (updates_uncoupled w hL hu hJ hd hH k).2 c' h⟩

/-- `precess v Ω` is the flow of `dv/dt = v × Ω` (so the theorem above is the exact solution of the
equations of motion of free spins) -/
theorem C30_precess_is_flow (v Ω : V3 ℝ) (t : ℝ) :
    precess v Ω 0 = v ∧
      HasDeriv3 (fun t => precess v Ω t) (cross (precess v Ω t) Ω) t := by
  refine ⟨precess_zero v Ω, ?_⟩
  by_cases h : Ω = zero
  · subst h
    simp only [precess_zero_field]
    have := hasDeriv3_const v t
    convert this using 1
    ext <;> simp [cross, zero]
  · have := rodr_hasDeriv (s := v) (dot_nrm h) (len Ω) t
    rw [smul_nrm h] at this
    simp only [rodr_eq_precess] at this
    exact this

example : ∃ c : SpinChain ℝ, WF c 4 2 ∧ (∀ x ∈ c.spins, IsUnit3 x) ∧ (∀ i < 4, J c i = zero) ∧
    c.vars.drive = .none ∧ ∀ i < 2 * (4 / 2), H0 c i ≠ zero := by
  refine ⟨{ demoStatic with j_couple := List.replicate 4 zero }, ?_, demo_unit, ?_, rfl, ?_⟩
  · constructor <;> simp [demoStatic, demo, demoVars]
  · intro i hi
    have hi' : i = 0 ∨ i = 1 ∨ i = 2 ∨ i = 3 := by omega
    rcases hi' with rfl | rfl | rfl | rfl <;> rfl
  · intro i hi h
    have := congrArg V3.z h
    have hi' : i = 0 ∨ i = 1 ∨ i = 2 ∨ i = 3 := by omega
    rcases hi' with rfl | rfl | rfl | rfl <;> norm_num [H0, demoStatic, demo, zero] at this

/-! ### C31: `update_no_field` drops the static field only -/

theorem C31_no_static_field (c : SpinChain ℝ) :
    c.update_no_field =
      (({ c with static_h := c.static_h.map fun _ => zero } : SpinChain ℝ).update).map
        (fun c' => { c' with static_h := c.static_h }) := by
  have hf : SpinChain.updateFieldNoStatic c.static_h (asUsize c.vars.ssize)
      = SpinChain.updateField (c.static_h.map fun _ => zero) (asUsize c.vars.ssize) := by
    funext e
    unfold SpinChain.updateFieldNoStatic SpinChain.updateField
    apply List.ext_getElem?
    intro i
    simp only [List.getElem?_map, List.getElem?_zipIdx]
    cases c.static_h[i]? with
    | none => rfl
    | some h =>
      simp only [Option.map_some]
      congr 1
      simp only [Nat.zero_add]
      split
      · ext <;> simp [SpinChain.sum_vec, zero]
      · ext <;> simp [zero]
  unfold SpinChain.update_no_field SpinChain.update
  rw [show ({ c with static_h := c.static_h.map fun _ => zero } : SpinChain ℝ).h_ext
    (c.t + c.vars.dt / 2.0) = c.h_ext (c.t + c.vars.dt / 2.0) from rfl]
  cases c.h_ext (c.t + c.vars.dt / 2.0) with
  | error p => rfl
  | ok e =>
    rw [ok_bind, ok_bind, hf]
    simp only
    cases SpinChain.trotter c.j_couple
      (SpinChain.updateField (List.map (fun _ => zero) c.static_h) (asUsize c.vars.ssize) e)
      c.vars.dt c.spins <;> rfl

/-- Neither side panics on well-formed chains, and the drive stays on: the step is the specified one
with the drive field on the subsystem and no field elsewhere. -/
theorem C31_drive_stays (c : SpinChain ℝ) (L s : ℕ) (w : WF c L s) (hL : 2 ≤ L)
    (hu : ∀ x ∈ c.spins, IsUnit3 x)
    (hr : Regular (2 * (L / 2)) (J c)
      (fun i => if i < s then drive c.vars (c.t + c.vars.dt / 2) else zero) c.vars.dt (S c)) :
    ∃ c', c.update_no_field = .ok c' ∧ c'.static_h = c.static_h ∧
      ∀ i, S c' i = step (2 * (L / 2)) (J c)
        (fun i => if i < s then drive c.vars (c.t + c.vars.dt / 2) else zero) c.vars.dt (S c) i := by
  have w' : WF ({ c with static_h := c.static_h.map fun _ => zero } : SpinChain ℝ) L s :=
    ⟨w.hsize, w.ssize, w.L_lt, w.s_lt, w.spins, w.j, by simp [w.h], w.hs⟩
  have hB : B ({ c with static_h := c.static_h.map fun _ => zero } : SpinChain ℝ) s
      (c.t + c.vars.dt / 2)
      = fun i => if i < s then drive c.vars (c.t + c.vars.dt / 2) else zero := by
    funext i
    have h0 : H0 ({ c with static_h := c.static_h.map fun _ => zero } : SpinChain ℝ) i = zero := by
      unfold H0
      simp only [List.getElem?_map]
      cases c.static_h[i]? <;> rfl
    unfold B
    rw [h0]
    split <;> ext <;> simp [Spec.add, zero]
  obtain ⟨c', h, _, h3⟩ := update_spec w' hL hu (by unfold RegularStep; rw [hB]; exact hr)
  rw [C31_no_static_field, h]
  refine ⟨_, rfl, rfl, fun i => ?_⟩
  rw [← hB]
  exact congrFun h3 i

example : ∃ c : SpinChain ℝ, WF c 4 4 ∧ (∀ x ∈ c.spins, IsUnit3 x) ∧
    Regular (2 * (4 / 2)) (J c)
      (fun i => if i < 4 then drive c.vars (c.t + c.vars.dt / 2) else zero) c.vars.dt (S c) := by
  refine ⟨{ demo with vars := { demoVars with ssize := 4, drive := .staticfield, hs := [0, 0, 5] } },
    ?_, demo_unit, ?_⟩
  · constructor <;> simp [demo, demoVars]
  · refine regular_of_dominant (by norm_num) ?_ ?_
    · intro i hi
      have : i = 0 ∨ i = 1 ∨ i = 2 ∨ i = 3 := by omega
      rcases this with rfl | rfl | rfl | rfl <;>
        norm_num [J, demo, demoVars, left, drive, zero, abs_of_pos]
    · exact fun i hi => unit_S demo_wf demo_unit hi

/-! ### C32: the driving field -/

theorem C32_period (c : SpinChain ℝ) (t : ℝ) (ht : c.vars.tau ≠ 0) :
    c.h_ext (t + c.vars.tau) = c.h_ext t := by
  have e : 2 * Real.pi * (t + c.vars.tau) / c.vars.tau
      = 2 * Real.pi * t / c.vars.tau + 2 * Real.pi := by
    field_simp
  unfold SpinChain.h_ext
  simp only [lit_2, fpi_real, fcos_real, fsin_real, e, Real.cos_add_two_pi, Real.sin_add_two_pi]

theorem C32_values (c : SpinChain ℝ) (t : ℝ) :
    (c.vars.drive = .none → c.h_ext t = .ok zero) ∧
    (∀ a b d rest, c.vars.drive = .staticfield → c.vars.hs = a :: b :: d :: rest →
      c.h_ext t = .ok ⟨a, b, d⟩) ∧
    (∀ v, c.h_ext t = .ok v → c.vars.drive ≠ .staticfield →
      |v.x| ≤ 1 ∧ v.z = 0 ∧
        |v.y| ≤ (if c.vars.drive = .xyelliptic then |c.vars.e| else 1)) ∧
    (c.vars.drive = .staticfield → c.vars.hs.length < 3 → c.h_ext t = .error .indexOOB) := by
  refine ⟨?_, ?_, ?_, ?_⟩
  · intro h; unfold SpinChain.h_ext; rw [h]; simp only [lit_0]; rfl
  · intro a b d rest h h2; unfold SpinChain.h_ext; rw [h]; simp only; rw [h2]; rfl
  · intro v hv hs
    unfold SpinChain.h_ext at hv
    have hc := Real.abs_cos_le_one (2 * Real.pi * t / c.vars.tau)
    have hsn := Real.abs_sin_le_one (2 * Real.pi * t / c.vars.tau)
    generalize hd : c.vars.drive = dr at *
    simp only [lit_2, lit_0, fpi_real, fcos_real, fsin_real] at hv
    cases dr <;> first | (cases hv; simp; done) | skip
    · cases hv; simp [hc, hsn]
    · cases hv
      simp only [hc, true_and, if_true]
      rw [abs_mul]
      exact mul_le_of_le_one_right (abs_nonneg _) hsn
    · cases hv; simp [hc]
    · exact absurd rfl hs
  · intro h h2
    unfold SpinChain.h_ext
    rw [h]
    simp only
    match hl : c.vars.hs, h2 with
    | [], _ => rfl
    | [a], _ => rfl
    | [a, b], _ => rfl

/-- `h_extp` is the time derivative up to the factor `2π/tau` -/
theorem C32_derivative (c : SpinChain ℝ) (t : ℝ) :
    HasDeriv3 (fun t => match c.h_ext t with | .ok v => v | .error _ => zero)
      (smul (2 * Real.pi / c.vars.tau) (c.h_extp t)) t := by
  have hθ : HasDerivAt (fun t => 2 * Real.pi * t / c.vars.tau) (2 * Real.pi / c.vars.tau) t := by
    have := ((hasDerivAt_id' t).const_mul (2 * Real.pi)).div_const c.vars.tau
    simpa using this
  have hc := hθ.cos
  have hs := hθ.sin
  unfold SpinChain.h_ext SpinChain.h_extp
  simp only [lit_2, lit_0, fpi_real, fcos_real, fsin_real]
  generalize 2 * Real.pi / c.vars.tau = k at *
  cases c.vars.drive
  · refine ⟨hc.congr_deriv ?_, hs.congr_deriv ?_, (hasDerivAt_const _ _).congr_deriv ?_⟩ <;>
      simp only [smul] <;> ring
  · refine ⟨hc.congr_deriv ?_, (hs.const_mul c.vars.e).congr_deriv ?_,
      (hasDerivAt_const _ _).congr_deriv ?_⟩ <;> simp only [smul] <;> ring
  · refine ⟨hc.congr_deriv ?_, (hasDerivAt_const _ _).congr_deriv ?_,
      (hasDerivAt_const _ _).congr_deriv ?_⟩ <;> simp only [smul] <;> ring
  · have := hasDeriv3_const (match (do
        let a ← idx c.vars.hs 0
        let b ← idx c.vars.hs 1
        let d ← idx c.vars.hs 2
        pure ⟨a, b, d⟩ : R (V3 ℝ)) with | .ok v => v | .error _ => zero) t
    convert this using 1
    ext <;> simp [smul, zero]
  · refine ⟨(hasDerivAt_const _ _).congr_deriv ?_, (hasDerivAt_const _ _).congr_deriv ?_,
      (hasDerivAt_const _ _).congr_deriv ?_⟩ <;> simp only [smul] <;> ring

example : demo.vars.tau ≠ 0 ∧ demo.vars.drive = .xyplane := by
  constructor
  · norm_num [demo, demoVars]
  · rfl

/-! ### C33: rotations of one sublattice commute -/

/-- `rotateSub` visits the pairs (site, field) in order of the sites; any other order of visiting
the same pairs gives the same result, including the panic on a site out of range. -/
theorem C33_order_independent {F : Type} [Add F] [Sub F] [Mul F] [Div F] [Neg F] [OfScientific F]
    [FOps F] (off : ℕ) (spins : List (Spin F)) (field : List (V3 F)) (dt : F)
    (visits : List (ℕ × V3 F))
    (hp : visits.Perm (field.zipIdx.map fun p => (2 * p.2 + off, p.1))) :
    visits.foldlM (fun sp (p : ℕ × V3 F) => SpinChain.rotateAt sp p.1 p.2 dt) spins
      = SpinChain.rotateSub off spins field dt := by
  have hnd : ((field.zipIdx.map fun p => (2 * p.2 + off, p.1)).map Prod.fst).Nodup := by
    rw [List.map_map]
    have : (Prod.fst ∘ fun p : V3 F × ℕ => (2 * p.2 + off, p.1))
        = (fun n => 2 * n + off) ∘ Prod.snd := rfl
    rw [this, ← List.map_map, List.zipIdx_map_snd]
    apply List.Nodup.map
    · intro a b h; simp only at h; omega
    · exact List.nodup_range'
  rw [rotations_perm hp ((hp.map Prod.fst).nodup_iff.2 hnd), List.foldlM_map]
  rfl

/-- the reverse order is one instance -/
example (spins : List (Spin ℝ)) (field : List (V3 ℝ)) (dt : ℝ) :
    ((field.zipIdx.map fun p => (2 * p.2 + 1, p.1)).reverse).foldlM
      (fun sp (p : ℕ × V3 ℝ) => SpinChain.rotateAt sp p.1 p.2 dt) spins
      = SpinChain.rotateSub 1 spins field dt :=
  C33_order_independent 1 spins field dt _ (List.reverse_perm _)

end Verif.Props
