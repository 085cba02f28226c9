/-
C60: overrides on the command line and the saved configuration.
-/
import Verif.Props.Main
import Verif.Lemmas.Files

set_option linter.unusedSectionVars false

namespace Verif.Props

section anyF

variable {F : Type} [Add F] [Sub F] [Mul F] [Div F] [Neg F] [OfScientific F] [FOps F]

/-- The configurations of an event satisfy `Q`: the one a function is called with, the one saved. -/
def EvOk (Q : Callee F → Config F → Prop) (S : Config F → Prop) : Event F → Prop
  | .call f c => Q f c
  | .save c => S c
  | _ => True

/-- From `st` to `st'` only events with `Q` and `S` are added. -/
def Grows (Q : Callee F → Config F → Prop) (S : Config F → Prop) (st st' : MainState F) : Prop :=
  ∃ new, st'.events = st.events ++ new ∧ ∀ e ∈ new, EvOk Q S e

theorem Grows.refl {Q : Callee F → Config F → Prop} {S : Config F → Prop} (st : MainState F) : Grows Q S st st :=
  ⟨[], (List.append_nil _).symm, by simp⟩

theorem Grows.trans {Q : Callee F → Config F → Prop} {S : Config F → Prop} {s1 s2 s3 : MainState F} (h : Grows Q S s1 s2)
    (h' : Grows Q S s2 s3) : Grows Q S s1 s3 := by
  obtain ⟨n1, e1, p1⟩ := h
  obtain ⟨n2, e2, p2⟩ := h'
  refine ⟨n1 ++ n2, by rw [e2, e1, List.append_assoc], fun e he => ?_⟩
  rcases List.mem_append.mp he with he | he
  · exact p1 e he
  · exact p2 e he

/-- what the called functions do to a configuration keeps `S` -/
structure Closed (S : Config F → Prop) : Prop where
  whole : ∀ c, S c → S { c with ssize := c.hsize }
  bare : ∀ c, S c → S { c with
    drive := .none
    file := "x" }
  adv : ∀ c, S c → S (advance c)
  dyn : ∀ c, S c → S (dynConf c)

theorem logsOf_ok (Q : Callee F → Config F → Prop) (S : Config F → Prop) (c : Config F) (nums : List ℕ) :
    ∀ e ∈ logsOf c nums, EvOk Q S e := by
  intro e he
  unfold logsOf at he
  split at he
  · obtain ⟨n, -, rfl⟩ := List.mem_map.mp he
    trivial
  · cases he

theorem effect_ok (Q : Callee F → Config F → Prop) {S : Config F → Prop} (hS : Closed S) (o : Oracle F)
    (f : Callee F) (c : Config F) (h : S c) :
    S (f.effect o c).1 ∧ ∀ e ∈ (f.effect o c).2, EvOk Q S e := by
  have run : ∀ c : Config F, S c → ∀ e ∈ logsOf c (runNums c) ++ [.save (advance c)], EvOk Q S e := by
    intro c hc e he
    rcases List.mem_append.mp he with he | he
    · exact logsOf_ok Q S _ _ e he
    · rw [List.mem_singleton] at he
      rw [he]
      exact hS.adv c hc
  cases f
  case print_config_description => exact ⟨h, by intro e he; cases he⟩
  case average => exact ⟨h, by intro e he; cases he⟩
  case two_point_average => exact ⟨h, by intro e he; cases he⟩
  case run_ext => exact ⟨hS.adv c h, run c h⟩
  case run_sim => exact ⟨hS.adv c h, run c h⟩
  case run_sim_response => exact ⟨hS.adv c h, run c h⟩
  case run_dyn_profile => exact ⟨hS.adv _ (hS.dyn c h), run _ (hS.dyn c h)⟩
  case run_langevin =>
    refine ⟨hS.adv c h, fun e he => ?_⟩
    rcases List.mem_append.mp he with he | he
    · obtain ⟨n, -, rfl⟩ := List.mem_map.mp he
      trivial
    · rw [List.mem_singleton] at he
      rw [he]
      exact hS.adv c h
  case find_beta => exact ⟨hS.whole c h, logsOf_ok Q S _ _⟩
  case get_obs_rot => exact ⟨hS.whole c h, logsOf_ok Q S _ _⟩
  case get_obs_maglab => exact ⟨hS.whole c h, logsOf_ok Q S _ _⟩
  case get_obs => exact ⟨hS.whole c h, logsOf_ok Q S _ _⟩
  case get_obsh => exact ⟨hS.whole c h, logsOf_ok Q S _ _⟩
  case gen_hist => exact ⟨hS.bare c h, logsOf_ok Q S _ _⟩
  case gen_hist_magnus => exact ⟨hS.bare c h, logsOf_ok Q S _ _⟩
  all_goals exact ⟨h, logsOf_ok Q S _ _⟩

/-- `st` has a configuration with `S`, and grew from `s0` -/
def Good (Q : Callee F → Config F → Prop) (S : Config F → Prop) (s0 st : MainState F) : Prop :=
  S st.conf ∧ Grows Q S s0 st

section good

variable {Q : Callee F → Config F → Prop} {S : Config F → Prop} {s0 st : MainState F}

theorem Good.callClone (hS : Closed S) (o : Oracle F) (f : Callee F)
    (hQ : S st.conf → Q f st.conf) (h : Good Q S s0 st) : Good Q S s0 (st.callClone o f) := by
  refine ⟨h.1, h.2.trans ⟨_, rfl, ?_⟩⟩
  intro e he
  rcases List.mem_cons.mp he with rfl | he
  · exact hQ h.1
  · exact (effect_ok Q hS o f _ h.1).2 e he

theorem Good.call (hS : Closed S) (o : Oracle F) (f : Callee F)
    (hQ : S st.conf → Q f st.conf) (h : Good Q S s0 st) : Good Q S s0 (st.call o f) :=
  ⟨(effect_ok Q hS o f _ h.1).1, (h.callClone hS o f hQ).2⟩

theorem Good.set (g : Config F → Config F) (hg : ∀ c, S c → S (g c)) (h : Good Q S s0 st) :
    Good Q S s0 (st.set g) := ⟨hg _ h.1, h.2⟩

theorem Good.write (file : String) (row : List F) (h : Good Q S s0 st) : Good Q S s0 (st.write file row) := by
  refine ⟨h.1, h.2.trans ⟨_, rfl, ?_⟩⟩
  intro e he
  rw [List.mem_singleton] at he
  rw [he]
  trivial

theorem Good.noDefault (h : Good Q S s0 st) : Good Q S s0 st.noDefault := h

theorem Good.desc (hS : Closed S) (a : Args F) (o : Oracle F)
    (hQ : ∀ c, S c → Q .print_config_description c) (h : Good Q S s0 st) : Good Q S s0 (secDesc a o st) := by
  unfold secDesc
  split
  · exact (h.call hS o _ (hQ _)).noDefault
  · exact h

theorem Good.ext (hS : Closed S) (a : Args F) (o : Oracle F) (hQ : ∀ c, S c → Q .run_ext c)
    (h : Good Q S s0 st) : Good Q S s0 (secExt a o st) := by
  unfold secExt
  split
  · exact (h.callClone hS o _ (hQ _)).noDefault
  · exact h

theorem Good.tau (hS : Closed S) (a : Args F) (o : Oracle F) (hQ : ∀ ts n c, S c → Q (.run_tau ts n) c)
    (h : Good Q S s0 st) : Good Q S s0 (secTau a o st) := by
  unfold secTau
  split
  · exact (h.call hS o _ (hQ _ _ _)).noDefault
  · exact h

theorem Good.adiab2 (hS : Closed S) (a : Args F) (o : Oracle F)
    (hg : ∀ tau c, a.adiab2 = some tau → S c → S (rotFields { c with tau := tau }))
    (hQ : ∀ c, S c → Q .find_beta2 c) (h : Good Q S s0 st) : Good Q S s0 (secAdiab2 a o st) := by
  unfold secAdiab2
  split
  · rename_i tau ht
    exact (((h.set _ (fun c => hg tau c ht)).call hS o _ (hQ _)).write _ _).noDefault
  · exact h

theorem Good.frame (hS : Closed S) (t : Option F) (find obs : Callee F) (file : String) (o : Oracle F)
    (hg : ∀ (e : F) c, t = some e → S c → S { c with ednsty := e })
    (hb : ∀ (b : F) c, t.isSome → S c → S { c with beta := b })
    (h1 : ∀ c, S c → Q find c) (h2 : ∀ c, S c → Q obs c)
    (h : Good Q S s0 st) : Good Q S s0 (secFrame t find obs file o st) := by
  unfold secFrame
  split
  · exact (((((h.set _ (fun c => hg _ c rfl)).call hS o _ (h1 _)).set _ (fun c => hb _ c rfl)).call hS o _
      (h2 _)).write _ _).noDefault
  · exact h

theorem Good.fit (hS : Closed S) (a : Args F) (o : Oracle F)
    (hg : ∀ (e : F) c, a.fit = some e → S c → S { rotFields { c with ednsty := e } with hsize := c.ssize })
    (hb : ∀ (b : F) c, a.fit.isSome → S c → S { c with beta := b })
    (h1 : ∀ c, S c → Q .find_beta c) (h2 : ∀ c, S c → Q .get_obs c)
    (h : Good Q S s0 st) : Good Q S s0 (secFit a o st) := by
  unfold secFit
  split
  · rename_i e he
    exact (((((h.set _ (fun c => hg e c he)).call hS o _ (h1 _)).set _
      (fun c => hb _ c (by rw [he]; rfl))).call hS o _ (h2 _)).write _ _).noDefault
  · exact h

theorem Good.fitEffective (hS : Closed S) (a : Args F) (o : Oracle F)
    (hg : ∀ (e : F) c, a.fit_effective = some e → S c → S (rotFields { c with ednsty := e }))
    (hb : ∀ (b : F) c, a.fit_effective.isSome → S c → S { c with
      beta := b
      hs := [1.0, 0.0, 0.0] })
    (h1 : ∀ c, S c → Q .find_betah c) (h2 : ∀ c, S c → Q .get_obsh c)
    (h : Good Q S s0 st) : Good Q S s0 (secFitEffective a o st) := by
  unfold secFitEffective
  split
  · rename_i e he
    exact (((((h.set _ (fun c => hg e c he)).call hS o _ (h1 _)).set _
      (fun c => hb _ c (by rw [he]; rfl))).call hS o _ (h2 _)).write _ _).noDefault
  · exact h

theorem Good.highFreq (hS : Closed S) (a : Args F) (o : Oracle F)
    (hg : ∀ (e : F) c, a.high_freq = some e → S c → S { c with
      ednsty := e
      hfield := [0.0, 0.0, -c.tau / (4.0 * fpi)] })
    (h2 : ∀ c, S c → Q .get_obsh c)
    (h : Good Q S s0 st) : Good Q S s0 (secHighFreq a o st) := by
  unfold secHighFreq
  split
  · rename_i e he
    exact (((h.set _ (fun c => hg e c he)).call hS o _ (h2 _)).write _ _).noDefault
  · exact h

theorem Good.adiabatic (hS : Closed S) (a : Args F) (o : Oracle F)
    (hg : ∀ (tau : F) c, a.adiabatic = some tau → S c → S { c with tau := tau })
    (hm : ∀ (e : F) c, a.adiabatic.isSome → S c → S { c with
      ednsty := e
      hs := [1.0, 0.0, -2.0 * fpi / c.tau] })
    (hb : ∀ (b : F) c, a.adiabatic.isSome → S c → S { c with beta := b })
    (h1 : ∀ c, S c → Q .trajectory_mean_e c) (h2 : ∀ c, S c → Q .find_beta c)
    (h3 : ∀ c, S c → Q .get_obs c)
    (h : Good Q S s0 st) : Good Q S s0 (secAdiabatic a o st) := by
  unfold secAdiabatic
  split
  · rename_i e he
    exact (((((((h.set _ (fun c => hg e c he)).callClone hS o _ (h1 _)).set _
      (fun c => hm _ c (by rw [he]; rfl))).call hS o _ (h2 _)).set _
      (fun c => hb _ c (by rw [he]; rfl))).call hS o _ (h3 _)).write _ _).noDefault
  · exact h

theorem Good.sec (hS : Closed S) {α : Type} (sel : Option α) (f : α → Callee F) (o : Oracle F)
    (hQ : ∀ x c, S c → Q (f x) c) (h : Good Q S s0 st) : Good Q S s0 (secCall sel f o st) := by
  unfold secCall
  split
  · exact (h.call hS o _ (hQ _ _)).noDefault
  · exact h

theorem Good.langevin (hS : Closed S) (a : Args F) (o : Oracle F)
    (hg : ∀ c, a.langevin.isSome → S c → S { c with hsize := c.ssize })
    (hQ : ∀ g c, S c → Q (.run_langevin g) c) (h : Good Q S s0 st) : Good Q S s0 (secLangevin a o st) := by
  unfold secLangevin
  split
  · rename_i e he
    exact ((h.set _ (fun c => hg c (by rw [he]; rfl))).call hS o _ (hQ _ _)).noDefault
  · exact h

/-- the second half of the main program -/
theorem Good.late (hS : Closed S) (a : Args F) (o : Oracle F)
    (hg : ∀ c, a.langevin.isSome → S c → S { c with hsize := c.ssize })
    (hQ : ∀ f c, S c → Q f c) (h : Good Q S s0 st) : Good Q S s0 (lateRun a o st) := by
  have hm : Good Q S s0 (lateModes a o st) := by
    unfold lateModes
    exact (((((((((((h.sec hS a.hist _ o (fun x c => hQ _ c)).sec hS a.dynhist _ o (fun x c => hQ _ c)).sec
      hS a.magnus_hist _ o (fun x c => hQ _ c)).sec hS a.singletraj _ o (fun x c => hQ _ c)).sec
      hS (flag a.avg) _ o (fun x c => hQ _ c)).sec hS (flag a.two_point) _ o (fun x c => hQ _ c)).sec
      hS (flag a.mc) _ o (fun x c => hQ _ c)).sec hS (flag a.mc_profile) _ o (fun x c => hQ _ c)).sec
      hS (flag a.dyn_profile) _ o (fun x c => hQ _ c)).sec hS (flag a.mc_full) _ o (fun x c => hQ _ c)).langevin
      hS a o hg (fun g c => hQ _ c)).sec hS (flag a.response) _ o (fun x c => hQ _ c)
  unfold lateRun
  split
  · exact hm.call hS o _ (hQ _ _)
  · exact hm

end good

/-- the configurations of the calls and the saved ones -/
theorem good_all {Q : Callee F → Config F → Prop} {S : Config F → Prop} {conf : Config F} {st : MainState F}
    (h : Good Q S { conf := conf, dflt := true, events := [] } st) :
    (∀ p ∈ calls st.events, Q p.1 p.2) ∧ ∀ c ∈ savedConfs st.events, S c := by
  obtain ⟨-, new, e, hn⟩ := h
  rw [show st.events = new from e]
  refine ⟨fun p hp => ?_, fun c hc => ?_⟩
  · obtain ⟨ev, hev, hev'⟩ := List.mem_filterMap.mp hp
    have := hn ev hev
    cases ev <;> simp only [reduceCtorEq, Option.some.injEq] at hev'
    rw [← hev']
    exact this
  · obtain ⟨ev, hev, hev'⟩ := List.mem_filterMap.mp hc
    have := hn ev hev
    cases ev <;> simp only [reduceCtorEq, Option.some.injEq] at hev'
    rw [← hev']
    exact this

theorem closed_tau (x : F) : Closed fun c : Config F => c.tau = x :=
  ⟨fun _ h => h, fun _ h => h, fun _ h => h, fun _ h => h⟩

/-- The period given on the command line reaches every call and every saved configuration, unless
`--adiabatic` or `--adiab_full` bring their own.  Full statement: it reaches every call and is not saved;
see `C60_tau_replaced` and `C60_override_saved`. -/
theorem C60_tau_partial (a : Args F) (o : Oracle F) (conf : Config F) (h1 : a.adiab2 = none)
    (h2 : a.adiabatic = none) :
    (∀ p ∈ calls (mainRun a o conf).events, p.2.tau = a.tau.getD conf.tau) ∧
    ∀ c ∈ savedConfs (mainRun a o conf).events, c.tau = a.tau.getD conf.tau := by
  have hS := closed_tau (a.tau.getD conf.tau)
  rw [mainRun_eq]
  have h0 : Good (fun _ c => c.tau = a.tau.getD conf.tau) (fun c => c.tau = a.tau.getD conf.tau)
      { conf := conf, dflt := true, events := [] }
      { conf := { conf with tau := a.tau.getD conf.tau }, dflt := true, events := [] } :=
    ⟨rfl, [], rfl, by simp⟩
  refine good_all (Q := fun _ c => c.tau = a.tau.getD conf.tau) (conf := conf) ?_
  refine Good.late hS a o (fun c _ h => h) (fun f c h => h) ?_
  have he : Good (fun _ c => c.tau = a.tau.getD conf.tau) (fun c => c.tau = a.tau.getD conf.tau)
      { conf := conf, dflt := true, events := [] } (earlyRun a o conf) := by
    unfold earlyRun
    exact (((((((((h0.desc hS a o (fun c h => h)).ext hS a o (fun c h => h)).tau hS a o (fun _ _ c h => h)).adiab2
      hS a o (fun t c ht => by rw [h1] at ht; cases ht) (fun c h => h)).frame hS _ _ _ _ o (fun _ _ _ h => h)
      (fun _ _ _ h => h) (fun _ h => h) (fun _ h => h)).frame hS _ _ _ _ o (fun _ _ _ h => h)
      (fun _ _ _ h => h) (fun _ h => h) (fun _ h => h)).fit hS a o (fun _ _ _ h => h) (fun _ _ _ h => h)
      (fun _ h => h) (fun _ h => h)).fitEffective hS a o (fun _ _ _ h => h) (fun _ _ _ h => h) (fun _ h => h)
      (fun _ h => h)).highFreq hS a o (fun _ _ _ h => h) (fun _ h => h)).adiabatic hS a o
      (fun t c ht => by rw [h2] at ht; cases ht) (fun _ _ _ h => h) (fun _ _ _ h => h) (fun _ h => h)
      (fun _ h => h) (fun _ h => h)
  unfold secBeta
  split
  · exact he.set _ (fun c h => h)
  · exact he.set _ (fun c h => h)

/-- The functions called after the choice of `beta`. -/
def isLate : Callee F → Bool
  | .gen_hist _ | .gen_hist_dynamics _ | .gen_hist_magnus _ | .gen_single_traj _ | .average
  | .two_point_average | .run_mc | .run_mc_profile | .run_dyn_profile | .run_mc_magnus
  | .run_langevin _ | .run_sim_response | .run_sim => true
  | _ => false

theorem closed_true : Closed fun _ : Config F => True :=
  ⟨fun _ _ => trivial, fun _ _ => trivial, fun _ _ => trivial, fun _ _ => trivial⟩

theorem early_calls (a : Args F) (o : Oracle F) (conf : Config F) :
    ∀ p ∈ calls (earlyRun a o conf).events, isLate p.1 = false := by
  have h0 : Good (fun (f : Callee F) _ => isLate f = false) (fun _ => True)
      { conf := conf, dflt := true, events := [] }
      { conf := { conf with tau := a.tau.getD conf.tau }, dflt := true, events := [] } :=
    ⟨trivial, [], rfl, by simp⟩
  have hS := closed_true (F := F)
  refine (good_all (Q := fun (f : Callee F) _ => isLate f = false) (S := fun _ => True) (conf := conf) ?_).1
  unfold earlyRun
  exact (((((((((h0.desc hS a o (fun c h => rfl)).ext hS a o (fun c h => rfl)).tau hS a o (fun _ _ c h => rfl)).adiab2
      hS a o (fun _ _ _ h => h) (fun c h => rfl)).frame hS _ _ _ _ o (fun _ _ _ h => h)
      (fun _ _ _ h => h) (fun _ h => rfl) (fun _ h => rfl)).frame hS _ _ _ _ o (fun _ _ _ h => h)
      (fun _ _ _ h => h) (fun _ h => rfl) (fun _ h => rfl)).fit hS a o (fun _ _ _ h => h) (fun _ _ _ h => h)
      (fun _ h => rfl) (fun _ h => rfl)).fitEffective hS a o (fun _ _ _ h => h) (fun _ _ _ h => h) (fun _ h => rfl)
      (fun _ h => rfl)).highFreq hS a o (fun _ _ _ h => h) (fun _ h => rfl)).adiabatic hS a o
      (fun _ _ _ h => h) (fun _ _ _ h => h) (fun _ _ _ h => h) (fun _ h => rfl)
      (fun _ h => rfl) (fun _ h => rfl)

/-- the calls of the second half -/
theorem late_calls (a : Args F) (o : Oracle F) (conf : Config F) :
    ∃ new, (mainRun a o conf).events = (earlyRun a o conf).events ++ new ∧
      (∀ p ∈ calls new, isLate p.1 = true ∧ p.2.beta = a.beta.getD (o.solve p.2.ednsty)) ∧
      ∀ c ∈ savedConfs new, c.beta = a.beta.getD (o.solve c.ednsty) := by
  rw [mainRun_eq]
  have hS : Closed fun c : Config F => c.beta = a.beta.getD (o.solve c.ednsty) :=
    ⟨fun _ h => h, fun _ h => h, fun _ h => h, fun _ h => h⟩
  have hb : (secBeta a o (earlyRun a o conf)).conf.beta
      = a.beta.getD (o.solve (secBeta a o (earlyRun a o conf)).conf.ednsty) := by
    unfold secBeta
    cases a.beta <;> rfl
  have he : (secBeta a o (earlyRun a o conf)).events = (earlyRun a o conf).events := by
    unfold secBeta
    cases a.beta <;> rfl
  generalize secBeta a o (earlyRun a o conf) = s at hb he
  have h0 : Good (fun (f : Callee F) c => isLate f = true ∧ c.beta = a.beta.getD (o.solve c.ednsty))
      (fun c => c.beta = a.beta.getD (o.solve c.ednsty)) s s := ⟨hb, Grows.refl s⟩
  have hm := (((((((((((h0.sec hS a.hist (fun p => .gen_hist (p.getD 8000)) o (fun x c h => ⟨rfl, h⟩)).sec
      hS a.dynhist (fun p => .gen_hist_dynamics (p.getD 1000)) o (fun x c h => ⟨rfl, h⟩)).sec
      hS a.magnus_hist (fun p => .gen_hist_magnus (p.getD 8000)) o (fun x c h => ⟨rfl, h⟩)).sec
      hS a.singletraj (fun p => .gen_single_traj (p.getD 1000)) o (fun x c h => ⟨rfl, h⟩)).sec
      hS (flag a.avg) (fun _ => .average) o (fun x c h => ⟨rfl, h⟩)).sec
      hS (flag a.two_point) (fun _ => .two_point_average) o (fun x c h => ⟨rfl, h⟩)).sec
      hS (flag a.mc) (fun _ => .run_mc) o (fun x c h => ⟨rfl, h⟩)).sec
      hS (flag a.mc_profile) (fun _ => .run_mc_profile) o (fun x c h => ⟨rfl, h⟩)).sec
      hS (flag a.dyn_profile) (fun _ => .run_dyn_profile) o (fun x c h => ⟨rfl, h⟩)).sec
      hS (flag a.mc_full) (fun _ => .run_mc_magnus) o (fun x c h => ⟨rfl, h⟩)).langevin
      hS a o (fun c _ h => h) (fun g c h => ⟨rfl, h⟩)).sec
      hS (flag a.response) (fun _ => .run_sim_response) o (fun x c h => ⟨rfl, h⟩)
  have hr : Good (fun (f : Callee F) c => isLate f = true ∧ c.beta = a.beta.getD (o.solve c.ednsty))
      (fun c => c.beta = a.beta.getD (o.solve c.ednsty)) s (lateRun a o s) := by
    unfold lateRun
    split
    · exact Good.call hS o _ (fun h => ⟨rfl, h⟩) hm
    · exact hm
  obtain ⟨-, new, e, hn⟩ := hr
  refine ⟨new, by rw [e, he], fun p hp => ?_, fun c hc => ?_⟩
  · obtain ⟨ev, hev, hev'⟩ := List.mem_filterMap.mp hp
    have := hn ev hev
    cases ev <;> simp only [reduceCtorEq, Option.some.injEq] at hev'
    rw [← hev']
    exact this
  · obtain ⟨ev, hev, hev'⟩ := List.mem_filterMap.mp hc
    have := hn ev hev
    cases ev <;> simp only [reduceCtorEq, Option.some.injEq] at hev'
    rw [← hev']
    exact this

/-- The modes after the choice of `beta` get the inverse temperature of the command line, or else the
one of the energy density; the one in the configuration file is not used.  Full statement: the override
reaches every mode; `C60_beta_early_ignored` shows what is missing. -/
theorem C60_beta_partial (a : Args F) (o : Oracle F) (conf : Config F) :
    ∀ p ∈ calls (mainRun a o conf).events, isLate p.1 = true →
      p.2.beta = a.beta.getD (o.solve p.2.ednsty) := by
  obtain ⟨new, e, hc, -⟩ := late_calls a o conf
  intro p hp hl
  rw [e, calls_append] at hp
  rcases List.mem_append.mp hp with hp | hp
  · have := early_calls a o conf p hp
    rw [hl] at this
    cases this
  · exact (hc p hp).2

/-- The other modes get the same configurations with any `--beta` as without. -/
theorem C60_beta_early_ignored (a : Args F) (o : Oracle F) (conf : Config F) (b : Option F) :
    (calls (mainRun { a with beta := b } o conf).events).filter (fun p => !isLate p.1)
      = (calls (mainRun { a with beta := none } o conf).events).filter (fun p => !isLate p.1) := by
  have key : ∀ b : Option F,
      (calls (mainRun { a with beta := b } o conf).events).filter (fun p => !isLate p.1)
        = calls (earlyRun a o conf).events := by
    intro b
    obtain ⟨new, e, hc, -⟩ := late_calls { a with beta := b } o conf
    rw [e, calls_append, List.filter_append,
      (List.filter_eq_nil_iff (l := calls new)).mpr (fun p hp => by simp only [(hc p hp).1]; decide),
      List.append_nil,
      show earlyRun { a with beta := b } o conf = earlyRun a o conf from rfl]
    exact List.filter_eq_self.mpr fun p hp => by rw [early_calls a o conf p hp]; rfl
  rw [key b, key none]

/-- For example `--ext --beta b` runs with the temperature of the configuration file. -/
theorem C60_ext_ignores_beta (o : Oracle F) (conf : Config F) (b : F) :
    calls (mainRun { ext := true, beta := some b } o conf).events = [(.run_ext, conf)] := by
  rw [mainRun_eq]
  show calls ([] ++ Event.call .run_ext conf :: (logsOf conf (runNums conf) ++ [.save (advance conf)])) = _
  rw [List.nil_append, ← List.singleton_append, calls_append, calls_append, calls_logsOf]
  rfl

/-- A period given with `--adiab_full` replaces the one of `--tau` in all later modes. -/
theorem C60_tau_replaced (o : Oracle F) (conf : Config F) (x y : F) :
    ∃ c c', calls (mainRun { tau := some x, adiab2 := some y, response := true } o conf).events
      = [(.find_beta2, c), (.run_sim_response, c')] ∧ c.tau = y ∧ c'.tau = y := by
  refine ⟨rotFields { conf with tau := y },
    { rotFields { conf with tau := y } with beta := o.solve conf.ednsty }, ?_, rfl, rfl⟩
  rw [mainRun_eq]
  show calls ((([] ++ Event.call .find_beta2 (rotFields { conf with tau := y }) :: logsOf _ (List.replicate _ 0))
    ++ [Event.append _ _]) ++ Event.call .run_sim_response
      { rotFields { conf with tau := y } with beta := o.solve conf.ednsty } ::
      (logsOf _ _ ++ [.save _])) = _
  rw [List.nil_append, calls_append, calls_append, ← List.singleton_append, calls_append, calls_logsOf,
    ← List.singleton_append (l := logsOf _ _ ++ _), calls_append, calls_append, calls_logsOf]
  rfl

/-- A default run: one simulation with the overrides, then the configuration, with the overrides, is
saved under the next offset. -/
theorem default_events (a : Args F) (o : Oracle F) (conf : Config F) (h : NoMode a) :
    ∃ c, (mainRun a o conf).events
        = Event.call .run_sim c :: (logsOf c (runNums c) ++ [.save (advance c)]) ∧
      c = { conf with
        tau := a.tau.getD conf.tau
        beta := a.beta.getD (o.solve conf.ednsty) } := by
  refine ⟨_, ?_, rfl⟩
  obtain ⟨tau, avg, beta, mc, mc_profile, dyn_profile, mc_full, hist, dynhist, singletraj, langevin, magnus_hist,
    config_desc, n_steps_taus, adiabatic, adiab2, rot, ext, maglab, steps, fit, fit_effective, response,
    two_point, high_freq⟩ := a
  obtain ⟨h1, h2, h3, h4, h5, h6, h7, h8, h9, h10, h11, h12, h13, h14, h15, h16, h17, h18, h19, h20, h21, h22⟩ := h
  dsimp only at h1 h2 h3 h4 h5 h6 h7 h8 h9 h10 h11 h12 h13 h14 h15 h16 h17 h18 h19 h20 h21 h22
  subst h1 h2 h3 h4 h5 h6 h7 h8 h9 h10 h11 h12 h13 h14 h15 h16 h17 h18 h19 h20 h21 h22
  rw [mainRun_eq]
  cases beta <;> rfl

theorem created_logsOf (c : Config F) (nums : List ℕ) :
    createdLogs (logsOf c nums) = if c.log then nums.map (SpinChain.logName c.file) else [] := by
  unfold createdLogs logsOf
  split
  · rw [List.filterMap_map]
    exact congrFun (List.filterMap_eq_map (f := SpinChain.logName c.file)) nums
  · rfl

theorem saved_logsOf (c : Config F) (nums : List ℕ) : savedConfs (logsOf c nums) = [] := by
  unfold savedConfs logsOf
  split
  · rw [List.filterMap_map]
    exact List.filterMap_eq_nil_iff.mpr fun _ _ => rfl
  · rfl

theorem saved_creates (f : ℕ → String) (nums : List ℕ) :
    savedConfs (nums.map fun n => (Event.create (f n) : Event F)) = [] := by
  unfold savedConfs
  rw [List.filterMap_map]
  exact List.filterMap_eq_nil_iff.mpr fun _ _ => rfl

theorem created_creates (f : ℕ → String) (nums : List ℕ) :
    createdLogs (nums.map fun n => (Event.create (f n) : Event F)) = nums.map f := by
  unfold createdLogs
  rw [List.filterMap_map]
  exact congrFun (List.filterMap_eq_map (f := f)) nums

/-- a configuration that was read is in range -/
theorem read_inRange {name : String} {fs fs' : FS F} {c : Config F}
    (h : read_config name fs = (fs', .ok c)) : InRange c := by
  unfold read_config at h
  split at h
  · cases h
    exact default_inRange
  · cases h
    exact default_inRange
  · cases h
  · rename_i kvs hk
    cases hc : Config.ofTable kvs with
    | none => rw [hc] at h; cases h
    | some d =>
      rw [hc] at h
      cases h
      exact (C62_fields kvs _ hc _ rfl).1

theorem advance_inRange {c : Config F} (h : InRange c) : InRange (advance c) :=
  ⟨h.hsize, h.ssize, h.runs, h.method, Nat.mod_lt _ (by decide), h.threads, h.mc_points⟩

/-- After a default run the overrides of the command line are part of `config.toml`; apart from them
only the offset has changed. -/
theorem C60_override_saved (a : Args F) (o : Oracle F) (fs fs0 : FS F) (conf : Config F) (h : NoMode a)
    (hr : read_config "config.toml" fs = (fs0, .ok conf)) :
    ∃ fs' es, mainIn a o fs = (fs', .ok es) ∧
      read_config "config.toml" fs' = (fs', .ok { conf with
        tau := a.tau.getD conf.tau
        beta := a.beta.getD (o.solve conf.ednsty)
        offset := (conf.offset + asUsize conf.runs % 2 ^ 32) % 2 ^ 32 }) := by
  obtain ⟨c, he, hc⟩ := default_events a o conf h
  refine ⟨applyEvents fs0 (mainRun a o conf).events, (mainRun a o conf).events, ?_, ?_⟩
  · unfold mainIn
    rw [hr]
  · have hi := read_inRange hr
    have hci : InRange c := by
      rw [hc]
      exact ⟨hi.hsize, hi.ssize, hi.runs, hi.method, hi.offset, hi.threads, hi.mc_points⟩
    have hcfg : "config.toml" ∉ createdLogs (mainRun a o conf).events := by
      rw [he, ← List.singleton_append, createdLogs_append, createdLogs_append, created_logsOf]
      intro hm
      rcases List.mem_append.mp hm with hm | hm
      · cases hm
      · rcases List.mem_append.mp hm with hm | hm
        · split at hm
          · obtain ⟨n, -, hn⟩ := List.mem_map.mp hm
            exact logName_ne_config _ _ hn
          · cases hm
        · cases hm
    have hf := applyEvents_config fs0 _ hcfg
    have hsv : (savedConfs (mainRun a o conf).events).getLast? = some (advance c) := by
      rw [he, ← List.singleton_append, savedConfs_append, savedConfs_append, saved_logsOf]
      rfl
    rw [hsv] at hf
    have := C62_valid _ _ _ _ hf (C62_roundtrip _ (advance_inRange hci))
    rw [this, hc]
    rfl

/-- So a later default run without options uses the period given to the first one. -/
theorem C60_override_persists (o o' : Oracle F) (fs fs0 : FS F) (conf : Config F) (x : F)
    (hr : read_config "config.toml" fs = (fs0, .ok conf)) :
    ∃ fs' es fs'' es', mainIn { tau := some x } o fs = (fs', .ok es) ∧ mainIn {} o' fs' = (fs'', .ok es') ∧
      ∃ c, calls es' = [(.run_sim, c)] ∧ c.tau = x := by
  have hno : ∀ t : Option F, NoMode { tau := t } := fun t =>
    ⟨rfl, rfl, rfl, rfl, rfl, rfl, rfl, rfl, rfl, rfl, rfl, rfl, rfl, rfl, rfl, rfl, rfl, rfl, rfl, rfl, rfl, rfl⟩
  obtain ⟨fs', es, h1, h2⟩ := C60_override_saved { tau := some x } o fs fs0 conf (hno _) hr
  obtain ⟨c, he, hc⟩ := default_events {} o' { conf with
        tau := x
        beta := o.solve conf.ednsty
        offset := (conf.offset + asUsize conf.runs % 2 ^ 32) % 2 ^ 32 } (hno _)
  refine ⟨fs', es, _, _, h1, by unfold mainIn; rw [h2], c, ?_, by rw [hc]; rfl⟩
  refine Eq.trans (congrArg calls he) ?_
  rw [← List.singleton_append, calls_append, calls_append, calls_logsOf]
  rfl

/-- in an empty directory -/
example (o o' : Oracle F) (x : F) :
    ∃ fs' es fs'' es', mainIn { tau := some x } o (fun _ => none) = (fs', .ok es) ∧
      mainIn {} o' fs' = (fs'', .ok es') ∧ ∃ c, calls es' = [(.run_sim, c)] ∧ c.tau = x :=
  C60_override_persists o o' _ _ Config.default x rfl

/-- `--langevin` saves the size of the subsystem as the size of the whole chain. -/
theorem C60_langevin_saves_size (o : Oracle F) (conf : Config F) (g : Option F) :
    ∃ c, savedConfs (mainRun { langevin := some g } o conf).events = [c] ∧ c.hsize = conf.ssize := by
  refine ⟨advance { conf with
    beta := o.solve conf.ednsty
    hsize := conf.ssize }, ?_, rfl⟩
  rw [mainRun_eq]
  show savedConfs ([] ++ Event.call _ _ :: ((runNums _).map _ ++ [.save _])) = _
  rw [List.nil_append, ← List.singleton_append, savedConfs_append, savedConfs_append]
  rw [saved_creates]
  rfl

/-- `--histogram --response` simulates and saves a chain without drive, logging to other files. -/
theorem C60_histogram_saves_drive (o : Oracle F) (conf : Config F) (p : Option ℕ) :
    ∃ c c' c'', calls (mainRun { hist := some p, response := true } o conf).events
        = [(.gen_hist (p.getD 8000), c), (.run_sim_response, c')] ∧ c'.drive = .none ∧ c'.file = "x" ∧
      savedConfs (mainRun { hist := some p, response := true } o conf).events = [c''] ∧
      c''.drive = .none ∧ c''.file = "x" := by
  refine ⟨{ conf with beta := o.solve conf.ednsty }, { conf with
      beta := o.solve conf.ednsty
      drive := .none
      file := "x" }, advance { conf with
      beta := o.solve conf.ednsty
      drive := .none
      file := "x" }, ?_, rfl, rfl, ?_, rfl, rfl⟩
  · rw [mainRun_eq]
    show calls (([] ++ Event.call (.gen_hist (p.getD 8000)) { conf with beta := o.solve conf.ednsty } ::
      logsOf _ [0]) ++ Event.call .run_sim_response _ :: (logsOf _ _ ++ [.save _])) = _
    rw [List.nil_append, calls_append, ← List.singleton_append, calls_append, calls_logsOf,
      ← List.singleton_append (l := logsOf _ _ ++ _), calls_append, calls_append, calls_logsOf]
    rfl
  · rw [mainRun_eq]
    show savedConfs (([] ++ Event.call (.gen_hist (p.getD 8000)) { conf with beta := o.solve conf.ednsty } ::
      logsOf _ [0]) ++ Event.call .run_sim_response _ :: (logsOf _ _ ++ [.save _])) = _
    rw [List.nil_append, savedConfs_append, ← List.singleton_append, savedConfs_append, saved_logsOf,
      ← List.singleton_append (l := logsOf _ _ ++ _), savedConfs_append, savedConfs_append, saved_logsOf]
    rfl

end anyF

end Verif.Props
