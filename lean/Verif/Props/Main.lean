/-
C59, C60: the options of the main program.
-/
import Verif.Props.ConfigFile

set_option linter.unusedSectionVars false

namespace Verif.Props

section anyF

variable {F : Type} [Add F] [Sub F] [Mul F] [Div F] [Neg F] [OfScientific F] [FOps F]

/-- the calls among the events, with the configuration each of them gets -/
def calls (es : List (Event F)) : List (Callee F × Config F) :=
  es.filterMap fun
    | .call f c => some (f, c)
    | _ => none

/-- what the options before the choice of `beta` ask for, in order -/
def wantedEarly (a : Args F) : List (Callee F) :=
  List.flatten (α := Callee F) [
    if a.config_desc then [.print_config_description] else [],
    if a.ext then [.run_ext] else [],
    a.n_steps_taus.toList.map fun taus => .run_tau taus (a.steps.getD 1000),
    if a.adiab2.isSome then [.find_beta2] else [],
    if a.rot.isSome then [.find_beta_rot, .get_obs_rot] else [],
    if a.maglab.isSome then [.find_beta_maglab, .get_obs_maglab] else [],
    if a.fit.isSome then [.find_beta, .get_obs] else [],
    if a.fit_effective.isSome then [.find_betah, .get_obsh] else [],
    if a.high_freq.isSome then [.get_obsh] else [],
    if a.adiabatic.isSome then [.trajectory_mean_e, .find_beta, .get_obs] else []]

/-- what the other options ask for, in order -/
def wantedLate (a : Args F) : List (Callee F) :=
  List.flatten (α := Callee F) [
    a.hist.toList.map fun p => .gen_hist (p.getD 8000),
    a.dynhist.toList.map fun p => .gen_hist_dynamics (p.getD 1000),
    a.magnus_hist.toList.map fun p => .gen_hist_magnus (p.getD 8000),
    a.singletraj.toList.map fun p => .gen_single_traj (p.getD 1000),
    if a.avg then [.average] else [],
    if a.two_point then [.two_point_average] else [],
    if a.mc then [.run_mc] else [],
    if a.mc_profile then [.run_mc_profile] else [],
    if a.dyn_profile then [.run_dyn_profile] else [],
    if a.mc_full then [.run_mc_magnus] else [],
    a.langevin.toList.map fun g => .run_langevin (g.getD 1.0),
    if a.response then [.run_sim_response] else []]

/-- everything the options ask for, in order -/
def wanted (a : Args F) : List (Callee F) := wantedEarly a ++ wantedLate a

/-! #### Sections add calls -/

/-- `st'` has the calls `l` on top of those of `st` -/
def Adds (st st' : MainState F) (l : List (Callee F)) : Prop :=
  (calls st'.events).map Prod.fst = (calls st.events).map Prod.fst ++ l ∧
    st'.dflt = (st.dflt && l.isEmpty)

theorem calls_append (es es' : List (Event F)) : calls (es ++ es') = calls es ++ calls es' :=
  List.filterMap_append ..

theorem calls_logsOf (conf : Config F) (nums : List ℕ) : calls (logsOf conf nums) = [] := by
  unfold calls logsOf
  split
  · rw [List.filterMap_map]
    exact List.filterMap_eq_nil_iff.mpr fun _ _ => rfl
  · rfl

theorem calls_effect (o : Oracle F) (f : Callee F) (conf : Config F) :
    calls (f.effect o conf).2 = [] := by
  cases f <;> simp only [Callee.effect, calls_append, calls_logsOf, List.nil_append] <;> try rfl
  rw [show ∀ es : List (Event F), (calls es ++ calls [Event.save (advance conf)] = calls es) from
    fun es => List.append_nil _]
  unfold calls
  rw [List.filterMap_map]
  exact List.filterMap_eq_nil_iff.mpr fun _ _ => rfl

theorem Adds.refl (st : MainState F) : Adds st st [] :=
  ⟨(List.append_nil _).symm, (Bool.and_true _).symm⟩

theorem Adds.trans {s1 s2 s3 : MainState F} {l l' : List (Callee F)} (h : Adds s1 s2 l) (h' : Adds s2 s3 l') :
    Adds s1 s3 (l ++ l') := by
  refine ⟨by rw [h'.1, h.1, List.append_assoc], ?_⟩
  rw [h'.2, h.2, Bool.and_assoc]
  cases l <;> rfl

theorem calls_call (o : Oracle F) (f : Callee F) (st : MainState F) :
    (calls (st.call o f).events).map Prod.fst = (calls st.events).map Prod.fst ++ [f] := by
  unfold MainState.call
  dsimp only
  rw [show ∀ es, st.events ++ Event.call f st.conf :: es = (st.events ++ [Event.call f st.conf]) ++ es from
    fun es => by simp, calls_append, calls_append, calls_effect, List.append_nil, List.map_append]
  rfl

theorem calls_callClone (o : Oracle F) (f : Callee F) (st : MainState F) :
    (calls (st.callClone o f).events).map Prod.fst = (calls st.events).map Prod.fst ++ [f] :=
  calls_call o f st

theorem calls_write (file : String) (row : List F) (st : MainState F) :
    (calls (st.write file row).events).map Prod.fst = (calls st.events).map Prod.fst := by
  unfold MainState.write
  rw [calls_append]
  exact congrArg _ (List.append_nil _)

theorem calls_set (g : Config F → Config F) (st : MainState F) :
    (calls (st.set g).events).map Prod.fst = (calls st.events).map Prod.fst := rfl

theorem calls_noDefault (st : MainState F) :
    (calls st.noDefault.events).map Prod.fst = (calls st.events).map Prod.fst := rfl

theorem adds_of (st st' : MainState F) (l : List (Callee F))
    (h : (calls st'.events).map Prod.fst = (calls st.events).map Prod.fst ++ l)
    (hd : st'.dflt = false) (hl : l ≠ []) : Adds st st' l := by
  refine ⟨h, ?_⟩
  rw [hd]
  cases l with
  | nil => exact absurd rfl hl
  | cons x l => exact (Bool.and_false _).symm

theorem adds_desc (a : Args F) (o : Oracle F) (st : MainState F) :
    Adds st (secDesc a o st) (if a.config_desc then [.print_config_description] else []) := by
  unfold secDesc
  by_cases h : a.config_desc
  · rw [if_pos h, if_pos h]
    exact adds_of _ _ _ (by rw [calls_noDefault, calls_call]) rfl (by simp)
  · rw [if_neg h, if_neg h]
    exact Adds.refl st

theorem adds_ext (a : Args F) (o : Oracle F) (st : MainState F) :
    Adds st (secExt a o st) (if a.ext then [.run_ext] else []) := by
  unfold secExt
  by_cases h : a.ext
  · rw [if_pos h, if_pos h]
    exact adds_of _ _ _ (by rw [calls_noDefault, calls_callClone]) rfl (by simp)
  · rw [if_neg h, if_neg h]
    exact Adds.refl st

theorem adds_tau (a : Args F) (o : Oracle F) (st : MainState F) :
    Adds st (secTau a o st) (a.n_steps_taus.toList.map fun taus => .run_tau taus (a.steps.getD 1000)) := by
  unfold secTau
  cases a.n_steps_taus with
  | none => exact Adds.refl st
  | some taus => exact adds_of _ _ _ (by dsimp only; rw [calls_noDefault, calls_call]; rfl) rfl (by simp)

theorem adds_adiab2 (a : Args F) (o : Oracle F) (st : MainState F) :
    Adds st (secAdiab2 a o st) (if a.adiab2.isSome then [.find_beta2] else []) := by
  unfold secAdiab2
  cases a.adiab2 with
  | none => exact Adds.refl st
  | some tau =>
    exact adds_of _ _ _ (by dsimp only; rw [calls_noDefault, calls_write, calls_call, calls_set]; rfl) rfl (by simp)

theorem adds_frame (t : Option F) (find obs : Callee F) (file : String) (o : Oracle F) (st : MainState F) :
    Adds st (secFrame t find obs file o st) (if t.isSome then [find, obs] else []) := by
  unfold secFrame
  cases t with
  | none => exact Adds.refl st
  | some e =>
    exact adds_of _ _ _ (by
      dsimp only
      rw [calls_noDefault, calls_write, calls_call, calls_set, calls_call, calls_set, List.append_assoc]
      rfl) rfl (by simp)

theorem adds_fit (a : Args F) (o : Oracle F) (st : MainState F) :
    Adds st (secFit a o st) (if a.fit.isSome then [.find_beta, .get_obs] else []) := by
  unfold secFit
  cases a.fit with
  | none => exact Adds.refl st
  | some e =>
    exact adds_of _ _ _ (by
      dsimp only
      rw [calls_noDefault, calls_write, calls_call, calls_set, calls_call, calls_set, List.append_assoc]
      rfl) rfl (by simp)

theorem adds_fitEffective (a : Args F) (o : Oracle F) (st : MainState F) :
    Adds st (secFitEffective a o st) (if a.fit_effective.isSome then [.find_betah, .get_obsh] else []) := by
  unfold secFitEffective
  cases a.fit_effective with
  | none => exact Adds.refl st
  | some e =>
    exact adds_of _ _ _ (by
      dsimp only
      rw [calls_noDefault, calls_write, calls_call, calls_set, calls_call, calls_set, List.append_assoc]
      rfl) rfl (by simp)

theorem adds_highFreq (a : Args F) (o : Oracle F) (st : MainState F) :
    Adds st (secHighFreq a o st) (if a.high_freq.isSome then [.get_obsh] else []) := by
  unfold secHighFreq
  cases a.high_freq with
  | none => exact Adds.refl st
  | some e =>
    exact adds_of _ _ _ (by
      dsimp only
      rw [calls_noDefault, calls_write, calls_call, calls_set]
      rfl) rfl (by simp)

theorem adds_adiabatic (a : Args F) (o : Oracle F) (st : MainState F) :
    Adds st (secAdiabatic a o st)
      (if a.adiabatic.isSome then [.trajectory_mean_e, .find_beta, .get_obs] else []) := by
  unfold secAdiabatic
  cases a.adiabatic with
  | none => exact Adds.refl st
  | some e =>
    exact adds_of _ _ _ (by
      dsimp only
      rw [calls_noDefault, calls_write, calls_call, calls_set, calls_call, calls_set, calls_callClone,
        calls_set, List.append_assoc, List.append_assoc]
      rfl) rfl (by simp)

theorem adds_beta (a : Args F) (o : Oracle F) (st : MainState F) : Adds st (secBeta a o st) [] := by
  unfold secBeta
  cases a.beta <;> exact Adds.refl st

theorem adds_call {α : Type} (sel : Option α) (f : α → Callee F) (o : Oracle F) (st : MainState F) :
    Adds st (secCall sel f o st) (sel.toList.map f) := by
  unfold secCall
  cases sel with
  | none => exact Adds.refl st
  | some x => exact adds_of _ _ _ (by dsimp only; rw [calls_noDefault, calls_call]; rfl) rfl (by simp)

theorem flag_list (b : Bool) (f : Callee F) :
    ((flag b).toList.map fun _ => f) = if b then [f] else [] := by
  cases b <;> rfl

theorem adds_flag (b : Bool) (f : Callee F) (o : Oracle F) (st : MainState F) :
    Adds st (secCall (flag b) (fun _ => f) o st) (if b then [f] else []) := by
  rw [← flag_list]
  exact adds_call _ _ _ _

theorem adds_langevin (a : Args F) (o : Oracle F) (st : MainState F) :
    Adds st (secLangevin a o st) (a.langevin.toList.map fun g => .run_langevin (g.getD 1.0)) := by
  unfold secLangevin
  cases a.langevin with
  | none => exact Adds.refl st
  | some x => exact adds_of _ _ _ (by dsimp only; rw [calls_noDefault, calls_call, calls_set]; rfl) rfl (by simp)

/-! #### The two halves of `main` -/

/-- everything before the line that sets `beta` -/
def earlyRun (a : Args F) (o : Oracle F) (conf : Config F) : MainState F :=
  secAdiabatic a o <| secHighFreq a o <| secFitEffective a o <| secFit a o <|
  secFrame a.maglab .find_beta_maglab .get_obs_maglab "betat-maglab.dat" o <|
  secFrame a.rot .find_beta_rot .get_obs_rot "betat-rot.dat" o <| secAdiab2 a o <| secTau a o <|
  secExt a o <| secDesc a o
    { conf := { conf with tau := a.tau.getD conf.tau }, dflt := true, events := [] }

/-- the modes after that line -/
def lateModes (a : Args F) (o : Oracle F) (st : MainState F) : MainState F :=
  secCall (flag a.response) (fun _ => .run_sim_response) o <| secLangevin a o <|
  secCall (flag a.mc_full) (fun _ => .run_mc_magnus) o <|
  secCall (flag a.dyn_profile) (fun _ => .run_dyn_profile) o <|
  secCall (flag a.mc_profile) (fun _ => .run_mc_profile) o <|
  secCall (flag a.mc) (fun _ => .run_mc) o <|
  secCall (flag a.two_point) (fun _ => .two_point_average) o <|
  secCall (flag a.avg) (fun _ => .average) o <|
  secCall a.singletraj (fun p => .gen_single_traj (p.getD 1000)) o <|
  secCall a.magnus_hist (fun p => .gen_hist_magnus (p.getD 8000)) o <|
  secCall a.dynhist (fun p => .gen_hist_dynamics (p.getD 1000)) o <|
  secCall a.hist (fun p => .gen_hist (p.getD 8000)) o st

/-- the default run -/
def lateRun (a : Args F) (o : Oracle F) (st : MainState F) : MainState F :=
  if (lateModes a o st).dflt then (lateModes a o st).call o .run_sim else lateModes a o st

theorem mainRun_eq (a : Args F) (o : Oracle F) (conf : Config F) :
    mainRun a o conf = lateRun a o (secBeta a o (earlyRun a o conf)) := by
  unfold mainRun lateRun lateModes earlyRun
  cases a.tau <;> rfl

theorem adds_early (a : Args F) (o : Oracle F) (conf : Config F) :
    Adds { conf := conf, dflt := true, events := [] } (earlyRun a o conf) (wantedEarly a) := by
  have h := ((((((((adds_desc a o
    { conf := { conf with tau := a.tau.getD conf.tau }, dflt := true, events := [] }).trans
    (adds_ext a o _)).trans (adds_tau a o _)).trans (adds_adiab2 a o _)).trans
    (adds_frame a.rot .find_beta_rot .get_obs_rot "betat-rot.dat" o _)).trans
    (adds_frame a.maglab .find_beta_maglab .get_obs_maglab "betat-maglab.dat" o _)).trans
    (adds_fit a o _)).trans (adds_fitEffective a o _)).trans (adds_highFreq a o _) |>.trans
    (adds_adiabatic a o _)
  simp only [List.append_assoc] at h
  unfold wantedEarly
  simp only [List.flatten_cons, List.flatten_nil, List.append_nil]
  exact h

theorem adds_late (a : Args F) (o : Oracle F) (st : MainState F) :
    Adds st (lateModes a o st) (wantedLate a) := by
  have h := ((((((((((adds_call a.hist (fun p => .gen_hist (p.getD 8000)) o st).trans
    (adds_call a.dynhist (fun p => .gen_hist_dynamics (p.getD 1000)) o _)).trans
    (adds_call a.magnus_hist (fun p => .gen_hist_magnus (p.getD 8000)) o _)).trans
    (adds_call a.singletraj (fun p => .gen_single_traj (p.getD 1000)) o _)).trans
    (adds_flag a.avg .average o _)).trans (adds_flag a.two_point .two_point_average o _)).trans
    (adds_flag a.mc .run_mc o _)).trans (adds_flag a.mc_profile .run_mc_profile o _)).trans
    (adds_flag a.dyn_profile .run_dyn_profile o _)).trans (adds_flag a.mc_full .run_mc_magnus o _)).trans
    (adds_langevin a o _) |>.trans (adds_flag a.response .run_sim_response o _)
  simp only [List.append_assoc] at h
  unfold wantedLate
  simp only [List.flatten_cons, List.flatten_nil, List.append_nil]
  exact h

theorem adds_modes (a : Args F) (o : Oracle F) (conf : Config F) :
    Adds { conf := conf, dflt := true, events := [] }
      (lateModes a o (secBeta a o (earlyRun a o conf))) (wanted a) := by
  have h := ((adds_early a o conf).trans (adds_beta a o _)).trans (adds_late a o _)
  rw [List.append_nil] at h
  exact h

/-- Exactly what the options ask for is called, in a fixed order; the default simulation is called when
nothing else is. -/
theorem C59_order (a : Args F) (o : Oracle F) (conf : Config F) :
    (calls (mainRun a o conf).events).map Prod.fst = if wanted a = [] then [.run_sim] else wanted a := by
  have h := adds_modes a o conf
  rw [mainRun_eq]
  unfold lateRun
  by_cases hw : wanted a = []
  · rw [if_pos hw, if_pos (by rw [h.2, hw]; rfl), calls_call, h.1, hw]
    rfl
  · have hd : (lateModes a o (secBeta a o (earlyRun a o conf))).dflt = false := by
      rw [h.2]
      cases hl : wanted a with
      | nil => exact absurd hl hw
      | cons x l => rfl
    rw [if_neg hw, if_neg (by rw [hd]; decide), h.1]
    dsimp only
    rw [show calls ([] : List (Event F)) = [] from rfl, List.map_nil, List.nil_append]

/-- no option apart from `tau`, `beta` and `steps` -/
def NoMode (a : Args F) : Prop :=
  a.config_desc = false ∧ a.ext = false ∧ a.n_steps_taus = none ∧ a.adiab2 = none ∧ a.rot = none ∧
  a.maglab = none ∧ a.fit = none ∧ a.fit_effective = none ∧ a.high_freq = none ∧ a.adiabatic = none ∧
  a.hist = none ∧ a.dynhist = none ∧ a.magnus_hist = none ∧ a.singletraj = none ∧ a.avg = false ∧
  a.two_point = false ∧ a.mc = false ∧ a.mc_profile = false ∧ a.dyn_profile = false ∧
  a.mc_full = false ∧ a.langevin = none ∧ a.response = false

theorem wanted_nil (a : Args F) : wanted a = [] ↔ NoMode a := by
  unfold wanted wantedEarly wantedLate NoMode
  simp only [List.flatten_cons, List.flatten_nil, List.append_nil, List.append_eq_nil_iff, ite_eq_right_iff, List.map_eq_nil_iff, Option.toList_eq_nil_iff,
    Bool.not_eq_true, List.cons_ne_nil, imp_false, and_assoc, Option.isSome_eq_false_iff,
    Option.isNone_iff_eq_none]

theorem run_sim_not_wanted (a : Args F) : Callee.run_sim ∉ wanted a := by
  unfold wanted wantedEarly wantedLate
  have two : ∀ (b : Bool) (f g : Callee F), f ≠ .run_sim → g ≠ .run_sim →
      Callee.run_sim ∉ (if b then [f, g] else []) := by
    intro b f g hf hg
    cases b
    · simp
    · simp [hf.symm, hg.symm]
  have three : ∀ (b : Bool) (f g h : Callee F), f ≠ .run_sim → g ≠ .run_sim → h ≠ .run_sim →
      Callee.run_sim ∉ (if b then [f, g, h] else []) := by
    intro b f g h hf hg hh
    cases b
    · simp
    · simp [hf.symm, hg.symm, hh.symm]
  have one : ∀ (b : Bool) (f : Callee F), f ≠ .run_sim → Callee.run_sim ∉ (if b then [f] else []) := by
    intro b f hf
    cases b
    · simp
    · simp [hf.symm]
  have opt : ∀ {α : Type} (s : Option α) (f : α → Callee F), (∀ x, f x ≠ .run_sim) →
      Callee.run_sim ∉ s.toList.map f := by
    intro α s f hf
    simp only [List.mem_map, not_exists, not_and]
    exact fun x _ => hf x
  simp only [List.flatten_cons, List.flatten_nil, List.append_nil, List.mem_append, not_or]
  refine ⟨⟨?_, ?_, ?_, ?_, ?_, ?_, ?_, ?_, ?_, ?_⟩, ?_, ?_, ?_, ?_, ?_, ?_, ?_, ?_, ?_, ?_, ?_, ?_⟩
  all_goals first
    | (refine one _ _ ?_; intro h; cases h)
    | (refine two _ _ _ ?_ ?_ <;> (intro h; cases h))
    | (refine three _ _ _ _ ?_ ?_ ?_ <;> (intro h; cases h))
    | (refine opt _ _ ?_; intro x h; cases h)

/-- The default simulation runs exactly when no mode option is given, and then nothing else does. -/
theorem C59_default (a : Args F) (o : Oracle F) (conf : Config F) :
    (.run_sim ∈ (calls (mainRun a o conf).events).map Prod.fst ↔ NoMode a) ∧
    (NoMode a → (calls (mainRun a o conf).events).map Prod.fst = [.run_sim]) := by
  rw [C59_order, ← wanted_nil]
  have hn := run_sim_not_wanted a
  generalize wanted a = w at hn ⊢
  by_cases h : w = []
  · simp [h]
  · rw [if_neg h]
    exact ⟨⟨fun hm => absurd hm hn, fun hw => absurd hw h⟩, fun hw => absurd hw h⟩

/-- Langevin dynamics and the response function, after the averages. -/
example (o : Oracle F) (conf : Config F) :
    (calls (mainRun { langevin := some none, avg := true, response := true } o conf).events).map Prod.fst
      = [.average, .run_langevin 1.0, .run_sim_response] := by
  rw [C59_order]
  rfl

end anyF

end Verif.Props
