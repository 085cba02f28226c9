/-
C113: the files that results are written to.
-/
import Verif.Model.Outputs
import Verif.Props.Overrides
import Batteries.Data.List.Lemmas

set_option linter.unusedSectionVars false

namespace Verif.Props

section anyF

variable {F : Type} [Add F] [Sub F] [Mul F] [Div F] [Neg F] [OfScientific F] [FOps F]

/-! #### Which option writes which file -/

/-- The files of results of an invocation, in order: log files and `config.toml` left out. -/
def resultFiles (disp : F → String) (es : List (Event F)) : List Opened :=
  es.flatMap fun
    | .call f c => f.outputs disp c
    | .append file _ => [⟨file, .append⟩]
    | _ => []

/-- The table: option by option, the files opened and how, for a configuration with the time `t`. -/
def filesOf (disp : F → String) (t : F) (a : Args F) : List Opened :=
  List.flatten [
    if a.n_steps_taus.isSome then [⟨"evt" ++ toString (a.steps.getD 1000) ++ ".dat", .append⟩] else [],
    if a.adiab2.isSome then [⟨"beta.dat", .append⟩] else [],
    if a.rot.isSome then [⟨"betat-rot.dat", .append⟩] else [],
    if a.maglab.isSome then [⟨"betat-maglab.dat", .append⟩] else [],
    if a.fit.isSome then [⟨"betat.dat", .append⟩] else [],
    if a.fit_effective.isSome then [⟨"betat.dat", .append⟩] else [],
    if a.high_freq.isSome then [⟨"betat.dat", .append⟩] else [],
    if a.adiabatic.isSome then [⟨"beta.dat", .append⟩] else [],
    if a.hist.isSome then [⟨"hist_mc.dat", .append⟩, ⟨"hist_dyn.dat", .append⟩] else [],
    if a.dynhist.isSome then [⟨"dyn-hist-t-" ++ disp t ++ ".dat", .append⟩] else [],
    if a.magnus_hist.isSome then [⟨"hist_mc_magnus.dat", .append⟩] else [],
    if a.singletraj.isSome then [⟨"hist-st-t-" ++ disp t ++ ".dat", .append⟩] else [],
    if a.avg then [⟨"avg.dat", .create⟩] else [],
    if a.two_point then [⟨"two-point.dat", .create⟩] else [],
    if a.mc then [⟨"mc_live.dat", .append⟩] else [],
    if a.mc_profile then [⟨"mc_profile.dat", .create⟩] else [],
    if a.dyn_profile then [500, 1000, 1500, 2000, 2500, 3000, 3500, 4000].map
      (fun k : ℕ => ⟨"dyn_profile-" ++ toString k ++ "-tau.dat", .create⟩) else [],
    if a.mc_full then [⟨"mc_live.dat", .append⟩] else []]

theorem resultFiles_append (disp : F → String) (es es' : List (Event F)) :
    resultFiles disp (es ++ es') = resultFiles disp es ++ resultFiles disp es' := List.flatMap_append

theorem resultFiles_logsOf (disp : F → String) (c : Config F) (nums : List ℕ) :
    resultFiles disp (logsOf c nums) = [] := by
  unfold resultFiles logsOf
  split
  · rw [List.flatMap_map]
    exact List.flatMap_eq_nil_iff.mpr fun _ _ => rfl
  · rfl

theorem resultFiles_effect (disp : F → String) (o : Oracle F) (f : Callee F) (c : Config F) :
    resultFiles disp (f.effect o c).2 = [] := by
  cases f <;> simp only [Callee.effect, resultFiles_append, resultFiles_logsOf, List.nil_append] <;> try rfl
  rw [show ∀ es : List (Event F), (resultFiles disp es ++ resultFiles disp [Event.save (advance c)]
    = resultFiles disp es) from fun es => List.append_nil _]
  unfold resultFiles
  rw [List.flatMap_map]
  exact List.flatMap_eq_nil_iff.mpr fun _ _ => rfl

/-- `st'` has the files `l` on top of those of `st`, and the same time -/
def Opens (disp : F → String) (st st' : MainState F) (l : List Opened) : Prop :=
  resultFiles disp st'.events = resultFiles disp st.events ++ l ∧ st'.conf.t = st.conf.t

section opens

variable {disp : F → String}

theorem Opens.refl (st : MainState F) : Opens disp st st [] := ⟨(List.append_nil _).symm, rfl⟩

theorem Opens.trans {s1 s2 s3 : MainState F} {l l' : List Opened} (h : Opens disp s1 s2 l)
    (h' : Opens disp s2 s3 l') : Opens disp s1 s3 (l ++ l') :=
  ⟨by rw [h'.1, h.1, List.append_assoc], h'.2.trans h.2⟩

theorem opened_call (o : Oracle F) (f : Callee F) (st : MainState F) :
    resultFiles disp (st.call o f).events = resultFiles disp st.events ++ f.outputs disp st.conf := by
  show resultFiles disp (st.events ++ Event.call f st.conf :: (f.effect o st.conf).2) = _
  rw [← List.singleton_append, resultFiles_append, resultFiles_append, resultFiles_effect, List.append_nil]
  congr 1
  exact List.append_nil _

theorem opened_callClone (o : Oracle F) (f : Callee F) (st : MainState F) :
    resultFiles disp (st.callClone o f).events = resultFiles disp st.events ++ f.outputs disp st.conf :=
  opened_call o f st

theorem opened_write (file : String) (row : List F) (st : MainState F) :
    resultFiles disp (st.write file row).events = resultFiles disp st.events ++ [⟨file, .append⟩] := by
  unfold MainState.write
  rw [resultFiles_append]
  rfl

theorem opened_set (g : Config F → Config F) (st : MainState F) :
    resultFiles disp (st.set g).events = resultFiles disp st.events := rfl

theorem opened_noDefault (st : MainState F) :
    resultFiles disp st.noDefault.events = resultFiles disp st.events := rfl

theorem effect_t (o : Oracle F) (f : Callee F) (c : Config F) (hf : f ≠ .run_dyn_profile) :
    (f.effect o c).1.t = c.t := by
  cases f <;> first | rfl | exact absurd rfl hf

theorem Opens.call (o : Oracle F) (f : Callee F) (st : MainState F) (hf : f ≠ .run_dyn_profile) :
    Opens disp st (st.call o f) (f.outputs disp st.conf) :=
  ⟨opened_call o f st, effect_t o f st.conf hf⟩

theorem opens_desc (a : Args F) (o : Oracle F) (st : MainState F) : Opens disp st (secDesc a o st) [] := by
  unfold secDesc
  split
  · exact Opens.call o .print_config_description st (by simp)
  · exact Opens.refl st

theorem opens_ext (a : Args F) (o : Oracle F) (st : MainState F) : Opens disp st (secExt a o st) [] := by
  unfold secExt
  split
  · exact ⟨opened_callClone o .run_ext st, rfl⟩
  · exact Opens.refl st

theorem opens_tau (a : Args F) (o : Oracle F) (st : MainState F) :
    Opens disp st (secTau a o st)
      (if a.n_steps_taus.isSome then [⟨"evt" ++ toString (a.steps.getD 1000) ++ ".dat", .append⟩] else []) := by
  unfold secTau
  cases a.n_steps_taus with
  | none => exact Opens.refl st
  | some taus => exact Opens.call o (.run_tau taus (a.steps.getD 1000)) st (by simp)

theorem opens_adiab2 (a : Args F) (o : Oracle F) (st : MainState F) :
    Opens disp st (secAdiab2 a o st) (if a.adiab2.isSome then [⟨"beta.dat", .append⟩] else []) := by
  unfold secAdiab2
  cases a.adiab2 with
  | none => exact Opens.refl st
  | some tau =>
    refine ⟨?_, rfl⟩
    dsimp only
    rw [opened_noDefault, opened_write, opened_call, opened_set]
    exact congrArg (· ++ _) (List.append_nil _)

theorem opens_frame (t : Option F) (find obs : Callee F) (file : String) (o : Oracle F) (st : MainState F)
    (h1 : ∀ c, find.outputs disp c = []) (h2 : ∀ c, obs.outputs disp c = [])
    (h3 : find ≠ .run_dyn_profile) (h4 : obs ≠ .run_dyn_profile) :
    Opens disp st (secFrame t find obs file o st) (if t.isSome then [⟨file, .append⟩] else []) := by
  unfold secFrame
  cases t with
  | none => exact Opens.refl st
  | some e =>
    refine ⟨?_, ?_⟩
    · dsimp only
      rw [opened_noDefault, opened_write, opened_call, opened_set, opened_call, opened_set, h1, h2,
        List.append_nil, List.append_nil]
      rfl
    · refine (effect_t o obs _ h4).trans ?_
      exact effect_t o find _ h3

theorem opens_fit (a : Args F) (o : Oracle F) (st : MainState F) :
    Opens disp st (secFit a o st) (if a.fit.isSome then [⟨"betat.dat", .append⟩] else []) := by
  unfold secFit
  cases a.fit with
  | none => exact Opens.refl st
  | some e =>
    refine ⟨?_, rfl⟩
    dsimp only
    rw [opened_noDefault, opened_write, opened_call, opened_set, opened_call, opened_set]
    simp only [Callee.outputs, List.append_nil]
    rfl

theorem opens_fitEffective (a : Args F) (o : Oracle F) (st : MainState F) :
    Opens disp st (secFitEffective a o st) (if a.fit_effective.isSome then [⟨"betat.dat", .append⟩] else []) := by
  unfold secFitEffective
  cases a.fit_effective with
  | none => exact Opens.refl st
  | some e =>
    refine ⟨?_, rfl⟩
    dsimp only
    rw [opened_noDefault, opened_write, opened_call, opened_set, opened_call, opened_set]
    simp only [Callee.outputs, List.append_nil]
    rfl

theorem opens_highFreq (a : Args F) (o : Oracle F) (st : MainState F) :
    Opens disp st (secHighFreq a o st) (if a.high_freq.isSome then [⟨"betat.dat", .append⟩] else []) := by
  unfold secHighFreq
  cases a.high_freq with
  | none => exact Opens.refl st
  | some e =>
    refine ⟨?_, rfl⟩
    dsimp only
    rw [opened_noDefault, opened_write, opened_call, opened_set]
    simp only [Callee.outputs, List.append_nil]
    rfl

theorem opens_adiabatic (a : Args F) (o : Oracle F) (st : MainState F) :
    Opens disp st (secAdiabatic a o st) (if a.adiabatic.isSome then [⟨"beta.dat", .append⟩] else []) := by
  unfold secAdiabatic
  cases a.adiabatic with
  | none => exact Opens.refl st
  | some e =>
    refine ⟨?_, rfl⟩
    dsimp only
    rw [opened_noDefault, opened_write, opened_call, opened_set, opened_call, opened_set, opened_callClone,
      opened_set]
    simp only [Callee.outputs, List.append_nil]
    rfl

theorem opens_beta (a : Args F) (o : Oracle F) (st : MainState F) : Opens disp st (secBeta a o st) [] := by
  unfold secBeta
  cases a.beta <;> exact ⟨(List.append_nil _).symm, rfl⟩

theorem opens_sec {α : Type} (sel : Option α) (f : α → Callee F) (o : Oracle F) (st : MainState F)
    (l : List Opened) (hf : ∀ x, f x ≠ .run_dyn_profile) (hl : ∀ x, (f x).outputs disp st.conf = l) :
    Opens disp st (secCall sel f o st) (if sel.isSome then l else []) := by
  unfold secCall
  cases sel with
  | none => exact Opens.refl st
  | some x =>
    have := Opens.call (disp := disp) o (f x) st (hf x)
    rw [hl x] at this
    exact this

theorem opens_flag (b : Bool) (f : Callee F) (o : Oracle F) (st : MainState F)
    (l : List Opened) (hf : f ≠ .run_dyn_profile) (hl : f.outputs disp st.conf = l) :
    Opens disp st (secCall (flag b) (fun _ => f) o st) (if b then l else []) := by
  have := opens_sec (disp := disp) (flag b) (fun _ => f) o st l (fun _ => hf) (fun _ => hl)
  cases b <;> exact this

theorem opens_langevin (a : Args F) (o : Oracle F) (st : MainState F) :
    Opens disp st (secLangevin a o st) [] := by
  unfold secLangevin
  cases a.langevin with
  | none => exact Opens.refl st
  | some g => exact ⟨opened_call o (.run_langevin (g.getD 1.0)) _, rfl⟩

end opens

/-- Every option writes to the files of the table and to no others (apart from log files and
`config.toml`, which are the subject of C58 and C60), in the order of the table; without options there
are none. -/
theorem C113_files (disp : F → String) (a : Args F) (o : Oracle F) (conf : Config F) :
    resultFiles disp (mainRun a o conf).events = filesOf disp conf.t a := by
  rw [mainRun_eq]
  set st0 : MainState F :=
    { conf := { conf with tau := a.tau.getD conf.tau }, dflt := true, events := [] } with hst0
  have early : Opens disp st0 (earlyRun a o conf) _ :=
    (((((((((opens_desc a o st0).trans (opens_ext a o _)).trans (opens_tau a o _)).trans
    (opens_adiab2 a o _)).trans (opens_frame a.rot .find_beta_rot .get_obs_rot "betat-rot.dat" o _
      (fun _ => rfl) (fun _ => rfl) (by simp) (by simp))).trans
    (opens_frame a.maglab .find_beta_maglab .get_obs_maglab "betat-maglab.dat" o _
      (fun _ => rfl) (fun _ => rfl) (by simp) (by simp))).trans (opens_fit a o _)).trans
    (opens_fitEffective a o _)).trans (opens_highFreq a o _)).trans (opens_adiabatic a o _)
  have he := early.trans (opens_beta a o _)
  generalize secBeta a o (earlyRun a o conf) = st at he
  have ht : st.conf.t = conf.t := he.2
  have h1 := opens_sec (disp := disp) a.hist (fun p => .gen_hist (p.getD 8000)) o st
    [⟨"hist_mc.dat", .append⟩, ⟨"hist_dyn.dat", .append⟩] (by simp) (fun _ => rfl)
  have e1 := he.trans h1
  set s1 := secCall a.hist (fun p => .gen_hist (p.getD 8000)) o st
  have h2 := opens_sec (disp := disp) a.dynhist (fun p => .gen_hist_dynamics (p.getD 1000)) o s1
    [⟨"dyn-hist-t-" ++ disp conf.t ++ ".dat", .append⟩] (by simp)
    (fun _ => by rw [← show s1.conf.t = conf.t from e1.2]; rfl)
  have e2 := e1.trans h2
  set s2 := secCall a.dynhist (fun p => .gen_hist_dynamics (p.getD 1000)) o s1
  have e3 := e2.trans (opens_sec (disp := disp) a.magnus_hist (fun p => .gen_hist_magnus (p.getD 8000)) o s2
    [⟨"hist_mc_magnus.dat", .append⟩] (by simp) (fun _ => rfl))
  set s3 := secCall a.magnus_hist (fun p => .gen_hist_magnus (p.getD 8000)) o s2
  have e4 := e3.trans (opens_sec (disp := disp) a.singletraj (fun p => .gen_single_traj (p.getD 1000)) o s3
    [⟨"hist-st-t-" ++ disp conf.t ++ ".dat", .append⟩] (by simp)
    (fun _ => by rw [← show s3.conf.t = conf.t from e3.2]; rfl))
  set s4 := secCall a.singletraj (fun p => .gen_single_traj (p.getD 1000)) o s3
  have e8 := (((e4.trans (opens_flag a.avg .average o s4 _ (by simp) rfl)).trans
    (opens_flag a.two_point .two_point_average o _ _ (by simp) rfl)).trans
    (opens_flag a.mc .run_mc o _ _ (by simp) rfl)).trans
    (opens_flag a.mc_profile .run_mc_profile o _ _ (by simp) rfl)
  set s8 := secCall (flag a.mc_profile) (fun _ => .run_mc_profile) o _ with hs8
  have e9 : resultFiles disp (secCall (flag a.dyn_profile) (fun _ => .run_dyn_profile) o s8).events
      = resultFiles disp s8.events ++ (if a.dyn_profile then [500, 1000, 1500, 2000, 2500, 3000, 3500, 4000].map
      (fun k : ℕ => ⟨"dyn_profile-" ++ toString k ++ "-tau.dat", .create⟩) else []) := by
    unfold secCall
    cases a.dyn_profile with
    | false => exact (List.append_nil _).symm
    | true => exact opened_call o .run_dyn_profile s8
  have e10 := ((opens_flag (disp := disp) a.mc_full .run_mc_magnus o
    (secCall (flag a.dyn_profile) (fun _ => .run_dyn_profile) o s8) _ (by simp) rfl).trans
    (opens_langevin a o _)).trans (opens_flag a.response .run_sim_response o _ _ (by simp) rfl)
  have hm : resultFiles disp (lateModes a o st).events = filesOf disp conf.t a := by
    refine e10.1.trans ?_
    rw [e9, e8.1]
    rw [show resultFiles disp st0.events = [] from rfl]
    unfold filesOf
    simp only [List.flatten_cons, List.flatten_nil, List.append_nil, List.nil_append, List.append_assoc,
      Callee.outputs, ite_self]
  unfold lateRun
  split
  · rw [opened_call, hm]
    exact List.append_nil _
  · exact hm

/-- A fit and a histogram. -/
example (disp : F → String) (o : Oracle F) (conf : Config F) (e : F) :
    resultFiles disp (mainRun { fit := some e, hist := some none, avg := true } o conf).events
      = [⟨"betat.dat", .append⟩, ⟨"hist_mc.dat", .append⟩, ⟨"hist_dyn.dat", .append⟩, ⟨"avg.dat", .create⟩] := by
  rw [C113_files]
  rfl

/-- Without options no file of results is opened. -/
example (disp : F → String) (o : Oracle F) (conf : Config F) :
    resultFiles disp (mainRun {} o conf).events = [] := by
  rw [C113_files]
  rfl

/-! #### What is emptied -/

/-- all files opened by a run of the program, in order -/
def openedFiles (disp : F → String) (es : List (Event F)) : List Opened := es.flatMap (Event.opened disp)

/-- The files that are started afresh every time: `config.toml`, the averages and the profiles. -/
def freshFiles : List String :=
  ["config.toml", "avg.dat", "two-point.dat", "mc_profile.dat"] ++
    [500, 1000, 1500, 2000, 2500, 3000, 3500, 4000].map fun k : ℕ => "dyn_profile-" ++ toString k ++ "-tau.dat"

/-- log files of a configuration, or those made by the histograms -/
def LogOf (file name : String) : Prop := ∃ n : ℕ, name = file ++ toString n ++ ".dat" ∨ name = "x" ++ toString n ++ ".dat"

/-- the file of an event may be emptied only if it is a log file -/
def LogsOnly (file : String) : Event F → Prop
  | .create n => LogOf file n
  | _ => True

/-- the file pattern is that of the configuration or `x`, and all created files are log files -/
def Named (file : String) (st : MainState F) : Prop :=
  (st.conf.file = file ∨ st.conf.file = "x") ∧ ∀ e ∈ st.events, LogsOnly file e

section named

variable {file : String} {st : MainState F}

theorem logOf_name {c : Config F} (h : c.file = file ∨ c.file = "x") (n : ℕ) :
    LogOf file (SpinChain.logName c.file n) := by
  rcases h with h | h
  · exact ⟨n, Or.inl (by rw [h]; rfl)⟩
  · exact ⟨n, Or.inr (by rw [h]; rfl)⟩

theorem named_logsOf {c : Config F} (h : c.file = file ∨ c.file = "x") (nums : List ℕ) :
    ∀ e ∈ logsOf c nums, LogsOnly file e := by
  intro e he
  unfold logsOf at he
  split at he
  · obtain ⟨n, -, rfl⟩ := List.mem_map.mp he
    exact logOf_name h n
  · cases he

theorem named_effect (o : Oracle F) (f : Callee F) {c : Config F} (h : c.file = file ∨ c.file = "x") :
    ((f.effect o c).1.file = file ∨ (f.effect o c).1.file = "x") ∧ ∀ e ∈ (f.effect o c).2, LogsOnly file e := by
  have run : ∀ (d d' : Config F) nums, (d.file = file ∨ d.file = "x") →
      ∀ e ∈ logsOf d nums ++ [.save d'], LogsOnly file e := by
    intro d d' nums hd e he
    rcases List.mem_append.mp he with he | he
    · exact named_logsOf hd nums e he
    · rw [List.mem_singleton] at he
      rw [he]
      trivial
  cases f
  case print_config_description => exact ⟨h, by intro e he; cases he⟩
  case average => exact ⟨h, by intro e he; cases he⟩
  case two_point_average => exact ⟨h, by intro e he; cases he⟩
  case run_ext => exact ⟨h, run c _ _ h⟩
  case run_sim => exact ⟨h, run c _ _ h⟩
  case run_sim_response => exact ⟨h, run c _ _ h⟩
  case run_dyn_profile => exact ⟨h, run (dynConf c) _ _ h⟩
  case run_langevin =>
    refine ⟨h, fun e he => ?_⟩
    rcases List.mem_append.mp he with he | he
    · obtain ⟨n, -, rfl⟩ := List.mem_map.mp he
      exact logOf_name h n
    · rw [List.mem_singleton] at he
      rw [he]
      trivial
  case gen_hist => exact ⟨Or.inr rfl, named_logsOf (Or.inr rfl) _⟩
  case gen_hist_magnus => exact ⟨Or.inr rfl, named_logsOf (Or.inr rfl) _⟩
  all_goals exact ⟨h, named_logsOf h _⟩

theorem Named.callClone (h : Named file st) (o : Oracle F) (f : Callee F) : Named file (st.callClone o f) := by
  refine ⟨h.1, fun e he => ?_⟩
  rcases List.mem_append.mp he with he | he
  · exact h.2 e he
  · rcases List.mem_cons.mp he with rfl | he
    · trivial
    · exact (named_effect o f h.1).2 e he

theorem Named.call (h : Named file st) (o : Oracle F) (f : Callee F) : Named file (st.call o f) :=
  ⟨(named_effect o f h.1).1, (h.callClone o f).2⟩

theorem Named.set (h : Named file st) (g : Config F → Config F) (hg : (g st.conf).file = st.conf.file) :
    Named file (st.set g) := ⟨by show (g st.conf).file = _ ∨ (g st.conf).file = _; rw [hg]; exact h.1, h.2⟩

theorem Named.write (h : Named file st) (name : String) (row : List F) : Named file (st.write name row) := by
  refine ⟨h.1, fun e he => ?_⟩
  rcases List.mem_append.mp he with he | he
  · exact h.2 e he
  · rw [List.mem_singleton] at he
    rw [he]
    trivial

theorem Named.noDefault (h : Named file st) : Named file st.noDefault := h

theorem Named.sec (h : Named file st) {α : Type} (sel : Option α) (f : α → Callee F) (o : Oracle F) :
    Named file (secCall sel f o st) := by
  unfold secCall
  split
  · exact (h.call o _).noDefault
  · exact h

theorem Named.frame (h : Named file st) (t : Option F) (find obs : Callee F) (name : String) (o : Oracle F) :
    Named file (secFrame t find obs name o st) := by
  unfold secFrame
  split
  · exact (((((h.set _ rfl).call o _).set _ rfl).call o _).write _ _).noDefault
  · exact h

end named

theorem named_main (a : Args F) (o : Oracle F) (conf : Config F) : Named conf.file (mainRun a o conf) := by
  rw [mainRun_eq]
  have h0 : Named conf.file
      { conf := { conf with tau := a.tau.getD conf.tau }, dflt := true, events := [] } :=
    ⟨Or.inl rfl, by intro e he; cases he⟩
  have h1 : Named conf.file (secDesc a o
      { conf := { conf with tau := a.tau.getD conf.tau }, dflt := true, events := [] }) := by
    unfold secDesc
    split
    · exact (h0.call o _).noDefault
    · exact h0
  have he : Named conf.file (earlyRun a o conf) := by
    unfold earlyRun
    generalize secDesc a o _ = s at h1
    have h2 : Named conf.file (secExt a o s) := by
      unfold secExt
      split
      · exact (h1.callClone o _).noDefault
      · exact h1
    generalize secExt a o s = s at h2
    have h3 : Named conf.file (secTau a o s) := by
      unfold secTau
      split
      · exact (h2.call o _).noDefault
      · exact h2
    generalize secTau a o s = s at h3
    have h4 : Named conf.file (secAdiab2 a o s) := by
      unfold secAdiab2
      split
      · exact (((h3.set _ rfl).call o _).write _ _).noDefault
      · exact h3
    generalize secAdiab2 a o s = s at h4
    have h5 := (h4.frame a.rot .find_beta_rot .get_obs_rot "betat-rot.dat" o).frame a.maglab
      .find_beta_maglab .get_obs_maglab "betat-maglab.dat" o
    generalize secFrame a.maglab .find_beta_maglab .get_obs_maglab "betat-maglab.dat" o _ = s at h5
    have h6 : Named conf.file (secFit a o s) := by
      unfold secFit
      split
      · exact (((((h5.set _ rfl).call o _).set _ rfl).call o _).write _ _).noDefault
      · exact h5
    generalize secFit a o s = s at h6
    have h7 : Named conf.file (secFitEffective a o s) := by
      unfold secFitEffective
      split
      · exact (((((h6.set _ rfl).call o _).set _ rfl).call o _).write _ _).noDefault
      · exact h6
    generalize secFitEffective a o s = s at h7
    have h8 : Named conf.file (secHighFreq a o s) := by
      unfold secHighFreq
      split
      · exact (((h7.set _ rfl).call o _).write _ _).noDefault
      · exact h7
    generalize secHighFreq a o s = s at h8
    unfold secAdiabatic
    split
    · exact (((((((h8.set _ rfl).callClone o _).set _ rfl).call o _).set _ rfl).call o _).write _ _).noDefault
    · exact h8
  have hb : Named conf.file (secBeta a o (earlyRun a o conf)) := by
    unfold secBeta
    split <;> exact he.set _ rfl
  generalize secBeta a o (earlyRun a o conf) = s at hb
  have hm : Named conf.file (lateModes a o s) := by
    unfold lateModes
    refine Named.sec ?_ _ _ _
    have h10 := (((((((((hb.sec a.hist (fun p => .gen_hist (p.getD 8000)) o).sec a.dynhist
      (fun p => .gen_hist_dynamics (p.getD 1000)) o).sec a.magnus_hist
      (fun p => .gen_hist_magnus (p.getD 8000)) o).sec a.singletraj
      (fun p => .gen_single_traj (p.getD 1000)) o).sec (flag a.avg) (fun _ => .average) o).sec
      (flag a.two_point) (fun _ => .two_point_average) o).sec (flag a.mc) (fun _ => .run_mc) o).sec
      (flag a.mc_profile) (fun _ => .run_mc_profile) o).sec (flag a.dyn_profile)
      (fun _ => .run_dyn_profile) o).sec (flag a.mc_full) (fun _ => .run_mc_magnus) o
    unfold secLangevin
    split
    · exact ((h10.set _ rfl).call o _).noDefault
    · exact h10
  unfold lateRun
  split
  · exact hm.call o _
  · exact hm

theorem mem_resultFiles_opened {disp : F → String} {es : List (Event F)} {f : Opened}
    (h : f ∈ openedFiles disp es) :
    f ∈ resultFiles disp es ∨ (∃ n, f = ⟨n, .create⟩ ∧ Event.create n ∈ es) ∨ f = ⟨"config.toml", .create⟩ := by
  obtain ⟨e, he, hf⟩ := List.mem_flatMap.mp h
  cases e with
  | call g c => exact Or.inl (List.mem_flatMap.mpr ⟨_, he, hf⟩)
  | append n r => exact Or.inl (List.mem_flatMap.mpr ⟨_, he, hf⟩)
  | create n => exact Or.inr (Or.inl ⟨n, List.mem_singleton.mp hf, he⟩)
  | save c => exact Or.inr (Or.inr (List.mem_singleton.mp hf))

theorem fresh_of_files {disp : F → String} {t : F} {a : Args F} {name : String}
    (h : ⟨name, .create⟩ ∈ filesOf disp t a) : name ∈ freshFiles := by
  obtain ⟨l, hl, hn⟩ := List.mem_flatten.mp h
  simp only [List.mem_cons, List.not_mem_nil, or_false] at hl
  rcases hl with h | h | h | h | h | h | h | h | h | h | h | h | h | h | h | h | h | h <;>
    rw [h] at hn <;> split at hn <;>
    (try simp only [List.mem_cons, List.not_mem_nil, or_false, Opened.mk.injEq, reduceCtorEq, and_false, and_true,
      or_self] at hn) <;> first
    | (rw [hn]; simp [freshFiles])
    | (obtain ⟨k, hk, e⟩ := List.mem_map.mp hn
       exact List.mem_append_right _ (List.mem_map.mpr ⟨k, hk, (Opened.mk.injEq .. ▸ e).1⟩))

/-- Of the files a run of the program opens, only log files, `config.toml`, the averages and the profiles
are emptied; all others are opened for appending. -/
theorem C113_emptied (disp : F → String) (a : Args F) (o : Oracle F) (conf : Config F) (name : String)
    (h : ⟨name, .create⟩ ∈ openedFiles disp (mainRun a o conf).events) :
    name ∈ freshFiles ∨ LogOf conf.file name := by
  rcases mem_resultFiles_opened h with h | ⟨n, h, hn⟩ | h
  · rw [C113_files] at h
    exact Or.inl (fresh_of_files h)
  · cases h
    exact Or.inr ((named_main a o conf).2 _ hn)
  · cases h
    exact Or.inl (by simp [freshFiles])

/-! #### What is kept -/

/-- the character before the last four -/
theorem logOf_digit {file name : String} (h : LogOf file name) :
    ∃ c : Char, (name.toList.reverse.drop 4).head? = some c ∧ c.isDigit = true := by
  have key : ∀ (f : String) (n : ℕ), ∃ c : Char,
      ((f ++ toString n ++ ".dat").toList.reverse.drop 4).head? = some c ∧ c.isDigit = true := by
    intro f n
    rw [String.toList_append, String.toList_append, List.reverse_append, List.reverse_append,
      show ".dat".toList.reverse = ['t', 'a', 'd', '.'] by decide]
    show ∃ c, ((toString n).toList.reverse ++ f.toList.reverse).head? = some c ∧ _
    have hd : (toString n).toList = Nat.toDigits 10 n := by
      show (Nat.repr n).toList = _
      rw [Nat.repr_eq_ofList_toDigits, String.toList_ofList]
    rw [hd]
    have hne : Nat.toDigits 10 n ≠ [] := Nat.toDigits_ne_nil
    rw [List.head?_append_of_ne_nil _ (by simp [hne]), List.head?_reverse]
    refine ⟨(Nat.toDigits 10 n).getLast hne, List.getLast?_eq_some_getLast hne, ?_⟩
    exact Nat.isDigit_of_mem_toDigits (by decide) (by decide) (List.getLast_mem hne)
  obtain ⟨n, h | h⟩ := h
  · rw [h]
    exact key file n
  · rw [h]
    exact key "x" n

/-- The lines of a file survive whatever is done through handles of other files and through handles that
append. -/
theorem kept_of_not_emptied (ops : List FileOp) (l : List Opened) (hops : ∀ op ∈ ops, op.allowed l)
    (name : String) (hn : ⟨name, .create⟩ ∉ l) (s : Store) (old : List String) (hs : s name = some old) :
    ∃ new, ops.foldl FileOp.run s name = some (old ++ new) := by
  induction ops generalizing s old with
  | nil => exact ⟨[], by rw [List.append_nil]; exact hs⟩
  | cons op ops ih =>
    have hr := fun op h => hops op (List.mem_cons_of_mem _ h)
    have ha := hops op (List.mem_cons_self ..)
    rw [List.foldl_cons]
    cases op with
    | line n x =>
      by_cases h : name = n
      · obtain ⟨new, e⟩ := ih hr (FileOp.run s (.line n x)) (old ++ [x])
          (by show (if name = n then _ else _) = _; rw [if_pos h, ← h, hs]; rfl)
        exact ⟨[x] ++ new, by rw [e, List.append_assoc]⟩
      · exact ih hr _ old (by show (if name = n then _ else _) = _; rw [if_neg h]; exact hs)
    | put n y =>
      have h : name ≠ n := by
        rintro rfl
        exact hn ha
      exact ih hr _ old (by show (if name = n then _ else _) = _; rw [if_neg h]; exact hs)

/-- the files opened by several runs of the program, each with its options, results and configuration -/
def sessionFiles (disp : F → String) (runs : List (Args F × Oracle F × Config F)) : List Opened :=
  runs.flatMap fun r => openedFiles disp (mainRun r.1 r.2.1 r.2.2).events

/-- Whatever runs of the program follow, with any options and configurations, and however the writes of
their threads are interleaved: the lines of a file that is neither a log file nor one of the files started
afresh stay, and new ones come after them. -/
theorem C113_kept (disp : F → String) (runs : List (Args F × Oracle F × Config F)) (ops : List FileOp)
    (hops : ∀ op ∈ ops, op.allowed (sessionFiles disp runs)) (name : String) (h1 : name ∉ freshFiles)
    (h2 : ∀ r ∈ runs, ¬ LogOf r.2.2.file name) (s : Store) (old : List String) (hs : s name = some old) :
    ∃ new, ops.foldl FileOp.run s name = some (old ++ new) := by
  refine kept_of_not_emptied ops _ hops name ?_ s old hs
  intro h
  obtain ⟨r, hr, h⟩ := List.mem_flatMap.mp h
  rcases C113_emptied disp _ _ _ _ h with h | h
  · exact h1 h
  · exact h2 r hr h

/-- The results of the histograms, of the Monte-Carlo averages and of all fits are never lost, whatever the
pattern of the log files is. -/
theorem C113_results (disp : F → String) (runs : List (Args F × Oracle F × Config F)) (ops : List FileOp)
    (hops : ∀ op ∈ ops, op.allowed (sessionFiles disp runs)) (name : String)
    (h : name ∈ ["hist_mc.dat", "hist_dyn.dat", "hist_mc_magnus.dat", "mc_live.dat", "beta.dat", "betat.dat",
      "betat-rot.dat", "betat-maglab.dat"])
    (s : Store) (old : List String) (hs : s name = some old) :
    ∃ new, ops.foldl FileOp.run s name = some (old ++ new) := by
  have key : name ∉ freshFiles ∧ ∀ c, (name.toList.reverse.drop 4).head? = some c → c.isDigit = false := by
    simp only [List.mem_cons, List.not_mem_nil, or_false] at h
    rcases h with rfl | rfl | rfl | rfl | rfl | rfl | rfl | rfl <;> refine ⟨by decide, fun c hc => ?_⟩ <;>
      · rw [← Option.some.inj (show some _ = some c from hc)]
        decide
  refine C113_kept disp runs ops hops name key.1 (fun r _ hl => ?_) s old hs
  obtain ⟨c, hc, hd⟩ := logOf_digit hl
  rw [key.2 c hc] at hd
  cases hd

/-- Two histograms, for different configurations, into a file that had a line already; the second run
starts before the first has written everything. -/
example (disp : F → String) (o : Oracle F) (c d : Config F) :
    let runs := [(({ hist := some none } : Args F), o, c), ({ hist := some (some 2) }, o, d)]
    let ops := [FileOp.line "hist_mc.dat" "1 0 0 1", .line "hist_mc.dat" "0 1 0 2", .line "hist_dyn.dat" "3",
      .line "hist_mc.dat" "0 0 1 3"]
    (∀ op ∈ ops, op.allowed (sessionFiles disp runs)) ∧
      ops.foldl FileOp.run (fun n => if n = "hist_mc.dat" then some ["0 0 0 0"] else none) "hist_mc.dat"
        = some ["0 0 0 0", "1 0 0 1", "0 1 0 2", "0 0 1 3"] := by
  intro runs ops
  have hm : ∀ f, f ∈ resultFiles disp (mainRun { hist := some none } o c).events →
      f ∈ sessionFiles disp runs := by
    intro f hf
    refine List.mem_flatMap.mpr ⟨_, List.mem_cons_self .., ?_⟩
    obtain ⟨e, he, hf⟩ := List.mem_flatMap.mp hf
    refine List.mem_flatMap.mpr ⟨e, he, ?_⟩
    cases e with
    | call g c => exact hf
    | append n r => exact hf
    | create n => cases hf
    | save c => cases hf
  have h1 : (⟨"hist_mc.dat", .append⟩ : Opened) ∈ sessionFiles disp runs := by
    apply hm
    rw [C113_files]
    exact List.mem_cons_self ..
  have h2 : (⟨"hist_dyn.dat", .append⟩ : Opened) ∈ sessionFiles disp runs := by
    apply hm
    rw [C113_files]
    exact List.mem_cons_of_mem _ (List.mem_cons_self ..)
  refine ⟨fun op hop => ?_, by decide⟩
  simp only [ops, List.mem_cons, List.not_mem_nil, or_false] at hop
  rcases hop with rfl | rfl | rfl | rfl
  · exact ⟨_, h1⟩
  · exact ⟨_, h1⟩
  · exact ⟨_, h2⟩
  · exact ⟨_, h1⟩

theorem opened_of_result {disp : F → String} {es : List (Event F)} {f : Opened}
    (h : f ∈ resultFiles disp es) : f ∈ openedFiles disp es := by
  obtain ⟨e, he, hf⟩ := List.mem_flatMap.mp h
  refine List.mem_flatMap.mpr ⟨e, he, ?_⟩
  cases e with
  | call g c => exact hf
  | append n r => exact hf
  | create n => cases hf
  | save c => cases hf

/-- The log files can take the name of another file of results: with `file = "evt"` a plain simulation
empties the file that `--n-steps` has written. -/
theorem C113_evt_lost (disp : F → String) (o o' : Oracle F) (conf : Config F) (taus : List F)
    (hf : conf.file = "evt") (hl : conf.log = true) (hr : 0 < asUsize conf.runs) (ho : conf.offset = 1000) :
    ⟨"evt1000.dat", .append⟩ ∈ openedFiles disp (mainRun { n_steps_taus := some taus } o conf).events ∧
    ⟨"evt1000.dat", .create⟩ ∈ openedFiles disp (mainRun {} o' conf).events := by
  constructor
  · apply opened_of_result
    rw [C113_files]
    show _ ∈ ((⟨"evt" ++ toString 1000 ++ ".dat", .append⟩ : Opened) :: _)
    rw [show "evt" ++ toString 1000 ++ ".dat" = "evt1000.dat" by decide]
    exact List.mem_cons_self ..
  · obtain ⟨c, he, hc⟩ := default_events {} o' conf (by simp [NoMode])
    rw [he]
    refine List.mem_flatMap.mpr ⟨.create "evt1000.dat", ?_, List.mem_singleton.mpr rfl⟩
    refine List.mem_cons_of_mem _ (List.mem_append_left _ ?_)
    unfold logsOf
    rw [if_pos (by rw [hc]; exact hl)]
    refine List.mem_map.mpr ⟨1000, List.mem_map.mpr ⟨0, List.mem_range.mpr (by rw [hc]; exact hr), ?_⟩, ?_⟩
    · rw [hc]
      show 0 + conf.offset = 1000
      rw [ho]
    · rw [hc]
      show Event.create (SpinChain.logName conf.file 1000) = _
      rw [hf]
      rfl

/-! #### What the help text says -/

/-- The files named in the help text (and in the README), option by option. -/
def helpFiles (a : Args F) : List String :=
  List.flatten [
    if a.hist.isSome then ["hist_mc.dat", "hist_dyn.dat"] else [],
    if a.dynhist.isSome then ["hist_dyn.dat"] else [],
    if a.singletraj.isSome then ["hist_sj.dat"] else [],
    if a.magnus_hist.isSome then ["hist_mc_magnus.dat"] else [],
    if a.two_point then ["two-point.dat"] else []]

/-- The files named in the help text are written, if neither a dynamic histogram nor a trajectory is asked
for; for those see `C113_help_wrong`. -/
theorem C113_help (disp : F → String) (a : Args F) (o : Oracle F) (conf : Config F)
    (h1 : a.dynhist = none) (h2 : a.singletraj = none) :
    ∀ name ∈ helpFiles a, ∃ m, ⟨name, m⟩ ∈ openedFiles disp (mainRun a o conf).events := by
  intro name h
  suffices h : ∃ m, ⟨name, m⟩ ∈ filesOf disp conf.t a by
    obtain ⟨m, h⟩ := h
    exact ⟨m, opened_of_result (by rw [C113_files]; exact h)⟩
  unfold helpFiles at h
  rw [h1, h2] at h
  simp only [List.flatten_cons, List.flatten_nil, List.append_nil, List.mem_append, Option.isSome_none,
    Bool.false_eq_true, if_false, List.not_mem_nil, false_or] at h
  unfold filesOf
  simp only [List.flatten_cons, List.flatten_nil, List.append_nil, List.mem_append]
  rcases h with h | h | h <;> split at h <;> rename_i hc <;>
    simp only [List.mem_cons, List.not_mem_nil, or_false] at h
  · rcases h with rfl | rfl
    · exact ⟨.append, by simp [hc]⟩
    · exact ⟨.append, by simp [hc]⟩
  · subst h
    exact ⟨.append, by simp [hc]⟩
  · subst h
    exact ⟨.create, by simp [hc]⟩

/-- The options are those of the theorem, and ask for files. -/
example : helpFiles ({ hist := some none, two_point := true } : Args F)
    = ["hist_mc.dat", "hist_dyn.dat", "two-point.dat"] := rfl

theorem ne_of_head {s t : String} {k : ℕ} (h : (s.toList.drop k).head? ≠ (t.toList.drop k).head?) : s ≠ t := by
  rintro rfl
  exact h rfl

/-- `hist_sj.dat`, which the help text promises for trajectories, is never written, whatever the options;
`hist_dyn.dat` is written for `--histogram` and not for `--dynamic-histogram`. -/
theorem C113_help_wrong (disp : F → String) (a : Args F) (o : Oracle F) (conf : Config F) (m : Mode) :
    ⟨"hist_sj.dat", m⟩ ∉ openedFiles disp (mainRun a o conf).events ∧
    (⟨"hist_dyn.dat", m⟩ ∈ openedFiles disp (mainRun a o conf).events ↔ m = .append ∧ a.hist.isSome = true) := by
  have hdig : ∀ name : String, (∀ c, (name.toList.reverse.drop 4).head? = some c → c.isDigit = false) →
      name ≠ "config.toml" → ⟨name, m⟩ ∈ openedFiles disp (mainRun a o conf).events →
      ⟨name, m⟩ ∈ filesOf disp conf.t a := by
    intro name hn hc h
    rcases mem_resultFiles_opened h with h | ⟨n, h, hn'⟩ | h
    · rwa [C113_files] at h
    · exfalso
      cases h
      obtain ⟨c, h1, h2⟩ := logOf_digit ((named_main a o conf).2 _ hn' : LogOf conf.file name)
      rw [hn c h1] at h2
      cases h2
    · exact absurd (congrArg Opened.name h) hc
  have hd : ∀ (x : String) (name : String), (name.toList.drop 0).head? = some 'h' →
      name ≠ "dyn-hist-t-" ++ x ++ ".dat" := by
    intro x name hn
    refine ne_of_head (k := 0) ?_
    rw [hn, String.toList_append, String.toList_append]
    show some 'h' ≠ some 'd'
    decide
  have hs : ∀ (x : String) (name : String), (name.toList.drop 4).head? = some '_' →
      name ≠ "hist-st-t-" ++ x ++ ".dat" := by
    intro x name hn
    refine ne_of_head (k := 4) ?_
    rw [hn, String.toList_append, String.toList_append]
    show some '_' ≠ some '-'
    decide
  have he : ∀ (x : String) (name : String), (name.toList.drop 0).head? = some 'h' →
      name ≠ "evt" ++ x ++ ".dat" := by
    intro x name hn
    refine ne_of_head (k := 0) ?_
    rw [hn, String.toList_append, String.toList_append]
    show some 'h' ≠ some 'e'
    decide
  have hp : ∀ (k : ℕ) (name : String), (name.toList.drop 0).head? = some 'h' →
      "dyn_profile-" ++ toString k ++ "-tau.dat" ≠ name := by
    intro x name hn
    refine (ne_of_head (k := 0) ?_).symm
    rw [hn, String.toList_append, String.toList_append]
    show some 'h' ≠ some 'd'
    decide
  have mem : ∀ name : String, (name.toList.drop 0).head? = some 'h' → (name.toList.drop 4).head? = some '_' →
      ⟨name, m⟩ ∈ filesOf disp conf.t a →
      (m = .append ∧ a.hist.isSome = true ∧ (name = "hist_mc.dat" ∨ name = "hist_dyn.dat")) ∨
        name = "hist_mc_magnus.dat" := by
    intro name h0 h4 h
    have f1 : ∀ s : String, (s.toList.drop 0).head? ≠ some 'h' → name ≠ s := by
      rintro s hs rfl
      exact hs h0
    obtain ⟨l, hl, hn⟩ := List.mem_flatten.mp h
    simp only [List.mem_cons, List.not_mem_nil, or_false] at hl
    rcases hl with h | h | h | h | h | h | h | h | h | h | h | h | h | h | h | h | h | h <;>
      rw [h] at hn <;> split at hn <;> (try cases hn; done)
    · exact absurd (congrArg Opened.name (List.mem_singleton.mp hn)) (he _ _ h0)
    · exact absurd (congrArg Opened.name (List.mem_singleton.mp hn)) (f1 _ (by decide))
    · exact absurd (congrArg Opened.name (List.mem_singleton.mp hn)) (f1 _ (by decide))
    · exact absurd (congrArg Opened.name (List.mem_singleton.mp hn)) (f1 _ (by decide))
    · exact absurd (congrArg Opened.name (List.mem_singleton.mp hn)) (f1 _ (by decide))
    · exact absurd (congrArg Opened.name (List.mem_singleton.mp hn)) (f1 _ (by decide))
    · exact absurd (congrArg Opened.name (List.mem_singleton.mp hn)) (f1 _ (by decide))
    · exact absurd (congrArg Opened.name (List.mem_singleton.mp hn)) (f1 _ (by decide))
    · rename_i hh
      simp only [List.mem_cons, List.not_mem_nil, or_false, Opened.mk.injEq] at hn
      rcases hn with hn | hn
      · exact Or.inl ⟨hn.2, hh, Or.inl hn.1⟩
      · exact Or.inl ⟨hn.2, hh, Or.inr hn.1⟩
    · exact absurd (congrArg Opened.name (List.mem_singleton.mp hn)) (hd _ _ h0)
    · exact Or.inr (congrArg Opened.name (List.mem_singleton.mp hn))
    · exact absurd (congrArg Opened.name (List.mem_singleton.mp hn)) (hs _ _ h4)
    · exact absurd (congrArg Opened.name (List.mem_singleton.mp hn)) (f1 _ (by decide))
    · exact absurd (congrArg Opened.name (List.mem_singleton.mp hn)) (f1 _ (by decide))
    · exact absurd (congrArg Opened.name (List.mem_singleton.mp hn)) (f1 _ (by decide))
    · exact absurd (congrArg Opened.name (List.mem_singleton.mp hn)) (f1 _ (by decide))
    · obtain ⟨k, -, e⟩ := List.mem_map.mp hn
      exact absurd (congrArg Opened.name e) (hp k _ h0)
    · exact absurd (congrArg Opened.name (List.mem_singleton.mp hn)) (f1 _ (by decide))
  constructor
  · intro h
    have h := mem _ (by decide) (by decide) (hdig "hist_sj.dat" (fun c hc => by
      rw [← Option.some.inj (show some _ = some c from hc)]; decide) (by decide) h)
    rcases h with ⟨-, -, h | h⟩ | h <;> exact absurd h (by decide)
  · constructor
    · intro h
      have h := mem _ (by decide) (by decide) (hdig "hist_dyn.dat" (fun c hc => by
        rw [← Option.some.inj (show some _ = some c from hc)]; decide) (by decide) h)
      rcases h with ⟨h1, h2, -⟩ | h
      · exact ⟨h1, h2⟩
      · exact absurd h (by decide)
    · rintro ⟨rfl, h⟩
      apply opened_of_result
      rw [C113_files]
      unfold filesOf
      simp [h]

/-- A dynamic histogram: neither of the names of the help text is opened. -/
example (disp : F → String) (o : Oracle F) (conf : Config F) (m : Mode) :
    ⟨"hist_dyn.dat", m⟩ ∉ openedFiles disp (mainRun { dynhist := some none } o conf).events := fun h =>
  Bool.noConfusion ((C113_help_wrong disp _ o conf m).2.mp h).2

end anyF

end Verif.Props
