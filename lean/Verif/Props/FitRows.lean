/-
C91: the rows that the effective-ensemble modes append to their files.
-/
import Verif.Props.Main

set_option linter.unusedSectionVars false

namespace Verif.Props

section anyF

variable {F : Type} [Add F] [Sub F] [Mul F] [Div F] [Neg F] [OfScientific F] [FOps F]

/-- the rows appended by the main program -/
def appends (es : List (Event F)) : List (String × List F) :=
  es.filterMap fun
    | .append f r => some (f, r)
    | _ => none

/-- an effective-ensemble mode, with the period of the drive and the target energy density -/
inductive FitMode (F : Type) where
  | adiab2 (tau : F)
  | rot (tau e : F)
  | maglab (tau e : F)
  | fit (tau e : F)
  | fitEffective (tau e : F)
  | highFreq (tau e : F)
  | adiabatic (tau : F)

/-- the modes that the options ask for, in order: the period is that of `--adiab2`, or else that of
`--tau`, or else that of the file -/
def fitModes (a : Args F) (conf : Config F) : List (FitMode F) :=
  let tau := (a.adiab2 <|> a.tau).getD conf.tau
  a.adiab2.toList.map .adiab2 ++ a.rot.toList.map (.rot tau) ++ a.maglab.toList.map (.maglab tau) ++
    a.fit.toList.map (.fit tau) ++ a.fit_effective.toList.map (.fitEffective tau) ++
    a.high_freq.toList.map (.highFreq tau) ++ a.adiabatic.toList.map .adiabatic

/-- a row with the inverse temperature `b` and the observables `r` -/
def fitRow (tau e b : F) (r : F × F × F × F) : List F := [tau, e, b, r.1, r.2.1, r.2.2.1, r.2.2.2]

/-- The row of a mode, given the calls: there is a search `find` with the configuration `c`, which has
the period, the target energy and the fields of the mode, and a measurement `obs` with the
configuration `c'`, which is `c` with the inverse temperature found by the search (and with the
subsystem extended to the whole chain by `find_beta`); the row has what these gave. -/
def RowFor (o : Oracle F) (cs : List (Callee F × Config F)) : FitMode F → String × List F → Prop
  | .adiab2 tau, row => ∃ c, (.find_beta2, c) ∈ cs ∧ c.tau = tau ∧ c.hs = [1.0, 0.0, 0.0] ∧
      c.hfield = [0.0, 0.0, -2.0 * fpi / tau] ∧ row = ("beta.dat", [tau, c.beta, o.search .find_beta2 c])
  | .rot tau e, row => ∃ c c', (.find_beta_rot, c) ∈ cs ∧ (.get_obs_rot, c') ∈ cs ∧ c.tau = tau ∧
      c.ednsty = e ∧ c' = { c with beta := o.search .find_beta_rot c } ∧
      row = ("betat-rot.dat", fitRow tau e (o.search .find_beta_rot c) (o.obs .get_obs_rot c'))
  | .maglab tau e, row => ∃ c c', (.find_beta_maglab, c) ∈ cs ∧ (.get_obs_maglab, c') ∈ cs ∧ c.tau = tau ∧
      c.ednsty = e ∧ c' = { c with beta := o.search .find_beta_maglab c } ∧
      row = ("betat-maglab.dat", fitRow tau e (o.search .find_beta_maglab c) (o.obs .get_obs_maglab c'))
  | .fit tau e, row => ∃ c c', (.find_beta, c) ∈ cs ∧ (.get_obs, c') ∈ cs ∧ c.tau = tau ∧
      c.ednsty = e ∧ c.hs = [1.0, 0.0, 0.0] ∧ c.hfield = [0.0, 0.0, -2.0 * fpi / tau] ∧ c.hsize = c.ssize ∧
      c' = { c with beta := o.search .find_beta c } ∧
      row = ("betat.dat", fitRow tau e (o.search .find_beta c) (o.obs .get_obs c'))
  | .fitEffective tau e, row => ∃ c c', (.find_betah, c) ∈ cs ∧ (.get_obsh, c') ∈ cs ∧ c.tau = tau ∧
      c.ednsty = e ∧ c.hs = [1.0, 0.0, 0.0] ∧ c.hfield = [0.0, 0.0, -2.0 * fpi / tau] ∧
      c' = { c with beta := o.search .find_betah c } ∧
      row = ("betat.dat", fitRow tau e (o.search .find_betah c) (o.obs .get_obsh c'))
  | .highFreq tau e, row => ∃ c, (.get_obsh, c) ∈ cs ∧ c.tau = tau ∧ c.ednsty = e ∧
      c.hfield = [0.0, 0.0, -tau / (4.0 * fpi)] ∧
      row = ("betat.dat", fitRow tau e c.beta (o.obs .get_obsh c))
  | .adiabatic tau, row => ∃ c0 c c', (.trajectory_mean_e, c0) ∈ cs ∧ (.find_beta, c) ∈ cs ∧
      (.get_obs, c') ∈ cs ∧ c0.tau = tau ∧
      c = { c0 with
        ednsty := o.meanE c0
        hs := [1.0, 0.0, -2.0 * fpi / tau] } ∧
      c' = { c with
        ssize := c.hsize
        beta := o.search .find_beta c } ∧
      row = ("beta.dat", [tau, c0.beta, o.search .find_beta c, (o.obs .get_obs c').1, (o.obs .get_obs c').2.1,
        (o.obs .get_obs c').2.2.1, (o.obs .get_obs c').2.2.2, o.meanE c0])

theorem RowFor.mono {o : Oracle F} {cs cs' : List (Callee F × Config F)} (h : ∀ x ∈ cs, x ∈ cs')
    {m : FitMode F} {row : String × List F} (hr : RowFor o cs m row) : RowFor o cs' m row := by
  cases m with
  | adiab2 => obtain ⟨c, h1, r⟩ := hr; exact ⟨c, h _ h1, r⟩
  | rot => obtain ⟨c, c', h1, h2, r⟩ := hr; exact ⟨c, c', h _ h1, h _ h2, r⟩
  | maglab => obtain ⟨c, c', h1, h2, r⟩ := hr; exact ⟨c, c', h _ h1, h _ h2, r⟩
  | fit => obtain ⟨c, c', h1, h2, r⟩ := hr; exact ⟨c, c', h _ h1, h _ h2, r⟩
  | fitEffective => obtain ⟨c, c', h1, h2, r⟩ := hr; exact ⟨c, c', h _ h1, h _ h2, r⟩
  | highFreq => obtain ⟨c, h1, r⟩ := hr; exact ⟨c, h _ h1, r⟩
  | adiabatic => obtain ⟨c0, c, c', h1, h2, h3, r⟩ := hr; exact ⟨c0, c, c', h _ h1, h _ h2, h _ h3, r⟩

/-! #### The sections -/

/-- `st'` follows `st` with the period `tau` and rows for the modes `ms` -/
def Fits (o : Oracle F) (st st' : MainState F) (tau : F) (ms : List (FitMode F)) : Prop :=
  st'.conf.tau = tau ∧ ∃ new, st'.events = st.events ++ new ∧ List.Forall₂ (RowFor o (calls new)) ms (appends new)

theorem Fits.refl (o : Oracle F) (st : MainState F) : Fits o st st st.conf.tau [] :=
  ⟨rfl, [], (List.append_nil _).symm, .nil⟩

theorem Fits.trans {o : Oracle F} {s1 s2 s3 : MainState F} {t t' : F} {l l' : List (FitMode F)}
    (h : Fits o s1 s2 t l) (h' : Fits o s2 s3 t' l') : Fits o s1 s3 t' (l ++ l') := by
  obtain ⟨-, n1, e1, f1⟩ := h
  obtain ⟨h2, n2, e2, f2⟩ := h'
  refine ⟨h2, n1 ++ n2, by rw [e2, e1, List.append_assoc], ?_⟩
  unfold appends
  rw [List.filterMap_append, calls_append]
  refine List.rel_append ?_ ?_
  · exact f1.imp fun _ _ hr => hr.mono fun x hx => List.mem_append_left _ hx
  · exact f2.imp fun _ _ hr => hr.mono fun x hx => List.mem_append_right _ hx

theorem appends_logsOf (conf : Config F) (nums : List ℕ) : appends (logsOf conf nums) = [] := by
  unfold appends logsOf
  split
  · rw [List.filterMap_map]
    exact List.filterMap_eq_nil_iff.mpr fun _ _ => rfl
  · rfl

theorem appends_append (es es' : List (Event F)) : appends (es ++ es') = appends es ++ appends es' :=
  List.filterMap_append ..

theorem appends_effect (o : Oracle F) (f : Callee F) (conf : Config F) :
    appends (f.effect o conf).2 = [] := by
  cases f <;> simp only [Callee.effect, appends_append, appends_logsOf, List.nil_append] <;> try rfl
  rw [show ∀ es : List (Event F), (appends es ++ appends [Event.save (advance conf)] = appends es) from
    fun es => List.append_nil _]
  unfold appends
  rw [List.filterMap_map]
  exact List.filterMap_eq_nil_iff.mpr fun _ _ => rfl

theorem effect_tau (o : Oracle F) (f : Callee F) (conf : Config F) : (f.effect o conf).1.tau = conf.tau := by
  cases f <;> rfl

/-- a call adds no row -/
theorem fits_call (o : Oracle F) (f : Callee F) (st : MainState F) : Fits o st (st.call o f) st.conf.tau [] := by
  refine ⟨effect_tau o f _, _, rfl, ?_⟩
  rw [show ∀ es : List (Event F), appends (Event.call f st.conf :: es) = appends es from fun _ => rfl,
    appends_effect]
  exact .nil

theorem fits_callClone (o : Oracle F) (f : Callee F) (st : MainState F) :
    Fits o st (st.callClone o f) st.conf.tau [] :=
  ⟨rfl, (fits_call o f st).2⟩

theorem fits_noDefault {o : Oracle F} {st st' : MainState F} {t : F} {l : List (FitMode F)}
    (h : Fits o st st' t l) : Fits o st st'.noDefault t l := h

/-- the events of a call -/
theorem call_events (o : Oracle F) (f : Callee F) (st : MainState F) :
    ∃ es, (st.call o f).events = st.events ++ es ∧ appends es = [] ∧ calls es = [(f, st.conf)] := by
  refine ⟨_, rfl, ?_, ?_⟩
  · exact appends_effect o f _
  · have := calls_effect o f st.conf
    rw [show ∀ es : List (Event F), calls (Event.call f st.conf :: es) = (f, st.conf) :: calls es from
      fun _ => rfl, this]

theorem write_events (file : String) (row : List F) (st : MainState F) :
    (st.write file row).events = st.events ++ [.append file row] := rfl

/-- one call and one row -/
theorem fits_one (o : Oracle F) (st s1 s2 : MainState F) (f : Callee F) (file : String) (row : List F)
    (m : FitMode F) (t : F) (h1 : s1.events = st.events)
    (h2 : s2 = ((s1.call o f).write file row).noDefault) (ht : s2.conf.tau = t)
    (hr : RowFor o [(f, s1.conf)] m (file, row)) : Fits o st s2 t [m] := by
  obtain ⟨es, e1, a1, c1⟩ := call_events o f s1
  refine ⟨ht, es ++ [.append file row], ?_, ?_⟩
  · rw [h2]
    show (s1.call o f).events ++ [_] = _
    rw [e1, h1, List.append_assoc]
  · rw [appends_append, calls_append, a1, c1]
    exact .cons hr .nil

/-- two calls and one row, after other calls -/
theorem fits_two (o : Oracle F) (st s1 s2 s3 : MainState F) (f g : Callee F) (file : String) (row : List F)
    (m : FitMode F) (t : F) (pre : List (Event F)) (ha : appends pre = [])
    (h3 : s3 = ((s2.call o g).write file row).noDefault)
    (h2 : s2.events = (s1.call o f).events) (h1 : s1.events = st.events ++ pre) (ht : s3.conf.tau = t)
    (hr : RowFor o (calls pre ++ [(f, s1.conf), (g, s2.conf)]) m (file, row)) : Fits o st s3 t [m] := by
  obtain ⟨es, e1, a1, c1⟩ := call_events o f s1
  obtain ⟨es', e2, a2, c2⟩ := call_events o g s2
  refine ⟨ht, pre ++ (es ++ (es' ++ [.append file row])), ?_, ?_⟩
  · rw [h3]
    show (s2.call o g).events ++ [_] = _
    rw [e2, h2, e1, h1]
    simp only [List.append_assoc]
  · rw [appends_append, calls_append, appends_append, calls_append, appends_append, calls_append, ha, a1, c1, a2,
      c2]
    exact .cons hr .nil

theorem fits_adiab2 (a : Args F) (o : Oracle F) (st : MainState F) :
    Fits o st (secAdiab2 a o st) (a.adiab2.getD st.conf.tau) (a.adiab2.toList.map .adiab2) := by
  unfold secAdiab2
  cases a.adiab2 with
  | none => exact Fits.refl o st
  | some tau =>
    refine fits_one o st (st.set fun c => rotFields { c with tau := tau }) _ .find_beta2 _ _ _ _ rfl rfl rfl ?_
    exact ⟨_, List.mem_singleton_self _, rfl, rfl, rfl, rfl⟩

theorem fits_rot (a : Args F) (o : Oracle F) (st : MainState F) :
    Fits o st (secFrame a.rot .find_beta_rot .get_obs_rot "betat-rot.dat" o st) st.conf.tau
      (a.rot.toList.map (.rot st.conf.tau)) := by
  unfold secFrame
  cases a.rot with
  | none => exact Fits.refl o st
  | some e =>
    refine fits_two o st (st.set fun c => { c with ednsty := e }) _ _ .find_beta_rot .get_obs_rot
      _ _ _ _ [] rfl rfl rfl (List.append_nil _).symm rfl ?_
    exact ⟨_, _, List.mem_cons_self, List.mem_cons_of_mem _ List.mem_cons_self, rfl, rfl, rfl, rfl⟩

theorem fits_maglab (a : Args F) (o : Oracle F) (st : MainState F) :
    Fits o st (secFrame a.maglab .find_beta_maglab .get_obs_maglab "betat-maglab.dat" o st) st.conf.tau
      (a.maglab.toList.map (.maglab st.conf.tau)) := by
  unfold secFrame
  cases a.maglab with
  | none => exact Fits.refl o st
  | some e =>
    refine fits_two o st (st.set fun c => { c with ednsty := e }) _ _ .find_beta_maglab .get_obs_maglab
      _ _ _ _ [] rfl rfl rfl (List.append_nil _).symm rfl ?_
    exact ⟨_, _, List.mem_cons_self, List.mem_cons_of_mem _ List.mem_cons_self, rfl, rfl, rfl, rfl⟩

theorem fits_fit (a : Args F) (o : Oracle F) (st : MainState F) :
    Fits o st (secFit a o st) st.conf.tau (a.fit.toList.map (.fit st.conf.tau)) := by
  unfold secFit
  cases a.fit with
  | none => exact Fits.refl o st
  | some e =>
    refine fits_two o st (st.set fun c =>
      let c := rotFields { c with ednsty := e }
      { c with hsize := c.ssize }) _ _ .find_beta .get_obs
      _ _ _ _ [] rfl rfl rfl (List.append_nil _).symm rfl ?_
    exact ⟨_, _, List.mem_cons_self, List.mem_cons_of_mem _ List.mem_cons_self, rfl, rfl, rfl, rfl, rfl, rfl, rfl⟩

theorem fits_fitEffective (a : Args F) (o : Oracle F) (st : MainState F) :
    Fits o st (secFitEffective a o st) st.conf.tau (a.fit_effective.toList.map (.fitEffective st.conf.tau)) := by
  unfold secFitEffective
  cases a.fit_effective with
  | none => exact Fits.refl o st
  | some e =>
    refine fits_two o st (st.set fun c => rotFields { c with ednsty := e }) _ _ .find_betah .get_obsh
      _ _ _ _ [] rfl rfl rfl (List.append_nil _).symm rfl ?_
    exact ⟨_, _, List.mem_cons_self, List.mem_cons_of_mem _ List.mem_cons_self, rfl, rfl, rfl, rfl, rfl, rfl⟩

theorem fits_highFreq (a : Args F) (o : Oracle F) (st : MainState F) :
    Fits o st (secHighFreq a o st) st.conf.tau (a.high_freq.toList.map (.highFreq st.conf.tau)) := by
  unfold secHighFreq
  cases a.high_freq with
  | none => exact Fits.refl o st
  | some e =>
    refine fits_one o st (st.set fun c => { c with
      ednsty := e
      hfield := [0.0, 0.0, -c.tau / (4.0 * fpi)] }) _ .get_obsh _ _ _ _ rfl rfl rfl ?_
    exact ⟨_, List.mem_singleton_self _, rfl, rfl, rfl, rfl⟩

theorem fits_adiabatic (a : Args F) (o : Oracle F) (st : MainState F) :
    Fits o st (secAdiabatic a o st) (a.adiabatic.getD st.conf.tau) (a.adiabatic.toList.map .adiabatic) := by
  unfold secAdiabatic
  cases a.adiabatic with
  | none => exact Fits.refl o st
  | some tau =>
    obtain ⟨es, e0, a0, c0⟩ := call_events o .trajectory_mean_e (st.set fun c => { c with tau := tau })
    refine fits_two o st (((st.set fun c => { c with tau := tau }).callClone o .trajectory_mean_e).set fun c => { c with
      ednsty := o.meanE { st.conf with tau := tau }
      hs := [1.0, 0.0, -2.0 * fpi / c.tau] }) _ _ .find_beta .get_obs _ _ _ _ es a0 rfl rfl e0 rfl ?_
    rw [c0]
    exact ⟨_, _, _, List.mem_cons_self, List.mem_cons_of_mem _ List.mem_cons_self,
      List.mem_cons_of_mem _ (List.mem_cons_of_mem _ List.mem_cons_self), rfl, rfl, rfl, rfl⟩

theorem fits_desc (a : Args F) (o : Oracle F) (st : MainState F) : Fits o st (secDesc a o st) st.conf.tau [] := by
  unfold secDesc
  split
  · exact fits_call o _ st
  · exact Fits.refl o st

theorem fits_ext (a : Args F) (o : Oracle F) (st : MainState F) : Fits o st (secExt a o st) st.conf.tau [] := by
  unfold secExt
  split
  · exact fits_callClone o _ st
  · exact Fits.refl o st

theorem fits_tau (a : Args F) (o : Oracle F) (st : MainState F) : Fits o st (secTau a o st) st.conf.tau [] := by
  unfold secTau
  split
  · exact fits_call o _ st
  · exact Fits.refl o st

theorem fits_beta (a : Args F) (o : Oracle F) (st : MainState F) : Fits o st (secBeta a o st) st.conf.tau [] := by
  unfold secBeta
  cases a.beta <;> exact Fits.refl o st

theorem fits_sec {α : Type} (sel : Option α) (f : α → Callee F) (o : Oracle F) (st : MainState F) :
    Fits o st (secCall sel f o st) st.conf.tau [] := by
  unfold secCall
  split
  · exact fits_call o _ st
  · exact Fits.refl o st

theorem fits_langevin (a : Args F) (o : Oracle F) (st : MainState F) :
    Fits o st (secLangevin a o st) st.conf.tau [] := by
  unfold secLangevin
  split
  · exact fits_call o _ (st.set fun c => { c with hsize := c.ssize })
  · exact Fits.refl o st

theorem fits_late (a : Args F) (o : Oracle F) (st : MainState F) : Fits o st (lateRun a o st) st.conf.tau [] := by
  have step : ∀ {s1 s2 s3 : MainState F} {t : F}, Fits o s1 s2 t [] → Fits o s2 s3 s2.conf.tau [] →
      Fits o s1 s3 t [] := by
    intro s1 s2 s3 t h h'
    rw [h.1] at h'
    exact h.trans h'
  have hm : Fits o st (lateModes a o st) st.conf.tau [] := by
    unfold lateModes
    exact step (step (step (step (step (step (step (step (step (step (step
      (fits_sec a.hist _ o st) (fits_sec a.dynhist _ o _)) (fits_sec a.magnus_hist _ o _))
      (fits_sec a.singletraj _ o _)) (fits_sec (flag a.avg) _ o _)) (fits_sec (flag a.two_point) _ o _))
      (fits_sec (flag a.mc) _ o _)) (fits_sec (flag a.mc_profile) _ o _)) (fits_sec (flag a.dyn_profile) _ o _))
      (fits_sec (flag a.mc_full) _ o _)) (fits_langevin a o _)) (fits_sec (flag a.response) _ o _)
  unfold lateRun
  split
  · exact step hm (fits_call o _ _)
  · exact hm

/-! #### The claim -/

/-- Each effective-ensemble mode appends one row to its file: the period of the drive, the target, the
inverse temperature found by its search at this target and with its fields, and the observables at this
inverse temperature.  The main program appends no other rows. -/
theorem C91_rows (a : Args F) (o : Oracle F) (conf : Config F) :
    List.Forall₂ (RowFor o (calls (mainRun a o conf).events)) (fitModes a conf)
      (appends (mainRun a o conf).events) := by
  have key : ∃ t, Fits o { conf := { conf with tau := a.tau.getD conf.tau }, dflt := true, events := [] }
      (mainRun a o conf) t (fitModes a conf) := by
    rw [mainRun_eq]
    unfold earlyRun
    have h0 := ((fits_desc a o
      { conf := { conf with tau := a.tau.getD conf.tau }, dflt := true, events := [] }).trans
      (fits_ext a o _)).trans (fits_tau a o _)
    have t0 := h0.1
    rw [((fits_desc a o _).trans (fits_ext a o _)).1, (fits_desc a o _).1] at t0
    have h1 := h0.trans (fits_adiab2 a o _)
    have t1 := h1.1
    rw [t0] at t1
    have h2 := h1.trans (fits_rot a o _)
    have t2 := h2.1
    rw [t1] at t2
    have h3 := h2.trans (fits_maglab a o _)
    have t3 := h3.1
    rw [t2] at t3
    have h4 := h3.trans (fits_fit a o _)
    have t4 := h4.1
    rw [t3] at t4
    have h5 := h4.trans (fits_fitEffective a o _)
    have t5 := h5.1
    rw [t4] at t5
    have h6 := h5.trans (fits_highFreq a o _)
    have h7 := ((h6.trans (fits_adiabatic a o _)).trans (fits_beta a o _)).trans (fits_late a o _)
    rw [t1, t2, t3, t4, t5] at h7
    have e : a.adiab2.getD (a.tau.getD conf.tau) = (a.adiab2 <|> a.tau).getD conf.tau := by
      cases a.adiab2 <;> rfl
    rw [e] at h7
    simp only [List.append_assoc, List.nil_append, List.append_nil] at h7
    unfold fitModes
    simp only [List.append_assoc]
    exact ⟨_, h7⟩
  obtain ⟨t, -, new, hn, hf⟩ := key
  rw [hn, List.nil_append]
  exact hf

/-- So the files get as many rows as modes are given, and in the same order. -/
theorem C91_files (a : Args F) (o : Oracle F) (conf : Config F) :
    (appends (mainRun a o conf).events).map Prod.fst =
      a.adiab2.toList.map (fun _ => "beta.dat") ++ a.rot.toList.map (fun _ => "betat-rot.dat") ++
      a.maglab.toList.map (fun _ => "betat-maglab.dat") ++ a.fit.toList.map (fun _ => "betat.dat") ++
      a.fit_effective.toList.map (fun _ => "betat.dat") ++ a.high_freq.toList.map (fun _ => "betat.dat") ++
      a.adiabatic.toList.map (fun _ => "beta.dat") := by
  have file : ∀ cs m row, RowFor o cs m row → row.1 = match m with
      | .adiab2 _ => "beta.dat"
      | .rot _ _ => "betat-rot.dat"
      | .maglab _ _ => "betat-maglab.dat"
      | .fit _ _ => "betat.dat"
      | .fitEffective _ _ => "betat.dat"
      | .highFreq _ _ => "betat.dat"
      | .adiabatic _ => "beta.dat" := by
    intro cs m row h
    cases m with
    | adiab2 => obtain ⟨_, _, _, _, _, rfl⟩ := h; rfl
    | rot => obtain ⟨_, _, _, _, _, _, _, rfl⟩ := h; rfl
    | maglab => obtain ⟨_, _, _, _, _, _, _, rfl⟩ := h; rfl
    | fit => obtain ⟨_, _, _, _, _, _, _, _, _, _, rfl⟩ := h; rfl
    | fitEffective => obtain ⟨_, _, _, _, _, _, _, _, _, rfl⟩ := h; rfl
    | highFreq => obtain ⟨_, _, _, _, _, rfl⟩ := h; rfl
    | adiabatic => obtain ⟨_, _, _, _, _, _, _, _, _, rfl⟩ := h; rfl
  have all : ∀ (cs : List (Callee F × Config F)) (ms : List (FitMode F)) (rows : List (String × List F)),
      List.Forall₂ (RowFor o cs) ms rows → rows.map Prod.fst = ms.map fun
        | .adiab2 _ => "beta.dat"
        | .rot _ _ => "betat-rot.dat"
        | .maglab _ _ => "betat-maglab.dat"
        | .fit _ _ => "betat.dat"
        | .fitEffective _ _ => "betat.dat"
        | .highFreq _ _ => "betat.dat"
        | .adiabatic _ => "beta.dat" := by
    intro cs ms rows h
    induction h with
    | nil => rfl
    | cons hr _ ih =>
      rw [List.map_cons, List.map_cons, ih, file _ _ _ hr]
  rw [all _ _ _ (C91_rows a o conf)]
  unfold fitModes
  simp only [List.map_append, List.map_map]
  rfl

/-- `--rot` after `--adiab2`: two rows, and the period of `--adiab2` is in force in both -/
example (o : Oracle F) (conf : Config F) (t t' e : F) :
    ∃ c c' r, appends (mainRun { tau := some t', adiab2 := some t, rot := some e } o conf).events =
      [("beta.dat", [t, c.beta, o.search .find_beta2 c]), ("betat-rot.dat", r)] ∧ c.tau = t ∧
      c'.tau = t ∧ c'.ednsty = e ∧ r.take 3 = [t, e, o.search .find_beta_rot c'] := by
  have h := C91_rows { tau := some t', adiab2 := some t, rot := some e } o conf
  generalize appends (mainRun { tau := some t', adiab2 := some t, rot := some e } o conf).events = rows at h ⊢
  change List.Forall₂ _ [FitMode.adiab2 t, FitMode.rot t e] rows at h
  cases h with
  | cons h1 h =>
    cases h with
    | cons h2 h =>
      cases h
      obtain ⟨c, -, hc, -, -, rfl⟩ := h1
      obtain ⟨c', _, -, -, ht, he, -, rfl⟩ := h2
      exact ⟨c, c', _, rfl, hc, ht, he, rfl⟩

end anyF

end Verif.Props
