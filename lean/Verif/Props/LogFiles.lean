/-
C58: log files of successive runs.
-/
import Verif.Props.Overrides

set_option linter.unusedSectionVars false

namespace Verif.Props

section anyF

variable {F : Type} [Add F] [Sub F] [Mul F] [Div F] [Neg F] [OfScientific F] [FOps F]

/-- Successive invocations of the program in one directory, until one of them panics. -/
def session (fs : FS F) : List (Args F × Oracle F) → FS F × R (List (Event F))
  | [] => (fs, .ok [])
  | (a, o) :: rest =>
    match mainIn a o fs with
    | (fs, .error p) => (fs, .error p)
    | (fs, .ok es) =>
      match session fs rest with
      | (fs, .error p) => (fs, .error p)
      | (fs, .ok es') => (fs, .ok (es ++ es'))

/-- Options that leave old log files alone: simulations (plain, with response, with profiles, Langevin),
averages, the description, and the overrides. -/
def LogSafe (a : Args F) : Prop :=
  a.ext = false ∧ a.n_steps_taus = none ∧ a.adiab2 = none ∧ a.rot = none ∧
  a.maglab = none ∧ a.fit = none ∧ a.fit_effective = none ∧ a.high_freq = none ∧ a.adiabatic = none ∧
  a.hist = none ∧ a.dynhist = none ∧ a.magnus_hist = none ∧ a.singletraj = none ∧
  a.mc = false ∧ a.mc_profile = false ∧ a.mc_full = false

/-- Log files created so far are numbered upwards from the offset of `c0`, below the offset now; what is
saved goes on from there. -/
structure Numbered (c0 : Config F) (k : ℕ) (st : MainState F) : Prop where
  file : st.conf.file = c0.file
  runs : st.conf.runs = c0.runs
  range : InRange st.conf
  lower : c0.offset ≤ st.conf.offset
  upper : st.conf.offset ≤ c0.offset + k * c0.runs.toNat
  nums : ∃ nums : List ℕ, createdLogs st.events = nums.map (SpinChain.logName c0.file) ∧
    nums.Pairwise (· < ·) ∧ ∀ n ∈ nums, c0.offset ≤ n ∧ n < st.conf.offset
  saved : match (savedConfs st.events).getLast? with
    | none => createdLogs st.events = [] ∧ st.conf.offset = c0.offset
    | some c => InRange c ∧ c.file = c0.file ∧ c.runs = c0.runs ∧ c.offset = st.conf.offset

theorem Numbered.mono {c0 : Config F} {k l : ℕ} {st : MainState F} (h : Numbered c0 k st) (hl : k ≤ l) :
    Numbered c0 l st := by
  refine ⟨h.file, h.runs, h.range, h.lower, h.upper.trans ?_, h.nums, h.saved⟩
  have := Nat.mul_le_mul_right c0.runs.toNat hl
  omega

theorem Numbered.quiet {c0 : Config F} {k : ℕ} {st st' : MainState F} (h : Numbered c0 k st) (f : Callee F)
    (c : Config F) (he : st'.events = st.events ++ [.call f c]) (hc : st'.conf = st.conf) :
    Numbered c0 k st' := by
  have h1 : createdLogs st'.events = createdLogs st.events := by
    rw [he, createdLogs_append]
    exact List.append_nil _
  have h2 : savedConfs st'.events = savedConfs st.events := by
    rw [he, savedConfs_append]
    exact List.append_nil _
  refine ⟨by rw [hc]; exact h.file, by rw [hc]; exact h.runs, by rw [hc]; exact h.range,
    by rw [hc]; exact h.lower, by rw [hc]; exact h.upper, by rw [h1, hc]; exact h.nums, ?_⟩
  rw [h1, h2, hc]
  exact h.saved

theorem Numbered.conf {c0 : Config F} {k : ℕ} {st st' : MainState F} (h : Numbered c0 k st)
    (he : st'.events = st.events) (h1 : st'.conf.file = st.conf.file) (h2 : st'.conf.runs = st.conf.runs)
    (h3 : st'.conf.offset = st.conf.offset) (h4 : InRange st'.conf) : Numbered c0 k st' :=
  ⟨h1.trans h.file, h2.trans h.runs, h4, by rw [h3]; exact h.lower, by rw [h3]; exact h.upper,
    by rw [he, h3]; exact h.nums, by rw [he, h3]; exact h.saved⟩

theorem asUsize_runs {i : ℤ} (h0 : 0 ≤ i) (h1 : i < 2 ^ 31) : asUsize i = i.toNat := by
  unfold asUsize
  congr 1
  omega

theorem Numbered.run {c0 : Config F} {k : ℕ} {st st' : MainState F} (h : Numbered c0 k st)
    (h0 : 0 ≤ c0.runs) (hb : c0.offset + (k + 1) * c0.runs.toNat < 2 ^ 32) (f : Callee F) (c d : Config F)
    (logs : List (Event F))
    (hd : d.file = st.conf.file ∧ d.runs = st.conf.runs ∧ d.offset = st.conf.offset ∧ InRange d)
    (he : st'.events = st.events ++ .call f c :: (logs ++ [.save (advance d)]))
    (hc : st'.conf = advance d)
    (hl : createdLogs logs = (runNums d).map (SpinChain.logName d.file) ∨ createdLogs logs = [])
    (hs : savedConfs logs = []) : Numbered c0 (k + 1) st' := by
  obtain ⟨d1, d2, d3, d4⟩ := hd
  have hr : asUsize d.runs = c0.runs.toNat := by
    rw [asUsize_runs (by rw [d2, h.runs]; exact h0) d4.runs.2, d2, h.runs]
  have hup := h.upper
  have hk : (k + 1) * c0.runs.toNat = k * c0.runs.toNat + c0.runs.toNat := by ring
  have ho : (advance d).offset = st.conf.offset + c0.runs.toNat := by
    show (d.offset + asUsize d.runs % 2 ^ 32) % 2 ^ 32 = _
    rw [hr, d3]
    generalize c0.runs.toNat = r at *
    generalize k * r = q at *
    omega
  have h1 : createdLogs st'.events = createdLogs st.events ++ createdLogs logs := by
    rw [he, createdLogs_append, ← List.singleton_append, createdLogs_append, createdLogs_append]
    exact congrArg _ (List.append_nil _)
  have h2 : (savedConfs st'.events).getLast? = some (advance d) := by
    rw [he, savedConfs_append, ← List.singleton_append, savedConfs_append, savedConfs_append, hs]
    exact List.getLast?_concat
  have hlow := h.lower
  refine ⟨by rw [hc]; exact d1.trans h.file, by rw [hc]; exact d2.trans h.runs,
    by rw [hc]; exact advance_inRange d4, by rw [hc, ho]; omega, by rw [hc, ho, hk]; omega, ?_, ?_⟩
  · obtain ⟨nums, e1, e2, e3⟩ := h.nums
    rw [h1, hc, ho]
    rcases hl with hl | hl
    · refine ⟨nums ++ runNums d, ?_, ?_, ?_⟩
      · rw [hl, e1, List.map_append, d1, h.file]
      · refine List.pairwise_append.mpr ⟨e2, ?_, ?_⟩
        · unfold runNums
          refine List.pairwise_map.mpr ?_
          exact List.pairwise_lt_range.imp (fun hab => Nat.add_lt_add_right hab _)
        · intro a ha b hb
          obtain ⟨i, -, rfl⟩ := List.mem_map.mp hb
          have := (e3 a ha).2
          omega
      · intro n hn
        rcases List.mem_append.mp hn with hn | hn
        · have := e3 n hn
          omega
        · obtain ⟨i, hi, rfl⟩ := List.mem_map.mp hn
          have := List.mem_range.mp hi
          omega
    · refine ⟨nums, by rw [hl, e1, List.append_nil], e2, fun n hn => ?_⟩
      have := e3 n hn
      omega
  · rw [h2]
    exact ⟨advance_inRange d4, d1.trans h.file, d2.trans h.runs, by rw [hc]⟩

theorem hl_logsOf (d : Config F) :
    createdLogs (logsOf d (runNums d)) = (runNums d).map (SpinChain.logName d.file) ∨
      createdLogs (logsOf d (runNums d)) = [] := by
  rw [created_logsOf]
  split
  · exact .inl rfl
  · exact .inr rfl

/-- one invocation -/
theorem numbered_main (a : Args F) (o : Oracle F) (c0 : Config F) (ha : LogSafe a) (hi : InRange c0)
    (h0 : 0 ≤ c0.runs) (hb : c0.offset + 4 * c0.runs.toNat < 2 ^ 32) :
    Numbered c0 4 (mainRun a o c0) := by
  obtain ⟨tau, avg, beta, mc, mc_profile, dyn_profile, mc_full, hist, dynhist, singletraj, langevin, magnus_hist,
    config_desc, n_steps_taus, adiabatic, adiab2, rot, ext, maglab, steps, fit, fit_effective, response,
    two_point, high_freq⟩ := a
  obtain ⟨h1, h2, h3, h4, h5, h6, h7, h8, h9, h10, h11, h12, h13, h14, h15, h16⟩ := ha
  dsimp only at h1 h2 h3 h4 h5 h6 h7 h8 h9 h10 h11 h12 h13 h14 h15 h16
  subst h1 h2 h3 h4 h5 h6 h7 h8 h9 h10 h11 h12 h13 h14 h15 h16
  rw [mainRun_eq]
  have s0 : Numbered c0 0 { conf := { c0 with tau := tau.getD c0.tau }, dflt := true, events := [] } :=
    ⟨rfl, rfl, ⟨hi.hsize, hi.ssize, hi.runs, hi.method, hi.offset, hi.threads, hi.mc_points⟩, Nat.le_refl _,
      by simp, ⟨[], rfl, List.Pairwise.nil, by simp⟩, ⟨rfl, rfl⟩⟩
  generalize hg : ({ tau := tau, avg := avg, beta := beta, dyn_profile := dyn_profile, langevin := langevin,
                     config_desc := config_desc, steps := steps, response := response, two_point := two_point } : Args F) = a
  have s1 : Numbered c0 0 (earlyRun a o c0) := by
    rw [show earlyRun a o c0 = secDesc a o { conf := { c0 with tau := tau.getD c0.tau }, dflt := true, events := [] }
      from by rw [← hg]; rfl]
    unfold secDesc
    split
    · exact s0.quiet _ _ rfl rfl
    · exact s0
  have s2 : Numbered c0 0 (secBeta a o (earlyRun a o c0)) := by
    have hr := s1.range
    unfold secBeta
    split <;> exact s1.conf rfl rfl rfl rfl
      ⟨hr.hsize, hr.ssize, hr.runs, hr.method, hr.offset, hr.threads, hr.mc_points⟩
  generalize secBeta a o (earlyRun a o c0) = t2 at s2
  have quiet : ∀ (b : Bool) (f : Callee F) (t : MainState F), (∀ c, f.effect o c = (c, [])) →
      Numbered c0 0 t → Numbered c0 0 (secCall (flag b) (fun _ => f) o t) := by
    intro b f t hf ht
    cases b
    · exact ht
    · refine ht.quiet f t.conf ?_ ?_
      · show t.events ++ Event.call f t.conf :: (f.effect o t.conf).2 = _
        rw [hf]
      · show (f.effect o t.conf).1 = _
        rw [hf]
  have s3 := quiet two_point .two_point_average _ (fun _ => rfl) (quiet avg .average t2 (fun _ => rfl) s2)
  have bound : ∀ k, k ≤ 3 → c0.offset + (k + 1) * c0.runs.toNat < 2 ^ 32 := by
    intro k hk
    have := Nat.mul_le_mul_right c0.runs.toNat (show k + 1 ≤ 4 by omega)
    omega
  generalize ht3 : secCall (flag two_point) (fun _ => Callee.two_point_average) o
    (secCall (flag avg) (fun _ => Callee.average) o t2) = t3 at s3
  have s4 : Numbered c0 1 (secCall (flag dyn_profile) (fun _ => Callee.run_dyn_profile) o t3) := by
    cases dyn_profile
    · exact s3.mono (by omega)
    · have hr := s3.range
      exact s3.run h0 (bound 0 (by omega)) .run_dyn_profile t3.conf (dynConf t3.conf) _ ⟨rfl, rfl, rfl,
        ⟨hr.hsize, hr.ssize, hr.runs, hr.method, hr.offset, hr.threads, hr.mc_points⟩⟩ rfl rfl (hl_logsOf _)
        (saved_logsOf _ _)
  generalize ht4 : secCall (flag dyn_profile) (fun _ => Callee.run_dyn_profile) o t3 = t4 at s4
  have s5 : Numbered c0 2 (secLangevin a o t4) := by
    unfold secLangevin
    split
    · have hr := s4.range
      exact s4.run h0 (bound 1 (by omega)) _ _ { t4.conf with hsize := t4.conf.ssize } _ ⟨rfl, rfl, rfl,
        ⟨hr.ssize, hr.ssize, hr.runs, hr.method, hr.offset, hr.threads, hr.mc_points⟩⟩ rfl rfl
        (.inl (created_creates _ _)) (saved_creates _ _)
    · exact s4.mono (by omega)
  generalize ht5 : secLangevin a o t4 = t5 at s5
  have s6 : Numbered c0 3 (secCall (flag response) (fun _ => Callee.run_sim_response) o t5) := by
    cases response
    · exact s5.mono (by omega)
    · exact s5.run h0 (bound 2 (by omega)) .run_sim_response t5.conf t5.conf _ ⟨rfl, rfl, rfl, s5.range⟩ rfl rfl
        (hl_logsOf _) (saved_logsOf _ _)
  have hm : lateModes a o t2 = secCall (flag response) (fun _ => Callee.run_sim_response) o t5 := by
    rw [← ht5, ← ht4, ← ht3, ← hg]
    rfl
  unfold lateRun
  rw [hm]
  generalize secCall (flag response) (fun _ => Callee.run_sim_response) o t5 = t6 at s6
  split
  · exact s6.run h0 (bound 3 (by omega)) .run_sim t6.conf t6.conf _ ⟨rfl, rfl, rfl, s6.range⟩ rfl rfl
      (hl_logsOf _) (saved_logsOf _ _)
  · exact s6.mono (by omega)

/-- Successive simulations create log files with increasing numbers: none is created twice, and older
ones (with numbers below the first offset) stay as they are.  The numbers must stay below `2 ^ 32`.
Full statement: this holds for all modes; see `C58_monte_carlo_overwrites`, `C58_ext_reuses` and
`C58_tau_reuses`. -/
theorem C58_partial (l : List (Args F × Oracle F)) (fs fs0 : FS F) (conf : Config F)
    (hr : read_config "config.toml" fs = (fs0, .ok conf)) (hl : ∀ p ∈ l, LogSafe p.1) (h0 : 0 ≤ conf.runs)
    (hb : conf.offset + 4 * l.length * conf.runs.toNat < 2 ^ 32) :
    ∃ fs' es, session fs l = (fs', .ok es) ∧
      (∃ nums : List ℕ, createdLogs es = nums.map (SpinChain.logName conf.file) ∧ nums.Pairwise (· < ·) ∧
        ∀ n ∈ nums, conf.offset ≤ n) ∧
      (createdLogs es).Nodup ∧
      ∀ name, name ≠ "config.toml" → (∀ n, conf.offset ≤ n → name ≠ SpinChain.logName conf.file n) →
        fs' name = fs name := by
  have key : ∃ fs' es, session fs l = (fs', .ok es) ∧
      (∃ nums : List ℕ, createdLogs es = nums.map (SpinChain.logName conf.file) ∧ nums.Pairwise (· < ·) ∧
        ∀ n ∈ nums, conf.offset ≤ n) ∧
      ∀ name, name ≠ "config.toml" → (∀ n, conf.offset ≤ n → name ≠ SpinChain.logName conf.file n) →
        fs' name = fs name := by
    induction l generalizing fs fs0 conf with
    | nil => exact ⟨fs, [], rfl, ⟨[], rfl, List.Pairwise.nil, by simp⟩, fun _ _ _ => rfl⟩
    | cons p l ih =>
      obtain ⟨a, o⟩ := p
      have hi := read_inRange hr
      have hbs : 4 * (l.length + 1) * conf.runs.toNat = 4 * l.length * conf.runs.toNat + 4 * conf.runs.toNat := by
        ring
      rw [List.length_cons, hbs] at hb
      have hn := numbered_main a o conf (hl (a, o) (List.mem_cons_self ..)) hi h0 (by omega)
      have hfs0 : ∀ name, name ≠ "config.toml" → fs0 name = fs name := by
        intro name hname
        unfold read_config at hr
        split at hr
        · cases hr
          exact if_neg hname
        · cases hr
          exact if_neg hname
        · cases hr
        · split at hr
          · cases hr
            rfl
          · cases hr
      have hin : mainIn a o fs = (applyEvents fs0 (mainRun a o conf).events, .ok (mainRun a o conf).events) := by
        unfold mainIn
        rw [hr]
      obtain ⟨nums, e1, e2, e3⟩ := hn.nums
      have hcfg : "config.toml" ∉ createdLogs (mainRun a o conf).events := by
        rw [e1]
        intro hm
        obtain ⟨n, -, hn⟩ := List.mem_map.mp hm
        exact logName_ne_config _ _ hn
      have hf := applyEvents_config fs0 _ hcfg
      have hsv := hn.saved
      have hsplit : ∃ fs1 c1, read_config "config.toml" (applyEvents fs0 (mainRun a o conf).events) = (fs1, .ok c1) ∧
          (∀ name, name ≠ "config.toml" → fs1 name = applyEvents fs0 (mainRun a o conf).events name) ∧
          c1.file = conf.file ∧ c1.runs = conf.runs ∧ c1.offset = (mainRun a o conf).conf.offset := by
        cases hg : (savedConfs (mainRun a o conf).events).getLast? with
        | some c =>
          rw [hg] at hf hsv
          exact ⟨_, _, C62_valid _ _ _ _ hf (C62_roundtrip _ hsv.1), fun _ _ => rfl, hsv.2.1, hsv.2.2.1, hsv.2.2.2⟩
        | none =>
          rw [hg] at hf hsv
          have hread : read_config "config.toml" fs0 = (fs0, .ok conf) := by
            unfold read_config at hr
            split at hr
            · cases hr
              exact C62_valid _ _ _ _ (if_pos rfl) (C62_roundtrip _ default_inRange)
            · cases hr
              exact C62_valid _ _ _ _ (if_pos rfl) (C62_roundtrip _ default_inRange)
            · cases hr
            · rename_i kvs hk
              split at hr
              · rename_i c hc
                cases hr
                exact C62_valid _ _ _ _ hk hc
              · cases hr
          refine ⟨applyEvents fs0 (mainRun a o conf).events, conf, ?_, fun _ _ => rfl, rfl, rfl, hsv.2.symm⟩
          dsimp only at hf
          unfold read_config at hread ⊢
          rw [hf]
          split at hread
          · rename_i hk
            have := congrArg (fun p => p.1 "config.toml") hread
            dsimp only at this
            rw [hk] at this
            unfold FS.write at this
            rw [if_pos rfl] at this
            cases this
          · rename_i hk
            have := congrArg (fun p => p.1 "config.toml") hread
            dsimp only at this
            rw [hk] at this
            unfold FS.write at this
            rw [if_pos rfl] at this
            cases this
          · cases hread
          · rename_i kvs hk
            split at hread
            · rename_i c hc
              cases hread
              rw [hk]
              dsimp only
              rw [hc]
            · cases hread
      obtain ⟨fs1, c1, hr1, hfr, f1, f2, f3⟩ := hsplit
      have hup := hn.upper
      have hlow := hn.lower
      obtain ⟨fs', es, hs, ⟨nums', g1, g2, g3⟩, g4⟩ := ih (applyEvents fs0 (mainRun a o conf).events) fs1 c1 hr1
        (fun q hq => hl q (List.mem_cons_of_mem _ hq)) (by rw [f2]; exact h0) (by rw [f2, f3]; omega)
      refine ⟨fs', (mainRun a o conf).events ++ es, ?_, ⟨nums ++ nums', ?_, ?_, ?_⟩, ?_⟩
      · unfold session
        rw [hin]
        dsimp only
        rw [hs]
      · rw [createdLogs_append, e1, g1, List.map_append, f1]
      · refine List.pairwise_append.mpr ⟨e2, g2, fun x hx y hy => ?_⟩
        have h1 := (e3 x hx).2
        have h2 := g3 y hy
        omega
      · intro n hn'
        rcases List.mem_append.mp hn' with hn' | hn'
        · exact (e3 n hn').1
        · have := g3 n hn'
          omega
      · intro name hname hne
        rw [g4 name hname (fun n hn' => by rw [f1]; exact hne n (by omega))]
        refine (applyEvents_frame fs0 _ name hname ?_).trans (hfs0 name hname)
        rw [e1]
        intro hm
        obtain ⟨n, hn1, hn2⟩ := List.mem_map.mp hm
        exact hne n (e3 n hn1).1 hn2.symm
  obtain ⟨fs', es, h1, ⟨nums, e1, e2, e3⟩, h2⟩ := key
  refine ⟨fs', es, h1, ⟨nums, e1, e2, e3⟩, ?_, h2⟩
  rw [e1]
  exact List.Pairwise.map _ (fun a b hab h => Nat.lt_irrefl a (by rw [← logName_inj h] at hab; exact hab)) e2

/-- From an empty directory, any number of default runs (up to five hundred million). -/
example (o : Oracle F) (n : ℕ) (hn : n < 500000000) :
    ∃ fs' es, session (fun _ => none) (List.replicate n ({}, o)) = (fs', .ok es) ∧ (createdLogs es).Nodup := by
  have hd : read_config "config.toml" (fun _ => none : FS F) = (_, .ok Config.default) := rfl
  obtain ⟨fs', es, h1, -, h2, -⟩ := C58_partial (List.replicate n ({}, o)) _ _ _ hd
    (by
      intro p hp
      rw [(List.mem_replicate.mp hp).2]
      exact ⟨rfl, rfl, rfl, rfl, rfl, rfl, rfl, rfl, rfl, rfl, rfl, rfl, rfl, rfl, rfl, rfl⟩)
    (show (0 : ℤ) ≤ 2 by decide) (by
      rw [List.length_replicate]
      show 0 + 4 * n * 2 < 2 ^ 32
      omega)
  exact ⟨fs', es, h1, h2⟩

/-- A Monte-Carlo run truncates the log files with the numbers of its workers: a default run from offset
zero followed by `--monte-carlo` creates `log0.dat` twice. -/
theorem C58_monte_carlo_overwrites (o o' : Oracle F) (fs fs0 : FS F) (conf : Config F)
    (hr : read_config "config.toml" fs = (fs0, .ok conf)) (hlog : conf.log = true) (ho : conf.offset = 0)
    (hruns : 0 < conf.runs) (ht : 0 < mcThreads conf.threads conf.mc_points) :
    ∃ fs' es, session fs [({}, o), ({ mc := true }, o')] = (fs', .ok es) ∧ ¬(createdLogs es).Nodup := by
  have hno : NoMode ({} : Args F) :=
    ⟨rfl, rfl, rfl, rfl, rfl, rfl, rfl, rfl, rfl, rfl, rfl, rfl, rfl, rfl, rfl, rfl, rfl, rfl, rfl, rfl, rfl, rfl⟩
  obtain ⟨fs1, es1, h1, h2⟩ := C60_override_saved {} o fs fs0 conf hno hr
  obtain ⟨c, he, hc⟩ := default_events {} o conf hno
  have hes : es1 = (mainRun {} o conf).events := by
    unfold mainIn at h1
    rw [hr] at h1
    cases h1
    rfl
  generalize hc1 : ({ conf with
        tau := ({} : Args F).tau.getD conf.tau
        beta := ({} : Args F).beta.getD (o.solve conf.ednsty)
        offset := (conf.offset + asUsize conf.runs % 2 ^ 32) % 2 ^ 32 } : Config F) = c1 at h2
  have h3 : mainIn { mc := true } o' fs1 = (applyEvents fs1 (mainRun { mc := true } o' c1).events,
      .ok (mainRun { mc := true } o' c1).events) := by
    unfold mainIn
    rw [h2]
  refine ⟨applyEvents fs1 (mainRun { mc := true } o' c1).events, es1 ++ ((mainRun { mc := true } o' c1).events ++ []), ?_, ?_⟩
  · unfold session
    rw [h1]
    dsimp only
    unfold session
    rw [h3]
    rfl
  · have m1 : SpinChain.logName conf.file 0 ∈ createdLogs es1 := by
      rw [hes, he, ← List.singleton_append, createdLogs_append, createdLogs_append, created_logsOf,
        if_pos (by rw [hc]; exact hlog)]
      refine List.mem_append_right _ (List.mem_append_left _ ?_)
      rw [hc]
      refine List.mem_map.mpr ⟨0, ?_, rfl⟩
      unfold runNums
      refine List.mem_map.mpr ⟨0, List.mem_range.mpr ?_, ?_⟩
      · show 0 < asUsize conf.runs
        rw [asUsize_runs (by omega) (read_inRange hr).runs.2]
        omega
      · show 0 + conf.offset = 0
        omega
    have m2 : SpinChain.logName conf.file 0 ∈ createdLogs (mainRun { mc := true } o' c1).events := by
      rw [mainRun_eq]
      show _ ∈ createdLogs ([] ++ Event.call .run_mc { c1 with beta := o'.solve c1.ednsty } ::
        logsOf { c1 with beta := o'.solve c1.ednsty } (List.range (mcThreads c1.threads c1.mc_points)))
      rw [List.nil_append, ← List.singleton_append, createdLogs_append, created_logsOf,
        if_pos (by rw [← hc1]; exact hlog)]
      refine List.mem_append_right _ (List.mem_map.mpr ⟨0, List.mem_range.mpr (by rw [← hc1]; exact ht), ?_⟩)
      rw [← hc1]
    rw [List.append_nil, createdLogs_append]
    intro hnd
    exact (List.nodup_append.mp hnd).2.2 _ m1 _ m2 rfl

/-- an empty directory will do -/
example (o o' : Oracle F) :
    ∃ fs' es, session (fun _ => none) [({}, o), ({ mc := true }, o')] = (fs', .ok es) ∧ ¬(createdLogs es).Nodup :=
  C58_monte_carlo_overwrites o o' _ _ Config.default rfl rfl rfl (show (0 : ℤ) < 2 by decide)
    (show 0 < mcThreads 2 1000 by decide)

/-- `--ext` works on a copy of the configuration: with `--response` the same numbers are used twice. -/
theorem C58_ext_reuses (o : Oracle F) (conf : Config F) (hlog : conf.log = true) (hruns : 0 < conf.runs)
    (hr : conf.runs < 2 ^ 31) :
    ¬(createdLogs (mainRun { ext := true, response := true } o conf).events).Nodup := by
  have key : createdLogs (mainRun { ext := true, response := true } o conf).events =
      (runNums conf).map (SpinChain.logName conf.file) ++ (runNums conf).map (SpinChain.logName conf.file) := by
    rw [mainRun_eq]
    show createdLogs (([] ++ Event.call .run_ext conf :: (logsOf conf (runNums conf) ++ [.save _])) ++
      Event.call .run_sim_response _ :: (logsOf { conf with beta := o.solve conf.ednsty } (runNums conf) ++
      [.save _])) = _
    rw [List.nil_append, createdLogs_append, ← List.singleton_append, createdLogs_append, createdLogs_append,
      created_logsOf, if_pos hlog, ← List.singleton_append (l := logsOf _ _ ++ _), createdLogs_append,
      createdLogs_append, created_logsOf, if_pos hlog]
    simp [createdLogs]
  have hm : SpinChain.logName conf.file conf.offset ∈ (runNums conf).map (SpinChain.logName conf.file) := by
    refine List.mem_map.mpr ⟨_, List.mem_map.mpr ⟨0, List.mem_range.mpr ?_, rfl⟩, by rw [Nat.zero_add]⟩
    rw [asUsize_runs (by omega) hr]
    omega
  rw [key]
  intro hnd
  exact (List.nodup_append.mp hnd).2.2 _ hm _ hm rfl

/-- `--n-steps` uses numbers from the offset on but does not move the offset: every invocation
truncates the files of the last one. -/
theorem C58_tau_reuses (o o' : Oracle F) (fs fs0 : FS F) (conf : Config F) (taus : List F)
    (hr : read_config "config.toml" fs = (fs0, .ok conf)) (hlog : conf.log = true) (ht : taus ≠ []) :
    ∃ fs' es fs'' es', mainIn { n_steps_taus := some taus } o fs = (fs', .ok es) ∧
      mainIn { n_steps_taus := some taus } o' fs' = (fs'', .ok es') ∧
      createdLogs es = createdLogs es' ∧ createdLogs es ≠ [] := by
  have key : ∀ (o : Oracle F) (fs fs0 : FS F), read_config "config.toml" fs = (fs0, .ok conf) →
      ∃ es, mainIn { n_steps_taus := some taus } o fs = (applyEvents fs0 es, .ok es) ∧
        createdLogs es = (List.range taus.length).map (fun i => SpinChain.logName conf.file (i + conf.offset)) ∧
        savedConfs es = [] := by
    intro o fs fs0 hr
    refine ⟨_, by unfold mainIn; rw [hr], ?_, ?_⟩
    · rw [mainRun_eq]
      show createdLogs ([] ++ Event.call _ conf ::
        logsOf conf ((List.range taus.length).map fun i => i + conf.offset)) = _
      rw [List.nil_append, ← List.singleton_append, createdLogs_append, created_logsOf, if_pos hlog, List.map_map]
      rfl
    · rw [mainRun_eq]
      show savedConfs ([] ++ Event.call _ conf ::
        logsOf conf ((List.range taus.length).map fun i => i + conf.offset)) = _
      rw [List.nil_append, ← List.singleton_append, savedConfs_append, saved_logsOf]
      rfl
  obtain ⟨es, h1, h2, h3⟩ := key o fs fs0 hr
  have hcfg : "config.toml" ∉ createdLogs es := by
    rw [h2]
    intro hm
    obtain ⟨n, -, hn⟩ := List.mem_map.mp hm
    exact logName_ne_config _ _ hn
  have hf := applyEvents_config fs0 es hcfg
  rw [h3] at hf
  have hread : ∃ kvs, fs0 "config.toml" = some (.table kvs) ∧ Config.ofTable kvs = some conf := by
    unfold read_config at hr
    split at hr
    · cases hr
      exact ⟨_, if_pos rfl, C62_roundtrip _ default_inRange⟩
    · cases hr
      exact ⟨_, if_pos rfl, C62_roundtrip _ default_inRange⟩
    · cases hr
    · rename_i kvs hk
      split at hr
      · rename_i c hc
        cases hr
        exact ⟨kvs, hk, hc⟩
      · cases hr
  obtain ⟨kvs, k1, k2⟩ := hread
  obtain ⟨es', g1, g2, -⟩ := key o' (applyEvents fs0 es) _ (C62_valid _ _ _ _ (hf.trans k1) k2)
  refine ⟨_, es, _, es', h1, g1, h2.trans g2.symm, ?_⟩
  rw [h2]
  intro h
  have := congrArg List.length h
  rw [List.length_map, List.length_range] at this
  exact ht (List.length_eq_zero_iff.mp this)

end anyF

end Verif.Props
