/-
C114: the entries of the configuration that do not matter for the results.
-/
import Verif.Model.Runs
import Verif.Props.Init
import Mathlib.Data.Nat.Notation

set_option linter.unusedSectionVars false

namespace Verif.Props

section anyF

variable {F : Type} [Add F] [Sub F] [Mul F] [Div F] [Neg F] [OfScientific F] [FOps F]

/-- Values for the entries that have nothing to do with the physics of one chain (`ednsty = none`: as it
was). -/
structure Books (F : Type) where
  method : Int
  runs : Int
  threads : Nat
  offset : Nat
  mc_points : Nat
  ednsty : Option F
  file : String

/-- the configuration with other values there -/
def rebook (b : Books F) (c : Config F) : Config F :=
  { c with
    method := b.method
    runs := b.runs
    threads := b.threads
    offset := b.offset
    mc_points := b.mc_points
    ednsty := b.ednsty.getD c.ednsty
    file := b.file }

/-- a chain with such a configuration, logging to the file `name` if it logs at all -/
def rebookChain (b : Books F) (name : String) (c : SpinChain F) : SpinChain F :=
  { c with
    vars := rebook b c.vars
    file := c.file.map fun _ => name }

/-! #### Loops -/

theorem forRange_nat {σ τ : Type} (f : σ → τ) (lo hi : ℕ) (s : σ) (body : ℕ → σ → R σ) (body' : ℕ → τ → R τ)
    (h : ∀ i s, body' i (f s) = (body i s).map f) :
    forRange lo hi (f s) body' = (forRange lo hi s body).map f := by
  unfold forRange
  induction List.range' lo (hi - lo) generalizing s with
  | nil => rfl
  | cons i l ih =>
    rw [List.foldlM_cons, List.foldlM_cons, h]
    cases body i s with
    | error e => rfl
    | ok s' => exact ih s'

theorem whileN_nat {σ τ : Type} (f : σ → τ) (g : σ → Bool) (g' : τ → Bool) (body : σ → R σ) (body' : τ → R τ)
    (hg : ∀ s, g' (f s) = g s) (h : ∀ s, body' (f s) = (body s).map f) (n : ℕ) (s : σ) :
    whileN g' body' n (f s) = (whileN g body n s).map (Option.map f) := by
  induction n generalizing s with
  | zero =>
    unfold whileN
    rw [hg]
    cases g s <;> rfl
  | succ n ih =>
    unfold whileN
    rw [hg, h]
    cases g s with
    | false => rfl
    | true =>
      rw [if_pos rfl, if_pos rfl]
      cases body s with
      | error e => rfl
      | ok s' => exact ih s'

/-! #### Functions of a chain -/

section chain

variable (b : Books F) (name : String)

theorem rebook_update (c : SpinChain F) :
    (rebookChain b name c).update = c.update.map (rebookChain b name) := by
  unfold SpinChain.update
  show (c.h_ext (c.t + c.vars.dt / 2.0) >>= _) = _
  cases c.h_ext (c.t + c.vars.dt / 2.0) with
  | error e => rfl
  | ok h =>
    show (SpinChain.trotter c.j_couple (SpinChain.updateField c.static_h (asUsize c.vars.ssize) h) c.vars.dt
      c.spins >>= _) = Except.map _ (SpinChain.trotter c.j_couple
        (SpinChain.updateField c.static_h (asUsize c.vars.ssize) h) c.vars.dt c.spins >>= _)
    cases SpinChain.trotter c.j_couple (SpinChain.updateField c.static_h (asUsize c.vars.ssize) h) c.vars.dt
      c.spins <;> rfl

theorem rebook_update_no_field (c : SpinChain F) :
    (rebookChain b name c).update_no_field = c.update_no_field.map (rebookChain b name) := by
  unfold SpinChain.update_no_field
  show (c.h_ext (c.t + c.vars.dt / 2.0) >>= _) = _
  cases c.h_ext (c.t + c.vars.dt / 2.0) with
  | error e => rfl
  | ok h =>
    show (SpinChain.trotter c.j_couple (SpinChain.updateFieldNoStatic c.static_h (asUsize c.vars.ssize) h)
      c.vars.dt c.spins >>= _) = Except.map _ (SpinChain.trotter c.j_couple
        (SpinChain.updateFieldNoStatic c.static_h (asUsize c.vars.ssize) h) c.vars.dt c.spins >>= _)
    cases SpinChain.trotter c.j_couple (SpinChain.updateFieldNoStatic c.static_h (asUsize c.vars.ssize) h)
      c.vars.dt c.spins <;> rfl

theorem rebook_updates (n : ℕ) (c : SpinChain F) :
    (rebookChain b name c).updates n = (c.updates n).map (rebookChain b name) := by
  induction n generalizing c with
  | zero => rfl
  | succ n ih =>
    unfold SpinChain.updates
    rw [rebook_update]
    cases c.update with
    | error e => rfl
    | ok c' => exact ih c'

theorem rebook_finish (c : SpinChain F) (i : ℕ) (s : Spin F) (de u : F) :
    (rebookChain b name c).finish i s de u = (c.finish i s de u).map (rebookChain b name) := by
  unfold SpinChain.finish
  show (if SpinChain.accept c.vars.beta de u then _ else _) = _
  split
  · show (setIdx c.spins i s >>= _) = Except.map _ (setIdx c.spins i s >>= _)
    cases setIdx c.spins i s <;> rfl
  · rfl

/-- an update that commutes with the change of the entries -/
def Blind (upd : SpinChain F → Draw F → R (SpinChain F)) : Prop :=
  ∀ (b : Books F) (name : String) (c : SpinChain F) (d : Draw F),
    upd (rebookChain b name c) d = (upd c d).map (rebookChain b name)

theorem blind_metropolis : Blind (F := F) SpinChain.metropolis_update := by
  intro b name c d
  unfold SpinChain.metropolis_update
  show (genRange (asUsize c.vars.hsize) d.site >>= _) = Except.map _ (genRange (asUsize c.vars.hsize) d.site >>= _)
  cases genRange (asUsize c.vars.hsize) d.site with
  | error e => rfl
  | ok i =>
    show (c.nbhd1 (asUsize c.vars.hsize) i >>= _) = Except.map _ (c.nbhd1 (asUsize c.vars.hsize) i >>= _)
    cases c.nbhd1 (asUsize c.vars.hsize) i with
    | error e => rfl
    | ok n => exact rebook_finish b name c _ _ _ _

theorem blind_maglab : Blind (F := F) SpinChain.metropolis_update_maglab := by
  intro b name c d
  unfold SpinChain.metropolis_update_maglab
  show (genRange (asUsize c.vars.hsize) d.site >>= _) = Except.map _ (genRange (asUsize c.vars.hsize) d.site >>= _)
  cases genRange (asUsize c.vars.hsize) d.site with
  | error e => rfl
  | ok i =>
    show (c.nbhd1 (asUsize c.vars.hsize) i >>= _) = Except.map _ (c.nbhd1 (asUsize c.vars.hsize) i >>= _)
    cases c.nbhd1 (asUsize c.vars.hsize) i with
    | error e => rfl
    | ok n => exact rebook_finish b name c _ _ _ _

theorem blind_rot : Blind (F := F) SpinChain.metropolis_update_rot_magnus := by
  intro b name c d
  unfold SpinChain.metropolis_update_rot_magnus
  show (genRange (asUsize c.vars.hsize) d.site >>= _) = Except.map _ (genRange (asUsize c.vars.hsize) d.site >>= _)
  cases genRange (asUsize c.vars.hsize) d.site with
  | error e => rfl
  | ok i =>
    show (idx c.static_h i >>= _) = Except.map _ (idx c.static_h i >>= _)
    cases idx c.static_h i with
    | error e => rfl
    | ok h =>
      show (c.nbhd (asUsize c.vars.hsize) i >>= _) = Except.map _ (c.nbhd (asUsize c.vars.hsize) i >>= _)
      cases c.nbhd (asUsize c.vars.hsize) i with
      | error e => rfl
      | ok n => exact rebook_finish b name c _ _ _ _

theorem blind_magnus : Blind (F := F) SpinChain.metropolis_update_magnus := by
  intro b name c d
  unfold SpinChain.metropolis_update_magnus
  show (genRange (asUsize c.vars.hsize) d.site >>= _) = Except.map _ (genRange (asUsize c.vars.hsize) d.site >>= _)
  cases genRange (asUsize c.vars.hsize) d.site with
  | error e => rfl
  | ok i =>
    show (idx c.static_h i >>= _) = Except.map _ (idx c.static_h i >>= _)
    cases idx c.static_h i with
    | error e => rfl
    | ok h =>
      show (c.nbhd (asUsize c.vars.hsize) i >>= _) = Except.map _ (c.nbhd (asUsize c.vars.hsize) i >>= _)
      cases c.nbhd (asUsize c.vars.hsize) i with
      | error e => rfl
      | ok n => exact rebook_finish b name c _ _ _ _

theorem blind_mag_full : Blind (F := F) SpinChain.metropolis_update_mag_full := by
  intro b name c d
  unfold SpinChain.metropolis_update_mag_full
  show (genRange (asUsize c.vars.hsize) d.site >>= _) = Except.map _ (genRange (asUsize c.vars.hsize) d.site >>= _)
  cases genRange (asUsize c.vars.hsize) d.site with
  | error e => rfl
  | ok i =>
    show (idx c.static_h i >>= _) = Except.map _ (idx c.static_h i >>= _)
    cases idx c.static_h i with
    | error e => rfl
    | ok h =>
      show (c.nbhd (asUsize c.vars.hsize) i >>= _) = Except.map _ (c.nbhd (asUsize c.vars.hsize) i >>= _)
      cases c.nbhd (asUsize c.vars.hsize) i with
      | error e => rfl
      | ok n => exact rebook_finish b name c _ _ _ _

theorem rebook_log (c : SpinChain F) : (rebookChain b name c).log = c.log := by
  unfold SpinChain.log
  show (c.system_energy >>= fun e => c.total_energy2 >>= fun es => c.m >>= fun m => c.m_tot >>= fun mt => _) = _
  cases c.system_energy with
  | error e => rfl
  | ok e =>
    cases c.total_energy2 with
    | error e => rfl
    | ok es =>
      cases c.m with
      | error e => rfl
      | ok m =>
        cases c.m_tot with
        | error e => rfl
        | ok mt =>
          have hf : (rebookChain b name c).file.isSome = c.file.isSome := by
            show (c.file.map _).isSome = _
            cases c.file <;> rfl
          simp only [hf]
          rfl

theorem rebook_logRow (c : SpinChain F) : logRow (rebookChain b name c) = logRow c := by
  unfold logRow
  rw [rebook_log]

theorem rebook_extRows (c : SpinChain F) : extRows (rebookChain b name c) = extRows c := by
  unfold extRows
  have hf : (rebookChain b name c).file.isSome = c.file.isSome := by
    show (c.file.map _).isSome = _
    cases c.file <;> rfl
  rw [hf]
  rfl

theorem rebook_sweeps {upd : SpinChain F → Draw F → R (SpinChain F)} (hu : Blind upd) (ds : ℕ → Draw F) (n : ℕ)
    (c : SpinChain F) :
    sweeps upd ds n (rebookChain b name c) = (sweeps upd ds n c).map (rebookChain b name) :=
  forRange_nat _ _ _ _ _ _ fun k c => hu b name c (ds k)

theorem rebook_sampleLoop {α : Type} {upd : SpinChain F → Draw F → R (SpinChain F)} (hu : Blind upd)
    (per samples : ℕ) (obs : SpinChain F → R α) (ho : ∀ c, obs (rebookChain b name c) = obs c)
    (ds : ℕ → ℕ → Draw F) (c : SpinChain F) :
    sampleLoop upd per samples obs ds (rebookChain b name c)
      = (sampleLoop upd per samples obs ds c).map fun p => (rebookChain b name p.1, p.2) := by
  refine forRange_nat (fun p : SpinChain F × List α => (rebookChain b name p.1, p.2)) 0 samples (c, []) _ _
    fun i st => ?_
  dsimp only
  rw [rebook_sweeps b name hu]
  cases sweeps upd (ds i) per st.1 with
  | error e => rfl
  | ok c' =>
    show (obs (rebookChain b name c') >>= _) = Except.map _ (obs c' >>= _)
    rw [ho]
    cases obs c' <;> rfl

/-- the state of a run with the entries changed -/
def rebookRun {Row : Type} (st : RunState (SpinChain F) Row) : RunState (SpinChain F) Row :=
  { st with chain := rebookChain b name st.chain }

theorem rebook_pass {Row : Type} (upd : ℕ → SpinChain F → R (SpinChain F)) (hit : SpinChain F → R Bool)
    (row : SpinChain F → R (List Row))
    (hu : ∀ k c, upd k (rebookChain b name c) = (upd k c).map (rebookChain b name))
    (hh : ∀ c, hit (rebookChain b name c) = hit c) (hr : ∀ c, row (rebookChain b name c) = row c)
    (st : RunState (SpinChain F) Row) :
    runPass upd hit row (rebookRun b name st) = (runPass upd hit row st).map (rebookRun b name) := by
  unfold runPass
  show (upd st.pass (rebookChain b name st.chain) >>= _) = _
  rw [hu]
  cases upd st.pass st.chain with
  | error e => rfl
  | ok c =>
    show (hit (rebookChain b name c) >>= _) = Except.map _ (hit c >>= _)
    rw [hh]
    cases hit c with
    | error e => rfl
    | ok t =>
      cases t with
      | false => rfl
      | true =>
        show (row (rebookChain b name c) >>= _) = Except.map _ (row c >>= _)
        rw [hr]
        cases row c <;> rfl

end chain

/-! #### New chains -/

theorem rebook_new (b : Books F) (conf : Config F) (num num' : ℕ) (u zj zh : ℕ → F) :
    SpinChain.new (rebook b conf) num' u zj zh
      = (SpinChain.new conf num u zj zh).map (rebookChain b (SpinChain.logName b.file num')) := by
  unfold SpinChain.new
  show (if conf.hsize < 0 then _ else _) = _
  split
  · rfl
  · show (SpinChain.newSpins conf.beta u (asUsize conf.hsize) >>= _)
      = Except.map _ (SpinChain.newSpins conf.beta u (asUsize conf.hsize) >>= _)
    cases SpinChain.newSpins conf.beta u (asUsize conf.hsize) with
    | error e => rfl
    | ok spins =>
      show (SpinChain.normalNew conf.jvar >>= _) = Except.map _ (SpinChain.normalNew conf.jvar >>= _)
      cases SpinChain.normalNew conf.jvar with
      | error e => rfl
      | ok _ =>
        show (SpinChain.newCouplings conf.lambda conf.jvar zj conf.hsize.toNat >>= _)
          = Except.map _ (SpinChain.newCouplings conf.lambda conf.jvar zj conf.hsize.toNat >>= _)
        cases SpinChain.newCouplings conf.lambda conf.jvar zj conf.hsize.toNat with
        | error e => rfl
        | ok j =>
          show (SpinChain.normalNew conf.hvar >>= _) = Except.map _ (SpinChain.normalNew conf.hvar >>= _)
          cases SpinChain.normalNew conf.hvar with
          | error e => rfl
          | ok _ =>
            show (SpinChain.newFields conf.hfield conf.hs conf.ssize conf.hvar zh conf.hsize.toNat >>= _)
              = Except.map _ (SpinChain.newFields conf.hfield conf.hs conf.ssize conf.hvar zh conf.hsize.toNat >>= _)
            cases SpinChain.newFields conf.hfield conf.hs conf.ssize conf.hvar zh conf.hsize.toNat with
            | error e => rfl
            | ok h =>
              show (Except.ok _ : R (SpinChain F)) = Except.ok _
              unfold rebookChain
              dsimp only
              congr 1
              cases hl : conf.log <;> simp [rebook, hl]

/-- a job whose outcome does not depend on the entries -/
def Unmoved {α : Type} (job : SpinChain F → R α) : Prop :=
  ∀ (b : Books F) (name : String) (c : SpinChain F), job (rebookChain b name c) = job c

theorem Unmoved.new {α : Type} {job : SpinChain F → R α} (h : Unmoved job) (b : Books F) (conf : Config F)
    (num num' : ℕ) (u zj zh : ℕ → F) :
    (SpinChain.new (rebook b conf) num' u zj zh >>= job) = (SpinChain.new conf num u zj zh >>= job) := by
  rw [rebook_new b conf num num']
  cases SpinChain.new conf num u zj zh with
  | error e => rfl
  | ok c => exact h b _ c

/-! #### Jobs -/

/-- the rows written by a job -/
def rowsOf {C Row : Type} (r : R (Option (RunState C Row))) : R (Option (List Row)) :=
  r.map (Option.map RunState.rows)

theorem rowsOf_rebook {Row : Type} (b : Books F) (name : String) (r : R (Option (RunState (SpinChain F) Row))) :
    rowsOf (r.map (Option.map (rebookRun b name))) = rowsOf r := by
  cases r with
  | error e => rfl
  | ok o => cases o <;> rfl

theorem rowsOf_map {C C' Row : Type} (f : RunState C Row → RunState C' Row) (hf : ∀ st, (f st).rows = st.rows)
    (r : R (Option (RunState C Row))) : rowsOf (r.map (Option.map f)) = rowsOf r := by
  cases r with
  | error e => rfl
  | ok o =>
    cases o with
    | none => rfl
    | some st => exact congrArg (fun x => Except.ok (some x)) (hf st)

theorem rows_while {Row : Type} (b : Books F) (name : String) (upd : ℕ → SpinChain F → R (SpinChain F))
    (hit : SpinChain F → R Bool) (row : SpinChain F → R (List Row))
    (hu : ∀ k c, upd k (rebookChain b name c) = (upd k c).map (rebookChain b name))
    (hh : ∀ c, hit (rebookChain b name c) = hit c) (hr : ∀ c, row (rebookChain b name c) = row c) (n : ℕ)
    (st : RunState (SpinChain F) Row) :
    rowsOf (whileN runGuard (runPass upd hit row) n (rebookRun b name st))
      = rowsOf (whileN runGuard (runPass upd hit row) n st) := by
  rw [whileN_nat (rebookRun b name) runGuard runGuard (runPass upd hit row) (runPass upd hit row) (fun _ => rfl)
    (fun st => rebook_pass b name upd hit row hu hh hr st), rowsOf_rebook]

theorem unmoved_sim (ds : ℕ → Draw F) (n : ℕ) : Unmoved fun c : SpinChain F => rowsOf (simJob c ds n) := by
  intro b name c
  dsimp only
  unfold simJob
  rw [rebook_sweeps b name blind_metropolis]
  cases sweeps SpinChain.metropolis_update ds warmup c with
  | error e => rfl
  | ok c' =>
    show rowsOf (logRow (rebookChain b name c') >>= _) = rowsOf (logRow c' >>= _)
    rw [rebook_logRow]
    cases logRow c' with
    | error e => rfl
    | ok rows =>
      exact rows_while b name (fun _ c => c.update)
        (fun c => strobHit c.vars.strob (ftoNat (c'.vars.tau / c'.vars.dt)) (c.t / c.vars.dt))
        logRow
        (fun _ c => rebook_update b name c) (fun _ => rfl)
        (fun c => rebook_logRow b name c) n { chain := c', pass := 0, rows }

theorem unmoved_ext (ds : ℕ → Draw F) (n : ℕ) : Unmoved fun c : SpinChain F => rowsOf (extJob c ds n) := by
  intro b name c
  dsimp only
  unfold extJob
  rw [rebook_sweeps b name blind_metropolis]
  cases sweeps SpinChain.metropolis_update ds warmup c with
  | error e => rfl
  | ok c' =>
    show rowsOf (logRow (rebookChain b name c') >>= _) = rowsOf (logRow c' >>= _)
    rw [rebook_logRow]
    cases logRow c' with
    | error e => rfl
    | ok rows =>
      exact rows_while b name (fun _ c => c.update)
        (fun c => strobHit c.vars.strob (ftoNat (c'.vars.tau / c'.vars.dt)) (c.t / c.vars.dt))
        extRows
        (fun _ c => rebook_update b name c) (fun _ => rfl)
        (fun c => rebook_extRows b name c) n { chain := c', pass := 0, rows := rows.map .inl }

theorem rebook_response (b : Books F) (name : String) (c : SpinChain F) :
    responseUpdate (rebookChain b name c) = (responseUpdate c).map (rebookChain b name) := by
  unfold responseUpdate
  show (if flt c.t 0.0 then _ else _) = _
  split
  · exact rebook_update b name c
  · exact rebook_update_no_field b name c

theorem unmoved_response (ds : ℕ → Draw F) (n : ℕ) :
    Unmoved fun c : SpinChain F => rowsOf (responseJob c ds n) := by
  intro b name c
  dsimp only
  unfold responseJob
  rw [rebook_sweeps b name blind_metropolis]
  cases sweeps SpinChain.metropolis_update ds warmup c with
  | error e => rfl
  | ok c' =>
    show rowsOf (logRow (rebookChain b name c') >>= _) = rowsOf (logRow c' >>= _)
    rw [rebook_logRow]
    cases logRow c' with
    | error e => rfl
    | ok rows =>
      exact rows_while b name (fun _ c => responseUpdate c)
        (fun c => strobHit c.vars.strob (ftoNat (c'.vars.tau / c'.vars.dt)) (fabs c.t / c.vars.dt))
        logRow
        (fun _ c => rebook_response b name c) (fun _ => rfl)
        (fun c => rebook_logRow b name c) n { chain := { c' with t := -c'.vars.t }, pass := 0, rows }

theorem unmoved_dyn (ds : ℕ → Draw F) (n : ℕ) : Unmoved fun c : SpinChain F => rowsOf (dynJob c ds n) := by
  intro b name c
  dsimp only
  unfold dynJob
  rw [rebook_sweeps b name blind_metropolis]
  cases sweeps SpinChain.metropolis_update ds warmup c with
  | error e => rfl
  | ok c' =>
    exact rows_while b name (fun _ c => c.update)
      (fun c => .ok (checkpoint c.t c.vars.tau c.vars.dt).isSome)
      (fun c => do
        match checkpoint c.t c.vars.tau c.vars.dt with
        | some k => return [(k, ← profileMsgs c)]
        | none => return [])
      (fun _ c => rebook_update b name c) (fun _ => rfl)
      (fun c => rfl) n { chain := c', pass := 0, rows := [] }

/-- what `run_tau` writes for a period: the row of the log file and the row sent at the end -/
def tauRows (tau : F) (steps : ℕ) (ds : ℕ → Draw F) (n : ℕ) (c : SpinChain F) :
    R (Option (List (List F) × List F)) :=
  (tauJob (tauChain c tau steps) ds n).map (Option.map fun r => (r.start, r.last))

theorem unmoved_tau (tau : F) (steps : ℕ) (ds : ℕ → Draw F) (n : ℕ) :
    Unmoved (tauRows tau steps ds n) := by
  intro b name c
  unfold tauRows
  rw [show tauChain (rebookChain b name c) tau steps = rebookChain b name (tauChain c tau steps) from rfl]
  generalize tauChain c tau steps = c
  unfold tauJob
  rw [rebook_sweeps b name blind_metropolis]
  cases sweeps SpinChain.metropolis_update ds warmup c with
  | error e => rfl
  | ok c' =>
    show Except.map _ (logRow (rebookChain b name c') >>= _) = Except.map _ (logRow c' >>= _)
    rw [rebook_logRow]
    cases logRow c' with
    | error e => rfl
    | ok rows =>
      show Except.map _ (whileN _ _ n (rebookChain b name c') >>= _) = Except.map _ (whileN _ _ n c' >>= _)
      rw [whileN_nat (rebookChain b name) (fun c : SpinChain F => flt c.t c.vars.t)
        (fun c : SpinChain F => flt c.t c.vars.t) SpinChain.update SpinChain.update (fun _ => rfl)
        (fun c => rebook_update b name c)]
      cases whileN (fun c : SpinChain F => flt c.t c.vars.t) SpinChain.update n c' with
      | error e => rfl
      | ok o =>
        cases o with
        | none => rfl
        | some c'' =>
          show Except.map _ (c''.system_energy >>= _) = Except.map _ (c''.system_energy >>= _)
          cases c''.system_energy with
          | error e => rfl
          | ok es =>
            show Except.map _ (c''.total_energy2 >>= _) = Except.map _ (c''.total_energy2 >>= _)
            cases c''.total_energy2 with
            | error e => rfl
            | ok e =>
              show Except.map _ (c''.m >>= _) = Except.map _ (c''.m >>= _)
              cases c''.m <;> rfl

theorem unmoved_traj (conf : Config F) (ds : ℕ → Draw F) :
    Unmoved fun c : SpinChain F => (trajJob conf c ds).map Prod.snd := by
  intro b name c
  dsimp only
  unfold trajJob
  rw [rebook_sweeps b name blind_metropolis]
  cases sweeps SpinChain.metropolis_update ds warmup c with
  | error e => rfl
  | ok c' =>
    show Except.map _ (forRange 0 (trajSteps conf) (rebookChain b name c', []) _) =
      Except.map _ (forRange 0 (trajSteps conf) (c', []) _)
    rw [forRange_nat (fun p : SpinChain F × List F => (rebookChain b name p.1, p.2)) 0 (trajSteps conf) (c', [])
      (trajBody (trajCycle conf)) (trajBody (trajCycle conf)) (fun i st => ?_)]
    · cases forRange 0 (trajSteps conf) (c', []) (trajBody (trajCycle conf)) <;> rfl
    · unfold trajBody
      dsimp only
      rw [rebook_update]
      cases st.1.update with
      | error e => rfl
      | ok c' =>
        show (if _ then _ else _) = Except.map _ (if _ then _ else _)
        split
        · rfl
        · split
          · show (c'.system_energy >>= _) = Except.map _ (c'.system_energy >>= _)
            cases c'.system_energy <;> rfl
          · rfl

theorem unmoved_single (conf : Config F) (sample_num n : ℕ) :
    Unmoved fun c : SpinChain F => rowsOf (singleJob conf c sample_num n) := by
  intro b name c
  dsimp only
  unfold singleJob
  dsimp only
  rw [rebook_updates]
  cases c.updates (ftoNat (30.0 * conf.tau / conf.dt)) with
  | error e => rfl
  | ok c' =>
    refine Eq.trans (congrArg rowsOf (whileN_nat (rebookRun b name)
      (fun st => flt st.chain.t ((fofInt sample_num + 30.0) * conf.tau))
      (fun st => flt st.chain.t ((fofInt sample_num + 30.0) * conf.tau))
      (singlePass (ftoNat (30.0 * conf.tau / conf.dt)) (ftoNat (conf.tau / conf.dt)))
      (singlePass (ftoNat (30.0 * conf.tau / conf.dt)) (ftoNat (conf.tau / conf.dt))) (fun _ => rfl)
      (fun st => ?_) n { chain := c', pass := 0, rows := [] })) (rowsOf_rebook b name _)
    unfold singlePass
    show ((rebookChain b name st.chain).update >>= _) = _
    rw [rebook_update]
    cases st.chain.update with
    | error e => rfl
    | ok c' =>
      show (if _ then _ else _) = Except.map _ (if _ then _ else _)
      split
      · rfl
      · show (if (ftoNat (30.0 * conf.tau / conf.dt) + st.pass + 1) % ftoNat (conf.tau / conf.dt) = 0 then _ else _) = _
        split
        · show (histSample c' >>= _) = Except.map _ (histSample c' >>= _)
          cases histSample c' <;> rfl
        · rfl

theorem unmoved_dynHist (conf : Config F) : Unmoved fun c : SpinChain F => dynHistJob conf c := by
  intro b name c
  dsimp only
  unfold dynHistJob
  rw [rebook_updates]
  cases c.updates (ftoNat (conf.t / conf.dt)) <;> rfl

theorem unmoved_sampleLoop {α : Type} {upd : SpinChain F → Draw F → R (SpinChain F)} (hu : Blind upd)
    (per samples : ℕ) (obs : SpinChain F → R α) (ho : Unmoved obs) (ds : ℕ → ℕ → Draw F) :
    Unmoved fun c : SpinChain F => (sampleLoop upd per samples obs ds c).map Prod.snd := by
  intro b name c
  dsimp only
  rw [rebook_sampleLoop b name hu per samples obs (ho b name)]
  cases sampleLoop upd per samples obs ds c <;> rfl

/-- The rows of a plain, extended or response run, of the dynamic profile, of the drive at another period, of
the mean energy, of a trajectory and of the dynamic histogram, for a new chain, are those of a chain with
other values of `method`, `runs`, `threads`, `offset`, `mc_points`, `ednsty`, `file` and with another
number, for the same random numbers. -/
theorem C114_runs (b : Books F) (conf : Config F) (num num' : ℕ) (u zj zh : ℕ → F) (ds : ℕ → Draw F) (n : ℕ)
    (tau : F) (k : ℕ) :
    let new := SpinChain.new conf num u zj zh
    let new' := SpinChain.new (rebook b conf) num' u zj zh
    (new' >>= fun c => rowsOf (simJob c ds n)) = (new >>= fun c => rowsOf (simJob c ds n)) ∧
    (new' >>= fun c => rowsOf (extJob c ds n)) = (new >>= fun c => rowsOf (extJob c ds n)) ∧
    (new' >>= fun c => rowsOf (responseJob c ds n)) = (new >>= fun c => rowsOf (responseJob c ds n)) ∧
    (new' >>= fun c => rowsOf (dynJob c ds n)) = (new >>= fun c => rowsOf (dynJob c ds n)) ∧
    (new' >>= tauRows tau k ds n) = (new >>= tauRows tau k ds n) ∧
    (new' >>= fun c => (trajJob (rebook b conf) c ds).map Prod.snd)
      = (new >>= fun c => (trajJob conf c ds).map Prod.snd) ∧
    (new' >>= fun c => rowsOf (singleJob (rebook b conf) c k n))
      = (new >>= fun c => rowsOf (singleJob conf c k n)) ∧
    (new' >>= fun c => dynHistJob (rebook b conf) c) = (new >>= fun c => dynHistJob conf c) :=
  ⟨(unmoved_sim ds n).new .., (unmoved_ext ds n).new .., (unmoved_response ds n).new .., (unmoved_dyn ds n).new ..,
    (unmoved_tau tau k ds n).new .., (unmoved_traj conf ds).new .., (unmoved_single conf k n).new ..,
    (unmoved_dynHist conf).new ..⟩

/-- The same for what the Monte-Carlo workers send, and for the rows of the Magnus histogram. -/
theorem C114_monte_carlo (b : Books F) (conf : Config F) (num num' : ℕ) (u zj zh : ℕ → F)
    (ds : ℕ → ℕ → Draw F) (points : ℕ) (r : Rand F) :
    let new := SpinChain.new conf num u zj zh
    let new' := SpinChain.new (rebook b conf) num' u zj zh
    (new' >>= fun c => (mcWorker c points ds).map Prod.snd) = (new >>= fun c => (mcWorker c points ds).map Prod.snd) ∧
    (new' >>= fun c => (mcMagnusWorker c points ds).map Prod.snd)
      = (new >>= fun c => (mcMagnusWorker c points ds).map Prod.snd) ∧
    (new' >>= fun c => (mcProfileWorker c points ds).map Prod.snd)
      = (new >>= fun c => (mcProfileWorker c points ds).map Prod.snd) ∧
    (genHistMagnus (rebook b conf) points r).map Prod.snd = (genHistMagnus conf points r).map Prod.snd := by
  refine ⟨(unmoved_sampleLoop blind_metropolis million points mcRow (fun _ _ _ => rfl) ds).new ..,
    (unmoved_sampleLoop blind_mag_full million points mcRow (fun _ _ _ => rfl) ds).new ..,
    (unmoved_sampleLoop blind_metropolis million points profileMsgs (fun _ _ _ => rfl) ds).new .., ?_⟩
  have h := (unmoved_sampleLoop blind_magnus 10000 points histSample2 (fun _ _ _ => rfl) r.ds).new
    { b with file := "x" } { conf with
      drive := .none
      file := "x" } 0 0 r.u r.zj r.zh
  unfold genHistMagnus
  dsimp only
  have e : ∀ x : R (SpinChain F), (x >>= fun c => (sampleLoop SpinChain.metropolis_update_magnus 10000 points
      histSample2 r.ds c).map Prod.snd) = (x >>= fun c => sampleLoop SpinChain.metropolis_update_magnus 10000 points
      histSample2 r.ds c).map Prod.snd := by
    intro x
    cases x <;> rfl
  rw [e, e] at h
  exact h

theorem rebook_estimate (b : Books F) {upd : SpinChain F → Draw F → R (SpinChain F)} (hu : Blind upd)
    (per samples : ℕ) (obs : SpinChain F → R F) (ho : Unmoved obs) (conf : Config F) (beta : F) (r : Rand F) :
    estimate upd per samples obs (rebook b conf) beta r = estimate upd per samples obs conf beta r := by
  refine Unmoved.new (job := fun sc => sampleLoop upd per samples obs r.ds
      { sc with vars := { sc.vars with beta } } >>= fun st => return meanOf st.2 samples) ?_ b conf 0 0 r.u r.zj r.zh
  intro b name c
  dsimp only
  rw [show ({ rebookChain b name c with vars := { (rebookChain b name c).vars with beta } } : SpinChain F)
    = rebookChain b name { c with vars := { c.vars with beta } } from rfl,
    rebook_sampleLoop b name hu per samples obs (ho b name)]
  cases sampleLoop upd per samples obs r.ds { c with vars := { c.vars with beta } } <;> rfl

theorem rebook_getObs (b : Books F) {upd : SpinChain F → Draw F → R (SpinChain F)} (hu : Blind upd)
    (per : ℕ) (e : SpinChain F → R F) (ho : Unmoved e) (conf : Config F) (r : Rand F) :
    getObs upd per e (rebook b conf) r = getObs upd per e conf r := by
  refine Unmoved.new (job := fun sc => sampleLoop upd per 8000 (obs4 e) r.ds sc >>= fun st =>
    (.ok (meanOf (st.2.map fun p => p.1) 8000,
      ⟨meanOf (st.2.map fun p => p.2.x) 8000, meanOf (st.2.map fun p => p.2.y) 8000,
        meanOf (st.2.map fun p => p.2.z) 8000⟩) : R (F × V3 F))) ?_ b { conf with ssize := conf.hsize } 0 0 r.u r.zj r.zh
  intro b name c
  dsimp only
  rw [rebook_sampleLoop b name hu per 8000 (obs4 e) (fun c => ?_)]
  · cases sampleLoop upd per 8000 (obs4 e) r.ds c <;> rfl
  · unfold obs4
    rw [ho]
    rfl

/-- The same for the estimates of energy and observables, and, if the target `ednsty` stays, for the results
of the temperature searches. -/
theorem C114_estimates (b : Books F) (conf : Config F) (beta : F) (r : Rand F) (rs : ℕ → Rand F) (n : ℕ) :
    (estim_e (rebook b conf) beta r = estim_e conf beta r ∧
      estim_e2 (rebook b conf) beta r = estim_e2 conf beta r ∧
      estim_e_maglab (rebook b conf) beta r = estim_e_maglab conf beta r ∧
      estim_e_rot (rebook b conf) beta r = estim_e_rot conf beta r) ∧
    (get_obs (rebook b conf) r = get_obs conf r ∧ get_obsh (rebook b conf) r = get_obsh conf r ∧
      get_obs_maglab (rebook b conf) r = get_obs_maglab conf r ∧
      get_obs_rot (rebook b conf) r = get_obs_rot conf r) ∧
    (b.ednsty = none →
      find_beta (rebook b conf) rs n = find_beta conf rs n ∧
      find_beta2 (rebook b conf) rs n = find_beta2 conf rs n ∧
      find_beta_maglab (rebook b conf) rs n = find_beta_maglab conf rs n ∧
      find_beta_rot (rebook b conf) rs n = find_beta_rot conf rs n) := by
  have h1 : ∀ (b : Books F) conf beta r, estim_e (rebook b conf) beta r = estim_e conf beta r := fun b conf beta r =>
    rebook_estimate b blind_metropolis _ _ (fun sc => do
      return (← sc.mc_system_energy) + 2.0 * fpi / conf.tau * (← sc.m).z / fofInt sc.vars.ssize)
      (fun _ _ _ => rfl) conf beta r
  have h2 : ∀ (b : Books F) conf beta r, estim_e2 (rebook b conf) beta r = estim_e2 conf beta r :=
    fun b conf beta r => rebook_estimate b blind_metropolis _ _ _ (fun _ _ _ => rfl) conf beta r
  have h3 : ∀ (b : Books F) conf beta r, estim_e_maglab (rebook b conf) beta r = estim_e_maglab conf beta r :=
    fun b conf beta r => rebook_estimate b blind_maglab _ _ _ (fun _ _ _ => rfl) conf beta r
  have h4 : ∀ (b : Books F) conf beta r, estim_e_rot (rebook b conf) beta r = estim_e_rot conf beta r :=
    fun b conf beta r => rebook_estimate b blind_rot _ _ _ (fun _ _ _ => rfl) conf beta r
  refine ⟨⟨h1 .., h2 .., h3 .., h4 ..⟩, ⟨?_, ?_, ?_, ?_⟩, fun he => ⟨?_, ?_, ?_, ?_⟩⟩
  · exact rebook_getObs b blind_metropolis _ (fun sc => do
      return (← sc.mc_system_energy) + 2.0 * fpi / conf.tau * (← sc.m).z / fofInt sc.vars.ssize)
      (fun _ _ _ => rfl) conf r
  · exact rebook_getObs b blind_metropolis _ _ (fun _ _ _ => rfl) conf r
  · exact rebook_getObs b blind_maglab _ _ (fun _ _ _ => rfl) conf r
  · exact rebook_getObs b blind_rot _ _ (fun _ _ _ => rfl) conf r
  · unfold find_beta
    show bisect 0.01 5.0 (b.ednsty.getD conf.ednsty) (fun k beta => estim_e (rebook b { conf with ssize := conf.hsize })
      beta (rs k)) n = _
    rw [he]
    simp only [h1]
    rfl
  · unfold find_beta2
    show bisect 0.01 5.0 (b.ednsty.getD conf.ednsty) _ n = _
    rw [he]
    simp only [h2]
    rfl
  · unfold find_beta_maglab
    show bisect 0.0001 5.0 (b.ednsty.getD conf.ednsty) _ n = _
    rw [he]
    simp only [h3]
    rfl
  · unfold find_beta_rot
    show bisect 0.0001 5.0 (b.ednsty.getD conf.ednsty) _ n = _
    rw [he]
    simp only [h4]
    rfl

theorem rebook_histReject (b : Books F) (hb : b.ednsty = none) (name : String) (c : SpinChain F) :
    histReject (rebookChain b name c) = histReject c := by
  unfold histReject
  have h : (rebookChain b name c).vars.ednsty = c.vars.ednsty := by
    show b.ednsty.getD c.vars.ednsty = _
    rw [hb]
    rfl
  rw [h]
  rfl

theorem rebook_histDyn (b : Books F) (name : String) (c : SpinChain F) (k : ℕ) :
    histDyn (rebookChain b name c) k = (histDyn c k).map fun p => (rebookChain b name p.1, p.2) := by
  refine forRange_nat (fun p : SpinChain F × List (List F) => (rebookChain b name p.1, p.2)) 0 k (c, []) _ _
    fun i st => ?_
  dsimp only
  rw [rebook_updates]
  cases st.1.updates 10000 with
  | error e => rfl
  | ok c' =>
    show (histSample2 c' >>= _) = Except.map _ (histSample2 c' >>= _)
    cases histSample2 c' <;> rfl

/-- The rows of both histograms of `gen_hist`, if the target `ednsty` stays. -/
theorem C114_histograms (b : Books F) (hb : b.ednsty = none) (conf : Config F) (k : ℕ) (r : Rand F)
    (ds' : ℕ → ℕ → Draw F) (n : ℕ) :
    (genHist (rebook b conf) k r ds' n).map (Option.map fun g => (g.mc, g.dyn))
      = (genHist conf k r ds' n).map (Option.map fun g => (g.mc, g.dyn)) := by
  unfold genHist
  dsimp only
  have hn := rebook_new { b with file := "x" } { conf with
      drive := .none
      file := "x" } 0 0 r.u r.zj r.zh
  rw [show ({ rebook b conf with
      drive := .none
      file := "x" } : Config F) = rebook { b with file := "x" } { conf with
      drive := .none
      file := "x" } from rfl, hn]
  generalize hB : ({ b with file := "x" } : Books F) = B
  generalize SpinChain.logName B.file 0 = name
  have hb : B.ednsty = none := by rw [← hB]; exact hb
  cases SpinChain.new ({ conf with
      drive := .none
      file := "x" } : Config F) 0 r.u r.zj r.zh with
  | error e => rfl
  | ok sc =>
    show Except.map _ (sampleLoop SpinChain.metropolis_update 10000 k histSample2 r.ds (rebookChain B name sc) >>= _)
      = Except.map _ (sampleLoop SpinChain.metropolis_update 10000 k histSample2 r.ds sc >>= _)
    rw [rebook_sampleLoop B name blind_metropolis 10000 k histSample2 (fun _ => rfl)]
    cases sampleLoop SpinChain.metropolis_update 10000 k histSample2 r.ds sc with
    | error e => rfl
    | ok st =>
      show Except.map _ (whileN _ (histPass ds') n (rebookChain B name st.1, 0, true) >>= _)
        = Except.map _ (whileN _ (histPass ds') n (st.1, 0, true) >>= _)
      rw [show ((rebookChain B name st.1, 0, true) : SpinChain F × ℕ × Bool)
          = (fun s : SpinChain F × ℕ × Bool => (rebookChain B name s.1, s.2)) (st.1, 0, true) from rfl,
        whileN_nat (fun s : SpinChain F × ℕ × Bool => (rebookChain B name s.1, s.2)) (fun s => s.2.2) (fun s => s.2.2)
          (histPass ds') (histPass ds') (fun _ => rfl) (fun s => ?_)]
      · cases whileN (fun s : SpinChain F × ℕ × Bool => s.2.2) (histPass ds') n (st.1, 0, true) with
        | error e => rfl
        | ok o =>
          cases o with
          | none => rfl
          | some s =>
            show Except.map _ (histDyn (rebookChain B name s.1) k >>= _) = Except.map _ (histDyn s.1 k >>= _)
            rw [rebook_histDyn]
            cases histDyn s.1 k <;> rfl
      · unfold histPass
        dsimp only
        rw [rebook_sweeps B name blind_metropolis]
        cases sweeps SpinChain.metropolis_update (ds' s.2.1) 10000 s.1 with
        | error e => rfl
        | ok c =>
          show (histReject (rebookChain B name c) >>= _) = Except.map _ (histReject c >>= _)
          rw [rebook_histReject B hb]
          cases histReject c <;> rfl

/-! #### The open chain -/

/-- the same change for the open chain -/
def rebookOpen (b : Books F) (name : String) (c : LangevinChain F) : LangevinChain F :=
  { rebookChain b name c.toSpinChain with gamma := c.gamma }

theorem rebookOpen_new (b : Books F) (conf : Config F) (num num' : ℕ) (gamma : F) (u zj zh : ℕ → F) :
    LangevinChain.new (rebook b conf) num' gamma u zj zh
      = (LangevinChain.new conf num gamma u zj zh).map (rebookOpen b (SpinChain.logName b.file num')) := by
  unfold LangevinChain.new
  rw [rebook_new b conf num num']
  cases SpinChain.new conf num u zj zh <;> rfl

theorem rebookOpen_metropolis (b : Books F) (name : String) (c : LangevinChain F) (d : Draw F) :
    (rebookOpen b name c).metropolis_update d = (c.metropolis_update d).map (rebookOpen b name) := by
  unfold LangevinChain.metropolis_update
  show (genRange (asUsize c.vars.hsize) d.site >>= _) = Except.map _ (genRange (asUsize c.vars.hsize) d.site >>= _)
  cases genRange (asUsize c.vars.hsize) d.site with
  | error e => rfl
  | ok i =>
    show (idx c.spins i >>= _) = Except.map _ (idx c.spins i >>= _)
    cases idx c.spins i with
    | error e => rfl
    | ok s_c =>
    show (leftIdx (asUsize c.vars.hsize) i >>= _) = Except.map _ (leftIdx (asUsize c.vars.hsize) i >>= _)
    cases hl : leftIdx (asUsize c.vars.hsize) i with
    | error e => rfl
    | ok il =>
    show (idx c.spins il >>= _) = Except.map _ (idx c.spins il >>= _)
    cases idx c.spins il with
    | error e => rfl
    | ok s_l =>
    show (rightIdx (asUsize c.vars.hsize) i >>= _) = Except.map _ (rightIdx (asUsize c.vars.hsize) i >>= _)
    cases rightIdx (asUsize c.vars.hsize) i with
    | error e => rfl
    | ok ir =>
    show (idx c.spins ir >>= _) = Except.map _ (idx c.spins ir >>= _)
    cases idx c.spins ir with
    | error e => rfl
    | ok s_r =>
    show (leftIdx (asUsize c.vars.hsize) i >>= _) = _
    rw [hl]
    show (idx c.j_couple il >>= _) = Except.map _ (idx c.j_couple il >>= _)
    cases idx c.j_couple il with
    | error e => rfl
    | ok j_l =>
    show (idx c.j_couple i >>= _) = Except.map _ (idx c.j_couple i >>= _)
    cases idx c.j_couple i with
    | error e => rfl
    | ok j_r =>
    show ((rebookChain b name c.toSpinChain).finish i _ _ d.u3 >>= _)
      = Except.map _ (c.toSpinChain.finish i _ _ d.u3 >>= _)
    rw [rebook_finish]
    generalize c.toSpinChain.finish _ _ _ _ = x
    cases x <;> rfl

theorem rebookOpen_update (b : Books F) (name : String) (c : LangevinChain F) (z : Noise F) :
    (rebookOpen b name c).update z = (c.update z).map (rebookOpen b name) := by
  unfold LangevinChain.update
  show (c.h_ext (c.t + c.vars.dt) >>= _) = Except.map _ (c.h_ext (c.t + c.vars.dt) >>= _)
  cases c.h_ext (c.t + c.vars.dt) with
  | error e => rfl
  | ok h =>
    show (SpinChain.normalNew (fsqrt (2.0 * c.gamma * c.vars.dt / c.vars.beta)) >>= _)
      = Except.map _ (SpinChain.normalNew (fsqrt (2.0 * c.gamma * c.vars.dt / c.vars.beta)) >>= _)
    cases SpinChain.normalNew (fsqrt (2.0 * c.gamma * c.vars.dt / c.vars.beta)) with
    | error e => rfl
    | ok _ =>
      have key : ∀ (k k' : List (Spin F) → R (LangevinChain F)), (∀ s, k s = (k' s).map (rebookOpen b name)) →
          ∀ x : R (List (Spin F)), (x >>= k) = (x >>= k').map (rebookOpen b name) := by
        intro k k' hk x
        cases x with
        | error e => rfl
        | ok s => exact hk s
      let ev (s : List (Spin F)) : R (List (Spin F)) := do
        SpinChain.rotateSub 0 s (← LangevinChain.evenOmega c.gamma c.vars.dt c.j_couple s
          (SpinChain.updateField c.static_h (asUsize c.vars.ssize) h)
          (LangevinChain.sample3 (fsqrt (2.0 * c.gamma * c.vars.dt / c.vars.beta)) z.l)) (c.vars.dt / 2.0)
      let od (s : List (Spin F)) : R (List (Spin F)) := do
        SpinChain.rotateSub 1 s (← LangevinChain.oddOmega c.gamma c.vars.dt c.j_couple s
          (SpinChain.updateField c.static_h (asUsize c.vars.ssize) h)
          (LangevinChain.sample3 (fsqrt (2.0 * c.gamma * c.vars.dt / c.vars.beta)) z.r)) c.vars.dt
      let out (s : List (Spin F)) : LangevinChain F := { c with
        spins := s
        t := c.t + c.vars.dt }
      exact key (fun s => od s >>= fun s => ev s >>= fun s => .ok (rebookOpen b name (out s)))
        (fun s => od s >>= fun s => ev s >>= fun s => .ok (out s))
        (fun s => key (fun s => ev s >>= fun s => .ok (rebookOpen b name (out s)))
          (fun s => ev s >>= fun s => .ok (out s))
          (fun s => key (fun s => .ok (rebookOpen b name (out s))) (fun s => .ok (out s)) (fun s => rfl) (ev s))
          (od s)) (ev c.spins)

theorem rebookOpen_log (b : Books F) (name : String) (c : LangevinChain F) :
    (rebookOpen b name c).log = c.log := rfl

/-- The rows of a Langevin run. -/
theorem C114_langevin (b : Books F) (conf : Config F) (num num' : ℕ) (gamma : F) (u zj zh : ℕ → F)
    (ds : ℕ → Draw F) (zs : ℕ → Noise F) (n : ℕ) :
    (LangevinChain.new (rebook b conf) num' gamma u zj zh >>= fun c => rowsOf (langevinJob c ds zs n))
      = (LangevinChain.new conf num gamma u zj zh >>= fun c => rowsOf (langevinJob c ds zs n)) := by
  rw [rebookOpen_new b conf num num']
  generalize SpinChain.logName b.file num' = name
  cases LangevinChain.new conf num gamma u zj zh with
  | error e => rfl
  | ok c =>
    show rowsOf (langevinJob (rebookOpen b name c) ds zs n) = rowsOf (langevinJob c ds zs n)
    unfold langevinJob
    rw [forRange_nat (rebookOpen b name) 0 warmup c (fun k c => c.metropolis_update (ds k))
      (fun k c => c.metropolis_update (ds k)) (fun k c => rebookOpen_metropolis b name c (ds k))]
    cases forRange 0 warmup c (fun k c => c.metropolis_update (ds k)) with
    | error e => rfl
    | ok c' =>
      show rowsOf (c'.log >>= _) = rowsOf (c'.log >>= _)
      cases c'.log with
      | error e => rfl
      | ok row =>
        let f : RunState (LangevinChain F) (List F) → RunState (LangevinChain F) (List F) :=
          fun st => { st with chain := rebookOpen b name st.chain }
        refine Eq.trans (congrArg rowsOf (whileN_nat f (fun st => flt st.chain.t st.chain.vars.t)
          (fun st => flt st.chain.t st.chain.vars.t) (langevinPass zs (ftoNat (fround (c'.vars.tau / c'.vars.dt))))
          (langevinPass zs (ftoNat (fround (c'.vars.tau / c'.vars.dt)))) (fun _ => rfl) (fun st => ?_) n
          { chain := c', pass := 0, rows := [row] })) ?_
        · unfold langevinPass runPass
          show ((rebookOpen b name st.chain).update (zs st.pass) >>= _)
            = Except.map f (st.chain.update (zs st.pass) >>= _)
          rw [rebookOpen_update]
          cases st.chain.update (zs st.pass) with
          | error e => rfl
          | ok d =>
            show (strobHit d.vars.strob _ (d.t / d.vars.dt) >>= _)
              = Except.map _ (strobHit d.vars.strob _ (d.t / d.vars.dt) >>= _)
            cases strobHit d.vars.strob (ftoNat (fround (c'.vars.tau / c'.vars.dt))) (d.t / d.vars.dt) with
            | error e => rfl
            | ok t =>
              cases t with
              | false => rfl
              | true =>
                show ((d.log >>= fun l => Except.ok [l]) >>= _) = Except.map _ ((d.log >>= fun l => Except.ok [l]) >>= _)
                cases d.log <;> rfl
        · exact rowsOf_map f (fun _ => rfl) _

/-- The integrator does not look at `method`: after any number of updates a chain with another value there
has the same spins and the same time, or has stopped in the same way; so has the open chain. -/
theorem C114_method (m : Int) (n : ℕ) (c : SpinChain F) (l : LangevinChain F) (zs : List (Noise F)) :
    (({ c with vars := { c.vars with method := m } } : SpinChain F).updates n).map (fun c => (c.spins, c.t))
      = (c.updates n).map (fun c => (c.spins, c.t)) ∧
    (LangevinChain.updates zs { l with vars := { l.vars with method := m } }).map (fun c => (c.spins, c.t))
      = (LangevinChain.updates zs l).map (fun c => (c.spins, c.t)) := by
  constructor
  · induction n generalizing c with
    | zero => rfl
    | succ n ih =>
      have h : ({ c with vars := { c.vars with method := m } } : SpinChain F).update
          = c.update.map fun c => { c with vars := { c.vars with method := m } } := by
        unfold SpinChain.update
        show (c.h_ext (c.t + c.vars.dt / 2.0) >>= _) = Except.map _ (c.h_ext (c.t + c.vars.dt / 2.0) >>= _)
        cases c.h_ext (c.t + c.vars.dt / 2.0) with
        | error e => rfl
        | ok h =>
          show (SpinChain.trotter c.j_couple (SpinChain.updateField c.static_h (asUsize c.vars.ssize) h) c.vars.dt
            c.spins >>= _) = Except.map _ (SpinChain.trotter c.j_couple
              (SpinChain.updateField c.static_h (asUsize c.vars.ssize) h) c.vars.dt c.spins >>= _)
          cases SpinChain.trotter c.j_couple (SpinChain.updateField c.static_h (asUsize c.vars.ssize) h) c.vars.dt
            c.spins <;> rfl
      unfold SpinChain.updates
      rw [h]
      cases c.update with
      | error e => rfl
      | ok c' => exact ih c'
  · let b : Books F := ⟨m, l.vars.runs, l.vars.threads, l.vars.offset, l.vars.mc_points, none, l.vars.file⟩
    have key : ∀ (zs : List (Noise F)) (l : LangevinChain F) (name : String),
        (LangevinChain.updates zs (rebookOpen b name l)).map (fun c => (c.spins, c.t))
          = (LangevinChain.updates zs l).map (fun c => (c.spins, c.t)) := by
      intro zs
      induction zs with
      | nil => intro l name; rfl
      | cons z zs ih =>
        intro l name
        unfold LangevinChain.updates
        rw [rebookOpen_update]
        cases l.update z with
        | error e => rfl
        | ok l' => exact ih l' name
    cases hf : l.file with
    | none =>
      have := key zs l ""
      rw [show rebookOpen b "" l = { l with vars := { l.vars with method := m } } by
        unfold rebookOpen rebookChain
        rw [hf]
        rfl] at this
      rw [hf] at this
      exact this
    | some f =>
      have := key zs l f
      rw [show rebookOpen b f l = { l with vars := { l.vars with method := m } } by
        unfold rebookOpen rebookChain
        rw [hf]
        rfl] at this
      rw [hf] at this
      exact this

end anyF

/-! #### The statements are not empty -/

/-- with the default configuration the chain exists, and so does the one with `method = 4`, ten runs,
other points, another target and another file; its file is named by the other entries -/
example : ∃ c c' : SpinChain ℝ,
    SpinChain.new Config.default 3 (fun _ => 0.25) (fun _ => 1) (fun _ => 0) = .ok c ∧
    SpinChain.new (rebook ⟨4, 10, 2, 100, 7, some 5, "other"⟩ Config.default) 103 (fun _ => 0.25) (fun _ => 1)
      (fun _ => 0) = .ok c' ∧
    c.vars.method = 2 ∧ c'.vars.method = 4 ∧ c'.vars.ednsty = 5 ∧ c'.file = some "other103.dat" ∧
    c.spins.length = 512 ∧ c'.spins = c.spins := by
  obtain ⟨c, h, hl, -, -, -, hv, hf, -⟩ := C11_new_wf (Config.default : Config ℝ) 3 (fun _ => 0.25) (fun _ => 1)
    (fun _ => 0) 512 rfl (by norm_num) (by decide) (by decide) rfl rfl
  refine ⟨c, rebookChain ⟨4, 10, 2, 100, 7, some 5, "other"⟩ "other103.dat" c, h, by rw [rebook_new ⟨4, 10, 2, 100, 7, some 5, "other"⟩ Config.default 3 103, h]; rfl, ?_, rfl, rfl,
    ?_, hl, rfl⟩
  · rw [hv]; rfl
  · show c.file.map _ = _
    rw [hf rfl]
    rfl

end Verif.Props
