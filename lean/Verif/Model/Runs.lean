/-
Transcription of the simulation drivers of /repo/src/obs.rs: the work done for one chain by
`run_sim`, `run_ext`, `run_sim_response`, `run_langevin`, `run_tau`, `run_dyn_profile`,
`trajectory_mean_e`, `gen_single_traj`, `gen_hist_dynamics`, `gen_hist`, `gen_hist_magnus`, `run_mc`,
`run_mc_magnus` and `run_mc_profile`.  Progress bars and messages to the terminal are left out.
The result of a loop that makes exactly `n` passes is described with `whileN`.
-/
import Verif.Model.Obs
import Verif.Model.Langevin

namespace Verif

variable {F : Type} [Add F] [Sub F] [Mul F] [Div F] [Neg F] [OfScientific F] [FOps F]

/-- A chain in the course of a run, the number of passes made so far and what has been written. -/
structure RunState (C Row : Type) where
  chain : C
  pass : Nat
  rows : List Row

/-- `2e7 as usize`, the number of Metropolis updates before a run (src/obs.rs:502, 839, 907, 974,
1045, 1151, 1291) -/
@[irreducible] def warmup : Nat := 20000000

/-- The decision whether to log, src/obs.rs:919-925, 991-998, 1057-1063, 1303-1309: `x` is `t / dt`
(`|t| / dt` in `run_sim_response`).  `as u64` truncates and saturates; `rem_euclid(0)` panics. -/
def strobHit (strob : Bool) (tau_steps : Nat) (x : F) : R Bool :=
  if strob then
    if tau_steps = 0 then .error .divZero else .ok (ftoNat x % tau_steps == 0)
  else .ok true

/-- One pass of the loops: an update, then possibly a row. -/
def runPass {C Row : Type} (upd : Nat → C → R C) (hit : C → R Bool) (row : C → R (List Row))
    (st : RunState C Row) : R (RunState C Row) := do
  let c ← upd st.pass st.chain
  if ← hit c then
    return { chain := c, pass := st.pass + 1, rows := st.rows ++ (← row c) }
  else
    return { chain := c, pass := st.pass + 1, rows := st.rows }

/-- `while sc.t < sc.vars.t` -/
def runGuard {Row : Type} (st : RunState (SpinChain F) Row) : Bool :=
  flt st.chain.t st.chain.vars.t

/-- `sc.log()`: the row, if there is a log file -/
def logRow (c : SpinChain F) : R (List (List F)) := do return (← c.log).toList

/-- the pass of `run_sim`, src/obs.rs:1054-1063 -/
def simPass (tau_steps : Nat) :
    RunState (SpinChain F) (List F) → R (RunState (SpinChain F) (List F)) :=
  runPass (fun _ c => c.update) (fun c => strobHit c.vars.strob tau_steps (c.t / c.vars.dt)) logRow

/-- src/obs.rs:1041-1069, the job of `run_sim` for one chain, from the warm-up on -/
def simJob (c : SpinChain F) (ds : Nat → Draw F) (n : Nat) :
    R (Option (RunState (SpinChain F) (List F))) := do
  let c ← sweeps SpinChain.metropolis_update ds warmup c
  let tau_steps := ftoNat (c.vars.tau / c.vars.dt)
  let rows ← logRow c
  whileN runGuard (simPass tau_steps) n { chain := c, pass := 0, rows }

/-- A line block of an extended log: a row of `log`, or the rows of `log_ext`. -/
abbrev ExtBlock (F : Type) := List F ⊕ List (F × Nat × F × V3 F)

/-- `sc.log_ext()`: the rows (followed by an empty line), if there is a log file -/
def extRows (c : SpinChain F) : R (List (ExtBlock F)) := do
  let rows ← c.log_ext
  return if c.file.isSome then [.inr rows] else []

/-- the pass of `run_ext`, src/obs.rs:1300-1309 -/
def extPass (tau_steps : Nat) :
    RunState (SpinChain F) (ExtBlock F) → R (RunState (SpinChain F) (ExtBlock F)) :=
  runPass (fun _ c => c.update) (fun c => strobHit c.vars.strob tau_steps (c.t / c.vars.dt)) extRows

/-- src/obs.rs:1287-1316, the job of `run_ext` for one chain: the first row is written by `log` -/
def extJob (c : SpinChain F) (ds : Nat → Draw F) (n : Nat) :
    R (Option (RunState (SpinChain F) (ExtBlock F))) := do
  let c ← sweeps SpinChain.metropolis_update ds warmup c
  let tau_steps := ftoNat (c.vars.tau / c.vars.dt)
  let rows ← logRow c
  whileN runGuard (extPass tau_steps) n { chain := c, pass := 0, rows := rows.map .inl }

/-- src/obs.rs:985-989 -/
def responseUpdate (c : SpinChain F) : R (SpinChain F) :=
  if flt c.t 0.0 then c.update else c.update_no_field

/-- src/obs.rs:984-998 -/
def responsePass (tau_steps : Nat) :
    RunState (SpinChain F) (List F) → R (RunState (SpinChain F) (List F)) :=
  runPass (fun _ c => responseUpdate c)
    (fun c => strobHit c.vars.strob tau_steps (fabs c.t / c.vars.dt)) logRow

/-- src/obs.rs:970-1004, the job of `run_sim_response` for one chain -/
def responseJob (c : SpinChain F) (ds : Nat → Draw F) (n : Nat) :
    R (Option (RunState (SpinChain F) (List F))) := do
  let c ← sweeps SpinChain.metropolis_update ds warmup c
  let tau_steps := ftoNat (c.vars.tau / c.vars.dt)
  let rows ← logRow c
  let c := { c with t := -c.vars.t }
  whileN runGuard (responsePass tau_steps) n { chain := c, pass := 0, rows }

/-- src/obs.rs:915-925; `zs k` is the noise of the `k`-th update -/
def langevinPass (zs : Nat → Noise F) (tau_steps : Nat) :
    RunState (LangevinChain F) (List F) → R (RunState (LangevinChain F) (List F)) :=
  runPass (fun k c => c.update (zs k)) (fun c => strobHit c.vars.strob tau_steps (c.t / c.vars.dt))
    (fun c => do return [← c.log])

/-- src/obs.rs:904-933, the job of `run_langevin` for one chain (the log file always exists) -/
def langevinJob (c : LangevinChain F) (ds : Nat → Draw F) (zs : Nat → Noise F) (n : Nat) :
    R (Option (RunState (LangevinChain F) (List F))) := do
  let c ← forRange 0 warmup c fun k c => c.metropolis_update (ds k)
  let tau_steps := ftoNat (fround (c.vars.tau / c.vars.dt))
  let row ← c.log
  whileN (fun st => flt st.chain.t st.chain.vars.t) (langevinPass zs tau_steps) n
    { chain := c, pass := 0, rows := [row] }

/-- src/obs.rs:823-827: the time-step of `run_tau` -/
def tauDt (tau : F) : F := if flt tau 10.0 then tau / 100.0 else 0.1

/-- src/obs.rs:821-828: the chain of `run_tau` for one period -/
def tauChain (c : SpinChain F) (tau : F) (steps : Nat) : SpinChain F :=
  { c with vars := { c.vars with
      tau
      dt := tauDt tau
      t := fofInt steps * tau } }

/-- The result of `run_tau` for one period: the row written to the log at the start and the row
`tau t e_total e_sub mx my mz` sent at the end. -/
structure TauResult (F : Type) where
  chain : SpinChain F
  start : List (List F)
  last : List F

/-- src/obs.rs:836-870, the job of `run_tau` for one chain -/
def tauJob (c : SpinChain F) (ds : Nat → Draw F) (n : Nat) : R (Option (TauResult F)) := do
  let c ← sweeps SpinChain.metropolis_update ds warmup c
  let start ← logRow c
  match ← whileN (fun c : SpinChain F => flt c.t c.vars.t) SpinChain.update n c with
  | none => return none
  | some c =>
    let es ← c.system_energy
    let e ← c.total_energy2
    let m ← c.m
    let s : F := fofInt c.vars.ssize
    return some { chain := c, start,
                  last := [c.vars.tau, c.t, e, es, m.x / s, m.y / s, m.z / s] }

/-! ### Profiles -/

/-- One message `i sjs sx sy sz` of the profile writers, src/obs.rs:1206-1232, 1659-1688 -/
abbrev ProfileMsg (F : Type) := Nat × F × V3 F

/-- src/obs.rs:1209-1231 and 1660-1687 -/
def profileMsg (c : SpinChain F) (L i : Nat) : R (ProfileMsg F) := do
  let il ← leftIdx L i
  let s_l ← idx c.spins il
  let s_c ← idx c.spins i
  let s_r ← idx c.spins (← rightIdx L i)
  let j_l ← idx c.j_couple il
  let j_r ← idx c.j_couple i
  let sjs := for3 (0.0 : F) fun k sjs =>
    let sjs := sjs - s_l.dir.get k * j_l.get k * s_c.dir.get k
    sjs - s_c.dir.get k * j_r.get k * s_r.dir.get k
  return (i, sjs / 2.0, s_c.dir)

/-- the `L` messages of one chain -/
def profileMsgs (c : SpinChain F) : R (List (ProfileMsg F)) :=
  let L := asUsize c.vars.hsize
  mapRange 0 L fun i => profileMsg c L i

/-- src/obs.rs:1163-1203: the checkpoint (number `k` in units of 500 periods) that the time matches -/
def checkpoint (t tau dt : F) : Option Nat :=
  (List.range' 1 8).find? fun k => flt (fabs (t - fofInt (500 * k : Nat) * tau)) (dt / 5.0)

/-- src/obs.rs:1157-1236; a row is a checkpoint number with the messages sent to its channel -/
def dynPass : RunState (SpinChain F) (Nat × List (ProfileMsg F)) →
    R (RunState (SpinChain F) (Nat × List (ProfileMsg F))) :=
  runPass (fun _ c => c.update)
    (fun c => .ok (checkpoint c.t c.vars.tau c.vars.dt).isSome)
    (fun c => do
      match checkpoint c.t c.vars.tau c.vars.dt with
      | some k => return [(k, ← profileMsgs c)]
      | none => return [])

/-- src/obs.rs:1145-1240, the job of `run_dyn_profile` for one chain -/
def dynJob (c : SpinChain F) (ds : Nat → Draw F) (n : Nat) :
    R (Option (RunState (SpinChain F) (Nat × List (ProfileMsg F)))) := do
  let c ← sweeps SpinChain.metropolis_update ds warmup c
  whileN runGuard dynPass n { chain := c, pass := 0, rows := [] }

/-- src/obs.rs:1088: the run lasts 4000 periods -/
def dynConf (conf : Config F) : Config F := { conf with t := conf.tau * 4000.0 }

/-! ### Trajectories and histograms -/

/-- src/obs.rs:493-494 -/
def trajSteps (conf : Config F) : Nat := ftoNat (1000.0 * conf.tau / conf.dt)
/-- src/obs.rs:494 -/
def trajCycle (conf : Config F) : Nat := ftoNat (conf.tau / conf.dt)

/-- src/obs.rs:506-516 -/
def trajBody (steps_in_cycle cntr : Nat) (st : SpinChain F × List F) : R (SpinChain F × List F) := do
  let c ← st.1.update
  if steps_in_cycle = 0 then .error .divZero
  else if cntr % steps_in_cycle = 0 ∧ 99 * steps_in_cycle < cntr then
    return (c, st.2 ++ [← c.system_energy])
  else return (c, st.2)

/-- src/obs.rs:499-519, the job of `trajectory_mean_e` for one chain: the samples sent -/
def trajJob (conf : Config F) (c : SpinChain F) (ds : Nat → Draw F) : R (SpinChain F × List F) := do
  let c ← sweeps SpinChain.metropolis_update ds warmup c
  forRange 0 (trajSteps conf) (c, []) (trajBody (trajCycle conf))

/-- src/obs.rs:523-536: the mean of everything received (`0.0 / 0.0` if nothing was) -/
def trajMean (received : List F) : F :=
  let p := received.foldl (fun (p : F × F) x => (p.1 + 1.0, p.2 + x)) (0.0, 0.0)
  p.2 / p.1

/-- `[mx, my, mz, ed]` as in src/obs.rs:594-597, 658-661, 713-716 -/
def histSample (c : SpinChain F) : R (List F) := do
  let m ← c.m
  let s : F := fofInt c.vars.ssize
  return [m.x / s, m.y / s, m.z / s, ← c.system_energy]

/-- src/obs.rs:584-602; `step_count` is `init + pass` -/
def singlePass (init cycle_steps : Nat) :
    RunState (SpinChain F) (List F) → R (RunState (SpinChain F) (List F)) := fun st => do
  let c ← st.chain.update
  if cycle_steps = 0 then .error .divZero
  else if (init + st.pass + 1) % cycle_steps = 0 then
    return { chain := c, pass := st.pass + 1, rows := st.rows ++ [c.t :: (← histSample c)] }
  else return { chain := c, pass := st.pass + 1, rows := st.rows }

/-- src/obs.rs:541-603 `gen_single_traj` (after `SpinChain::new`): the rows `t mx my mz ed` -/
def singleJob (conf : Config F) (c : SpinChain F) (sample_num n : Nat) :
    R (Option (RunState (SpinChain F) (List F))) := do
  let final_t : F := (fofInt sample_num + 30.0) * conf.tau
  let init_steps := ftoNat (30.0 * conf.tau / conf.dt)
  let cycle_steps := ftoNat (conf.tau / conf.dt)
  let c ← c.updates init_steps
  whileN (fun st => flt st.chain.t final_t) (singlePass init_steps cycle_steps) n
    { chain := c, pass := 0, rows := [] }

/-- src/obs.rs:645-668: one row `i mx my mz ed` of `gen_hist_dynamics` (without the index) -/
def dynHistJob (conf : Config F) (c : SpinChain F) : R (List F) := do
  let c ← c.updates (ftoNat (conf.t / conf.dt))
  histSample c

/-- `[mx, my, mz, ed, sm, sp]` as in src/obs.rs:447-452, 713-719, 769-775 -/
def histSample2 (c : SpinChain F) : R (List F) := do
  let h ← histSample c
  let s : F := fofInt c.vars.ssize
  let sm ← idx c.spins (ftoNat (s / 4.0))
  let sp ← idx c.spins (ftoNat (3.0 * s / 4.0))
  return h ++ [sm.dir.x, sm.dir.y, sm.dir.z, sp.dir.x, sp.dir.y, sp.dir.z]

/-- src/obs.rs:412-475 `gen_hist_magnus`: the rows (without the index; the means printed at the end
are not modelled) -/
def genHistMagnus (conf : Config F) (sample_num : Nat) (r : Rand F) : R (SpinChain F × List (List F)) := do
  let conf := { conf with
    drive := .none
    file := "x" }
  let sc ← SpinChain.new conf 0 r.u r.zj r.zh
  sampleLoop SpinChain.metropolis_update_magnus 10000 sample_num histSample2 r.ds sc

/-- src/obs.rs:741-762: the condition under which the search for a state of the right energy and
magnetisation goes on -/
def histReject (c : SpinChain F) : R Bool := do
  let e_obs ← c.total_energy2
  let m ← c.m_tot
  let h : F := fofInt c.vars.hsize
  let de := fabs (e_obs - c.vars.ednsty)
  let far (x : F) : Bool := flt 0.003 (fabs (x / h))
  return flt 0.005 de || far m.x || far m.y || far m.z

/-- the loop of src/obs.rs:740-762: state, pass number, flag `l` -/
def histPass (ds : Nat → Nat → Draw F) (st : SpinChain F × Nat × Bool) : R (SpinChain F × Nat × Bool) := do
  let c ← sweeps SpinChain.metropolis_update (ds st.2.1) 10000 st.1
  return (c, st.2.1 + 1, ← histReject c)

/-- src/obs.rs:764-791: the dynamic histogram -/
def histDyn (c : SpinChain F) (sample_num : Nat) : R (SpinChain F × List (List F)) :=
  forRange 0 sample_num (c, []) fun _ st => do
    let c ← st.1.updates 10000
    return (c, st.2 ++ [← histSample2 c])

/-- What `gen_hist` writes: the rows of both histograms (without the index), and the chain at the
start of the dynamic one. -/
structure GenHist (F : Type) where
  mc : List (List F)
  shell : SpinChain F
  dyn : List (List F)

/-- src/obs.rs:675-793 `gen_hist` when the search makes `n` passes; `ds'` are the draws of the
search -/
def genHist (conf : Config F) (sample_num : Nat) (r : Rand F) (ds' : Nat → Nat → Draw F) (n : Nat) :
    R (Option (GenHist F)) := do
  let conf := { conf with
    drive := .none
    file := "x" }
  let sc ← SpinChain.new conf 0 r.u r.zj r.zh
  let st ← sampleLoop SpinChain.metropolis_update 10000 sample_num histSample2 r.ds sc
  match ← whileN (fun s : SpinChain F × Nat × Bool => s.2.2) (histPass ds') n (st.1, 0, true) with
  | none => return none
  | some (c, _, _) =>
    let d ← histDyn c sample_num
    return some { mc := st.2, shell := c, dyn := d.2 }

/-! ### Monte-Carlo workers -/

/-- the row of `run_mc` and `run_mc_magnus`, src/obs.rs:1569-1594, 1760-1785 -/
def mcRow (c : SpinChain F) : R (List F) := do
  let m ← c.m
  let _mt ← c.m_tot
  let ss : F := fofInt c.vars.ssize
  let e ← c.total_energy2
  let es ← c.mc_system_energy
  let sm ← idx c.spins (ftoNat (ss / 4.0))
  let sp ← idx c.spins (ftoNat (3.0 * ss / 4.0))
  return [e, es, m.x / ss, m.y / ss, m.z / ss, sm.dir.x, sm.dir.y, sm.dir.z, sp.dir.x, sp.dir.y,
    sp.dir.z]

/-- `1e6 as usize` -/
@[irreducible] def million : Nat := 1000000

/-- src/obs.rs:1757-1788: what one worker of `run_mc` sends -/
def mcWorker (c : SpinChain F) (points : Nat) (ds : Nat → Nat → Draw F) :
    R (SpinChain F × List (List F)) :=
  sampleLoop SpinChain.metropolis_update million points mcRow ds c

/-- src/obs.rs:1566-1597: what one worker of `run_mc_magnus` sends -/
def mcMagnusWorker (c : SpinChain F) (points : Nat) (ds : Nat → Nat → Draw F) :
    R (SpinChain F × List (List F)) :=
  sampleLoop SpinChain.metropolis_update_mag_full million points mcRow ds c

/-- src/obs.rs:1655-1692: what one worker of `run_mc_profile` sends -/
def mcProfileWorker (c : SpinChain F) (points : Nat) (ds : Nat → Nat → Draw F) :
    R (SpinChain F × List (List (ProfileMsg F))) :=
  sampleLoop SpinChain.metropolis_update million points profileMsgs ds c

end Verif
