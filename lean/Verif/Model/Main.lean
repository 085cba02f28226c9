/-
Transcription of /repo/src/main.rs (option handling and the order of the calls), of
`SpinChain::read_config` (/repo/src/spinchain.rs:82-105), and of what the functions of
/repo/src/obs.rs do to the configuration and to the files named after it.
-/
import Verif.Model.Writers

namespace Verif

variable {F : Type} [Add F] [Sub F] [Mul F] [Div F] [Neg F] [OfScientific F] [FOps F]

/-! ### Configuration files -/

/-- A value of a TOML table, as far as configurations use them. -/
inductive TVal (F : Type) where
  | int (i : Int)
  | float (x : F)
  | str (s : String)
  | bool (b : Bool)
  | arr (l : List (TVal F))

/-- What a file holds: bytes that are not UTF-8 text, text that is not TOML (or has a key twice), or a
table of keys and values.  The text itself is not modelled; `toml::to_string` and `toml::from_str` are
represented by `Config.toTable` and `Config.ofTable`. -/
inductive Content (F : Type) where
  | notText
  | notToml
  | table (kvs : List (String × TVal F))

/-- the first entry of a key -/
def lookupKey (kvs : List (String × TVal F)) (k : String) : Option (TVal F) :=
  (kvs.find? fun p => p.1 == k).map (·.2)

/-- Deserialisation of an integer field; `lo ≤ i < hi` is the range of its type. -/
def TVal.toInt (lo hi : Int) : TVal F → Option Int
  | .int i => if lo ≤ i ∧ i < hi then some i else none
  | _ => none

/-- Deserialisation of an `f64` field; `serde` accepts integers, too. -/
def TVal.toF : TVal F → Option F
  | .float x => some x
  | .int i => some (fofInt i)
  | _ => none

/-- Deserialisation of a `Vec<f64>` -/
def TVal.toFs : TVal F → Option (List F)
  | .arr l => l.mapM TVal.toF
  | _ => none

/-- Deserialisation of a `String` -/
def TVal.toStr : TVal F → Option String
  | .str s => some s
  | _ => none

/-- Deserialisation of a `bool` -/
def TVal.toBool : TVal F → Option Bool
  | .bool b => some b
  | _ => none

/-- src/config.rs:3-17: unit variants are strings -/
def DriveType.name : DriveType → String
  | .xyplane => "xyplane"
  | .xyelliptic => "xyelliptic"
  | .uniaxial => "uniaxial"
  | .staticfield => "staticfield"
  | .none => "none"

/-- Deserialisation of a `DriveType` -/
def TVal.toDrive : TVal F → Option DriveType
  | .str s => [DriveType.xyplane, .xyelliptic, .uniaxial, .staticfield, .none].find? fun d => d.name == s
  | _ => none

/-- src/config.rs:20 `#[serde(default)]`: a field whose key is missing keeps its default; a value of
the wrong type is an error. -/
def fieldOf {α : Type} (kvs : List (String × TVal F)) (key : String) (conv : TVal F → Option α)
    (dflt : α) : Option α :=
  match lookupKey kvs key with
  | none => some dflt
  | some v => conv v

/-- `toml::from_str::<Config>`; keys that are not fields are ignored. -/
def Config.ofTable (kvs : List (String × TVal F)) : Option (Config F) := do
  let d : Config F := Config.default
  let i32 := TVal.toInt (F := F) (-2 ^ 31) (2 ^ 31)
  let u32 := TVal.toInt (F := F) 0 (2 ^ 32)
  let usize := TVal.toInt (F := F) 0 (2 ^ 63)
  let hsize ← fieldOf kvs "hsize" i32 d.hsize
  let ssize ← fieldOf kvs "ssize" i32 d.ssize
  let t ← fieldOf kvs "t" TVal.toF d.t
  let dt ← fieldOf kvs "dt" TVal.toF d.dt
  let runs ← fieldOf kvs "runs" i32 d.runs
  let trel ← fieldOf kvs "trel" TVal.toF d.trel
  let threads ← fieldOf kvs "threads" usize d.threads
  let tau ← fieldOf kvs "tau" TVal.toF d.tau
  let lambda ← fieldOf kvs "lambda" TVal.toF d.lambda
  let hfield ← fieldOf kvs "hfield" TVal.toFs d.hfield
  let hs ← fieldOf kvs "hs" TVal.toFs d.hs
  let jvar ← fieldOf kvs "jvar" TVal.toF d.jvar
  let hvar ← fieldOf kvs "hvar" TVal.toF d.hvar
  let method ← fieldOf kvs "method" i32 d.method
  let ednsty ← fieldOf kvs "ednsty" TVal.toF d.ednsty
  let file ← fieldOf kvs "file" TVal.toStr d.file
  let strob ← fieldOf kvs "strob" TVal.toBool d.strob
  let offset ← fieldOf kvs "offset" u32 d.offset
  let beta ← fieldOf kvs "beta" TVal.toF d.beta
  let mc_points ← fieldOf kvs "mc_points" usize d.mc_points
  let e ← fieldOf kvs "e" TVal.toF d.e
  let drive ← fieldOf kvs "drive" TVal.toDrive d.drive
  let log ← fieldOf kvs "log" TVal.toBool d.log
  return { hsize, ssize, t, dt, runs, trel, threads := threads.toNat, tau, lambda, hfield, hs, jvar,
           hvar, method, ednsty, file, strob, offset := offset.toNat, beta,
           mc_points := mc_points.toNat, e, drive, log }

/-- `toml::to_string(&conf)`, in the order of src/config.rs:22-66.  Floats are written with enough
digits to be read back exactly. -/
def Config.toTable (c : Config F) : List (String × TVal F) :=
  [("hsize", .int c.hsize), ("ssize", .int c.ssize), ("t", .float c.t), ("dt", .float c.dt),
    ("runs", .int c.runs), ("trel", .float c.trel), ("threads", .int c.threads), ("tau", .float c.tau),
    ("lambda", .float c.lambda), ("hfield", .arr (c.hfield.map .float)), ("hs", .arr (c.hs.map .float)),
    ("jvar", .float c.jvar), ("hvar", .float c.hvar), ("method", .int c.method),
    ("ednsty", .float c.ednsty), ("file", .str c.file), ("strob", .bool c.strob),
    ("offset", .int c.offset), ("beta", .float c.beta), ("mc_points", .int c.mc_points),
    ("e", .float c.e), ("drive", .str c.drive.name), ("log", .bool c.log)]

/-- The file system: contents by name.  Files can always be written. -/
abbrev FS (F : Type) := String → Option (Content F)

/-- `fs::write` -/
def FS.write (fs : FS F) (name : String) (c : Content F) : FS F :=
  fun n => if n = name then some c else fs n

/-- src/spinchain.rs:82-105 `read_config`: the file system afterwards and the configuration.  A file
that exists but is not text cannot be read by `read_to_string`. -/
def read_config (filename : String) (fs : FS F) : FS F × R (Config F) :=
  let missing : FS F × R (Config F) :=
    (fs.write "config.toml" (.table (Config.default : Config F).toTable), .ok Config.default)
  match fs filename with
  | none => missing
  | some .notText => missing
  | some .notToml => (fs, .error .invalidConfig)
  | some (.table kvs) =>
    match Config.ofTable kvs with
    | some c => (fs, .ok c)
    | none => (fs, .error .invalidConfig)

/-! ### Calls -/

/-- The functions called by `main`, with their arguments other than the configuration. -/
inductive Callee (F : Type) where
  | print_config_description
  | run_ext
  | run_tau (taus : List F) (steps : Nat)
  | find_beta2
  | find_beta_rot
  | get_obs_rot
  | find_beta_maglab
  | get_obs_maglab
  | find_beta
  | get_obs
  | find_betah
  | get_obsh
  | trajectory_mean_e
  | gen_hist (points : Nat)
  | gen_hist_dynamics (points : Nat)
  | gen_hist_magnus (points : Nat)
  | gen_single_traj (points : Nat)
  | average
  | two_point_average
  | run_mc
  | run_mc_profile
  | run_dyn_profile
  | run_mc_magnus
  | run_langevin (gamma : F)
  | run_sim_response
  | run_sim
  deriving DecidableEq

/-- What happens, in order: a call with the configuration it gets, a row appended to a file by `main`,
a log file created (and emptied, if it existed), `config.toml` written. -/
inductive Event (F : Type) where
  | call (f : Callee F) (conf : Config F)
  | append (file : String) (row : List F)
  | create (name : String)
  | save (conf : Config F)
  deriving DecidableEq

/-- What the calls return: inverse temperatures, observables, mean energy, the number of chains made
by a search, and the result of `solve_beta`.  (These functions are modelled in `Verif.Model.Obs`,
`Verif.Model.Runs` and `Verif.Model.SpinChain`; here they can be anything.) -/
structure Oracle (F : Type) where
  search : Callee F → Config F → F
  obs : Callee F → Config F → F × F × F × F
  meanE : Config F → F
  chains : Callee F → Config F → Nat
  solve : F → F

/-- The log files created by `SpinChain::new` with the numbers `nums`, src/spinchain.rs:197-206. -/
def logsOf (conf : Config F) (nums : List Nat) : List (Event F) :=
  if conf.log then nums.map fun n => .create (SpinChain.logName conf.file n) else []

/-- The numbers of the chains of `run_sim`, `run_sim_response`, `run_ext`, `run_langevin` and
`run_dyn_profile`, src/obs.rs:894, 958, 1029, 1125, 1277. -/
def runNums (conf : Config F) : List Nat :=
  (List.range (asUsize conf.runs)).map fun i => i + conf.offset

/-- `conf.offset += num as u32` in a release build, src/obs.rs:937, 1008, 1073, 1256, 1321.  (A debug
build panics on overflow.) -/
def advance (conf : Config F) : Config F :=
  { conf with offset := (conf.offset + asUsize conf.runs % 2 ^ 32) % 2 ^ 32 }

/-- The configuration after a call that returns, as far as the caller sees it (`conf: &mut Config`), and
the events it causes.
 * src/obs.rs:248, 282, 316, 348, 379 `conf.ssize = conf.hsize`;
 * src/obs.rs:413-414, 676-677 `conf.drive = none`, `conf.file = "x"`;
 * src/obs.rs:1091 `conf.t = conf.tau * 4000.0`;
 * chains are made with the number 0 (src/obs.rs:4, 23, 42, 60, 81, 284, 318, 351, 382, 415, 498, 554,
   644, 679), with the number of the worker (1555, 1644, 1746), or with `i + offset`;
 * src/spinchain_langevin.rs:189-192: Langevin chains create their log file whatever `log` says.
Output files other than logs and `config.toml` are in `Verif.Model.Outputs`. -/
def Callee.effect (o : Oracle F) (f : Callee F) (conf : Config F) : Config F × List (Event F) :=
  let estimates := logsOf conf (List.replicate (o.chains f conf) 0)
  let one := logsOf conf [0]
  let whole : Config F := { conf with ssize := conf.hsize }
  let bare : Config F := { conf with
    drive := .none
    file := "x" }
  let workers := logsOf conf (List.range (mcThreads conf.threads conf.mc_points))
  match f with
  | .print_config_description => (conf, [])
  | .run_ext => (advance conf, logsOf conf (runNums conf) ++ [.save (advance conf)])
  | .run_tau taus _ => (conf, logsOf conf ((List.range taus.length).map fun i => i + conf.offset))
  | .find_beta2 => (conf, estimates)
  | .find_beta_rot => (conf, estimates)
  | .find_beta_maglab => (conf, estimates)
  | .find_betah => (conf, estimates)
  | .find_beta => (whole, estimates)
  | .get_obs_rot => (whole, one)
  | .get_obs_maglab => (whole, one)
  | .get_obs => (whole, one)
  | .get_obsh => (whole, one)
  | .trajectory_mean_e => (conf, logsOf conf (List.replicate (asUsize conf.runs) 0))
  | .gen_hist _ => (bare, logsOf bare [0])
  | .gen_hist_magnus _ => (bare, logsOf bare [0])
  | .gen_hist_dynamics n => (conf, logsOf conf (List.replicate n 0))
  | .gen_single_traj _ => (conf, one)
  | .average => (conf, [])
  | .two_point_average => (conf, [])
  | .run_mc => (conf, workers)
  | .run_mc_profile => (conf, workers)
  | .run_mc_magnus => (conf, workers)
  | .run_dyn_profile =>
    let conf := dynConf conf
    (advance conf, logsOf conf (runNums conf) ++ [.save (advance conf)])
  | .run_langevin _ =>
    (advance conf, (runNums conf).map (fun n => .create (SpinChain.logName conf.file n))
      ++ [.save (advance conf)])
  | .run_sim_response => (advance conf, logsOf conf (runNums conf) ++ [.save (advance conf)])
  | .run_sim => (advance conf, logsOf conf (runNums conf) ++ [.save (advance conf)])

/-! ### The main program -/

/-- src/main.rs:37-131 `struct Args` -/
structure Args (F : Type) where
  tau : Option F := none
  avg : Bool := false
  beta : Option F := none
  mc : Bool := false
  mc_profile : Bool := false
  dyn_profile : Bool := false
  mc_full : Bool := false
  hist : Option (Option Nat) := none
  dynhist : Option (Option Nat) := none
  singletraj : Option (Option Nat) := none
  langevin : Option (Option F) := none
  magnus_hist : Option (Option Nat) := none
  config_desc : Bool := false
  n_steps_taus : Option (List F) := none
  adiabatic : Option F := none
  adiab2 : Option F := none
  rot : Option F := none
  ext : Bool := false
  maglab : Option F := none
  steps : Option Nat := none
  fit : Option F := none
  fit_effective : Option F := none
  response : Bool := false
  two_point : Bool := false
  high_freq : Option F := none

/-- The variables `conf` and `default` of `main`, and what has happened so far. -/
structure MainState (F : Type) where
  conf : Config F
  dflt : Bool
  events : List (Event F)

/-- a call with `&mut conf` -/
def MainState.call (o : Oracle F) (f : Callee F) (st : MainState F) : MainState F :=
  let r := f.effect o st.conf
  { st with
    conf := r.1
    events := st.events ++ .call f st.conf :: r.2 }

/-- a call with `&mut conf.clone()` -/
def MainState.callClone (o : Oracle F) (f : Callee F) (st : MainState F) : MainState F :=
  { st with events := st.events ++ .call f st.conf :: (f.effect o st.conf).2 }

/-- a row appended to a file -/
def MainState.write (file : String) (row : List F) (st : MainState F) : MainState F :=
  { st with events := st.events ++ [.append file row] }

/-- `default = false` -/
def MainState.noDefault (st : MainState F) : MainState F := { st with dflt := false }

/-- changes of the configuration -/
def MainState.set (g : Config F → Config F) (st : MainState F) : MainState F :=
  { st with conf := g st.conf }

/-- the field `[1, 0, 0]` on the subsystem and `[0, 0, -2 pi / tau]` everywhere,
src/main.rs:182-183, 255-256, 283-284 -/
def rotFields (c : Config F) : Config F :=
  { c with
    hs := [1.0, 0.0, 0.0]
    hfield := [0.0, 0.0, -2.0 * fpi / c.tau] }

/-- the row of src/main.rs:216-221, 243-248, 271-276, 300-305, 322-327 -/
def betatRow (c : Config F) (targete : F) (r : F × F × F × F) : List F :=
  [c.tau, targete, c.beta, r.1, r.2.1, r.2.2.1, r.2.2.2]

/-- src/main.rs:150-156 -/
def secDesc (a : Args F) (o : Oracle F) (st : MainState F) : MainState F :=
  if a.config_desc then (st.call o .print_config_description).noDefault else st

/-- src/main.rs:157-162 -/
def secExt (a : Args F) (o : Oracle F) (st : MainState F) : MainState F :=
  if a.ext then (st.callClone o .run_ext).noDefault else st

/-- src/main.rs:164-176 -/
def secTau (a : Args F) (o : Oracle F) (st : MainState F) : MainState F :=
  match a.n_steps_taus with
  | some taus => (st.call o (.run_tau taus (a.steps.getD 1000))).noDefault
  | none => st

/-- src/main.rs:178-197 -/
def secAdiab2 (a : Args F) (o : Oracle F) (st : MainState F) : MainState F :=
  match a.adiab2 with
  | some tau =>
    let st := st.set fun c => rotFields { c with tau := tau }
    let result := o.search .find_beta2 st.conf
    let st := st.call o .find_beta2
    (st.write "beta.dat" [st.conf.tau, st.conf.beta, result]).noDefault
  | none => st

/-- src/main.rs:198-224 (`rot`) and 225-251 (`maglab`) -/
def secFrame (target : Option F) (find obs : Callee F) (file : String) (o : Oracle F)
    (st : MainState F) : MainState F :=
  match target with
  | some e =>
    let st := st.set fun c => { c with ednsty := e }
    let result := o.search find st.conf
    let st := (st.call o find).set fun c => { c with beta := result }
    let results := o.obs obs st.conf
    let st := st.call o obs
    (st.write file (betatRow st.conf e results)).noDefault
  | none => st

/-- src/main.rs:253-279 -/
def secFit (a : Args F) (o : Oracle F) (st : MainState F) : MainState F :=
  match a.fit with
  | some e =>
    let st := st.set fun c =>
      let c := rotFields { c with ednsty := e }
      { c with hsize := c.ssize }
    let result := o.search .find_beta st.conf
    let st := (st.call o .find_beta).set fun c => { c with beta := result }
    let results := o.obs .get_obs st.conf
    let st := st.call o .get_obs
    (st.write "betat.dat" (betatRow st.conf e results)).noDefault
  | none => st

/-- src/main.rs:281-308 -/
def secFitEffective (a : Args F) (o : Oracle F) (st : MainState F) : MainState F :=
  match a.fit_effective with
  | some e =>
    let st := st.set fun c => rotFields { c with ednsty := e }
    let result := o.search .find_betah st.conf
    let st := (st.call o .find_betah).set fun c => { c with
      beta := result
      hs := [1.0, 0.0, 0.0] }
    let results := o.obs .get_obsh st.conf
    let st := st.call o .get_obsh
    (st.write "betat.dat" (betatRow st.conf e results)).noDefault
  | none => st

/-- src/main.rs:309-330 -/
def secHighFreq (a : Args F) (o : Oracle F) (st : MainState F) : MainState F :=
  match a.high_freq with
  | some e =>
    let st := st.set fun c => { c with
      ednsty := e
      hfield := [0.0, 0.0, -c.tau / (4.0 * fpi)] }
    let results := o.obs .get_obsh st.conf
    let st := st.call o .get_obsh
    (st.write "betat.dat" (betatRow st.conf e results)).noDefault
  | none => st

/-- src/main.rs:332-379 -/
def secAdiabatic (a : Args F) (o : Oracle F) (st : MainState F) : MainState F :=
  match a.adiabatic with
  | some tau =>
    let st := st.set fun c => { c with tau := tau }
    let mean_e := o.meanE st.conf
    let st := (st.callClone o .trajectory_mean_e).set fun c => { c with
      ednsty := mean_e
      hs := [1.0, 0.0, -2.0 * fpi / c.tau] }
    let initial_beta := st.conf.beta
    let result := o.search .find_beta st.conf
    let st := (st.call o .find_beta).set fun c => { c with beta := result }
    let results := o.obs .get_obs st.conf
    let st := st.call o .get_obs
    (st.write "beta.dat" [st.conf.tau, initial_beta, result, results.1, results.2.1, results.2.2.1,
      results.2.2.2, mean_e]).noDefault
  | none => st

/-- src/main.rs:381-386 -/
def secBeta (a : Args F) (o : Oracle F) (st : MainState F) : MainState F :=
  match a.beta with
  | some b => st.set fun c => { c with beta := b }
  | none => st.set fun c => { c with beta := o.solve c.ednsty }

/-- a section of the second part: the option selects a call, src/main.rs:388-444, 458-464 -/
def secCall {α : Type} (sel : Option α) (f : α → Callee F) (o : Oracle F) (st : MainState F) :
    MainState F :=
  match sel with
  | some x => (st.call o (f x)).noDefault
  | none => st

/-- a flag as an option -/
def flag (b : Bool) : Option Unit := if b then some () else none

/-- src/main.rs:446-456 -/
def secLangevin (a : Args F) (o : Oracle F) (st : MainState F) : MainState F :=
  match a.langevin with
  | some g => ((st.set fun c => { c with hsize := c.ssize }).call o (.run_langevin (g.getD 1.0))).noDefault
  | none => st

/-- src/main.rs:139-470 `main`, after `read_config`, when every call returns (if a call panics or does
not return, the events are cut there) -/
def mainRun (a : Args F) (o : Oracle F) (conf : Config F) : MainState F :=
  let st : MainState F := { conf := conf, dflt := true, events := [] }
  let st := match a.tau with
    | some tau => st.set fun c => { c with tau := tau }
    | none => st
  let st := secDesc a o st
  let st := secExt a o st
  let st := secTau a o st
  let st := secAdiab2 a o st
  let st := secFrame a.rot .find_beta_rot .get_obs_rot "betat-rot.dat" o st
  let st := secFrame a.maglab .find_beta_maglab .get_obs_maglab "betat-maglab.dat" o st
  let st := secFit a o st
  let st := secFitEffective a o st
  let st := secHighFreq a o st
  let st := secAdiabatic a o st
  let st := secBeta a o st
  let st := secCall a.hist (fun p => .gen_hist (p.getD 8000)) o st
  let st := secCall a.dynhist (fun p => .gen_hist_dynamics (p.getD 1000)) o st
  let st := secCall a.magnus_hist (fun p => .gen_hist_magnus (p.getD 8000)) o st
  let st := secCall a.singletraj (fun p => .gen_single_traj (p.getD 1000)) o st
  let st := secCall (flag a.avg) (fun _ => .average) o st
  let st := secCall (flag a.two_point) (fun _ => .two_point_average) o st
  let st := secCall (flag a.mc) (fun _ => .run_mc) o st
  let st := secCall (flag a.mc_profile) (fun _ => .run_mc_profile) o st
  let st := secCall (flag a.dyn_profile) (fun _ => .run_dyn_profile) o st
  let st := secCall (flag a.mc_full) (fun _ => .run_mc_magnus) o st
  let st := secLangevin a o st
  let st := secCall (flag a.response) (fun _ => .run_sim_response) o st
  if st.dflt then st.call o .run_sim else st

/-- the files after the events: only `config.toml` and the log files are followed; a created log file
is empty (it then gets its rows, which are not TOML) -/
def applyEvents (fs : FS F) : List (Event F) → FS F
  | [] => fs
  | .save c :: es => applyEvents (fs.write "config.toml" (.table c.toTable)) es
  | .create n :: es => applyEvents (fs.write n .notToml) es
  | _ :: es => applyEvents fs es

/-- src/main.rs:139-470 `main` in a directory: read the configuration, then run. -/
def mainIn (a : Args F) (o : Oracle F) (fs : FS F) : FS F × R (List (Event F)) :=
  match read_config "config.toml" fs with
  | (fs, .error p) => (fs, .error p)
  | (fs, .ok conf) =>
    let es := (mainRun a o conf).events
    (applyEvents fs es, .ok es)

end Verif
