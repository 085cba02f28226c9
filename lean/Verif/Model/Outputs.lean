/-
The files that results are written to, other than log files and `config.toml`:
/repo/src/obs.rs and /repo/src/main.rs.
-/
import Verif.Model.Main

set_option linter.unusedSectionVars false

namespace Verif

variable {F : Type} [Add F] [Sub F] [Mul F] [Div F] [Neg F] [OfScientific F] [FOps F]

/-- How a file is opened: `OpenOptions::new().create(true).append(true)`, where every write goes to the
end of the file, or `File::create`, which empties a file that exists. -/
inductive Mode where
  | append
  | create
  deriving DecidableEq

/-- a file that is opened for writing -/
structure Opened where
  name : String
  mode : Mode
  deriving DecidableEq

/-- The files opened by a function, with the configuration it gets; `disp` is the `Display` of `f64`.
 * src/obs.rs:417-421 `gen_hist_magnus`, 542-548 `gen_single_traj`, 606-611 `gen_hist_dynamics`,
   681-691 `gen_hist`, 808-814 `run_tau`;
 * src/obs.rs:1095-1102 `run_dyn_profile`, 1425-1426 `two_point_average`, 1498 `average`,
   1606 `run_mc_profile`;
 * src/obs.rs:1513-1517 `run_mc_magnus`, 1704-1708 `run_mc`.
Log files and `config.toml` are events of their own (`Callee.effect`). -/
def Callee.outputs (disp : F → String) (f : Callee F) (conf : Config F) : List Opened :=
  match f with
  | .run_tau _ steps => [⟨"evt" ++ toString steps ++ ".dat", .append⟩]
  | .gen_hist _ => [⟨"hist_mc.dat", .append⟩, ⟨"hist_dyn.dat", .append⟩]
  | .gen_hist_dynamics _ => [⟨"dyn-hist-t-" ++ disp conf.t ++ ".dat", .append⟩]
  | .gen_hist_magnus _ => [⟨"hist_mc_magnus.dat", .append⟩]
  | .gen_single_traj _ => [⟨"hist-st-t-" ++ disp conf.t ++ ".dat", .append⟩]
  | .average => [⟨"avg.dat", .create⟩]
  | .two_point_average => [⟨"two-point.dat", .create⟩]
  | .run_mc => [⟨"mc_live.dat", .append⟩]
  | .run_mc_magnus => [⟨"mc_live.dat", .append⟩]
  | .run_mc_profile => [⟨"mc_profile.dat", .create⟩]
  | .run_dyn_profile =>
    [⟨"dyn_profile-500-tau.dat", .create⟩, ⟨"dyn_profile-1000-tau.dat", .create⟩,
      ⟨"dyn_profile-1500-tau.dat", .create⟩, ⟨"dyn_profile-2000-tau.dat", .create⟩,
      ⟨"dyn_profile-2500-tau.dat", .create⟩, ⟨"dyn_profile-3000-tau.dat", .create⟩,
      ⟨"dyn_profile-3500-tau.dat", .create⟩, ⟨"dyn_profile-4000-tau.dat", .create⟩]
  | _ => []

/-- The files opened by an event.  src/spinchain.rs:197-206 and src/spinchain_langevin.rs:189-192: log
files are made with `File::create`; src/obs.rs:938, 1009, 1074, 1257, 1322: `fs::write` of `config.toml`;
src/main.rs:189-193, 207-211, 234-238, 266-270, 294-298, 316-320, 366-370: `main` appends. -/
def Event.opened (disp : F → String) : Event F → List Opened
  | .call f c => f.outputs disp c
  | .append file _ => [⟨file, .append⟩]
  | .create n => [⟨n, .create⟩]
  | .save _ => [⟨"config.toml", .create⟩]

/-- the lines of the files, by name -/
abbrev Store := String → Option (List String)

/-- What can be done through a handle: a line at the end of the file (`writeln!` on a file opened for
appending), or anything at all to a file opened with `File::create`. -/
inductive FileOp where
  | line (name : String) (text : String)
  | put (name : String) (lines : List String)

/-- the store after an operation -/
def FileOp.run (s : Store) : FileOp → Store
  | .line n x => fun m => if m = n then some ((s n).getD [] ++ [x]) else s m
  | .put n l => fun m => if m = n then some l else s m

/-- the operation goes through a handle of one of the files -/
def FileOp.allowed (l : List Opened) : FileOp → Prop
  | .line n _ => ∃ m, ⟨n, m⟩ ∈ l
  | .put n _ => ⟨n, .create⟩ ∈ l

end Verif
