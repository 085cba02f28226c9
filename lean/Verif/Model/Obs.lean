/-
Transcription of the temperature searches and Monte-Carlo estimators of /repo/src/obs.rs
(lines 3-408).
-/
import Verif.Model.MagFull

namespace Verif

variable {F : Type} [Add F] [Sub F] [Mul F] [Div F] [Neg F] [OfScientific F] [FOps F]

/-- `while guard { body }`, making exactly `n` passes: `ok (some s)` if the loop ends in state `s`
after exactly `n` passes, `ok none` if it ends earlier or goes on longer, an error if one of the
first `n` passes panics. -/
def whileN {σ : Type} (guard : σ → Bool) (body : σ → R σ) : Nat → σ → R (Option σ)
  | 0, s => .ok (if guard s then none else some s)
  | n + 1, s => if guard s then do
      let s' ← body s
      whileN guard body n s'
    else .ok none

/-! ### Bisection -/

/-- The variables of the bisections (`e_low`, `e_high` are only printed) and the number of
estimates made so far. -/
structure Bisect (F : Type) where
  low : F
  mid : F
  high : F
  e_mid : F
  calls : Nat

/-- src/obs.rs:103-110 and the same lines of the other searches.  `est k beta` is the result of the
`k`-th estimate, made at `beta`. -/
def bisectInit (low high : F) (est : Nat → F → R F) : R (Bisect F) := do
  let mid := 0.5 * (low + high)
  let _e_low ← est 0 low
  let e_mid ← est 1 mid
  let _e_high ← est 2 high
  return { low, mid, high, e_mid, calls := 3 }

/-- src/obs.rs:115 `beta_high - beta_low > 0.001` -/
def bisectGuard (b : Bisect F) : Bool := flt 0.001 (b.high - b.low)

/-- src/obs.rs:117-127 -/
def bisectBody (target : F) (est : Nat → F → R F) (b : Bisect F) : R (Bisect F) := do
  let b' : Bisect F := if flt target b.e_mid then { b with low := b.mid } else { b with high := b.mid }
  let mid := 0.5 * (b'.low + b'.high)
  let e_mid ← est b.calls mid
  return { b' with mid, e_mid, calls := b.calls + 1 }

/-- The searches, src/obs.rs:101-277, with exactly `n` passes through the loop; the value returned
is `mid`. -/
def bisect (low high target : F) (est : Nat → F → R F) (n : Nat) : R (Option (Bisect F)) := do
  let b ← bisectInit low high est
  whileN bisectGuard (bisectBody target est) n b

/-! ### Estimators -/

/-- The random numbers of one estimate: those of `SpinChain::new` and one `Draw` per Metropolis
update (`ds i k`: update `k` before sample `i`). -/
structure Rand (F : Type) where
  u : Nat → F
  zj : Nat → F
  zh : Nat → F
  ds : Nat → Nat → Draw F

/-- `for _ in 0..n { sc.metropolis_update…(); }` -/
def sweeps (upd : SpinChain F → Draw F → R (SpinChain F)) (ds : Nat → Draw F) (n : Nat)
    (c : SpinChain F) : R (SpinChain F) :=
  forRange 0 n c fun k c => upd c (ds k)

/-- The sampling loop of the estimators (src/obs.rs:11-16): `samples` observations with `per`
updates before each. -/
def sampleLoop {α : Type} (upd : SpinChain F → Draw F → R (SpinChain F)) (per samples : Nat)
    (obs : SpinChain F → R α) (ds : Nat → Nat → Draw F) (c : SpinChain F) :
    R (SpinChain F × List α) :=
  forRange 0 samples (c, []) fun i st => do
    let c ← sweeps upd (ds i) per st.1
    let e ← obs c
    return (c, st.2 ++ [e])

/-- `v.iter().fold(0.0, |acc, x| acc + x) / (samples as f64)` (src/obs.rs:19) -/
def meanOf (xs : List F) (samples : Nat) : F := xs.foldl (fun acc x => acc + x) 0.0 / fofInt samples

/-- The common shape of the estimators. -/
def estimate (upd : SpinChain F → Draw F → R (SpinChain F)) (per samples : Nat)
    (obs : SpinChain F → R F) (conf : Config F) (beta : F) (r : Rand F) : R F := do
  let sc ← SpinChain.new conf 0 r.u r.zj r.zh
  let sc := { sc with vars := { sc.vars with beta } }
  let st ← sampleLoop upd per samples obs r.ds sc
  return meanOf st.2 samples

/-- src/obs.rs:3-20 `estim_e` -/
def estim_e (conf : Config F) (beta : F) (r : Rand F) : R F :=
  let omega := 2.0 * fpi / conf.tau
  estimate SpinChain.metropolis_update 1000 1000
    (fun sc => do return (← sc.mc_system_energy) + omega * (← sc.m).z / fofInt sc.vars.ssize)
    conf beta r

/-- src/obs.rs:22-39 `estim_e_maglab` -/
def estim_e_maglab (conf : Config F) (beta : F) (r : Rand F) : R F :=
  estimate SpinChain.metropolis_update_maglab 10000 1000 SpinChain.mc_system_energy_maglab conf beta r

/-- src/obs.rs:41-58 `estim_e_rot` -/
def estim_e_rot (conf : Config F) (beta : F) (r : Rand F) : R F :=
  estimate SpinChain.metropolis_update_rot_magnus 10000 1000 SpinChain.mc_system_energy_rot conf
    beta r

/-- src/obs.rs:59-78 `estim_e2` and 79-99 `estim_eh` (the same statements) -/
def estim_e2 (conf : Config F) (beta : F) (r : Rand F) : R F :=
  estimate SpinChain.metropolis_update 1000 1000 SpinChain.mc_total_energy conf beta r

/-- src/obs.rs:101-134 `find_betah`, 136-169 `find_beta2`; `rs k` are the random numbers of the
`k`-th estimate -/
def find_beta2 (conf : Config F) (rs : Nat → Rand F) (n : Nat) : R (Option (Bisect F)) :=
  bisect 0.01 5.0 conf.ednsty (fun k beta => estim_e2 conf beta (rs k)) n

/-- src/obs.rs:171-205 `find_beta_maglab` -/
def find_beta_maglab (conf : Config F) (rs : Nat → Rand F) (n : Nat) : R (Option (Bisect F)) :=
  bisect 0.0001 5.0 conf.ednsty (fun k beta => estim_e_maglab conf beta (rs k)) n

/-- src/obs.rs:207-241 `find_beta_rot` -/
def find_beta_rot (conf : Config F) (rs : Nat → Rand F) (n : Nat) : R (Option (Bisect F)) :=
  bisect 0.0001 5.0 conf.ednsty (fun k beta => estim_e_rot conf beta (rs k)) n

/-- src/obs.rs:243-277 `find_beta`; it sets `conf.ssize = conf.hsize` first (and leaves it so) -/
def find_beta (conf : Config F) (rs : Nat → Rand F) (n : Nat) : R (Option (Bisect F)) :=
  let conf := { conf with ssize := conf.hsize }
  bisect 0.01 5.0 conf.ednsty (fun k beta => estim_e conf beta (rs k)) n

/-! ### Observables -/

/-- The four numbers sampled by the `get_obs` family; `e` is the energy observable. -/
def obs4 (e : SpinChain F → R F) (sc : SpinChain F) : R (F × V3 F) := do
  let en ← e sc
  let m ← sc.m
  let s : F := fofInt sc.vars.ssize
  return (en, ⟨m.x / s, m.y / s, m.z / s⟩)

/-- The common shape of the `get_obs` family: `[e, mx, my, mz]`. -/
def getObs (upd : SpinChain F → Draw F → R (SpinChain F)) (per : Nat) (e : SpinChain F → R F)
    (conf : Config F) (r : Rand F) : R (F × V3 F) := do
  let conf := { conf with ssize := conf.hsize }
  let sc ← SpinChain.new conf 0 r.u r.zj r.zh
  let st ← sampleLoop upd per 8000 (obs4 e) r.ds sc
  return (meanOf (st.2.map fun p => p.1) 8000,
    ⟨meanOf (st.2.map fun p => p.2.x) 8000, meanOf (st.2.map fun p => p.2.y) 8000,
      meanOf (st.2.map fun p => p.2.z) 8000⟩)

/-- `sc.mc_system_energy() + sc.m()[0] / sc.vars.ssize as f64` (src/obs.rs:297, 337) -/
def labEnergy (sc : SpinChain F) : R F := do
  return (← sc.mc_system_energy) + (← sc.m).x / fofInt sc.vars.ssize

/-- src/obs.rs:279-311 `get_obs_maglab` -/
def get_obs_maglab (conf : Config F) (r : Rand F) : R (F × V3 F) :=
  getObs SpinChain.metropolis_update_maglab 10000 labEnergy conf r

/-- src/obs.rs:313-345 `get_obs_rot` -/
def get_obs_rot (conf : Config F) (r : Rand F) : R (F × V3 F) :=
  getObs SpinChain.metropolis_update_rot_magnus 10000 labEnergy conf r

/-- src/obs.rs:347-376 `get_obsh` -/
def get_obsh (conf : Config F) (r : Rand F) : R (F × V3 F) :=
  getObs SpinChain.metropolis_update 1000 SpinChain.mc_system_energy conf r

/-- src/obs.rs:378-408 `get_obs` -/
def get_obs (conf : Config F) (r : Rand F) : R (F × V3 F) :=
  let omega := 2.0 * fpi / conf.tau
  getObs SpinChain.metropolis_update 1000
    (fun sc => do return (← sc.mc_system_energy) + omega * (← sc.m).z / fofInt sc.vars.ssize)
    conf r

end Verif
