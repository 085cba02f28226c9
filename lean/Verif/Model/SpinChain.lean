/-
Transcription of /repo/src/spinchain.rs, except the Metropolis updates
(Verif/Model/Metropolis.lean, Verif/Model/MagFull.lean) and `read_config`
(Verif/Model/Main.lean).
-/
import Verif.Model.Spin
import Verif.Model.Config

namespace Verif

variable {F : Type} [Add F] [Sub F] [Mul F] [Div F] [Neg F] [OfScientific F] [FOps F]

/-- src/spinchain.rs:60-76 `struct SpinChain`.  The log file handle is represented by its name. -/
structure SpinChain (F : Type) where
  j_couple : List (V3 F)
  static_h : List (V3 F)
  spins : List (Spin F)
  t : F
  vars : Config F
  file : Option String
  deriving DecidableEq

/-! ### Inverse temperature from energy density -/

/-- One pass through the body of the `while` loop of `solve_beta`
(src/spinchain.rs:111-114): `(beta, beta2) ↦ (1/(e + 1/tanh beta), beta)`. -/
def solveBetaStep (e : F) (p : F × F) : F × F := (1.0 / (e + 1.0 / ftanh p.1), p.1)

/-- The loop condition (src/spinchain.rs:111) `(beta - beta2).abs() > 0.01`. -/
def solveBetaCond (p : F × F) : Bool := flt 0.01 (fabs (p.1 - p.2))

/-- The `while` loop with an explicit step budget; `none` means the budget was not enough. -/
def solveBetaLoop (e : F) : Nat → F × F → Option F
  | 0, _ => none
  | n + 1, p => if solveBetaCond p then solveBetaLoop e n (solveBetaStep e p) else some p.1

/-- src/spinchain.rs:107-116 `solve_beta`, as a relation: the loop started from
`beta = 20, beta2 = 10` terminates and returns `b`. -/
def SolveBeta (e b : F) : Prop := ∃ n, solveBetaLoop e n (20.0, 10.0) = some b

namespace SpinChain

/-! ### Construction -/

/-- The closure of src/spinchain.rs:142-165: one step of the spin generation.  State: current
`(theta, phi)`; `u1 u2 u3` are the three uniform draws in the order of sampling. -/
def newSpinStep (beta : F) (st : F × F) (u1 u2 u3 : F) : R ((F × F) × Spin F) := do
  let beta_eff := beta
  let b_e := fexp beta_eff
  let b_ei := 1.0 / b_e
  let theta_perp := 2.0 * fpi * u1
  let phi_perp := facos (1.0 - 2.0 * u2)
  let rot_dir : V3 F :=
    ⟨fcos theta_perp * fsin phi_perp, fsin theta_perp * fsin phi_perp, fcos phi_perp⟩
  let rot_angle := facos (fln (b_e - u3 * (b_e - b_ei)) / beta_eff)
  let n := Spin.rot_perp st rot_dir rot_angle
  let theta := n.1
  let phi := n.2
  let sp ← Spin.new_xyz [fcos theta * fsin phi, fsin theta * fsin phi, fcos phi]
  return ((theta, phi), sp)

/-- src/spinchain.rs:141-166: the spins of a new chain, draw `u (3*x), u (3*x+1), u (3*x+2)` for
site `x`. -/
def newSpins (beta : F) (u : Nat → F) (hsize : Nat) : R (List (Spin F)) := do
  let r ← forRange 0 hsize ((((0.01 : F), (fpi / 2.0 : F)), ([] : List (Spin F)))) fun x acc => do
    let (st, sp) ← newSpinStep beta acc.1 (u (3 * x)) (u (3 * x + 1)) (u (3 * x + 2))
    return (st, acc.2 ++ [sp])
  return r.2

/-- `Normal::new(0.0, std_dev).unwrap().sample(rng)` for the standard normal draw `z`
(rand_distr 0.4: `mean + std_dev * z`). -/
def normalSample (std_dev z : F) : F := 0.0 + std_dev * z

/-- `Normal::new(0.0, std_dev).unwrap()` (rand_distr 0.4: error if `std_dev` is not finite) -/
def normalNew (std_dev : F) : R Unit :=
  if fisFinite std_dev then .ok () else .error .badVariance

/-- src/spinchain.rs:171-179: couplings, standard normal draws `z (3x), z (3x+1), z (3x+2)`. -/
def newCouplings (lambda jvar : F) (z : Nat → F) (hsize : Nat) : R (List (V3 F)) :=
  mapRange 0 hsize fun x =>
    .ok ⟨1.0 + normalSample jvar (z (3 * x)), 1.0 + normalSample jvar (z (3 * x + 1)),
      lambda + normalSample jvar (z (3 * x + 2))⟩

/-- src/spinchain.rs:183-196: static fields. -/
def newFields (hfield hs : List F) (ssize : Int) (hvar : F) (z : Nat → F) (hsize : Nat) :
    R (List (V3 F)) :=
  mapRange 0 hsize fun x => do
    if (x : Int) < ssize then
      let a0 ← idx hfield 0
      let b0 ← idx hs 0
      let a1 ← idx hfield 1
      let b1 ← idx hs 1
      let a2 ← idx hfield 2
      let b2 ← idx hs 2
      return ⟨a0 + b0 + normalSample hvar (z (3 * x)),
        a1 + b1 + normalSample hvar (z (3 * x + 1)),
        a2 + b2 + normalSample hvar (z (3 * x + 2))⟩
    else
      let a0 ← idx hfield 0
      let a1 ← idx hfield 1
      let a2 ← idx hfield 2
      return ⟨a0 + normalSample hvar (z (3 * x)), a1 + normalSample hvar (z (3 * x + 1)),
        a2 + normalSample hvar (z (3 * x + 2))⟩

/-- src/spinchain.rs:197-198: name of the log file. -/
def logName (file : String) (num : Nat) : String := file ++ toString num ++ ".dat"

/-- src/spinchain.rs:123-218 `SpinChain::new`.  `u` are the uniform draws (three per site), `zj`
and `zh` the standard normal draws for couplings and fields (three per site each).  A negative
`hsize` makes `(0..hsize as usize).collect()` ask for an impossible capacity.  `File::create` is
assumed to succeed (its effect on the file system is modelled in Verif/Model/Main.lean). -/
def new (conf : Config F) (num : Nat) (u zj zh : Nat → F) : R (SpinChain F) := do
  if conf.hsize < 0 then throw .capacity
  let spins ← newSpins conf.beta u (asUsize conf.hsize)
  normalNew conf.jvar
  let j_couple ← newCouplings conf.lambda conf.jvar zj conf.hsize.toNat
  normalNew conf.hvar
  let static_h ← newFields conf.hfield conf.hs conf.ssize conf.hvar zh conf.hsize.toNat
  let file := if conf.log then some (logName conf.file num) else none
  return { vars := conf, spins, j_couple, static_h, t := -conf.trel, file }

/-! ### Small helpers -/

/-- src/spinchain.rs:1345-1347 `sum_vec` (all callers pass arrays of three) -/
def sum_vec (a b : V3 F) : V3 F := ⟨a.x + b.x, a.y + b.y, a.z + b.z⟩

/-- src/spinchain.rs:1742-1744 `j_s` -/
def j_s (j : V3 F) (s : Spin F) : V3 F := ⟨j.x * s.dir.x, j.y * s.dir.y, j.z * s.dir.z⟩

/-- src/spinchain.rs:1817-1826 `ssh_sum` -/
def ssh_sum (l r h : V3 F) : V3 F := ⟨l.x + r.x - h.x, l.y + r.y - h.y, l.z + r.z - h.z⟩

/-- src/spinchain.rs:1243-1252 `sjs_energy` -/
def sjs_energy (spin1 spin2 : Spin F) (j : V3 F) : F :=
  for3 (0.0 : F) fun i sjs => sjs + spin1.dir.get i * j.get i * spin2.dir.get i

/-- src/spinchain.rs:1256-1262 `sh_energy` -/
def sh_energy (spin : Spin F) (field : V3 F) : F :=
  for3 (0.0 : F) fun i sh => sh + spin.dir.get i * field.get i

/-- macro `sq!` on one argument, src/spinchain.rs:31-37 -/
def sqMacro (v : V3 F) : F := 0.0 + (0.0 + v.x * v.x + v.y * v.y + v.z * v.z)

/-- macro `dot!` on two arguments, src/spinchain.rs:39-50 -/
def dotMacro (a b : V3 F) : F :=
  1.0 * a.x * b.x + 1.0 * a.y * b.y + 1.0 * a.z * b.z

/-- src/spinchain.rs:1712-1740 `h_ext` -/
def h_ext (c : SpinChain F) (t : F) : R (V3 F) :=
  match c.vars.drive with
  | .xyplane =>
    let phi := 2.0 * fpi * t / c.vars.tau
    return ⟨fcos phi, fsin phi, 0.0⟩
  | .uniaxial =>
    let phi := 2.0 * fpi * t / c.vars.tau
    return ⟨fcos phi, 0.0, 0.0⟩
  | .xyelliptic =>
    let phi := 2.0 * fpi * t / c.vars.tau
    return ⟨fcos phi, c.vars.e * fsin phi, 0.0⟩
  | .staticfield => do
    return ⟨← idx c.vars.hs 0, ← idx c.vars.hs 1, ← idx c.vars.hs 2⟩
  | .none => return ⟨0.0, 0.0, 0.0⟩

/-- src/spinchain.rs:1385-1412 `h_extp` -/
def h_extp (c : SpinChain F) (t : F) : V3 F :=
  match c.vars.drive with
  | .xyplane =>
    let phi := 2.0 * fpi * t / c.vars.tau
    ⟨-fsin phi, fcos phi, 0.0⟩
  | .uniaxial =>
    let phi := 2.0 * fpi * t / c.vars.tau
    ⟨-fsin phi, 0.0, 0.0⟩
  | .xyelliptic =>
    let phi := 2.0 * fpi * t / c.vars.tau
    ⟨-fsin phi, c.vars.e * fcos phi, 0.0⟩
  | .staticfield => ⟨0.0, 0.0, 0.0⟩
  | .none => ⟨0.0, 0.0, 0.0⟩

/-! ### Energies -/

/-- Body of the bond+field loops of src/spinchain.rs:1279-1282, 1286-1289, 1431-1434, 1453-1456,
1459-1462, 1672-1675, 1678-1681:
`for k in 0..3 { e -= s1.dir[k]*j[k]*s2.dir[k]; e += s1.dir[k]*h[k]; }`. -/
def bondField (s1 s2 : Spin F) (j h : V3 F) (e : F) : F :=
  for3 e fun k e =>
    let e := e - s1.dir.get k * j.get k * s2.dir.get k
    e + s1.dir.get k * h.get k

/-- src/spinchain.rs:1264-1293 `total_energy2` -/
def total_energy2 (c : SpinChain F) : R F := do
  let l := asUsize c.vars.hsize
  let h_e ← c.h_ext c.t
  let hfield ← mapRange 0 l fun x => do
    let sh ← idx c.static_h x
    if x < asUsize c.vars.ssize then return sum_vec sh h_e else return sh
  let l1 ← usub l 1
  let e ← forRange 0 l1 (0.0 : F) fun j e => do
    return bondField (← idx c.spins j) (← idx c.spins (j + 1)) (← idx c.j_couple j)
      (← idx hfield j) e
  let e := bondField (← idx c.spins l1) (← idx c.spins 0) (← idx c.j_couple l1)
    (← idx hfield l1) e
  return e / fofInt c.vars.hsize

/-- src/spinchain.rs:1297-1342 `total_energy` -/
def total_energy (c : SpinChain F) : R F := do
  let s := asUsize c.vars.hsize
  let ss := asUsize c.vars.ssize
  let s1 ← usub s 1
  let sjs ← forRange 0 s1 (0.0 : F) fun i sjs => do
    return sjs - sjs_energy (← idx c.spins i) (← idx c.spins (i + 1)) (← idx c.j_couple i)
  let sjs := sjs - sjs_energy (← idx c.spins s1) (← idx c.spins 0) (← idx c.j_couple s1)
  let sh ← forRange 0 s (0.0 : F) fun i sh => do
    return sh + sh_energy (← idx c.spins i) (← idx c.static_h i)
  let h_e ← c.h_ext c.t
  let sh ← forRange 0 ss sh fun i sh => do
    return sh + sh_energy (← idx c.spins i) h_e
  return (sjs + sh) / fofInt s

/-- src/spinchain.rs:1415-1439 `system_energy` -/
def system_energy (c : SpinChain F) : R F := do
  let s := asUsize c.vars.ssize
  let h_e ← c.h_ext c.t
  let h ← mapRange 0 s fun x => do return sum_vec (← idx c.static_h x) h_e
  let s1 ← usub s 1
  let e ← forRange 0 s1 (0.0 : F) fun i e => do
    return bondField (← idx c.spins i) (← idx c.spins (i + 1)) (← idx c.j_couple i) (← idx h i) e
  return e / fofInt s1

/-- The common body of `mc_total_energy` and `mc_system_energy` (they differ in the size only). -/
def mcEnergy (c : SpinChain F) (s : Nat) : R F := do
  let s1 ← usub s 1
  let e ← forRange 0 s1 (0.0 : F) fun i e => do
    return bondField (← idx c.spins i) (← idx c.spins (i + 1)) (← idx c.j_couple i)
      (← idx c.static_h i) e
  let e := bondField (← idx c.spins s1) (← idx c.spins 0) (← idx c.j_couple s1)
    (← idx c.static_h s1) e
  return e / fofInt s

/-- src/spinchain.rs:1441-1465 `mc_total_energy` -/
def mc_total_energy (c : SpinChain F) : R F := c.mcEnergy (asUsize c.vars.hsize)

/-- src/spinchain.rs:1660-1684 `mc_system_energy` -/
def mc_system_energy (c : SpinChain F) : R F := c.mcEnergy (asUsize c.vars.ssize)

/-- `self.spins[..n].iter().fold([0,0,0], ..)`, src/spinchain.rs:1691-1696, 1703-1708; slicing
past the end panics. -/
def magSum (spins : List (Spin F)) (n : Nat) : R (V3 F) :=
  if n ≤ spins.length then
    .ok ((spins.take n).foldl
      (fun acc x => ⟨acc.x + x.dir.x, acc.y + x.dir.y, acc.z + x.dir.z⟩) ⟨0.0, 0.0, 0.0⟩)
  else .error .indexOOB

/-- src/spinchain.rs:1687-1697 `m` -/
def m (c : SpinChain F) : R (V3 F) := magSum c.spins (asUsize c.vars.ssize)

/-- src/spinchain.rs:1699-1709 `m_tot` -/
def m_tot (c : SpinChain F) : R (V3 F) := magSum c.spins (asUsize c.vars.hsize)

/-- src/spinchain.rs:1350-1382 `boundary_term` -/
def boundary_term (c : SpinChain F) : R F := do
  let ell := asUsize c.vars.ssize
  let s0 ← idx c.spins 0
  let s1sq := sqMacro s0.dir
  let ell1 ← usub ell 1
  let sl ← idx c.spins ell1
  let slsq := sqMacro sl.dir
  let h_el ← idx c.static_h 0
  let h_er ← idx c.static_h ell1
  let js1 := j_s (← idx c.j_couple 0) (← idx c.spins 1)
  let om_1 : V3 F := ⟨js1.x - h_el.x, js1.y - h_el.y, js1.z - h_el.z⟩
  let om_1_sq := sqMacro om_1
  let oms1 := dotMacro om_1 s0.dir
  let ell2 ← usub ell 2
  let jsl := j_s (← idx c.j_couple ell2) (← idx c.spins ell2)
  let om_ell : V3 F := ⟨jsl.x - h_er.x, jsl.y - h_er.y, jsl.z - h_er.z⟩
  let om_ell_sq := sqMacro om_ell
  let omsell := dotMacro om_ell sl.dir
  let _m ← c.m
  return 2.0 / c.vars.beta * (oms1 + omsell)
    - (s1sq * om_1_sq - oms1 * oms1 + slsq * om_ell_sq - omsell * omsell)

/-! ### Time evolution -/

/-- src/spinchain.rs:1829-1849 `even_omega` (`j_couple`, `spins` are the fields of `self`) -/
def evenOmega (j_couple : List (V3 F)) (spins : List (Spin F)) (h : List (V3 F)) :
    R (List (V3 F)) := do
  let l := spins.length / 2
  let i0 ← usub (2 * l) 1
  let left_s := j_s (← idx j_couple i0) (← idx spins i0)
  let right_s := j_s (← idx j_couple 0) (← idx spins 1)
  let first := ssh_sum left_s right_s (← idx h 0)
  let rest ← mapRange 1 l fun n => do
    let left_s := j_s (← idx j_couple (2 * n - 1)) (← idx spins (2 * n - 1))
    let right_s := j_s (← idx j_couple (2 * n)) (← idx spins (2 * n + 1))
    return ssh_sum left_s right_s (← idx h (2 * n))
  return first :: rest

/-- src/spinchain.rs:1850-1870 `odd_omega` -/
def oddOmega (j_couple : List (V3 F)) (spins : List (Spin F)) (h : List (V3 F)) :
    R (List (V3 F)) := do
  let l := spins.length / 2
  let l1 ← usub l 1
  let front ← mapRange 0 l1 fun n => do
    let left_s := j_s (← idx j_couple (2 * n)) (← idx spins (2 * n))
    let right_s := j_s (← idx j_couple (2 * n + 1)) (← idx spins (2 * n + 2))
    return ssh_sum left_s right_s (← idx h (2 * n + 1))
  let left_s := j_s (← idx j_couple (2 * l1)) (← idx spins (2 * l1))
  let right_s := j_s (← idx j_couple (2 * l1 + 1)) (← idx spins 0)
  let last := ssh_sum left_s right_s (← idx h (2 * l1 + 1))
  return front ++ [last]

/-- `spins[i].rotate(item, dt)` in place -/
def rotateAt (spins : List (Spin F)) (i : Nat) (item : V3 F) (dt : F) : R (List (Spin F)) := do
  let s ← idx spins i
  setIdx spins i (s.rotate item dt)

/-- src/spinchain.rs:1802-1806 `rotate_even` (with `off = 0`) and 1810-1815 `rotate_odd` (with
`off = 1`): `for (i, item) in field.iter().enumerate() { spins[2*i+off].rotate(item, dt) }`. -/
def rotateSub (off : Nat) (spins : List (Spin F)) (field : List (V3 F)) (dt : F) :
    R (List (Spin F)) :=
  field.zipIdx.foldlM (fun sp (p : V3 F × Nat) => rotateAt sp (2 * p.2 + off) p.1 dt) spins

/-- The three Suzuki–Trotter sub-steps, src/spinchain.rs:1764-1768 and 1791-1795. -/
def trotter (j_couple : List (V3 F)) (h : List (V3 F)) (dt : F) (spins : List (Spin F)) :
    R (List (Spin F)) := do
  let spins ← rotateSub 0 spins (← evenOmega j_couple spins h) (dt / 2.0)
  let spins ← rotateSub 1 spins (← oddOmega j_couple spins h) dt
  rotateSub 0 spins (← evenOmega j_couple spins h) (dt / 2.0)

/-- Field of src/spinchain.rs:1780-1789: static field, plus the drive on the subsystem. -/
def updateField (static_h : List (V3 F)) (s : Nat) (h_ext : V3 F) : List (V3 F) :=
  static_h.zipIdx.map fun p => if p.2 < s then sum_vec p.1 h_ext else p.1

/-- Field of src/spinchain.rs:1753-1762: the drive on the subsystem, zero elsewhere. -/
def updateFieldNoStatic (static_h : List (V3 F)) (s : Nat) (h_ext : V3 F) : List (V3 F) :=
  static_h.zipIdx.map fun p => if p.2 < s then h_ext else ⟨0.0, 0.0, 0.0⟩

/-- src/spinchain.rs:1774-1798 `update` -/
def update (c : SpinChain F) : R (SpinChain F) := do
  let h_ext ← c.h_ext (c.t + c.vars.dt / 2.0)
  let h := updateField c.static_h (asUsize c.vars.ssize) h_ext
  let spins ← trotter c.j_couple h c.vars.dt c.spins
  return { c with spins, t := c.t + c.vars.dt }

/-- src/spinchain.rs:1747-1771 `update_no_field` -/
def update_no_field (c : SpinChain F) : R (SpinChain F) := do
  let h_ext ← c.h_ext (c.t + c.vars.dt / 2.0)
  let h := updateFieldNoStatic c.static_h (asUsize c.vars.ssize) h_ext
  let spins ← trotter c.j_couple h c.vars.dt c.spins
  return { c with spins, t := c.t + c.vars.dt }

/-- `n` successive calls of `update` -/
def updates : Nat → SpinChain F → R (SpinChain F)
  | 0, c => .ok c
  | n + 1, c => do
    let c' ← c.update
    updates n c'

/-! ### Spectrum and logging -/

/-- Contract assumed for `rustfft`'s forward transform of length `l` applied to real input `xs`:
mode `n` is `Σ_j xs_j e^{-2πi nj/l}`, as (real part, imaginary part). -/
def dft (xs : List F) (l n : Nat) : F × F :=
  xs.zipIdx.foldl (fun acc p =>
    let a := 2.0 * fpi * fofInt (n * p.2 : Nat) / fofInt l
    (acc.1 + p.1 * fcos a, acc.2 - p.1 * fsin a)) (0.0, 0.0)

/-- Power of mode `i`: src/spinchain.rs:1198-1203, 1208-1213 -/
def modePower (spins : List (Spin F)) (l i : Nat) : F :=
  let x := dft (spins.map fun s => s.dir.x) l i
  let y := dft (spins.map fun s => s.dir.y) l i
  let z := dft (spins.map fun s => s.dir.z) l i
  x.1 * x.1 + x.2 * x.2 + y.1 * y.1 + y.2 * y.2 + z.1 * z.1 + z.2 * z.2

/-- src/spinchain.rs:1155-1217 `energy_spectrum`.  `process` panics if the buffer is not a
multiple of the planned length; the model demands equality (the only case that occurs in a
well-formed chain). -/
def energy_spectrum (c : SpinChain F) : R (List F) := do
  let l := asUsize c.vars.hsize
  if c.spins.length ≠ l then throw .unwrap
  let ek := List.replicate l (0.0 : F)
  let ek ← forRange (l / 2) l ek fun i ek => setIdx ek (i - l / 2) (modePower c.spins l i)
  forRange 0 (l / 2) ek fun i ek => setIdx ek (i + l / 2) (modePower c.spins l i)

/-- src/spinchain.rs:1112-1151 `log`: the row written (if a log file is open).  The final
`log_fft` (src/spinchain.rs:1219-1240) writes nothing; only its possible panic is kept. -/
def log (c : SpinChain F) : R (Option (List F)) := do
  let e ← c.system_energy
  let es ← c.total_energy2
  let m ← c.m
  let mt ← c.m_tot
  let s : F := fofInt c.vars.ssize
  let sm ← idx c.spins (ftoNat (s / 4.0))
  let sp ← idx c.spins (ftoNat (3.0 * s / 4.0))
  let row := [c.t, es, e, m.x / s, m.y / s, m.z / s, mt.z / fofInt c.vars.hsize,
    sm.dir.x, sm.dir.y, sm.dir.z, sp.dir.x, sp.dir.y, sp.dir.z]
  if flt (fabs (fsin (fpi * c.t / (100.0 * c.vars.tau)))) (c.vars.dt / (20.0 * fpi)) then
    let _ ← c.energy_spectrum
  return if c.file.isSome then some row else none

/-- One line of `log_ext`, src/spinchain.rs:1084-1096: `[j, e_loc, mx, my, mz]`, preceded by the
time. -/
def logExtRow (c : SpinChain F) (h : List (V3 F)) (j : Nat) : R (F × Nat × F × V3 F) := do
  let sm ← idx c.spins (j - 1)
  let jm ← idx c.j_couple (j - 1)
  let s ← idx c.spins j
  let jj ← idx c.j_couple j
  let sp ← idx c.spins (j + 1)
  let hj ← idx h j
  let e_loc := for3 (0.0 : F) fun k e_loc =>
    let e_loc := e_loc - 0.5 * (sm.dir.get k * jm.get k * s.dir.get k
      + s.dir.get k * jj.get k * sp.dir.get k)
    if j < asUsize c.vars.ssize then e_loc + hj.get k * s.dir.get k else e_loc
  return (c.t, j, e_loc, s.dir)

/-- src/spinchain.rs:1070-1110 `log_ext`: the rows written (an empty line follows). -/
def log_ext (c : SpinChain F) : R (List (F × Nat × F × V3 F)) := do
  let h_e ← c.h_ext c.t
  let h ← mapRange 0 (asUsize c.vars.ssize) fun x => do
    return sum_vec (← idx c.static_h x) h_e
  let top := min h.length (asUsize (c.vars.hsize - 1))
  mapRange 1 top fun j => logExtRow c h j

end SpinChain

end Verif
