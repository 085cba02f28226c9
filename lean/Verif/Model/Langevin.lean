/-
Transcription of /repo/src/spinchain_langevin.rs.  Functions whose text is the same as in
/repo/src/spinchain.rs are taken from there (compared line by line with `diff`):
`solve_beta` (98-107), `sjs_energy` (436-445), `sh_energy` (449-455), `total_energy2` (457-486),
`total_energy` (490-535), `sum_vec` (538-540), `system_energy` (579-603), `m` (606-616), `h_ext`
(632-660), `h_extp` (663-690), `j_s` (692-694), `ssh_sum` (764-772), the macros `sq!`, `dot!`
(22-41) and `metropolis_update_magnus` (274-405).
-/
import Verif.Model.Metropolis

namespace Verif

variable {F : Type} [Add F] [Sub F] [Mul F] [Div F] [Neg F] [OfScientific F] [FOps F]

/-- src/spinchain_langevin.rs:51-66 `struct SpinChainLangevin`: the same fields as `SpinChain` and
the damping `gamma`.  The log file is always open. -/
structure LangevinChain (F : Type) extends SpinChain F where
  gamma : F

/-- The six standard normal numbers drawn in one update: three for the left edge, three for the
right edge. -/
structure Noise (F : Type) where
  l : V3 F
  r : V3 F

namespace LangevinChain

/-- src/spinchain_langevin.rs:114-205 `new`: the same draws and checks as `SpinChain::new`
(lines 119-189 agree with src/spinchain.rs:128-198), but the log file is always created. -/
def new (conf : Config F) (num : Nat) (gamma : F) (u zj zh : Nat → F) : R (LangevinChain F) := do
  let c ← SpinChain.new conf num u zj zh
  return { c with
           file := some (SpinChain.logName conf.file num)
           gamma }

/-- src/spinchain_langevin.rs:773-779 `cross` -/
def cross (l r : V3 F) (gamma : F) : V3 F :=
  ⟨gamma * (l.y * r.z - r.y * l.z), gamma * (l.z * r.x - r.z * l.x),
    gamma * (l.x * r.y - r.x * l.y)⟩

/-- Field on an edge spin `me` with the single neighbour `nb`: src/spinchain_langevin.rs:786-806
(left edge) and 829-846 (right edge). -/
def edgeField (gamma dt : F) (j : V3 F) (nb me : Spin F) (h noise : V3 F) : V3 F :=
  let dh : V3 F := ⟨noise.x / dt, noise.y / dt, noise.z / dt⟩
  let js := SpinChain.j_s j nb
  let omega_bare : V3 F := ⟨js.x - h.x, js.y - h.y, js.z - h.z⟩
  let llg := cross me.dir omega_bare (-gamma)
  SpinChain.ssh_sum omega_bare llg dh

/-- src/spinchain_langevin.rs:781-816 `even_omega` (the argument `delta_t` is not used there) -/
def evenOmega (gamma dt : F) (j_couple : List (V3 F)) (spins : List (Spin F)) (h : List (V3 F))
    (h_l : V3 F) : R (List (V3 F)) := do
  let l := spins.length / 2
  let j0 ← idx j_couple 0
  let s1 ← idx spins 1
  let h0 ← idx h 0
  let s0 ← idx spins 0
  let first := edgeField gamma dt j0 s1 s0 h0 h_l
  let rest ← mapRange 1 l fun n => do
    let left_s := SpinChain.j_s (← idx j_couple (2 * n - 1)) (← idx spins (2 * n - 1))
    let right_s := SpinChain.j_s (← idx j_couple (2 * n)) (← idx spins (2 * n + 1))
    return SpinChain.ssh_sum left_s right_s (← idx h (2 * n))
  return first :: rest

/-- src/spinchain_langevin.rs:817-849 `odd_omega` (the argument `delta_t` is not used there) -/
def oddOmega (gamma dt : F) (j_couple : List (V3 F)) (spins : List (Spin F)) (h : List (V3 F))
    (h_r : V3 F) : R (List (V3 F)) := do
  let l := spins.length / 2
  let l1 ← usub l 1
  let front ← mapRange 0 l1 fun n => do
    let left_s := SpinChain.j_s (← idx j_couple (2 * n)) (← idx spins (2 * n))
    let right_s := SpinChain.j_s (← idx j_couple (2 * n + 1)) (← idx spins (2 * n + 2))
    return SpinChain.ssh_sum left_s right_s (← idx h (2 * n + 1))
  let jl ← idx j_couple (2 * l1)
  let sl ← idx spins (2 * l1)
  let hl ← idx h (2 * l1 + 1)
  let me ← idx spins (2 * l1 + 1)
  return front ++ [edgeField gamma dt jl sl me hl h_r]

/-- `[h_normal.sample(&mut r), ..]` for three standard normal draws -/
def sample3 (sigma : F) (z : V3 F) : V3 F :=
  ⟨SpinChain.normalSample sigma z.x, SpinChain.normalSample sigma z.y,
    SpinChain.normalSample sigma z.z⟩

/-- src/spinchain_langevin.rs:697-747 `update` (with `rotate_even` 750-754 and `rotate_odd`
757-762) -/
def update (c : LangevinChain F) (z : Noise F) : R (LangevinChain F) := do
  let h_ext ← c.h_ext (c.t + c.vars.dt)
  let h := SpinChain.updateField c.static_h (asUsize c.vars.ssize) h_ext
  let sigma := fsqrt (2.0 * c.gamma * c.vars.dt / c.vars.beta)
  SpinChain.normalNew sigma
  let h_l := sample3 sigma z.l
  let h_r := sample3 sigma z.r
  let dt := c.vars.dt
  let even (spins : List (Spin F)) : R (List (Spin F)) := do
    SpinChain.rotateSub 0 spins (← evenOmega c.gamma dt c.j_couple spins h h_l) (dt / 2.0)
  let odd (spins : List (Spin F)) : R (List (Spin F)) := do
    SpinChain.rotateSub 1 spins (← oddOmega c.gamma dt c.j_couple spins h h_r) dt
  let spins ← even c.spins
  let spins ← odd spins
  let spins ← even spins
  return { c with
           spins
           t := c.t + c.vars.dt }

/-- successive calls of `update`, one for every element of the noise history -/
def updates : List (Noise F) → LangevinChain F → R (LangevinChain F)
  | [], c => .ok c
  | z :: zs, c => do
    let c' ← c.update z
    updates zs c'

/-- src/spinchain_langevin.rs:208-262 `metropolis_update`: no field is read -/
def metropolis_update (c : LangevinChain F) (d : Draw F) : R (LangevinChain F) := do
  let s := asUsize c.vars.hsize
  let index ← genRange s d.site
  let s_c ← idx c.spins index
  let s_l ← idx c.spins (← leftIdx s index)
  let s_r ← idx c.spins (← rightIdx s index)
  let j_l ← idx c.j_couple (← leftIdx s index)
  let j_r ← idx c.j_couple index
  let n : Nbhd1 F := { s_l, s_c, s_r, j_l, j_r, h := ⟨0.0, 0.0, 0.0⟩ }
  let new_spin := SpinChain.proposal d.u1 d.u2
  let c' ← c.toSpinChain.finish index new_spin (SpinChain.metroDe n new_spin) d.u3
  return { c' with
           gamma := c.gamma }

/-- src/spinchain_langevin.rs:274-405 `metropolis_update_magnus` -/
def metropolis_update_magnus (c : LangevinChain F) (d : Draw F) : R (LangevinChain F) := do
  let c' ← c.toSpinChain.metropolis_update_magnus d
  return { c' with
           gamma := c.gamma }

/-- src/spinchain_langevin.rs:619-629 `m_tot`: all spins, whatever `hsize` says -/
def m_tot (c : LangevinChain F) : V3 F :=
  c.spins.foldl (fun acc x => ⟨acc.x + x.dir.x, acc.y + x.dir.y, acc.z + x.dir.z⟩) ⟨0.0, 0.0, 0.0⟩

/-- src/spinchain_langevin.rs:543-576 `boundary_term` -/
def boundary_term (c : LangevinChain F) : R F := do
  let ell := asUsize c.vars.ssize
  let s0 ← idx c.spins 0
  let s1sq := SpinChain.sqMacro s0.dir
  let ell1 ← usub ell 1
  let sl ← idx c.spins ell1
  let slsq := SpinChain.sqMacro sl.dir
  let h_e ← c.h_ext c.t
  let js1 := SpinChain.j_s (← idx c.j_couple 0) (← idx c.spins 1)
  let om_1 : V3 F := ⟨js1.x - h_e.x, js1.y - h_e.y, js1.z - h_e.z⟩
  let om_1_sq := SpinChain.sqMacro om_1
  let oms1 := SpinChain.dotMacro om_1 s0.dir
  let ell2 ← usub ell 2
  let jsl := SpinChain.j_s (← idx c.j_couple ell2) (← idx c.spins ell2)
  let om_ell : V3 F := ⟨jsl.x - h_e.x, jsl.y - h_e.y, jsl.z - h_e.z⟩
  let om_ell_sq := SpinChain.sqMacro om_ell
  let omsell := SpinChain.dotMacro om_ell sl.dir
  let m ← c.m
  let h_ep := c.h_extp c.t
  return 2.0 * c.gamma / c.vars.beta * (oms1 + omsell)
    - c.gamma * (s1sq * om_1_sq - oms1 * oms1 + slsq * om_ell_sq - omsell * omsell)
    + 2.0 * fpi * SpinChain.dotMacro h_ep m / c.vars.tau

/-- src/spinchain_langevin.rs:407-433 `log`: the row written -/
def log (c : LangevinChain F) : R (List F) := do
  let e ← c.system_energy
  let es := e
  let m ← c.m
  let mt := c.m_tot
  let s : F := fofInt c.vars.ssize
  let boundary_term ← c.boundary_term
  return [c.t, es, e, m.x / s, m.y / s, m.z / s, mt.z / fofInt c.vars.hsize, boundary_term]

end LangevinChain

end Verif
