/-
Transcription of the Metropolis updates of /repo/src/spinchain.rs (lines 219-494 and 939-1069;
`metropolis_update_mag_full` is in Verif/Model/MagFull.lean) and of the Magnus energies
`mc_system_energy_maglab`, `mc_system_energy_rot` (lines 1466-1658).
-/
import Verif.Model.SpinChain

namespace Verif

variable {F : Type} [Add F] [Sub F] [Mul F] [Div F] [Neg F] [OfScientific F] [FOps F]

/-- The random numbers consumed by one Metropolis update: the raw word from which `gen_range`
picks the site, two uniforms for the proposed direction, one for the acceptance. -/
structure Draw (F : Type) where
  site : Nat
  u1 : F
  u2 : F
  u3 : F

/-- `rng.gen_range(0..s)`: panics on an empty range, otherwise returns a value below `s`
(every such value is returned for some raw word; nothing else is used about it). -/
def genRange (s raw : Nat) : R Nat :=
  if s = 0 then .error .emptyRange else .ok (raw % s)

/-- Index of the left neighbour: `match index { 0 => s - 1, _ => index - 1 }`
(src/spinchain.rs:238-241 and elsewhere) -/
def leftIdx (s i : Nat) : R Nat := if i = 0 then usub s 1 else .ok (i - 1)

/-- Index of the right neighbour: `match index { s - 1 => 0, _ => index + 1 }`
(src/spinchain.rs:243-246 and elsewhere) -/
def rightIdx (s i : Nat) : R Nat := do
  let s1 ← usub s 1
  if i = s1 then return 0 else return i + 1

/-- Index two to the left (src/spinchain.rs:308-312 and elsewhere) -/
def left2Idx (s i : Nat) : R Nat :=
  if i = 0 then usub s 2 else if i = 1 then usub s 1 else .ok (i - 2)

/-- Index two to the right (src/spinchain.rs:319-323 and elsewhere) -/
def right2Idx (s i : Nat) : R Nat := do
  let s2 ← usub s 2
  if i = s2 then return 0
  else
    let s1 ← usub s 1
    if i = s1 then return 1 else return i + 2

/-- The spins and couplings around site `j` read by the updates. -/
structure Nbhd1 (F : Type) where
  s_l : Spin F
  s_c : Spin F
  s_r : Spin F
  j_l : V3 F
  j_r : V3 F
  h : V3 F

/-- The wider neighbourhood read by the Magnus updates.  `j_jm2` couples sites `j-2, j-1`, and so
on up to `j_jp1` which couples `j+1, j+2`. -/
structure Nbhd (F : Type) where
  s_jm2 : Spin F
  s_jm1 : Spin F
  s_j : Spin F
  s_jp1 : Spin F
  s_jp2 : Spin F
  j_jm2 : V3 F
  j_jm1 : V3 F
  j_j : V3 F
  j_jp1 : V3 F

namespace SpinChain

/-- Reads of src/spinchain.rs:232-253 and 448-469. -/
def nbhd1 (c : SpinChain F) (s index : Nat) : R (Nbhd1 F) := do
  let h ← idx c.static_h index
  let s_c ← idx c.spins index
  let s_l ← idx c.spins (← leftIdx s index)
  let s_r ← idx c.spins (← rightIdx s index)
  let j_l ← idx c.j_couple (← leftIdx s index)
  let j_r ← idx c.j_couple index
  return { s_l, s_c, s_r, j_l, j_r, h }

/-- Reads of src/spinchain.rs:299-341, 519-557, 947-986, 1510-1545 and 1610-1645. -/
def nbhd (c : SpinChain F) (s index : Nat) : R (Nbhd F) := do
  let s_j ← idx c.spins index
  let s_jm1 ← idx c.spins (← leftIdx s index)
  let s_jm2 ← idx c.spins (← left2Idx s index)
  let s_jp1 ← idx c.spins (← rightIdx s index)
  let s_jp2 ← idx c.spins (← right2Idx s index)
  let j_jm1 ← idx c.j_couple (← leftIdx s index)
  let j_jm2 ← idx c.j_couple (← left2Idx s index)
  let j_j ← idx c.j_couple index
  let j_jp1 ← idx c.j_couple (← rightIdx s index)
  return { s_jm2, s_jm1, s_j, s_jp1, s_jp2, j_jm2, j_jm1, j_j, j_jp1 }

/-- Proposed spin: src/spinchain.rs:265-267 and the same three lines in every update. -/
def proposal (u1 u2 : F) : Spin F :=
  let theta := 2.0 * fpi * u1
  let phi := facos (1.0 - 2.0 * u2)
  Spin.new_from_angles theta phi

/-- `de < 0.0 || unif.sample(&mut rng) < (-self.vars.beta * de).exp()`, src/spinchain.rs:280 and
the same line in every update. -/
def accept (beta de u : F) : Bool := flt de 0.0 || flt u (fexp (-beta * de))

/-- Accept/reject: src/spinchain.rs:280-282. -/
def finish (c : SpinChain F) (index : Nat) (new_spin : Spin F) (de u : F) : R (SpinChain F) := do
  if accept c.vars.beta de u then
    let spins ← setIdx c.spins index new_spin
    return { c with spins }
  else return c

/-- Energy difference of `metropolis_update`: src/spinchain.rs:471-486. -/
def metroDe (n : Nbhd1 F) (new_spin : Spin F) : F :=
  let ei := for3 (0.0 : F) fun k ei =>
    let ei := ei - (n.s_l.dir.get k * n.j_l.get k * n.s_c.dir.get k
      + n.s_r.dir.get k * n.j_r.get k * n.s_c.dir.get k)
    ei + n.s_c.dir.get k * n.h.get k
  for3 (-ei) fun k de =>
    let de := de - (n.s_l.dir.get k * n.j_l.get k * new_spin.dir.get k
      + n.s_r.dir.get k * n.j_r.get k * new_spin.dir.get k)
    de + new_spin.dir.get k * n.h.get k

/-- src/spinchain.rs:438-494 `metropolis_update` -/
def metropolis_update (c : SpinChain F) (d : Draw F) : R (SpinChain F) := do
  let s := asUsize c.vars.hsize
  let index ← genRange s d.site
  let n ← c.nbhd1 s index
  let new_spin := proposal d.u1 d.u2
  c.finish index new_spin (metroDe n new_spin) d.u3

/-- Energy difference of `metropolis_update_maglab`: src/spinchain.rs:254-276. -/
def maglabDe (om : F) (n : Nbhd1 F) (new_spin : Spin F) : F :=
  let ei := for3 (0.0 : F) fun k ei =>
    ei - (n.s_l.dir.get k * n.j_l.get k * n.s_c.dir.get k
      + n.s_r.dir.get k * n.j_r.get k * n.s_c.dir.get k)
  let ei := ei - n.s_c.dir.z / (2.0 * om)
  let de := for3 (-ei) fun k de =>
    de - (n.s_l.dir.get k * n.j_l.get k * new_spin.dir.get k
      + n.s_r.dir.get k * n.j_r.get k * new_spin.dir.get k)
  de - new_spin.dir.z / (2.0 * om)

/-- `let om: f64 = 2.0 * PI / self.vars.tau` -/
def om (c : SpinChain F) : F := 2.0 * fpi / c.vars.tau

/-- src/spinchain.rs:219-283 `metropolis_update_maglab` -/
def metropolis_update_maglab (c : SpinChain F) (d : Draw F) : R (SpinChain F) := do
  let s := asUsize c.vars.hsize
  let index ← genRange s d.site
  let n ← c.nbhd1 s index
  let new_spin := proposal d.u1 d.u2
  c.finish index new_spin (maglabDe c.om n new_spin) d.u3

/-- src/spinchain.rs:433-435 `zxi_trip` -/
def zxi_trip (s_z s_x s_i : Spin F) : F :=
  s_i.dir.z * (s_z.dir.x * s_x.dir.x + s_z.dir.y * s_x.dir.y)

/-- The accumulation `mg += ..` (seven statements), src/spinchain.rs:362-375 (with `s_c` the old
spin), 396-413 (with the new spin), 1531-1544 and 1634-1647 (inside the energy loops). -/
def mgAcc (n : Nbhd F) (s_c : Spin F) (mg : F) : F :=
  let j_r := n.j_j
  let j_l := n.j_jm1
  let j_ll := n.j_jm2
  let j_rr := n.j_jp1
  let s_l := n.s_jm1
  let s_ll := n.s_jm2
  let s_r := n.s_jp1
  let s_rr := n.s_jp2
  let mg := mg + (j_r.y - j_r.x) * (j_r.y - j_r.x) * zxi_trip s_c s_c s_r
  let mg := mg + (j_r.y - j_r.x) * (j_r.y - j_r.x) * zxi_trip s_r s_r s_c
  let mg := mg + (j_l.y - j_l.x) * (j_l.y - j_l.x) * zxi_trip s_l s_l s_c
  let mg := mg + (j_l.y - j_l.x) * (j_l.y - j_l.x) * zxi_trip s_c s_c s_l
  let mg := mg + (j_l.y - j_l.x) * (j_r.y - j_r.x)
    * (zxi_trip s_r s_l s_c + zxi_trip s_l s_r s_c)
  let mg := mg + (j_ll.y - j_ll.x) * (j_l.y - j_l.x)
    * (zxi_trip s_c s_ll s_l + zxi_trip s_ll s_c s_l)
  let mg := mg + (j_r.y - j_r.x) * (j_rr.y - j_rr.x)
    * (zxi_trip s_rr s_c s_r + zxi_trip s_c s_rr s_r)
  mg

/-- Energy of the centre spin in `metropolis_update_rot_magnus`, starting from `e0`:
src/spinchain.rs:343-377 (`e0 = 0`, old spin) and 384-415 (`e0 = -ei`, new spin); the two blocks
are the same statements. -/
def rotEnergy (om : F) (n : Nbhd F) (inSub : Bool) (s_c : Spin F) (e0 : F) : F :=
  let e := for2 e0 fun k e =>
    e - (n.s_jm1.dir.get k * 0.5 * (n.j_jm1.x + n.j_jm1.y) * s_c.dir.get k
      + n.s_jp1.dir.get k * 0.5 * (n.j_j.x + n.j_j.y) * s_c.dir.get k)
  let e := e - (n.s_jm1.dir.z * n.j_jm1.z * s_c.dir.z + n.s_jp1.dir.z * n.j_j.z * s_c.dir.z)
  let e := e + s_c.dir.x * (if inSub then 1.0 else 0.0)
  let e := e - om * s_c.dir.z
  e - mgAcc n s_c 0.0 / (16.0 * om)

/-- Energy difference of `metropolis_update_rot_magnus`: src/spinchain.rs:343-415. -/
def rotDe (om : F) (n : Nbhd F) (inSub : Bool) (new_spin : Spin F) : F :=
  let ei := rotEnergy om n inSub n.s_j 0.0
  rotEnergy om n inSub new_spin (-ei)

/-- src/spinchain.rs:287-429 `metropolis_update_rot_magnus` -/
def metropolis_update_rot_magnus (c : SpinChain F) (d : Draw F) : R (SpinChain F) := do
  let s := asUsize c.vars.hsize
  let ss := asUsize c.vars.ssize
  let index ← genRange s d.site
  let _local_field ← idx c.static_h index
  let n ← c.nbhd s index
  let new_spin := proposal d.u1 d.u2
  c.finish index new_spin (rotDe c.om n (decide (index < ss)) new_spin) d.u3

/-- The bracket of src/spinchain.rs:1001-1022 (old spin, `s_c = s_j`) and 1039-1062 (new spin).
`sz` is the spin whose `dir[2]` stands in front: the code uses `s_j` in both places. -/
def magnusBracket (n : Nbhd F) (isFirst isLast : Bool) (sz s_c : Spin F) : F :=
  sz.dir.z + 2.0 *
    ((n.j_j.z * n.s_jp1.dir.z + n.j_jm1.z * n.s_jm1.dir.z) * s_c.dir.x
      - (n.j_j.x * n.s_jp1.dir.x + n.j_jm1.x * n.s_jm1.dir.x) * s_c.dir.z
      + (if isFirst then 0.0 else
          (n.j_jm1.z * s_c.dir.z + n.j_jm2.z * n.s_jm2.dir.z) * n.s_jm1.dir.x
            - (n.j_jm1.x * s_c.dir.x + n.j_jm2.x * n.s_jm2.dir.x) * n.s_jm1.dir.z)
      + (if isLast then 0.0 else
          (n.j_jp1.z * n.s_jp2.dir.z + n.j_j.z * s_c.dir.z) * n.s_jp1.dir.x
            - (n.j_jp1.x * n.s_jp2.dir.x + n.j_j.x * s_c.dir.x) * n.s_jp1.dir.z))

/-- Energy difference of `metropolis_update_magnus`: src/spinchain.rs:988-1063. -/
def magnusDe (tau : F) (n : Nbhd F) (inSub isFirst isLast : Bool) (new_spin : Spin F) : F :=
  let ei := for3 (0.0 : F) fun k ei =>
    ei - (n.s_jm1.dir.get k * n.j_jm1.get k * n.s_j.dir.get k
      + n.s_j.dir.get k * n.j_j.get k * n.s_jp1.dir.get k)
  let ei := if inSub then ei - fpi / tau * magnusBracket n isFirst isLast n.s_j n.s_j else ei
  let de := for3 (-ei) fun k de =>
    de - (n.s_jm1.dir.get k * n.j_jm1.get k * new_spin.dir.get k
      + new_spin.dir.get k * n.j_j.get k * n.s_jp1.dir.get k)
  if inSub then de - fpi / tau * magnusBracket n isFirst isLast n.s_j new_spin else de

/-- src/spinchain.rs:939-1069 `metropolis_update_magnus` -/
def metropolis_update_magnus (c : SpinChain F) (d : Draw F) : R (SpinChain F) := do
  let s := asUsize c.vars.hsize
  let index ← genRange s d.site
  let _local_field ← idx c.static_h index
  let n ← c.nbhd s index
  let new_spin := proposal d.u1 d.u2
  let de := magnusDe c.vars.tau n (decide (index < asUsize c.vars.ssize)) (decide (index = 0))
    (decide (index = asUsize (c.vars.ssize - 1))) new_spin
  c.finish index new_spin de d.u3

/-! ### Magnus energies -/

/-- The correction loop of src/spinchain.rs:1498-1550 and 1600-1650 (identical). -/
def mgSum (c : SpinChain F) (h : Nat) : R F :=
  forRange 0 h (0.0 : F) fun index mg => do
    let n ← c.nbhd h index
    return mgAcc n n.s_j mg

/-- src/spinchain.rs:1466-1558 `mc_system_energy_maglab` -/
def mc_system_energy_maglab (c : SpinChain F) : R F := do
  let h := asUsize c.vars.hsize
  let h1 ← usub h 1
  let bond (s1 s2 : Spin F) (j : V3 F) (e : F) : F :=
    for3 e fun k e => e - s1.dir.get k * j.get k * s2.dir.get k
  let e ← forRange 0 h1 (0.0 : F) fun i e => do
    return bond (← idx c.spins i) (← idx c.spins (i + 1)) (← idx c.j_couple i) e
  let e := bond (← idx c.spins h1) (← idx c.spins 0) (← idx c.j_couple h1) e
  let e ← forRange 0 h e fun i e => do
    return e + -(← idx c.spins i).dir.z / (2.0 * c.om)
  let mg ← c.mgSum h
  let e := e - mg / (16.0 * c.om)
  return e / fofInt h

/-- src/spinchain.rs:1560-1658 `mc_system_energy_rot` -/
def mc_system_energy_rot (c : SpinChain F) : R F := do
  let s := asUsize c.vars.ssize
  let h := asUsize c.vars.hsize
  let h1 ← usub h 1
  let bond (s1 s2 : Spin F) (j : V3 F) (e : F) : F :=
    let e := for2 e fun k e => e - s1.dir.get k * 0.5 * (j.x + j.y) * s2.dir.get k
    e - s1.dir.z * j.z * s2.dir.z
  let e ← forRange 0 h1 (0.0 : F) fun i e => do
    return bond (← idx c.spins i) (← idx c.spins (i + 1)) (← idx c.j_couple i) e
  let e := bond (← idx c.spins h1) (← idx c.spins 0) (← idx c.j_couple h1) e
  let e ← forRange 0 s e fun i e => do return e + (← idx c.spins i).dir.x
  let e ← forRange 0 h e fun i e => do return e + -c.om * (← idx c.spins i).dir.z
  let mg ← c.mgSum h
  let e := e - mg / (16.0 * c.om)
  return e / fofInt h

end SpinChain

end Verif
