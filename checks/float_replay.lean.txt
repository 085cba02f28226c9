import Verif.Model.Langevin
import Verif.Model.Metropolis
import Verif.Model.MagFull
import Verif.Model.Obs
open Verif

instance : FOps Float where
  fsqrt := Float.sqrt
  fsin := Float.sin
  fcos := Float.cos
  facos := Float.acos
  fatan := Float.atan
  fexp := Float.exp
  fln := Float.log
  ftanh := Float.tanh
  fabs := Float.abs
  fround := Float.round
  fpi := 3.141592653589793
  flt := fun a b => decide (a < b)
  fle := fun a b => decide (a ≤ b)
  fisFinite := Float.isFinite
  fofInt := Float.ofInt
  ftoNat := fun x => x.toUInt64.toNat

/-- linear congruential uniform numbers -/
def lcg (s : UInt64) : UInt64 := s * 6364136223846793005 + 1442695040888963407
def unif (s : UInt64) : Float := (s >>> 11).toNat.toFloat / (2.0 ^ 53)
def nums (seed : UInt64) (n : Nat) : Array UInt64 := Id.run do
  let mut a := #[]
  let mut s := seed
  for _ in [0:n] do
    s := lcg s
    a := a.push s
  return a
def normals (a : Array UInt64) (i : Nat) : Float :=
  Float.sqrt (-2 * Float.log (unif a[2*i]!)) * Float.cos (2 * 3.141592653589793 * unif a[2*i+1]!)
def mkChain (seed : UInt64) : R (SpinChain Float) :=
  let a := nums seed 20000
  SpinChain.new (Config.default : Config Float) 0 (fun i => unif a[i]!) (fun i => normals a (2000 + i)) (fun i => normals a (4000 + i))

-- initialise_energy
#eval (Config.default : Config Float).ednsty
#eval (Config.default : Config Float).beta
#eval (Config.default : Config Float).hsize
#eval show R Float from do
  let mut e := 0
  for i in [0:10] do
    let c ← mkChain (17 + 1000 * i.toUInt64)
    e := e + (← c.total_energy2)
  return e / 10
-- interactions_off
def off (c : SpinChain Float) : SpinChain Float :=
  { c with
    j_couple := c.j_couple.map fun _ => ⟨0,0,0⟩
    spins := c.spins.map fun _ => ⟨⟨1,0,0⟩⟩
    static_h := c.static_h.map fun _ => ⟨0,0,1⟩
    vars := { c.vars with drive := .none } }
#eval show R Float from do
  let mut c := off (← mkChain 3)
  let mut m := 0
  for i in [0:100] do
    let s ← idx c.spins 7
    m := max m (Float.abs (s.dir.x - Float.cos (c.vars.dt * i.toFloat)))
    c ← c.update
  return m
-- static_field_normal
#eval show R (Float × Float) from do
  let c ← mkChain 3
  let hx := c.static_h.foldl (fun a v => a + v.x) 0
  let hy := c.static_h.foldl (fun a v => a + v.y) 0
  let hz := c.static_h.foldl (fun a v => a + v.z) 0
  return ((hx*hx+hy*hy+hz*hz).sqrt / Float.ofInt c.vars.hsize, 6 * c.vars.hvar / (Float.ofInt c.vars.hsize).sqrt)
-- rotation tests
#eval show Float from Id.run do
  let mut s : Spin Float := Spin.new_from_angles 0.0 (3.141592653589793/2)
  let mut t : Float := 0
  while t + 0.01 < 3.141592653589793/2 do
    t := t + 0.01
    s := s.rotate ⟨0,0,-1⟩ 0.01
  return s.dir.y
#eval show Float from Id.run do
  let mut s : Spin Float := Spin.new_from_angles 0.0 (3.141592653589793/2)
  let mut t : Float := 0
  while t + 0.01 < 3.141592653589793/2 do
    t := t + 0.01
    s := s.rotate ⟨0,1,0⟩ 0.01
  return s.dir.z
-- metropolis_low_t (smaller)
#eval show R (Float × Float) from do
  let c0 ← mkChain 5
  let mut c := { c0 with
    j_couple := c0.j_couple.map fun _ => ⟨1,1,1⟩
    static_h := c0.static_h.map fun _ => ⟨0,0,0⟩
    vars := { c0.vars with drive := .none, beta := 1000.0 } }
  let mut s : UInt64 := 99
  for _ in [0:200000] do
    let s1 := lcg s; let s2 := lcg s1; let s3 := lcg s2; s := lcg s3
    c ← c.metropolis_update ⟨(s >>> 20).toNat, unif s1, unif s2, unif s3⟩
  return (← c.total_energy2, 1/1000 - 1/Float.tanh 1000)
