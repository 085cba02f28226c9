/-
Specification for C103: "every number is finite and equals the number of exact arithmetic".
-/
import Verif.Instances.XF
import Verif.Model.Langevin

namespace Verif

/-- component-wise `XF.Rep`: three finite numbers with the values of the real vector -/
def Rep3 (v : V3 XF) (r : V3 ℝ) : Prop := v.x.Rep r.x ∧ v.y.Rep r.y ∧ v.z.Rep r.z

namespace Spec

/-- the same configuration: integers, flags and names agree, every number is finite and has the
value of the real one -/
structure RepConf (v : Config XF) (w : Config ℝ) : Prop where
  hsize : v.hsize = w.hsize
  ssize : v.ssize = w.ssize
  t : v.t.Rep w.t
  dt : v.dt.Rep w.dt
  runs : v.runs = w.runs
  trel : v.trel.Rep w.trel
  threads : v.threads = w.threads
  tau : v.tau.Rep w.tau
  lambda : v.lambda.Rep w.lambda
  hfield : List.Forall₂ XF.Rep v.hfield w.hfield
  hs : List.Forall₂ XF.Rep v.hs w.hs
  jvar : v.jvar.Rep w.jvar
  hvar : v.hvar.Rep w.hvar
  method : v.method = w.method
  ednsty : v.ednsty.Rep w.ednsty
  file : v.file = w.file
  strob : v.strob = w.strob
  offset : v.offset = w.offset
  beta : v.beta.Rep w.beta
  mc_points : v.mc_points = w.mc_points
  e : v.e.Rep w.e
  drive : v.drive = w.drive
  log : v.log = w.log

/-- the same chain: every number is finite and has the value of the real one -/
structure RepChain (c : SpinChain XF) (d : SpinChain ℝ) : Prop where
  j : List.Forall₂ Rep3 c.j_couple d.j_couple
  h : List.Forall₂ Rep3 c.static_h d.static_h
  spins : List.Forall₂ (fun a b => Rep3 a.dir b.dir) c.spins d.spins
  t : c.t.Rep d.t
  vars : RepConf c.vars d.vars
  file : c.file = d.file

/-- the same chain with damping -/
structure RepLangevin (c : LangevinChain XF) (d : LangevinChain ℝ) : Prop where
  chain : RepChain c.toSpinChain d.toSpinChain
  gamma : c.gamma.Rep d.gamma

/-- the same random numbers -/
structure RepDraw (a : Draw XF) (b : Draw ℝ) : Prop where
  site : a.site = b.site
  u1 : a.u1.Rep b.u1
  u2 : a.u2.Rep b.u2
  u3 : a.u3.Rep b.u3

/-- the same noise -/
structure RepNoise (a : Noise XF) (b : Noise ℝ) : Prop where
  l : Rep3 a.l b.l
  r : Rep3 a.r b.r

/-- Both programs panic with the same panic, or both return and the results are related. -/
inductive RepR {α β : Type} (r : α → β → Prop) : R α → R β → Prop
  | ok {a : α} {b : β} : r a b → RepR r (.ok a) (.ok b)
  | error (e : Panic) : RepR r (.error e) (.error e)

/-- the same optional row of numbers -/
def RepRow (a : Option (List XF)) (b : Option (List ℝ)) : Prop :=
  (a = none ∧ b = none) ∨ ∃ x y, a = some x ∧ b = some y ∧ List.Forall₂ XF.Rep x y

/-- The drive does not divide by a period of zero. -/
def DriveOK (v : Config ℝ) : Prop := v.drive = .none ∨ v.drive = .staticfield ∨ v.tau ≠ 0

/-- all components of all spins are finite numbers -/
def FiniteSpins (c : SpinChain XF) : Prop :=
  ∀ x ∈ c.spins, fisFinite x.dir.x = true ∧ fisFinite x.dir.y = true ∧ fisFinite x.dir.z = true

/-- real numbers as extended numbers -/
def finV (v : V3 ℝ) : V3 XF := ⟨.fin v.x, .fin v.y, .fin v.z⟩

/-- a configuration with real numbers, as extended numbers -/
def finConf (w : Config ℝ) : Config XF :=
  { w with
    t := .fin w.t
    dt := .fin w.dt
    trel := .fin w.trel
    tau := .fin w.tau
    lambda := .fin w.lambda
    hfield := w.hfield.map .fin
    hs := w.hs.map .fin
    jvar := .fin w.jvar
    hvar := .fin w.hvar
    ednsty := .fin w.ednsty
    beta := .fin w.beta
    e := .fin w.e }

/-- a chain with real numbers, as extended numbers -/
def finChain (d : SpinChain ℝ) : SpinChain XF where
  j_couple := d.j_couple.map finV
  static_h := d.static_h.map finV
  spins := d.spins.map fun x => ⟨finV x.dir⟩
  t := .fin d.t
  vars := finConf d.vars
  file := d.file

end Spec

end Verif
