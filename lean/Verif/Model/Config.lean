/-
Transcription of /repo/src/config.rs.
-/
import Verif.Model.Scalar

namespace Verif

variable {F : Type} [Add F] [Sub F] [Mul F] [Div F] [Neg F] [OfScientific F] [FOps F]

/-- src/config.rs:6-17 `enum DriveType` -/
inductive DriveType where
  | xyplane | xyelliptic | uniaxial | staticfield | none
  deriving DecidableEq, Repr

/-- src/config.rs:22-66 `struct Config`.  `i32` fields are `Int`, `usize`/`u32` fields are `Nat`
(range assumptions appear as hypotheses where they matter). -/
structure Config (F : Type) where
  hsize : Int
  ssize : Int
  t : F
  dt : F
  runs : Int
  trel : F
  threads : Nat
  tau : F
  lambda : F
  hfield : List F
  hs : List F
  jvar : F
  hvar : F
  method : Int
  ednsty : F
  file : String
  strob : Bool
  offset : Nat
  beta : F
  mc_points : Nat
  e : F
  drive : DriveType
  log : Bool
  deriving DecidableEq

/-- src/config.rs:68-96 `Config::default` -/
def Config.default : Config F where
  hsize := 512
  ssize := 8
  t := 256.0
  dt := 0.02
  runs := 2
  threads := 2
  trel := 0.0
  tau := 10.0
  lambda := 1.0
  hfield := [0.0, 0.0, 0.0]
  hs := [0.0, 0.0, 0.0]
  jvar := 0.001
  hvar := 0.0
  method := 2
  ednsty := -0.66
  file := "log"
  strob := false
  beta := 2.88
  e := 0.9
  mc_points := 1000
  offset := 0
  drive := .xyplane
  log := true

end Verif
