/-
Transcription of `metropolis_update_mag_full` (/repo/src/spinchain.rs:506-937).
The two long blocks are transcribed statement by statement (each Lean `let` is one Rust `+=`/`-=`).
-/
import Verif.Model.Metropolis

namespace Verif

variable {F : Type} [Add F] [Sub F] [Mul F] [Div F] [Neg F] [OfScientific F] [FOps F]

namespace SpinChain

/-- src/spinchain.rs:566-572 `ei0` -/
def magFullEi0 (n : Nbhd F) : F :=
  for3 (0.0 : F) fun k ei0 =>
    let ei0 := ei0 - n.s_jm1.dir.get k * n.j_jm1.get k * n.s_j.dir.get k
    ei0 - n.s_j.dir.get k * n.j_j.get k * n.s_jp1.dir.get k

/-- src/spinchain.rs:747-750 `de0` -/
def magFullDe0 (n : Nbhd F) (new_spin : Spin F) : F :=
  for3 (0.0 : F) fun k de0 =>
    de0 - (n.s_jm1.dir.get k * n.j_jm1.get k * new_spin.dir.get k
      + new_spin.dir.get k * n.j_j.get k * n.s_jp1.dir.get k)

/-- src/spinchain.rs:577-581 `ei1` -/
def magFullEi1 (n : Nbhd F) : F :=
  let ei1 : F := 0.0
  let ei1 := ei1 - n.s_j.dir.z / 2.0
  let ei1 := ei1 - (n.j_jm1.z - n.j_jm1.x) * (n.s_jm1.dir.x * n.s_j.dir.z
    + n.s_jm1.dir.z * n.s_j.dir.x)
  ei1 - (n.j_j.z - n.j_j.x) * (n.s_jp1.dir.x * n.s_j.dir.z + n.s_jp1.dir.z * n.s_j.dir.x)

/-- src/spinchain.rs:752-758 `de1` -/
def magFullDe1 (n : Nbhd F) (new_spin : Spin F) : F :=
  let de1 : F := 0.0
  let de1 := de1 - new_spin.dir.z / 2.0
  let de1 := de1 - (n.j_jm1.z - n.j_jm1.x) * (n.s_jm1.dir.x * new_spin.dir.z
    + n.s_jm1.dir.z * new_spin.dir.x)
  de1 - (n.j_j.z - n.j_j.x) * (n.s_jp1.dir.x * new_spin.dir.z + n.s_jp1.dir.z * new_spin.dir.x)

/-- src/spinchain.rs:584-729: the second-order term `ei2` before the move, statement by statement. -/
def magFullEi2 (n : Nbhd F) : F :=
  let s_jm2 := n.s_jm2
  let s_jm1 := n.s_jm1
  let s_j := n.s_j
  let s_jp1 := n.s_jp1
  let s_jp2 := n.s_jp2
  let j_jm2 := n.j_jm2
  let j_jm1 := n.j_jm1
  let j_j := n.j_j
  let j_jp1 := n.j_jp1
  let ei2 : F := 0.0
  let ei2 := ei2 + (s_j.dir.x / 2.0)
  let ei2 := ei2 - (0.5 * (j_jm1.y * s_j.dir.z * s_jm1.dir.z + j_j.y * s_j.dir.z * s_jp1.dir.z))
  let ei2 := ei2 - (0.5 * (j_jm1.z * s_j.dir.y * s_jm1.dir.y + j_j.z * s_j.dir.y * s_jp1.dir.y))
  let ei2 := ei2 - (1.5 * (j_jm1.x * s_j.dir.z * s_jm1.dir.z + j_j.x * s_j.dir.z * s_jp1.dir.z))
  let ei2 := ei2 - (1.5 * (j_jm1.z * s_j.dir.x * s_jm1.dir.x + j_j.z * s_j.dir.x * s_jp1.dir.x))
  let ei2 := ei2 + ((j_jm1.x * s_jm1.dir.x + j_j.x * s_jp1.dir.x) * (s_j.dir.x * (j_jm1.x *
      s_jm1.dir.x + j_j.x * s_jp1.dir.x) + s_j.dir.y * (j_jm1.y * s_jm1.dir.y + j_j.y *
      s_jp1.dir.y) + s_j.dir.z * (j_jm1.z * s_jm1.dir.z + j_j.z * s_jp1.dir.z)))
  let ei2 := ei2 - (s_j.dir.x * ((j_jm1.x * s_jm1.dir.x + j_j.x * s_jp1.dir.x) * (j_jm1.x *
      s_jm1.dir.x + j_j.x * s_jp1.dir.x) + (j_jm1.y * s_jm1.dir.y + j_j.y * s_jp1.dir.y) *
      (j_jm1.y * s_jm1.dir.y + j_j.y * s_jp1.dir.y) + (j_jm1.z * s_jm1.dir.z + j_j.z *
      s_jp1.dir.z) * (j_jm1.z * s_jm1.dir.z + j_j.z * s_jp1.dir.z)))
  let ei2 := ei2 + ((j_j.x * s_j.dir.x + j_jp1.x * s_jp2.dir.x) * (s_jp1.dir.x * (j_j.x *
      s_j.dir.x + j_jp1.x * s_jp2.dir.x) + s_jp1.dir.y * (j_j.y * s_j.dir.y + j_jp1.y *
      s_jp2.dir.y) + s_jp1.dir.z * (j_j.z * s_j.dir.z + j_jp1.z * s_jp2.dir.z)))
  let ei2 := ei2 - (s_jp1.dir.x * ((j_j.x * s_j.dir.x + j_jp1.x * s_jp2.dir.x) * (j_jm2.x *
      s_jm2.dir.x + j_jp1.x * s_jp2.dir.x) + (j_j.y * s_j.dir.y + j_jp1.y * s_jp2.dir.y) * (j_j.y
      * s_j.dir.y + j_jp1.y * s_jp2.dir.y) + (j_j.z * s_j.dir.z + j_jp1.z * s_jp2.dir.z) * (j_j.z
      * s_j.dir.z + j_jp1.z * s_jp2.dir.z)))
  let ei2 := ei2 + ((j_jm2.x * s_jm2.dir.x + j_jm1.x * s_j.dir.x) * (s_jm1.dir.x * (j_jm2.x *
      s_jm2.dir.x + j_jm1.x * s_j.dir.x) + s_jm1.dir.y * (j_jm2.y * s_jm2.dir.y + j_jm1.y *
      s_j.dir.y) + s_jm1.dir.z * (j_jm2.z * s_jm2.dir.z + j_jm1.z * s_j.dir.z)))
  let ei2 := ei2 - (s_jm1.dir.x * ((j_jm2.x * s_jm2.dir.x + j_jm1.x * s_j.dir.x) * (j_jm2.x *
      s_jm2.dir.x + j_jm1.x * s_j.dir.x) + (j_jm2.y * s_jm2.dir.y + j_jm1.y * s_j.dir.y) *
      (j_jm2.y * s_jm2.dir.y + j_jm1.y * s_j.dir.y) + (j_jm2.z * s_jm2.dir.z + j_jm1.z *
      s_j.dir.z) * (j_jm2.z * s_jm2.dir.z + j_jm1.z * s_j.dir.z)))
  let ei2 := ei2 + ((j_jm2.z * s_jm2.dir.z * s_jm1.dir.x - j_jm2.x * s_jm2.dir.x * s_jm1.dir.z) *
      j_jm1.y * s_j.dir.z)
  let ei2 := ei2 - ((j_jm2.x * s_jm2.dir.x * s_jm1.dir.y - j_jm2.y * s_jm2.dir.y * s_jm1.dir.x) *
      j_jm1.z * s_j.dir.y)
  let ei2 := ei2 + ((j_jm1.z * s_j.dir.z * s_jm1.dir.x - j_jm1.x * s_j.dir.x * s_jm1.dir.z) *
      j_jm1.y * s_j.dir.z)
  let ei2 := ei2 - ((j_jm1.x * s_j.dir.x * s_jm1.dir.y - j_jm1.y * s_j.dir.y * s_jm1.dir.x) *
      j_jm1.z * s_j.dir.y)
  let ei2 := ei2 + ((j_jm1.z * s_jm1.dir.z * s_j.dir.x - j_jm1.x * s_jm1.dir.x * s_j.dir.z) *
      j_j.y * s_jp1.dir.z)
  let ei2 := ei2 - ((j_jm1.x * s_jm1.dir.x * s_j.dir.y - j_jm1.y * s_jm1.dir.y * s_j.dir.x) *
      j_j.z * s_jp1.dir.y)
  let ei2 := ei2 + ((j_j.z * s_jp1.dir.z * s_j.dir.x - j_j.x * s_jp1.dir.x * s_j.dir.z) * j_j.y *
      s_jp1.dir.z)
  let ei2 := ei2 - ((j_j.x * s_jp1.dir.x * s_j.dir.y - j_j.y * s_jp1.dir.y * s_j.dir.x) * j_j.z *
      s_jp1.dir.y)
  let ei2 := ei2 + ((j_j.z * s_j.dir.z * s_jp1.dir.x - j_j.x * s_j.dir.x * s_jp1.dir.z) * j_jp1.y
      * s_jp2.dir.z)
  let ei2 := ei2 - ((j_j.x * s_j.dir.x * s_jp1.dir.y - j_j.y * s_j.dir.y * s_jp1.dir.x) * j_jp1.z
      * s_jp2.dir.y)
  let ei2 := ei2 + ((j_jp1.z * s_jp2.dir.z * s_jp1.dir.x - j_jp1.x * s_jp2.dir.x * s_jp1.dir.z) *
      j_jp1.y * s_jp2.dir.z)
  let ei2 := ei2 - ((j_jp1.x * s_jp2.dir.x * s_jp1.dir.y - j_jp1.y * s_jp2.dir.y * s_jp1.dir.x) *
      j_jp1.z * s_jp2.dir.y)
  let ei2 := ei2 + ((j_j.z * s_j.dir.z * s_jp1.dir.x - j_j.x * s_j.dir.x * s_jp1.dir.z) * j_j.y *
      s_j.dir.z)
  let ei2 := ei2 - ((j_j.x * s_j.dir.x * s_jp1.dir.y - j_j.y * s_j.dir.y * s_jp1.dir.x) * j_j.z *
      s_j.dir.y)
  let ei2 := ei2 + ((j_jp1.z * s_jp2.dir.z * s_jp1.dir.x - j_jp1.x * s_jp2.dir.x * s_jp1.dir.z) *
      j_j.y * s_j.dir.z)
  let ei2 := ei2 - ((j_jp1.x * s_jp2.dir.x * s_jp1.dir.y - j_jp1.y * s_jp2.dir.y * s_jp1.dir.x) *
      j_j.z * s_j.dir.y)
  let ei2 := ei2 + ((j_jm1.z * s_jm1.dir.z * s_j.dir.x - j_jm1.x * s_jm1.dir.x * s_j.dir.z) *
      j_jm1.y * s_jm1.dir.z)
  let ei2 := ei2 - ((j_jm1.x * s_jm1.dir.x * s_j.dir.y - j_jm1.y * s_jm1.dir.y * s_j.dir.x) *
      j_jm1.z * s_jm1.dir.y)
  let ei2 := ei2 + ((j_j.z * s_jp1.dir.z * s_j.dir.x - j_j.x * s_jp1.dir.x * s_j.dir.z) * j_jm1.y
      * s_jm1.dir.z)
  let ei2 := ei2 - ((j_j.x * s_jp1.dir.x * s_j.dir.y - j_j.y * s_jp1.dir.y * s_j.dir.x) * j_jm1.z
      * s_jm1.dir.y)
  let ei2 := ei2 + ((j_jm2.z * s_jm2.dir.z * s_jm1.dir.x - j_jm2.x * s_jm2.dir.x * s_jm1.dir.z) *
      j_jm2.y * s_jm2.dir.z)
  let ei2 := ei2 - ((j_jm2.x * s_jm2.dir.x * s_jm1.dir.y - j_jm2.y * s_jm2.dir.y * s_jm1.dir.x) *
      j_jm2.z * s_jm2.dir.y)
  let ei2 := ei2 + ((j_jm1.z * s_j.dir.z * s_jm1.dir.x - j_jm1.x * s_j.dir.x * s_jm1.dir.z) *
      j_jm2.y * s_jm2.dir.z)
  let ei2 := ei2 - ((j_jm1.x * s_j.dir.x * s_jm1.dir.y - j_jm1.y * s_j.dir.y * s_jm1.dir.x) *
      j_jm2.z * s_jm2.dir.y)
  ei2

/-- src/spinchain.rs:761-926: the second-order term `de2` after the move, statement by statement. -/
def magFullDe2 (n : Nbhd F) (new_spin : Spin F) : F :=
  let s_jm2 := n.s_jm2
  let s_jm1 := n.s_jm1
  let s_jp1 := n.s_jp1
  let s_jp2 := n.s_jp2
  let j_jm2 := n.j_jm2
  let j_jm1 := n.j_jm1
  let j_j := n.j_j
  let j_jp1 := n.j_jp1
  let de2 : F := 0.0
  let de2 := de2 + (new_spin.dir.x / 2.0)
  let de2 := de2 - (0.5 * (j_jm1.y * new_spin.dir.z * s_jm1.dir.z + j_j.y * new_spin.dir.z *
      s_jp1.dir.z))
  let de2 := de2 - (0.5 * (j_jm1.z * new_spin.dir.y * s_jm1.dir.y + j_j.z * new_spin.dir.y *
      s_jp1.dir.y))
  let de2 := de2 - (1.5 * (j_jm1.x * new_spin.dir.z * s_jm1.dir.z + j_j.x * new_spin.dir.z *
      s_jp1.dir.z))
  let de2 := de2 - (1.5 * (j_jm1.z * new_spin.dir.x * s_jm1.dir.x + j_j.z * new_spin.dir.x *
      s_jp1.dir.x))
  let de2 := de2 + ((j_jm1.x * s_jm1.dir.x + j_j.x * s_jp1.dir.x) * (new_spin.dir.x * (j_jm1.x *
      s_jm1.dir.x + j_j.x * s_jp1.dir.x) + new_spin.dir.y * (j_jm1.y * s_jm1.dir.y + j_j.y *
      s_jp1.dir.y) + new_spin.dir.z * (j_jm1.z * s_jm1.dir.z + j_j.z * s_jp1.dir.z)))
  let de2 := de2 - (new_spin.dir.x * ((j_jm1.x * s_jm1.dir.x + j_j.x * s_jp1.dir.x) * (j_jm1.x *
      s_jm1.dir.x + j_j.x * s_jp1.dir.x) + (j_jm1.y * s_jm1.dir.y + j_j.y * s_jp1.dir.y) *
      (j_jm1.y * s_jm1.dir.y + j_j.y * s_jp1.dir.y) + (j_jm1.z * s_jm1.dir.z + j_j.z *
      s_jp1.dir.z) * (j_jm1.z * s_jm1.dir.z + j_j.z * s_jp1.dir.z)))
  let de2 := de2 + ((j_j.x * new_spin.dir.x + j_jp1.x * s_jp2.dir.x) * (s_jp1.dir.x * (j_j.x *
      new_spin.dir.x + j_jp1.x * s_jp2.dir.x) + s_jp1.dir.y * (j_j.y * new_spin.dir.y + j_jp1.y *
      s_jp2.dir.y) + s_jp1.dir.z * (j_j.z * new_spin.dir.z + j_jp1.z * s_jp2.dir.z)))
  let de2 := de2 - (s_jp1.dir.x * ((j_j.x * new_spin.dir.x + j_jp1.x * s_jp2.dir.x) * (j_jm2.x *
      s_jm2.dir.x + j_jp1.x * s_jp2.dir.x) + (j_j.y * new_spin.dir.y + j_jp1.y * s_jp2.dir.y) *
      (j_j.y * new_spin.dir.y + j_jp1.y * s_jp2.dir.y) + (j_j.z * new_spin.dir.z + j_jp1.z *
      s_jp2.dir.z) * (j_j.z * new_spin.dir.z + j_jp1.z * s_jp2.dir.z)))
  let de2 := de2 + ((j_jm2.x * s_jm2.dir.x + j_jm1.x * new_spin.dir.x) * (s_jm1.dir.x * (j_jm2.x *
      s_jm2.dir.x + j_jm1.x * new_spin.dir.x) + s_jm1.dir.y * (j_jm2.y * s_jm2.dir.y + j_jm1.y *
      new_spin.dir.y) + s_jm1.dir.z * (j_jm2.z * s_jm2.dir.z + j_jm1.z * new_spin.dir.z)))
  let de2 := de2 - (s_jm1.dir.x * ((j_jm2.x * s_jm2.dir.x + j_jm1.x * new_spin.dir.x) * (j_jm2.x *
      s_jm2.dir.x + j_jm1.x * new_spin.dir.x) + (j_jm2.y * s_jm2.dir.y + j_jm1.y * new_spin.dir.y)
      * (j_jm2.y * s_jm2.dir.y + j_jm1.y * new_spin.dir.y) + (j_jm2.z * s_jm2.dir.z + j_jm1.z *
      new_spin.dir.z) * (j_jm2.z * s_jm2.dir.z + j_jm1.z * new_spin.dir.z)))
  let de2 := de2 + ((j_jm2.z * s_jm2.dir.z * s_jm1.dir.x - j_jm2.x * s_jm2.dir.x * s_jm1.dir.z) *
      j_jm1.y * new_spin.dir.z)
  let de2 := de2 - ((j_jm2.x * s_jm2.dir.x * s_jm1.dir.y - j_jm2.y * s_jm2.dir.y * s_jm1.dir.x) *
      j_jm1.z * new_spin.dir.y)
  let de2 := de2 + ((j_jm1.z * new_spin.dir.z * s_jm1.dir.x - j_jm1.x * new_spin.dir.x *
      s_jm1.dir.z) * j_jm1.y * new_spin.dir.z)
  let de2 := de2 - ((j_jm1.x * new_spin.dir.x * s_jm1.dir.y - j_jm1.y * new_spin.dir.y *
      s_jm1.dir.x) * j_jm1.z * new_spin.dir.y)
  let de2 := de2 + ((j_jm1.z * s_jm1.dir.z * new_spin.dir.x - j_jm1.x * s_jm1.dir.x *
      new_spin.dir.z) * j_j.y * s_jp1.dir.z)
  let de2 := de2 - ((j_jm1.x * s_jm1.dir.x * new_spin.dir.y - j_jm1.y * s_jm1.dir.y *
      new_spin.dir.x) * j_j.z * s_jp1.dir.y)
  let de2 := de2 + ((j_j.z * s_jp1.dir.z * new_spin.dir.x - j_j.x * s_jp1.dir.x * new_spin.dir.z)
      * j_j.y * s_jp1.dir.z)
  let de2 := de2 - ((j_j.x * s_jp1.dir.x * new_spin.dir.y - j_j.y * s_jp1.dir.y * new_spin.dir.x)
      * j_j.z * s_jp1.dir.y)
  let de2 := de2 + ((j_j.z * new_spin.dir.z * s_jp1.dir.x - j_j.x * new_spin.dir.x * s_jp1.dir.z)
      * j_jp1.y * s_jp2.dir.z)
  let de2 := de2 - ((j_j.x * new_spin.dir.x * s_jp1.dir.y - j_j.y * new_spin.dir.y * s_jp1.dir.x)
      * j_jp1.z * s_jp2.dir.y)
  let de2 := de2 + ((j_jp1.z * s_jp2.dir.z * s_jp1.dir.x - j_jp1.x * s_jp2.dir.x * s_jp1.dir.z) *
      j_jp1.y * s_jp2.dir.z)
  let de2 := de2 - ((j_jp1.x * s_jp2.dir.x * s_jp1.dir.y - j_jp1.y * s_jp2.dir.y * s_jp1.dir.x) *
      j_jp1.z * s_jp2.dir.y)
  let de2 := de2 + ((j_j.z * new_spin.dir.z * s_jp1.dir.x - j_j.x * new_spin.dir.x * s_jp1.dir.z)
      * j_j.y * new_spin.dir.z)
  let de2 := de2 - ((j_j.x * new_spin.dir.x * s_jp1.dir.y - j_j.y * new_spin.dir.y * s_jp1.dir.x)
      * j_j.z * new_spin.dir.y)
  let de2 := de2 + ((j_jp1.z * s_jp2.dir.z * s_jp1.dir.x - j_jp1.x * s_jp2.dir.x * s_jp1.dir.z) *
      j_j.y * new_spin.dir.z)
  let de2 := de2 - ((j_jp1.x * s_jp2.dir.x * s_jp1.dir.y - j_jp1.y * s_jp2.dir.y * s_jp1.dir.x) *
      j_j.z * new_spin.dir.y)
  let de2 := de2 + ((j_jm1.z * s_jm1.dir.z * new_spin.dir.x - j_jm1.x * s_jm1.dir.x *
      new_spin.dir.z) * j_jm1.y * s_jm1.dir.z)
  let de2 := de2 - ((j_jm1.x * s_jm1.dir.x * new_spin.dir.y - j_jm1.y * s_jm1.dir.y *
      new_spin.dir.x) * j_jm1.z * s_jm1.dir.y)
  let de2 := de2 + ((j_j.z * s_jp1.dir.z * new_spin.dir.x - j_j.x * s_jp1.dir.x * new_spin.dir.z)
      * j_jm1.y * s_jm1.dir.z)
  let de2 := de2 - ((j_j.x * s_jp1.dir.x * new_spin.dir.y - j_j.y * s_jp1.dir.y * new_spin.dir.x)
      * j_jm1.z * s_jm1.dir.y)
  let de2 := de2 + ((j_jm2.z * s_jm2.dir.z * s_jm1.dir.x - j_jm2.x * s_jm2.dir.x * s_jm1.dir.z) *
      j_jm2.y * s_jm2.dir.z)
  let de2 := de2 - ((j_jm2.x * s_jm2.dir.x * s_jm1.dir.y - j_jm2.y * s_jm2.dir.y * s_jm1.dir.x) *
      j_jm2.z * s_jm2.dir.y)
  let de2 := de2 + ((j_jm1.z * new_spin.dir.z * s_jm1.dir.x - j_jm1.x * new_spin.dir.x *
      s_jm1.dir.z) * j_jm2.y * s_jm2.dir.z)
  let de2 := de2 - ((j_jm1.x * new_spin.dir.x * s_jm1.dir.y - j_jm1.y * new_spin.dir.y *
      s_jm1.dir.x) * j_jm2.z * s_jm2.dir.y)
  de2

/-- src/spinchain.rs:561-732: energy `ei` before the move; the corrections apply only to sites of
the subsystem. -/
def magFullEi (om : F) (n : Nbhd F) (inSub : Bool) : F :=
  let ei0 := magFullEi0 n
  let ei1 : F := if inSub then magFullEi1 n else 0.0
  let ei2 : F := if inSub then magFullEi2 n else 0.0
  ei0 + ei1 / om + ei2 / (om * om)

/-- src/spinchain.rs:739-930: the energy difference `de`. -/
def magFullDe (om : F) (n : Nbhd F) (inSub : Bool) (new_spin : Spin F) : F :=
  let ei := magFullEi om n inSub
  let de := -ei
  let de0 := magFullDe0 n new_spin
  let de1 : F := if inSub then magFullDe1 n new_spin else 0.0
  let de2 : F := if inSub then magFullDe2 n new_spin else 0.0
  de + (de0 + de1 / om + de2 / (om * om))

/-- src/spinchain.rs:506-937 `metropolis_update_mag_full` -/
def metropolis_update_mag_full (c : SpinChain F) (d : Draw F) : R (SpinChain F) := do
  let s := asUsize c.vars.hsize
  let index ← genRange s d.site
  let _local_field ← idx c.static_h index
  let n ← c.nbhd s index
  let new_spin := proposal d.u1 d.u2
  let de := magFullDe c.om n (decide (index < asUsize c.vars.ssize)) new_spin
  c.finish index new_spin de d.u3

end SpinChain

end Verif
