/-
The kernels compared by the benchmarks, benches/spin_rotate.rs and benches/even_omega.rs, and the unused
index functions of the chains.  `black_box` and the timing are not modelled.
-/
import Verif.Model.SpinChain

namespace Verif.Bench

open SpinChain (sum_vec ssh_sum j_s)

variable {F : Type} [Add F] [Sub F] [Mul F] [Div F] [Neg F] [OfScientific F] [FOps F]

/-- benches/spin_rotate.rs:6-28 `rotate_original`; also benches/spin.rs:41-62 `Spin::rotate`, which stores
the result.  `spin.xyz()` is a copy of the three coordinates. -/
def rotate_original (spin : Spin F) (field : V3 F) (dt : F) : R (V3 F) := do
  let fs := fsqrt (sumSq field)
  let f : V3 F := ⟨field.x / fs, field.y / fs, field.z / fs⟩
  let dts := fs * dt
  let s := spin.xyz
  let axp := ((s.zip [f.x, f.y, f.z]).map fun p => p.1 * p.2).foldl (· + ·) 0.0
  let axo : List F := [
    f.y * (← idx s 2) - f.z * (← idx s 1),
    f.z * (← idx s 0) - f.x * (← idx s 2),
    f.x * (← idx s 1) - f.y * (← idx s 0)]
  let sxyz ← mapRange 0 3 fun k => do
    return (← idx s k) * fcos dts + (← idx [f.x, f.y, f.z] k) * axp * (1.0 - fcos dts) - (← idx axo k) * fsin dts
  let ss := fsqrt ((sxyz.map fun x => x * x).foldl (· + ·) 0.0)
  return ⟨(← idx sxyz 0) / ss, (← idx sxyz 1) / ss, (← idx sxyz 2) / ss⟩

/-- benches/spin_rotate.rs:30-54 `rotate`: the same without the final normalisation -/
def rotate (spin : Spin F) (field : V3 F) (dt : F) : V3 F :=
  let fs := fsqrt (sumSq field)
  let f : V3 F := ⟨field.x / fs, field.y / fs, field.z / fs⟩
  let dts := fs * dt
  let dc := fcos dts
  let ds := fsin dts
  let s := spin.dir
  let axp := 0.0 + s.x * f.x + s.y * f.y + s.z * f.z
  let axo : V3 F := ⟨f.y * s.z - f.z * s.y, f.z * s.x - f.x * s.z, f.x * s.y - f.y * s.x⟩
  ⟨s.x * dc + f.x * axp * (1.0 - dc) - axo.x * ds,
   s.y * dc + f.y * axp * (1.0 - dc) - axo.y * ds,
   s.z * dc + f.z * axp * (1.0 - dc) - axo.z * ds⟩

/-- benches/even_omega.rs:31-35 `h_ext` -/
def h_ext (t : F) : V3 F :=
  let tau : F := 10.0
  let phi := 2.0 * fpi * t / tau
  ⟨fcos phi, fsin phi, 0.0⟩

/-- benches/even_omega.rs:43-71 `even_omega` (the copies of `sum_vec`, `ssh_sum`, `j_s` in lines 8-22 and
38-40 are those of the chain) -/
def even_omega (spins : List (Spin F)) (static_h j_couple : List (V3 F)) (delta_t : F) : R (List (V3 F)) :=
  let ssize := 10
  let hx : V3 F := h_ext delta_t
  let l := spins.length / 2
  mapRange 0 l fun n => do
    let i ← if n = 0 then usub (2 * l) 1 else usub (2 * n) 1
    let left_s := j_s (← idx j_couple i) (← idx spins i)
    let right_s := j_s (← idx j_couple (2 * n)) (← idx spins (2 * n + 1))
    let h ← idx static_h (2 * n)
    return ssh_sum left_s right_s (if 2 * n < ssize then sum_vec h hx else h)

/-- benches/even_omega.rs:73-104 `even_omega_new` (`_delta_t` is not used) -/
def even_omega_new (spins : List (Spin F)) (static_h j_couple : List (V3 F)) (_delta_t : F) :
    R (List (V3 F)) := do
  let l := spins.length / 2
  let i ← usub (2 * l) 1
  let left_s := j_s (← idx j_couple i) (← idx spins i)
  let right_s := j_s (← idx j_couple 0) (← idx spins 1)
  let first := ssh_sum left_s right_s (← idx static_h 0)
  let rest ← mapRange 1 l fun n => do
    let i ← usub (2 * n) 1
    let left_s := j_s (← idx j_couple i) (← idx spins i)
    let right_s := j_s (← idx j_couple (2 * n)) (← idx spins (2 * n + 1))
    return ssh_sum left_s right_s (← idx static_h (2 * n))
  return first :: rest

/-- src/spinchain.rs:1872-1877 and src/spinchain_langevin.rs:851-856 `pbc_index_odd` (not called; arithmetic
overflow of `2 * n` is not modelled) -/
def pbc_index_odd (n l : Nat) : R Nat :=
  match n with
  | 0 => usub (2 * l) 1
  | _ => usub (2 * n) 1

/-- src/spinchain.rs:1878-1883 and src/spinchain_langevin.rs:857-862 `pbc_index_even` (not called) -/
def pbc_index_even (n l : Nat) : Nat := if n < l then 2 * n else 0

end Verif.Bench
