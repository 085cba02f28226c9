/-
Transcription of /repo/src/spin.rs.
-/
import Verif.Model.Scalar

namespace Verif

variable {F : Type} [Add F] [Sub F] [Mul F] [Div F] [Neg F] [OfScientific F] [FOps F]

/-- src/spin.rs:6-9 `struct Spin { dir: [f64; 3] }` -/
@[ext] structure Spin (F : Type) where
  dir : V3 F
  deriving DecidableEq, Repr

/-- `v.iter().map(|x| x * x).sum::<f64>()` for a three-component array: a left fold from 0.0. -/
def sumSq (v : V3 F) : F := 0.0 + v.x * v.x + v.y * v.y + v.z * v.z

/-- `input.iter().map(|x| x * x).sum::<f64>()` for a slice. -/
def sumSqList (xs : List F) : F := xs.foldl (fun acc x => acc + x * x) 0.0

namespace Spin

/-- src/spin.rs:23-27 `Spin::new` -/
def new : Spin F := ⟨⟨1.0, 0.0, 0.0⟩⟩

/-- src/spin.rs:39-44 `Spin::new_xyz`.  The norm runs over the whole slice, the direction uses
the first three entries. -/
def new_xyz (input : List F) : R (Spin F) := do
  let norm := fsqrt (sumSqList input)
  let a ← idx input 0
  let b ← idx input 1
  let c ← idx input 2
  return ⟨⟨a / norm, b / norm, c / norm⟩⟩

/-- src/spin.rs:57-61 `Spin::new_from_angles` -/
def new_from_angles (theta phi : F) : Spin F :=
  ⟨⟨fcos theta * fsin phi, fsin theta * fsin phi, fcos phi⟩⟩

/-- src/spin.rs:84-95 `Spin::gs` -/
def gs (old perp : V3 F) : V3 F :=
  let dot := perp.x * old.x + perp.y * old.y + perp.z * old.z
  let on := sumSq old
  let sub : V3 F := ⟨perp.x - dot * old.x / on, perp.y - dot * old.y / on,
    perp.z - dot * old.z / on⟩
  let s := fsqrt (sumSq sub)
  ⟨sub.x / s, sub.y / s, sub.z / s⟩

/-- src/spin.rs:135-141 `Spin::theta` -/
def theta (s : Spin F) : F :=
  fatan (s.dir.y / s.dir.x) + (if flt 0.0 s.dir.x then 0.0 else fpi)

/-- src/spin.rs:143-145 `Spin::phi` -/
def phi (s : Spin F) : F := facos s.dir.z

/-- src/spin.rs:150-152 `Spin::set_angles` (the returned value is the new `self`) -/
def set_angles (_s : Spin F) (theta phi : F) : Spin F :=
  ⟨⟨fcos theta * fsin phi, fsin theta * fsin phi, fcos phi⟩⟩

/-- src/spin.rs:155-157 `Spin::xyz` -/
def xyz (s : Spin F) : List F := [s.dir.x, s.dir.y, s.dir.z]

/-- src/spin.rs:172-195 `Spin::rotate` (the returned value is the new `self`) -/
def rotate (self : Spin F) (field : V3 F) (dt : F) : Spin F :=
  let fs := fsqrt (sumSq field)
  let f : V3 F := ⟨field.x / fs, field.y / fs, field.z / fs⟩
  let dts := fs * dt
  let dc := fcos dts
  let ds := fsin dts
  let s := self.dir
  let axp := 0.0 + s.x * f.x + s.y * f.y + s.z * f.z
  let axo : V3 F := ⟨f.y * s.z - f.z * s.y, f.z * s.x - f.x * s.z, f.x * s.y - f.y * s.x⟩
  let sxyz : V3 F :=
    ⟨s.x * dc + f.x * axp * (1.0 - dc) - axo.x * ds,
     s.y * dc + f.y * axp * (1.0 - dc) - axo.y * ds,
     s.z * dc + f.z * axp * (1.0 - dc) - axo.z * ds⟩
  let ss := fsqrt (sumSq sxyz)
  ⟨⟨sxyz.x / ss, sxyz.y / ss, sxyz.z / ss⟩⟩

/-- src/spin.rs:97-133 `Spin::rot_perp`; `old = [theta, phi]`, result `[theta, phi]`. -/
def rot_perp (old : F × F) (rot_dir : V3 F) (rot_angle : F) : F × F :=
  let old_spin := new_from_angles old.1 old.2
  let perp_dir := gs old_spin.dir rot_dir
  let old_spin := old_spin.rotate perp_dir (-rot_angle)
  (old_spin.theta, old_spin.phi)

/-- src/spin.rs:203-213 `PartialEq::eq` -/
def eq (self other : Spin F) : Bool :=
  flt (fabs (self.dir.x - other.dir.x)) 0.001
    && flt (fabs (self.dir.y - other.dir.y)) 0.001
    && flt (fabs (self.dir.z - other.dir.z)) 0.001

end Spin

end Verif
