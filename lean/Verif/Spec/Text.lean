/-
Specification: what it means that numbers survive being written as text.
-/
import Verif.Model.Text

namespace Verif.Spec

/-- the numbers of the format: a finite number is one that rounding leaves alone -/
def IsDouble : B64v → Prop
  | .fin q => B64v.round q false = .fin q
  | _ => True

/-- What Rust documents of `{}` for `f64`: the text, parsed, gives the same number. -/
def Prints (disp : B64v → Txt) : Prop := ∀ x, IsDouble x → parseF64 (disp x) = some x

/-- the numbers `average` and `two_point_average` take from the text of a file, line by line -/
def numbersIn (t : Txt) : List (List B64v) := (textFile parseF64 t).map lineData

end Verif.Spec
