/-
The text of the log files: how numbers become text and how `average`, `two_point_average`
(/repo/src/obs.rs:1326-1510) and `profile_in_bg` (/repo/src/writers.rs:11-48) read them back.

A text is a list of characters; a file that is not UTF-8 (a panic in `line.unwrap()`) is not modelled.
How `{}` prints a floating-point number is a parameter `disp` of the functions below.
-/
import Verif.Model.Writers
import Verif.Instances.B64

namespace Verif

abbrev Txt := List Char

/-! ### The standard library -/

/-- `str::split(c)`: the parts between the characters `c`; there is always at least one part -/
def splitChar (c : Char) : Txt → List Txt
  | [] => [[]]
  | x :: xs =>
    if x = c then [] :: splitChar c xs
    else match splitChar c xs with
      | [] => [[x]]
      | p :: ps => (x :: p) :: ps

/-- a carriage return before an end of line belongs to the end of line -/
def stripCR (t : Txt) : Txt := if t.getLast? = some '\r' then t.dropLast else t

/-- `BufRead::lines`: a last line without an end of line counts if it is not empty -/
def fileLines (t : Txt) : List Txt :=
  let ps := splitChar '\n' t
  ps.dropLast.map stripCR ++ if ps.getLast?.getD [] = [] then [] else [ps.getLast?.getD []]

/-- the value of a decimal digit -/
def digitVal (c : Char) : Option Nat := if 48 ≤ c.toNat ∧ c.toNat ≤ 57 then some (c.toNat - 48) else none

/-- the digits at the beginning of a text, and the rest -/
def takeDigits : Txt → List Nat × Txt
  | [] => ([], [])
  | c :: cs => match digitVal c with
    | some d => (d :: (takeDigits cs).1, (takeDigits cs).2)
    | none => ([], c :: cs)

/-- the number with the given decimal digits -/
def numOf (ds : List Nat) : Nat := ds.foldl (fun a d => 10 * a + d) 0

/-- an optional sign: whether it is a minus, and the rest -/
def takeSign : Txt → Bool × Txt
  | '-' :: cs => (true, cs)
  | '+' :: cs => (false, cs)
  | cs => (false, cs)

/-- the exponent of a number: nothing, or `e` or `E` with a number -/
def parseExp : Txt → Option Int
  | [] => some 0
  | c :: cs =>
    if c = 'e' ∨ c = 'E' then
      let s := takeSign cs
      let d := takeDigits s.2
      if d.1 = [] ∨ d.2 ≠ [] then none else some (if s.1 then -(numOf d.1 : Int) else numOf d.1)
    else none

/-- the part after the digits before the point: the digits after it, and the rest -/
def takeFrac : Txt → List Nat × Txt
  | '.' :: cs => takeDigits cs
  | cs => ([], cs)

/-- a decimal number without sign: `m * 10 ^ e` -/
def parseDec (t : Txt) : Option (Nat × Int) :=
  let i := takeDigits t
  let f := takeFrac i.2
  if i.1 = [] ∧ f.1 = [] then none
  else (parseExp f.2).map fun e => (numOf (i.1 ++ f.1), e - f.1.length)

/-- `m * 10 ^ e` -/
def decVal (m : Nat) (e : Int) : ℚ :=
  if 0 ≤ e then ((m * 10 ^ e.toNat : ℕ) : ℚ) else mkRat m (10 ^ (-e).toNat)

/-- `infinity`, `inf` and `nan` in any mixture of upper and lower case -/
def parseWord (neg : Bool) (t : Txt) : Option B64v :=
  let w := t.map Char.toLower
  if w = ['i', 'n', 'f'] ∨ w = ['i', 'n', 'f', 'i', 'n', 'i', 't', 'y'] then some (.inf neg)
  else if w = ['n', 'a', 'n'] then some .nan
  else none

/-- `str::parse::<f64>`: the grammar documented for `f64::from_str`; the decimal number is rounded
correctly -/
def parseF64 (t : Txt) : Option B64v :=
  let s := takeSign t
  match parseDec s.2 with
  | some (m, e) => some (B64v.round (if s.1 then -decVal m e else decVal m e) s.1)
  | none => parseWord s.1 s.2

/-- an optional plus sign -/
def dropPlus : Txt → Txt
  | '+' :: cs => cs
  | cs => cs

/-- `str::parse::<usize>` -/
def parseUsize (t : Txt) : Option Nat :=
  let d := takeDigits (dropPlus t)
  if d.1 = [] ∨ d.2 ≠ [] then none else if numOf d.1 < 2 ^ 64 then some (numOf d.1) else none

/-- a decimal digit -/
def digitChar (d : Nat) : Char := Char.ofNat (48 + d)

/-- `{}` of a `usize` -/
def natTxt (n : Nat) : Txt := if n < 10 then [digitChar n] else natTxt (n / 10) ++ [digitChar (n % 10)]

/-! ### Writing -/

variable {F : Type}

/-- `"{} {} .. {}"`, for example src/spinchain.rs:1126-1142 -/
def joinSp : List Txt → Txt
  | [] => []
  | [t] => t
  | t :: ts => t ++ ' ' :: joinSp ts

/-- the text of a file of rows `writeln!(f, "{} {} .. {}", ..)`: src/spinchain.rs:1099-1104, 1126-1143,
src/spinchain_langevin.rs:420-433 and the rows sent to `write_in_bg` (src/writers.rs:6) -/
def rowsText (disp : F → Txt) (rows : List (List F)) : Txt :=
  rows.flatMap fun r => joinSp (r.map disp) ++ ['\n']

/-- src/obs.rs:1498-1508: the rows of `avg.dat`; every number has a space before it -/
def avgText (disp : F → Txt) (rows : List (List F)) : Txt :=
  rows.flatMap fun r => (r.flatMap fun x => ' ' :: disp x) ++ ['\n']

/-- src/obs.rs:1428-1433: the rows of `two-point.dat`; every number has a space after it -/
def twoPointText (disp : F → Txt) (rows : List (List F)) : Txt :=
  rows.flatMap fun r => (r.flatMap fun x => disp x ++ [' ']) ++ ['\n']

/-- src/spinchain_langevin.rs:193 -/
def langevinHeader : Txt := "#t E_total E_sub M_x M_y M_z".toList

/-- src/obs.rs:1232-1234, 1690-1691: a message to `profile_in_bg` -/
def msgText (disp : F → Txt) (m : ProfileMsg F) : Txt :=
  joinSp [natTxt m.1, disp m.2.1, disp m.2.2.x, disp m.2.2.y, disp m.2.2.z]

/-! ### Reading -/

/-- `line.split(' ')` with what each part parses to; src/obs.rs:1367-1370, 1388-1391, 1470-1473 -/
def textLine (parse : Txt → Option F) (t : Txt) : Line F := (splitChar ' ' t).map parse

/-- a file as lines of numbers -/
def textFile (parse : Txt → Option F) (t : Txt) : List (Line F) := (fileLines t).map (textLine parse)

variable [Add F] [Sub F] [Mul F] [Div F] [Neg F] [OfScientific F] [FOps F]

/-- src/obs.rs:1436-1510 `average`, from the texts of the files to the text of `avg.dat` -/
def averageText (disp : F → Txt) (parse : Txt → Option F) (conf : Config F) (files : List Txt) : R Txt := do
  return avgText disp (← average conf (files.map (textFile parse)))

/-- src/obs.rs:1326-1434 `two_point_average`, from the texts of the files to the text of `two-point.dat` -/
def twoPointAverageText (disp : F → Txt) (parse : Txt → Option F) (files : List Txt) : R Txt := do
  return twoPointText disp (← two_point_average (files.map (textFile parse)))

/-- `opt.unwrap()` of a parsed part -/
def unwrapPart {α : Type} (p : Option α) : R α :=
  match p with
  | some x => .ok x
  | none => .error .unwrap

/-- src/writers.rs:25-32: reading a message -/
def readMsg (parse : Txt → Option F) (t : Txt) : R (ProfileMsg F) := do
  let v := splitChar ' ' t
  let index ← unwrapPart (parseUsize (← idx v 0))
  let e ← unwrapPart (parse (← idx v 1))
  let sx ← unwrapPart (parse (← idx v 2))
  let sy ← unwrapPart (parse (← idx v 3))
  let sz ← unwrapPart (parse (← idx v 4))
  return (index, e, ⟨sx, sy, sz⟩)

end Verif
