/-
Transcription of /repo/src/writers.rs, of the division of work in `run_mc`, `run_mc_magnus` and
`run_mc_profile` (/repo/src/obs.rs:1512-1791), and of `average` and `two_point_average`
(/repo/src/obs.rs:1326-1510).
-/
import Verif.Model.Runs

namespace Verif

variable {F : Type} [Add F] [Sub F] [Mul F] [Div F] [Neg F] [OfScientific F] [FOps F]

/-! ### Division of the work -/

/-- `a + b` on `u32`: a debug build (`chk = true`) panics on overflow, a release build wraps. -/
def u32add (chk : Bool) (a b : Nat) : R Nat :=
  if a + b < 2 ^ 32 then .ok (a + b) else if chk then .error .overflow else .ok ((a + b) % 2 ^ 32)

/-- `a * b` on `u32` -/
def u32mul (chk : Bool) (a b : Nat) : R Nat :=
  if a * b < 2 ^ 32 then .ok (a * b) else if chk then .error .overflow else .ok (a * b % 2 ^ 32)

/-- `a - b` on `u32` -/
def u32sub (chk : Bool) (a b : Nat) : R Nat :=
  if b ≤ a then .ok (a - b) else if chk then .error .underflow else .ok (a + 2 ^ 32 - b)

/-- src/obs.rs:1543-1546, 1633-1636, 1734-1737 -/
def mcThreads (threads points : Nat) : Nat := if points ≤ threads then points else threads

/-- The numbers of points of the workers, src/obs.rs:1543-1560, 1633-1650, 1734-1751 (three copies of
the same statements).  `ThreadPool::new(0)` panics. -/
def mcSplit (chk : Bool) (threads points : Nat) : R (List Nat) := do
  let threads := mcThreads threads points
  if threads = 0 then throw .invalidConfig
  let t_points := points / threads % 2 ^ 32
  mapRange 0 threads fun i => do
    if i = threads - 1 then
      let a ← u32add chk t_points (points % 2 ^ 32)
      let b ← u32mul chk (threads % 2 ^ 32) t_points
      u32sub chk a b
    else return t_points

/-! ### The averaging writer -/

/-- src/writers.rs:26-39: one message is added to the sums of its site.  Numbers are formatted with
`{}` and parsed back, which gives the same number (`C108_message`); the model passes the number itself. -/
def profileAdd (acc : List (F × V3 F)) (m : ProfileMsg F) : R (List (F × V3 F)) := do
  let a ← idx acc m.1
  setIdx acc m.1 (a.1 + m.2.1, ⟨a.2.x + m.2.2.x, a.2.y + m.2.2.y, a.2.z + m.2.2.z⟩)

/-- src/writers.rs:24-40: `n` messages are taken from the channel.  The senders stay alive, so a
`recv` on an empty channel waits for ever (`none`). -/
def profileLoop : Nat → List (ProfileMsg F) → List (F × V3 F) → R (Option (List (F × V3 F)))
  | 0, _, acc => .ok (some acc)
  | _ + 1, [], _ => .ok none
  | n + 1, m :: ms, acc => do
    let acc ← profileAdd acc m
    profileLoop n ms acc

/-- src/writers.rs:11-48 `profile_in_bg`: the rows written when the messages `recv` arrive in this
order (and no others) -/
def profileWriter (size pts : Nat) (recv : List (ProfileMsg F)) : R (Option (List (ProfileMsg F))) := do
  match ← profileLoop (size * pts) recv (List.replicate size (0.0, ⟨0.0, 0.0, 0.0⟩)) with
  | none => return none
  | some acc =>
    let p : F := fofInt pts
    return some (acc.zipIdx.map fun a => (a.2, a.1.1 / p, ⟨a.1.2.x / p, a.1.2.y / p, a.1.2.z / p⟩))

/-! ### The writer of rows -/

/-- The pieces `writeln!(&file, "{}", row)` hands to the operating system: `File` is not buffered, so
the text and the end of line are two writes. -/
inductive Piece (Row : Type) where
  | text (r : Row)
  | eol
  deriving DecidableEq

/-- The state of the program while workers send rows to a file through `write_in_bg`
(src/writers.rs:3-9): the rows each worker still has to send, the rows in the channel, whether the
writer is between the two writes of a row, the contents of the file, and whether the process is
still alive.  `sent` is a ghost: all rows sent so far in the order in which the channel got them, with
the number of the worker. -/
structure BgState (Row : Type) where
  todo : List (List Row)
  chan : List Row
  half : Bool
  file : List (Piece Row)
  alive : Bool
  sent : List (Nat × Row)

/-- One step of the program: a worker sends its next row; the writer thread takes a row and writes
its text, or ends the line; the process ends.  The main thread waits for the workers (`m.join()`) but
not for the writer; with `crash` the process may end at any moment. -/
inductive BgStep {Row : Type} (crash : Bool) : BgState Row → BgState Row → Prop
  | send (s : BgState Row) (k : Nat) (r : Row) (rs : List Row) : s.alive = true →
      s.todo[k]? = some (r :: rs) →
      BgStep crash s { s with
        todo := s.todo.set k rs
        chan := s.chan ++ [r]
        sent := s.sent ++ [(k, r)] }
  | text (s : BgState Row) (r : Row) (rs : List Row) : s.alive = true → s.half = false →
      s.chan = r :: rs →
      BgStep crash s { s with
        chan := rs
        half := true
        file := s.file ++ [.text r] }
  | eol (s : BgState Row) : s.alive = true → s.half = true →
      BgStep crash s { s with
        half := false
        file := s.file ++ [.eol] }
  | exit (s : BgState Row) : s.alive = true → (crash = true ∨ ∀ l ∈ s.todo, l = []) →
      BgStep crash s { s with alive := false }

/-- The state in which the workers start; `file` is what the file held before (`append(true)`). -/
def BgState.start {Row : Type} (todo : List (List Row)) (file : List (Piece Row)) : BgState Row :=
  { todo, chan := [], half := false, file, alive := true, sent := [] }

/-! ### Averages over log files -/

/-- A line of a log file: its parts between single spaces, `none` for a part that is not a number -/
abbrev Line (F : Type) := List (Option F)

/-- `line.split(' ').flat_map(str::parse::<f64>).collect()`, src/obs.rs:1467-1470 -/
def lineData (l : Line F) : List F := l.filterMap id

/-- src/obs.rs:1473-1486 and 1401-1414: `avg_data` and `avg_nums` after one line with number `i` -/
def avgLine (st : List (List F) × List F) (i : Nat) (data : List F) : R (List (List F) × List F) :=
  if i = st.2.length then .ok (st.1 ++ [data], st.2 ++ [1.0])
  else do
    let n ← idx st.2 i
    let nums ← setIdx st.2 i (n + 1.0)
    let d ← idx st.1 i
    let rows ← setIdx st.1 i (List.zipWith (fun x y => x + y) d data)
    return (rows, nums)

/-- the loop over the lines of one file (already without the first) -/
def avgLines : List (List F) → Nat → List (List F) × List F → R (List (List F) × List F)
  | [], _, st => .ok st
  | l :: ls, i, st => do
    let st ← avgLine st i l
    avgLines ls (i + 1) st

/-- the loop over the files -/
def avgFiles : List (List (List F)) → List (List F) × List F → R (List (List F) × List F)
  | [], st => .ok st
  | f :: fs, st => do
    let st ← avgLines f 0 st
    avgFiles fs st

/-- src/obs.rs:1496-1508 and 1424-1432: the numbers written, line by line -/
def avgOut (st : List (List F) × List F) : R (List (List F)) :=
  mapRange 0 st.1.length fun i => do
    let row ← idx st.1 i
    let n ← idx st.2 i
    return row.map fun d => d / n

/-- `Vec::with_capacity(n)` for elements of `size` bytes panics above `isize::MAX` bytes.  (Running
out of memory is not modelled.) -/
def withCapacity (n size : Nat) : R Unit :=
  if n * size < 2 ^ 63 then .ok () else .error .capacity

/-- src/obs.rs:1436-1510 `average`; `files` are the files matching the pattern, in the order of
`glob`, as lists of lines.  Files that cannot be opened or are not text (both panic) are not
modelled. -/
def average (conf : Config F) (files : List (List (Line F))) : R (List (List F)) := do
  withCapacity (ftoNat (conf.t / conf.dt)) 24
  withCapacity (ftoNat (conf.t / conf.dt)) 8
  let st ← avgFiles (files.map fun f => (f.drop 1).map lineData) ([], [])
  avgOut st

/-- src/obs.rs:1362-1371: the last line (after the first) with time zero -/
def zeroRow : List (List F) → List F → R (List F)
  | [], t0 => .ok t0
  | l :: ls, t0 => do
    let t ← idx l 0
    if flt (fabs t) 1e-5 then zeroRow ls l else zeroRow ls t0

/-- src/obs.rs:1391-1398 -/
def timesZero (t0 : List F) (l : List F) : R (List F) :=
  mapRange 0 l.length fun i => do
    let x ← idx l i
    if i = 0 then return x else return x * (← idx t0 i)

/-- the lines of one file as they enter the two-point average -/
def twoPointFile (f : List (List F)) : R (List (List F)) := do
  let t0 ← zeroRow f []
  mapRange 0 f.length fun i => do timesZero t0 (← idx f i)

/-- src/obs.rs:1326-1434 `two_point_average`.  The lines of a file are multiplied first and added
afterwards, here; the program does both line by line, with the same result. -/
def two_point_average (files : List (List (Line F))) : R (List (List F)) := do
  let fs ← mapRange 0 files.length fun k => do
    twoPointFile (((← idx files k).drop 1).map lineData)
  let st ← avgFiles fs ([], [])
  avgOut st

/-! ### Monte-Carlo runs -/

/-- src/obs.rs:1550-1601 (`run_mc_magnus`), 1640-1696 (`run_mc_profile`), 1741-1792 (`run_mc`): what the
workers send, worker by worker.  `r i` are the random numbers of chain `i` (made by the main thread)
and of worker `i`.  A panic of a worker ends only that worker in the program, and is an error here. -/
def mcJobs {α : Type} (chk : Bool) (conf : Config F)
    (worker : SpinChain F → Nat → (Nat → Nat → Draw F) → R (SpinChain F × List α))
    (r : Nat → Rand F) : R (List (List α)) := do
  let split ← mcSplit chk conf.threads conf.mc_points
  mapRange 0 split.length fun i => do
    let points ← idx split i
    let c ← SpinChain.new conf i (r i).u (r i).zj (r i).zh
    let (_, rows) ← worker c points (r i).ds
    return rows

/-- src/obs.rs:1703-1792 `run_mc` -/
def run_mc (chk : Bool) (conf : Config F) (r : Nat → Rand F) : R (List (List (List F))) :=
  mcJobs chk conf mcWorker r

/-- src/obs.rs:1512-1601 `run_mc_magnus` -/
def run_mc_magnus (chk : Bool) (conf : Config F) (r : Nat → Rand F) : R (List (List (List F))) :=
  mcJobs chk conf mcMagnusWorker r

/-- src/obs.rs:1603-1701 `run_mc_profile`: the messages of the workers, snapshot by snapshot -/
def run_mc_profile (chk : Bool) (conf : Config F) (r : Nat → Rand F) :
    R (List (List (List (ProfileMsg F)))) :=
  mcJobs chk conf mcProfileWorker r

/-- src/obs.rs:605-671 `gen_hist_dynamics`: the rows of the workers; `r i` are the random numbers of
chain `i` (all chains carry the number 0).  The rows reach the file in any order. -/
def gen_hist_dynamics (conf : Config F) (sample_num : Nat) (r : Nat → Rand F) : R (List (List F)) := do
  if mcThreads conf.threads sample_num = 0 then throw .invalidConfig
  mapRange 0 sample_num fun i => do
    let c ← SpinChain.new conf 0 (r i).u (r i).zj (r i).zh
    let row ← dynHistJob conf c
    return fofInt i :: row

end Verif
