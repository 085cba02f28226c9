/-
C108: numbers survive being written as text (/repo/src/spinchain.rs:1070-1151,
/repo/src/spinchain_langevin.rs:193, 407-434, /repo/src/writers.rs, /repo/src/obs.rs:1326-1510).
-/
import Verif.Lemmas.Text
import Verif.Props.Averages
import Mathlib.Data.Nat.Digits.Defs

namespace Verif.Props

open Spec

section
variable {disp : B64v → Txt}

/-! ### Complete files -/

/-- C108: the rows written to a log file are the rows read from it. -/
theorem C108_rows (hp : Prints disp) (rows : List (List B64v)) (hd : ∀ r ∈ rows, ∀ x ∈ r, IsDouble x) :
    numbersIn (rowsText disp rows) = rows := by
  have h := numbersIn_unlines (ls := rows.map fun r => joinSp (r.map disp)) (fun l hl => ?_) (u := []) (by simp)
  · rw [List.append_nil, ← rowsText_unlines] at h
    rw [h, if_pos rfl, List.append_nil, List.map_map]
    conv_rhs => rw [← List.map_id rows]
    exact List.map_congr_left fun r hr => row_read hp (hd r hr)
  · obtain ⟨r, hr, rfl⟩ := List.mem_map.1 hl
    exact ⟨disp_row_plain hp (hd r hr) (by simp [sepChars]) (by decide),
      disp_row_plain hp (hd r hr) (by simp [sepChars]) (by decide)⟩

theorem flatMap_plain (hp : Prints disp) {r : List B64v} (hr : ∀ x ∈ r, IsDouble x) {c : Char} (hc : c ∈ sepChars)
    (h' : c ≠ ' ') : (c ∉ r.flatMap fun x => ' ' :: disp x) ∧ c ∉ r.flatMap fun x => disp x ++ [' '] := by
  constructor <;>
  · intro h
    obtain ⟨x, hx, hc'⟩ := List.mem_flatMap.1 h
    have := disp_plain hp (hr x hx) hc
    simp [this, h'] at hc'

/-- The rows of `avg.dat` (a space before every number) and of `two-point.dat` (a space after every number) are
read back as well, so averages can be averaged again. -/
theorem C108_averages_readable (hp : Prints disp) (rows : List (List B64v)) (hd : ∀ r ∈ rows, ∀ x ∈ r, IsDouble x) :
    numbersIn (avgText disp rows) = rows ∧ numbersIn (twoPointText disp rows) = rows := by
  constructor
  · have h := numbersIn_unlines (ls := rows.map fun r => r.flatMap fun x => ' ' :: disp x) (fun l hl => ?_) (u := [])
      (by simp)
    · rw [List.append_nil, ← avgText_unlines] at h
      rw [h, if_pos rfl, List.append_nil, List.map_map]
      conv_rhs => rw [← List.map_id rows]
      exact List.map_congr_left fun r hr => avg_row_read hp (hd r hr)
    · obtain ⟨r, hr, rfl⟩ := List.mem_map.1 hl
      exact ⟨(flatMap_plain hp (hd r hr) (by simp [sepChars]) (by decide)).1,
        (flatMap_plain hp (hd r hr) (by simp [sepChars]) (by decide)).1⟩
  · have h := numbersIn_unlines (ls := rows.map fun r => r.flatMap fun x => disp x ++ [' ']) (fun l hl => ?_) (u := [])
      (by simp)
    · rw [List.append_nil, ← twoPointText_unlines] at h
      rw [h, if_pos rfl, List.append_nil, List.map_map]
      conv_rhs => rw [← List.map_id rows]
      exact List.map_congr_left fun r hr => two_row_read hp (hd r hr)
    · obtain ⟨r, hr, rfl⟩ := List.mem_map.1 hl
      exact ⟨(flatMap_plain hp (hd r hr) (by simp [sepChars]) (by decide)).2,
        (flatMap_plain hp (hd r hr) (by simp [sepChars]) (by decide)).2⟩

/-- The first line of a Langevin log is a header without numbers, so that skipping it loses nothing; the first line
of the other logs is the first row, which is lost (compare C54). -/
theorem C108_header (hp : Prints disp) (rows : List (List B64v)) (hd : ∀ r ∈ rows, ∀ x ∈ r, IsDouble x) :
    numbersIn (langevinHeader ++ '\n' :: rowsText disp rows) = [] :: rows ∧
    (numbersIn (langevinHeader ++ '\n' :: rowsText disp rows)).drop 1 = rows ∧
    (numbersIn (rowsText disp rows)).drop 1 = rows.drop 1 := by
  have h := numbersIn_unlines (ls := langevinHeader :: rows.map fun r => joinSp (r.map disp)) (fun l hl => ?_) (u := [])
    (by simp)
  · have e : langevinHeader ++ '\n' :: rowsText disp rows
        = unlines (langevinHeader :: rows.map fun r => joinSp (r.map disp)) ++ [] := by
      rw [rowsText_unlines]
      simp [unlines]
    have hh : lineData (textLine parseF64 langevinHeader) = [] := by decide +kernel
    have key : numbersIn (langevinHeader ++ '\n' :: rowsText disp rows) = [] :: rows := by
      rw [e, h, if_pos rfl, List.append_nil, List.map_cons, hh, List.map_map]
      congr 1
      conv_rhs => rw [← List.map_id rows]
      exact List.map_congr_left fun r hr => row_read hp (hd r hr)
    rw [key, C108_rows hp rows hd]
    exact ⟨rfl, rfl, rfl⟩
  · rcases List.mem_cons.1 hl with rfl | hl
    · decide
    · obtain ⟨r, hr, rfl⟩ := List.mem_map.1 hl
      exact ⟨disp_row_plain hp (hd r hr) (by simp [sepChars]) (by decide),
        disp_row_plain hp (hd r hr) (by simp [sepChars]) (by decide)⟩

/-- A message to the averaging writer is read as it was sent. -/
theorem C108_message (hp : Prints disp) (i : ℕ) (e x y z : B64v) (hi : i < 2 ^ 64)
    (hd : ∀ a ∈ [e, x, y, z], IsDouble a) : readMsg parseF64 (msgText disp (i, e, ⟨x, y, z⟩)) = .ok (i, e, ⟨x, y, z⟩) := by
  have he := hd e (by simp)
  have hx := hd x (by simp)
  have hy := hd y (by simp)
  have hz := hd z (by simp)
  have hs : splitChar ' ' (msgText disp (i, e, ⟨x, y, z⟩)) = [natTxt i, disp e, disp x, disp y, disp z] := by
    refine splitChar_joinSp (fun t ht => ?_) (by simp)
    have hsp : (' ' : Char) ∈ sepChars := by simp [sepChars]
    simp only [List.mem_cons, List.not_mem_nil, or_false] at ht
    rcases ht with rfl | rfl | rfl | rfl | rfl
    · exact natTxt_plain hsp
    · exact disp_plain hp he hsp
    · exact disp_plain hp hx hsp
    · exact disp_plain hp hy hsp
    · exact disp_plain hp hz hsp
  unfold readMsg
  simp only [hs]
  have hidx : ∀ (l : List Txt) (k : ℕ) (h : k < l.length), idx l k = .ok l[k] := fun l k h => idx_ok h
  rw [hidx _ 0 (by simp), hidx _ 1 (by simp), hidx _ 2 (by simp), hidx _ 3 (by simp), hidx _ 4 (by simp)]
  simp only [ok_bind, List.getElem_cons_zero, List.getElem_cons_succ, parseUsize_natTxt hi, hp e he, hp x hx, hp y hy,
    hp z hz, unwrapPart]
  rfl

/-! ### Averages -/

variable {m : Libm}

/-- averages are doubles -/
theorem average_doubles {fs : List (List (List (B64 m)))} {out : List (List (B64 m))}
    (h : (avgFiles fs ([], []) >>= fun st => avgOut st) = .ok out) : ∀ r ∈ out, ∀ x ∈ r, IsDouble x := by
  rw [avgOut_eq] at h
  cases h
  intro r hr x hx
  obtain ⟨i, _, rfl⟩ := List.mem_map.1 hr
  obtain ⟨d, _, rfl⟩ := List.mem_map.1 hx
  exact div_isDouble _ _

theorem map_map_map_congr {α β γ δ ε : Type} {l : List α} {h : α → β} {g : β → γ} {f : γ → δ} {k : α → ε} {f' : ε → δ}
    (H : ∀ x ∈ l, f (g (h x)) = f' (k x)) : ((l.map h).map g).map f = (l.map k).map f' := by
  rw [List.map_map, List.map_map, List.map_map]
  exact List.map_congr_left H

theorem drop_read {t : Txt} {f : List (List B64v)} (h : numbersIn t = f) :
    ((textFile parseF64 t).drop 1).map lineData = ((f.map (List.map some)).drop 1).map lineData := by
  have h2 : (f.map (List.map some)).map lineData = f := by
    rw [List.map_map]
    conv_rhs => rw [← List.map_id f]
    refine List.map_congr_left fun r _ => ?_
    show (r.map some).filterMap id = r
    rw [List.filterMap_map]
    exact List.filterMap_some
  rw [List.map_drop, List.map_drop, h2]
  exact congrArg (List.drop 1) h

/-- Averaging files of text is averaging the rows that were written to them, and `avg.dat` holds exactly
the averages. -/
theorem C108_average (hp : Prints disp) (conf : Config (B64 m)) (files : List (List (List (B64 m))))
    (hd : ∀ f ∈ files, ∀ r ∈ f, ∀ x ∈ r, IsDouble x) :
    averageText (F := B64 m) disp parseF64 conf (files.map (rowsText disp))
      = (average conf (files.map (List.map (List.map some)))).map (avgText disp) ∧
    ∀ out, average conf (files.map (List.map (List.map some))) = .ok out → numbersIn (avgText disp out) = out := by
  have key : average (F := B64 m) conf ((files.map (rowsText disp)).map (textFile parseF64))
      = average conf (files.map (List.map (List.map some))) := by
    unfold average
    have e : ((files.map (rowsText disp)).map (textFile (F := B64 m) parseF64)).map (fun f => (f.drop 1).map lineData)
        = (files.map (List.map (List.map some))).map fun f => (f.drop 1).map lineData := by
      refine map_map_map_congr fun f hf => ?_
      have h1 := C108_rows hp f (hd f hf)
      exact drop_read h1
    rw [e]
  constructor
  · unfold averageText
    rw [key]
    cases average conf (files.map (List.map (List.map some))) <;> rfl
  · intro out hout
    refine (C108_averages_readable hp out ?_).1
    unfold average at hout
    unfold withCapacity at hout
    split at hout
    · rw [ok_bind] at hout
      split at hout
      · rw [ok_bind] at hout
        exact average_doubles hout
      · cases hout
    · cases hout

theorem mapRange_congr {α : Type} {lo hi : ℕ} {f g : ℕ → R α} (h : ∀ i, lo ≤ i → i < hi → f i = g i) :
    mapRange lo hi f = mapRange lo hi g := by
  unfold mapRange
  have key : ∀ l : List ℕ, (∀ i ∈ l, f i = g i) → l.mapM f = l.mapM g := by
    intro l hl
    induction l with
    | nil => rfl
    | cons a l ih =>
      rw [List.mapM_cons, List.mapM_cons, hl a (by simp), ih fun i hi => hl i (by simp [hi])]
  refine key _ fun i hi => ?_
  rw [List.mem_range'_1] at hi
  exact h i hi.1 (by omega)

/-- The same for the two-point averages. -/
theorem C108_two_point (hp : Prints disp) (files : List (List (List (B64 m))))
    (hd : ∀ f ∈ files, ∀ r ∈ f, ∀ x ∈ r, IsDouble x) :
    twoPointAverageText (F := B64 m) disp parseF64 (files.map (rowsText disp))
      = (two_point_average (files.map (List.map (List.map some)))).map (twoPointText disp) ∧
    ∀ out, two_point_average (files.map (List.map (List.map some))) = .ok out →
      numbersIn (twoPointText disp out) = out := by
  have key : two_point_average (F := B64 m) ((files.map (rowsText disp)).map (textFile parseF64))
      = two_point_average (files.map (List.map (List.map some))) := by
    unfold two_point_average
    congr 1
    have hlen : ((files.map (rowsText disp)).map (textFile (F := B64 m) parseF64)).length = files.length := by
      rw [List.length_map]
      exact List.length_map _
    have hlen' : (files.map (List.map (List.map (some : B64 m → Option (B64 m))))).length = files.length := by simp
    rw [hlen, hlen']
    refine mapRange_congr fun i _ hi => ?_
    rw [idx_ok (by rw [hlen]; exact hi), idx_ok (by rw [hlen']; exact hi), ok_bind, ok_bind]
    congr 1
    have h1 := C108_rows hp files[i] (hd _ (List.getElem_mem hi))
    have h2 := drop_read h1
    have e1 : ((files.map (rowsText disp)).map (textFile (F := B64 m) parseF64))[i]'(by rw [hlen]; exact hi)
        = textFile (F := B64 m) parseF64 (rowsText disp files[i]) := by
      rw [List.getElem_map]
      congr 1
      exact List.getElem_map _
    rw [e1, List.getElem_map]
    exact h2
  constructor
  · unfold twoPointAverageText
    rw [key]
    cases two_point_average (files.map (List.map (List.map some))) <;> rfl
  · intro out hout
    refine (C108_averages_readable hp out ?_).2
    unfold two_point_average at hout
    revert hout
    generalize mapRange 0 _ _ = q
    intro hout
    cases q with
    | error p => cases hout
    | ok fs => exact average_doubles hout

/-! ### Cut files -/

/-- A file may be cut anywhere, for example because the program was stopped while writing.  Reading it gives the
complete rows before the cut and possibly one more line with the first numbers of the row that was cut and
at most one number more. -/
theorem C108_cut (hp : Prints disp) (rows : List (List B64v)) (hd : ∀ r ∈ rows, ∀ x ∈ r, IsDouble x) (n : ℕ) :
    ∃ k, numbersIn ((rowsText disp rows).take n) = rows.take k ∨
      ∃ r j extra, rows[k]? = some r ∧ extra.length ≤ 1 ∧
        numbersIn ((rowsText disp rows).take n) = rows.take k ++ [r.take j ++ extra] := by
  obtain ⟨k, u, h1, h2⟩ := take_unlines (rows.map fun r => joinSp (r.map disp)) n
  have hrow : ∀ r ∈ rows, '\n' ∉ joinSp (r.map disp) ∧ '\r' ∉ joinSp (r.map disp) := fun r hr =>
    ⟨disp_row_plain hp (hd r hr) (by simp [sepChars]) (by decide),
      disp_row_plain hp (hd r hr) (by simp [sepChars]) (by decide)⟩
  have hl : ∀ l ∈ (rows.map fun r => joinSp (r.map disp)).take k, '\n' ∉ l ∧ '\r' ∉ l := fun l hl => by
    obtain ⟨r, hr, rfl⟩ := List.mem_map.1 (List.mem_of_mem_take hl)
    exact hrow r hr
  have hread : ((rows.map fun r => joinSp (r.map disp)).take k).map (fun l => lineData (textLine parseF64 l)) = rows.take k := by
    rw [← List.map_take, List.map_map]
    conv_rhs => rw [← List.map_id (rows.take k)]
    exact List.map_congr_left fun r hr => row_read hp (hd r (List.mem_of_mem_take hr))
  refine ⟨k, ?_⟩
  rw [rowsText_unlines, h1]
  by_cases hu0 : u = []
  · left
    rw [numbersIn_unlines hl (by simp [hu0]), if_pos hu0, List.append_nil, hread]
  · right
    obtain ⟨l, hl1, hl2⟩ := h2.resolve_left hu0
    rw [List.getElem?_map] at hl1
    obtain ⟨r, hr, rfl⟩ := Option.map_eq_some_iff.1 hl1
    have hmem := List.mem_of_getElem? hr
    have hun : '\n' ∉ u := fun hm => (hrow r hmem).1 (hl2.subset hm)
    obtain ⟨j, v, hj⟩ := prefix_joinSp (fun t ht => by
      obtain ⟨x, hx, rfl⟩ := List.mem_map.1 ht
      exact disp_plain hp (hd r hmem x hx) (by simp [sepChars])) hl2
    refine ⟨r, j, (parseF64 v).toList, hr, by cases parseF64 v <;> simp, ?_⟩
    rw [numbersIn_unlines hl hun, if_neg hu0, hread, lineData_eq, hj, List.filterMap_append, ← List.map_take,
      disp_parse hp fun x hx => hd r hmem x (List.mem_of_mem_take hx)]
    congr 3

/-- Every row written completely before the cut, with its line end, is still there. -/
theorem C108_cut_keeps (hp : Prints disp) (rows : List (List B64v)) (hd : ∀ r ∈ rows, ∀ x ∈ r, IsDouble x) (n k : ℕ)
    (hk : (rowsText disp (rows.take k)).length ≤ n) :
    rows.take k <+: numbersIn ((rowsText disp rows).take n) := by
  have hrow : ∀ r ∈ rows, '\n' ∉ joinSp (r.map disp) ∧ '\r' ∉ joinSp (r.map disp) := fun r hr =>
    ⟨disp_row_plain hp (hd r hr) (by simp [sepChars]) (by decide),
      disp_row_plain hp (hd r hr) (by simp [sepChars]) (by decide)⟩
  obtain ⟨i, u, h1, h2⟩ := take_unlines ((rows.drop k).map fun r => joinSp (r.map disp))
    (n - (rowsText disp (rows.take k)).length)
  have hun : '\n' ∉ u := by
    rcases h2 with rfl | ⟨l, hl1, hl2⟩
    · simp
    · rw [List.getElem?_map] at hl1
      obtain ⟨r, hr, rfl⟩ := Option.map_eq_some_iff.1 hl1
      exact fun hm => (hrow r (List.mem_of_mem_drop (List.mem_of_getElem? hr))).1 (hl2.subset hm)
  have hsplit : rowsText disp rows = rowsText disp (rows.take k) ++ rowsText disp (rows.drop k) := by
    conv_lhs => rw [← List.take_append_drop k rows]
    rw [rowsText_unlines, rowsText_unlines, rowsText_unlines, List.map_append]
    exact List.flatMap_append
  have htake : (rowsText disp rows).take n
      = unlines ((rows.take k ++ (rows.drop k).take i).map fun r => joinSp (r.map disp)) ++ u := by
    rw [hsplit, List.take_append, List.take_of_length_le hk]
    conv_lhs => rw [rowsText_unlines (rows := rows.drop k), h1]
    rw [rowsText_unlines, List.map_append, List.map_take (l := rows.drop k)]
    simp [unlines]
  have hmem : ∀ r ∈ rows.take k ++ (rows.drop k).take i, r ∈ rows := fun r hr => by
    rcases List.mem_append.1 hr with h | h
    · exact List.mem_of_mem_take h
    · exact List.mem_of_mem_drop (List.mem_of_mem_take h)
  rw [htake, numbersIn_unlines (fun l hl => by
    obtain ⟨r, hr, rfl⟩ := List.mem_map.1 hl
    exact hrow r (hmem r hr)) hun, List.map_map]
  have hread : (rows.take k ++ (rows.drop k).take i).map
      ((fun l => lineData (textLine parseF64 l)) ∘ fun r => joinSp (r.map disp)) = rows.take k ++ (rows.drop k).take i := by
    conv_rhs => rw [← List.map_id (rows.take k ++ (rows.drop k).take i)]
    exact List.map_congr_left fun r hr => row_read hp (hd r (hmem r hr))
  rw [hread, List.append_assoc]
  exact List.prefix_append _ _

end

/-- The number read at a cut need not be the one that was being written, and nothing warns of it: 12.5 is
read as 1. -/
theorem C108_cut_wrong : ∃ (disp : B64v → Txt) (n : ℕ), Prints disp ∧ IsDouble (.fin (25 / 2)) ∧
    numbersIn ((rowsText disp [[.fin (25 / 2)]]).take n) = [[.fin 1]] := by
  refine ⟨exactDisp, 1, fun x hx => exactDisp_parse hx, ?_, ?_⟩
  · show B64v.round (25 / 2) false = .fin (25 / 2)
    decide +kernel
  · decide +kernel

/-- A word that is not a number is left out, and the numbers after it move to other columns. -/
theorem C108_words_dropped : lineData (textLine parseF64 "1 x 2".toList) = [.fin 1, .fin 2] ∧
    lineData (textLine parseF64 "1  2".toList) = [.fin 1, .fin 2] ∧
    lineData (textLine parseF64 "nan -inf +1e1 .5 2.".toList) = [.nan, .inf true, .fin 10, .fin (1 / 2), .fin 2] := by
  refine ⟨?_, ?_, ?_⟩ <;> decide +kernel

theorem numOf_ofDigits (ds : List ℕ) : numOf ds = Nat.ofDigits 10 ds.reverse := by
  induction ds using List.reverseRecOn with
  | nil => rfl
  | append_singleton ds d ih =>
    rw [numOf_append, ih, List.reverse_append, List.reverse_singleton, List.singleton_append, Nat.ofDigits_cons]
    simp [numOf]
    ring

theorem decVal_pow (k : ℕ) (e : ℤ) : decVal k e = (k : ℚ) * 10 ^ e := by
  unfold decVal
  split
  · rename_i h
    obtain ⟨n, rfl⟩ := Int.eq_ofNat_of_zero_le h
    push_cast
    simp
  · rename_i h
    obtain ⟨n, hn⟩ := Int.eq_ofNat_of_zero_le (show 0 ≤ -e by omega)
    have he : e = -(n : ℤ) := by omega
    rw [he, neg_neg, Int.toNat_natCast, Rat.mkRat_eq_div, zpow_neg, zpow_natCast]
    push_cast
    rw [div_eq_mul_inv]

/-- the digits `i`, a point, the digits `f` and the exponent `e`, as a number -/
def decimal (i f : List ℕ) (e : ℤ) : ℚ :=
  (Nat.ofDigits 10 i.reverse + Nat.ofDigits 10 f.reverse / 10 ^ f.length) * 10 ^ e

theorem parseDec_digits {i f : List ℕ} (hi : ∀ d ∈ i, d < 10) (hf : ∀ d ∈ f, d < 10) (h : i ≠ [] ∨ f ≠ []) {u : Txt}
    (hu : ∀ c ∈ u.head?, digitVal c = none) :
    parseDec (i.map digitChar ++ '.' :: (f.map digitChar ++ u))
      = (parseExp u).map fun e : ℤ => (numOf (i ++ f), e - f.length) := by
  unfold parseDec
  rw [takeDigits_digits hi (by simp [digitVal])]
  simp only [takeFrac, takeDigits_digits hf hu]
  rw [if_neg]
  rintro ⟨h1, h2⟩
  exact h.elim (fun h => h h1) fun h => h h2

theorem decimal_eq (i f : List ℕ) (e : ℤ) : decVal (numOf (i ++ f)) (e - f.length) = decimal i f e := by
  rw [decVal_pow, numOf_append, numOf_ofDigits, numOf_ofDigits, decimal, zpow_sub₀ (by norm_num), zpow_natCast]
  have : (10 : ℚ) ^ f.length ≠ 0 := by positivity
  field_simp
  push_cast
  ring

theorem takeSign_dot {i : List ℕ} (hi : ∀ d ∈ i, d < 10) (u : Txt) :
    takeSign (i.map digitChar ++ '.' :: u) = (false, i.map digitChar ++ '.' :: u) := by
  cases i with
  | nil => rfl
  | cons d i => exact digit_head hi (by simp) _

/-- Reading decimal text is reading the nearest number: of all digits before and after the point, with a sign or
an exponent of either sign. -/
theorem C108_decimal (i f x : List ℕ) (hi : ∀ d ∈ i, d < 10) (hf : ∀ d ∈ f, d < 10) (hx : ∀ d ∈ x, d < 10)
    (h : i ≠ [] ∨ f ≠ []) (hx0 : x ≠ []) :
    parseF64 (i.map digitChar ++ '.' :: f.map digitChar) = some (B64v.round (decimal i f 0) false) ∧
    parseF64 ('-' :: (i.map digitChar ++ '.' :: f.map digitChar)) = some (B64v.round (-decimal i f 0) true) ∧
    parseF64 (i.map digitChar ++ '.' :: (f.map digitChar ++ 'e' :: x.map digitChar))
      = some (B64v.round (decimal i f (Nat.ofDigits 10 x.reverse)) false) ∧
    parseF64 (i.map digitChar ++ '.' :: (f.map digitChar ++ 'e' :: '-' :: x.map digitChar))
      = some (B64v.round (decimal i f (-Nat.ofDigits 10 x.reverse)) false) := by
  have hu := fun (u : Txt) (hu : ∀ c ∈ u.head?, digitVal c = none) => parseDec_digits hi hf h hu
  have h0 := hu [] (by simp)
  rw [List.append_nil] at h0
  have hx' := takeDigits_digits hx (u := []) (by simp)
  rw [List.append_nil] at hx'
  have hs : takeSign (x.map digitChar) = (false, x.map digitChar) := by
    have := digit_head hx hx0 []
    rwa [List.append_nil] at this
  have e1 : parseExp ('e' :: x.map digitChar) = some (Nat.ofDigits 10 x.reverse : ℤ) := by
    unfold parseExp
    simp only [hs, hx', numOf_ofDigits]
    simp [hx0]
    exact Nat.coe_ofDigits ℤ 10 _
  have e2 : parseExp ('e' :: '-' :: x.map digitChar) = some (-(Nat.ofDigits 10 x.reverse : ℤ)) := by
    unfold parseExp
    have : takeSign ('-' :: x.map digitChar) = (true, x.map digitChar) := rfl
    simp only [this, hx', numOf_ofDigits]
    simp [hx0]
    exact Nat.coe_ofDigits ℤ 10 _
  refine ⟨?_, ?_, ?_, ?_⟩
  · unfold parseF64
    simp only [takeSign_dot hi, h0, parseExp, Option.map_some, decimal_eq]
    simp
  · unfold parseF64
    have : takeSign ('-' :: (i.map digitChar ++ '.' :: f.map digitChar))
      = (true, i.map digitChar ++ '.' :: f.map digitChar) := rfl
    simp only [this, h0, parseExp, Option.map_some, decimal_eq]
    simp
  · unfold parseF64
    simp only [takeSign_dot hi, hu ('e' :: x.map digitChar) (by simp [digitVal]), e1, Option.map_some, decimal_eq]
    simp
  · unfold parseF64
    simp only [takeSign_dot hi, hu ('e' :: '-' :: x.map digitChar) (by simp [digitVal]), e2, Option.map_some,
      decimal_eq]
    simp

example : decimal [1, 2] [5] (-1) = 5 / 4 ∧
    [1, 2].map digitChar ++ '.' :: ([5].map digitChar ++ 'e' :: '-' :: [1].map digitChar) = "12.5e-1".toList ∧
    (∀ d ∈ [1, 2, 5], d < 10) := by
  refine ⟨by norm_num [decimal, Nat.ofDigits], by decide +kernel, by decide⟩

/-- There is a way of printing numbers that can be read back: the hypothesis of the theorems above is satisfiable. -/
theorem C108_printable : Prints exactDisp := fun _ hx => exactDisp_parse hx

example : (∀ r ∈ [[B64v.fin (1 / 2), .nan], [.inf true, .nzero, .fin (-3)]], ∀ x ∈ r, IsDouble x) ∧
    rowsText exactDisp [[B64v.fin (1 / 2), .nan], [.inf true, .nzero, .fin (-3)]]
      = "0.5 NaN\n-inf -0 -3\n".toList := by
  constructor
  · intro r hr x hx
    simp only [List.mem_cons, List.not_mem_nil, or_false] at hr
    rcases hr with rfl | rfl <;> simp only [List.mem_cons, List.not_mem_nil, or_false] at hx
    · rcases hx with rfl | rfl
      · show B64v.round (1 / 2) false = .fin (1 / 2)
        decide +kernel
      · exact True.intro
    · rcases hx with rfl | rfl | rfl
      · exact True.intro
      · exact True.intro
      · show B64v.round (-3) false = .fin (-3)
        decide +kernel
  · decide +kernel

/-- a message that meets the hypotheses of `C108_message` -/
example : ((7 : ℕ) < 2 ^ 64 ∧ ∀ a ∈ [B64v.fin 1, .nan, .inf false, .nzero], IsDouble a) ∧
    msgText exactDisp (7, .fin 1, ⟨.nan, .inf false, .nzero⟩) = "7 1 NaN inf -0".toList := by
  refine ⟨⟨by norm_num, ?_⟩, by decide +kernel⟩
  simp only [List.mem_cons, List.not_mem_nil, or_false]
  rintro a (rfl | rfl | rfl | rfl)
  · show B64v.round 1 false = .fin 1
    decide +kernel
  all_goals exact True.intro

end Verif.Props
