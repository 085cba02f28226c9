/-
Helper lemmas about the text of log files.
-/
import Verif.Spec.Text
import Verif.Lemmas.B64
import Mathlib.Tactic.IntervalCases
import Mathlib.Data.Nat.Prime.Basic

namespace Verif

open Spec

/-! ### Splitting and joining -/

theorem splitChar_ne (c : Char) (t : Txt) : splitChar c t ≠ [] := by
  cases t with
  | nil => simp [splitChar]
  | cons x xs =>
    unfold splitChar
    split
    · simp
    · split <;> simp

theorem splitChar_plain {c : Char} {t : Txt} (h : c ∉ t) : splitChar c t = [t] := by
  induction t with
  | nil => rfl
  | cons x xs ih =>
    unfold splitChar
    rw [if_neg (fun e : x = c => h (by rw [e]; exact List.mem_cons_self)), ih (fun e => h (List.mem_cons_of_mem _ e))]

theorem splitChar_append {c : Char} {t : Txt} (h : c ∉ t) (u : Txt) :
    splitChar c (t ++ c :: u) = t :: splitChar c u := by
  induction t with
  | nil => simp [splitChar]
  | cons x xs ih =>
    show splitChar c (x :: (xs ++ c :: u)) = _
    rw [splitChar, if_neg (fun e : x = c => h (by rw [e]; exact List.mem_cons_self)), ih (fun e => h (List.mem_cons_of_mem _ e))]

theorem splitChar_joinSp {ts : List Txt} (h : ∀ t ∈ ts, ' ' ∉ t) (hne : ts ≠ []) : splitChar ' ' (joinSp ts) = ts := by
  induction ts with
  | nil => exact absurd rfl hne
  | cons t ts ih =>
    cases ts with
    | nil => exact splitChar_plain (h t List.mem_cons_self)
    | cons u us =>
      show splitChar ' ' (t ++ ' ' :: joinSp (u :: us)) = _
      rw [splitChar_append (h t List.mem_cons_self), ih (fun x hx => h x (List.mem_cons_of_mem _ hx)) (by simp)]

theorem mem_joinSp {ts : List Txt} {c : Char} (h : c ∈ joinSp ts) : c = ' ' ∨ ∃ t ∈ ts, c ∈ t := by
  induction ts with
  | nil => simp [joinSp] at h
  | cons t ts ih =>
    cases ts with
    | nil => exact Or.inr ⟨t, List.mem_cons_self, h⟩
    | cons u us =>
      rcases List.mem_append.1 (show c ∈ t ++ ' ' :: joinSp (u :: us) from h) with h | h
      · exact Or.inr ⟨t, List.mem_cons_self, h⟩
      · rcases List.mem_cons.1 h with h | h
        · exact Or.inl h
        · rcases ih h with h | ⟨t', h1, h2⟩
          · exact Or.inl h
          · exact Or.inr ⟨t', List.mem_cons_of_mem _ h1, h2⟩

/-- lines: each ends with an end of line -/
def unlines (ls : List Txt) : Txt := ls.flatMap fun l => l ++ ['\n']

theorem splitChar_unlines {ls : List Txt} (h : ∀ l ∈ ls, '\n' ∉ l) {u : Txt} (hu : '\n' ∉ u) :
    splitChar '\n' (unlines ls ++ u) = ls ++ [u] := by
  induction ls with
  | nil => simpa [unlines] using splitChar_plain hu
  | cons l ls ih =>
    have : unlines (l :: ls) ++ u = l ++ '\n' :: (unlines ls ++ u) := by simp [unlines]
    rw [this, splitChar_append (h l List.mem_cons_self), ih fun l' hl => h l' (List.mem_cons_of_mem _ hl)]
    rfl

theorem stripCR_plain {t : Txt} (h : '\r' ∉ t) : stripCR t = t := by
  unfold stripCR
  rw [if_neg]
  intro e
  exact h (List.mem_of_getLast? e)

/-- the lines of a file of complete lines followed by the piece `u` of a line -/
theorem fileLines_unlines {ls : List Txt} (h : ∀ l ∈ ls, '\n' ∉ l ∧ '\r' ∉ l) {u : Txt} (hu : '\n' ∉ u) :
    fileLines (unlines ls ++ u) = ls ++ if u = [] then [] else [u] := by
  unfold fileLines
  rw [splitChar_unlines (fun l hl => (h l hl).1) hu]
  simp only [List.dropLast_concat, List.getLast?_concat, Option.getD_some]
  congr 1
  conv_rhs => rw [← List.map_id ls]
  exact List.map_congr_left fun l hl => stripCR_plain (h l hl).2

/-! ### Digits -/

theorem digitVal_char {d : ℕ} (h : d < 10) : digitVal (digitChar d) = some d := by
  interval_cases d <;> rfl

theorem takeDigits_digits {ds : List ℕ} (h : ∀ d ∈ ds, d < 10) {u : Txt} (hu : ∀ c ∈ u.head?, digitVal c = none) :
    takeDigits (ds.map digitChar ++ u) = (ds, u) := by
  induction ds with
  | nil =>
    cases u with
    | nil => rfl
    | cons c cs =>
      have := hu c (by simp)
      simp [takeDigits, this]
  | cons d ds ih =>
    have := digitVal_char (h d List.mem_cons_self)
    simp [takeDigits, this, ih fun x hx => h x (List.mem_cons_of_mem _ hx)]

theorem numOf_append (a b : List ℕ) : numOf (a ++ b) = numOf a * 10 ^ b.length + numOf b := by
  induction b using List.reverseRecOn with
  | nil => simp [numOf]
  | append_singleton b d ih =>
    have h : ∀ xs : List ℕ, numOf (xs ++ [d]) = 10 * numOf xs + d := fun xs => by simp [numOf]
    rw [← List.append_assoc, h, h, ih]
    simp only [List.length_append, List.length_singleton, pow_succ]
    ring

/-- the digits of a number -/
def natDigs (n : ℕ) : List ℕ := if n < 10 then [n] else natDigs (n / 10) ++ [n % 10]

theorem natDigs_lt (n : ℕ) : ∀ d ∈ natDigs n, d < 10 := by
  induction n using Nat.strongRecOn with
  | _ n ih =>
    rw [natDigs]
    split
    · intro d hd
      rw [List.mem_singleton] at hd
      omega
    · intro d hd
      rcases List.mem_append.1 hd with h | h
      · exact ih (n / 10) (by omega) d h
      · rw [List.mem_singleton] at h
        omega

theorem natDigs_ne (n : ℕ) : natDigs n ≠ [] := by
  rw [natDigs]
  split <;> simp

theorem numOf_natDigs (n : ℕ) : numOf (natDigs n) = n := by
  induction n using Nat.strongRecOn with
  | _ n ih =>
    rw [natDigs]
    split
    · simp [numOf]
    · rw [numOf_append, ih (n / 10) (by omega)]
      simp only [List.length_singleton, pow_one, numOf, List.foldl_cons, List.foldl_nil]
      omega

theorem natTxt_eq (n : ℕ) : natTxt n = (natDigs n).map digitChar := by
  induction n using Nat.strongRecOn with
  | _ n ih =>
    rw [natTxt, natDigs]
    split
    · rfl
    · rw [ih (n / 10) (by omega)]
      simp

/-- `k` digits, with leading zeros -/
def padDigs : ℕ → ℕ → List ℕ
  | 0, _ => []
  | k + 1, n => padDigs k (n / 10) ++ [n % 10]

theorem padDigs_lt (k n : ℕ) : ∀ d ∈ padDigs k n, d < 10 := by
  induction k generalizing n with
  | zero => simp [padDigs]
  | succ k ih =>
    intro d hd
    rcases List.mem_append.1 hd with h | h
    · exact ih _ d h
    · rw [List.mem_singleton] at h
      omega

theorem padDigs_length (k n : ℕ) : (padDigs k n).length = k := by
  induction k generalizing n with
  | zero => rfl
  | succ k ih => simp [padDigs, ih]

theorem numOf_padDigs (k n : ℕ) (h : n < 10 ^ k) : numOf (padDigs k n) = n := by
  induction k generalizing n with
  | zero =>
    simp only [pow_zero] at h
    simp [padDigs, numOf]
    omega
  | succ k ih =>
    rw [padDigs, numOf_append, ih (n / 10) (by rw [pow_succ] at h; omega)]
    simp only [List.length_singleton, pow_one, numOf, List.foldl_cons, List.foldl_nil]
    omega

theorem digit_head {ds : List ℕ} (h : ∀ d ∈ ds, d < 10) (hne : ds ≠ []) (u : Txt) :
    takeSign (ds.map digitChar ++ u) = (false, ds.map digitChar ++ u) := by
  cases ds with
  | nil => exact absurd rfl hne
  | cons d ds =>
    have hd := h d List.mem_cons_self
    interval_cases d <;> rfl

theorem parseUsize_natTxt {n : ℕ} (h : n < 2 ^ 64) : parseUsize (natTxt n) = some n := by
  have hd := takeDigits_digits (natDigs_lt n) (u := []) (by simp)
  rw [List.append_nil, ← natTxt_eq] at hd
  have hp : dropPlus (natTxt n) = natTxt n := by
    rw [natTxt_eq]
    have hne := natDigs_ne n
    have hlt := natDigs_lt n
    cases hds : natDigs n with
    | nil => exact absurd hds hne
    | cons d ds =>
      rw [hds] at hlt
      have hd := hlt d List.mem_cons_self
      interval_cases d <;> rfl
  unfold parseUsize
  simp only [hp, hd, numOf_natDigs]
  rw [if_neg (by simp [natDigs_ne]), if_pos h]

/-! ### Texts that parse contain no separators -/

/-- characters that separate numbers, rows or lists -/
def sepChars : List Char := [' ', '\n', '\r', ',']

theorem digit_not_sep {c : Char} {d : ℕ} (h : digitVal c = some d) : c ∉ sepChars := by
  intro hc
  simp only [sepChars, List.mem_cons, List.not_mem_nil, or_false] at hc
  rcases hc with rfl | rfl | rfl | rfl <;> simp [digitVal] at h

theorem takeDigits_sep {t : Txt} {c : Char} (hc : c ∈ sepChars) (h : c ∈ t) : c ∈ (takeDigits t).2 := by
  induction t with
  | nil => exact h
  | cons x xs ih =>
    unfold takeDigits
    split
    · rename_i d hd
      rcases List.mem_cons.1 h with rfl | h
      · exact absurd hc (digit_not_sep hd)
      · exact ih h
    · exact h

theorem takeSign_sep {t : Txt} {c : Char} (hc : c ∈ sepChars) (h : c ∈ t) : c ∈ (takeSign t).2 := by
  unfold takeSign
  split
  · rcases List.mem_cons.1 h with rfl | h
    · simp [sepChars] at hc
    · exact h
  · rcases List.mem_cons.1 h with rfl | h
    · simp [sepChars] at hc
    · exact h
  · exact h

theorem takeFrac_sep {t : Txt} {c : Char} (hc : c ∈ sepChars) (h : c ∈ t) : c ∈ (takeFrac t).2 := by
  unfold takeFrac
  split
  · rcases List.mem_cons.1 h with rfl | h
    · simp [sepChars] at hc
    · exact takeDigits_sep hc h
  · exact h

theorem parseExp_sep {t : Txt} {c : Char} (hc : c ∈ sepChars) (h : c ∈ t) : parseExp t = none := by
  cases t with
  | nil => simp at h
  | cons x xs =>
    rw [parseExp]
    split
    · rename_i hx
      rcases List.mem_cons.1 h with rfl | h
      · rcases hx with rfl | rfl <;> simp [sepChars] at hc
      · have h2 := takeDigits_sep hc (takeSign_sep hc h)
        have : (takeDigits (takeSign xs).2).2 ≠ [] := fun e => by rw [e] at h2; simp at h2
        simp [this]
    · rfl

theorem parseDec_sep {t : Txt} {c : Char} (hc : c ∈ sepChars) (h : c ∈ t) : parseDec t = none := by
  have h2 := parseExp_sep hc (takeFrac_sep hc (takeDigits_sep hc h))
  unfold parseDec
  simp only [h2]
  split <;> rfl

theorem parseWord_sep {b : Bool} {t : Txt} {c : Char} (hc : c ∈ sepChars) (h : c ∈ t) : parseWord b t = none := by
  have h1 : c.toLower ∈ t.map Char.toLower := List.mem_map_of_mem h
  have h2 : c.toLower = c := by
    simp only [sepChars, List.mem_cons, List.not_mem_nil, or_false] at hc
    rcases hc with rfl | rfl | rfl | rfl <;> rfl
  rw [h2] at h1
  have hn : ∀ w : Txt, (∀ x ∈ sepChars, x ∉ w) → t.map Char.toLower ≠ w := fun w hw e => hw c hc (e ▸ h1)
  unfold parseWord
  simp only
  rw [if_neg, if_neg]
  · exact hn _ (by decide)
  · exact not_or.2 ⟨hn _ (by decide), hn _ (by decide)⟩

/-- a text that parses as a number contains no separator -/
theorem parseF64_plain {t : Txt} {x : B64v} (h : parseF64 t = some x) {c : Char} (hc : c ∈ sepChars) : c ∉ t := by
  intro hm
  have h1 := takeSign_sep hc hm
  unfold parseF64 at h
  simp only [parseDec_sep hc h1, parseWord_sep hc h1] at h
  cases h

theorem parseF64_nil : parseF64 [] = none := by
  decide +kernel

theorem natTxt_plain {n : ℕ} {c : Char} (hc : c ∈ sepChars) : c ∉ natTxt n := by
  rw [natTxt_eq]
  intro h
  obtain ⟨d, hd, rfl⟩ := List.mem_map.1 h
  exact digit_not_sep (digitVal_char (natDigs_lt n d hd)) hc

/-! ### Doubles -/

theorem rnd_of_rep {y : ℚ} (h : Rep y) : rnd y = y := by
  have := rnd_nearest y y h
  rw [sub_self, abs_zero] at this
  exact sub_eq_zero.1 (abs_eq_zero.1 (le_antisymm this (abs_nonneg _)))

/-- results of rounding are doubles -/
theorem round_isDouble (q : ℚ) (b : Bool) : IsDouble (B64v.round q b) := by
  obtain ⟨P, hP⟩ : ∃ P, P = pow2 1024 := ⟨_, rfl⟩
  unfold B64v.round
  rw [← hP]
  by_cases h0 : q = 0
  · rw [if_pos h0]
    cases b
    · show B64v.round 0 false = .fin 0
      unfold B64v.round
      simp
    · exact True.intro
  · rw [if_neg h0]
    dsimp only
    by_cases h1 : rnd q = 0
    · rw [if_pos h1]
      by_cases h2 : q < 0
      · rw [if_pos h2]; exact True.intro
      · rw [if_neg h2]
        show B64v.round 0 false = .fin 0
        unfold B64v.round
        simp
    · rw [if_neg h1]
      by_cases h2 : P ≤ rnd q
      · rw [if_pos h2]; exact True.intro
      · rw [if_neg h2]
        by_cases h3 : rnd q ≤ -P
        · rw [if_pos h3]; exact True.intro
        · rw [if_neg h3]
          show B64v.round (rnd q) false = .fin (rnd q)
          unfold B64v.round
          rw [← hP, if_neg h1]
          dsimp only
          rw [rnd_of_rep (rnd_rep q), if_neg h1, if_neg h2, if_neg h3]

theorem isDouble_rep {q : ℚ} (h : IsDouble (B64v.fin q)) : Rep q := by
  have h' : B64v.round q false = .fin q := h
  unfold B64v.round at h'
  by_cases h0 : q = 0
  · rw [h0]
    exact ⟨0, 0, by norm_num, by norm_num, by norm_num⟩
  · rw [if_neg h0] at h'
    dsimp only at h'
    split_ifs at h' with h1 h2 h3 h4
    · cases h'
      exact absurd rfl h0
    · have := B64v.fin.inj h'
      rw [← this]
      exact rnd_rep q

theorem rep_den {q : ℚ} (h : Rep q) : ∃ k, q.den = 2 ^ k := by
  obtain ⟨n, j, _, _, rfl⟩ := h
  rcases le_or_gt 0 j with hj | hj
  · obtain ⟨d, rfl⟩ := Int.eq_ofNat_of_zero_le hj
    refine ⟨0, ?_⟩
    have : ((n : ℚ) * 2 ^ ((d : ℕ) : ℤ)) = ((n * 2 ^ d : ℤ) : ℚ) := by push_cast; rw [zpow_natCast]
    rw [this]
    rfl
  · obtain ⟨d, hd⟩ := Int.eq_ofNat_of_zero_le (by omega : 0 ≤ -j)
    have : ((n : ℚ) * 2 ^ j) = (n : ℚ) / ((2 ^ d : ℕ) : ℤ) := by
      rw [show j = -(d : ℤ) by omega, zpow_neg, zpow_natCast]
      push_cast
      rfl
    rw [this]
    have hdvd : (((n : ℚ) / ((2 ^ d : ℕ) : ℤ)).den : ℤ) ∣ ((2 ^ d : ℕ) : ℤ) := by
      rw [← Rat.divInt_eq_div]
      exact Rat.den_dvd _ _
    have hd2 := Int.natCast_dvd_natCast.1 hdvd
    obtain ⟨k, _, hk⟩ := (Nat.dvd_prime_pow Nat.prime_two).1 hd2
    exact ⟨k, hk⟩

/-! ### A way of printing numbers that can be read back -/

/-- the decimal expansion of `n / 2 ^ k` -/
def decTxt (n k : ℕ) : Txt :=
  (natDigs (n * 5 ^ k / 10 ^ k)).map digitChar
    ++ if k = 0 then [] else '.' :: (padDigs k (n * 5 ^ k % 10 ^ k)).map digitChar

/-- all digits of a double -/
def exactDisp : B64v → Txt
  | .nan => ['N', 'a', 'N']
  | .inf b => (if b then ['-'] else []) ++ ['i', 'n', 'f']
  | .nzero => ['-', '0']
  | .fin q => (if q < 0 then ['-'] else []) ++ decTxt q.num.natAbs q.den.log2

theorem parseDec_decTxt (n k : ℕ) : parseDec (decTxt n k) = some (n * 5 ^ k, -(k : ℤ)) := by
  set N := n * 5 ^ k with hN
  have hp : 0 < 10 ^ k := by positivity
  have hhead : ∀ c ∈ (if k = 0 then [] else '.' :: (padDigs k (N % 10 ^ k)).map digitChar : Txt).head?,
      digitVal c = none := by
    intro c hc
    split at hc
    · simp at hc
    · simp only [List.head?_cons, Option.mem_def, Option.some.injEq] at hc
      subst hc
      rfl
  have h1 := takeDigits_digits (natDigs_lt (N / 10 ^ k)) hhead
  have h2 : takeFrac (if k = 0 then [] else '.' :: (padDigs k (N % 10 ^ k)).map digitChar)
      = (padDigs k (N % 10 ^ k), []) := by
    split
    · rename_i h0
      subst h0
      rfl
    · have := takeDigits_digits (padDigs_lt k (N % 10 ^ k)) (u := []) (by simp)
      rw [List.append_nil] at this
      exact this
  unfold parseDec decTxt
  rw [← hN]
  simp only [h1, h2]
  rw [if_neg (by simp [natDigs_ne])]
  simp only [parseExp, Option.map_some, padDigs_length, numOf_append, numOf_natDigs,
    numOf_padDigs k _ (Nat.mod_lt _ hp), Nat.div_add_mod']
  simp

theorem decVal_eq (n k : ℕ) : decVal (n * 5 ^ k) (-(k : ℤ)) = (n : ℚ) / 2 ^ k := by
  have h : decVal (n * 5 ^ k) (-(k : ℤ)) = ((n * 5 ^ k : ℕ) : ℚ) / 10 ^ k := by
    unfold decVal
    rcases Nat.eq_zero_or_pos k with rfl | hk
    · simp
    · rw [if_neg (by omega), neg_neg, Int.toNat_natCast, Rat.mkRat_eq_div]
      push_cast
      rfl
  rw [h]
  push_cast
  rw [show (10 : ℚ) = 5 * 2 by norm_num, mul_pow]
  field_simp

/-- reading what was printed -/
theorem exactDisp_parse {x : B64v} (h : IsDouble x) : parseF64 (exactDisp x) = some x := by
  cases x with
  | nan => decide +kernel
  | inf b => cases b <;> decide +kernel
  | nzero => decide +kernel
  | fin q =>
    obtain ⟨k, hk⟩ := rep_den (isDouble_rep h)
    have hl : q.den.log2 = k := by rw [hk, Nat.log2_two_pow]
    have hdec := parseDec_decTxt q.num.natAbs k
    have hv := decVal_eq q.num.natAbs k
    have hq : (q.num : ℚ) / 2 ^ k = q := by
      have := Rat.num_div_den q
      rw [hk] at this
      push_cast at this
      exact this
    show parseF64 ((if q < 0 then ['-'] else []) ++ decTxt q.num.natAbs q.den.log2) = _
    rw [hl]
    by_cases hneg : q < 0
    · rw [if_pos hneg]
      unfold parseF64
      have hs : takeSign (['-'] ++ decTxt q.num.natAbs k) = (true, decTxt q.num.natAbs k) := rfl
      simp only [hs, hdec, hv, if_true]
      have hnum : q.num < 0 := Rat.num_neg.2 hneg
      have e : -((q.num.natAbs : ℚ) / 2 ^ k) = q := by
        have : (q.num.natAbs : ℚ) = -(q.num : ℚ) := by
          have h2 : ((q.num.natAbs : ℤ)) = -q.num := by omega
          have h3 : (((q.num.natAbs : ℤ)) : ℚ) = ((-q.num : ℤ) : ℚ) := by rw [h2]
          push_cast at h3
          rw [← h3]
          simp
        rw [this, neg_div, neg_neg, hq]
      rw [e]
      have h' : B64v.round q false = .fin q := h
      rw [← h']
      unfold B64v.round
      rw [if_neg hneg.ne, if_neg hneg.ne]
    · rw [if_neg hneg, List.nil_append]
      unfold parseF64
      have hs : takeSign (decTxt q.num.natAbs k) = (false, decTxt q.num.natAbs k) :=
        digit_head (natDigs_lt _) (natDigs_ne _) _
      simp only [hs, hdec, hv]
      have hnum : 0 ≤ q.num := Rat.num_nonneg.2 (not_lt.1 hneg)
      have e : ((q.num.natAbs : ℚ) / 2 ^ k) = q := by
        have : (q.num.natAbs : ℚ) = (q.num : ℚ) := by
          have h2 : ((q.num.natAbs : ℤ)) = q.num := by omega
          have h3 : (((q.num.natAbs : ℤ)) : ℚ) = ((q.num : ℤ) : ℚ) := by rw [h2]
          push_cast at h3
          rw [← h3]
          simp
        rw [this, hq]
      simp only [Bool.false_eq_true, if_false, e]
      exact congrArg some h

/-! ### Rows -/

theorem add_isDouble (x y : B64v) : IsDouble (x.add y) := by
  unfold B64v.add
  split <;> first | exact True.intro | exact round_isDouble _ _ | (split <;> exact True.intro)

theorem div_isDouble (x y : B64v) : IsDouble (x.div y) := by
  unfold B64v.div
  split
  all_goals first
    | exact True.intro
    | exact round_isDouble _ _
    | (split
       · split <;> exact True.intro
       · exact round_isDouble _ _)

section
variable {disp : B64v → Txt} (hp : Prints disp)
include hp

theorem disp_plain {x : B64v} (hx : IsDouble x) {c : Char} (hc : c ∈ sepChars) : c ∉ disp x :=
  parseF64_plain (hp x hx) hc

theorem disp_parse {r : List B64v} (hr : ∀ x ∈ r, IsDouble x) : (r.map disp).filterMap parseF64 = r := by
  induction r with
  | nil => rfl
  | cons x xs ih =>
    rw [List.map_cons, List.filterMap_cons, hp x (hr x List.mem_cons_self)]
    simp only [ih fun y hy => hr y (List.mem_cons_of_mem _ hy)]

omit hp in
theorem lineData_eq (t : Txt) : lineData (textLine parseF64 t) = (splitChar ' ' t).filterMap parseF64 := by
  unfold lineData textLine
  rw [List.filterMap_map]
  rfl

theorem disp_row_plain {r : List B64v} (hr : ∀ x ∈ r, IsDouble x) {c : Char} (hc : c ∈ sepChars) (h' : c ≠ ' ') :
    c ∉ joinSp (r.map disp) := by
  intro h
  rcases mem_joinSp h with h | ⟨t, ht, hct⟩
  · exact h' h
  · obtain ⟨x, hx, rfl⟩ := List.mem_map.1 ht
    exact disp_plain hp (hr x hx) hc hct

theorem row_read {r : List B64v} (hr : ∀ x ∈ r, IsDouble x) :
    lineData (textLine parseF64 (joinSp (r.map disp))) = r := by
  rw [lineData_eq]
  cases r with
  | nil =>
    show List.filterMap parseF64 [[]] = []
    rw [List.filterMap_cons, parseF64_nil]
    rfl
  | cons x xs =>
    rw [splitChar_joinSp (fun t ht => ?_) (by simp)]
    · exact disp_parse hp hr
    · obtain ⟨y, hy, rfl⟩ := List.mem_map.1 ht
      exact disp_plain hp (hr y hy) (by simp [sepChars])

theorem avg_row_read {r : List B64v} (hr : ∀ x ∈ r, IsDouble x) :
    lineData (textLine parseF64 (r.flatMap fun x => ' ' :: disp x)) = r := by
  rw [lineData_eq]
  have key : ∀ (t : Txt), ' ' ∉ t → (splitChar ' ' (t ++ r.flatMap fun x => ' ' :: disp x)) = t :: r.map disp := by
    induction r with
    | nil =>
      intro t ht
      simpa using splitChar_plain ht
    | cons x xs ih =>
      intro t ht
      rw [List.flatMap_cons, List.cons_append, splitChar_append ht,
        ih (fun y hy => hr y (List.mem_cons_of_mem _ hy)) _
          (disp_plain hp (hr x List.mem_cons_self) (by simp [sepChars]))]
      rfl
  have := key [] (by simp)
  rw [List.nil_append] at this
  rw [this, List.filterMap_cons, parseF64_nil]
  exact disp_parse hp hr

theorem two_row_read {r : List B64v} (hr : ∀ x ∈ r, IsDouble x) :
    lineData (textLine parseF64 (r.flatMap fun x => disp x ++ [' '])) = r := by
  rw [lineData_eq]
  have key : (splitChar ' ' (r.flatMap fun x => disp x ++ [' '])) = r.map disp ++ [[]] := by
    induction r with
    | nil => rfl
    | cons x xs ih =>
      rw [List.flatMap_cons, List.append_assoc, List.singleton_append,
        splitChar_append (disp_plain hp (hr x List.mem_cons_self) (by simp [sepChars])),
        ih fun y hy => hr y (List.mem_cons_of_mem _ hy)]
      rfl
  rw [key, List.filterMap_append, disp_parse hp hr, List.filterMap_cons, parseF64_nil]
  simp

omit hp in
theorem rowsText_unlines (rows : List (List B64v)) : rowsText disp rows = unlines (rows.map fun r => joinSp (r.map disp)) := by
  unfold rowsText unlines
  rw [List.flatMap_map]

omit hp in
theorem avgText_unlines (rows : List (List B64v)) :
    avgText disp rows = unlines (rows.map fun r => r.flatMap fun x => ' ' :: disp x) := by
  unfold avgText unlines
  rw [List.flatMap_map]

omit hp in
theorem twoPointText_unlines (rows : List (List B64v)) :
    twoPointText disp rows = unlines (rows.map fun r => r.flatMap fun x => disp x ++ [' ']) := by
  unfold twoPointText unlines
  rw [List.flatMap_map]

omit hp in
/-- reading a file of complete lines and a piece -/
theorem numbersIn_unlines {ls : List Txt} (h : ∀ l ∈ ls, '\n' ∉ l ∧ '\r' ∉ l) {u : Txt} (hu : '\n' ∉ u) :
    numbersIn (unlines ls ++ u) = (ls.map fun l => lineData (textLine parseF64 l))
      ++ if u = [] then [] else [lineData (textLine parseF64 u)] := by
  unfold numbersIn textFile
  rw [fileLines_unlines h hu]
  by_cases hu0 : u = []
  · simp [hu0, Function.comp_def]
  · simp [hu0, Function.comp_def]

end

/-! ### Cut files -/

theorem take_unlines (ls : List Txt) (n : ℕ) : ∃ k u, (unlines ls).take n = unlines (ls.take k) ++ u ∧
    (u = [] ∨ ∃ l, ls[k]? = some l ∧ u <+: l) := by
  induction ls generalizing n with
  | nil => exact ⟨0, [], by simp [unlines], Or.inl rfl⟩
  | cons l ls ih =>
    have e : unlines (l :: ls) = l ++ '\n' :: unlines ls := by simp [unlines]
    rcases Nat.lt_or_ge n (l.length + 1) with h | h
    · refine ⟨0, l.take n, ?_, Or.inr ⟨l, rfl, List.take_prefix _ _⟩⟩
      rw [e, List.take_append_of_le_length (by omega)]
      simp [unlines]
    · obtain ⟨k, u, h1, h2⟩ := ih (n - (l.length + 1))
      refine ⟨k + 1, u, ?_, ?_⟩
      · rw [e, List.take_append, List.take_of_length_le (by omega),
          show n - l.length = (n - (l.length + 1)) + 1 by omega, List.take_succ_cons, h1]
        simp [unlines]
      · simpa using h2

theorem prefix_append_cases {α : Type} {u a b : List α} (h : u <+: a ++ b) : u <+: a ∨ ∃ u', u = a ++ u' ∧ u' <+: b := by
  obtain ⟨w, hw⟩ := h
  rcases List.append_eq_append_iff.1 hw with ⟨x, h1, h2⟩ | ⟨x, h1, h2⟩
  · exact Or.inl ⟨x, h1.symm⟩
  · exact Or.inr ⟨x, h1, ⟨w, h2.symm⟩⟩

theorem prefix_joinSp {ts : List Txt} (h : ∀ t ∈ ts, ' ' ∉ t) {u : Txt} (hu : u <+: joinSp ts) :
    ∃ j v, splitChar ' ' u = ts.take j ++ [v] := by
  induction ts generalizing u with
  | nil =>
    have : u = [] := List.prefix_nil.1 hu
    exact ⟨0, [], by rw [this]; rfl⟩
  | cons t ts ih =>
    have ht := h t List.mem_cons_self
    have hplain : u <+: t → ∃ j v, splitChar ' ' u = (t :: ts).take j ++ [v] := fun hpre =>
      ⟨0, u, by rw [splitChar_plain fun hm => ht (hpre.subset hm)]; rfl⟩
    cases ts with
    | nil => exact hplain hu
    | cons s ss =>
      rcases prefix_append_cases (show u <+: t ++ ' ' :: joinSp (s :: ss) from hu) with hpre | ⟨u', rfl, hu'⟩
      · exact hplain hpre
      · cases u' with
        | nil => exact hplain (by simp)
        | cons c cs =>
          obtain ⟨hc, hcs⟩ := List.cons_prefix_cons.1 hu'
          subst hc
          obtain ⟨j, v, hj⟩ := ih (fun x hx => h x (List.mem_cons_of_mem _ hx)) hcs
          refine ⟨j + 1, v, ?_⟩
          rw [splitChar_append ht, hj]
          rfl

end Verif
