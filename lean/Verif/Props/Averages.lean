/-
C54, C55: averages over log files.
-/
import Verif.Model.Writers
import Verif.Lemmas.LogTotal
import Verif.Lemmas.Spectrum
import Verif.Instances.Real
import Mathlib.Algebra.BigOperators.Group.List.Basic
import Mathlib.Data.List.GetD
import Mathlib.Tactic.NormNum
import Mathlib.Tactic.FieldSimp

set_option linter.unusedSectionVars false

namespace Verif.Props

/-- the lines with number `i` of those files that have one -/
def linesAt {α : Type} (fs : List (List α)) (i : ℕ) : List α := fs.filterMap fun f => f[i]?

/-- the number of lines of the longest file -/
def longest {α : Type} (fs : List (List α)) : ℕ := (fs.map List.length).foldr max 0

theorem lt_longest {α : Type} {fs : List (List α)} {i : ℕ} :
    i < longest fs ↔ ∃ f ∈ fs, i < f.length := by
  unfold longest
  induction fs with
  | nil => simp
  | cons f fs ih =>
    simp only [List.map_cons, List.foldr_cons, List.mem_cons, exists_eq_or_imp, ← ih]
    exact lt_max_iff

theorem linesAt_ne_nil {α : Type} {fs : List (List α)} {i : ℕ} (h : i < longest fs) :
    linesAt fs i ≠ [] := by
  obtain ⟨f, hf, hi⟩ := lt_longest.mp h
  intro hn
  unfold linesAt at hn
  rw [List.filterMap_eq_nil_iff] at hn
  have := hn f hf
  rw [List.getElem?_eq_getElem hi] at this
  cases this

theorem linesAt_eq_nil {α : Type} {fs : List (List α)} {i : ℕ} (h : longest fs ≤ i) :
    linesAt fs i = [] := by
  unfold linesAt
  rw [List.filterMap_eq_nil_iff]
  intro f hf
  rw [List.getElem?_eq_none]
  by_contra hc
  have := lt_longest.mpr ⟨f, hf, not_le.mp hc⟩
  omega

section anyF

variable {F : Type} [Add F] [Sub F] [Mul F] [Div F] [Neg F] [OfScientific F] [FOps F]

/-- what `avg_data` holds for a list of lines -/
def fold (rows : List (List F)) : List F :=
  match rows with
  | [] => []
  | r :: rs => rs.foldl (List.zipWith fun x y => x + y) r

/-- what `avg_nums` holds for a list of lines -/
def count (rows : List (List F)) : F :=
  match rows with
  | [] => 0.0
  | _ :: rs => rs.foldl (fun n _ => n + 1.0) 1.0

/-- `avg_data` and `avg_nums` after the files `fs` -/
def avgState (fs : List (List (List F))) : List (List F) × List F :=
  ((List.range (longest fs)).map fun i => fold (linesAt fs i),
    (List.range (longest fs)).map fun i => count (linesAt fs i))

theorem fold_snoc (rows : List (List F)) (h : rows ≠ []) (l : List F) :
    fold (rows ++ [l]) = List.zipWith (fun x y => x + y) (fold rows) l := by
  cases rows with
  | nil => exact absurd rfl h
  | cons r rs => simp [fold]

theorem count_snoc (rows : List (List F)) (h : rows ≠ []) (l : List F) :
    count (rows ++ [l]) = count rows + 1.0 := by
  cases rows with
  | nil => exact absurd rfl h
  | cons r rs => simp [count]

theorem linesAt_snoc {α : Type} (fs : List (List α)) (f : List α) (i : ℕ) :
    linesAt (fs ++ [f]) i = linesAt fs i ++ (f[i]?).toList := by
  unfold linesAt
  rw [List.filterMap_append]
  cases h : f[i]? <;> simp [h]

theorem longest_snoc {α : Type} (fs : List (List α)) (f : List α) :
    longest (fs ++ [f]) = max (longest fs) f.length := by
  induction fs with
  | nil => simp [longest]
  | cons g gs ih =>
    have e : ∀ (g : List α) gs, longest (g :: gs) = max g.length (longest gs) := fun _ _ => rfl
    rw [List.cons_append, e, ih, e, max_assoc]

theorem avgLine_eq (fs : List (List (List F))) (f : List (List F)) (k : ℕ) (hk : k < f.length) :
    avgLine (avgState (fs ++ [f.take k])) k f[k] = .ok (avgState (fs ++ [f.take (k + 1)])) := by
  have hl1 : (f.take k).length = k := by rw [List.length_take]; omega
  have hl2 : (f.take (k + 1)).length = k + 1 := by rw [List.length_take]; omega
  have hn1 : longest (fs ++ [f.take k]) = max (longest fs) k := by rw [longest_snoc, hl1]
  have hn2 : longest (fs ++ [f.take (k + 1)]) = max (longest fs) (k + 1) := by rw [longest_snoc, hl2]
  have hne : ∀ i, i ≠ k → linesAt (fs ++ [f.take (k + 1)]) i = linesAt (fs ++ [f.take k]) i := by
    intro i hi
    rw [linesAt_snoc, linesAt_snoc]
    congr 2
    rw [List.getElem?_take, List.getElem?_take]
    by_cases h : i < k
    · rw [if_pos h, if_pos (by omega)]
    · rw [if_neg h, if_neg (by omega)]
  have hk1 : linesAt (fs ++ [f.take k]) k = linesAt fs k := by
    rw [linesAt_snoc, List.getElem?_eq_none (by omega)]
    simp
  have hk2 : linesAt (fs ++ [f.take (k + 1)]) k = linesAt fs k ++ [f[k]] := by
    rw [linesAt_snoc, List.getElem?_take, if_pos (by omega), List.getElem?_eq_getElem hk]
    rfl
  unfold avgLine
  have hlen : (avgState (fs ++ [f.take k])).2.length = max (longest fs) k := by
    simp [avgState, hn1]
  have hlen1 : (avgState (fs ++ [f.take k])).1.length = max (longest fs) k := by
    simp [avgState, hn1]
  rw [hlen]
  by_cases hc : k = max (longest fs) k
  · rw [if_pos hc]
    have hfs : linesAt fs k = [] := linesAt_eq_nil (by omega)
    rw [hfs] at hk1 hk2
    have e1 : max (longest fs) k = k := hc.symm
    have e2 : max (longest fs) (k + 1) = k + 1 := by omega
    unfold avgState
    rw [hn1, hn2, e1, e2, List.range_succ, List.map_append, List.map_append]
    refine congrArg Except.ok (Prod.ext ?_ ?_)
    · show _ ++ _ = _ ++ _
      congr 1
      · refine List.map_congr_left fun i hi => ?_
        rw [hne i (by have := List.mem_range.mp hi; omega)]
      · simp [hk2, fold]
    · show _ ++ _ = _ ++ _
      congr 1
      · refine List.map_congr_left fun i hi => ?_
        rw [hne i (by have := List.mem_range.mp hi; omega)]
      · simp [hk2, count]
  · rw [if_neg hc]
    have hkl : k < longest fs := by omega
    have e1 : max (longest fs) k = longest fs := by omega
    have e2 : max (longest fs) (k + 1) = longest fs := by omega
    rw [e1] at hlen hlen1
    have hne' := linesAt_ne_nil hkl
    rw [idx_ok (by omega), ok_bind, setIdx_ok (by omega), ok_bind, idx_ok (by omega), ok_bind,
      setIdx_ok (by omega), ok_bind]
    refine congrArg Except.ok (Prod.ext ?_ ?_)
    · apply List.ext_getElem
      · simp [avgState, hn1, hn2, e1, e2]
      intro i h1 h2
      by_cases hi : i = k
      · subst hi
        rw [List.getElem_set_self]
        simp only [avgState, List.getElem_map, List.getElem_range, hk1, hk2, fold_snoc _ hne']
      · rw [List.getElem_set_ne (Ne.symm hi)]
        simp only [avgState, List.getElem_map, List.getElem_range, hne i hi]
    · apply List.ext_getElem
      · simp [avgState, hn1, hn2, e1, e2]
      intro i h1 h2
      by_cases hi : i = k
      · subst hi
        rw [List.getElem_set_self]
        simp only [avgState, List.getElem_map, List.getElem_range, hk1, hk2, count_snoc _ hne']
      · rw [List.getElem_set_ne (Ne.symm hi)]
        simp only [avgState, List.getElem_map, List.getElem_range, hne i hi]

theorem avgLines_eq (fs : List (List (List F))) (f : List (List F)) : ∀ n k, n = f.length - k → k ≤ f.length →
    avgLines (f.drop k) k (avgState (fs ++ [f.take k])) = .ok (avgState (fs ++ [f])) := by
  intro n
  induction n with
  | zero =>
    intro k hn hk
    have : k = f.length := by omega
    subst this
    rw [List.drop_length, List.take_length]
    rfl
  | succ n ih =>
    intro k hn hk
    have hk' : k < f.length := by omega
    rw [List.drop_eq_getElem_cons hk', avgLines, avgLine_eq fs f k hk', ok_bind]
    exact ih (k + 1) (by omega) (by omega)

theorem avgState_nil (fs : List (List (List F))) : avgState (fs ++ [[]]) = avgState fs := by
  have h1 : longest (fs ++ [[]]) = longest fs := by rw [longest_snoc]; simp
  have h2 : ∀ i, linesAt (fs ++ [[]]) i = linesAt fs i := by intro i; rw [linesAt_snoc]; simp
  unfold avgState
  simp only [h1, h2]

theorem avgFiles_eq (fs : List (List (List F))) : ∀ gs : List (List (List F)),
    avgFiles fs (avgState gs) = .ok (avgState (gs ++ fs)) := by
  induction fs with
  | nil => intro gs; rw [List.append_nil]; rfl
  | cons f fs ih =>
    intro gs
    have := avgLines_eq gs f f.length 0 rfl (Nat.zero_le _)
    rw [List.drop_zero, List.take_zero, avgState_nil] at this
    rw [avgFiles, this, ok_bind, ih, List.append_assoc]
    rfl

theorem avgOut_eq (fs : List (List (List F))) :
    (avgFiles fs ([], []) >>= fun st => avgOut st) = .ok ((List.range (longest fs)).map fun i =>
      (fold (linesAt fs i)).map fun d => d / count (linesAt fs i)) := by
  have h0 : (([], []) : List (List F) × List F) = avgState [] := rfl
  rw [h0, avgFiles_eq, ok_bind, List.nil_append]
  unfold avgOut
  have hl : (avgState fs).1.length = longest fs := by simp [avgState]
  have hl2 : (avgState fs).2.length = longest fs := by simp [avgState]
  rw [hl, List.range_eq_range', mapRange_ok (fun i => (fold (linesAt fs i)).map fun d =>
    d / count (linesAt fs i)), Nat.sub_zero]
  intro i _ hi
  rw [idx_ok (by omega), ok_bind, idx_ok (by omega), ok_bind]
  simp only [avgState, List.getElem_map, List.getElem_range]
  rfl

/-- `average` never fails once its storage is allocated, whatever the files contain, and writes one
line for every line of the longest file, apart from the first. -/
theorem C54_total (conf : Config F) (files : List (List (Line F)))
    (hcap : ftoNat (conf.t / conf.dt) * 24 < 2 ^ 63) :
    ∃ out, average conf files = .ok out ∧ out.length = longest files - 1 := by
  unfold average withCapacity
  rw [if_pos hcap, ok_bind, if_pos (by omega), ok_bind, avgOut_eq]
  refine ⟨_, rfl, ?_⟩
  rw [List.length_map, List.length_range]
  unfold longest
  induction files with
  | nil => rfl
  | cons f fs ih =>
    simp only [List.map_cons, List.foldr_cons, ih, List.length_map, List.length_drop]
    omega

/-- A negative or vanishing storage estimate is harmless, a huge one (end time over step) panics. -/
theorem C54_capacity (conf : Config F) (files : List (List (Line F)))
    (hcap : 2 ^ 63 ≤ ftoNat (conf.t / conf.dt) * 24) : average conf files = .error .capacity := by
  unfold average withCapacity
  rw [if_neg (by omega)]
  rfl

/-- The first line of a file is never read. -/
theorem C54_first_line_ignored (conf : Config F) (files files' : List (List (Line F)))
    (h : files.map (List.drop 1) = files'.map (List.drop 1)) :
    average conf files = average conf files' := by
  unfold average
  have : (files.map fun f => (f.drop 1).map lineData) = files'.map fun f => (f.drop 1).map lineData := by
    have := congrArg (List.map (List.map (lineData (F := F)))) h
    rw [List.map_map, List.map_map] at this
    exact this
  rw [this]

end anyF

/-! ### Means -/

theorem fold_length (rows : List (List ℝ)) (h : rows ≠ []) (w : ℕ) :
    w ≤ (fold rows).length ↔ ∀ r ∈ rows, w ≤ r.length := by
  cases rows with
  | nil => exact absurd rfl h
  | cons r rs =>
    clear h
    show w ≤ (rs.foldl (List.zipWith fun x y => x + y) r).length ↔ _
    induction rs using List.reverseRecOn with
    | nil => simp
    | append_singleton rs l ih =>
      rw [List.foldl_append, List.foldl_cons, List.foldl_nil, List.length_zipWith, le_min_iff, ih]
      simp only [List.mem_cons, List.mem_append, List.not_mem_nil, or_false]
      constructor
      · rintro ⟨h1, h2⟩ q (rfl | hq | rfl)
        · exact h1 _ (Or.inl rfl)
        · exact h1 q (Or.inr hq)
        · exact h2
      · intro hh
        exact ⟨fun q hq => hh q (hq.imp_right Or.inl), hh l (Or.inr (Or.inr rfl))⟩

theorem fold_getElem (rows : List (List ℝ)) (h : rows ≠ []) (j : ℕ) (hj : j < (fold rows).length) :
    (fold rows)[j] = (rows.map fun r => r.getD j 0).sum := by
  cases rows with
  | nil => exact absurd rfl h
  | cons r rs =>
    clear h
    change j < (rs.foldl (List.zipWith fun x y => x + y) r).length at hj
    show (rs.foldl (List.zipWith fun x y => x + y) r)[j] = _
    induction rs using List.reverseRecOn with
    | nil =>
      simp only [List.foldl_nil] at hj ⊢
      simp [List.getElem?_eq_getElem hj]
    | append_singleton rs l ih =>
      simp only [List.foldl_append, List.foldl_cons, List.foldl_nil] at hj ⊢
      rw [List.length_zipWith, lt_min_iff] at hj
      rw [List.getElem_zipWith, ih hj.1, ← List.cons_append, List.map_append, List.sum_append]
      simp [List.getElem?_eq_getElem hj.2]

theorem count_eq (rows : List (List ℝ)) : count rows = rows.length := by
  cases rows with
  | nil => simp [count]
  | cons r rs =>
    show rs.foldl (fun n _ => n + 1.0) 1.0 = _
    induction rs using List.reverseRecOn with
    | nil => simp
    | append_singleton rs l ih =>
      rw [List.foldl_append, List.foldl_cons, List.foldl_nil, ih]
      simp

/-- `out` is the table of means of the numeric files `fs`: line `i` is made from the lines `i` of the
files that have one (at least one does), it has as many columns as the shortest of them, and holds
their means column by column. -/
def MeanTable (fs : List (List (List ℝ))) (out : List (List ℝ)) : Prop :=
  out.length = longest fs ∧
  ∀ i (hi : i < out.length), linesAt fs i ≠ [] ∧
    (∀ w, w ≤ out[i].length ↔ ∀ r ∈ linesAt fs i, w ≤ r.length) ∧
    ∀ j (hj : j < out[i].length),
      out[i][j] = ((linesAt fs i).map fun r => r.getD j 0).sum / (linesAt fs i).length

theorem meanTable_out (fs : List (List (List ℝ))) : MeanTable fs ((List.range (longest fs)).map fun i =>
    (fold (linesAt fs i)).map fun d => d / count (linesAt fs i)) := by
  refine ⟨by simp, ?_⟩
  intro i hi
  have hi' : i < longest fs := by simpa using hi
  have hne := linesAt_ne_nil hi'
  simp only [List.getElem_map, List.getElem_range, List.length_map]
  refine ⟨hne, fold_length _ hne, ?_⟩
  intro j hj
  rw [fold_getElem _ hne j hj, count_eq]

/-- a mean table is determined by the files, whatever their order -/
theorem meanTable_unique {fs fs' : List (List (List ℝ))} (hp : fs.Perm fs') {out out' : List (List ℝ)}
    (h : MeanTable fs out) (h' : MeanTable fs' out') : out = out' := by
  have hlines : ∀ i, (linesAt fs i).Perm (linesAt fs' i) := fun i => hp.filterMap _
  have hlong : longest fs = longest fs' := by
    apply le_antisymm
    · by_contra hc
      obtain ⟨f, hf, hi⟩ := lt_longest.mp (not_le.mp hc)
      exact absurd (lt_longest.mpr ⟨f, hp.mem_iff.mp hf, hi⟩) (lt_irrefl _)
    · by_contra hc
      obtain ⟨f, hf, hi⟩ := lt_longest.mp (not_le.mp hc)
      exact absurd (lt_longest.mpr ⟨f, hp.mem_iff.mpr hf, hi⟩) (lt_irrefl _)
  apply List.ext_getElem (by rw [h.1, h'.1, hlong])
  intro i h1 h2
  obtain ⟨-, a2, a3⟩ := h.2 i h1
  obtain ⟨-, b2, b3⟩ := h'.2 i h2
  have hl : out[i].length = out'[i].length := by
    apply le_antisymm
    · rw [b2]
      intro r hr
      exact (a2 _).mp le_rfl r ((hlines i).mem_iff.mpr hr)
    · rw [a2]
      intro r hr
      exact (b2 _).mp le_rfl r ((hlines i).mem_iff.mp hr)
  apply List.ext_getElem hl
  intro j h3 h4
  rw [a3 j h3, b3 j h4, (hlines i).length_eq, ((hlines i).map _).sum_eq]

/-- The output of `average` is the table of means of the numbers in the files without their first
lines, for every collection of files. -/
theorem C54_mean (conf : Config ℝ) (files : List (List (Line ℝ)))
    (hcap : ftoNat (conf.t / conf.dt) * 24 < 2 ^ 63) :
    ∃ out, average conf files = .ok out ∧
      MeanTable (files.map fun f => (f.drop 1).map fun l => l.filterMap id) out := by
  unfold average withCapacity
  rw [if_pos hcap, ok_bind, if_pos (by omega), ok_bind, avgOut_eq]
  exact ⟨_, rfl, meanTable_out _⟩

/-- The order of the files does not matter (in exact arithmetic). -/
theorem C54_order (conf : Config ℝ) (files files' : List (List (Line ℝ))) (h : files.Perm files') :
    average conf files = average conf files' := by
  by_cases hcap : ftoNat (conf.t / conf.dt) * 24 < 2 ^ 63
  · obtain ⟨o, h1, h2⟩ := C54_mean conf files hcap
    obtain ⟨o', h3, h4⟩ := C54_mean conf files' hcap
    rw [h1, h3, meanTable_unique (h.map _) h2 h4]
  · rw [C54_capacity conf files (not_lt.mp hcap), C54_capacity conf files' (not_lt.mp hcap)]

/-- two files of different lengths; the capacity condition holds for the default configuration -/
example : average (Config.default : Config ℝ)
    [[[none], [some 1, some 2], [some 3]], [[none], [some 3, some 5]]] = .ok [[2, 7 / 2], [3]] := by
  have hcap : ftoNat ((Config.default : Config ℝ).t / (Config.default : Config ℝ).dt) * 24 < 2 ^ 63 := by
    have : (Config.default : Config ℝ).t / (Config.default : Config ℝ).dt = 12800 := by
      norm_num [Config.default]
    rw [this, ftoNat_real, show ((12800 : ℝ)) = ((12800 : ℕ) : ℝ) by norm_num, Nat.floor_natCast]
    norm_num
  unfold average withCapacity
  rw [if_pos hcap, ok_bind, if_pos (by omega), ok_bind, avgOut_eq]
  have e : longest ([[[none], [some 1, some 2], [some 3]], [[none], [some 3, some 5]]].map fun f =>
      (f.drop 1).map (lineData (F := ℝ))) = 2 := by decide
  rw [e]
  show Except.ok [[(1 + 3) / (1.0 + 1.0), (2 + 5) / (1.0 + 1.0)], [(3 : ℝ) / 1.0]] = _
  norm_num

/-! ### Two-point averages -/

section anyF

variable {F : Type} [Add F] [Sub F] [Mul F] [Div F] [Neg F] [OfScientific F] [FOps F]

/-- the time of a line counts as zero -/
def AtZero (l : List F) : Prop := ∃ t, l.head? = some t ∧ flt (fabs t) 1e-5 = true

theorem idx_head {l : List F} : idx l 0 = match l.head? with | some t => .ok t | none => .error .indexOOB := by
  cases l <;> rfl

theorem zeroRow_none (f : List (List F)) (t0 : List F) (hne : ∀ l ∈ f, l ≠ [])
    (h : ∀ l ∈ f, ¬ AtZero l) : zeroRow f t0 = .ok t0 := by
  induction f with
  | nil => rfl
  | cons l f ih =>
    unfold zeroRow
    have hl := hne l List.mem_cons_self
    cases l with
    | nil => exact absurd rfl hl
    | cons t l =>
      have : ¬ flt (fabs t) 1e-5 = true := fun hc => h _ List.mem_cons_self ⟨t, rfl, hc⟩
      rw [show idx (t :: l) 0 = .ok t from rfl, ok_bind, if_neg this]
      exact ih (fun l hl => hne l (List.mem_cons_of_mem _ hl)) fun l hl => h l (List.mem_cons_of_mem _ hl)

theorem zeroRow_empty (f : List (List F)) (t0 : List F) (h : ∃ l ∈ f, l = []) :
    zeroRow f t0 = .error .indexOOB := by
  induction f generalizing t0 with
  | nil => obtain ⟨l, hl, -⟩ := h; cases hl
  | cons l f ih =>
    unfold zeroRow
    cases l with
    | nil => rfl
    | cons t l =>
      rw [show idx (t :: l) 0 = .ok t from rfl, ok_bind]
      have h' : ∃ l ∈ f, l = [] := by
        obtain ⟨q, hq, rfl⟩ := h
        rcases List.mem_cons.mp hq with hq | hq
        · cases hq
        · exact ⟨_, hq, rfl⟩
      split
      · exact ih _ h'
      · exact ih _ h'

theorem zeroRow_last (f g : List (List F)) (z : List F) (t0 : List F) (hne : ∀ l ∈ f ++ z :: g, l ≠ [])
    (hz : AtZero z) (h : ∀ l ∈ g, ¬ AtZero l) : zeroRow (f ++ z :: g) t0 = .ok z := by
  induction f generalizing t0 with
  | nil =>
    obtain ⟨t, h1, h2⟩ := hz
    cases z with
    | nil => cases h1
    | cons t' z =>
      cases h1
      rw [List.nil_append]
      unfold zeroRow
      rw [show idx (t :: z) 0 = .ok t from rfl, ok_bind, if_pos h2]
      exact zeroRow_none g _ (fun l hl => hne l (by simp [hl])) h
  | cons l f ih =>
    have hl := hne l (by simp)
    cases l with
    | nil => exact absurd rfl hl
    | cons t l =>
      rw [List.cons_append]
      unfold zeroRow
      rw [show idx (t :: l) 0 = .ok t from rfl, ok_bind]
      have := fun t0 => ih t0 (fun l hl => hne l (by
        rw [List.cons_append]
        exact List.mem_cons_of_mem _ hl))
      split <;> exact this _

theorem timesZero_short (t0 l : List F) (h : t0.length < l.length) (h2 : 2 ≤ l.length) :
    ∃ p, timesZero t0 l = .error p := by
  unfold timesZero
  refine mapRange_error (l.length - 1) (by omega) ⟨.indexOOB, ?_⟩
  rw [idx_ok (by omega), ok_bind, if_neg (by omega), idx_oob (by omega)]
  rfl

/-- the product of a line with the line at time zero, apart from the time itself -/
def timesLine (z l : List F) : List F :=
  match l with
  | [] => []
  | x :: xs => x :: List.zipWith (fun x y => x * y) xs (z.drop 1)

theorem timesZero_eq (t0 l : List F) (h : l.length ≤ t0.length) :
    timesZero t0 l = .ok (timesLine t0 l) := by
  unfold timesZero timesLine
  rw [mapRange_ok (fun i => if i = 0 then l.getD i 0.0 else l.getD i 0.0 * t0.getD i 0.0), Nat.sub_zero]
  · refine congrArg Except.ok ?_
    cases l with
    | nil => rfl
    | cons x xs =>
      apply List.ext_getElem
      · simp at h ⊢
        omega
      · intro i h1 h2
        cases i with
        | zero => simp
        | succ i =>
          simp only [List.length_map, List.length_range', List.length_cons] at h1
          simp only [List.length_cons] at h
          simp [List.getElem_range', List.getElem?_eq_getElem (show i < xs.length by omega),
            List.getElem?_eq_getElem (show i + 1 < t0.length by omega)]
  · intro i _ hi
    rw [idx_ok hi, ok_bind, List.getD_eq_getElem _ _ hi]
    split
    · rfl
    · rw [idx_ok (by omega), List.getD_eq_getElem _ _ (by omega)]
      rfl

/-- A file without a line (after the first) at time zero, but with a line of two or more numbers, makes
the program panic, whatever the other files are; so does a line without numbers. -/
theorem C55_panics (files : List (List (Line F))) (f : List (Line F)) (hf : f ∈ files)
    (h : (∃ l ∈ f.drop 1, lineData l = []) ∨
      (∀ l ∈ f.drop 1, ¬ AtZero (lineData l)) ∧ ∃ l ∈ f.drop 1, 2 ≤ (lineData l).length) :
    ∃ p, two_point_average files = .error p := by
  unfold two_point_average
  obtain ⟨k, hk, hkf⟩ := List.mem_iff_getElem.mp hf
  have key : ∃ p, twoPointFile ((f.drop 1).map lineData) = .error p := by
    unfold twoPointFile
    by_cases he : ∃ l ∈ f.drop 1, lineData l = []
    · rw [zeroRow_empty _ _ (by
        obtain ⟨l, h1, h2⟩ := he
        exact ⟨_, List.mem_map_of_mem h1, h2⟩)]
      exact ⟨_, rfl⟩
    · have h' := h.resolve_left he
      push Not at he
      rw [zeroRow_none _ _ (by
          intro l hl
          rw [List.mem_map] at hl
          obtain ⟨q, hq, rfl⟩ := hl
          exact he q hq) (by
          intro l hl
          rw [List.mem_map] at hl
          obtain ⟨q, hq, rfl⟩ := hl
          exact h'.1 q hq), ok_bind]
      obtain ⟨l, h1, h2⟩ := h'.2
      obtain ⟨i, hi, hil⟩ := List.mem_iff_getElem.mp (List.mem_map_of_mem (f := lineData) h1)
      refine mapRange_error i hi ?_
      rw [idx_ok hi, ok_bind, hil]
      exact timesZero_short _ _ (by simp; omega) h2
  obtain ⟨p, hp⟩ := mapRange_error (hi := files.length)
    (f := fun k => (idx files k) >>= fun f => twoPointFile ((f.drop 1).map lineData)) k hk (by
      rw [idx_ok hk, ok_bind, hkf]
      exact key)
  exact ⟨p, by rw [hp]; rfl⟩

end anyF

/-- Files in which a line `z` (after the first) is the last one at time zero and no line is longer than
it: the output is the table of means of the products with that line. -/
theorem C55_mean (files : List (List (Line ℝ))) (num : List (Line ℝ) → List (List ℝ))
    (hnum : ∀ f, num f = (f.drop 1).map fun l => l.filterMap id)
    (z : List (Line ℝ) → List ℝ)
    (h : ∀ f ∈ files, (∀ l ∈ num f, l ≠ [] ∧ l.length ≤ (z f).length) ∧
      ∃ a b, num f = a ++ z f :: b ∧ (∃ t, (z f).head? = some t ∧ |t| < 1 / 10 ^ 5) ∧
        ∀ l ∈ b, ∀ t, l.head? = some t → 1 / 10 ^ 5 ≤ |t|) :
    ∃ out, two_point_average files = .ok out ∧
      MeanTable (files.map fun f => (num f).map (timesLine (z f))) out := by
  have lit5 : ((1e-5 : ℝ)) = 1 / 10 ^ 5 := by norm_num
  have az : ∀ l : List ℝ, AtZero l ↔ ∃ t, l.head? = some t ∧ |t| < 1 / 10 ^ 5 := by
    intro l
    unfold AtZero
    simp only [flt_real, fabs_real, decide_eq_true_eq, lit5]
  have key : ∀ f ∈ files, twoPointFile ((f.drop 1).map lineData) = .ok ((num f).map (timesLine (z f))) := by
    intro f hf
    obtain ⟨h1, a, b, h2, h3, h4⟩ := h f hf
    have e : (f.drop 1).map lineData = num f := (hnum f).symm
    rw [e]
    unfold twoPointFile
    rw [show zeroRow (num f) [] = .ok (z f) by
      rw [h2]
      refine zeroRow_last a b (z f) [] (fun l hl => (h1 l (by rw [h2]; exact hl)).1) ((az _).mpr h3) ?_
      intro l hl hc
      obtain ⟨t, ht, ht'⟩ := (az l).mp hc
      exact absurd (h4 l hl t ht) (not_le.mpr ht'), ok_bind]
    rw [mapRange_ok (fun i => timesLine (z f) ((num f).getD i [])), Nat.sub_zero]
    · refine congrArg Except.ok ?_
      apply List.ext_getElem (by simp)
      intro i h5 h6
      have hi : i < (num f).length := by simpa using h6
      simp [List.getElem_range', List.getElem?_eq_getElem hi]
    · intro i _ hi
      rw [idx_ok hi, ok_bind, List.getD_eq_getElem _ _ hi]
      rw [timesZero_eq _ _ (h1 _ (List.getElem_mem hi)).2]
  unfold two_point_average
  rw [mapRange_ok (fun k => ((files.map fun f => (num f).map (timesLine (z f))).getD k [])), ok_bind,
    avgOut_eq, Nat.sub_zero]
  · have e : ((List.range' 0 files.length).map fun k =>
        ((files.map fun f => (num f).map (timesLine (z f))).getD k []))
        = files.map fun f => (num f).map (timesLine (z f)) := by
      apply List.ext_getElem (by simp)
      intro i h5 h6
      have hi : i < files.length := by simpa using h6
      simp [List.getElem_range', List.getElem?_eq_getElem hi]
    rw [e]
    exact ⟨_, rfl, meanTable_out _⟩
  · intro k _ hk
    rw [idx_ok hk, ok_bind, key _ (List.getElem_mem hk), List.getD_eq_getElem _ _ (by simpa using hk)]
    simp

/-- one file: a header, the line at time zero and another line -/
example : two_point_average [[[none], [some 0, some 2], [some 1, some 3]]] = .ok [[(0 : ℝ), 4], [1, 6]] := by
  obtain ⟨out, h1, h2⟩ := C55_mean [[[none], [some 0, some 2], [some 1, some 3]]]
    (fun f => (f.drop 1).map fun l => l.filterMap id) (fun _ => rfl) (fun _ => [0, 2]) (by
      intro f hf
      rw [List.mem_singleton] at hf
      subst hf
      refine ⟨by simp, [], [[1, 3]], by simp, ⟨0, rfl, by norm_num⟩, ?_⟩
      intro l hl t ht
      rw [List.mem_singleton] at hl
      subst hl
      cases ht
      norm_num)
  rw [h1]
  refine congrArg Except.ok (meanTable_unique (List.Perm.refl _) h2 ?_)
  show MeanTable [[[(0 : ℝ), 2 * 2], [1, 3 * 2]]] _
  have := meanTable_out [[[(0 : ℝ), 2 * 2], [1, 3 * 2]]]
  convert this using 1
  show _ = [[(0 : ℝ) / 1.0, 2 * 2 / 1.0], [1 / 1.0, 3 * 2 / 1.0]]
  norm_num

/-- a file whose only data line is at time one -/
example : ∃ p, two_point_average [[[none], [some (1 : ℝ), some 3]]] = .error p := by
  refine C55_panics _ _ List.mem_cons_self (Or.inr ⟨?_, ?_⟩)
  · intro l hl
    simp only [List.drop_succ_cons, List.drop_zero, List.mem_singleton] at hl
    subst hl
    rintro ⟨t, ht, h⟩
    cases ht
    simp only [flt_real, fabs_real, decide_eq_true_eq] at h
    norm_num at h
  · exact ⟨[some 1, some 3], by simp, by simp [lineData]⟩

end Verif.Props
