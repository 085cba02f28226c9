/-
Names of log files, and the files after a run.
-/
import Verif.Model.Main

set_option linter.unusedSectionVars false

namespace Verif

variable {F : Type} [Add F] [Sub F] [Mul F] [Div F] [Neg F] [OfScientific F] [FOps F]

theorem repr_inj {m n : Nat} (h : Nat.repr m = Nat.repr n) : m = n := by
  rw [Nat.repr_eq_ofList_toDigits, Nat.repr_eq_ofList_toDigits] at h
  have h' := congrArg String.toList h
  rw [String.toList_ofList, String.toList_ofList] at h'
  have := congrArg (fun l => Nat.ofDigitChars 10 l 0) h'
  simpa only [Nat.ofDigitChars_ten_toDigits] using this

/-- different numbers give different log files -/
theorem logName_inj {file : String} {m n : Nat} (h : SpinChain.logName file m = SpinChain.logName file n) :
    m = n := by
  unfold SpinChain.logName at h
  have h' := congrArg String.toList h
  simp only [String.toList_append, List.append_cancel_right_eq, List.append_cancel_left_eq] at h'
  exact repr_inj (String.toList_injective h')

theorem logName_ne_config (file : String) (n : Nat) : SpinChain.logName file n ≠ "config.toml" := by
  intro h
  unfold SpinChain.logName at h
  have h' := congrArg (fun s => (String.toList s).reverse.head?) h
  simp only [String.toList_append, List.reverse_append] at h'
  have h1 : ∀ l : List Char, (".dat".toList.reverse ++ l).head? = some 't' := fun _ => rfl
  rw [h1] at h'
  revert h'
  decide

/-- the log files created, in order -/
def createdLogs (es : List (Event F)) : List String :=
  es.filterMap fun
    | .create n => some n
    | _ => none

/-- the configurations written to `config.toml`, in order -/
def savedConfs (es : List (Event F)) : List (Config F) :=
  es.filterMap fun
    | .save c => some c
    | _ => none

theorem createdLogs_append (es es' : List (Event F)) :
    createdLogs (es ++ es') = createdLogs es ++ createdLogs es' := List.filterMap_append ..

theorem savedConfs_append (es es' : List (Event F)) :
    savedConfs (es ++ es') = savedConfs es ++ savedConfs es' := List.filterMap_append ..

theorem applyEvents_append (fs : FS F) (es es' : List (Event F)) :
    applyEvents fs (es ++ es') = applyEvents (applyEvents fs es) es' := by
  induction es generalizing fs with
  | nil => rfl
  | cons e es ih => cases e <;> exact ih _

/-- a file that is neither `config.toml` nor a created log file stays -/
theorem applyEvents_frame (fs : FS F) (es : List (Event F)) (n : String) (hn : n ≠ "config.toml")
    (hc : n ∉ createdLogs es) : applyEvents fs es n = fs n := by
  induction es generalizing fs with
  | nil => rfl
  | cons e es ih =>
    cases e with
    | call f c => exact ih _ hc
    | append f r => exact ih _ hc
    | save c =>
      refine (ih _ hc).trans ?_
      unfold FS.write
      rw [if_neg hn]
    | create m =>
      have hm : n ≠ m ∧ n ∉ createdLogs es := by
        constructor
        · rintro rfl
          exact hc (List.mem_cons_self ..)
        · exact fun h => hc (List.mem_cons_of_mem _ h)
      refine (ih _ hm.2).trans ?_
      unfold FS.write
      rw [if_neg hm.1]

/-- `config.toml` holds the last configuration saved -/
theorem applyEvents_config (fs : FS F) (es : List (Event F)) (hc : "config.toml" ∉ createdLogs es) :
    applyEvents fs es "config.toml" = match (savedConfs es).getLast? with
      | some c => some (.table c.toTable)
      | none => fs "config.toml" := by
  induction es generalizing fs with
  | nil => rfl
  | cons e es ih =>
    cases e with
    | call f c => exact ih _ hc
    | append f r => exact ih _ hc
    | save c =>
      refine (ih _ hc).trans ?_
      rw [show savedConfs (Event.save c :: es) = c :: savedConfs es from rfl, List.getLast?_cons]
      cases (savedConfs es).getLast? with
      | some d => rfl
      | none =>
        show FS.write fs _ _ _ = _
        unfold FS.write
        rw [if_pos rfl]
        rfl
    | create m =>
      have hm : "config.toml" ≠ m ∧ "config.toml" ∉ createdLogs es := by
        constructor
        · rintro rfl
          exact hc (List.mem_cons_self ..)
        · exact fun h => hc (List.mem_cons_of_mem _ h)
      refine (ih _ hm.2).trans ?_
      rw [show savedConfs (Event.create m :: es) = savedConfs es from rfl]
      cases (savedConfs es).getLast? with
      | some d => rfl
      | none =>
        show FS.write fs _ _ _ = _
        unfold FS.write
        rw [if_neg hm.1]

end Verif
