/-
C53: the background writer of rows, for all schedules and all moments of exit.
-/
import Verif.Model.Writers
import Mathlib.Logic.Relation
import Mathlib.Data.List.Basic
import Mathlib.Algebra.BigOperators.Group.List.Basic
import Mathlib.Algebra.Order.BigOperators.Group.List
import Mathlib.Algebra.Order.Ring.Nat

namespace Verif.Props

variable {Row : Type}

/-- what a complete file holds for the given rows -/
def pieces (rows : List Row) : List (Piece Row) := rows.flatMap fun r => [.text r, .eol]

/-- `s'` can be reached from `s` -/
abbrev Reach (crash : Bool) (s s' : BgState Row) : Prop := Relation.ReflTransGen (BgStep crash) s s'

theorem bg_inv {crash : Bool} {todo : List (List Row)} {f0 : List (Piece Row)} {s : BgState Row}
    (h : Reach crash (.start todo f0) s) :
    f0 ++ pieces (s.sent.map Prod.snd) = s.file ++ ((if s.half then [.eol] else []) ++ pieces s.chan) ∧
    s.todo.length = todo.length ∧
    ∀ k (l : List Row), todo[k]? = some l → ∃ l', s.todo[k]? = some l' ∧
      l = (s.sent.filter fun p => p.1 = k).map Prod.snd ++ l' := by
  induction h with
  | refl => exact ⟨by simp [BgState.start, pieces], rfl, fun k l hl => ⟨l, hl, rfl⟩⟩
  | tail _ hs ih =>
    obtain ⟨i1, i2, i3⟩ := ih
    cases hs with
    | send k r rs ha ht =>
      refine ⟨?_, ?_, ?_⟩
      · simp only [List.map_append, List.map_cons, List.map_nil]
        rw [pieces, List.flatMap_append, ← List.append_assoc, show List.flatMap _ _ = pieces _ from rfl,
          i1, pieces, pieces, List.flatMap_append]
        simp only [List.append_assoc]
      · simp only [List.length_set]
        exact i2
      · intro j l hl
        obtain ⟨l', h1, h2⟩ := i3 j l hl
        by_cases hj : j = k
        · subst hj
          rw [h1] at ht
          cases ht
          refine ⟨rs, ?_, ?_⟩
          · exact List.getElem?_set_self (by
              have := List.getElem?_eq_some_iff.mp h1
              exact this.1)
          · rw [h2]
            simp
        · refine ⟨l', ?_, ?_⟩
          · simp only
            rw [List.getElem?_set_ne (Ne.symm hj)]
            exact h1
          · rw [h2, List.filter_append, List.filter_cons_of_neg (by simpa using Ne.symm hj)]
            simp
    | text r rs ha hh hc =>
      refine ⟨?_, i2, i3⟩
      rw [i1, hh, hc]
      simp [pieces]
    | eol ha hh =>
      refine ⟨?_, i2, i3⟩
      rw [i1, hh]
      simp
    | exit ha _ => exact ⟨i1, i2, i3⟩

/-- In every reachable state, in particular when the process has ended, by itself or by a crash, the
file holds its old contents followed by an in-order prefix of the rows sent; every worker's rows have
been sent in its order, each at most once. -/
theorem C53_prefix {crash : Bool} {todo : List (List Row)} {f0 : List (Piece Row)} {s : BgState Row}
    (h : Reach crash (.start todo f0) s) :
    (∃ written, s.file = f0 ++ written ∧ written <+: pieces (s.sent.map Prod.snd)) ∧
    (∀ p ∈ s.sent, ∃ l, todo[p.1]? = some l) ∧
    ∀ k l, todo[k]? = some l → (s.sent.filter fun p => p.1 = k).map Prod.snd <+: l := by
  refine ⟨?_, ?_, ?_⟩
  · have hmono : f0 <+: s.file := by
      induction h with
      | refl => exact List.prefix_rfl
      | tail _ hs ih =>
        cases hs with
        | send => exact ih
        | text => exact ih.trans (List.prefix_append _ _)
        | eol => exact ih.trans (List.prefix_append _ _)
        | exit => exact ih
    obtain ⟨w, hw⟩ := hmono
    refine ⟨w, hw.symm, ?_⟩
    have := (bg_inv h).1
    rw [← hw, List.append_assoc] at this
    rw [List.append_cancel_left this]
    exact List.prefix_append _ _
  · induction h with
    | refl => intro p hp; cases hp
    | tail h' hs ih =>
      cases hs with
      | send k r rs ha ht =>
        intro p hp
        simp only [List.mem_append, List.mem_singleton] at hp
        rcases hp with hp | rfl
        · exact ih p hp
        · have h2 := (bg_inv h').2.1
          have h3 := (List.getElem?_eq_some_iff.mp ht).1
          exact ⟨_, List.getElem?_eq_getElem (by omega)⟩
      | text => exact ih
      | eol => exact ih
      | exit => exact ih
  · intro k l hl
    obtain ⟨l', -, h2⟩ := (bg_inv h).2.2 k l hl
    rw [h2]
    exact List.prefix_append _ _

/-- Once the workers are done and the writer has caught up, the file holds every row. -/
theorem C53_complete {crash : Bool} {todo : List (List Row)} {f0 : List (Piece Row)} {s : BgState Row}
    (h : Reach crash (.start todo f0) s) (hd : ∀ l ∈ s.todo, l = []) (hc : s.chan = [])
    (hh : s.half = false) :
    s.file = f0 ++ pieces (s.sent.map Prod.snd) ∧
    ∀ k l, todo[k]? = some l → (s.sent.filter fun p => p.1 = k).map Prod.snd = l := by
  obtain ⟨h1, -, h3⟩ := bg_inv h
  refine ⟨?_, ?_⟩
  · rw [h1, hc, hh]
    simp [pieces]
  · intro k l hl
    obtain ⟨l', h4, h5⟩ := h3 k l hl
    rw [h5, hd l' (List.mem_of_getElem? h4), List.append_nil]

theorem send_all {crash : Bool} (n : ℕ) : ∀ s : BgState Row, s.alive = true →
    (s.todo.map List.length).sum = n →
    ∃ s', Reach crash s s' ∧ (∀ l ∈ s'.todo, l = []) ∧ s'.file = s.file ∧ s'.alive = true ∧
      s'.half = s.half := by
  induction n with
  | zero =>
    intro s ha hs
    refine ⟨s, .refl, ?_, rfl, ha, rfl⟩
    intro l hl
    have := List.single_le_sum (fun _ _ => Nat.zero_le _) _ (List.mem_map_of_mem (f := List.length) hl)
    exact List.length_eq_zero_iff.mp (by omega)
  | succ n ih =>
    intro s ha hs
    obtain ⟨l, hl, hne⟩ : ∃ l ∈ s.todo, l ≠ [] := by
      by_contra hcon
      push Not at hcon
      have : (s.todo.map List.length).sum = 0 := by
        apply List.sum_eq_zero
        intro x hx
        rw [List.mem_map] at hx
        obtain ⟨l, hl, rfl⟩ := hx
        rw [hcon l hl]
        rfl
      omega
    obtain ⟨k, hk, hkl⟩ := List.mem_iff_getElem.mp hl
    cases l with
    | nil => exact absurd rfl hne
    | cons r rs =>
      have st := BgStep.send (crash := crash) s k r rs ha
        (by rw [List.getElem?_eq_getElem hk, hkl])
      obtain ⟨s', h1, h2, h3, h4, h5⟩ := ih
        ({ s with
          todo := s.todo.set k rs
          chan := s.chan ++ [r]
          sent := s.sent ++ [(k, r)] } : BgState Row) ha (by
        show ((s.todo.set k rs).map List.length).sum = n
        have e := List.sum_set (s.todo.map List.length) k rs.length
        rw [List.map_set] 
        have e2 : (s.todo.map List.length).sum
          = ((s.todo.map List.length).take k).sum + (r :: rs).length
            + ((s.todo.map List.length).drop (k + 1)).sum := by
          conv_lhs => rw [← List.take_append_drop k (s.todo.map List.length)]
          rw [List.sum_append, List.drop_eq_getElem_cons (by simpa using hk), List.sum_cons,
            List.getElem_map, hkl, add_assoc]
        rw [e, if_pos (by simpa using hk)]
        simp only [List.length_cons] at e2
        omega)
      exact ⟨s', (Relation.ReflTransGen.single st).trans h1, h2, h3, h4, h5⟩

/-- Nothing waits for the writer: whatever the workers send, an ordinary end of the program (no crash)
may leave none of it in the file. -/
theorem C53_rows_can_be_lost (todo : List (List Row)) (f0 : List (Piece Row)) :
    ∃ s, Reach false (.start todo f0) s ∧ s.alive = false ∧ (∀ l ∈ s.todo, l = []) ∧ s.file = f0 := by
  obtain ⟨s', h1, h2, h3, h4, -⟩ := send_all (crash := false) _ (BgState.start todo f0) rfl rfl
  exact ⟨_, h1.tail (.exit s' h4 (Or.inr h2)), rfl, h2, h3⟩

/-- The last line may be torn: the text of a row without the end of its line. -/
theorem C53_torn_line (r : Row) : ∃ s, Reach false (.start [[r]] []) s ∧ s.alive = false ∧
    (∀ l ∈ s.todo, l = []) ∧ s.file = [.text r] := by
  have s1 := BgStep.send (crash := false) (BgState.start [[r]] []) 0 r [] rfl rfl
  have s2 := BgStep.text (crash := false) _ r [] (show (_ : BgState Row).alive = true from rfl) rfl
    (show ({ BgState.start [[r]] [] with
      todo := [[r]].set 0 []
      chan := [] ++ [r]
      sent := [] ++ [(0, r)] } : BgState Row).chan = r :: [] from rfl)
  refine ⟨_, ((Relation.ReflTransGen.single s1).tail s2).tail (.exit _ rfl (Or.inr ?_)), rfl, ?_, rfl⟩
  all_goals
    intro l hl
    simpa [BgState.start] using hl

/-- And it may write everything. -/
example (r : Row) : ∃ s, Reach false (.start [[r]] []) s ∧ s.alive = false ∧
    s.file = pieces [r] := by
  have s1 := BgStep.send (crash := false) (BgState.start [[r]] []) 0 r [] rfl rfl
  have s2 := BgStep.text (crash := false) _ r [] (show (_ : BgState Row).alive = true from rfl) rfl
    (show ({ BgState.start [[r]] [] with
      todo := [[r]].set 0 []
      chan := [] ++ [r]
      sent := [] ++ [(0, r)] } : BgState Row).chan = r :: [] from rfl)
  have s3 := (((Relation.ReflTransGen.single s1).tail s2).tail (.eol _ rfl rfl))
  refine ⟨_, s3.tail (.exit _ rfl (Or.inr ?_)), rfl, rfl⟩
  intro l hl
  simpa [BgState.start] using hl

end Verif.Props
