/-
Helper lemmas: closed form of the integrator for any scalar type.
-/
import Verif.Lemmas.Loop
import Verif.Model.SpinChain
import Mathlib.Data.List.Range

set_option linter.unusedSectionVars false

namespace Verif

variable {F : Type} [Add F] [Sub F] [Mul F] [Div F] [Neg F] [OfScientific F] [FOps F]

/-- `xs` is the list of the first `n` values of `f` -/
def Tab {α : Type} (xs : List α) (n : ℕ) (f : ℕ → α) : Prop := xs = (List.range n).map f

theorem Tab.idx {α : Type} {xs : List α} {n : ℕ} {f : ℕ → α} (h : Tab xs n f) {i : ℕ}
    (hi : i < n) : Verif.idx xs i = .ok (f i) := by
  subst h
  apply idx_some
  simp [hi]

theorem Tab.length {α : Type} {xs : List α} {n : ℕ} {f : ℕ → α} (h : Tab xs n f) :
    xs.length = n := by
  subst h; simp

theorem Tab.getElem? {α : Type} {xs : List α} {n : ℕ} {f : ℕ → α} (h : Tab xs n f) {i : ℕ}
    (hi : i < n) : xs[i]? = some (f i) := by
  subst h; simp [hi]

theorem Tab.congr {α : Type} {xs : List α} {n : ℕ} {f g : ℕ → α} (h : Tab xs n f)
    (hfg : ∀ i, i < n → f i = g i) : Tab xs n g := by
  unfold Tab at *
  rw [h]
  apply List.map_congr_left
  intro i hi
  exact hfg i (List.mem_range.1 hi)

theorem Tab.unique {α : Type} {xs : List α} {n : ℕ} {f g : ℕ → α} (h : Tab xs n f)
    (h' : Tab xs n g) {i : ℕ} (hi : i < n) : f i = g i := by
  have := h.getElem? hi
  rw [h'.getElem? hi] at this
  exact (Option.some.inj this).symm

theorem Tab.mem {α : Type} {xs : List α} {n : ℕ} {f : ℕ → α} (h : Tab xs n f) {a : α} :
    a ∈ xs ↔ ∃ i < n, f i = a := by
  subst h; simp

theorem tab_of_getElem? {α : Type} {xs : List α} {n : ℕ} (f : ℕ → α) (hl : xs.length = n)
    (h : ∀ i, i < n → xs[i]? = some (f i)) : Tab xs n f := by
  apply List.ext_getElem?
  intro i
  by_cases hi : i < n
  · rw [h i hi]; simp [hi]
  · rw [List.getElem?_eq_none (by omega)]; simp; omega

/-- every non-empty list is a table -/
theorem exists_tab {α : Type} (xs : List α) (h : 0 < xs.length) : ∃ f, Tab xs xs.length f := by
  refine ⟨fun i => (xs[i]?).getD (xs[0]), tab_of_getElem? _ rfl fun i hi => ?_⟩
  simp [List.getElem?_eq_getElem hi]

/-- local field at site `i` of a ring of `m` sites, in the model's scalar operations -/
def omF (m : ℕ) (j h : ℕ → V3 F) (sp : ℕ → Spin F) (i : ℕ) : V3 F :=
  SpinChain.ssh_sum (SpinChain.j_s (j ((i + m - 1) % m)) (sp ((i + m - 1) % m)))
    (SpinChain.j_s (j i) (sp ((i + 1) % m))) (h i)

/-- rotation of the sites `i < m` with `i % 2 = par` -/
def subF (m par : ℕ) (j h : ℕ → V3 F) (dt : F) (sp : ℕ → Spin F) (i : ℕ) : Spin F :=
  if i < m ∧ i % 2 = par then (sp i).rotate (omF m j h sp i) dt else sp i

/-- the three sub-steps -/
def stepF (m : ℕ) (j h : ℕ → V3 F) (dt : F) (sp : ℕ → Spin F) : ℕ → Spin F :=
  subF m 0 j h (dt / 2.0) (subF m 1 j h dt (subF m 0 j h (dt / 2.0) sp))

section
variable {js hs : List (V3 F)} {spins : List (Spin F)} {L : ℕ} {j h : ℕ → V3 F} {sp : ℕ → Spin F}

theorem left_zero {m : ℕ} (h : 1 ≤ m) : (0 + m - 1) % m = m - 1 := by
  rw [Nat.mod_eq_of_lt (by omega)]; omega

theorem left_pos {m k : ℕ} (h0 : 0 < k) (h1 : k < m) : (k + m - 1) % m = k - 1 := by
  rw [show k + m - 1 = (k - 1) + m by omega, Nat.add_mod_right, Nat.mod_eq_of_lt (by omega)]

theorem right_lt {m k : ℕ} (h1 : k + 1 < m) : (k + 1) % m = k + 1 := Nat.mod_eq_of_lt h1

theorem right_last {m k : ℕ} (h1 : k + 1 = m) : (k + 1) % m = 0 := by rw [h1, Nat.mod_self]

theorem evenOmega_tab (hj : Tab js L j) (hh : Tab hs L h) (hsp : Tab spins L sp) (hL : 2 ≤ L) :
    SpinChain.evenOmega js spins hs
      = .ok ((List.range (L / 2)).map fun k => omF (2 * (L / 2)) j h sp (2 * k)) := by
  unfold SpinChain.evenOmega
  rw [hsp.length]
  obtain ⟨n, hn⟩ : ∃ n, L / 2 = n + 1 := ⟨L / 2 - 1, by omega⟩
  have hlL : 2 * (n + 1) ≤ L := by omega
  simp only [hn]
  rw [usub_ok (by omega), ok_bind, hj.idx (by omega), ok_bind, hsp.idx (by omega), ok_bind,
    hj.idx (by omega), ok_bind, hsp.idx (by omega), ok_bind, hh.idx (by omega), ok_bind]
  rw [mapRange_ok (fun k => omF (2 * (n + 1)) j h sp (2 * k))]
  · rw [ok_bind, List.range_eq_range', List.range'_succ, List.map_cons, Nat.add_sub_cancel]
    show Except.ok (_ :: _) = Except.ok (_ :: _)
    congr 2
    unfold omF
    rw [Nat.mul_zero, left_zero (by omega), right_lt (by omega)]
  · intro k h0 h1
    rw [hj.idx (by omega), ok_bind, hsp.idx (by omega), ok_bind,
      hj.idx (by omega), ok_bind, hsp.idx (by omega), ok_bind, hh.idx (by omega), ok_bind]
    unfold omF
    rw [left_pos (by omega) (by omega), right_lt (by omega)]
    rfl

theorem oddOmega_tab (hj : Tab js L j) (hh : Tab hs L h) (hsp : Tab spins L sp) (hL : 2 ≤ L) :
    SpinChain.oddOmega js spins hs
      = .ok ((List.range (L / 2)).map fun k => omF (2 * (L / 2)) j h sp (2 * k + 1)) := by
  unfold SpinChain.oddOmega
  rw [hsp.length]
  obtain ⟨n, hn⟩ : ∃ n, L / 2 = n + 1 := ⟨L / 2 - 1, by omega⟩
  have hlL : 2 * (n + 1) ≤ L := by omega
  simp only [hn]
  rw [usub_ok (by omega), ok_bind, Nat.add_sub_cancel,
    mapRange_ok (fun k => omF (2 * (n + 1)) j h sp (2 * k + 1))]
  · rw [ok_bind, hj.idx (by omega), ok_bind, hsp.idx (by omega), ok_bind,
      hj.idx (by omega), ok_bind, hsp.idx (by omega), ok_bind, hh.idx (by omega), ok_bind]
    rw [List.range_succ, List.map_append, List.range_eq_range', Nat.sub_zero]
    show Except.ok (_ ++ [_]) = Except.ok (_ ++ [_])
    congr 3
    unfold omF
    dsimp only
    rw [left_pos (by omega) (by omega), right_last (by omega)]
    rfl
  · intro k h0 h1
    rw [hj.idx (by omega), ok_bind, hsp.idx (by omega), ok_bind,
      hj.idx (by omega), ok_bind, hsp.idx (by omega), ok_bind, hh.idx (by omega), ok_bind]
    unfold omF
    rw [left_pos (by omega) (by omega), right_lt (by omega)]
    rfl

theorem rotateAt_tab (hsp : Tab spins L sp) {i : ℕ} (hi : i < L) (f : V3 F) (dt : F) :
    ∃ spins', SpinChain.rotateAt spins i f dt = .ok spins' ∧
      Tab spins' L (fun k => if k = i then (sp i).rotate f dt else sp k) := by
  refine ⟨spins.set i ((sp i).rotate f dt), ?_, ?_⟩
  · unfold SpinChain.rotateAt
    rw [hsp.idx hi, ok_bind, setIdx_ok (by rw [hsp.length]; exact hi)]
  · apply tab_of_getElem?
    · rw [List.length_set, hsp.length]
    · intro k hk
      by_cases hki : k = i
      · subst hki; simp [hsp.length, hk]
      · rw [List.getElem?_set_ne (fun h => hki h.symm), hsp.getElem? hk, if_neg hki]

theorem rotateSub_tab (hsp : Tab spins L sp) (off n : ℕ) (hoff : off < 2) (om : ℕ → V3 F) (dt : F)
    (hn : ∀ k < n, 2 * k + off < L) :
    ∃ spins', SpinChain.rotateSub off spins ((List.range n).map om) dt = .ok spins' ∧
      Tab spins' L (fun i => if i < 2 * n ∧ i % 2 = off then (sp i).rotate (om (i / 2)) dt
        else sp i) := by
  induction n with
  | zero =>
    refine ⟨spins, rfl, hsp.congr fun i _ => ?_⟩
    rw [if_neg]; omega
  | succ n ih =>
    obtain ⟨s1, h1, t1⟩ := ih fun k hk => hn k (by omega)
    unfold SpinChain.rotateSub at h1 ⊢
    have hlast := hn n (by omega)
    obtain ⟨s2, h2, t2⟩ := rotateAt_tab t1 hlast (om n) dt
    refine ⟨s2, ?_, t2.congr fun i hi => ?_⟩
    · rw [List.range_succ, List.map_append, List.zipIdx_append, List.foldlM_append, h1, ok_bind]
      simp only [List.map_cons, List.map_nil, List.length_map, List.length_range, List.zipIdx_cons,
        List.zipIdx_nil, List.foldlM_cons, List.foldlM_nil, Nat.zero_add]
      rw [h2]
      rfl
    · by_cases hi2 : i = 2 * n + off
      · subst hi2
        rw [if_pos rfl, if_neg (by omega), if_pos (by omega),
          show (2 * n + off) / 2 = n by omega]
      · rw [if_neg hi2]
        by_cases hc : i < 2 * n ∧ i % 2 = off
        · rw [if_pos hc, if_pos (by omega)]
        · rw [if_neg hc, if_neg (by omega)]

theorem even_sub (hj : Tab js L j) (hh : Tab hs L h) (hsp : Tab spins L sp) (hL : 2 ≤ L) (dt : F) :
    ∃ spins', (do SpinChain.rotateSub 0 spins (← SpinChain.evenOmega js spins hs) dt)
        = .ok spins' ∧ Tab spins' L (subF (2 * (L / 2)) 0 j h dt sp) := by
  rw [evenOmega_tab hj hh hsp hL, ok_bind]
  obtain ⟨s', h1, h2⟩ := rotateSub_tab hsp 0 (L / 2) (by omega)
    (fun k => omF (2 * (L / 2)) j h sp (2 * k)) dt (by omega)
  refine ⟨s', h1, h2.congr fun i hi => ?_⟩
  unfold subF
  split
  · next hc => simp only [show 2 * (i / 2) = i by omega]
  · rfl

theorem odd_sub (hj : Tab js L j) (hh : Tab hs L h) (hsp : Tab spins L sp) (hL : 2 ≤ L) (dt : F) :
    ∃ spins', (do SpinChain.rotateSub 1 spins (← SpinChain.oddOmega js spins hs) dt)
        = .ok spins' ∧ Tab spins' L (subF (2 * (L / 2)) 1 j h dt sp) := by
  rw [oddOmega_tab hj hh hsp hL, ok_bind]
  obtain ⟨s', h1, h2⟩ := rotateSub_tab hsp 1 (L / 2) (by omega)
    (fun k => omF (2 * (L / 2)) j h sp (2 * k + 1)) dt (by omega)
  refine ⟨s', h1, h2.congr fun i hi => ?_⟩
  unfold subF
  split
  · next hc => simp only [show 2 * (i / 2) + 1 = i by omega]
  · rfl

/-- closed form of `trotter` -/
theorem trotter_tab (hj : Tab js L j) (hh : Tab hs L h) (hsp : Tab spins L sp) (hL : 2 ≤ L)
    (dt : F) :
    ∃ spins', SpinChain.trotter js hs dt spins = .ok spins' ∧
      Tab spins' L (stepF (2 * (L / 2)) j h dt sp) := by
  obtain ⟨s1, h1, t1⟩ := even_sub hj hh hsp hL (dt / 2.0)
  obtain ⟨s2, h2, t2⟩ := odd_sub hj hh t1 hL dt
  obtain ⟨s3, h3, t3⟩ := even_sub hj hh t2 hL (dt / 2.0)
  refine ⟨s3, ?_, t3⟩
  unfold SpinChain.trotter
  rw [← h3]
  rw [evenOmega_tab hj hh hsp hL, ok_bind] at h1 ⊢
  rw [h1, ok_bind]
  rw [oddOmega_tab hj hh t1 hL, ok_bind] at h2 ⊢
  rw [h2, ok_bind]

end

theorem updateField_tab {hs : List (V3 F)} {L : ℕ} {h : ℕ → V3 F} (hh : Tab hs L h) (s : ℕ)
    (e : V3 F) :
    Tab (SpinChain.updateField hs s e) L
      (fun i => if i < s then SpinChain.sum_vec (h i) e else h i) := by
  apply tab_of_getElem?
  · simp [SpinChain.updateField, hh.length]
  · intro i hi
    simp [SpinChain.updateField, List.getElem?_zipIdx, hh.getElem? hi]

theorem updateFieldNoStatic_tab {hs : List (V3 F)} {L : ℕ} {h : ℕ → V3 F} (hh : Tab hs L h)
    (s : ℕ) (e : V3 F) :
    Tab (SpinChain.updateFieldNoStatic hs s e) L
      (fun i => if i < s then e else ⟨0.0, 0.0, 0.0⟩) := by
  apply tab_of_getElem?
  · simp [SpinChain.updateFieldNoStatic, hh.length]
  · intro i hi
    simp [SpinChain.updateFieldNoStatic, List.getElem?_zipIdx, hh.getElem? hi]

end Verif
