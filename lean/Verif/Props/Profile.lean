/-
C52: the averaging writer, for all orders of arrival; C61: a missed checkpoint hangs the program.
-/
import Verif.Model.Writers
import Verif.Props.Sites
import Verif.Props.Split
import Verif.Props.DynProfile
import Verif.Lemmas.B64

namespace Verif.Props

open Spec

/-- sum of `f` over the messages of site `i` -/
def siteSum (i : ℕ) (ms : List (ProfileMsg ℝ)) (f : ProfileMsg ℝ → ℝ) : ℝ :=
  ((ms.filter fun m => m.1 = i).map f).sum

/-- sums after the messages `ms` -/
def addAll (acc : List (ℝ × V3 ℝ)) (ms : List (ProfileMsg ℝ)) : List (ℝ × V3 ℝ) :=
  acc.zipIdx.map fun a => (a.1.1 + siteSum a.2 ms fun m => m.2.1,
    ⟨a.1.2.x + siteSum a.2 ms fun m => m.2.2.x, a.1.2.y + siteSum a.2 ms fun m => m.2.2.y,
      a.1.2.z + siteSum a.2 ms fun m => m.2.2.z⟩)

theorem siteSum_cons (i : ℕ) (m : ProfileMsg ℝ) (ms : List (ProfileMsg ℝ)) (f : ProfileMsg ℝ → ℝ) :
    siteSum i (m :: ms) f = (if m.1 = i then f m else 0) + siteSum i ms f := by
  unfold siteSum
  by_cases h : m.1 = i
  · rw [List.filter_cons_of_pos (by simpa using h), if_pos h, List.map_cons, List.sum_cons]
  · rw [List.filter_cons_of_neg (by simpa using h), if_neg h, zero_add]

theorem profileLoop_eq (ms : List (ProfileMsg ℝ)) : ∀ acc : List (ℝ × V3 ℝ),
    (∀ m ∈ ms, m.1 < acc.length) → profileLoop ms.length ms acc = .ok (some (addAll acc ms)) := by
  induction ms with
  | nil =>
    intro acc _
    unfold profileLoop addAll
    refine congrArg (fun x => Except.ok (some x)) ?_
    apply List.ext_getElem (by simp)
    intro i h1 h2
    simp [siteSum]
  | cons m ms ih =>
    intro acc h
    have hm := h m List.mem_cons_self
    rw [List.length_cons, profileLoop]
    unfold profileAdd
    rw [idx_ok hm, ok_bind, setIdx_ok hm, ok_bind, ih _ (by
      intro m' hm'
      rw [List.length_set]
      exact h m' (List.mem_cons_of_mem _ hm'))]
    refine congrArg (fun x => Except.ok (some x)) ?_
    unfold addAll
    apply List.ext_getElem (by simp)
    intro i h1 h2
    simp only [List.getElem_map, List.getElem_zipIdx, Nat.zero_add, siteSum_cons]
    by_cases hi : m.1 = i
    · subst hi
      simp only [List.getElem_set_self, if_true, add_assoc]
    · rw [List.getElem_set_ne hi]
      simp only [if_neg hi, zero_add]

/-- more messages than are awaited: the rest is never read -/
theorem profileLoop_take {F : Type} [Add F] (n : ℕ) : ∀ (ms : List (ProfileMsg F)) (acc : List (F × V3 F)),
    profileLoop n (ms.take n) acc = profileLoop n ms acc := by
  induction n with
  | zero => intro ms acc; rfl
  | succ n ih =>
    intro ms acc
    cases ms with
    | nil => rfl
    | cons m ms =>
      rw [List.take_succ_cons]
      unfold profileLoop
      simp only [ih]

/-- too few messages: the writer waits -/
theorem profileLoop_short {F : Type} [Add F] (ms : List (ProfileMsg F)) : ∀ (n : ℕ) (acc : List (F × V3 F)),
    ms.length < n → (∀ m ∈ ms, m.1 < acc.length) → profileLoop n ms acc = .ok none := by
  induction ms with
  | nil =>
    intro n acc hn _
    cases n with
    | zero => simp at hn
    | succ n => rfl
  | cons m ms ih =>
    intro n acc hn h
    cases n with
    | zero => simp at hn
    | succ n =>
      have hm := h m List.mem_cons_self
      rw [profileLoop]
      unfold profileAdd
      rw [idx_ok hm, ok_bind, setIdx_ok hm, ok_bind]
      refine ih n _ (by simpa using hn) ?_
      intro m' hm'
      rw [List.length_set]
      exact h m' (List.mem_cons_of_mem _ hm')

theorem profileLoop_oob {F : Type} [Add F] (ms : List (ProfileMsg F)) : ∀ (acc : List (F × V3 F)),
    (∃ m ∈ ms, acc.length ≤ m.1) → profileLoop ms.length ms acc = .error .indexOOB := by
  induction ms with
  | nil => rintro acc ⟨m, hm, -⟩; cases hm
  | cons m ms ih =>
    intro acc h
    rw [List.length_cons, profileLoop]
    unfold profileAdd
    by_cases hm : m.1 < acc.length
    · rw [idx_ok hm, ok_bind, setIdx_ok hm, ok_bind]
      apply ih
      obtain ⟨m', h1, h2⟩ := h
      rcases List.mem_cons.mp h1 with rfl | h1
      · omega
      · exact ⟨m', h1, by rw [List.length_set]; exact h2⟩
    · rw [idx_oob (by omega)]
      rfl

theorem addAll_perm {ms ms' : List (ProfileMsg ℝ)} (h : ms.Perm ms') (acc : List (ℝ × V3 ℝ)) :
    addAll acc ms = addAll acc ms' := by
  have : ∀ i f, siteSum i ms f = siteSum i ms' f :=
    fun i f => ((h.filter _).map f).sum_eq
  unfold addAll
  simp only [this]

/-- In exact arithmetic the outcome (rows, or a panic) does not depend on the order in which the
messages arrive. -/
theorem C52_order (size pts : ℕ) (recv recv' : List (ProfileMsg ℝ)) (h : recv.Perm recv')
    (hl : recv.length = size * pts) : profileWriter size pts recv = profileWriter size pts recv' := by
  unfold profileWriter
  rw [← hl]
  have hl' := h.length_eq
  by_cases hi : ∃ m ∈ recv, size ≤ m.1
  · rw [profileLoop_oob recv _ (by simpa using hi)]
    rw [hl', profileLoop_oob recv' _ (by
      obtain ⟨m, h1, h2⟩ := hi
      exact ⟨m, h.mem_iff.mp h1, by simpa using h2⟩)]
  · push Not at hi
    rw [profileLoop_eq recv _ (by simpa using hi)]
    rw [hl', profileLoop_eq recv' _ (by
      intro m hm
      simpa using hi m (h.mem_iff.mpr hm)), addAll_perm h]

theorem siteSum_range {β : Type} (size i : ℕ) (hi : i < size) (e : β → ℕ → ℝ) (sp : β → ℕ → V3 ℝ)
    (bs : List β) (f : ℝ × V3 ℝ → ℝ) :
    siteSum i (bs.flatMap fun b => (List.range size).map fun i => (i, e b i, sp b i)) (fun m => f m.2)
      = (bs.map fun b => f (e b i, sp b i)).sum := by
  induction bs with
  | nil => simp [siteSum]
  | cons b bs ih =>
    have split : ∀ (l l' : List (ProfileMsg ℝ)) (g : ProfileMsg ℝ → ℝ),
        siteSum i (l ++ l') g = siteSum i l g + siteSum i l' g := by
      intro l l' g
      unfold siteSum
      rw [List.filter_append, List.map_append, List.sum_append]
    rw [List.flatMap_cons, split, ih, List.map_cons, List.sum_cons]
    congr 1
    unfold siteSum
    rw [List.filter_map, List.map_map]
    have : (List.range size).filter ((fun m : ProfileMsg ℝ => decide (m.1 = i)) ∘
        fun i => (i, e b i, sp b i)) = [i] := by
      have h1 : ((fun m : ProfileMsg ℝ => decide (m.1 = i)) ∘ fun i => (i, e b i, sp b i))
          = fun j => decide (j = i) := rfl
      rw [h1]
      have h2 : ∀ n, (List.range n).filter (fun j => decide (j = i)) = if i < n then [i] else [] := by
        intro n
        induction n with
        | zero => rfl
        | succ n ih =>
          rw [List.range_succ, List.filter_append, ih]
          by_cases h : i < n
          · rw [if_pos h, if_pos (by omega), List.filter_cons_of_neg (by simp; omega)]
            rfl
          · rw [if_neg h]
            by_cases h' : n = i
            · subst h'
              simp
            · rw [if_neg (by omega), List.filter_cons_of_neg (by simpa using h')]
              rfl
      rw [h2, if_pos hi]
    rw [this]
    simp

/-- When `pts ≥ 1` profiles `b` (one message for each of the sites, energy `e b i` and spin `sp b i`) are
sent in any way and arrive in any order, the rows written are the means over the profiles, site by
site. -/
theorem C52_mean {β : Type} (size : ℕ) (e : β → ℕ → ℝ) (sp : β → ℕ → V3 ℝ) (bs : List β) (_hb : bs ≠ [])
    (recv : List (ProfileMsg ℝ))
    (h : recv.Perm (bs.flatMap fun b => (List.range size).map fun i => (i, e b i, sp b i))) :
    profileWriter size bs.length recv = .ok (some ((List.range size).map fun i =>
      (i, (bs.map fun b => e b i).sum / bs.length,
        ⟨(bs.map fun b => (sp b i).x).sum / bs.length, (bs.map fun b => (sp b i).y).sum / bs.length,
          (bs.map fun b => (sp b i).z).sum / bs.length⟩))) := by
  have hl : recv.length = size * bs.length := by
    rw [h.length_eq]
    clear h _hb
    clear * -
    induction bs with
    | nil => rfl
    | cons b bs ih =>
      rw [List.flatMap_cons, List.length_append, ih, List.length_map, List.length_range,
        List.length_cons]
      ring
  rw [C52_order size bs.length recv _ h hl]
  unfold profileWriter
  rw [← hl, h.length_eq, profileLoop_eq _ _ (by
    intro m hm
    rw [List.mem_flatMap] at hm
    obtain ⟨b, -, hm⟩ := hm
    rw [List.mem_map] at hm
    obtain ⟨i, hi, rfl⟩ := hm
    simpa using hi)]
  simp only [ok_bind]
  refine congrArg (fun x => Except.ok (some x)) ?_
  unfold addAll
  apply List.ext_getElem (by simp)
  intro i h1 h2
  have hi : i < size := by simpa using h2
  simp only [List.getElem_map, List.getElem_zipIdx, List.getElem_replicate,
    List.getElem_range, lit_0, zero_add, fofInt_real, Int.cast_natCast,
    siteSum_range size i hi e sp bs (fun p => p.1), siteSum_range size i hi e sp bs (fun p => p.2.x),
    siteSum_range size i hi e sp bs (fun p => p.2.y), siteSum_range size i hi e sp bs (fun p => p.2.z)]

example : ([true, false] : List Bool) ≠ [] ∧
    ([(1, 2, ⟨0, 0, 1⟩), (0, 1, ⟨1, 0, 0⟩), (0, 3, ⟨0, 1, 0⟩), (1, 5, ⟨0, 0, 1⟩)] : List (ProfileMsg ℝ)).Perm
      ([true, false].flatMap fun b => (List.range 2).map fun i =>
        (i, if i = 0 then (if b then 1 else 3) else (if b then 2 else 5),
          if i = 0 then (if b then ⟨1, 0, 0⟩ else ⟨0, 1, 0⟩) else ⟨0, 0, 1⟩)) := by
  refine ⟨by simp, ?_⟩
  simp only [List.flatMap_cons, List.flatMap_nil, show List.range 2 = [0, 1] from rfl, List.map_cons,
    List.map_nil, if_true, List.cons_append, List.nil_append, List.append_nil]
  norm_num
  exact List.Perm.swap _ _ _

/-- In binary64 the last digits do depend on the order: three messages `1`, `2^-53`, `2^-53` for one
site. -/
theorem C52_binary64_order (m : Libm) : ∃ recv recv' : List (ProfileMsg (B64 m)),
    recv.Perm recv' ∧ recv.length = 1 * 3 ∧ profileWriter 1 3 recv ≠ profileWriter 1 3 recv' := by
  let a : B64v := .fin 1
  let b : B64v := .fin (1 / 2 ^ 53)
  let z : B64v := .fin 0
  refine ⟨[(0, a, ⟨z, z, z⟩), (0, b, ⟨z, z, z⟩), (0, b, ⟨z, z, z⟩)],
    [(0, b, ⟨z, z, z⟩), (0, b, ⟨z, z, z⟩), (0, a, ⟨z, z, z⟩)], ?_, rfl, ?_⟩
  · exact (List.Perm.swap _ _ _).trans ((List.Perm.swap _ _ _).cons _)
  intro h
  have e : ∀ x y w : B64v, profileWriter 1 3
      ([(0, x, ⟨z, z, z⟩), (0, y, ⟨z, z, z⟩), (0, w, ⟨z, z, z⟩)] : List (ProfileMsg (B64 m)))
      = .ok (some [(0, B64v.div (B64v.add (B64v.add (B64v.add (B64v.lit 0 true 1) x) y) w)
        (B64v.round (3 : ℤ) false), ⟨B64v.div (B64v.add (B64v.add (B64v.add (B64v.lit 0 true 1) z) z) z)
        (B64v.round (3 : ℤ) false), B64v.div (B64v.add (B64v.add (B64v.add (B64v.lit 0 true 1) z) z) z)
        (B64v.round (3 : ℤ) false), B64v.div (B64v.add (B64v.add (B64v.add (B64v.lit 0 true 1) z) z) z)
        (B64v.round (3 : ℤ) false)⟩)]) := fun _ _ _ => rfl
  rw [e, e] at h
  have h2 := congrArg (fun p : List (ProfileMsg (B64 m)) => p.map fun q => q.2.1)
    (Option.some.inj (Except.ok.inj h))
  have h3 := (List.cons.inj h2).1
  revert h3
  show ¬ (B64v.div (B64v.add (B64v.add (B64v.add (B64v.lit 0 true 1) (.fin 1)) (.fin (1 / 2 ^ 53)))
    (.fin (1 / 2 ^ 53))) (B64v.round (3 : ℤ) false)
    = B64v.div (B64v.add (B64v.add (B64v.add (B64v.lit 0 true 1) (.fin (1 / 2 ^ 53)))
      (.fin (1 / 2 ^ 53))) (.fin 1)) (B64v.round (3 : ℤ) false))
  decide +kernel

/-- No runs: the writer divides by zero and writes NaN. -/
theorem C52_no_runs (m : Libm) : profileWriter 1 0 ([] : List (ProfileMsg (B64 m)))
    = .ok (some [(0, .nan, ⟨.nan, .nan, .nan⟩)]) := by
  show Except.ok (some [(0, B64v.div (B64v.lit 0 true 1) (B64v.round (0 : ℤ) false),
    V3.mk (B64v.div (B64v.lit 0 true 1) (B64v.round (0 : ℤ) false))
      (B64v.div (B64v.lit 0 true 1) (B64v.round (0 : ℤ) false))
      (B64v.div (B64v.lit 0 true 1) (B64v.round (0 : ℤ) false)))]) = _
  have : B64v.div (B64v.lit 0 true 1) (B64v.round (0 : ℤ) false) = .nan := by decide +kernel
  rw [this]
  rfl

/-- Messages missing: the writer, and with it the program, waits for ever. -/
theorem C52_waits {F : Type} [Add F] [Sub F] [Mul F] [Div F] [Neg F] [OfScientific F] [FOps F]
    (size pts : ℕ) (recv : List (ProfileMsg F)) (h : recv.length < size * pts)
    (hi : ∀ m ∈ recv, m.1 < size) : profileWriter size pts recv = .ok none := by
  unfold profileWriter
  rw [profileLoop_short recv _ _ h (by simpa using hi)]
  rfl

/-- Whatever the configuration: if one of the runs misses a checkpoint, the writer of this checkpoint waits for ever, in whatever
order the messages of the other runs arrive. -/
theorem C61_missing (conf : Config ℝ) (L s : ℕ) (v : ValidConf conf L s) (hdt : 0 < conf.dt) (runs : ℕ) (u zj zh : ℕ → ℕ → ℝ)
    (ds : ℕ → ℕ → Draw ℝ) (c : ℕ → SpinChain ℝ) (N : ℕ → ℕ) (st : ℕ → RunState (SpinChain ℝ) (ℕ × List (ProfileMsg ℝ)))
    (hc : ∀ i < runs, SpinChain.new (dynConf conf) i (u i) (zj i) (zh i) = .ok (c i))
    (hst : ∀ i < runs, dynJob (c i) (ds i) (N i) = .ok (some (st i))) (k i : ℕ) (hi : i < runs)
    (hk : k ∉ (st i).rows.map Prod.fst) (recv : List (ProfileMsg ℝ))
    (hp : recv.Perm ((List.range runs).flatMap fun i => (st i).rows.flatMap fun r => if r.1 = k then r.2 else [])) :
    profileWriter L runs recv = .ok none := by
  have L0 : 0 < L := by have := v.L_two; omega
  have each : ∀ j < runs, ((st j).rows.map Prod.fst).Nodup ∧ ∀ r ∈ (st j).rows, r.2.map Prod.fst = List.range L := by
    intro j hj
    obtain ⟨c', N', st', h1, h2, h3, h4, -, h5⟩ := C61_at_most_once conf v hdt j (u j) (zj j) (zh j) (ds j)
    rw [hc j hj] at h1
    cases h1
    have hN : N j = N' := by
      by_contra h
      have := h5 _ h
      rw [hst j hj] at this
      cases this
    rw [← hN, hst j hj] at h2
    cases h2
    exact ⟨h3, fun r hr => (h4 r hr).2.2⟩
  set own : ℕ → List (ProfileMsg ℝ) := fun i => (st i).rows.flatMap fun r => if r.1 = k then r.2 else [] with hown
  have small : ∀ (rows : List (ℕ × List (ProfileMsg ℝ))), (rows.map Prod.fst).Nodup → (∀ r ∈ rows, r.2.map Prod.fst = List.range L) →
      (rows.flatMap fun r => if r.1 = k then r.2 else []).length ≤ L ∧
      (k ∉ rows.map Prod.fst → (rows.flatMap fun r => if r.1 = k then r.2 else []) = []) := by
    intro rows
    induction rows with
    | nil => simp
    | cons r rows ih =>
      intro h1 h2
      rw [List.map_cons, List.nodup_cons] at h1
      obtain ⟨i1, i2⟩ := ih h1.2 fun r hr => h2 r (List.mem_cons_of_mem _ hr)
      refine ⟨?_, fun h => ?_⟩
      · rw [List.flatMap_cons, List.length_append]
        split_ifs with e
        · rw [i2 (by rw [← e]; exact h1.1)]
          have := congrArg List.length (h2 r List.mem_cons_self)
          simp at this
          simp [this]
        · simpa using i1
      · rw [List.map_cons, List.mem_cons, not_or] at h
        rw [List.flatMap_cons, if_neg (Ne.symm h.1), i2 h.2]
        rfl
  refine C52_waits L runs recv ?_ ?_
  · rw [hp.length_eq]
    have : ∀ n ≤ runs, ((List.range n).flatMap own).length + (if i < n then L else 0) ≤ L * n := by
      intro n hn
      induction n with
      | zero => simp
      | succ n ih =>
        have ih := ih (by omega)
        obtain ⟨e1, e2⟩ := each n (by omega)
        obtain ⟨s1, s2⟩ := small _ e1 e2
        rw [List.range_succ, List.flatMap_append, List.length_append, List.flatMap_singleton]
        have s1' : (own n).length ≤ L := s1
        rw [Nat.mul_succ]
        by_cases h : i = n
        · subst h
          have : own i = [] := s2 hk
          rw [this, List.length_nil]
          rw [if_neg (by omega)] at ih
          rw [if_pos (by omega)]
          omega
        · by_cases h' : i < n
          · rw [if_pos h'] at ih
            rw [if_pos (by omega)]
            omega
          · rw [if_neg h'] at ih
            rw [if_neg (by omega)]
            omega
    have := this runs le_rfl
    rw [if_pos hi] at this
    omega
  · intro m hm
    have := hp.mem_iff.1 hm
    obtain ⟨j, hj, hm⟩ := List.mem_flatMap.1 this
    obtain ⟨r, hr, hm⟩ := List.mem_flatMap.1 (show m ∈ (st j).rows.flatMap _ from hm)
    have hj := List.mem_range.1 hj
    split_ifs at hm with e
    · have := List.mem_map_of_mem (f := Prod.fst) hm
      rw [(each j hj).2 r hr] at this
      exact List.mem_range.1 this
    · simp at hm

/-- With `dt = 0.3` and `tau = 1` (see `C61_missed`) the writer of the first checkpoint gets no message
from any of the runs, and waits for ever: the program never ends. -/
theorem C61_never_ends : ∃ conf : Config ℝ, ValidConf conf 512 8 ∧ conf.dt = 0.3 ∧ conf.tau = 1 ∧
    conf.trel = 0 ∧
    ∀ (runs : ℕ) (u zj zh : ℕ → ℕ → ℝ) (ds : ℕ → ℕ → Draw ℝ), 1 ≤ runs →
      ∃ (N : ℕ → ℕ) (st : ℕ → RunState (SpinChain ℝ) (ℕ × List (ProfileMsg ℝ))),
        (∀ i, ∃ c, SpinChain.new (dynConf conf) i (u i) (zj i) (zh i) = .ok c ∧
          dynJob c (ds i) (N i) = .ok (some (st i))) ∧
        ∀ recv : List (ProfileMsg ℝ),
          recv.Perm ((List.range runs).flatMap fun i =>
            (st i).rows.flatMap fun r => if r.1 = 1 then r.2 else []) →
          profileWriter 512 runs recv = .ok none := by
  obtain ⟨conf, v, h1, h2, h3, h4⟩ := C61_missed
  refine ⟨conf, v, h1, h2, h3, ?_⟩
  intro runs u zj zh ds hr
  choose c N st hc hN hm using fun i => h4 i (u i) (zj i) (zh i) (ds i)
  refine ⟨N, st, fun i => ⟨c i, hc i, hN i⟩, ?_⟩
  intro recv hp
  have : ((List.range runs).flatMap fun i =>
      (st i).rows.flatMap fun r => if r.1 = 1 then r.2 else []) = [] := by
    rw [List.flatMap_eq_nil_iff]
    intro i _
    rw [List.flatMap_eq_nil_iff]
    intro r hr
    rw [if_neg]
    intro h
    exact hm i (by rw [← h]; exact List.mem_map_of_mem hr)
  rw [this] at hp
  rw [hp.eq_nil]
  exact C52_waits 512 runs [] (by simp; omega) (by simp)

end Verif.Props
