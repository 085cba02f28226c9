/-
Loops driven by the time of a chain, helper lemmas for Props/Runs.lean.
-/
import Verif.Model.Runs
import Verif.Spec.Runs
import Verif.Lemmas.Bisect
import Verif.Lemmas.Estimate
import Verif.Props.Log
import Verif.Props.Dynamics

namespace Verif

open Spec Props

section generic

variable {C Row : Type} {upd : ℕ → C → R C} {hit : C → R Bool} {row : C → R (List Row)}
  {g : C → Bool}

/-- what has been written after `k` passes -/
def written (b : ℕ → Bool) (rs : ℕ → List Row) (k : ℕ) : List Row :=
  (List.range k).flatMap fun i => if b (i + 1) then rs (i + 1) else []

theorem written_succ (b : ℕ → Bool) (rs : ℕ → List Row) (k : ℕ) :
    written b rs (k + 1) = written b rs k ++ if b (k + 1) then rs (k + 1) else [] := by
  unfold written
  rw [List.range_succ, List.flatMap_append]
  simp

theorem runPass_eq {c c' : C} {k : ℕ} {rows : List Row} {b : Bool} {r : List Row}
    (hu : upd k c = .ok c') (hh : hit c' = .ok b) (hr : b = true → row c' = .ok r) :
    runPass upd hit row ⟨c, k, rows⟩ = .ok ⟨c', k + 1, rows ++ if b then r else []⟩ := by
  unfold runPass
  simp only [hu, ok_bind, hh]
  cases b with
  | false => simp [pure, Except.pure]
  | true => simp [hr rfl]

theorem whileN_run {chain : ℕ → C} {b : ℕ → Bool} {rs : ℕ → List Row} {N : ℕ}
    (hu : ∀ i, i < N → upd i (chain i) = .ok (chain (i + 1)))
    (hg : ∀ i, i < N → g (chain i) = true) (hN : g (chain N) = false)
    (hh : ∀ i, i < N → hit (chain (i + 1)) = .ok (b (i + 1)))
    (hr : ∀ i, i < N → b (i + 1) = true → row (chain (i + 1)) = .ok (rs (i + 1)))
    (rows0 : List Row) :
    whileN (fun st : RunState C Row => g st.chain) (runPass upd hit row) N ⟨chain 0, 0, rows0⟩
        = .ok (some ⟨chain N, N, rows0 ++ written b rs N⟩) ∧
      ∀ n, n ≠ N → whileN (fun st : RunState C Row => g st.chain) (runPass upd hit row) n
        ⟨chain 0, 0, rows0⟩ = .ok none := by
  have key := whileN_exact (guard := fun st : RunState C Row => g st.chain)
    (body := runPass upd hit row)
    (Inv := fun k st => st = ⟨chain k, k, rows0 ++ written b rs k⟩) (N := N) ?_ ?_ N 0
    ⟨chain 0, 0, rows0⟩ (by omega) (by simp [written])
  · obtain ⟨⟨s', h1, h2⟩, h3⟩ := key
    exact ⟨by rw [h1, h2], h3⟩
  · rintro k s hk rfl
    refine ⟨hg k hk, _, runPass_eq (hu k hk) (hh k hk) (hr k hk), ?_⟩
    rw [written_succ, List.append_assoc]
  · rintro s rfl
    exact hN

theorem whileN_never {σ : Type} {guard : σ → Bool} {body : σ → R σ} {Inv : σ → Prop}
    (hs : ∀ s, Inv s → guard s = true ∧ ∃ s', body s = .ok s' ∧ Inv s') :
    ∀ n s, Inv s → whileN guard body n s = .ok none := by
  intro n
  induction n with
  | zero => intro s h; simp [whileN, (hs s h).1]
  | succ n ih =>
    intro s h
    obtain ⟨h1, s', h2, h3⟩ := hs s h
    simp [whileN, h1, h2, ok_bind, ih s' h3]

/-- a panic in pass `k` ends every longer loop with that panic -/
theorem whileN_panic {σ : Type} {guard : σ → Bool} {body : σ → R σ} {p : Panic} :
    ∀ (k : ℕ) (st : ℕ → σ), (∀ i, i ≤ k → guard (st i) = true) →
      (∀ i, i < k → body (st i) = .ok (st (i + 1))) → body (st k) = .error p →
      ∀ n, k < n → whileN guard body n (st 0) = .error p := by
  intro k
  induction k with
  | zero =>
    intro st hg _ hp n hn
    obtain ⟨n, rfl⟩ : ∃ m, n = m + 1 := ⟨n - 1, by omega⟩
    simp [whileN, hg 0 le_rfl, hp]
    rfl
  | succ k ih =>
    intro st hg hb hp n hn
    obtain ⟨n, rfl⟩ : ∃ m, n = m + 1 := ⟨n - 1, by omega⟩
    have := ih (fun i => st (i + 1)) (fun i hi => hg (i + 1) (by omega))
      (fun i hi => hb (i + 1) (by omega)) hp n (by omega)
    simp [whileN, hg 0 (by omega), hb 0 (by omega), ok_bind, this]

/-- A total step that keeps an invariant can be repeated for ever. -/
theorem exists_orbit {P : C → Prop} {f : ℕ → C → R C} (hf : ∀ i c, P c → ∃ c', f i c = .ok c' ∧ P c')
    {c : C} (hc : P c) :
    ∃ chain : ℕ → C, chain 0 = c ∧ (∀ i, P (chain i)) ∧ ∀ i, f i (chain i) = .ok (chain (i + 1)) := by
  classical
  let next : ℕ → C → C := fun i c => match f i c with | .ok c' => c' | .error _ => c
  let chain : ℕ → C := fun n => Nat.rec c (fun i c => next i c) n
  have hP : ∀ i, P (chain i) ∧ f i (chain i) = .ok (chain (i + 1)) := by
    intro i
    have step : ∀ i, P (chain i) → f i (chain i) = .ok (chain (i + 1)) ∧ P (chain (i + 1)) := by
      intro i h
      obtain ⟨c', h1, h2⟩ := hf i _ h
      have : chain (i + 1) = c' := by
        show next i (chain i) = c'
        simp only [next, h1]
      rw [this]
      exact ⟨h1, h2⟩
    induction i with
    | zero => exact ⟨hc, (step 0 hc).1⟩
    | succ i ih => exact ⟨(step i ih.1).2, (step _ (step i ih.1).2).1⟩
  exact ⟨chain, rfl, fun i => (hP i).1, fun i => (hP i).2⟩

end generic

/-! ### Chains -/

section anyF

set_option linter.unusedSectionVars false

variable {F : Type} [Add F] [Sub F] [Mul F] [Div F] [Neg F] [OfScientific F] [FOps F]
variable {c : SpinChain F} {L s : ℕ}

theorem updates_one (c : SpinChain F) : c.updates 1 = c.update := by
  show (c.update >>= fun c' => c'.updates 0) = _
  cases c.update <;> rfl

theorem update_orbit (w : WF c L s) (hL : 2 ≤ L) :
    ∃ chain : ℕ → SpinChain F, chain 0 = c ∧ (∀ i, WF (chain i) L s) ∧
      (∀ i, (chain i).update = .ok (chain (i + 1))) ∧ ∀ i, c.updates i = .ok (chain i) := by
  obtain ⟨chain, h0, h1, h2⟩ := exists_orbit (P := fun c : SpinChain F => WF c L s)
    (f := fun _ c => c.update) (fun _ c w => by
      obtain ⟨c', h⟩ := C25_update_total c L s 1 w hL
      exact ⟨c', by rw [← updates_one]; exact h, updates_wf w h⟩) w
  refine ⟨chain, h0, h1, h2, ?_⟩
  have key : ∀ i k, (chain k).updates i = .ok (chain (k + i)) := by
    intro i
    induction i with
    | zero => intro k; rfl
    | succ i ih =>
      intro k
      show ((chain k).update >>= fun c' => c'.updates i) = _
      rw [h2, ok_bind, ih, show k + 1 + i = k + (i + 1) by omega]
  intro i
  have := key i 0
  rwa [h0, Nat.zero_add] at this

theorem warm_ok (w : WF c L s) (hL : 2 ≤ L) (ds : ℕ → Draw F) (n : ℕ) :
    ∃ c', sweeps SpinChain.metropolis_update ds n c = .ok c' ∧ WF c' L s ∧ c'.vars = c.vars ∧
      c'.t = c.t ∧ c'.file = c.file ∧ c'.j_couple = c.j_couple ∧ c'.static_h = c.static_h := by
  have e : sweeps SpinChain.metropolis_update ds n c = sample (block .plain ds n) c :=
    sweeps_eq .plain ds n c
  obtain ⟨c', h⟩ := C34_total (block .plain ds n) c L s w hL
  obtain ⟨h1, h2, h3, h4, h5, h6⟩ := C34_frame _ c c' h
  exact ⟨c', by rw [e, h], sample_wf w h, h5, h4, h6, h2, h3⟩

end anyF

/-! ### Real time -/

theorem exists_steps (t0 T : ℝ) {dt : ℝ} (hdt : 0 < dt) : ∃ N, StepsNeeded t0 dt T N := by
  refine ⟨⌈(T - t0) / dt⌉₊, ?_, ?_⟩
  · intro n hn
    have := Nat.lt_ceil.mp hn
    rw [lt_div_iff₀ hdt] at this
    linarith
  · have := Nat.le_ceil ((T - t0) / dt)
    rw [div_le_iff₀ hdt] at this
    linarith

theorem steps_unique {t0 T dt : ℝ} {M N : ℕ} (hM : StepsNeeded t0 dt T M)
    (hN : StepsNeeded t0 dt T N) : M = N := by
  rcases lt_trichotomy M N with h | h | h
  · exact absurd (hN.1 M h) (not_lt.mpr hM.2)
  · exact h
  · exact absurd (hM.1 N h) (not_lt.mpr hN.2)

theorem valid_new {F : Type} [Add F] [Sub F] [Mul F] [Div F] [Neg F] [OfScientific F] [FOps F]
    {conf : Config F} {L s : ℕ} (v : ValidConf conf L s) (num : ℕ) (u zj zh : ℕ → F) :
    ∃ c, SpinChain.new conf num u zj zh = .ok c ∧ WF c L s ∧ c.t = -conf.trel ∧ c.vars = conf ∧
      (conf.log = true → c.file = some (conf.file ++ toString num ++ ".dat")) ∧
      (conf.log = false → c.file = none) := by
  obtain ⟨c, h1, h2, h3, h4, h5, h6, h7, h8⟩ := C11_new_wf conf num u zj zh L v.hsize v.L_lt
    v.hfield v.hs v.jvar v.hvar
  exact ⟨c, h1, ⟨by rw [h6]; exact v.hsize, by rw [h6]; exact v.ssize, v.L_lt, v.s_lt, h2, h3, h4,
    by rw [h6]; exact v.hs⟩, h5, h6, h7, h8⟩

variable {c : SpinChain ℝ} {L s N : ℕ} {chain : ℕ → SpinChain ℝ}
  {upd : SpinChain ℝ → R (SpinChain ℝ)}

theorem course_of (hupd : ∀ c : SpinChain ℝ, WF c L s → ∃ sp, upd c = .ok
      { c with
        spins := sp
        t := c.t + c.vars.dt } ∧ sp.length = L) (w : WF c L s)
    (hdt : 0 < c.vars.dt) : ∃ N chain, Course upd c L s N chain := by
  obtain ⟨N, hN⟩ := exists_steps c.t c.vars.t hdt
  obtain ⟨chain, h0, h1, h2⟩ := exists_orbit (f := fun _ c => upd c)
    (P := fun d : SpinChain ℝ => WF d L s ∧ d.vars = c.vars ∧ d.file = c.file) (fun _ d hd => by
      obtain ⟨w, hv, hf⟩ := hd
      obtain ⟨sp, h, hl⟩ := hupd d w
      exact ⟨_, h, ⟨w.hsize, w.ssize, w.L_lt, w.s_lt, hl, w.j, w.h, w.hs⟩, hv, hf⟩) ⟨w, rfl, rfl⟩
  refine ⟨N, chain, h0, h2, ?_, fun i => (h1 i).2.1, fun i => (h1 i).2.2, fun i => (h1 i).1, hN⟩
  intro i
  induction i with
  | zero => simp [h0]
  | succ i ih =>
    obtain ⟨sp, h, -⟩ := hupd (chain i) (h1 i).1
    have := h2 i
    rw [h] at this
    rw [← Except.ok.inj this]
    simp only [ih, (h1 i).2.1]
    push_cast
    ring

theorem update_course (w : WF c L s) (hL : 2 ≤ L) (hdt : 0 < c.vars.dt) :
    ∃ N chain, Course SpinChain.update c L s N chain := by
  refine course_of (fun d w => ?_) w hdt
  obtain ⟨d', h⟩ := C25_update_total d L s 1 w hL
  obtain ⟨h1, h2, h3, h4, h5, h6⟩ := C25_update_frame d d' 1 h
  refine ⟨d'.spins, ?_, by rw [h5, w.spins]⟩
  rw [← updates_one, h]
  cases d'
  simp_all

theorem Spec.Course.guard_lt (k : Course upd c L s N chain) {i : ℕ} (hi : i < N) :
    flt (chain i).t (chain i).vars.t = true := by
  simp only [flt_real, k.time, k.vars, decide_eq_true_eq]
  exact k.steps.1 i hi

theorem Spec.Course.guard_end (k : Course upd c L s N chain) :
    flt (chain N).t (chain N).vars.t = false := by
  simp only [flt_real, k.time, k.vars, decide_eq_false_iff_not, not_lt]
  exact k.steps.2

/-- rows of `log` along a course -/
theorem Spec.Course.logs (k : Course upd c L s N chain) (hs : 1 ≤ s) (hsL : s ≤ L) :
    ∃ row : ℕ → List ℝ, ∀ i, (chain i).log = .ok (if c.file.isSome then some (row i) else none) ∧
      (row i).length = 13 ∧ (row i).head? = some (chain i).t := by
  choose row h using fun i => C42_log_row (chain i) L s (k.wf i) hs hsL
  refine ⟨row, fun i => ⟨by rw [(h i).1, k.file i], ?_, ?_⟩⟩
  · rw [(h i).2.2.2]; rfl
  · rw [(h i).2.2.2]; rfl

theorem written_map {α : Type} (b : ℕ → Bool) (row : ℕ → α) (N : ℕ) :
    row 0 :: written b (fun i => [row i]) N
      = ((List.range (N + 1)).filter fun i => i == 0 || b i).map row := by
  induction N with
  | zero => simp [written]
  | succ N ih =>
    rw [written_succ, ← List.cons_append, ih, List.range_succ (n := N + 1), List.filter_append,
      List.map_append]
    congr 1
    by_cases h : b (N + 1) <;> simp [h]

/-- The loop of a run along a course: the first row `r 0` is already written, and `r i` is the row of
pass `i`. -/
theorem Spec.Course.run {Row : Type} (k : Course upd c L s N chain) {hit : SpinChain ℝ → R Bool}
    {row : SpinChain ℝ → R (List Row)} {b : ℕ → Bool} {r : ℕ → Row}
    (hh : ∀ i, i < N → hit (chain (i + 1)) = .ok (b (i + 1)))
    (hr : ∀ i, row (chain (i + 1)) = .ok [r (i + 1)]) :
    whileN runGuard (runPass (fun _ c => upd c) hit row) N ⟨c, 0, [r 0]⟩
        = .ok (some ⟨chain N, N, ((List.range (N + 1)).filter fun i => i == 0 || b i).map r⟩) ∧
      ∀ n, n ≠ N → whileN runGuard (runPass (fun _ c => upd c) hit row) n ⟨c, 0, [r 0]⟩
        = .ok none := by
  have key := whileN_run (upd := fun _ c => upd c) (hit := hit) (row := row)
    (g := fun c : SpinChain ℝ => flt c.t c.vars.t) (chain := chain) (b := b)
    (rs := fun i => [r i]) (N := N) (fun i _ => k.step i) (fun i hi => k.guard_lt hi) k.guard_end
    hh (fun i _ _ => hr i) [r 0]
  rw [k.zero] at key
  rw [← written_map]
  exact key

theorem strob_nat {P j : ℕ} (h1 : 1 ≤ P) (h2 : P < 2 ^ 64) (h3 : j < 2 ^ 64) :
    strobHit true (ftoNat (P : ℝ)) (j : ℝ) = .ok (decide (P ∣ j)) := by
  unfold strobHit
  simp only [ftoNat_real, Nat.floor_natCast]
  rw [min_eq_left (by omega), min_eq_left (by omega), if_pos trivial, if_neg (by omega)]
  congr 1
  rw [Bool.eq_iff_iff]
  simp [Nat.dvd_iff_mod_eq_zero]

theorem strob_nonpos {ts : ℕ} (h1 : 1 ≤ ts) {x : ℝ} (hx : x ≤ 0) :
    strobHit true ts x = .ok true := by
  unfold strobHit
  simp only [ftoNat_real, Nat.floor_of_nonpos hx]
  rw [if_pos trivial, if_neg (by omega)]
  rfl

open Classical in
/-- the decision to log when period and start are whole numbers of steps -/
theorem strob_whole {P : ℕ} {m : ℤ} {t0 dt : ℝ} (hdt : 0 < dt) (hP : 1 ≤ P) (hP' : P < 2 ^ 64)
    (h0 : t0 = -(m * dt)) {i : ℕ} (hi : (i : ℝ) * dt + t0 < 2 ^ 64 * dt) :
    strobHit true (ftoNat (P : ℝ)) ((t0 + i * dt) / dt)
      = .ok (decide (t0 + i * dt ≤ 0 ∨ WholePeriods (P * dt) (t0 + i * dt))) := by
  have hx : (t0 + i * dt) / dt = ((i - m : ℤ) : ℝ) := by
    rw [h0]
    push_cast
    field_simp
    ring
  have ht : t0 + i * dt = ((i - m : ℤ) : ℝ) * dt := by
    rw [← hx]
    field_simp
  have hle : t0 + i * dt ≤ 0 ↔ (i : ℤ) ≤ m := by
    have h0 : ((i - m : ℤ) : ℝ) * dt ≤ 0 ↔ ((i - m : ℤ) : ℝ) ≤ ((0 : ℤ) : ℝ) := by
      rw [Int.cast_zero]
      constructor
      · intro h
        by_contra h'
        exact absurd (mul_pos (not_le.mp h') hdt) (not_lt.mpr h)
      · intro h
        exact mul_nonpos_of_nonpos_of_nonneg h hdt.le
    rw [ht, h0, Int.cast_le]
    omega
  have hwhole : WholePeriods (P * dt) (t0 + i * dt) ↔ (P : ℤ) ∣ i - m := by
    unfold WholePeriods
    rw [ht]
    constructor
    · rintro ⟨q, hq⟩
      refine ⟨q, ?_⟩
      have : ((i - m : ℤ) : ℝ) = ((P * q : ℤ) : ℝ) := by
        push_cast at hq ⊢
        apply mul_right_cancel₀ hdt.ne'
        linarith
      exact_mod_cast this
    · rintro ⟨q, hq⟩
      refine ⟨q, ?_⟩
      rw [hq]
      push_cast
      ring
  rw [hx]
  by_cases hm : (i : ℤ) ≤ m
  · rw [strob_nonpos]
    · congr 1
      rw [Bool.eq_iff_iff, decide_eq_true_iff, hle]
      simp only [hm, true_or]
    · simp only [ftoNat_real, Nat.floor_natCast]; omega
    · rw [← Int.cast_zero, Int.cast_le]; omega
  · obtain ⟨j, hj⟩ : ∃ j : ℕ, (i : ℤ) - m = j := ⟨((i : ℤ) - m).toNat, by omega⟩
    rw [hj, Int.cast_natCast, strob_nat hP hP']
    · congr 1
      rw [Bool.eq_iff_iff, decide_eq_true_iff, decide_eq_true_iff, hle, hwhole, hj,
        Int.natCast_dvd_natCast]
      simp only [hm, false_or]
    · rw [add_comm, ht, hj] at hi
      have := lt_of_mul_lt_mul_right hi hdt.le
      exact_mod_cast this

end Verif
