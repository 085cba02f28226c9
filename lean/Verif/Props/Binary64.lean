/-
C57 in binary64 arithmetic: the accumulated time falls short of the whole periods.
-/
import Verif.Lemmas.Runs
import Verif.Lemmas.LogTotal
import Verif.Lemmas.B64

namespace Verif.Props

open Spec

variable {m : Libm}

/-- the default configuration in binary64 with stroboscopic logging: `dt = 0.02`, `tau = 10` -/
def strob64 (m : Libm) : Config (B64 m) := { (Config.default : Config (B64 m)) with strob := true }

/-- `n` time-steps of `dt` in binary64, checking each time that the loop goes on and that no row is
written; `none` if that fails -/
def quiet : ℕ → B64v → Option B64v
  | 0, t => some t
  | n + 1, t =>
    let t' := B64v.add t (B64v.lit 2 true 2)
    if B64v.lt t (B64v.lit 2560 true 1)
        && B64v.toNat (B64v.div t' (B64v.lit 2 true 2)) % 500 != 0 then quiet n t'
    else none

/-- the time in binary64 after `i` steps of `0.02` from `-0.0` -/
def time64 (i : ℕ) : B64v := (fun t => B64v.add t (B64v.lit 2 true 2))^[i] B64v.nzero

theorem quiet_spec : ∀ (n k : ℕ) (t : B64v), quiet n (time64 k) = some t → t = time64 (k + n) ∧
    ∀ i, k ≤ i → i < k + n → B64v.lt (time64 i) (B64v.lit 2560 true 1) = true ∧
      B64v.toNat (B64v.div (time64 (i + 1)) (B64v.lit 2 true 2)) % 500 ≠ 0 := by
  intro n
  induction n with
  | zero =>
    intro k t h
    exact ⟨(Option.some.inj h).symm, fun i h1 h2 => by omega⟩
  | succ n ih =>
    intro k t h
    have hs : B64v.add (time64 k) (B64v.lit 2 true 2) = time64 (k + 1) := by
      unfold time64
      rw [Function.iterate_succ_apply']
    unfold quiet at h
    rw [hs] at h
    dsimp only at h
    split_ifs at h with hc
    rw [Bool.and_eq_true] at hc
    obtain ⟨h1, h2⟩ := ih (k + 1) t h
    refine ⟨by rw [h1, show k + 1 + n = k + (n + 1) by omega], fun i hi hi' => ?_⟩
    rcases Nat.lt_or_ge k i with h3 | h3
    · exact h2 i (by omega) (by omega)
    · have : i = k := by omega
      subst this
      exact ⟨hc.1, by simpa using hc.2⟩

/-- 500 steps of 0.02 lead to `9.99999999999987` only -/
theorem quiet_500 : quiet 500 (time64 0) = some (.fin (2814749767106525 / 281474976710656)) := by
  decide +kernel

theorem strob64_valid (m : Libm) : ValidConf (strob64 m) 512 8 := by
  refine ⟨rfl, rfl, by norm_num, by norm_num, by norm_num, by norm_num [strob64, Config.default],
    by norm_num [strob64, Config.default], ?_, ?_⟩
  · show (@fisFinite (B64 m) _ (B64v.lit 1 true 3)) = true
    have : B64v.lit 1 true 3 = .fin (1152921504606847 / 1152921504606846976) := by decide +kernel
    rw [this]
    rfl
  · show (@fisFinite (B64 m) _ (B64v.lit 0 true 1)) = true
    have : B64v.lit 0 true 1 = .fin 0 := by decide +kernel
    rw [this]
    rfl

theorem strob64_steps (m : Libm) : ftoNat ((strob64 m).tau / (strob64 m).dt) = 500 := by
  show B64v.toNat (B64v.div (B64v.lit 100 true 1) (B64v.lit 2 true 2)) = 500
  decide +kernel

/-- In binary64 arithmetic the default time-step and period with stroboscopic logging: for every
mathematics library, seed and initial draws, the job of `run_sim` starts with the row of the initial
state, writes nothing in its next 500 passes, although pass 500 ends (up to rounding) at the first
whole period `t = 10`, and then writes the row of `t = 10.02`, which is not a whole period. -/
theorem C57_negation_binary64 (m : Libm) (num : ℕ) (u zj zh : ℕ → B64 m) (ds : ℕ → Draw (B64 m)) :
    ∃ (c : SpinChain (B64 m)) (st : ℕ → RunState (SpinChain (B64 m)) (List (B64 m)))
      (row0 row1 : List (B64 m)) (t1 : B64 m),
      SpinChain.new (strob64 m) num u zj zh = .ok c ∧
      (∀ n, simJob c ds n = whileN runGuard (simPass 500) n (st 0)) ∧
      (∀ i, i ≤ 500 → runGuard (st i) = true ∧ simPass 500 (st i) = .ok (st (i + 1))) ∧
      (∀ i, i ≤ 500 → (st i).rows = [row0]) ∧ (st 501).rows = [row0, row1] ∧
      |B64v.val (st 500).chain.t - 10| < 1 / 10 ^ 9 ∧
      row1.head? = some t1 ∧ |B64v.val t1 - 1002 / 100| < 1 / 10 ^ 9 := by
  obtain ⟨c, h1, w, ht, hv, hfile, -⟩ := valid_new (strob64_valid m) num u zj zh
  obtain ⟨c0, h2, w0, hv0, ht0, hf0, -, -⟩ := warm_ok w (by norm_num) ds warmup
  obtain ⟨chain, k0, kw, kstep, kup⟩ := update_orbit w0 (by norm_num : 2 ≤ 512)
  have hvars : ∀ i, (chain i).vars = strob64 m := by
    intro i
    rw [(C25_update_frame _ _ i (kup i)).2.2.1, hv0, hv]
  have hfl : ∀ i, (chain i).file.isSome = true := by
    intro i
    rw [(C25_update_frame _ _ i (kup i)).2.2.2.1, hf0, hfile rfl]
    rfl
  have htime : ∀ i, (chain i).t = time64 i := by
    intro i
    rw [(C25_update_frame _ _ i (kup i)).2.2.2.2.2, hv0, hv, ht0, ht]
    rfl
  have hlog : ∀ i, ∃ row : List (B64 m), logRow (chain i) = .ok [row] ∧
      row.head? = some (chain i).t := by
    intro i
    obtain ⟨row, hr, -, hh⟩ := log_total (kw i) (by norm_num) (by norm_num)
      (by
        show B64v.toNat (B64v.div (B64v.round (8 : ℤ) false) (B64v.lit 40 true 1)) < 512
        decide +kernel)
      (by
        show B64v.toNat (B64v.div (B64v.mul (B64v.lit 30 true 1) (B64v.round (8 : ℤ) false))
          (B64v.lit 40 true 1)) < 512
        decide +kernel)
    refine ⟨row, ?_, hh⟩
    unfold logRow
    rw [hr, hfl i]
    rfl
  choose row hrow hhead using hlog
  obtain ⟨q1, q2⟩ := quiet_spec 500 0 _ quiet_500
  rw [Nat.zero_add] at q1 q2
  have q501 : B64v.toNat (B64v.div (time64 501) (B64v.lit 2 true 2)) % 500 = 0 ∧
      B64v.lt (time64 500) (B64v.lit 2560 true 1) = true ∧
      |B64v.val (time64 501) - 1002 / 100| < 1 / 10 ^ 9 := by
    have : time64 501 = B64v.add (time64 500) (B64v.lit 2 true 2) := by
      unfold time64
      rw [Function.iterate_succ_apply']
    rw [this, ← q1]
    decide +kernel
  have hh : ∀ i, strobHit (chain i).vars.strob 500 ((chain i).t / (chain i).vars.dt)
      = .ok (B64v.toNat (B64v.div (time64 i) (B64v.lit 2 true 2)) % 500 == 0) := by
    intro i
    rw [hvars, htime]
    rfl
  have hg : ∀ i, flt (chain i).t (chain i).vars.t = B64v.lt (time64 i) (B64v.lit 2560 true 1) := by
    intro i
    rw [hvars, htime]
    rfl
  let st : ℕ → RunState (SpinChain (B64 m)) (List (B64 m)) := fun i =>
    ⟨chain i, i, if i ≤ 500 then [row 0] else [row 0, row 501]⟩
  refine ⟨c, st, row 0, row 501, time64 501, h1, ?_, ?_, fun i hi => if_pos hi, rfl, ?_, ?_, q501.2.2⟩
  · intro n
    unfold simJob
    rw [← k0] at h2
    simp only [h2, ok_bind, hrow]
    rw [hvars, strob64_steps]
    rfl
  · intro i hi
    refine ⟨?_, ?_⟩
    · show flt (chain i).t (chain i).vars.t = true
      rw [hg]
      rcases Nat.lt_or_ge i 500 with h | h
      · exact (q2 i (by omega) h).1
      · rw [show i = 500 by omega]
        exact q501.2.1
    · have := runPass_eq (upd := fun _ c => SpinChain.update c)
        (hit := fun c => strobHit c.vars.strob 500 (c.t / c.vars.dt)) (row := logRow)
        (k := i) (rows := (st i).rows) (kstep i) (hh (i + 1)) (fun _ => hrow (i + 1))
      refine this.trans (congrArg (fun r => Except.ok (RunState.mk (chain (i + 1)) (i + 1) r)) ?_)
      show (if i ≤ 500 then _ else _) ++ _ = if i + 1 ≤ 500 then _ else _
      rw [if_pos hi]
      rcases Nat.lt_or_ge i 500 with h | h
      · have h3 := (q2 i (by omega) h).2
        rw [if_neg (by simpa using h3), if_pos (by omega), List.append_nil]
      · have h3 : i = 500 := by omega
        subst h3
        rw [if_pos (by simpa using q501.1), if_neg (by omega)]
        rfl
  · show |B64v.val (chain 500).t - 10| < 1 / 10 ^ 9
    rw [htime, ← q1]
    show |(2814749767106525 / 281474976710656 : ℚ) - 10| < 1 / 10 ^ 9
    rw [abs_lt]
    norm_num
  · rw [hhead 501, htime]

/-! ### C19: subsystem of one site -/

/-- The energy density of a subsystem of one site is `NaN` (the sum over its bonds is empty and is
divided by their number), in exact arithmetic with exceptional values and in binary64. -/
theorem C19_one_site_nan :
    (∀ (c : SpinChain XF) (L : ℕ), WF c L 1 → 1 ≤ L → c.system_energy = .ok .nan) ∧
    ∀ (m : Libm) (c : SpinChain (B64 m)) (L : ℕ), WF c L 1 → 1 ≤ L →
      c.system_energy = .ok B64v.nan := by
  constructor
  · intro c L w hL
    rw [system_energy_one w hL]
    have h : (0.0 : XF) / fofInt 0 = .nan := by
      rw [XF.lit]
      show XF.fin (0.0 : ℝ) / XF.fin ((0 : ℤ) : ℝ) = _
      norm_num [XF.zero_div_zero]
    rw [h]
  · intro m c L w hL
    rw [system_energy_one w hL]
    congr 1

end Verif.Props
