/-
C51: division of the Monte-Carlo points among the workers.
-/
import Verif.Model.Writers
import Verif.Lemmas.Spectrum
import Mathlib.Algebra.BigOperators.Group.List.Basic
import Mathlib.Tactic.NormNum
import Mathlib.Tactic.Ring
import Mathlib.Data.Nat.ModEq

namespace Verif.Props

/-- The number of points of worker `i`. -/
theorem split_eq (chk : Bool) (threads points : ℕ) (ht : 1 ≤ threads) (hp : 1 ≤ points)
    (h : points < 2 ^ 31 ∨ chk = false ∧ points < 2 ^ 32) :
    mcSplit chk threads points = .ok ((List.range' 0 (min threads points)).map fun i =>
      if i = min threads points - 1 then
        points - (min threads points - 1) * (points / min threads points)
      else points / min threads points) := by
  have hm : mcThreads threads points = min threads points := by unfold mcThreads; split <;> omega
  unfold mcSplit
  simp only [hm]
  obtain ⟨n, hn⟩ : ∃ n, n = min threads points := ⟨_, rfl⟩
  rw [← hn]
  have hn1 : 1 ≤ n := by omega
  have hnp : n ≤ points := by omega
  rw [if_neg (by omega)]
  have hp32 : points < 2 ^ 32 := by rcases h with h | h <;> omega
  obtain ⟨q, hq'⟩ : ∃ q, q = points / n := ⟨_, rfl⟩
  have hq : q ≤ points := by rw [hq']; exact Nat.div_le_self _ _
  have hnq : n * q ≤ points := by rw [hq']; exact Nat.mul_div_le _ _
  have e1 : (n - 1) * q = n * q - q := by rw [Nat.sub_mul, one_mul]
  have hqn : q ≤ n * q := Nat.le_mul_of_pos_left _ (by omega)
  rw [← hq', Nat.mod_eq_of_lt (show q < 2 ^ 32 by omega)]
  simp only [Nat.mod_eq_of_lt hp32, Nat.mod_eq_of_lt (show n < 2 ^ 32 by omega), e1]
  obtain ⟨x, hx⟩ : ∃ x, x = n * q := ⟨_, rfl⟩
  rw [← hx] at hnq hqn ⊢
  refine mapRange_ok _ fun i _ hi => ?_
  split
  · unfold u32mul
    rw [← hx, if_pos (show x < 2 ^ 32 by omega)]
    unfold u32add
    by_cases ho : q + points < 2 ^ 32
    · rw [if_pos ho]
      simp only [ok_bind]
      unfold u32sub
      rw [if_pos (by omega)]
      refine congrArg Except.ok ?_
      omega
    · have hc : chk = false := by rcases h with h | h; · omega
                                  · exact h.1
      rw [if_neg ho, hc, if_neg (by decide)]
      simp only [ok_bind]
      unfold u32sub
      rw [Nat.mod_eq_sub_mod (by omega), Nat.mod_eq_of_lt (by omega), if_neg (by omega),
        if_neg (by decide)]
      refine congrArg Except.ok ?_
      omega
  · rfl

/-- The points are divided among `min threads points` workers, each gets its share `points / workers`
at least (so at least one), and together they produce exactly `points` points. -/
theorem C51_split (chk : Bool) (threads points : ℕ) (ht : 1 ≤ threads) (hp : 1 ≤ points)
    (h : points < 2 ^ 31 ∨ chk = false ∧ points < 2 ^ 32) :
    ∃ l, mcSplit chk threads points = .ok l ∧ l.length = min threads points ∧
      (∀ x ∈ l, 1 ≤ x ∧ points / min threads points ≤ x ∧
        x < points / min threads points + min threads points) ∧ l.sum = points := by
  refine ⟨_, split_eq chk threads points ht hp h, by simp, ?_, ?_⟩
  all_goals
    obtain ⟨n, hn⟩ : ∃ n, n = min threads points := ⟨_, rfl⟩
    rw [← hn]
    obtain ⟨k, rfl⟩ : ∃ k, n = k + 1 := ⟨n - 1, by omega⟩
    obtain ⟨q, hq⟩ : ∃ q, q = points / (k + 1) := ⟨_, rfl⟩
    have e : (k + 1) * q + points % (k + 1) = points := by rw [hq]; exact Nat.div_add_mod _ _
    have hm : points % (k + 1) < k + 1 := Nat.mod_lt _ (by omega)
    have hq1 : 1 ≤ q := by rw [hq]; exact Nat.div_pos (by omega) (by omega)
    have e2 : (k + 1) * q = k * q + q := Nat.succ_mul _ _
    rw [← hq]
  · intro x hx
    rw [List.mem_map] at hx
    obtain ⟨i, -, rfl⟩ := hx
    simp only [Nat.add_sub_cancel]
    split <;> omega
  · rw [List.range'_concat, List.map_append, List.sum_append]
    have : (List.range' 0 k).map (fun i => if i = k + 1 - 1 then points - (k + 1 - 1) * q else q)
        = List.replicate k q := by
      rw [List.eq_replicate_iff]
      refine ⟨by simp, ?_⟩
      intro b hb
      rw [List.mem_map] at hb
      obtain ⟨i, hi, rfl⟩ := hb
      rw [List.mem_range'_1] at hi
      rw [if_neg (by omega)]
    rw [this, List.sum_replicate]
    simp only [List.map_cons, List.map_nil, List.sum_cons, List.sum_nil, Nat.zero_add, one_mul,
      Nat.add_sub_cancel, if_true, smul_eq_mul]
    omega

example : mcSplit true 8 1000003 = .ok [125000, 125000, 125000, 125000, 125000, 125000, 125000, 125003] := by
  rfl

/-- No points or no threads: `ThreadPool::new` panics. -/
theorem C51_zero (chk : Bool) (threads points : ℕ) (h : threads = 0 ∨ points = 0) :
    mcSplit chk threads points = .error .invalidConfig := by
  have : mcThreads threads points = 0 := by unfold mcThreads; split <;> omega
  unfold mcSplit
  simp only [this]
  rfl

/-- From `2^31` points on, one thread is enough to make a debug build panic. -/
theorem C51_debug_overflow (points : ℕ) (h : 2 ^ 31 ≤ points) (h' : points < 2 ^ 32) :
    ∃ p, mcSplit true 1 points = .error p := by
  have : mcThreads 1 points = 1 := by unfold mcThreads; split <;> omega
  unfold mcSplit
  simp only [this, Nat.div_one]
  rw [if_neg (by decide)]
  refine mapRange_error 0 (by decide) ⟨.overflow, ?_⟩
  rw [if_pos rfl, Nat.mod_eq_of_lt h']
  unfold u32add
  rw [if_neg (by omega)]
  rfl

/-- Beyond the range of `u32` the count is silently wrong: no sample at all for `2^32` points. -/
theorem C51_truncated : mcSplit false 1 (2 ^ 32) = .ok [0] := by rfl

theorem u32_last (n t p : ℕ) : ∃ r, (do
      let a ← u32add false t (p % 2 ^ 32)
      let b ← u32mul false (n % 2 ^ 32) t
      u32sub false a b : R ℕ) = .ok r ∧ (t < 2 ^ 32 → r < 2 ^ 32) ∧ r + n * t ≡ t + p [MOD 2 ^ 32] := by
  have ha : u32add false t (p % 2 ^ 32) = .ok ((t + p % 2 ^ 32) % 2 ^ 32) := by
    unfold u32add
    split
    · exact congrArg Except.ok (Nat.mod_eq_of_lt ‹_›).symm
    · rfl
  have hb : u32mul false (n % 2 ^ 32) t = .ok (n % 2 ^ 32 * t % 2 ^ 32) := by
    unfold u32mul
    split
    · exact congrArg Except.ok (Nat.mod_eq_of_lt ‹_›).symm
    · rfl
  rw [ha, hb]
  simp only [ok_bind]
  have h1 : (t + p % 2 ^ 32) % 2 ^ 32 ≡ t + p [MOD 2 ^ 32] :=
    (Nat.mod_modEq _ _).trans ((Nat.mod_modEq p _).add_left t)
  have h2 : n % 2 ^ 32 * t % 2 ^ 32 ≡ n * t [MOD 2 ^ 32] :=
    (Nat.mod_modEq _ _).trans ((Nat.mod_modEq n _).mul_right t)
  have h3 : (t + p % 2 ^ 32) % 2 ^ 32 < 2 ^ 32 := Nat.mod_lt _ (by decide)
  have h4 : n % 2 ^ 32 * t % 2 ^ 32 < 2 ^ 32 := Nat.mod_lt _ (by decide)
  generalize (t + p % 2 ^ 32) % 2 ^ 32 = a at *
  generalize n % 2 ^ 32 * t % 2 ^ 32 = b at *
  unfold u32sub
  split
  · refine ⟨_, rfl, fun _ => by omega, ((h2.symm.add_left (a - b)).trans ?_).trans h1⟩
    rw [Nat.sub_add_cancel ‹_›]
  · refine ⟨_, rfl, fun _ => by omega, ((h2.symm.add_left (a + 2 ^ 32 - b)).trans ?_).trans h1⟩
    rw [Nat.sub_add_cancel (by omega)]
    exact Nat.add_modEq_right

/-- A release build never stops in the division of the work, and whatever the number of points the shares are correct
up to multiples of `2^32`: the arithmetic wraps around. -/
theorem C51_release (threads points : ℕ) (ht : 1 ≤ threads) (hp : 1 ≤ points) :
    ∃ l, mcSplit false threads points = .ok l ∧ l.length = min threads points ∧ (∀ x ∈ l, x < 2 ^ 32) ∧
      l.sum % 2 ^ 32 = points % 2 ^ 32 := by
  have hm : mcThreads threads points = min threads points := by unfold mcThreads; split <;> omega
  unfold mcSplit
  simp only [hm]
  obtain ⟨n, hn⟩ : ∃ n, n = min threads points := ⟨_, rfl⟩
  rw [← hn]
  obtain ⟨k, rfl⟩ : ∃ k, n = k + 1 := ⟨n - 1, by omega⟩
  rw [if_neg (by omega)]
  obtain ⟨t, hq⟩ : ∃ t, t = points / (k + 1) % 2 ^ 32 := ⟨_, rfl⟩
  have ht32 : t < 2 ^ 32 := by rw [hq]; exact Nat.mod_lt _ (by decide)
  rw [← hq]
  obtain ⟨r, hr, hr32, hmod⟩ := u32_last (k + 1) t points
  refine ⟨(List.range' 0 (k + 1)).map fun i => if i = k then r else t, mapRange_ok _ fun i _ hi => ?_, by simp, ?_, ?_⟩
  · rw [Nat.add_sub_cancel]
    split
    · exact hr
    · rfl
  · intro x hx
    rw [List.mem_map] at hx
    obtain ⟨i, -, rfl⟩ := hx
    have := hr32 ht32
    split <;> omega
  · rw [List.range'_concat, List.map_append, List.sum_append]
    have : (List.range' 0 k).map (fun i => if i = k then r else t) = List.replicate k t := by
      rw [List.eq_replicate_iff]
      refine ⟨by simp, ?_⟩
      intro b hb
      rw [List.mem_map] at hb
      obtain ⟨i, hi, rfl⟩ := hb
      rw [List.mem_range'_1] at hi
      rw [if_neg (by omega)]
    rw [this, List.sum_replicate]
    simp only [List.map_cons, List.map_nil, List.sum_cons, List.sum_nil, Nat.zero_add, one_mul, if_true, smul_eq_mul,
      Nat.add_zero]
    have e : r + (k + 1) * t = (k * t + r) + t := by ring
    rw [e, Nat.add_comm t] at hmod
    exact Nat.ModEq.add_right_cancel' t hmod

/-- five thousand million points on three threads: every share is in range -/
example : mcSplit false 3 5000000000 = .ok [1666666666, 1666666666, 1666666668] := by rfl

/-- on one thread the total is wrong -/
example : mcSplit false 1 5000000000 = .ok [705032704] := by rfl

end Verif.Props
