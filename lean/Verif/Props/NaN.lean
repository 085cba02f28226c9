/-
C64: a spin that is not a number.
-/
import Verif.Lemmas.Update
import Verif.Lemmas.Regular
import Verif.Instances.XF
import Verif.Instances.B64
import Mathlib.Tactic.NormNum

set_option linter.unusedSectionVars false

namespace Verif.Props

open Spec

section anyF

variable {F : Type} [Add F] [Sub F] [Mul F] [Div F] [Neg F] [OfScientific F] [FOps F]

/-- Any arithmetic operation with `n` gives `n`; nothing is asked of square root, sine and cosine. -/
structure Absorbing (n : F) : Prop where
  add_l : ∀ x, n + x = n
  add_r : ∀ x, x + n = n
  sub_l : ∀ x, n - x = n
  sub_r : ∀ x, x - n = n
  mul_l : ∀ x, n * x = n
  mul_r : ∀ x, x * n = n
  div_l : ∀ x, n / x = n

/-- some component is `n` -/
def Sick (n : F) (v : V3 F) : Prop := v.x = n ∨ v.y = n ∨ v.z = n

/-- all components are `n` -/
def Lost (n : F) (v : V3 F) : Prop := v.x = n ∧ v.y = n ∧ v.z = n

variable {n : F}

theorem Lost.sick {v : V3 F} (h : Lost n v) : Sick n v := .inl h.1

/-- A rotation of a spin with a `NaN` component, or in a field with a `NaN` component, gives a spin with
three of them. -/
theorem C64_rotate (hn : Absorbing n) (s : Spin F) (f : V3 F) (dt : F) (h : Sick n s.dir ∨ Sick n f) :
    Lost n (s.rotate f dt).dir := by
  have key : ∀ fs : F, 0.0 + s.dir.x * (f.x / fs) + s.dir.y * (f.y / fs) + s.dir.z * (f.z / fs) = n := by
    intro fs
    rcases h with (h | h | h) | h | h | h <;>
      simp only [h, hn.add_l, hn.add_r, hn.mul_l, hn.mul_r, hn.div_l]
  unfold Spin.rotate
  simp only [key, hn.add_r, hn.mul_l, hn.mul_r, hn.div_l, hn.sub_l]
  exact ⟨rfl, rfl, rfl⟩

theorem omF_sick (hn : Absorbing n) {m : ℕ} {j h : ℕ → V3 F} {sp : ℕ → Spin F} {i : ℕ}
    (hs : Sick n (sp ((i + m - 1) % m)).dir ∨ Sick n (sp ((i + 1) % m)).dir) : Sick n (omF m j h sp i) := by
  unfold omF SpinChain.ssh_sum SpinChain.j_s Sick
  rcases hs with (hs | hs | hs) | hs | hs | hs
  · left; simp only [hs, hn.mul_r, hn.add_l, hn.sub_l]
  · right; left; simp only [hs, hn.mul_r, hn.add_l, hn.sub_l]
  · right; right; simp only [hs, hn.mul_r, hn.add_l, hn.sub_l]
  · left; simp only [hs, hn.mul_r, hn.add_r, hn.sub_l]
  · right; left; simp only [hs, hn.mul_r, hn.add_r, hn.sub_l]
  · right; right; simp only [hs, hn.mul_r, hn.add_r, hn.sub_l]

theorem subF_keep (hn : Absorbing n) {m par : ℕ} {j h : ℕ → V3 F} {dt : F} {sp : ℕ → Spin F} {i : ℕ}
    (hs : Sick n (sp i).dir) : Sick n (subF m par j h dt sp i).dir := by
  unfold subF
  split
  · exact (C64_rotate hn _ _ _ (.inl hs)).sick
  · exact hs

theorem subF_keepLost (hn : Absorbing n) {m par : ℕ} {j h : ℕ → V3 F} {dt : F} {sp : ℕ → Spin F} {i : ℕ}
    (hs : Lost n (sp i).dir) : Lost n (subF m par j h dt sp i).dir := by
  unfold subF
  split
  · exact C64_rotate hn _ _ _ (.inl hs.sick)
  · exact hs

theorem subF_lost (hn : Absorbing n) {m par : ℕ} {j h : ℕ → V3 F} {dt : F} {sp : ℕ → Spin F} {i : ℕ}
    (hi : i < m) (hp : i % 2 = par) (hs : Sick n (sp i).dir) : Lost n (subF m par j h dt sp i).dir := by
  unfold subF
  rw [if_pos ⟨hi, hp⟩]
  exact C64_rotate hn _ _ _ (.inl hs)

theorem subF_catch (hn : Absorbing n) {m par : ℕ} {j h : ℕ → V3 F} {dt : F} {sp : ℕ → Spin F} {i : ℕ}
    (hi : i < m) (hp : i % 2 = par)
    (hs : Sick n (sp ((i + m - 1) % m)).dir ∨ Sick n (sp ((i + 1) % m)).dir) :
    Lost n (subF m par j h dt sp i).dir := by
  unfold subF
  rw [if_pos ⟨hi, hp⟩]
  exact C64_rotate hn _ _ _ (.inr (omF_sick hn hs))

theorem stepF_sick (hn : Absorbing n) {m : ℕ} {j h : ℕ → V3 F} {dt : F} {sp : ℕ → Spin F} {i : ℕ} (hi : i < m)
    (hs : Sick n (sp i).dir) : Lost n (stepF m j h dt sp i).dir := by
  unfold stepF
  by_cases hp : i % 2 = 0
  · exact subF_lost hn hi hp (subF_keep hn (subF_keep hn hs))
  · exact subF_keepLost hn (subF_lost hn hi (by omega) (subF_keep hn hs))

theorem stepF_catch (hn : Absorbing n) {m : ℕ} {j h : ℕ → V3 F} {dt : F} {sp : ℕ → Spin F} {i : ℕ} (hi : i < m)
    (hs : Sick n (sp ((i + m - 1) % m)).dir ∨ Sick n (sp ((i + 1) % m)).dir) :
    Lost n (stepF m j h dt sp i).dir := by
  unfold stepF
  by_cases hp : i % 2 = 0
  · exact subF_keepLost hn (subF_keepLost hn (subF_catch hn hi hp hs))
  · refine subF_keepLost hn (subF_catch hn hi (by omega) ?_)
    rcases hs with hs | hs
    · exact .inl (subF_keep hn hs)
    · exact .inr (subF_keep hn hs)

/-- Spin `i` of the chain has a component `n`. -/
def SickAt (n : F) (c : SpinChain F) (i : ℕ) : Prop := ∃ s, c.spins[i]? = some s ∧ Sick n s.dir

/-- All components of spin `i` are `n`. -/
def LostAt (n : F) (c : SpinChain F) (i : ℕ) : Prop := ∃ s, c.spins[i]? = some s ∧ Lost n s.dir

theorem LostAt.sick {c : SpinChain F} {i : ℕ} (h : LostAt n c i) : SickAt n c i := by
  obtain ⟨s, h1, h2⟩ := h
  exact ⟨s, h1, h2.sick⟩

theorem spread (hn : Absorbing n) {c c' : SpinChain F} {L s : ℕ} (w : WF c L s) (hL : 2 ≤ L)
    (h : c.update = .ok c' ∨ c.update_no_field = .ok c') {i : ℕ} (hi : i < 2 * (L / 2))
    (hs : SickAt n c i ∨ SickAt n c ((i + 2 * (L / 2) - 1) % (2 * (L / 2))) ∨
      SickAt n c ((i + 1) % (2 * (L / 2)))) : LostAt n c' i := by
  obtain ⟨j, hh, sp, hj, hhh, hsp⟩ := wf_tabs w (by omega)
  obtain ⟨e, he⟩ := h_ext_ok w.hs (c.t + c.vars.dt / 2.0)
  have hm : 0 < 2 * (L / 2) := by omega
  have hle : 2 * (L / 2) ≤ L := by omega
  have conv : ∀ k, k < L → SickAt n c k → Sick n (sp k).dir := by
    rintro k hk ⟨x, h1, h2⟩
    rw [hsp.getElem? hk] at h1
    cases h1
    exact h2
  have key : ∀ B : ℕ → V3 F, Lost n (stepF (2 * (L / 2)) j B c.vars.dt sp i).dir := by
    intro B
    rcases hs with hs | hs | hs
    · exact stepF_sick hn hi (conv i (by omega) hs)
    · exact stepF_catch hn hi (.inl (conv _ ((Nat.mod_lt _ hm).trans_le hle) hs))
    · exact stepF_catch hn hi (.inr (conv _ ((Nat.mod_lt _ hm).trans_le hle) hs))
  rcases h with h | h
  · obtain ⟨s', g1, g2⟩ := update_tab w hL hj hhh hsp he
    rw [h] at g1
    cases g1
    exact ⟨_, g2.getElem? (by omega), key _⟩
  · obtain ⟨s', g1, g2⟩ := update_no_field_tab w hL hj hhh hsp he
    rw [h] at g1
    cases g1
    exact ⟨_, g2.getElem? (by omega), key _⟩

/-- One time-step (with or without static field) from a chain where spin `i` has a `NaN` component: it
and its two neighbours have three of them.  (For odd lengths the last spin never moves and is not part of
the ring.) -/
theorem C64_neighbours (hn : Absorbing n) {c c' : SpinChain F} {L s : ℕ} (w : WF c L s) (hL : 2 ≤ L)
    (h : c.update = .ok c' ∨ c.update_no_field = .ok c') {i : ℕ} (hi : i < 2 * (L / 2)) (hs : SickAt n c i) :
    LostAt n c' i ∧ LostAt n c' ((i + 1) % (2 * (L / 2))) ∧
      LostAt n c' ((i + 2 * (L / 2) - 1) % (2 * (L / 2))) := by
  have hm : 0 < 2 * (L / 2) := by omega
  refine ⟨spread hn w hL h hi (.inl hs), spread hn w hL h (Nat.mod_lt _ hm) (.inr (.inl ?_)),
    spread hn w hL h (Nat.mod_lt _ hm) (.inr (.inr ?_))⟩
  · generalize 2 * (L / 2) = m at *
    rw [show ((i + 1) % m + m - 1) % m = i from ?_]
    · exact hs
    · rcases Nat.lt_or_ge (i + 1) m with h1 | h1
      · rw [Nat.mod_eq_of_lt h1, show i + 1 + m - 1 = i + m by omega, Nat.add_mod_right, Nat.mod_eq_of_lt hi]
      · rw [show i + 1 = m by omega, Nat.mod_self, Nat.mod_eq_of_lt (by omega)]
        omega
  · generalize 2 * (L / 2) = m at *
    rw [show ((i + m - 1) % m + 1) % m = i from ?_]
    · exact hs
    · rcases Nat.eq_zero_or_pos i with h1 | h1
      · rw [h1, Nat.zero_add, Nat.mod_eq_of_lt (by omega : m - 1 < m), show m - 1 + 1 = m by omega, Nat.mod_self]
      · rw [show i + m - 1 = i - 1 + m by omega, Nat.add_mod_right, Nat.mod_eq_of_lt (by omega : i - 1 < m),
          show i - 1 + 1 = i by omega, Nat.mod_eq_of_lt hi]

/-- the spins up to `k` sites away from site `i` have `P` -/
def UpTo (m i k : ℕ) (P : ℕ → Prop) : Prop :=
  ∀ d ≤ k, P ((i + d) % m) ∧ ∀ j, j < m → (j + d) % m = i → P j

theorem upTo_step (hn : Absorbing n) {c c' : SpinChain F} {L s i k : ℕ} (w : WF c L s) (hL : 2 ≤ L)
    (h : c.update = .ok c') (hs : UpTo (2 * (L / 2)) i k (SickAt n c)) :
    UpTo (2 * (L / 2)) i (k + 1) (LostAt n c') := by
  have hm : 0 < 2 * (L / 2) := by omega
  intro d hd
  rcases Nat.lt_or_ge k d with hk | hk
  · obtain ⟨e, rfl⟩ : ∃ e, d = e + 1 := ⟨d - 1, by omega⟩
    obtain ⟨a1, a2⟩ := hs e (by omega)
    constructor
    · have := (C64_neighbours hn w hL (.inl h) (Nat.mod_lt _ hm) a1).2.1
      rwa [Nat.mod_add_mod] at this
    · intro j hj hji
      have hj' := a2 ((j + 1) % (2 * (L / 2))) (Nat.mod_lt _ hm) (by
        rw [Nat.mod_add_mod, ← hji]
        congr 1
        omega)
      exact spread hn w hL (.inl h) hj (.inr (.inr hj'))
  · obtain ⟨a1, a2⟩ := hs d hk
    exact ⟨spread hn w hL (.inl h) (Nat.mod_lt _ hm) (.inl a1),
      fun j hj hji => spread hn w hL (.inl h) hj (.inl (a2 j hj hji))⟩

theorem upTo_sick (hn : Absorbing n) {c : SpinChain F} {L s : ℕ} (w : WF c L s) (hL : 2 ≤ L) {i : ℕ}
    (hi : i < 2 * (L / 2)) (hs : SickAt n c i) (k : ℕ) {c' : SpinChain F} (h : c.updates k = .ok c') :
    UpTo (2 * (L / 2)) i k (SickAt n c') := by
  induction k generalizing c' with
  | zero =>
    cases h
    intro d hd
    obtain rfl : d = 0 := by omega
    refine ⟨by rw [Nat.add_zero, Nat.mod_eq_of_lt hi]; exact hs, fun j hj hji => ?_⟩
    rw [Nat.add_zero, Nat.mod_eq_of_lt hj] at hji
    rw [hji]
    exact hs
  | succ k ih =>
    obtain ⟨c1, h1, h2⟩ := updates_succ'.1 h
    intro d hd
    obtain ⟨a1, a2⟩ := upTo_step hn (updates_wf w h1) hL h2 (ih h1) d hd
    exact ⟨a1.sick, fun j hj hji => (a2 j hj hji).sick⟩

/-- After `k` time-steps (at least one) all spins up to `k` sites away, in either direction, are lost. -/
theorem C64_spreads (hn : Absorbing n) {c : SpinChain F} {L s : ℕ} (w : WF c L s) (hL : 2 ≤ L) {i : ℕ}
    (hi : i < 2 * (L / 2)) (hs : SickAt n c i) (k : ℕ) (hk : 1 ≤ k) {c' : SpinChain F}
    (h : c.updates k = .ok c') (d : ℕ) (hd : d ≤ k) :
    LostAt n c' ((i + d) % (2 * (L / 2))) ∧
      ∀ j, j < 2 * (L / 2) → (j + d) % (2 * (L / 2)) = i → LostAt n c' j := by
  obtain ⟨l, rfl⟩ : ∃ l, k = l + 1 := ⟨k - 1, by omega⟩
  obtain ⟨c1, h1, h2⟩ := updates_succ'.1 h
  exact upTo_step hn (updates_wf w h1) hL h2 (upTo_sick hn w hL hi hs l h1) d hd

/-- From half as many steps as sites on, for ever, the whole ring is lost. -/
theorem C64_all_lost (hn : Absorbing n) {c : SpinChain F} {L s : ℕ} (w : WF c L s) (hL : 2 ≤ L) {i : ℕ}
    (hi : i < 2 * (L / 2)) (hs : SickAt n c i) (k : ℕ) (hk : L / 2 ≤ k) {c' : SpinChain F}
    (h : c.updates k = .ok c') : ∀ j, j < 2 * (L / 2) → LostAt n c' j := by
  intro j hj
  have hm : 0 < 2 * (L / 2) := by omega
  rcases Nat.lt_or_ge ((j + 2 * (L / 2) - i) % (2 * (L / 2))) (L / 2 + 1) with h1 | h1
  · have := (C64_spreads hn w hL hi hs k (by omega) h ((j + 2 * (L / 2) - i) % (2 * (L / 2))) (by omega)).1
    rwa [Nat.add_mod_mod, show i + (j + 2 * (L / 2) - i) = j + 2 * (L / 2) by omega, Nat.add_mod_right,
      Nat.mod_eq_of_lt hj] at this
  · have hlt := Nat.mod_lt (j + 2 * (L / 2) - i) hm
    refine (C64_spreads hn w hL hi hs k (by omega) h (2 * (L / 2) - (j + 2 * (L / 2) - i) % (2 * (L / 2))) (by omega)).2
      j hj ?_
    rcases Nat.lt_or_ge j i with h2 | h2
    · rw [Nat.mod_eq_of_lt (by omega : j + 2 * (L / 2) - i < 2 * (L / 2)),
        show j + (2 * (L / 2) - (j + 2 * (L / 2) - i)) = i by omega, Nat.mod_eq_of_lt hi]
    · rw [show j + 2 * (L / 2) - i = j - i + 2 * (L / 2) by omega, Nat.add_mod_right,
        Nat.mod_eq_of_lt (by omega : j - i < 2 * (L / 2)),
        show j + (2 * (L / 2) - (j - i)) = i + 2 * (L / 2) by omega, Nat.add_mod_right, Nat.mod_eq_of_lt hi]

end anyF

/-- exact arithmetic with exceptional values -/
theorem xf_absorbing : Absorbing XF.nan := by
  constructor <;> intro x <;> simp

/-- IEEE binary64, whatever the mathematics library does -/
theorem b64_absorbing (m : Libm) : Absorbing (F := B64 m) B64v.nan := by
  constructor <;> intro x <;> cases (show B64v from x) <;> rfl

/-- In IEEE binary64, with any mathematics library: one `NaN` component anywhere in the ring makes every
component of every spin a `NaN` after half as many steps as sites, and for ever after. -/
theorem C64_binary64 {m : Libm} {c : SpinChain (B64 m)} {L s : ℕ} (w : WF c L s) (hL : 2 ≤ L) {i : ℕ}
    (hi : i < 2 * (L / 2)) (hs : SickAt (B64v.nan : B64 m) c i) (k : ℕ) (hk : L / 2 ≤ k) :
    ∃ c', c.updates k = .ok c' ∧ ∀ j, j < 2 * (L / 2) → LostAt (B64v.nan : B64 m) c' j := by
  obtain ⟨c', h⟩ := updates_ok w hL k
  exact ⟨c', h, C64_all_lost (b64_absorbing m) w hL hi hs k hk h⟩

/-- four spins, one component a `NaN` -/
def sickChain (m : Libm) : SpinChain (B64 m) where
  t := 0.0
  spins := [⟨⟨0.0, 0.0, 1.0⟩⟩, ⟨⟨B64v.nan, 0.0, 1.0⟩⟩, ⟨⟨0.0, 1.0, 0.0⟩⟩, ⟨⟨0.0, 0.0, 1.0⟩⟩]
  j_couple := List.replicate 4 ⟨1.0, 1.0, 1.0⟩
  static_h := List.replicate 4 ⟨0.0, 0.0, 0.0⟩
  file := none
  vars := { (Config.default : Config (B64 m)) with
    hsize := 4
    ssize := 2 }

theorem sickChain_wf (m : Libm) : WF (sickChain m) 4 2 := by
  constructor <;> simp [sickChain, Config.default]

example (m : Libm) : ∃ c', (sickChain m).updates 2 = .ok c' ∧ ∀ j, j < 4 → LostAt (B64v.nan : B64 m) c' j :=
  C64_binary64 (sickChain_wf m) (by omega) (i := 1) (by omega) ⟨_, rfl, .inl rfl⟩ 2 (by omega)

end Verif.Props
