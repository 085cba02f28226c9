/- Lemmas about `whileN` and the bisection loop. -/
import Verif.Model.Obs
import Verif.Instances.XF
import Mathlib.Tactic.Linarith
import Mathlib.Tactic.Ring
import Mathlib.Tactic.NormNum
import Mathlib.Tactic.IntervalCases

set_option linter.unusedSectionVars false

namespace Verif

section whileN
variable {σ : Type} {guard : σ → Bool} {body : σ → R σ}

/-- a loop whose guard is decided by the pass number makes exactly that many passes -/
theorem whileN_exact {Inv : ℕ → σ → Prop} {N : ℕ}
    (hstep : ∀ k s, k < N → Inv k s → guard s = true ∧ ∃ s', body s = .ok s' ∧ Inv (k + 1) s')
    (hend : ∀ s, Inv N s → guard s = false) :
    ∀ m k s, k + m = N → Inv k s → (∃ s', whileN guard body m s = .ok (some s') ∧ Inv N s') ∧
      ∀ n, n ≠ m → whileN guard body n s = .ok none := by
  intro m
  induction m with
  | zero =>
    intro k s hk h
    have hk : k = N := by omega
    subst hk
    have g := hend s h
    refine ⟨⟨s, by simp [whileN, g], h⟩, ?_⟩
    intro n hn
    cases n with
    | zero => exact absurd rfl hn
    | succ n => simp [whileN, g]
  | succ m ih =>
    intro k s hk h
    obtain ⟨g, s', hb, h'⟩ := hstep k s (by omega) h
    obtain ⟨⟨s'', h1, h2⟩, h3⟩ := ih (k + 1) s' (by omega) h'
    refine ⟨⟨s'', ?_, h2⟩, ?_⟩
    · simp only [whileN, g, if_true, hb]
      exact h1
    · intro n hn
      cases n with
      | zero => simp [whileN, g]
      | succ n =>
        simp only [whileN, g, if_true, hb]
        exact h3 n (by omega)

end whileN

variable {F : Type} [Add F] [Sub F] [Mul F] [Div F] [Neg F] [OfScientific F] [FOps F]

/-- how the two kinds of arithmetic used here treat positive finite numbers -/
structure Embeds (φ : ℝ → F) : Prop where
  mid : ∀ a b : ℝ, 0 < a → 0 < b → (0.5 : F) * (φ a + φ b) = φ ((a + b) / 2)
  guard : ∀ a b : ℝ, flt (0.001 : F) (φ b - φ a) = decide (0.001 < b - a)

theorem embeds_real : Embeds (F := ℝ) id where
  mid := by intro a b _ _; simp only [id]; norm_num; ring
  guard := by intro a b; rfl

theorem embeds_xf : Embeds XF.fin where
  mid := by
    intro a b ha hb
    rw [XF.lit, show XF.fin a + XF.fin b = XF.fin (a + b) from rfl, XF.fin_mul]
    have : (0.5 : ℝ) * (a + b) ≠ 0 := by norm_num; linarith
    unfold XF.mk
    rw [if_neg this]
    congr 1
    norm_num; ring
  guard := by
    intro a b
    rw [XF.lit]
    by_cases h : a = 0
    · subst h
      have e : XF.fin b - XF.fin 0 = XF.fin b := by
        change XF.add (XF.fin b) (XF.neg (XF.fin 0)) = _
        simp [XF.neg, XF.add]
      rw [e, XF.fin_lt, sub_zero]
    · have e : XF.fin b - XF.fin a = XF.fin (b - a) := by
        change XF.add (XF.fin b) (XF.neg (XF.fin a)) = _
        simp [XF.neg, XF.add, h, sub_eq_add_neg]
      rw [e, XF.fin_lt]

/-- The state after `k` halvings of the bracket `[l0, h0]`, with anything else that is kept by the
loop in `P l h`. -/
structure BInv (φ : ℝ → F) (est : ℕ → F → R F) (l0 h0 : ℝ) (P : ℝ → ℝ → Prop) (k : ℕ)
    (b : Bisect F) : Prop where
  ex : ∃ l h : ℝ, b.low = φ l ∧ b.high = φ h ∧ b.mid = φ ((l + h) / 2) ∧ l0 ≤ l ∧ h ≤ h0 ∧
    h - l = (h0 - l0) / 2 ^ k ∧ P l h
  calls : b.calls = k + 3
  e_mid : ∃ j, est j b.mid = .ok b.e_mid

theorem bisect_run {φ : ℝ → F} (em : Embeds φ) {l0 h0 : ℝ} (hl0 : 0 < l0) (hlh : l0 < h0)
    {N : ℕ} (hN : (h0 - l0) / 2 ^ N ≤ 0.001) (hN' : ∀ k < N, 0.001 < (h0 - l0) / 2 ^ k)
    {target : F} {est : ℕ → F → R F} {P : ℝ → ℝ → Prop}
    (hest : ∀ k x, l0 ≤ x → x ≤ h0 → ∃ e, est k (φ x) = .ok e) (hP0 : P l0 h0)
    (hPlow : ∀ l h e j, l0 ≤ l → h ≤ h0 → l < h → P l h → est j (φ ((l + h) / 2)) = .ok e →
      flt target e = true → P ((l + h) / 2) h)
    (hPhigh : ∀ l h e j, l0 ≤ l → h ≤ h0 → l < h → P l h → est j (φ ((l + h) / 2)) = .ok e →
      flt target e = false → P l ((l + h) / 2)) :
    (∃ b, bisect (φ l0) (φ h0) target est N = .ok (some b) ∧ BInv φ est l0 h0 P N b) ∧
      ∀ n, n ≠ N → bisect (φ l0) (φ h0) target est n = .ok none := by
  obtain ⟨e0, h0e⟩ := hest 0 l0 le_rfl hlh.le
  obtain ⟨e1, h1e⟩ := hest 1 ((l0 + h0) / 2) (by linarith) (by linarith)
  rw [← em.mid _ _ hl0 (hl0.trans hlh)] at h1e
  obtain ⟨e2, h2e⟩ := hest 2 h0 hlh.le le_rfl
  have hinit : bisectInit (φ l0) (φ h0) est =
      .ok { low := φ l0, mid := 0.5 * (φ l0 + φ h0), high := φ h0, e_mid := e1, calls := 3 } := by
    unfold bisectInit
    simp only [h0e, h1e, h2e]
    rfl
  have hinv : BInv φ est l0 h0 P 0
      { low := φ l0, mid := 0.5 * (φ l0 + φ h0), high := φ h0, e_mid := e1, calls := 3 } :=
    ⟨⟨l0, h0, rfl, rfl, em.mid _ _ hl0 (hl0.trans hlh), le_rfl, le_rfl, by simp, hP0⟩, rfl,
      ⟨1, h1e⟩⟩
  have key := whileN_exact (guard := bisectGuard) (body := bisectBody target est)
    (Inv := BInv φ est l0 h0 P) (N := N) ?_ ?_ N 0 _ (by omega) hinv
  · unfold bisect
    simp only [hinit]
    exact key
  · rintro k b hk ⟨⟨l, h, e1, e2, e3, e4, e5, e6, e7⟩, hc, ⟨j, hj⟩⟩
    have hw : l < h := by
      have := hN' k hk
      rw [← e6] at this
      linarith
    refine ⟨?_, ?_⟩
    · unfold bisectGuard
      rw [e1, e2, em.guard, e6, decide_eq_true_eq]
      exact hN' k hk
    · unfold bisectBody
      by_cases hf : flt target b.e_mid = true
      · rw [if_pos hf]
        obtain ⟨e, he⟩ := hest b.calls (((l + h) / 2 + h) / 2) (by linarith) (by linarith)
        rw [← em.mid _ _ (by linarith) (by linarith), ← e3, ← e2] at he
        refine ⟨{ low := b.mid, mid := 0.5 * (b.mid + b.high), high := b.high, e_mid := e,
                  calls := b.calls + 1 }, by simp only [he]; rfl, ⟨⟨(l + h) / 2, h, e3, e2, ?_, by linarith, e5, ?_, ?_⟩,
          by simp [hc], ⟨b.calls, he⟩⟩⟩
        · simp only [e3, e2]; exact em.mid _ _ (by linarith) (by linarith)
        · rw [pow_succ, ← div_div, ← e6]; ring
        · exact hPlow l h b.e_mid j e4 e5 hw e7 (by rw [← e3]; exact hj) hf
      · rw [if_neg hf]
        obtain ⟨e, he⟩ := hest b.calls ((l + (l + h) / 2) / 2) (by linarith) (by linarith)
        rw [← em.mid _ _ (by linarith) (by linarith), ← e3, ← e1] at he
        refine ⟨{ low := b.low, mid := 0.5 * (b.low + b.mid), high := b.mid, e_mid := e,
                  calls := b.calls + 1 }, by simp only [he]; rfl, ⟨⟨l, (l + h) / 2, e1, e3, ?_, e4, by linarith, ?_, ?_⟩,
          by simp [hc], ⟨b.calls, he⟩⟩⟩
        · simp only [e3, e1]; exact em.mid _ _ (by linarith) (by linarith)
        · rw [pow_succ, ← div_div, ← e6]; ring
        · exact hPhigh l h b.e_mid j e4 e5 hw e7 (by rw [← e3]; exact hj) (by simpa using hf)
  · rintro b ⟨⟨l, h, e1, e2, -, -, -, e6, -⟩, -, -⟩
    unfold bisectGuard
    rw [e1, e2, em.guard, e6]
    simp only [decide_eq_false_iff_not, not_lt]
    exact hN

/-- 13 halvings for both brackets -/
theorem halvings {l0 : ℝ} (h : l0 = 0.01 ∨ l0 = 0.0001) :
    0 < l0 ∧ l0 < 5 ∧ (5 - l0) / 2 ^ 13 ≤ 0.001 ∧ ∀ k < 13, 0.001 < (5 - l0) / 2 ^ k := by
  refine ⟨by rcases h with rfl | rfl <;> norm_num, by rcases h with rfl | rfl <;> norm_num,
    by rcases h with rfl | rfl <;> norm_num, ?_⟩
  intro k hk
  rcases h with rfl | rfl <;> interval_cases k <;> norm_num

end Verif
