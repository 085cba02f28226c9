/-
The logging functions never panic on well-formed chains (any scalar type).
-/
import Verif.Lemmas.Estimate

namespace Verif

open Spec

set_option linter.unusedSectionVars false

variable {F : Type} [Add F] [Sub F] [Mul F] [Div F] [Neg F] [OfScientific F] [FOps F]
variable {c : SpinChain F} {L s : ℕ}

theorem mapRange_total {α : Type} {lo hi : ℕ} {f : ℕ → R α}
    (h : ∀ i, lo ≤ i → i < hi → ∃ a, f i = .ok a) :
    ∃ l, mapRange lo hi f = .ok l ∧ l.length = hi - lo := by
  unfold mapRange
  have key : ∀ l : List ℕ, (∀ i ∈ l, ∃ a, f i = .ok a) →
      ∃ r, l.mapM f = .ok r ∧ r.length = l.length := by
    intro l
    induction l with
    | nil => intro _; exact ⟨[], rfl, rfl⟩
    | cons i l ih =>
      intro hl
      obtain ⟨a, ha⟩ := hl i (by simp)
      obtain ⟨r, hr, hlen⟩ := ih fun j hj => hl j (by simp [hj])
      refine ⟨a :: r, ?_, by simp [hlen]⟩
      rw [List.mapM_cons, ha, ok_bind, hr]
      rfl
  obtain ⟨r, hr, hl⟩ := key (List.range' lo (hi - lo)) fun i hi' => by
    rw [List.mem_range'_1] at hi'
    exact h i hi'.1 (by omega)
  exact ⟨r, hr, by rw [hl, List.length_range']⟩

theorem idx_total {α : Type} {l : List α} {n k : ℕ} (hl : l.length = n) (hk : k < n) :
    ∃ a, idx l k = .ok a := ⟨_, idx_ok (by rw [hl]; exact hk)⟩

theorem system_energy_total (w : WF c L s) (hs : 1 ≤ s) (hsL : s ≤ L) :
    ∃ e, c.system_energy = .ok e := by
  obtain ⟨he, hhe⟩ := h_ext_ok w.hs c.t
  obtain ⟨h, hh, hlen⟩ := mapRange_total (lo := 0) (hi := s)
    (f := fun x => do return SpinChain.sum_vec (← idx c.static_h x) he) fun i _ hi => by
      obtain ⟨a, ha⟩ := h_total w (show i < L by omega)
      exact ⟨_, by simp only [ha]; rfl⟩
  unfold SpinChain.system_energy
  rw [ssize_natF w, hhe, ok_bind, hh, ok_bind, usub_ok hs, ok_bind]
  refine bind_total (forRange_total (by omega) fun i acc _ hi => ?_) fun _ _ => ⟨_, rfl⟩
  refine bind_total (spins_total w (by omega)) fun _ _ => ?_
  refine bind_total (spins_total w (by omega)) fun _ _ => ?_
  refine bind_total (j_total w (by omega)) fun _ _ => ?_
  exact bind_total (idx_total hlen (by omega)) fun _ _ => ⟨_, rfl⟩

/-- a subsystem of one site: an empty sum divided by zero -/
theorem system_energy_one (w : WF c L 1) (hL : 1 ≤ L) :
    c.system_energy = .ok ((0.0 : F) / fofInt 0) := by
  obtain ⟨he, hhe⟩ := h_ext_ok w.hs c.t
  obtain ⟨h, hh, -⟩ := mapRange_total (lo := 0) (hi := 1)
    (f := fun x => do return SpinChain.sum_vec (← idx c.static_h x) he) fun i _ hi => by
      obtain ⟨a, ha⟩ := h_total w (show i < L by omega)
      exact ⟨_, by simp only [ha]; rfl⟩
  unfold SpinChain.system_energy
  rw [ssize_natF w, hhe, ok_bind, hh, ok_bind]
  rfl

theorem total_energy2_total (w : WF c L s) (hL : 1 ≤ L) : ∃ e, c.total_energy2 = .ok e := by
  obtain ⟨he, hhe⟩ := h_ext_ok w.hs c.t
  obtain ⟨h, hh, hlen⟩ := mapRange_total (lo := 0) (hi := L)
    (f := fun x => do
      let sh ← idx c.static_h x
      if x < s then return SpinChain.sum_vec sh he else return sh) fun i _ hi => by
      obtain ⟨a, ha⟩ := h_total w hi
      simp only [ha, ok_bind]
      split_ifs <;> exact ⟨_, rfl⟩
  unfold SpinChain.total_energy2
  rw [hsize_natF w, ssize_natF w, hhe, ok_bind, hh, ok_bind, usub_ok hL, ok_bind]
  refine bind_total (forRange_total (by omega) fun i acc _ hi => ?_) fun _ _ => ?_
  · refine bind_total (spins_total w (by omega)) fun _ _ => ?_
    refine bind_total (spins_total w (by omega)) fun _ _ => ?_
    refine bind_total (j_total w (by omega)) fun _ _ => ?_
    exact bind_total (idx_total hlen (by omega)) fun _ _ => ⟨_, rfl⟩
  · refine bind_total (spins_total w (by omega)) fun _ _ => ?_
    refine bind_total (spins_total w (by omega)) fun _ _ => ?_
    refine bind_total (j_total w (by omega)) fun _ _ => ?_
    exact bind_total (idx_total hlen (by omega)) fun _ _ => ⟨_, rfl⟩

theorem m_tot_total (w : WF c L s) : ∃ v, c.m_tot = .ok v := by
  unfold SpinChain.m_tot SpinChain.magSum
  rw [hsize_natF w, w.spins, if_pos le_rfl]
  exact ⟨_, rfl⟩

theorem setLoop_total {α : Type} {n lo hi : ℕ} {init : List α} (hi0 : init.length = n) (hlo : lo ≤ hi)
    (g : ℕ → ℕ) (f : ℕ → α) (hg : ∀ i, lo ≤ i → i < hi → g i < n) :
    ∃ r, forRange lo hi init (fun i ek => setIdx ek (g i) (f i)) = .ok r ∧ r.length = n := by
  refine forRange_inv (fun _ (r : List α) => r.length = n) hi0 hlo fun i acc h1 h2 h3 => ?_
  refine ⟨acc.set (g i) (f i), ?_, by simp [h3]⟩
  unfold setIdx
  rw [if_pos (by rw [h3]; exact hg i h1 h2)]

theorem energy_spectrum_total (w : WF c L s) : ∃ e, c.energy_spectrum = .ok e := by
  unfold SpinChain.energy_spectrum
  rw [hsize_natF w]
  simp only [w.spins, ne_eq, not_true_eq_false, if_false]
  obtain ⟨r, hr, hl⟩ := setLoop_total (n := L) (init := List.replicate L (0.0 : F)) (by simp)
    (show L / 2 ≤ L by omega) (fun i => i - L / 2) (fun i => SpinChain.modePower c.spins L i)
    (fun i _ _ => by omega)
  obtain ⟨r', hr', hl'⟩ := setLoop_total (n := L) hl (Nat.zero_le (L / 2))
    (fun i => i + L / 2) (fun i => SpinChain.modePower c.spins L i) (fun i _ _ => by omega)
  refine ⟨r', ?_⟩
  show (forRange (L / 2) L _ _ >>= _) = _
  rw [hr, ok_bind, hr']

/-- `log` never panics if the two sites it samples exist -/
theorem log_total (w : WF c L s) (hs : 1 ≤ s) (hsL : s ≤ L)
    (h1 : ftoNat ((fofInt (s : ℤ) : F) / 4.0) < L)
    (h3 : ftoNat ((3.0 : F) * (fofInt (s : ℤ) : F) / 4.0) < L) :
    ∃ row : List F, c.log = .ok (if c.file.isSome then some row else none) ∧ row.length = 13 ∧
      row.head? = some c.t := by
  obtain ⟨e, he⟩ := system_energy_total w hs hsL
  obtain ⟨es, hes⟩ := total_energy2_total w (by omega)
  obtain ⟨m, hm⟩ := m_total w hsL
  obtain ⟨mt, hmt⟩ := m_tot_total w
  obtain ⟨a, ha⟩ := spins_total w h1
  obtain ⟨b, hb⟩ := spins_total w h3
  obtain ⟨sp, hsp⟩ := energy_spectrum_total w
  refine ⟨[c.t, es, e, m.x / fofInt s, m.y / fofInt s, m.z / fofInt s, mt.z / fofInt L,
    a.dir.x, a.dir.y, a.dir.z, b.dir.x, b.dir.y, b.dir.z], ?_, rfl, rfl⟩
  unfold SpinChain.log
  rw [he, ok_bind, hes, ok_bind, hm, ok_bind, hmt, ok_bind]
  simp only [w.ssize, w.hsize, ha, hb, ok_bind, hsp]
  split_ifs <;> rfl

end Verif
