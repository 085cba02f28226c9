/-
Helper lemmas: closed forms of the energy functions of the model at ℝ.
-/
import Verif.Lemmas.Energy

namespace Verif

open Spec Finset

section
variable {c : SpinChain ℝ} {L s : ℕ}

/-- field list of `total_energy2` -/
theorem hfield_eq (w : WF c L s) (t : ℝ) :
    (mapRange 0 L fun x => do
      let sh ← idx c.static_h x
      if x < s then return SpinChain.sum_vec sh (drive c.vars t) else return sh)
      = .ok ((List.range' 0 L).map (B c s t)) := by
  rw [mapRange_ok (B c s t)]
  · simp
  · intro i _ hi
    rw [idx_h w hi, ok_bind]
    unfold B
    split <;> rfl

theorem idx_map_range' {α : Type} (g : ℕ → α) {n i : ℕ} (h : i < n) :
    idx ((List.range' 0 n).map g) i = .ok (g i) :=
  idx_some (getElem?_map_range' g n i h)

theorem total_energy2_eq (w : WF c L s) (hL : 1 ≤ L) :
    c.total_energy2 = .ok (ringEnergy L (S c) (J c) (B c s c.t) / L) := by
  unfold SpinChain.total_energy2
  simp only [hsize_nat w, ssize_nat w, h_ext_eq w, ok_bind, hfield_eq w, usub_ok hL]
  have h := ring_loop w hL le_rfl ((List.range' 0 L).map (B c s c.t)) (B c s c.t)
    (fun i hi => idx_map_range' _ hi)
  have h2 := congrArg (fun r : R ℝ => r >>= fun e => Except.ok (e / (L : ℝ))) h
  simp only [bind_assoc, ok_bind] at h2
  rw [← h2, w.hsize]
  rfl

theorem total_energy2_empty (w : WF c 0 s) : c.total_energy2 = .error .underflow := by
  unfold SpinChain.total_energy2
  simp only [hsize_nat w, ssize_nat w, h_ext_eq w, ok_bind, hfield_eq w]
  rfl

theorem mcEnergy_eq (w : WF c L s) {n : ℕ} (hn : 1 ≤ n) (hnL : n ≤ L) :
    c.mcEnergy n = .ok (ringEnergy n (S c) (J c) (H0 c) / n) := by
  unfold SpinChain.mcEnergy
  simp only [usub_ok hn, ok_bind]
  have h := ring_loop w hn hnL c.static_h (H0 c) (fun i hi => idx_h w (by omega))
  have h2 := congrArg (fun r : R ℝ => r >>= fun e => Except.ok (e / (n : ℝ))) h
  simp only [bind_assoc, ok_bind] at h2
  rw [← h2]
  rfl

theorem mc_total_energy_eq (w : WF c L s) (hL : 1 ≤ L) :
    c.mc_total_energy = .ok (ringEnergy L (S c) (J c) (H0 c) / L) := by
  unfold SpinChain.mc_total_energy
  rw [hsize_nat w, mcEnergy_eq w hL le_rfl]

theorem mc_system_energy_eq (w : WF c L s) (hs : 1 ≤ s) (hsL : s ≤ L) :
    c.mc_system_energy = .ok (ringEnergy s (S c) (J c) (H0 c) / s) := by
  unfold SpinChain.mc_system_energy
  rw [ssize_nat w, mcEnergy_eq w hs hsL]

theorem forRange_error {σ : Type} {hi : ℕ} {init : σ} {body : ℕ → σ → R σ} (k : ℕ) (hk : k < hi)
    (hb : ∀ acc, ∃ p, body k acc = .error p) : ∃ p, forRange 0 hi init body = .error p := by
  unfold forRange
  have : List.range' 0 (hi - 0) = List.range' 0 k ++ k :: List.range' (k + 1) (hi - (k + 1)) := by
    rw [show hi - 0 = k + (hi - k) by omega, ← List.range'_append_1]
    congr 1
    rw [show hi - k = (hi - (k + 1)) + 1 by omega, List.range'_succ]
    simp
  rw [this, List.foldlM_append]
  rcases (List.foldlM (fun acc i => body i acc) init (List.range' 0 k)) with p | acc
  · exact ⟨p, rfl⟩
  · obtain ⟨p, hp⟩ := hb acc
    refine ⟨p, ?_⟩
    rw [ok_bind, List.foldlM_cons, hp]
    rfl

theorem mc_system_energy_panics (w : WF c L s) (h : s = 0 ∨ L < s) :
    ∃ p, c.mc_system_energy = .error p := by
  unfold SpinChain.mc_system_energy SpinChain.mcEnergy
  rw [ssize_nat w]
  rcases h with rfl | h
  · exact ⟨_, rfl⟩
  · rw [usub_ok (by omega), ok_bind]
    rcases forRange 0 (s - 1) (0.0 : ℝ) _ with p | e
    · exact ⟨p, rfl⟩
    · refine ⟨.indexOOB, ?_⟩
      rw [ok_bind, idx_oob (by rw [w.spins]; omega)]
      rfl

theorem total_energy_eq (w : WF c L s) (hL : 1 ≤ L) (hs : s ≤ L) :
    c.total_energy = .ok (ringEnergy L (S c) (J c) (B c s c.t) / L) := by
  unfold SpinChain.total_energy
  simp only [hsize_nat w, ssize_nat w, usub_ok hL, ok_bind]
  rw [forRange_add (fun i => -dot (S c i) (had (J c i) (S c (i + 1))))]
  swap
  · intro i hi acc
    rw [idx_spins w (by omega), ok_bind, idx_spins w (by omega), ok_bind, idx_j w (by omega),
      ok_bind, sjs_eq, sub_eq_add_neg]
    rfl
  rw [ok_bind, idx_spins w (by omega), ok_bind, idx_spins w (by omega), ok_bind,
    idx_j w (by omega), ok_bind]
  rw [forRange_add (fun i => dot (H0 c i) (S c i))]
  swap
  · intro i hi acc
    rw [idx_spins w (by omega), ok_bind, idx_h w (by omega), ok_bind, sh_eq]
    rfl
  rw [ok_bind, h_ext_eq w, ok_bind]
  rw [forRange_add (fun i => dot (drive c.vars c.t) (S c i))]
  swap
  · intro i hi acc
    rw [idx_spins w (by omega), ok_bind, sh_eq]
    rfl
  rw [ok_bind, sjs_eq, ringEnergy_split hL]
  show Except.ok _ = Except.ok _
  congr 2
  · simp only [lit_0, zero_add]
    have hB : ∑ i ∈ range L, dot (B c s c.t i) (S c i)
        = ∑ i ∈ range L, dot (H0 c i) (S c i) + ∑ i ∈ range s, dot (drive c.vars c.t) (S c i) := by
      have : ∑ i ∈ range s, dot (drive c.vars c.t) (S c i)
          = ∑ i ∈ range L, if i < s then dot (drive c.vars c.t) (S c i) else 0 := by
        rw [← sum_filter]
        apply sum_congr _ (fun _ _ => rfl)
        ext i
        simp only [mem_range, mem_filter]
        omega
      rw [this, ← sum_add_distrib]
      apply sum_congr rfl
      intro i _
      unfold B
      split
      · simp only [dot, Spec.add]; ring
      · ring
    rw [sum_add_distrib]
    have hB' : ∑ i ∈ range L, dot (B c s c.t i) (S c i)
        = ∑ i ∈ range (L - 1), dot (B c s c.t i) (S c i)
          + dot (B c s c.t (L - 1)) (S c (L - 1)) := by
      conv_lhs => rw [show L = (L - 1) + 1 by omega]
      rw [sum_range_succ]
    linarith

theorem total_energy_oob (w : WF c L s) (hL : 1 ≤ L) (hs : L < s) :
    c.total_energy = .error .indexOOB := by
  unfold SpinChain.total_energy
  simp only [hsize_nat w, ssize_nat w, usub_ok hL, ok_bind]
  rw [forRange_add (fun i => -dot (S c i) (had (J c i) (S c (i + 1))))]
  swap
  · intro i hi acc
    rw [idx_spins w (by omega), ok_bind, idx_spins w (by omega), ok_bind, idx_j w (by omega),
      ok_bind, sjs_eq, sub_eq_add_neg]
    rfl
  rw [ok_bind, idx_spins w (by omega), ok_bind, idx_spins w (by omega), ok_bind,
    idx_j w (by omega), ok_bind]
  rw [forRange_add (fun i => dot (H0 c i) (S c i))]
  swap
  · intro i hi acc
    rw [idx_spins w (by omega), ok_bind, idx_h w (by omega), ok_bind, sh_eq]
    rfl
  rw [ok_bind, h_ext_eq w, ok_bind]
  have key : ∀ sh : ℝ, (forRange 0 s sh fun i sh => do
      return sh + SpinChain.sh_energy (← idx c.spins i) (drive c.vars c.t))
      = .error .indexOOB := by
    intro sh
    unfold forRange
    have : List.range' 0 (s - 0)
        = List.range' 0 L ++ L :: List.range' (L + 1) (s - (L + 1)) := by
      rw [show s - 0 = L + (s - L) by omega, ← List.range'_append_1]
      congr 1
      rw [show s - L = (s - (L + 1)) + 1 by omega, List.range'_succ]
      simp
    rw [this, List.foldlM_append,
      foldlM_ok _ (fun acc i => acc + dot (drive c.vars c.t) (S c i))]
    · rw [ok_bind, List.foldlM_cons]
      dsimp only
      rw [idx_oob (by rw [w.spins])]
      rfl
    · intro i hi acc
      rw [List.mem_range'_1] at hi
      dsimp only
      rw [idx_spins w (by omega), ok_bind, sh_eq]
      rfl
  rw [key]
  rfl

theorem system_energy_eq (w : WF c L s) (hs : 1 ≤ s) (hsL : s ≤ L) :
    c.system_energy = .ok ((openEnergy s (S c) (J c) (B c s c.t)
      - dot (B c s c.t (s - 1)) (S c (s - 1))) / ((s : ℝ) - 1)) := by
  unfold SpinChain.system_energy
  simp only [ssize_nat w, h_ext_eq w, ok_bind, usub_ok hs]
  rw [mapRange_ok (B c s c.t)]
  swap
  · intro i _ hi
    rw [idx_h w (by omega), ok_bind, B, if_pos hi]
    rfl
  rw [ok_bind, forRange_add
    (fun i => -dot (S c i) (had (J c i) (S c (i + 1))) + dot (B c s c.t i) (S c i))]
  swap
  · intro i hi acc
    rw [idx_spins w (by omega), ok_bind, idx_spins w (by omega), ok_bind, idx_j w (by omega),
      ok_bind, Nat.sub_zero, idx_map_range' _ (by omega), ok_bind, bondField_eq]
    rfl
  rw [ok_bind]
  show Except.ok _ = Except.ok _
  congr 2
  · unfold openEnergy
    obtain ⟨n, rfl⟩ : ∃ n, s = n + 1 := ⟨s - 1, by omega⟩
    rw [sum_range_succ, sum_add_distrib]
    simp only [Nat.add_sub_cancel, lit_0]
    ring
  · rw [fofInt_real]
    push_cast [hs]
    rfl

theorem foldl_mag (l : List (Spin ℝ)) (a : V3 ℝ) :
    l.foldl (fun acc x => (⟨acc.x + x.dir.x, acc.y + x.dir.y, acc.z + x.dir.z⟩ : V3 ℝ)) a
      = ⟨a.x + (l.map fun s => s.dir.x).sum, a.y + (l.map fun s => s.dir.y).sum,
          a.z + (l.map fun s => s.dir.z).sum⟩ := by
  induction l generalizing a with
  | nil => simp
  | cons b l ih =>
    rw [List.foldl_cons, ih]
    simp [add_assoc]

theorem take_map_sum (f : Spin ℝ → ℝ) (g : V3 ℝ → ℝ) (hfg : ∀ s, f s = g s.dir)
    (w : WF c L s) {n : ℕ} (hn : n ≤ L) :
    ((c.spins.take n).map f).sum = ∑ i ∈ range n, g (S c i) := by
  induction n with
  | zero => simp
  | succ n ih =>
    have hlt : n < c.spins.length := by rw [w.spins]; omega
    rw [List.take_add_one, List.getElem?_eq_getElem hlt, sum_range_succ, ← ih (by omega)]
    simp only [Option.toList_some, List.map_append, List.sum_append, List.map_cons, List.map_nil,
      List.sum_cons, List.sum_nil, add_zero]
    congr 1
    rw [hfg, S, List.getElem?_eq_getElem hlt]
    rfl

theorem magSum_eq (w : WF c L s) {n : ℕ} (hn : n ≤ L) :
    SpinChain.magSum c.spins n
      = .ok ⟨∑ i ∈ range n, (S c i).x, ∑ i ∈ range n, (S c i).y, ∑ i ∈ range n, (S c i).z⟩ := by
  unfold SpinChain.magSum
  rw [if_pos (by rw [w.spins]; exact hn), foldl_mag,
    take_map_sum _ (fun v => v.x) (fun _ => rfl) w hn,
    take_map_sum _ (fun v => v.y) (fun _ => rfl) w hn,
    take_map_sum _ (fun v => v.z) (fun _ => rfl) w hn]
  simp

theorem m_eq (w : WF c L s) (hs : s ≤ L) :
    c.m = .ok ⟨∑ i ∈ range s, (S c i).x, ∑ i ∈ range s, (S c i).y, ∑ i ∈ range s, (S c i).z⟩ := by
  unfold SpinChain.m
  rw [ssize_nat w, magSum_eq w hs]

theorem m_tot_eq (w : WF c L s) :
    c.m_tot
      = .ok ⟨∑ i ∈ range L, (S c i).x, ∑ i ∈ range L, (S c i).y, ∑ i ∈ range L, (S c i).z⟩ := by
  unfold SpinChain.m_tot
  rw [hsize_nat w, magSum_eq w le_rfl]

theorem len_add_le (a b : V3 ℝ) : len (Spec.add a b) ≤ len a + len b := by
  apply Real.sqrt_le_iff.2
  refine ⟨add_nonneg (len_nonneg a) (len_nonneg b), ?_⟩
  have h1 : dot (Spec.add a b) (Spec.add a b) = dot a a + 2 * dot a b + dot b b := by
    simp only [dot, Spec.add]; ring
  have h2 : dot a b ≤ len a * len b := by
    apply le_of_sq_le_sq _ (mul_nonneg (len_nonneg a) (len_nonneg b))
    have := dot_sq_le a b
    rw [← len_sq a, ← len_sq b] at this
    nlinarith
  nlinarith [len_sq a, len_sq b]

theorem unit_S (w : WF c L s) (hu : ∀ x ∈ c.spins, IsUnit3 x) {i : ℕ} (hi : i < L) :
    len (S c i) = 1 := by
  have hlt : i < c.spins.length := by rw [w.spins]; exact hi
  rw [S, List.getElem?_eq_getElem hlt]
  exact hu _ (List.getElem_mem hlt)

theorem magSum_len (w : WF c L s) {n : ℕ} (hn : n ≤ L) (hu : ∀ x ∈ c.spins, IsUnit3 x)
    {v : V3 ℝ} (hv : SpinChain.magSum c.spins n = .ok v) : len v ≤ n := by
  rw [magSum_eq w hn] at hv
  cases hv
  induction n with
  | zero => simp [len, dot]
  | succ n ih =>
    have := ih (by omega)
    simp only [sum_range_succ]
    refine (len_add_le ⟨∑ i ∈ range n, (S c i).x, ∑ i ∈ range n, (S c i).y,
      ∑ i ∈ range n, (S c i).z⟩ (S c n)).trans ?_
    rw [unit_S w hu (by omega)]
    push_cast
    linarith

end

end Verif
