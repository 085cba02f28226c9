/-
C105: rounding errors of the reported energies and magnetisations.

IEEE binary64 arithmetic (`Instances/B64.lean`) with a mathematics library of accuracy `ε` (`AccurateTo`).
-/
import Verif.Props.Forward
import Verif.Props.Log
import Verif.Lemmas.ForwardEnergy
import Verif.Lemmas.LogTotal

set_option linter.unusedSectionVars false

namespace Verif.Props

open Verif Verif.Spec Verif.Forward Finset

variable {m : Libm}

/-- `c` is a computed state of the system `d`: same numbers in couplings, static fields and parameters; spins within `D`
of those of `d` and of unit length up to `8 ε`; the clock has seen `κ` roundings in a run of length `T`. -/
structure Tracks (ε D κ T : ℝ) (c : SpinChain (B64 m)) (d : SpinChain ℝ) : Prop where
  vars : SameVars c.vars d.vars
  j : List.Forall₂ IsVal3 c.j_couple d.j_couple
  h : List.Forall₂ IsVal3 c.static_h d.static_h
  t : NearR c.t d.t (κ * T * ε)
  spins : Close ε D c d
  len : ∀ x ∈ d.spins, len x.dir ≤ 11 / 10

/-- couplings, static fields and the present driving field are no larger than `M` -/
structure BoundedNow (d : SpinChain ℝ) (L : ℕ) (M : ℝ) : Prop where
  lo : 1 ≤ M
  hi : M ≤ 2 ^ 20
  j : ∀ i < L, len (J d i) ≤ M
  h : ∀ i < L, len (H0 d i) ≤ M
  drive : len (drive d.vars d.t) ≤ M

section
variable {ε D κ T A E M : ℝ} {c : SpinChain (B64 m)} {d : SpinChain ℝ} {L s : ℕ}

/-- the values behind the numbers in `c` -/
theorem tabs_of (he : Tol ε) (w : WF c L s) (w' : WF d L s) (hL : 1 ≤ L) (hj : List.Forall₂ IsVal3 c.j_couple d.j_couple)
    (hh : List.Forall₂ IsVal3 c.static_h d.static_h) (hs : Close ε D c d) (hl : ∀ x ∈ d.spins, len x.dir ≤ 11 / 10) :
    ∃ (j hf : ℕ → V3 (B64 m)) (sp : ℕ → Spin (B64 m)) (V : ℕ → V3 ℝ),
      Tab c.j_couple L j ∧ Tab c.static_h L hf ∧ Tab c.spins L sp ∧ (∀ i < L, IsVal3 (j i) (J d i)) ∧
      (∀ i < L, IsVal3 (hf i) (H0 d i)) ∧ (∀ i < L, IsVal3 (sp i).dir (V i) ∧ len (V i) ≤ 11 / 10) ∧
      (∀ i < L, len (Spec.sub (V i) (S d i)) ≤ D) ∧ ∀ i < L, len (S d i) ≤ 11 / 10 := by
  obtain ⟨j, hf, sp, tj, th, tsp⟩ := wf_tabs w hL
  have key : ∀ i, ∃ v, i < L → IsVal3 (sp i).dir v ∧ |len v - 1| ≤ 8 * ε ∧ len (sub v (S d i)) ≤ D := by
    intro i
    by_cases hi : i < L
    · exact (hs i _ _ (tsp.getElem? hi) ((tab_S w').getElem? hi)).imp fun v hv _ => hv
    · exact ⟨zero, fun h => absurd h hi⟩
  choose V hV using key
  refine ⟨j, hf, sp, V, tj, th, tsp, fun i hi => forall₂_get hj (tj.getElem? hi) ((tab_J w').getElem? hi),
    fun i hi => forall₂_get hh (th.getElem? hi) ((tab_H0 w').getElem? hi), fun i hi => ⟨(hV i hi).1, ?_⟩,
    fun i hi => (hV i hi).2.2, fun i hi => ?_⟩
  · have h1 := (abs_le.1 (hV i hi).2.1).2
    have h2 := he.hi
    norm_num at *
    linarith
  · exact hl _ (List.mem_of_getElem? ((tab_S w').getElem? hi))

theorem tracks_tabs (he : Tol ε) (w : WF c L s) (w' : WF d L s) (hL : 1 ≤ L) (h : Tracks ε D κ T c d) :
    ∃ (j hf : ℕ → V3 (B64 m)) (sp : ℕ → Spin (B64 m)) (V : ℕ → V3 ℝ),
      Tab c.j_couple L j ∧ Tab c.static_h L hf ∧ Tab c.spins L sp ∧ (∀ i < L, IsVal3 (j i) (J d i)) ∧
      (∀ i < L, IsVal3 (hf i) (H0 d i)) ∧ (∀ i < L, IsVal3 (sp i).dir (V i) ∧ len (V i) ≤ 11 / 10) ∧
      (∀ i < L, len (Spec.sub (V i) (S d i)) ≤ D) ∧ ∀ i < L, len (S d i) ≤ 11 / 10 :=
  tabs_of he w w' hL h.j h.h h.spins h.len

theorem mc_near (he : Tol ε) (w : WF c L s) (w' : WF d L s) (hs : 1 ≤ s) (hsL : s ≤ L)
    (h1 : List.Forall₂ IsVal3 c.j_couple d.j_couple) (h2 : List.Forall₂ IsVal3 c.static_h d.static_h) (h3 : Close ε D c d)
    (h4 : ∀ x ∈ d.spins, len x.dir ≤ 11 / 10) (M1 : 1 ≤ M) (M2 : M ≤ 2 ^ 20) (bj : ∀ i < L, len (J d i) ≤ M)
    (bh : ∀ i < L, len (H0 d i) ≤ M) :
    (∃ x, c.mc_total_energy = .ok x ∧
      NearR x (ringEnergy L (S d) (J d) (H0 d) / L) (128 * M * L / 2 ^ 52 + 5 * M * D)) ∧
    ∃ x, c.mc_system_energy = .ok x ∧
      NearR x (ringEnergy s (S d) (J d) (H0 d) / s) (128 * M * s / 2 ^ 52 + 5 * M * D) := by
  obtain ⟨j, hf, sp, V, tj, th, tsp, vj, vh, vs, dS, bS⟩ := tabs_of he w w' (by omega) h1 h2 h3 h4
  have key : ∀ n, 1 ≤ n → n ≤ L → ∃ x, c.mcEnergy n = .ok x ∧
      NearR x (ringEnergy n (S d) (J d) (H0 d) / n) (128 * M * n / 2 ^ 52 + 5 * M * D) := by
    intro n n1 nL
    obtain ⟨x, x1, x2⟩ := ring_near (n := n) (M := M) (sp := sp) (j := j) (h := hf) (V := V) (J := J d) (B := H0 d)
      ⟨M1, M2.trans (pow_le_pow_right₀ (by norm_num) (by norm_num)), fun i hi => vs i (by omega),
        fun i hi => ⟨vj i (by omega), bj i (by omega)⟩,
        fun i hi => ⟨vh i (by omega), (bh i (by omega)).trans (by linarith)⟩⟩ n1 (lt_of_le_of_lt nL w.L_lt)
      (fun i hi => tsp.idx (by omega)) (fun i hi => tj.idx (by omega)) (fun i hi => th.idx (by omega))
    refine ⟨x, ?_, x2.shift ?_⟩
    · unfold SpinChain.mcEnergy
      rw [usub_ok n1, ok_bind]
      exact x1
    · refine mean_lip (fun i => siteE (V i) (V ((i + 1) % n)) (J d i) (H0 d i))
        (fun i => siteE (S d i) (S d ((i + 1) % n)) (J d i) (H0 d i)) n1 fun i hi => ?_
      have hm : (i + 1) % n < n := Nat.mod_lt _ (by omega)
      have := siteE_lip (γ := 0) M1 le_rfl (vs i (by omega)).2 (vs _ (by omega : (i + 1) % n < L)).2 (bS i (by omega))
        (bj i (by omega)) ((bh i (by omega)).trans (by linarith)) (dS i (by omega)) (dS _ (by omega : (i + 1) % n < L))
        (le_of_eq (show len (Spec.sub (H0 d i) (H0 d i)) = 0 by simp [Spec.len, dot, Spec.sub]))
      linarith
  refine ⟨?_, ?_⟩
  · unfold SpinChain.mc_total_energy
    rw [hsize_natF w]
    exact key L (by omega) le_rfl
  · unfold SpinChain.mc_system_energy
    rw [ssize_natF w]
    exact key s hs hsL

/-- The Monte-Carlo energies: the computed values are within `128 n M / 2 ^ 52 + 5 M D` of the Hamiltonian per site, for
the whole chain and for the subsystem. -/
theorem C105_mc_energies (he : Tol ε) (w : WF c L s) (w' : WF d L s) (hs : 1 ≤ s) (hsL : s ≤ L) (h : Tracks ε D κ T c d)
    (hb : BoundedNow d L M) :
    (∃ x, c.mc_total_energy = .ok x ∧
      NearR x (ringEnergy L (S d) (J d) (H0 d) / L) (128 * M * L / 2 ^ 52 + 5 * M * D)) ∧
    ∃ x, c.mc_system_energy = .ok x ∧
      NearR x (ringEnergy s (S d) (J d) (H0 d) / s) (128 * M * s / 2 ^ 52 + 5 * M * D) :=
  mc_near he w w' hs hsL h.j h.h h.spins h.len hb.lo hb.hi hb.j hb.h

/-- the computed field at every site, now -/
theorem field_now (he : Tol ε) (hm : AccurateTo ε m) (w : WF c L s) (h : Tracks ε D κ T c d) (hb : BoundedNow d L M)
    (hp : Paced d.vars T A E) (κ0 : 0 ≤ κ) (hT : |d.t| ≤ T) (hk : 400 * (κ + 1) * (T * A * E) * ε ≤ 1)
    {hf : ℕ → V3 (B64 m)} (vh : ∀ i < L, IsVal3 (hf i) (H0 d i)) :
    ∃ (e : V3 (B64 m)) (z : V3 ℝ) (Bh : ℕ → V3 ℝ), c.h_ext c.t = .ok e ∧ IsVal3 e z ∧
      len (Spec.sub z (drive d.vars d.t)) ≤ 100 * (κ + 1) * (A * E) * ε ∧ 100 * (κ + 1) * (A * E) * ε ≤ 1 / 4 ∧
      ∀ i < L, IsVal3 (fieldF s hf e i) (Bh i) ∧ len (Bh i) ≤ 3 * M ∧ len (B d s d.t i) ≤ 2 * M ∧
        len (Spec.sub (Bh i) (B d s d.t i)) ≤ 100 * (κ + 1) * (A * E) * ε + 8 * M / 2 ^ 52 := by
  have e0 := Tol.pos he
  have M1 := hb.lo
  have M2 := hb.hi
  have T1 := hp.T1
  have A1 := hp.A1
  have E1 := hp.E1
  have P0 : 0 ≤ T * A * E * ε := by positivity
  have κP : 0 ≤ κ * (T * A * E * ε) := by positivity
  have AE : A * E * ε ≤ T * A * E * ε := by
    have := mul_le_mul_of_nonneg_right T1 (show 0 ≤ A * E * ε by positivity)
    linarith
  have κAE : κ * (A * E * ε) ≤ κ * (T * A * E * ε) := mul_le_mul_of_nonneg_left AE κ0
  obtain ⟨e, z, z1, z2, z3⟩ := drive_now he hm h.vars hp w.hs κ0 h.t hT (by linarith)
  have γ1 : 100 * (κ + 1) * (A * E) * ε ≤ 1 / 4 := by linarith
  have bB : ∀ i < L, len (B d s d.t i) ≤ 2 * M := by
    intro i hi
    unfold B
    have h1 := hb.h i hi
    split
    · have := len_add_le (H0 d i) (drive d.vars d.t)
      linarith [hb.drive]
    · linarith
  obtain ⟨Bh, hBh⟩ := field_near (s := s) (n := L) (M := 2 * M) tol_u (by linarith) (by norm_num at *; linarith) vh z2
    (fun i hi his => by have := bB i hi; rwa [B, if_pos his] at this) z3 (by linarith)
  refine ⟨e, z, Bh, z1, z2, z3, γ1, fun i hi => ⟨(hBh i hi).1, ?_, bB i hi, (hBh i hi).2.trans (le_of_eq (by ring))⟩⟩
  have h1 := (hBh i hi).2
  have h2 := bB i hi
  have h3 : len (Bh i) ≤ len (Spec.sub (Bh i) (B d s d.t i)) + len (B d s d.t i) := by
    have := len_add_le (Spec.sub (Bh i) (B d s d.t i)) (B d s d.t i)
    rwa [show Spec.add (Spec.sub (Bh i) (B d s d.t i)) (B d s d.t i) = Bh i by
      ext <;> simp only [Spec.add, Spec.sub] <;> ring] at this
  have h4 : len (Spec.sub (Bh i) (B d s d.t i)) ≤ 100 * (κ + 1) * (A * E) * ε + 4 * (2 * M) * (1 / 2 ^ 52) := h1
  norm_num at *
  linarith

/-- `total_energy2` and `total_energy`: two ways of summing the same Hamiltonian, with the drive at the time of the clock.
Both are within the stated bound of the Hamiltonian per site. -/
theorem C105_total_energies (he : Tol ε) (hm : AccurateTo ε m) (w : WF c L s) (w' : WF d L s) (hL : 1 ≤ L) (hsL : s ≤ L)
    (h : Tracks ε D κ T c d) (hb : BoundedNow d L M) (hp : Paced d.vars T A E) (κ0 : 0 ≤ κ) (hT : |d.t| ≤ T)
    (hk : 400 * (κ + 1) * (T * A * E) * ε ≤ 1) :
    (∃ x, c.total_energy2 = .ok x ∧ NearR x (ringEnergy L (S d) (J d) (B d s d.t) / L)
      (144 * M * L / 2 ^ 52 + 200 * (κ + 1) * (A * E) * ε + 5 * M * D)) ∧
    ∃ x, c.total_energy = .ok x ∧ NearR x (ringEnergy L (S d) (J d) (B d s d.t) / L)
      (144 * M * L / 2 ^ 52 + 200 * (κ + 1) * (A * E) * ε + 5 * M * D) := by
  obtain ⟨j, hf, sp, V, tj, th, tsp, vj, vh, vs, dS, bS⟩ := tracks_tabs he w w' hL h
  obtain ⟨e, z, Bh, z1, z2, z3, γ1, hBh⟩ := field_now (s := s) he hm w h hb hp κ0 hT hk vh
  have M1 := hb.lo
  have M2 : M ≤ 2 ^ 100 := hb.hi.trans (pow_le_pow_right₀ (by norm_num) (by norm_num))
  have L1 : (1 : ℝ) ≤ L := by exact_mod_cast hL
  have ML : M * 1 ≤ M * L := mul_le_mul_of_nonneg_left L1 (by linarith)
  have γ0 : 0 ≤ 100 * (κ + 1) * (A * E) * ε := (len_nonneg _).trans z3
  refine ⟨?_, ?_⟩
  · obtain ⟨x, x1, x2⟩ := ring_near (n := L) (M := M) (sp := sp) (j := j) (h := fieldF s hf e) (V := V) (J := J d) (B := Bh)
      (H := (List.range' 0 L).map (fieldF s hf e))
      ⟨M1, M2, fun i hi => vs i hi, fun i hi => ⟨vj i hi, hb.j i hi⟩, fun i hi => ⟨(hBh i hi).1, (hBh i hi).2.1⟩⟩ hL w.L_lt
      (fun i hi => tsp.idx hi) (fun i hi => tj.idx hi) (fun i hi => idx_some (getElem?_map_range' _ _ _ hi))
    refine ⟨x, ?_, (x2.shift (f := 5 * M * D + 2 * (100 * (κ + 1) * (A * E) * ε + 8 * M / 2 ^ 52)) ?_).mono ?_⟩
    · unfold SpinChain.total_energy2
      rw [hsize_natF w, ssize_natF w, z1]
      simp only [ok_bind]
      rw [mapRange_ok (fieldF s hf e) (fun i _ hi => by
        rw [th.idx hi, ok_bind]
        unfold fieldF
        split <;> rfl), ok_bind, usub_ok hL, ok_bind, Nat.sub_zero, w.hsize]
      exact x1
    · refine mean_lip (fun i => siteE (V i) (V ((i + 1) % L)) (J d i) (Bh i))
        (fun i => siteE (S d i) (S d ((i + 1) % L)) (J d i) (B d s d.t i)) hL fun i hi => ?_
      have hm : (i + 1) % L < L := Nat.mod_lt _ (by omega)
      exact siteE_lip M1 (by positivity) (vs i hi).2 (vs _ hm).2 (bS i hi) (hb.j i hi) (hBh i hi).2.2.1 (dS i hi) (dS _ hm)
        (hBh i hi).2.2.2
    · norm_num
      linarith
  · obtain ⟨n, rfl⟩ : ∃ n, L = n + 1 := ⟨L - 1, by omega⟩
    have Lb : ((n + 1 : ℕ) : ℝ) ≤ 2 ^ 31 := by exact_mod_cast w.L_lt.le
    generalize hN : ((n + 1 : ℕ) : ℝ) = N at *
    have N0 : 0 < N := by linarith
    have MN0 : 0 ≤ M * N := by linarith
    have MNb : M * N ≤ M * 2 ^ 31 := mul_le_mul_of_nonneg_left Lb (by linarith)
    have u1 : M * N * N / 2 ^ 52 ≤ M * N / 2 ^ 21 := by
      have := mul_le_mul_of_nonneg_left Lb MN0
      norm_num at *
      linarith
    have sN : (s : ℝ) ≤ N := by rw [← hN]; exact_mod_cast hsL
    have zero0 : NearR (0.0 : B64 m) 0 0 := by have := near_lit0 (m := m) 1; rwa [zero_mul] at this
    -- bonds
    have hmod : ∀ i, (i + 1) % (n + 1) < n + 1 := fun i => Nat.mod_lt _ (by omega)
    have b1 : ∀ i < n + 1, |dot (V i) (had (J d i) (V ((i + 1) % (n + 1))))| ≤ 2 * M := by
      intro i hi
      refine (abs_dot_le_len _ _).trans ?_
      have h1 := (len_had_le (J d i) (V ((i + 1) % (n + 1)))).trans (mul_le_mul (hb.j i hi) (vs _ (hmod i)).2
        (len_nonneg _) (by linarith))
      have h2 := mul_le_mul (vs i hi).2 h1 (len_nonneg _) (by norm_num)
      linarith
    have f1 := terms_near (m := m) (n := n + 1) (r := 24 * M / 2 ^ 52) (K := 2 * M * N) (G := 2 * M)
      (fun i => SpinChain.sjs_energy (sp i) (sp ((i + 1) % (n + 1))) (j i))
      (fun i => dot (V i) (had (J d i) (V ((i + 1) % (n + 1))))) true zero0
      (fun i hi => ⟨sjs_near M1 M2 (vs i hi).1 (vs _ (hmod i)).1 (vj i hi) (vs i hi).2 (vs _ (hmod i)).2 (hb.j i hi), b1 i hi⟩)
      (by linarith) (by norm_num at *; linarith) (by rw [hN, abs_zero]; linarith) (by rw [hN]; norm_num at *; linarith)
      (by positivity)
    -- static fields, then the drive
    have bH : ∀ i < n + 1, len (H0 d i) ≤ 2 * M := fun i hi => (hb.h i hi).trans (by linarith)
    have bz : len z ≤ 2 * M := by
      have := len_add_le (Spec.sub z (drive d.vars d.t)) (drive d.vars d.t)
      rw [show Spec.add (Spec.sub z (drive d.vars d.t)) (drive d.vars d.t) = z by
        ext <;> simp only [Spec.add, Spec.sub] <;> ring] at this
      linarith [hb.drive]
    have b2 : ∀ (X : V3 ℝ) (i : ℕ), i < n + 1 → len X ≤ 2 * M → |dot X (V i)| ≤ 3 * M := by
      intro X i hi hX
      refine (abs_dot_le_len _ _).trans ?_
      have := mul_le_mul hX (vs i hi).2 (len_nonneg _) (by linarith)
      linarith
    have f2 := terms_near (m := m) (n := n + 1) (r := 28 * M / 2 ^ 52) (K := 6 * M * N) (G := 3 * M)
      (fun i => SpinChain.sh_energy (sp i) (hf i)) (fun i => dot (H0 d i) (V i)) false zero0
      (fun i hi => ⟨sh_near M1 M2 (vs i hi).1 (vh i hi) (vs i hi).2 (bH i hi), b2 _ i hi (bH i hi)⟩)
      (by linarith) (by norm_num at *; linarith) (by rw [hN, abs_zero]; linarith) (by rw [hN]; norm_num at *; linarith)
      (by positivity)
    rw [hN, abs_zero, zero_add, zero_add, zero_add] at f1 f2
    simp only [if_true, Bool.false_eq_true, if_false] at f1 f2
    have sM : (s : ℝ) * M ≤ N * M := mul_le_mul_of_nonneg_right sN (by linarith)
    have sMN : (s : ℝ) * (M * N) ≤ N * (M * N) := mul_le_mul_of_nonneg_right sN MN0
    have f3 := terms_near (m := m) (n := s) (r := 28 * M / 2 ^ 52) (K := 6 * M * N) (G := 3 * M)
      (fun i => SpinChain.sh_energy (sp i) e) (fun i => dot z (V i)) false f2.1
      (fun i hi => ⟨sh_near M1 M2 (vs i (by omega)).1 z2 (vs i (by omega)).2 bz, b2 _ i (by omega) bz⟩)
      (by linarith) (by norm_num at *; linarith) (by linarith [f2.2]) (by norm_num at *; linarith)
      (by positivity)
    simp only [Bool.false_eq_true, if_false] at f3
    -- everything
    have g1 := f1.2
    have g3 : |∑ i ∈ range (n + 1), dot (H0 d i) (V i) + ∑ i ∈ range s, dot z (V i)| ≤ 6 * M * N :=
      f3.2.trans (by linarith [f2.2])
    have gs : |(∑ i ∈ range (n + 1), -dot (V i) (had (J d i) (V ((i + 1) % (n + 1)))))
        + (∑ i ∈ range (n + 1), dot (H0 d i) (V i) + ∑ i ∈ range s, dot z (V i))| ≤ 8 * M * N :=
      (abs_add_le _ _).trans (by linarith)
    have f4 := f1.1.add_abs f3.1 gs (by linarith) (by norm_num at *; linarith) (by norm_num at *; linarith)
    have MNN : M * N * 1 ≤ M * N * N := mul_le_mul_of_nonneg_left L1 MN0
    have f5 := (f4.mono (e' := N * (105 * M * N / 2 ^ 52)) (by norm_num at *; linarith))
    rw [← hN] at f5 gs
    have f6 := mean_near (m := m) (by omega) w.L_lt M1 M2 f5 (gs.trans (by linarith))
    rw [hN] at f6
    refine ⟨_, ?_, (f6.shift (f := 5 * M * D + 2 * (100 * (κ + 1) * (A * E) * ε)) ?_).mono ?_⟩
    · unfold SpinChain.total_energy
      rw [hsize_natF w, ssize_natF w]
      dsimp only
      rw [usub_ok hL, ok_bind, Nat.add_sub_cancel,
        forRange_ok (fun i acc => acc - SpinChain.sjs_energy (sp i) (sp (i + 1)) (j i)) (fun i _ hi acc => by
          rw [tsp.idx (by omega), ok_bind, tsp.idx (by omega), ok_bind, tj.idx (by omega), ok_bind]; rfl)]
      rw [ok_bind, tsp.idx (by omega), ok_bind, tsp.idx (by omega), ok_bind, tj.idx (by omega), ok_bind]
      rw [forRange_ok (fun i acc => acc + SpinChain.sh_energy (sp i) (hf i)) (fun i _ hi acc => by
          rw [tsp.idx (by omega), ok_bind, th.idx (by omega), ok_bind]; rfl), ok_bind, z1, ok_bind,
        forRange_ok (fun i acc => acc + SpinChain.sh_energy (sp i) e) (fun i _ hi acc => by
          rw [tsp.idx (by omega), ok_bind]; rfl), ok_bind]
      rw [List.range'_concat, List.foldl_append]
      simp only [zero_add, one_mul, List.foldl_cons, List.foldl_nil, Nat.mod_self, Nat.sub_zero]
      congr 3
      · refine congrArg (fun y : B64 m => y - SpinChain.sjs_energy (sp n) (sp 0) (j n)) ?_
        refine List.foldl_ext _ _ _ fun acc i hi => ?_
        rw [List.mem_range'_1] at hi
        rw [Nat.mod_eq_of_lt (by omega)]
      · rw [List.range'_concat, List.foldl_append]
        simp only [zero_add, one_mul, List.foldl_cons, List.foldl_nil, List.foldl_append]
    · have e1 : (∑ i ∈ range (n + 1), -dot (V i) (had (J d i) (V ((i + 1) % (n + 1)))))
          + (∑ i ∈ range (n + 1), dot (H0 d i) (V i) + ∑ i ∈ range s, dot z (V i))
          = ∑ i ∈ range (n + 1), siteE (V i) (V ((i + 1) % (n + 1))) (J d i) (if i < s then Spec.add (H0 d i) z else H0 d i) := by
        have e2 : range s = (range (n + 1)).filter (fun i => i < s) := by
          ext i
          simp only [mem_range, mem_filter]
          omega
        rw [e2, sum_filter, ← sum_add_distrib, ← sum_add_distrib]
        refine sum_congr rfl fun i _ => ?_
        unfold siteE
        split
        · simp only [dot, Spec.add]; ring
        · ring
      rw [e1, ← hN]
      refine mean_lip _ (fun i => siteE (S d i) (S d ((i + 1) % (n + 1))) (J d i) (B d s d.t i)) hL fun i hi => ?_
      refine siteE_lip M1 γ0 (vs i hi).2 (vs _ (hmod i)).2 (bS i hi) (hb.j i hi) (hBh i hi).2.2.1 (dS i hi) (dS _ (hmod i)) ?_
      unfold B
      split
      · rwa [show Spec.sub (Spec.add (H0 d i) z) (Spec.add (H0 d i) (drive d.vars d.t)) = Spec.sub z (drive d.vars d.t) by
          ext <;> simp only [Spec.add, Spec.sub] <;> ring]
      · rwa [show len (Spec.sub (H0 d i) (H0 d i)) = 0 by simp [Spec.len, dot, Spec.sub]]
    · norm_num
      linarith

/-- In exact arithmetic the two energies are equal (C17); as computed they differ by no more than the two errors. -/
theorem C105_energies_agree (he : Tol ε) (hm : AccurateTo ε m) (w : WF c L s) (w' : WF d L s) (hL : 1 ≤ L) (hsL : s ≤ L)
    (h : Tracks ε D κ T c d) (hb : BoundedNow d L M) (hp : Paced d.vars T A E) (κ0 : 0 ≤ κ) (hT : |d.t| ≤ T)
    (hk : 400 * (κ + 1) * (T * A * E) * ε ≤ 1) :
    ∃ (x y : B64 m) (p q : ℚ), c.total_energy2 = .ok x ∧ c.total_energy = .ok y ∧ HasVal x p ∧ HasVal y q ∧
      |(p : ℝ) - q| ≤ 2 * (144 * M * L / 2 ^ 52 + 200 * (κ + 1) * (A * E) * ε + 5 * M * D) := by
  obtain ⟨⟨x, x1, p, x2, x3⟩, y, y1, q, y2, y3⟩ := C105_total_energies he hm w w' hL hsL h hb hp κ0 hT hk
  refine ⟨x, y, p, q, x1, y1, x2, y2, ?_⟩
  rw [abs_le] at *
  constructor <;> linarith

/-- `system_energy`: what it sums (C19) is computed within the same bound. -/
theorem C105_system_energy (he : Tol ε) (hm : AccurateTo ε m) (w : WF c L s) (w' : WF d L s) (hs : 2 ≤ s) (hsL : s ≤ L)
    (h : Tracks ε D κ T c d) (hb : BoundedNow d L M) (hp : Paced d.vars T A E) (κ0 : 0 ≤ κ) (hT : |d.t| ≤ T)
    (hk : 400 * (κ + 1) * (T * A * E) * ε ≤ 1) :
    ∃ x, c.system_energy = .ok x ∧ NearR x ((openEnergy s (S d) (J d) (B d s d.t)
        - dot (B d s d.t (s - 1)) (S d (s - 1))) / ((s : ℝ) - 1))
      (144 * M * s / 2 ^ 52 + 200 * (κ + 1) * (A * E) * ε + 5 * M * D) := by
  obtain ⟨j, hf, sp, V, tj, th, tsp, vj, vh, vs, dS, bS⟩ := tracks_tabs he w w' (by omega) h
  obtain ⟨e, z, Bh, z1, z2, z3, γ1, hBh⟩ := field_now (s := s) he hm w h hb hp κ0 hT hk vh
  have M1 := hb.lo
  have M2 : M ≤ 2 ^ 100 := hb.hi.trans (pow_le_pow_right₀ (by norm_num) (by norm_num))
  have γ0 : 0 ≤ 100 * (κ + 1) * (A * E) * ε := (len_nonneg _).trans z3
  obtain ⟨x, x1, x2⟩ := open_near (n := s) (M := M) (sp := sp) (j := j) (h := fieldF s hf e) (V := V) (J := J d) (B := Bh)
    (H := (List.range' 0 s).map (fieldF s hf e))
    ⟨M1, M2, fun i hi => vs i (by omega), fun i hi => ⟨vj i (by omega), hb.j i (by omega)⟩,
      fun i hi => ⟨(hBh i (by omega)).1, (hBh i (by omega)).2.1⟩⟩ hs w.s_lt
    (fun i hi => tsp.idx (by omega)) (fun i hi => tj.idx (by omega)) (fun i hi => idx_some (getElem?_map_range' _ _ _ hi))
  obtain ⟨n, rfl⟩ : ∃ n, s = n + 1 := ⟨s - 1, by omega⟩
  simp only [Nat.add_sub_cancel] at x1 x2 ⊢
  refine ⟨x, ?_, ?_⟩
  · unfold SpinChain.system_energy
    rw [ssize_natF w, z1]
    simp only [ok_bind]
    rw [mapRange_ok (fieldF (n + 1) hf e) (fun i _ hi => by
      rw [th.idx (by omega), ok_bind]
      unfold fieldF
      rw [if_pos hi]
      rfl), ok_bind, usub_ok (by omega), ok_bind, Nat.sub_zero]
    exact x1
  · have e1 : (openEnergy (n + 1) (S d) (J d) (B d (n + 1) d.t) - dot (B d (n + 1) d.t n) (S d n)) / (((n + 1 : ℕ) : ℝ) - 1)
        = (∑ i ∈ range n, siteE (S d i) (S d (i + 1)) (J d i) (B d (n + 1) d.t i)) / (n : ℝ) := by
      unfold openEnergy siteE
      rw [Nat.add_sub_cancel, sum_range_succ, sum_add_distrib]
      push_cast
      rw [add_sub_cancel_right]
      congr 1
      ring
    rw [e1]
    refine (x2.shift (f := 5 * M * D + 2 * (100 * (κ + 1) * (A * E) * ε + 8 * M / 2 ^ 52)) ?_).mono ?_
    · refine mean_lip (fun i => siteE (V i) (V (i + 1)) (J d i) (Bh i)) _ (by omega) fun i hi => ?_
      exact siteE_lip M1 (by positivity) (vs i (by omega)).2 (vs _ (by omega)).2 (bS i (by omega)) (hb.j i (by omega))
        (hBh i (by omega)).2.2.1 (dS i (by omega)) (dS _ (by omega)) (hBh i (by omega)).2.2.2
    · have n1 : (1 : ℝ) ≤ n := by exact_mod_cast (by omega : 1 ≤ n)
      have := mul_le_mul_of_nonneg_left n1 (show 0 ≤ M by linarith)
      push_cast
      norm_num
      linarith

theorem sum_lip {n L : ℕ} {V S : ℕ → V3 ℝ} (hn : n ≤ L) (h : ∀ i < L, len (Spec.sub (V i) (S i)) ≤ D) (f : V3 ℝ → ℝ)
    (hf : ∀ u v, |f u - f v| ≤ len (Spec.sub u v)) : |∑ i ∈ range n, f (V i) - ∑ i ∈ range n, f (S i)| ≤ n * D := by
  rw [← sum_sub_distrib]
  refine (abs_sum_le_sum_abs _ _).trans ?_
  refine (sum_le_sum fun i hi => (hf _ _).trans (h i (by have := mem_range.1 hi; omega))).trans (le_of_eq ?_)
  rw [sum_const, card_range, nsmul_eq_mul]

/-- Both magnetisations: each component within `2 n² / 2 ^ 52 + n D` of the sum over the `n` spins. -/
theorem C105_magnetisation (he : Tol ε) (w : WF c L s) (w' : WF d L s) (hs : 1 ≤ s) (hsL : s ≤ L)
    (h : Tracks ε D κ T c d) :
    (∃ x, c.m = .ok x ∧ NearR x.x (∑ i ∈ range s, (S d i).x) (2 * (s : ℝ) ^ 2 / 2 ^ 52 + s * D) ∧
      NearR x.y (∑ i ∈ range s, (S d i).y) (2 * (s : ℝ) ^ 2 / 2 ^ 52 + s * D) ∧
      NearR x.z (∑ i ∈ range s, (S d i).z) (2 * (s : ℝ) ^ 2 / 2 ^ 52 + s * D)) ∧
    ∃ x, c.m_tot = .ok x ∧ NearR x.x (∑ i ∈ range L, (S d i).x) (2 * (L : ℝ) ^ 2 / 2 ^ 52 + L * D) ∧
      NearR x.y (∑ i ∈ range L, (S d i).y) (2 * (L : ℝ) ^ 2 / 2 ^ 52 + L * D) ∧
      NearR x.z (∑ i ∈ range L, (S d i).z) (2 * (L : ℝ) ^ 2 / 2 ^ 52 + L * D) := by
  obtain ⟨j, hf, sp, V, tj, th, tsp, vj, vh, vs, dS, bS⟩ := tracks_tabs he w w' (by omega) h
  have fx : ∀ u v : V3 ℝ, |u.x - v.x| ≤ len (Spec.sub u v) := fun u v => (abs_le_len (Spec.sub u v)).1
  have fy : ∀ u v : V3 ℝ, |u.y - v.y| ≤ len (Spec.sub u v) := fun u v => (abs_le_len (Spec.sub u v)).2.1
  have fz : ∀ u v : V3 ℝ, |u.z - v.z| ≤ len (Spec.sub u v) := fun u v => (abs_le_len (Spec.sub u v)).2.2
  have key : ∀ n, 1 ≤ n → n ≤ L → ∃ x, SpinChain.magSum c.spins n = .ok x ∧
      NearR x.x (∑ i ∈ range n, (S d i).x) (2 * (n : ℝ) ^ 2 / 2 ^ 52 + n * D) ∧
      NearR x.y (∑ i ∈ range n, (S d i).y) (2 * (n : ℝ) ^ 2 / 2 ^ 52 + n * D) ∧
      NearR x.z (∑ i ∈ range n, (S d i).z) (2 * (n : ℝ) ^ 2 / 2 ^ 52 + n * D) := by
    intro n n1 nL
    obtain ⟨x, x1, x2, x3, x4⟩ := mag_near n1 (lt_of_le_of_lt nL w.L_lt) nL tsp vs
    exact ⟨x, x1, x2.shift (sum_lip nL dS (fun v => v.x) fx), x3.shift (sum_lip nL dS (fun v => v.y) fy),
      x4.shift (sum_lip nL dS (fun v => v.z) fz)⟩
  unfold SpinChain.m SpinChain.m_tot
  rw [hsize_natF w, ssize_natF w]
  exact ⟨key s hs hsL, key L (by omega) le_rfl⟩

/-- **The log.**  Every number of the row written for the computed state is within the stated bound of that of the exact
state; a row is written for the one if and only if for the other. -/
theorem C105_log (he : Tol ε) (hm : AccurateTo ε m) (w : WF c L s) (w' : WF d L s) (hs : 2 ≤ s) (hsL : s ≤ L)
    (h : Tracks ε D κ T c d) (hb : BoundedNow d L M) (hp : Paced d.vars T A E) (κ0 : 0 ≤ κ) (hT : |d.t| ≤ T)
    (hk : 400 * (κ + 1) * (T * A * E) * ε ≤ 1) (hfile : c.file.isSome = d.file.isSome) :
    ∃ row row', c.log = .ok (if c.file.isSome then some row else none) ∧
      d.log = .ok (if c.file.isSome then some row' else none) ∧ row.length = 13 ∧
      List.Forall₂ (fun x y => NearR x y (144 * M * L / 2 ^ 52 + 200 * (κ + 1) * (T * A * E) * ε + 5 * M * D)) row row' := by
  obtain ⟨j, hf, sp, V, tj, th, tsp, vj, vh, vs, dS, bS⟩ := tracks_tabs he w w' (by omega) h
  obtain ⟨row', r1, r2, r3, r4⟩ := C42_log_row d L s w' (by omega) hsL
  obtain ⟨⟨e1, a1, a2⟩, -⟩ := C105_total_energies he hm w w' (by omega) hsL h hb hp κ0 hT hk
  obtain ⟨e2, b1, b2⟩ := C105_system_energy he hm w w' hs hsL h hb hp κ0 hT hk
  obtain ⟨x, x1, x2, x3, x4⟩ := mag_near (n := s) (by omega) w.s_lt hsL tsp vs
  obtain ⟨y, y1, -, -, y4⟩ := mag_near (n := L) (by omega) w.L_lt le_rfl tsp vs
  obtain ⟨spc, hspc⟩ := energy_spectrum_total w
  have q1 := total_energy2_eq w' (by omega)
  have q2 := system_energy_eq w' (by omega) hsL
  rw [r2] at q1
  rw [r3] at q2
  injection q1 with q1
  injection q2 with q2
  have e0 := Tol.pos he
  have M1 := hb.lo
  have T1 := hp.T1
  have A1 := hp.A1
  have E1 := hp.E1
  have D0 : 0 ≤ D := (len_nonneg _).trans (dS 0 (by omega))
  have AE0 : 0 ≤ A * E * ε := by positivity
  have sL : (s : ℝ) ≤ L := by exact_mod_cast hsL
  have MD : 1 * D ≤ M * D := mul_le_mul_of_nonneg_right M1 D0
  have L0 : (0 : ℝ) ≤ L := Nat.cast_nonneg L
  have s0 : (0 : ℝ) ≤ s := Nat.cast_nonneg s
  have ML : 1 * (L : ℝ) ≤ M * L := mul_le_mul_of_nonneg_right M1 L0
  have Ms : M * s ≤ M * L := mul_le_mul_of_nonneg_left sL (by linarith)
  have TAE : 1 * (A * E * ε) ≤ T * (A * E * ε) := mul_le_mul_of_nonneg_right T1 AE0
  have κT : κ * (1 * (A * E * ε)) ≤ κ * (T * (A * E * ε)) := mul_le_mul_of_nonneg_left TAE κ0
  have κAE : 0 ≤ κ * (A * E * ε) := by positivity
  have AE1 : 1 ≤ A * E := by nlinarith
  have κTε : κ * T * ε * 1 ≤ κ * T * ε * (A * E) := mul_le_mul_of_nonneg_left AE1 (by positivity)
  have TAE0 : 0 ≤ T * (A * E * ε) := by positivity
  have κTAE0 : 0 ≤ κ * (T * (A * E * ε)) := by positivity
  have i1 := site_quarter (m := m) w.s_lt (by omega : 1 ≤ s)
  have i3 := site_three_quarters (m := m) w.s_lt (by omega : 1 ≤ s)
  refine ⟨[c.t, e1, e2, x.x / fofInt s, x.y / fofInt s, x.z / fofInt s, y.z / fofInt L,
    (sp (s / 4)).dir.x, (sp (s / 4)).dir.y, (sp (s / 4)).dir.z, (sp (3 * s / 4)).dir.x, (sp (3 * s / 4)).dir.y,
    (sp (3 * s / 4)).dir.z], row', ?_, by rw [hfile]; exact r1, rfl, ?_⟩
  · unfold SpinChain.log
    rw [b1, ok_bind, a1, ok_bind]
    unfold SpinChain.m SpinChain.m_tot
    rw [hsize_natF w, ssize_natF w, x1, ok_bind, y1, ok_bind]
    simp only [w.ssize, w.hsize, i1, i3, tsp.idx (show s / 4 < L by omega), tsp.idx (show 3 * s / 4 < L by omega), ok_bind,
      hspc]
    split_ifs <;> rfl
  · rw [r4, q1, q2]
    generalize hX : 144 * M * L / 2 ^ 52 + 200 * (κ + 1) * (T * A * E) * ε + 5 * M * D = X
    have X1 : D ≤ X := by rw [← hX]; norm_num; linarith
    have fx : ∀ u v : V3 ℝ, |u.x - v.x| ≤ len (Spec.sub u v) := fun u v => (abs_le_len (Spec.sub u v)).1
    have fy : ∀ u v : V3 ℝ, |u.y - v.y| ≤ len (Spec.sub u v) := fun u v => (abs_le_len (Spec.sub u v)).2.1
    have fz : ∀ u v : V3 ℝ, |u.z - v.z| ≤ len (Spec.sub u v) := fun u v => (abs_le_len (Spec.sub u v)).2.2
    have comp : ∀ {i : ℕ} {u : B64v} (f : V3 ℝ → ℝ), (∀ u v, |f u - f v| ≤ len (Spec.sub u v)) → i < L → IsVal u (f (V i)) →
        NearR u (f (S d i)) X := by
      intro i u f hf hi hu
      have := (IsVal.nearR hu).shift ((hf (V i) (S d i)).trans (dS i hi))
      exact this.mono (by linarith)
    have meanS : ∀ {n : ℕ} {u : B64 m} (f : V3 ℝ → ℝ), (∀ u v, |f u - f v| ≤ len (Spec.sub u v)) → (∀ v, |f v| ≤ len v) →
        1 ≤ n → n ≤ L → NearR u (∑ i ∈ range n, f (V i)) (2 * (n : ℝ) ^ 2 / 2 ^ 52) →
        NearR (u / fofInt n : B64 m) ((∑ i ∈ range n, f (S d i)) / n) X := by
      intro n u f hf hf' n1 nL hu
      have nL' : (n : ℝ) ≤ L := by exact_mod_cast nL
      refine mean_comp (D := D) n1 (lt_of_le_of_lt nL w.L_lt) hu ?_ ?_ ?_
      · refine (abs_sum_le_sum_abs _ _).trans ?_
        refine (sum_le_sum fun i hi => (hf' _).trans (vs i (by have := mem_range.1 hi; omega)).2).trans (le_of_eq ?_)
        rw [sum_const, card_range, nsmul_eq_mul]
        ring
      · exact mean_lip _ _ n1 fun i hi => (hf _ _).trans (dS i (by omega))
      · rw [← hX]
        norm_num
        linarith
    refine .cons (h.t.mono (by rw [← hX]; norm_num; linarith)) (.cons (a2.mono (by rw [← hX]; norm_num; linarith))
      (.cons (b2.mono (by rw [← hX]; norm_num; linarith)) (.cons (meanS (fun v => v.x) fx (fun v => (abs_le_len v).1)
      (by omega) hsL x2) (.cons (meanS (fun v => v.y) fy (fun v => (abs_le_len v).2.1) (by omega) hsL x3) (.cons (meanS
      (fun v => v.z) fz (fun v => (abs_le_len v).2.2) (by omega) hsL x4) (.cons (meanS (fun v => v.z) fz (fun v =>
      (abs_le_len v).2.2) (by omega) le_rfl y4) ?_))))))
    have k1 := (vs (s / 4) (by omega)).1
    have k2 := (vs (3 * s / 4) (by omega)).1
    exact .cons (comp (fun v => v.x) fx (by omega) k1.1) (.cons (comp (fun v => v.y) fy (by omega) k1.2.1)
      (.cons (comp (fun v => v.z) fz (by omega) k1.2.2) (.cons (comp (fun v => v.x) fx (by omega) k2.1)
      (.cons (comp (fun v => v.y) fy (by omega) k2.2.1) (.cons (comp (fun v => v.z) fz (by omega) k2.2.2) .nil)))))

end

/-- **A whole run.**  The rows of the log after `n` steps of the computed run, against those of the exact run: the error
`roundoff` of the spins (C95), multiplied by `5 M`, plus the rounding errors of the sums. -/
theorem C105_run_log {ε M D T A E μ : ℝ} (he : Tol ε) (hm : AccurateTo ε m) (c : SpinChain (B64 m)) (d : SpinChain ℝ)
    (L s n : ℕ) (w : WF c L s) (w' : WF d L s) (hs : 2 ≤ s) (hsL : s ≤ L) (hcd : SameNumbers c d) (hp : Paced d.vars T A E)
    (hb : Bounded d L s M) (hh : ∀ i < L, len (H0 d i) ≤ M) (hd : ∀ t, len (drive d.vars t) ≤ M) (d0 : 0 ≤ d.vars.dt) (d1 : 5 * M * d.vars.dt ≤ 1)
    (hT : |d.t| + n * d.vars.dt ≤ T) (hu : ∀ x ∈ d.spins, IsUnit3 x) (hc : Close ε D c d)
    (hμ : ∀ k < n, ∀ d', d.updates k = .ok d' →
      RegularBy μ (2 * (L / 2)) (J d') (B d' s (d'.t + d'.vars.dt / 2)) d'.vars.dt (S d')) (μ0 : 1 / 2 ^ 100 ≤ μ)
    (small : 6 * M * roundoff ε M D T A E n d.vars.dt ≤ μ) (hk : 400 * ((n : ℝ) + 1) * (T * A * E) * ε ≤ 1)
    (hfile : c.file.isSome = d.file.isSome) :
    ∃ c' d' row row', c.updates n = .ok c' ∧ d.updates n = .ok d' ∧
      c'.log = .ok (if c.file.isSome then some row else none) ∧ d'.log = .ok (if c.file.isSome then some row' else none) ∧
      List.Forall₂ (fun x y => NearR x y (144 * M * L / 2 ^ 52 + 200 * ((n : ℝ) + 1) * (T * A * E) * ε
        + 5 * M * roundoff ε M D T A E n d.vars.dt)) row row' := by
  obtain ⟨c', d', f1, f2, f3, f4⟩ := C95_updates he hm c d L s n w w' (by omega) hcd hp hb d0 d1 hT hu hc hμ μ0 small
  have μp : 0 < μ := lt_of_lt_of_le (by positivity) μ0
  obtain ⟨wd, ud⟩ := updates_unit w' (by omega) hu (fun k hk d1 hd1 => (hμ k hk d1 hd1).regular μp) f2
  have wc := updates_wf w f1
  obtain ⟨a1, a2, a3, a4, -⟩ := updates_frame f1
  obtain ⟨b1, b2, b3, b4, -, b6⟩ := updates_frame f2
  rw [iterate_add_real] at b6
  have tr : Tracks ε (roundoff ε M D T A E n d.vars.dt) n T c' d' := by
    refine ⟨by rw [a3, b3]; exact hcd.vars, by rw [a1, b1]; exact hcd.j, by rw [a2, b2]; exact hcd.h, f3, f4, fun x hx => ?_⟩
    rw [show len x.dir = 1 from ?_]
    · norm_num
    · exact ud x hx
  have bn : BoundedNow d' L M := by
    exact ⟨hb.lo, hb.hi, fun i hi => by rw [J_congr b1]; exact hb.j i hi,
      fun i hi => by have := hh i hi; unfold H0 at *; rw [b2]; exact this, by rw [b3]; exact hd _⟩
  have tb : |d'.t| ≤ T := by
    rw [b6]
    have h2 : 0 ≤ n * d.vars.dt := by positivity
    have h3 := abs_le.1 (le_refl |d.t|)
    rw [abs_le]
    constructor <;> linarith
  obtain ⟨row, row', g1, g2, -, g4⟩ := C105_log he hm wc wd hs hsL tr bn (by rw [b3]; exact hp) (Nat.cast_nonneg n) tb hk
    (by rw [a4, b4]; exact hfile)
  rw [a4] at g1 g2
  exact ⟨c', d', row, row', f1, f2, g1, g2, g4⟩

/-- the hypotheses of the theorems about a single state, for the driven chain of C95 at its start -/
example : Tracks (1 / 2 ^ 50) (1 / 2 ^ 52) 0 1 (fineChain fineLibm) fineReal ∧ BoundedNow fineReal 4 7 ∧
    Paced fineReal.vars 1 1 1 ∧ 400 * ((0 : ℝ) + 1) * (1 * 1 * 1) * (1 / 2 ^ 50) ≤ 1 := by
  refine ⟨⟨fine_same.vars, fine_same.j, fine_same.h, ?_, fine_close, fun x hx => ?_⟩,
    ⟨fineReal_bounded.lo, fineReal_bounded.hi, fineReal_bounded.j, fun i hi => ?_, ?_⟩,
    ⟨le_rfl, le_rfl, le_rfl, fun _ _ => by norm_num [fineReal], by norm_num [fineReal, abs_le]⟩, by norm_num⟩
  · rw [zero_mul, zero_mul]
    exact IsVal.nearR fine_same.t
  · rw [show len x.dir = 1 from fineReal_unit x hx]
    norm_num
  · rw [fineReal_H hi]
    exact (len_le_sum _).trans (by norm_num)
  · refine (len_le_sum _).trans ?_
    rw [show drive fineReal.vars fineReal.t
      = ⟨Real.cos (2 * Real.pi * 0 / 1), 1 / 2 * Real.sin (2 * Real.pi * 0 / 1), 0⟩ from rfl]
    norm_num

/-- the driven chain of C95, with a log -/
def fineLogged (m : Libm) : SpinChain (B64 m) :=
  { fineChain m with
    file := some "log0.dat" }

/-- the same in exact arithmetic -/
noncomputable def fineRealLogged : SpinChain ℝ :=
  { fineReal with
    file := some "log0.dat" }

/-- the hypotheses of `C105_run_log` for 32 steps of the driven chain of C95, with a log: every number of the row is within
`1 / 10` of that of the exact run -/
example : ∃ c' d' row row', (fineLogged fineLibm).updates 32 = .ok c' ∧
    fineRealLogged.updates 32 = .ok d' ∧ c'.log = .ok (some row) ∧
    d'.log = .ok (some row') ∧ List.Forall₂ (fun x y => NearR x y (1 / 10)) row row' := by
  have wd : WF fineRealLogged 4 2 :=
    ⟨rfl, rfl, by norm_num, by norm_num, rfl, rfl, rfl, le_refl 3⟩
  have hd : ∀ t, ∀ i < 2 * (4 / 2), |(J fineReal (left (2 * (4 / 2)) i)).z| + |(J fineReal i).z| + 3 ≤ |(B fineReal 2 t i).z| :=
    fun t i hi => by
      rw [fineReal_z t hi, fineReal_J hi, fineReal_J (left_lt (by norm_num))]
      norm_num
  obtain ⟨c', d', row, row', h1, h2, h3, h4, h5⟩ := C105_run_log (ε := 1 / 2 ^ 50) (M := 7) (D := 1 / 2 ^ 52) (T := 1) (A := 1)
    (E := 1) (μ := 3) ⟨by norm_num, by norm_num⟩ fineLibm_accurate (fineLogged fineLibm)
    fineRealLogged 4 2 32 ⟨rfl, rfl, by norm_num, by norm_num, rfl, rfl, rfl, le_refl 3⟩ wd le_rfl
    (by norm_num) ⟨fine_same.vars, fine_same.t, fine_same.j, fine_same.h⟩
    ⟨le_rfl, le_rfl, le_rfl, fun _ _ => by norm_num [fineRealLogged, fineReal], by norm_num [fineRealLogged, fineReal, abs_le]⟩
    ⟨fineReal_bounded.lo, fineReal_bounded.hi, fineReal_bounded.j, fineReal_bounded.b⟩
    (fun i hi => by
      rw [show H0 fineRealLogged i = H0 fineReal i from rfl, fineReal_H hi]
      exact (len_le_sum _).trans (by norm_num))
    (fun t => by
      refine (len_le_sum _).trans ?_
      have h1 := Real.abs_cos_le_one (2 * Real.pi * t / 1)
      have h2 := Real.abs_sin_le_one (2 * Real.pi * t / 1)
      rw [show drive fineRealLogged.vars t
        = ⟨Real.cos (2 * Real.pi * t / 1), 1 / 2 * Real.sin (2 * Real.pi * t / 1), 0⟩ from rfl]
      dsimp only
      rw [abs_mul, abs_zero]
      norm_num at *
      linarith)
    (by norm_num [fineRealLogged, fineReal]) (by norm_num [fineRealLogged, fineReal]) (by norm_num [fineRealLogged, fineReal]) fineReal_unit fine_close
    (fun k _ d' hd' => by
      have hr := regularRun_of_dominant wd (by norm_num) fineReal_unit (fun t i hi => by
        have : |(J fineReal (left (2 * (4 / 2)) i)).z| + |(J fineReal i).z| < |(B fineReal 2 t i).z| := by linarith [hd t i hi]
        exact this) k
      obtain ⟨w1, u1⟩ := updates_unit wd (by norm_num) fineReal_unit hr hd'
      obtain ⟨b1, b2, b3, _⟩ := updates_frame hd'
      refine regularBy_of_dominant (by omega) ?_ (fun i hi => unit_S w1 u1 (by omega))
      rw [J_congr b1, B_congr (c := fineRealLogged) b2 (by rw [b3])]
      exact hd _)
    (by norm_num) (by
      rw [show fineRealLogged.vars.dt = fineReal.vars.dt from rfl]
      linarith [fine_roundoff]) (by norm_num) rfl
  refine ⟨c', d', row, row', h1, h2, h3, h4, h5.imp fun x y h => h.mono ?_⟩
  rw [show fineRealLogged.vars.dt = fineReal.vars.dt from rfl]
  have := fine_roundoff
  norm_num at *
  linarith

end Verif.Props
