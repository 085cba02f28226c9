/- Lemmas about the Monte-Carlo estimators: they never panic on a valid configuration, and they
return the mean over the chains visited. -/
import Verif.Model.Obs
import Verif.Props.Metropolis
import Verif.Props.Init

set_option linter.unusedSectionVars false

namespace Verif

open Spec Props

theorem forRange_inv {σ : Type} {lo hi : ℕ} {init : σ} {body : ℕ → σ → R σ} (P : ℕ → σ → Prop)
    (h0 : P lo init) (hlo : lo ≤ hi)
    (hs : ∀ i acc, lo ≤ i → i < hi → P i acc → ∃ acc', body i acc = .ok acc' ∧ P (i + 1) acc') :
    ∃ r, forRange lo hi init body = .ok r ∧ P hi r := by
  obtain ⟨n, rfl⟩ := Nat.exists_eq_add_of_le hlo
  clear hlo
  unfold forRange
  rw [show lo + n - lo = n from by omega]
  induction n generalizing lo init with
  | zero => exact ⟨init, rfl, h0⟩
  | succ n ih =>
    obtain ⟨a, ha, hp⟩ := hs lo init le_rfl (by omega) h0
    obtain ⟨r, hr, hpr⟩ := ih (lo := lo + 1) (init := a) hp
      (fun i acc h1 h2 => hs i acc (by omega) (by omega))
    refine ⟨r, ?_, by rw [show lo + (n + 1) = lo + 1 + n from by omega]; exact hpr⟩
    rw [List.range'_succ, List.foldlM_cons, ha]
    exact hr

variable {F : Type} [Add F] [Sub F] [Mul F] [Div F] [Neg F] [OfScientific F] [FOps F]
variable {c : SpinChain F} {L s : ℕ}

/-! ### The energies are total -/

theorem bind_total {α β : Type} {x : R α} {f : α → R β} (hx : ∃ a, x = .ok a)
    (hf : ∀ a, x = .ok a → ∃ b, f a = .ok b) : ∃ b, (x >>= f) = .ok b := by
  obtain ⟨a, rfl⟩ := hx
  exact hf a rfl

theorem forRange_total {σ : Type} {lo hi : ℕ} {init : σ} {body : ℕ → σ → R σ} (hlo : lo ≤ hi)
    (hs : ∀ i acc, lo ≤ i → i < hi → ∃ acc', body i acc = .ok acc') :
    ∃ r, forRange lo hi init body = .ok r := by
  obtain ⟨r, hr, -⟩ := forRange_inv (init := init) (body := body) (fun _ _ => True) trivial hlo
    (fun i acc h1 h2 _ => by obtain ⟨a, ha⟩ := hs i acc h1 h2; exact ⟨a, ha, trivial⟩)
  exact ⟨r, hr⟩

theorem spins_total (w : WF c L s) {k : ℕ} (hk : k < L) : ∃ x, idx c.spins k = .ok x :=
  ⟨_, idx_ok (by rw [w.spins]; exact hk)⟩
theorem j_total (w : WF c L s) {k : ℕ} (hk : k < L) : ∃ x, idx c.j_couple k = .ok x :=
  ⟨_, idx_ok (by rw [w.j]; exact hk)⟩
theorem h_total (w : WF c L s) {k : ℕ} (hk : k < L) : ∃ x, idx c.static_h k = .ok x :=
  ⟨_, idx_ok (by rw [w.h]; exact hk)⟩

theorem mcEnergy_total (w : WF c L s) {n : ℕ} (hn : 1 ≤ n) (hnL : n ≤ L) :
    ∃ e, c.mcEnergy n = .ok e := by
  unfold SpinChain.mcEnergy
  rw [usub_ok hn, ok_bind]
  refine bind_total (forRange_total (by omega) fun i acc _ hi => ?_) fun _ _ => ?_
  · refine bind_total (spins_total w (by omega)) fun _ _ => ?_
    refine bind_total (spins_total w (by omega)) fun _ _ => ?_
    refine bind_total (j_total w (by omega)) fun _ _ => ?_
    refine bind_total (h_total w (by omega)) fun _ _ => ?_
    exact ⟨_, rfl⟩
  · refine bind_total (spins_total w (by omega)) fun _ _ => ?_
    refine bind_total (spins_total w (by omega)) fun _ _ => ?_
    refine bind_total (j_total w (by omega)) fun _ _ => ?_
    refine bind_total (h_total w (by omega)) fun _ _ => ?_
    exact ⟨_, rfl⟩

theorem mc_total_energy_total (w : WF c L s) (hL : 1 ≤ L) : ∃ e, c.mc_total_energy = .ok e := by
  unfold SpinChain.mc_total_energy
  rw [hsize_natF w]
  exact mcEnergy_total w hL le_rfl

theorem mc_system_energy_total (w : WF c L s) (hs : 1 ≤ s) (hsL : s ≤ L) :
    ∃ e, c.mc_system_energy = .ok e := by
  unfold SpinChain.mc_system_energy
  rw [ssize_natF w]
  exact mcEnergy_total w hs hsL

theorem m_total (w : WF c L s) (hsL : s ≤ L) : ∃ v, c.m = .ok v := by
  unfold SpinChain.m SpinChain.magSum
  rw [ssize_natF w, w.spins, if_pos hsL]
  exact ⟨_, rfl⟩

theorem mgSum_total (w : WF c L s) (hL : 2 ≤ L) : ∃ e, c.mgSum L = .ok e := by
  unfold SpinChain.mgSum
  exact forRange_total (by omega) fun i acc _ hi =>
    bind_total (nbhd_ok w hL hi) fun _ _ => ⟨_, rfl⟩

theorem mc_system_energy_maglab_total (w : WF c L s) (hL : 2 ≤ L) :
    ∃ e, c.mc_system_energy_maglab = .ok e := by
  unfold SpinChain.mc_system_energy_maglab
  rw [hsize_natF w]
  dsimp only
  rw [usub_ok (by omega), ok_bind]
  refine bind_total (forRange_total (by omega) fun i acc _ hi => ?_) fun _ _ => ?_
  · refine bind_total (spins_total w (by omega)) fun _ _ => ?_
    refine bind_total (spins_total w (by omega)) fun _ _ => ?_
    refine bind_total (j_total w (by omega)) fun _ _ => ?_
    exact ⟨_, rfl⟩
  · refine bind_total (spins_total w (by omega)) fun _ _ => ?_
    refine bind_total (spins_total w (by omega)) fun _ _ => ?_
    refine bind_total (j_total w (by omega)) fun _ _ => ?_
    refine bind_total (forRange_total (by omega) fun i acc _ hi => ?_) fun _ _ => ?_
    · exact bind_total (spins_total w (by omega)) fun _ _ => ⟨_, rfl⟩
    · exact bind_total (mgSum_total w hL) fun _ _ => ⟨_, rfl⟩

theorem mc_system_energy_rot_total (w : WF c L s) (hL : 2 ≤ L) (hs : s ≤ L) :
    ∃ e, c.mc_system_energy_rot = .ok e := by
  unfold SpinChain.mc_system_energy_rot
  rw [hsize_natF w, ssize_natF w]
  dsimp only
  rw [usub_ok (by omega), ok_bind]
  refine bind_total (forRange_total (by omega) fun i acc _ hi => ?_) fun _ _ => ?_
  · refine bind_total (spins_total w (by omega)) fun _ _ => ?_
    refine bind_total (spins_total w (by omega)) fun _ _ => ?_
    refine bind_total (j_total w (by omega)) fun _ _ => ?_
    exact ⟨_, rfl⟩
  · refine bind_total (spins_total w (by omega)) fun _ _ => ?_
    refine bind_total (spins_total w (by omega)) fun _ _ => ?_
    refine bind_total (j_total w (by omega)) fun _ _ => ?_
    refine bind_total (forRange_total (by omega) fun i acc _ hi => ?_) fun _ _ => ?_
    · exact bind_total (spins_total w (by omega)) fun _ _ => ⟨_, rfl⟩
    refine bind_total (forRange_total (by omega) fun i acc _ hi => ?_) fun _ _ => ?_
    · exact bind_total (spins_total w (by omega)) fun _ _ => ⟨_, rfl⟩
    · exact bind_total (mgSum_total w hL) fun _ _ => ⟨_, rfl⟩

/-! ### Sampling -/

/-- the draws of one block of updates -/
def block (k : Sampler) (ds : ℕ → Draw F) (n : ℕ) : List (Sampler × Draw F) :=
  (List.range n).map fun j => (k, ds j)

theorem sweeps_eq (k : Sampler) (ds : ℕ → Draw F) (n : ℕ) (c : SpinChain F) :
    sweeps k.run ds n c = sample (block k ds n) c := by
  unfold sweeps forRange sample block
  rw [Nat.sub_zero, List.foldlM_map, List.range_eq_range']

theorem sample_wf {l : List (Sampler × Draw F)} {c c' : SpinChain F} (w : WF c L s)
    (h : sample l c = .ok c') : WF c' L s := by
  obtain ⟨h1, h2, h3, h4, h5, h6⟩ := C34_frame l c c' h
  exact ⟨by rw [h5]; exact w.hsize, by rw [h5]; exact w.ssize, w.L_lt, w.s_lt, by rw [h1, w.spins],
    by rw [h2, w.j], by rw [h3, w.h], by rw [h5]; exact w.hs⟩

/-- The sampling loop visits a sequence of chains, each obtained from the one before by a block of
updates, and collects the observable of each. -/
theorem sampleLoop_eq {α : Type} (k : Sampler) (per n : ℕ) (obs : SpinChain F → R α)
    (ds : ℕ → ℕ → Draw F) (c : SpinChain F) (w : WF c L s) (hL : 2 ≤ L)
    (hobs : ∀ c : SpinChain F, WF c L s → ∃ e, obs c = .ok e) :
    ∃ (chain : ℕ → SpinChain F) (val : ℕ → α), chain 0 = c ∧
      (∀ i, sample (block k (ds i) per) (chain i) = .ok (chain (i + 1))) ∧
      (∀ i, WF (chain i) L s) ∧
      (∀ i, obs (chain (i + 1)) = .ok (val i)) ∧
      sampleLoop k.run per n obs ds c = .ok (chain n, (List.range n).map val) := by
  classical
  let next : ℕ → SpinChain F → SpinChain F := fun i c =>
    match sample (block k (ds i) per) c with | .ok c' => c' | .error _ => c
  let chain : ℕ → SpinChain F := fun n => Nat.rec c (fun i c => next i c) n
  have hw : ∀ i, WF (chain i) L s ∧
      sample (block k (ds i) per) (chain i) = .ok (chain (i + 1)) := by
    intro i
    induction i with
    | zero =>
      obtain ⟨c', h⟩ := C34_total (block k (ds 0) per) c L s w hL
      refine ⟨w, ?_⟩
      show sample (block k (ds 0) per) c = .ok (next 0 c)
      simp only [next, h]
    | succ i ih =>
      have w' := sample_wf ih.1 ih.2
      obtain ⟨c', h⟩ := C34_total (block k (ds (i + 1)) per) (chain (i + 1)) L s w' hL
      refine ⟨w', ?_⟩
      show sample (block k (ds (i + 1)) per) (chain (i + 1)) = .ok (next (i + 1) (chain (i + 1)))
      simp only [next, h]
  choose val hval using fun i => hobs (chain (i + 1)) (hw (i + 1)).1
  refine ⟨chain, val, rfl, fun i => (hw i).2, fun i => (hw i).1, hval, ?_⟩
  unfold sampleLoop
  obtain ⟨r, hr, hp⟩ := forRange_inv (lo := 0) (hi := n) (init := (c, ([] : List α)))
    (body := fun i st => do
      let c ← sweeps k.run (ds i) per st.1
      let e ← obs c
      return (c, st.2 ++ [e])) (fun i st => st = (chain i, (List.range i).map val)) rfl
    (by omega) (by
      rintro i _ - - rfl
      refine ⟨(chain (i + 1), (List.range (i + 1)).map val), ?_, rfl⟩
      simp only [sweeps_eq, (hw i).2, ok_bind, hval]
      rw [List.range_succ, List.map_append]
      rfl)
  rw [hr, hp]

/-- The configurations on which `SpinChain::new` succeeds and the samplers work. -/
structure ValidConf (conf : Config F) (L s : ℕ) : Prop where
  hsize : conf.hsize = L
  ssize : conf.ssize = s
  L_two : 2 ≤ L
  L_lt : L < 2 ^ 31
  s_lt : s < 2 ^ 31
  hfield : 3 ≤ conf.hfield.length
  hs : 3 ≤ conf.hs.length
  jvar : fisFinite conf.jvar = true
  hvar : fisFinite conf.hvar = true

theorem estimate_eq (k : Sampler) (per n : ℕ) (obs : SpinChain F → R F) (conf : Config F)
    (v : ValidConf conf L s) (beta : F) (r : Rand F)
    (hobs : ∀ c : SpinChain F, WF c L s → ∃ e, obs c = .ok e) :
    ∃ (c0 : SpinChain F) (chain : ℕ → SpinChain F) (val : ℕ → F),
      SpinChain.new conf 0 r.u r.zj r.zh = .ok c0 ∧
      chain 0 = { c0 with vars := { conf with beta := beta } } ∧
      (∀ i, sample (block k (r.ds i) per) (chain i) = .ok (chain (i + 1))) ∧
      (∀ i, WF (chain i) L s) ∧
      (∀ i, obs (chain (i + 1)) = .ok (val i)) ∧
      estimate k.run per n obs conf beta r = .ok (meanOf ((List.range n).map val) n) := by
  obtain ⟨c0, h1, h2, h3, h4, h5, h6, -, -⟩ := C11_new_wf conf 0 r.u r.zj r.zh L v.hsize v.L_lt
    v.hfield v.hs v.jvar v.hvar
  have w : WF ({ c0 with vars := { conf with beta := beta } } : SpinChain F) L s :=
    ⟨v.hsize, v.ssize, v.L_lt, v.s_lt, h2, h3, h4, v.hs⟩
  obtain ⟨chain, val, a1, a2, a3, a4, a5⟩ := sampleLoop_eq k per n obs r.ds _ w v.L_two hobs
  refine ⟨c0, chain, val, h1, a1, a2, a3, a4, ?_⟩
  unfold estimate
  rw [h1, ok_bind]
  simp only [h6, a5, ok_bind]
  rfl

end Verif
