/-
C130: the laboratory-frame, rotating-frame and Langevin samplers are the plain sampler in another field; what follows for the number
of updates and samples they need and for the temperature searches.
-/
import Verif.Lemmas.Frames

set_option linter.unusedSectionVars false

namespace Verif.Props

open Spec Frames
open MeasureTheory
open Finset hiding expect

noncomputable section

variable {c x x' : SpinChain ℝ} {L s : ℕ}

/-! ### One update -/

theorem ofFn_twin (w : WF c L s) (h : ℕ → V3 ℝ) : Twin c (inStatic c L h) L s h :=
  ⟨w, ⟨w.hsize, w.ssize, w.L_lt, w.s_lt, w.spins, w.j, by simp [inStatic], w.hs⟩, rfl, rfl, rfl, fun i hi => by simp [H0, inStatic, hi]⟩

/-- C130: an update of the laboratory-frame sampler is a plain Metropolis update of the chain whose static field is that of the
laboratory frame.  The static field itself is left alone. -/
theorem C130_lab_update (c : SpinChain ℝ) (L s : ℕ) (w : WF c L s) (hL : 1 ≤ L) (d : Draw ℝ) :
    c.metropolis_update_maglab d = (do
      let y ← (inStatic c L fun _ => labField c.vars.tau).metropolis_update d
      return { y with static_h := c.static_h }) := by
  obtain ⟨sp, -, h1, h2⟩ := lab_same (ofFn_twin w fun _ => labField c.vars.tau) hL d
  rw [h1, h2]
  rfl

/-- C130: an update of the rotating-frame sampler, for couplings which are symmetric about the axis of rotation. -/
theorem C130_rot_update (c : SpinChain ℝ) (L s : ℕ) (w : WF c L s) (hL : 2 ≤ L) (hiso : ∀ i < L, (J c i).x = (J c i).y) (d : Draw ℝ) :
    c.metropolis_update_rot_magnus d = (do
      let y ← (inStatic c L (rotField s c.vars.tau)).metropolis_update d
      return { y with static_h := c.static_h }) := by
  obtain ⟨sp, -, h1, h2⟩ := rot_same (ofFn_twin w (rotField s c.vars.tau)) hL hiso d
  rw [h1, h2]
  rfl

/-- C130: an update of the Langevin chain is a plain Metropolis update of the chain without fields. -/
theorem C130_langevin_update (c : SpinChain ℝ) (L s : ℕ) (w : WF c L s) (hL : 1 ≤ L) (gamma : ℝ) (d : Draw ℝ) :
    LangevinChain.metropolis_update ⟨c, gamma⟩ d = (do
      let y ← (inStatic c L fun _ => zero).metropolis_update d
      return ⟨{ y with static_h := c.static_h }, gamma⟩) := by
  obtain ⟨sp, -, h1, h2⟩ := langevin_full gamma (ofFn_twin w fun _ => zero) hL d
  rw [h1, h2]
  rfl

/-! ### Energies -/

theorem twin_total {h : ℕ → V3 ℝ} (t : Twin x x' L s h) (hL : 1 ≤ L) : x'.mc_total_energy = .ok (ringEnergy L (S x) (J x) h / L) := by
  rw [mc_total_energy_eq t.w' hL, S_twin t, J_twin t]
  congr 2
  exact sum_congr rfl fun i hi => by rw [t.field i (mem_range.1 hi)]

theorem twin_whole {h : ℕ → V3 ℝ} (t : Twin x x' L s h) (hL : 1 ≤ L) : wholeEnergy L x' = ringEnergy L (S x) (J x) h := by
  have : (L : ℝ) ≠ 0 := by positivity
  unfold wholeEnergy
  rw [twin_total t hL]
  field_simp

theorem lab_frame (s : ℕ) (tau : ℝ) : (fun _ => labField tau) = frameField s (labField tau) zero := by
  funext i
  unfold frameField
  split <;> simp [zero]

theorem rot_frame (s : ℕ) (tau : ℝ) : rotField s tau = frameField s ⟨0, 0, -(2 * Real.pi / tau)⟩ ⟨1, 0, 0⟩ := by
  funext i
  unfold frameField rotField
  split <;> simp

theorem bare_frame (s : ℕ) : (fun _ => zero) = frameField s zero zero := by
  funext i
  unfold frameField
  split <;> simp [zero]

theorem lab_ring (x : SpinChain ℝ) (L : ℕ) : labEnergy L x = ringEnergy L (S x) (J x) fun _ => labField x.vars.tau := by
  unfold labEnergy maglabE corr
  have : -(1 / (2 * (2 * Real.pi / x.vars.tau))) = -(x.vars.tau / (4 * Real.pi)) := by
    rw [show (2 : ℝ) * (2 * Real.pi / x.vars.tau) = (4 * Real.pi) / x.vars.tau by ring, one_div_div]
  rw [this, zero_mul, zero_mul, add_zero, zero_div, sub_zero]
  rfl

theorem corr_iso {S J : ℕ → V3 ℝ} (hiso : ∀ i < L, (J i).x = (J i).y) (kb kt : ℝ) : corr L kb kt S J = 0 := by
  have a : ∀ i < L, aniso (J i) = 0 := fun i hi => by simp [aniso, hiso i hi]
  unfold corr
  rw [sum_eq_zero fun i hi => by simp [bondCorr, a i (mem_range.1 hi)],
    sum_eq_zero fun i hi => by simp [tripCorr, a i (mem_range.1 hi)]]
  simp

theorem rot_ring (x : SpinChain ℝ) (hiso : ∀ i < L, (J x i).x = (J x i).y) (kb kt : ℝ) :
    rotE L s (2 * Real.pi / x.vars.tau) kb kt (S x) (J x) = ringEnergy L (S x) (J x) (rotField s x.vars.tau) := by
  unfold rotE
  rw [corr_iso hiso, zero_div, sub_zero]
  refine sum_congr rfl fun i hi => ?_
  have := hiso i (mem_range.1 hi)
  have e : rotJ (J x i) = J x i := by
    unfold rotJ
    rw [this]
    ext <;> simp [this]
  simp only [e]
  rfl

/-! ### Any frame -/

theorem new_vars {conf : Config ℝ} (v : ValidConf conf L s) {num : ℕ} {u0 zj zh : ℕ → ℝ} (hc : SpinChain.new conf num u0 zj zh = .ok c) :
    c.vars = conf := by
  obtain ⟨_, -, h, -⟩ := frame_new v zero zero hc
  exact h

theorem new_iso {conf : Config ℝ} (v : ValidConf conf L s) (hj : conf.jvar = 0) {u1 z1 z2 : ℕ → ℝ}
    (h : SpinChain.new conf 0 u1 z1 z2 = .ok c) (i : ℕ) (hi : i < L) : (J c i).x = (J c i).y := by
  obtain ⟨f0, f1, f2, fr, hf⟩ := three_le v.hfield
  obtain ⟨h0, h1, h2, hr, hh⟩ := three_le v.hs
  obtain ⟨sp, hsp, -⟩ := newSpins_ok conf.beta u1 L
  have e := new_eq v.hsize v.L_lt hf hh v.jvar v.hvar 0 u1 z1 z2 hsp
  rw [h] at e
  cases e
  simp [J, coupF, hj, hi]

section frame

variable {conf : Config ℝ} {num : ℕ} {u0 zj zh : ℕ → ℝ} {upd : SpinChain ℝ → Draw ℝ → R (SpinChain ℝ)} {E : SpinChain ℝ → ℝ} {a g : V3 ℝ} {b : ℝ}

theorem frame_updates (v : ValidConf conf L s) (hb0 : conf.beta ≠ 0) (hc : SpinChain.new conf num u0 zj zh = .ok c) (hb : 0 ≤ b) {K : ℝ}
    (hK : ∀ i < L, len (J c i) + len (frameField s a g i) ≤ K)
    (H : ∀ (q : Fin L → V3 ℝ) x', Twin (withSpins (atBeta c b) q) x' L s (frameField s a g) → Same upd L (withSpins (atBeta c b) q) x')
    (hE : ∀ q : Fin L → V3 ℝ, E (withSpins (atBeta c b) q) = ringEnergy L (S (withSpins (atBeta c b) q)) (J c) (frameField s a g))
    {f : SpinChain ℝ → ℝ} {C : ℝ} (hf : BoundedBy (atBeta c b) L C f) {δ : ℝ} (hδ : 0 < δ) {n : ℕ}
    (hn : 768 * Real.exp (26 * (b * K)) * L * ((|conf.beta| / 2 + b * K) * L + Real.log (1 / δ)) ≤ n) :
    |newMean conf num zj zh L (fun x => expectReal upd L f n (atBeta x b)) - thermalMean (atBeta c b) L E f| ≤ C * δ := by
  have hL := v.L_two
  obtain ⟨c', h1, hv, hv', ht, hJ, hH, hq⟩ := frame_new v a g hc
  have := C126_updates (frameConf conf a g) L s (frame_valid v a g) hb0 num u0 zj zh c' h1 hL b hb K
    (fun i hi => by rw [hJ, hH i hi]; exact hK i hi) (fun y => f (back (atBeta c b) y)) C (bounded_frame hf) δ hδ n hn
  rw [← mean_frame (c := atBeta c b) (c' := atBeta c' b) (E := E) rfl (fun q => by rw [hE, twin_whole (ht b q) (by omega)]; rfl) f (fun y => f (back (atBeta c b) y)) fun q => rfl] at this
  refine le_trans (le_of_eq ?_) this
  congr 2
  unfold newMean
  refine integral_congr_ae (Filter.Eventually.of_forall fun w => ?_)
  obtain ⟨q, h2, h3⟩ := hq (drawsOf w)
  simp only [h2, h3]
  exact expectReal_frame (fun q => H q _ (ht b q)) f n q

theorem frame_samples (v : ValidConf conf L s) (hb0 : conf.beta ≠ 0) (hc : SpinChain.new conf 0 u0 zj zh = .ok c) (hb : 0 ≤ b) {K : ℝ}
    (hK : ∀ i < L, len (J c i) + len (frameField s a g i) ≤ K)
    (H : ∀ (q : Fin L → V3 ℝ) x', Twin (withSpins (atBeta c b) q) x' L s (frameField s a g) → Same upd L (withSpins (atBeta c b) q) x')
    (hE : ∀ q : Fin L → V3 ℝ, E (withSpins (atBeta c b) q) = ringEnergy L (S (withSpins (atBeta c b) q)) (J c) (frameField s a g))
    {obs : SpinChain ℝ → R ℝ} {f : SpinChain ℝ → ℝ} {C : ℝ}
    (hobs : ∀ q : Fin L → V3 ℝ, obs (withSpins (atBeta c b) q) = .ok (f (withSpins (atBeta c b) q)))
    (hf : BoundedBy (atBeta c b) L C f) {per n : ℕ} (hper : 1 ≤ per) (hn : 1 ≤ n) {δ p : ℝ} (hδ : 0 < δ) (hp : 0 < p) (hp1 : p ≤ 1)
    (hδC : δ ≤ C) (hs : C ^ 2 * samplesWorth b K L per * (17 + 8 * ((|conf.beta| / 2 + b * K) * L)) / (p * δ ^ 2) ≤ n) :
    estLaw L per n {r | ¬ ∃ e, estimate upd per n obs conf b (estRand zj zh r) = .ok e ∧ |e - thermalMean (atBeta c b) L E f| < δ}
      ≤ ENNReal.ofReal p := by
  have hL := v.L_two
  obtain ⟨c', h1, hv, hv', ht, hJ, hH, hq⟩ := frame_new v a g hc
  have := C127_samples (frameConf conf a g) L s (frame_valid v a g) hb0 u0 zj zh c' h1 hL b hb K
    (fun i hi => by rw [hJ, hH i hi]; exact hK i hi) (fun y => obs (back (atBeta c b) y)) (fun y => f (back (atBeta c b) y)) C
    (fun q => hobs q) (bounded_frame hf) per n hper hn δ p hδ hp hp1 hδC hs
  rw [← mean_frame (c := atBeta c b) (c' := atBeta c' b) (E := E) rfl (fun q => by rw [hE, twin_whole (ht b q) (by omega)]; rfl) f (fun y => f (back (atBeta c b) y)) fun q => rfl] at this
  refine le_trans (le_of_eq ?_) this
  congr 1
  ext r
  obtain ⟨q, h2, h3⟩ := hq (drawsOf r.1)
  rw [Set.mem_ofPred_eq, Set.mem_ofPred_eq, estimate_frame per n (r := estRand zj zh r) (b := b) h2 h3 (fun q => H q _ (ht b q))
    (obs' := fun y => obs (back (atBeta c b) y)) fun q => rfl]

theorem frame_search (v : ValidConf conf L s) (hL : 3 ≤ L) (hj : conf.jvar = 0) (hb0 : conf.beta ≠ 0)
    (hc : SpinChain.new conf 0 u0 zj zh = .ok c) {K : ℝ} (hK : ∀ i < L, len (J c i) + len (frameField s a g i) ≤ K)
    {obs : SpinChain ℝ → R ℝ}
    (H : ∀ x x', x.vars.tau = conf.tau → (∀ i < L, (J x i).x = (J x i).y) → Twin x x' L s (frameField s a g) → Same upd L x x')
    (hE : ∀ x, x.vars.tau = conf.tau → (∀ i < L, (J x i).x = (J x i).y) → E x = ringEnergy L (S x) (J x) (frameField s a g))
    (hobs : ∀ x, WF x L s → x.vars.tau = conf.tau → (∀ i < L, (J x i).x = (J x i).y) → obs x = .ok (E x / L))
    {per n : ℕ} (hper : 1 ≤ per) (hn : 1 ≤ n) {η p : ℝ} (hη : 0 < η) (hη5 : η ≤ 5) (hp : 0 < p) (hp1 : p ≤ 1)
    (hs : 16 * K ^ 2 * samplesWorth 5 K L per * (17 + 8 * ((|conf.beta| / 2 + 5 * K) * L)) / (p * (heatLow 5 K 1 * η) ^ 2) ≤ n)
    {bs : ℝ} (hbs : bs ∈ Set.Icc (0.0001 : ℝ) 5) (zj' zh' : ℕ → ℕ → ℝ) :
    searchLaw L per n {r | ¬ ∃ y, bisect 0.0001 5 (thermalMean (atBeta c bs) L E fun x => E x / L)
        (fun k beta => estimate upd per n obs conf beta (searchRand zj' zh' r k)) 13 = .ok (some y) ∧
        |y.mid - bs| ≤ 0.0005 + η} ≤ ENNReal.ofReal p := by
  obtain ⟨c', h1, hv, hv', ht, hJ, hH, hq⟩ := frame_new v a g hc
  have tau : ∀ b (q : Fin L → V3 ℝ), (withSpins (atBeta c b) q).vars.tau = conf.tau := fun b q => by
    show c.vars.tau = _
    rw [hv]
  have := C129_search (frameConf conf a g) L s (frame_valid v a g) hL hj rfl hb0 u0 zj zh c' h1 K
    (fun i hi => by rw [hJ, hH i hi]; exact hK i hi) per n hper hn η p hη hη5 hp hp1 hs 0.0001 (Or.inr rfl) bs hbs zj' zh'
  have i0 := new_iso v hj hc
  have eE : ∀ b (q : Fin L → V3 ℝ), E (withSpins (atBeta c b) q) = wholeEnergy L (withSpins (atBeta c' b) q) := fun b q => by
    rw [hE _ (tau b q) i0, twin_whole (ht b q) (by omega)]
  rw [energyAt, ← mean_frame (c := atBeta c bs) (c' := atBeta c' bs) (E := E) rfl (eE bs) (fun x => E x / L) _ fun q => by rw [eE]] at this
  refine le_trans (le_of_eq ?_) this
  congr 1
  ext r
  rw [Set.mem_ofPred_eq, Set.mem_ofPred_eq]
  have e : ∀ k beta, estimate upd per n obs conf beta (searchRand zj' zh' r k)
      = estimate SpinChain.metropolis_update per n SpinChain.mc_total_energy (frameConf conf a g) beta (searchRand zj' zh' r k) := by
    intro k beta
    set ρ := searchRand zj' zh' r k
    obtain ⟨c1, g1, w1⟩ := C11_new_wf' conf 0 ρ.u ρ.zj ρ.zh L s v.hsize v.L_lt v.ssize v.s_lt v.hfield v.hs v.jvar v.hvar
    obtain ⟨c2, g2, e1, e2, e3, e4, e5, e6⟩ := frame_new v a g g1
    obtain ⟨q, p1, p2⟩ := e6 ρ.u
    have tau1 : ∀ q : Fin L → V3 ℝ, (withSpins (atBeta c1 beta) q).vars.tau = conf.tau := fun q => by
      show c1.vars.tau = _
      rw [e1]
    have i1 := new_iso v hj g1
    refine estimate_frame per n p1 p2 (fun q => H _ _ (tau1 q) i1 (e3 beta q)) fun q => ?_
    rw [hobs _ (e3 beta q).w (tau1 q) i1, hE _ (tau1 q) i1, twin_total (e3 beta q) (by omega)]
  simp only [e]

end frame

/-! ### The laboratory frame -/

/-- C130: how many updates the laboratory-frame sampler needs (compare C126).  Disorder of the couplings is allowed. -/
theorem C130_lab_updates (conf : Config ℝ) (L s : ℕ) (v : ValidConf conf L s) (hb0 : conf.beta ≠ 0) (num : ℕ) (u0 zj zh : ℕ → ℝ)
    (c : SpinChain ℝ) (hc : SpinChain.new conf num u0 zj zh = .ok c) (b : ℝ) (hb : 0 ≤ b) (K : ℝ)
    (hK : ∀ i < L, len (J c i) + len (labField conf.tau) ≤ K) (f : SpinChain ℝ → ℝ) (C : ℝ) (hf : BoundedBy (atBeta c b) L C f)
    (δ : ℝ) (hδ : 0 < δ) (n : ℕ)
    (hn : 768 * Real.exp (26 * (b * K)) * L * ((|conf.beta| / 2 + b * K) * L + Real.log (1 / δ)) ≤ n) :
    |newMean conf num zj zh L (fun x => expectReal (fun c d => c.metropolis_update_maglab d) L f n (atBeta x b))
        - thermalMean (atBeta c b) L (labEnergy L) f| ≤ C * δ := by
  have hL := v.L_two
  have hv : c.vars.tau = conf.tau := by rw [new_vars v hc]
  refine frame_updates (a := labField conf.tau) (g := zero) v hb0 hc hb (fun i hi => ?_) (fun q x' t => ?_) (fun q => ?_) hf hδ hn
  · rw [← congrFun (lab_frame s conf.tau) i]
    exact hK i hi
  · refine lab_same (s := s) ?_ (by omega)
    rw [show (withSpins (atBeta c b) q).vars.tau = conf.tau from hv, lab_frame s]
    exact t
  · rw [lab_ring, ← lab_frame s, show (withSpins (atBeta c b) q).vars.tau = conf.tau from hv]
    rfl

/-- C130: how many samples an estimate made with the laboratory-frame sampler needs (compare C127). -/
theorem C130_lab_samples (conf : Config ℝ) (L s : ℕ) (v : ValidConf conf L s) (hb0 : conf.beta ≠ 0) (u0 zj zh : ℕ → ℝ)
    (c : SpinChain ℝ) (hc : SpinChain.new conf 0 u0 zj zh = .ok c) (b : ℝ) (hb : 0 ≤ b) (K : ℝ)
    (hK : ∀ i < L, len (J c i) + len (labField conf.tau) ≤ K) (obs : SpinChain ℝ → R ℝ) (f : SpinChain ℝ → ℝ) (C : ℝ)
    (hobs : ∀ q : Fin L → V3 ℝ, obs (withSpins (atBeta c b) q) = .ok (f (withSpins (atBeta c b) q)))
    (hf : BoundedBy (atBeta c b) L C f) (per n : ℕ) (hper : 1 ≤ per) (hn : 1 ≤ n) (δ p : ℝ) (hδ : 0 < δ) (hp : 0 < p) (hp1 : p ≤ 1)
    (hδC : δ ≤ C)
    (hs : C ^ 2 * samplesWorth b K L per * (17 + 8 * ((|conf.beta| / 2 + b * K) * L)) / (p * δ ^ 2) ≤ n) :
    estLaw L per n {r | ¬ ∃ e, estimate SpinChain.metropolis_update_maglab per n obs conf b (estRand zj zh r) = .ok e ∧
        |e - thermalMean (atBeta c b) L (labEnergy L) f| < δ} ≤ ENNReal.ofReal p := by
  have hL := v.L_two
  have hv : c.vars.tau = conf.tau := by rw [new_vars v hc]
  refine frame_samples (a := labField conf.tau) (g := zero) v hb0 hc hb (fun i hi => ?_) (fun q x' t => ?_) (fun q => ?_) hobs hf
    hper hn hδ hp hp1 hδC hs
  · rw [← congrFun (lab_frame s conf.tau) i]
    exact hK i hi
  · refine lab_same (s := s) ?_ (by omega)
    rw [show (withSpins (atBeta c b) q).vars.tau = conf.tau from hv, lab_frame s]
    exact t
  · rw [lab_ring, ← lab_frame s, show (withSpins (atBeta c b) q).vars.tau = conf.tau from hv]
    rfl

/-- C130: the search of `find_beta_maglab`, with `n` samples per estimate, asked for the energy per site of the inverse temperature
`bs` in the laboratory frame, finds `bs` (compare C129). -/
theorem C130_lab_search (conf : Config ℝ) (L s : ℕ) (v : ValidConf conf L s) (hL : 3 ≤ L) (hj : conf.jvar = 0)
    (hb0 : conf.beta ≠ 0) (u0 zj0 zh0 : ℕ → ℝ) (c : SpinChain ℝ) (hc : SpinChain.new conf 0 u0 zj0 zh0 = .ok c) (K : ℝ)
    (hK : ∀ i < L, len (J c i) + len (labField conf.tau) ≤ K) (per n : ℕ) (hper : 1 ≤ per) (hn : 1 ≤ n) (η p : ℝ) (hη : 0 < η)
    (hη5 : η ≤ 5) (hp : 0 < p) (hp1 : p ≤ 1)
    (hs : 16 * K ^ 2 * samplesWorth 5 K L per * (17 + 8 * ((|conf.beta| / 2 + 5 * K) * L)) / (p * (heatLow 5 K 1 * η) ^ 2) ≤ n)
    (bs : ℝ) (hbs : bs ∈ Set.Icc (0.0001 : ℝ) 5) (zj zh : ℕ → ℕ → ℝ) :
    searchLaw L per n {r | ¬ ∃ b, bisect 0.0001 5 (thermalMean (atBeta c bs) L (labEnergy L) fun x => labEnergy L x / L) (fun k beta =>
        estimate SpinChain.metropolis_update_maglab per n SpinChain.mc_system_energy_maglab conf beta (searchRand zj zh r k)) 13
        = .ok (some b) ∧ |b.mid - bs| ≤ 0.0005 + η} ≤ ENNReal.ofReal p := by
  have E : ∀ x : SpinChain ℝ, x.vars.tau = conf.tau → labEnergy L x = ringEnergy L (S x) (J x) (frameField s (labField conf.tau) zero) :=
    fun x h => by rw [lab_ring, ← lab_frame s, h]
  refine frame_search (a := labField conf.tau) (g := zero) v hL hj hb0 hc (fun i hi => ?_) (fun x x' h1 h2 t => ?_)
    (fun x h1 h2 => E x h1) (fun x w h1 h2 => ?_) hper hn hη hη5 hp hp1 hs hbs zj zh
  · rw [← congrFun (lab_frame s conf.tau) i]
    exact hK i hi
  · refine lab_same (s := s) ?_ (by omega)
    rw [h1, lab_frame s]
    exact t
  · rw [mc_system_energy_maglab_eq w (by omega)]
    unfold labEnergy maglabE
    rw [corr_iso h2, corr_iso h2]

/-! ### The rotating frame -/

/-- C130: how many updates the rotating-frame sampler needs, for couplings symmetric about the axis of rotation. -/
theorem C130_rot_updates (conf : Config ℝ) (L s : ℕ) (v : ValidConf conf L s) (hb0 : conf.beta ≠ 0) (num : ℕ) (u0 zj zh : ℕ → ℝ)
    (c : SpinChain ℝ) (hc : SpinChain.new conf num u0 zj zh = .ok c) (hiso : ∀ i < L, (J c i).x = (J c i).y) (b : ℝ) (hb : 0 ≤ b) (K : ℝ)
    (hK : ∀ i < L, len (J c i) + len (rotField s conf.tau i) ≤ K) (f : SpinChain ℝ → ℝ) (C : ℝ) (hf : BoundedBy (atBeta c b) L C f)
    (δ : ℝ) (hδ : 0 < δ) (n : ℕ)
    (hn : 768 * Real.exp (26 * (b * K)) * L * ((|conf.beta| / 2 + b * K) * L + Real.log (1 / δ)) ≤ n) :
    |newMean conf num zj zh L (fun x => expectReal (fun c d => c.metropolis_update_rot_magnus d) L f n (atBeta x b))
        - thermalMean (atBeta c b) L (frameEnergy L s) f| ≤ C * δ := by
  have hv : c.vars.tau = conf.tau := by rw [new_vars v hc]
  refine frame_updates (a := ⟨0, 0, -(2 * Real.pi / conf.tau)⟩) (g := ⟨1, 0, 0⟩) v hb0 hc hb (fun i hi => ?_) (fun q x' t => ?_)
    (fun q => ?_) hf hδ hn
  · rw [← rot_frame]
    exact hK i hi
  · refine rot_same (s := s) ?_ v.L_two hiso
    rw [show (withSpins (atBeta c b) q).vars.tau = conf.tau from hv, rot_frame s]
    exact t
  · unfold frameEnergy
    rw [rot_ring (withSpins (atBeta c b) q) hiso, ← rot_frame s, show (withSpins (atBeta c b) q).vars.tau = conf.tau from hv]
    rfl

/-- C130: how many samples an estimate made with the rotating-frame sampler needs. -/
theorem C130_rot_samples (conf : Config ℝ) (L s : ℕ) (v : ValidConf conf L s) (hb0 : conf.beta ≠ 0) (u0 zj zh : ℕ → ℝ)
    (c : SpinChain ℝ) (hc : SpinChain.new conf 0 u0 zj zh = .ok c) (hiso : ∀ i < L, (J c i).x = (J c i).y) (b : ℝ) (hb : 0 ≤ b) (K : ℝ)
    (hK : ∀ i < L, len (J c i) + len (rotField s conf.tau i) ≤ K) (obs : SpinChain ℝ → R ℝ) (f : SpinChain ℝ → ℝ) (C : ℝ)
    (hobs : ∀ q : Fin L → V3 ℝ, obs (withSpins (atBeta c b) q) = .ok (f (withSpins (atBeta c b) q)))
    (hf : BoundedBy (atBeta c b) L C f) (per n : ℕ) (hper : 1 ≤ per) (hn : 1 ≤ n) (δ p : ℝ) (hδ : 0 < δ) (hp : 0 < p) (hp1 : p ≤ 1)
    (hδC : δ ≤ C)
    (hs : C ^ 2 * samplesWorth b K L per * (17 + 8 * ((|conf.beta| / 2 + b * K) * L)) / (p * δ ^ 2) ≤ n) :
    estLaw L per n {r | ¬ ∃ e, estimate SpinChain.metropolis_update_rot_magnus per n obs conf b (estRand zj zh r) = .ok e ∧
        |e - thermalMean (atBeta c b) L (frameEnergy L s) f| < δ} ≤ ENNReal.ofReal p := by
  have hv : c.vars.tau = conf.tau := by rw [new_vars v hc]
  refine frame_samples (a := ⟨0, 0, -(2 * Real.pi / conf.tau)⟩) (g := ⟨1, 0, 0⟩) v hb0 hc hb (fun i hi => ?_) (fun q x' t => ?_)
    (fun q => ?_) hobs hf hper hn hδ hp hp1 hδC hs
  · rw [← rot_frame]
    exact hK i hi
  · refine rot_same (s := s) ?_ v.L_two hiso
    rw [show (withSpins (atBeta c b) q).vars.tau = conf.tau from hv, rot_frame s]
    exact t
  · unfold frameEnergy
    rw [rot_ring (withSpins (atBeta c b) q) hiso, ← rot_frame s, show (withSpins (atBeta c b) q).vars.tau = conf.tau from hv]
    rfl

/-- C130: the search of `find_beta_rot`, with `n` samples per estimate, asked for the energy per site of the inverse temperature `bs`
in the rotating frame, finds `bs`. -/
theorem C130_rot_search (conf : Config ℝ) (L s : ℕ) (v : ValidConf conf L s) (hL : 3 ≤ L) (hsL : s ≤ L) (hj : conf.jvar = 0)
    (hb0 : conf.beta ≠ 0) (u0 zj0 zh0 : ℕ → ℝ) (c : SpinChain ℝ) (hc : SpinChain.new conf 0 u0 zj0 zh0 = .ok c) (K : ℝ)
    (hK : ∀ i < L, len (J c i) + len (rotField s conf.tau i) ≤ K) (per n : ℕ) (hper : 1 ≤ per) (hn : 1 ≤ n) (η p : ℝ) (hη : 0 < η)
    (hη5 : η ≤ 5) (hp : 0 < p) (hp1 : p ≤ 1)
    (hs : 16 * K ^ 2 * samplesWorth 5 K L per * (17 + 8 * ((|conf.beta| / 2 + 5 * K) * L)) / (p * (heatLow 5 K 1 * η) ^ 2) ≤ n)
    (bs : ℝ) (hbs : bs ∈ Set.Icc (0.0001 : ℝ) 5) (zj zh : ℕ → ℕ → ℝ) :
    searchLaw L per n {r | ¬ ∃ b, bisect 0.0001 5 (thermalMean (atBeta c bs) L (frameEnergy L s) fun x => frameEnergy L s x / L)
        (fun k beta =>
        estimate SpinChain.metropolis_update_rot_magnus per n SpinChain.mc_system_energy_rot conf beta (searchRand zj zh r k)) 13
        = .ok (some b) ∧ |b.mid - bs| ≤ 0.0005 + η} ≤ ENNReal.ofReal p := by
  refine frame_search (a := ⟨0, 0, -(2 * Real.pi / conf.tau)⟩) (g := ⟨1, 0, 0⟩) v hL hj hb0 hc (fun i hi => ?_)
    (fun x x' h1 h2 t => ?_) (fun x h1 h2 => ?_) (fun x w h1 h2 => ?_) hper hn hη hη5 hp hp1 hs hbs zj zh
  · rw [← rot_frame]
    exact hK i hi
  · refine rot_same (s := s) ?_ (by omega) h2
    rw [h1, rot_frame s]
    exact t
  · unfold frameEnergy
    rw [rot_ring _ h2, ← rot_frame s, h1]
  · rw [mc_system_energy_rot_eq w (by omega) hsL]
    unfold frameEnergy
    rw [rot_ring _ h2, rot_ring _ h2]

/-! ### The Langevin chain -/

/-- C130: how many updates the thermalisation of the Langevin chain needs. -/
theorem C130_langevin_updates (conf : Config ℝ) (L s : ℕ) (v : ValidConf conf L s) (hb0 : conf.beta ≠ 0) (num : ℕ) (u0 zj zh : ℕ → ℝ)
    (c : SpinChain ℝ) (hc : SpinChain.new conf num u0 zj zh = .ok c) (gamma b : ℝ) (hb : 0 ≤ b) (K : ℝ)
    (hK : ∀ i < L, len (J c i) ≤ K) (f : SpinChain ℝ → ℝ) (C : ℝ) (hf : BoundedBy (atBeta c b) L C f) (δ : ℝ) (hδ : 0 < δ) (n : ℕ)
    (hn : 768 * Real.exp (26 * (b * K)) * L * ((|conf.beta| / 2 + b * K) * L + Real.log (1 / δ)) ≤ n) :
    |newMean conf num zj zh L (fun x => expectReal (langevinUpd gamma) L f n (atBeta x b))
        - thermalMean (atBeta c b) L (bareEnergy L) f| ≤ C * δ := by
  have hL := v.L_two
  refine frame_updates (a := zero) (g := zero) v hb0 hc hb (fun i hi => ?_) (fun q x' t => ?_) (fun q => ?_) hf hδ hn
  · rw [← congrFun (bare_frame s) i]
    simpa [len, zero, dot] using hK i hi
  · refine langevin_same (s := s) gamma ?_ (by omega)
    rw [bare_frame s]
    exact t
  · rw [← bare_frame s]
    rfl

/-- non-vacuity: the default configuration with inverse temperature one and without disorder of the couplings, in all three frames -/
example : (∃ c : SpinChain ℝ, WF c 4 2 ∧ (∀ i < 4, (J c i).x = (J c i).y) ∧ H0 c 0 ≠ rotField 2 c.vars.tau 0 ∧ H0 c 0 ≠ labField c.vars.tau) ∧
    ∃ (conf : Config ℝ), ValidConf conf 512 8 ∧ conf.tau ≠ 0 ∧ conf.jvar = 0 ∧ conf.beta ≠ 0 ∧
    ∀ u0 zj0 zh0 : ℕ → ℝ, ∃ c K, SpinChain.new conf 0 u0 zj0 zh0 = .ok c ∧ (∀ i < 512, (J c i).x = (J c i).y) ∧
      (∀ i < 512, len (J c i) + len (rotField 8 conf.tau i) ≤ K) ∧ (∀ i < 512, len (J c i) + len (labField conf.tau) ≤ K) ∧
      (∀ i < 512, len (J c i) ≤ K) ∧
      ∃ n : ℕ, 1 ≤ n ∧ 16 * K ^ 2 * samplesWorth 5 K 512 10000 * (17 + 8 * ((|conf.beta| / 2 + 5 * K) * (512 : ℕ)))
        / (1 / 100 * (heatLow 5 K 1 * (1 / 10)) ^ 2) ≤ n := by
  constructor
  · refine ⟨{ demo with j_couple := [⟨1, 1, 1 / 2⟩, ⟨9 / 10, 9 / 10, 1 / 2⟩, ⟨1, 1, 1 / 2⟩, ⟨1, 1, 3 / 5⟩] },
      ⟨demo_wf.hsize, demo_wf.ssize, demo_wf.L_lt, demo_wf.s_lt, demo_wf.spins, rfl, demo_wf.h, demo_wf.hs⟩, fun i hi => ?_,
      fun h => ?_, fun h => ?_⟩
    · interval_cases i <;> norm_num [J]
    · have := congrArg V3.x h
      norm_num [H0, demo, rotField] at this
    · have := congrArg V3.x h
      norm_num [H0, demo, labField] at this
  · let conf : Config ℝ := { (Config.default : Config ℝ) with
      beta := 1
      jvar := 0 }
    have v : ValidConf conf 512 8 := by constructor <;> first | rfl | norm_num
    refine ⟨conf, v, ?_, rfl, one_ne_zero, fun u0 zj0 zh0 => ?_⟩
    · show (Config.default : Config ℝ).tau ≠ 0
      norm_num [Config.default]
    obtain ⟨c, h, w⟩ := C11_new_wf' conf 0 u0 zj0 zh0 512 8 v.hsize v.L_lt v.ssize v.s_lt v.hfield v.hs v.jvar v.hvar
    set K := ∑ i ∈ range 512, (len (J c i) + len (rotField 8 conf.tau i) + len (labField conf.tau)) with hK
    obtain ⟨n, hn⟩ := exists_nat_ge (16 * K ^ 2 * samplesWorth 5 K 512 10000 * (17 + 8 * ((|conf.beta| / 2 + 5 * K)
      * (512 : ℕ))) / (1 / 100 * (heatLow 5 K 1 * (1 / 10)) ^ 2))
    have hb : ∀ i < 512, len (J c i) + len (rotField 8 conf.tau i) + len (labField conf.tau) ≤ K := fun i hi =>
      single_le_sum (f := fun i => len (J c i) + len (rotField 8 conf.tau i) + len (labField conf.tau))
        (fun j _ => add_nonneg (add_nonneg (Real.sqrt_nonneg _) (Real.sqrt_nonneg _)) (Real.sqrt_nonneg _)) (mem_range.2 hi)
    refine ⟨c, K, h, new_iso v rfl h, fun i hi => ?_, fun i hi => ?_, fun i hi => ?_, n + 1, by omega, hn.trans (by push_cast; linarith)⟩ <;>
      linarith [hb i hi, len_nonneg (J c i), len_nonneg (rotField 8 conf.tau i), len_nonneg (labField conf.tau)]

end

end Verif.Props
