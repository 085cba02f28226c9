/-
C110: symmetries of the thermal state sampled by `metropolis_update` (/repo/src/spinchain.rs).
-/
import Verif.Props.Ergodic
import Verif.Lemmas.EdgeNull
import Verif.Props.Thermal

namespace Verif.Props

open Spec
open Finset hiding expect
open MeasureTheory Thermal Markov
open scoped ENNReal

/-- the chain with every spin mapped, each by its own map -/
def mapSpins (O : ℕ → V3 ℝ → V3 ℝ) (c : SpinChain ℝ) : SpinChain ℝ :=
  { c with spins := c.spins.mapIdx fun i x => ⟨O i x.dir⟩ }

theorem map_withSpins {L : ℕ} (O : ℕ → V3 ℝ → V3 ℝ) (c : SpinChain ℝ) (v : Fin L → V3 ℝ) :
    mapSpins O (withSpins c v) = withSpins c fun i => O i (v i) := by
  unfold mapSpins withSpins
  congr 1
  apply List.ext_getElem <;> simp

theorem orth_pres {O : V3 ℝ → V3 ℝ} (h : Orthogonal O) : MeasurePreserving O sphereMeasure sphereMeasure :=
  ⟨h.measurable, Measure.ext_of_lintegral _ fun f hf => by
    rw [lintegral_map hf h.measurable, sphere_invariant h hf]⟩

theorem integral_mapped {L : ℕ} {O : ℕ → V3 ℝ → V3 ℝ} (hO : ∀ i < L, Orthogonal (O i)) {g : (Fin L → V3 ℝ) → ℝ}
    (hg : Measurable g) :
    ∫ v, g (fun i => O i (v i)) ∂(Measure.pi fun _ : Fin L => sphereMeasure)
      = ∫ v, g v ∂(Measure.pi fun _ : Fin L => sphereMeasure) := by
  have mp : MeasurePreserving (fun (v : Fin L → V3 ℝ) (i : Fin L) => O i (v i)) (Measure.pi fun _ => sphereMeasure)
      (Measure.pi fun _ => sphereMeasure) :=
    measurePreserving_pi _ _ fun i => orth_pres (hO i i.2)
  have e := integral_map (μ := Measure.pi fun _ : Fin L => sphereMeasure) mp.measurable.aemeasurable (f := g)
    hg.aestronglyMeasurable
  rw [mp.map_eq] at e
  exact e.symm

/-- C110, symmetry: if rotations or reflections of the spins, each site its own, turn the energy of the chain `c'`
into that of `c`, at the same temperature, then the thermal mean of any observable of `c'` is that of the observable
of the mapped spins of `c`. -/
theorem C110_symmetry (c c' : SpinChain ℝ) (L : ℕ) (E E' f f' : SpinChain ℝ → ℝ) (O : ℕ → V3 ℝ → V3 ℝ)
    (hO : ∀ i < L, Orthogonal (O i)) (hb : c'.vars.beta = c.vars.beta)
    (hE : ∀ v : Fin L → V3 ℝ, E' (mapSpins O (withSpins c' v)) = E (withSpins c v))
    (hf : ∀ v : Fin L → V3 ℝ, f' (mapSpins O (withSpins c' v)) = f (withSpins c v))
    (mE : Measurable fun v : Fin L → V3 ℝ => E' (withSpins c' v))
    (mf : Measurable fun v : Fin L → V3 ℝ => f' (withSpins c' v)) :
    thermalMean c' L E' f' = thermalMean c L E f := by
  unfold thermalMean
  have mw : Measurable fun v : Fin L → V3 ℝ => Real.exp (-(c'.vars.beta * E' (withSpins c' v))) :=
    (mE.const_mul _).neg.exp
  have e1 := integral_mapped hO (mw.mul mf)
  have e2 := integral_mapped hO mw
  simp only [map_withSpins] at hE hf
  simp only [Pi.mul_apply, hE, hf, hb] at e1 e2
  rw [e1, e2, hb]

/-- the component of a vector along the axis x (`0`), y (`1`) or z (`2`) -/
def partA (a : Fin 3) (v : V3 ℝ) : ℝ := match a with
  | 0 => v.x
  | 1 => v.y
  | 2 => v.z

/-- the reflection that reverses this component -/
def mirrorAxis (a : Fin 3) (v : V3 ℝ) : V3 ℝ := match a with
  | 0 => ⟨-v.x, v.y, v.z⟩
  | 1 => ⟨v.x, -v.y, v.z⟩
  | 2 => ⟨v.x, v.y, -v.z⟩

theorem mirrorAxis_orthogonal (a : Fin 3) : Orthogonal (mirrorAxis a) := by
  fin_cases a
  · exact axisX.orth
  · exact axisY.orth
  · exact axisZ.orth

theorem measurable_partA (a : Fin 3) : Measurable (partA a) := by
  fin_cases a
  · exact measurable_x
  · exact measurable_y
  · exact measurable_z

theorem partA_mirror (a : Fin 3) (v : V3 ℝ) : partA a (mirrorAxis a v) = -partA a v := by
  fin_cases a <;> rfl

theorem partA_mirror_ne {a b : Fin 3} (h : b ≠ a) (v : V3 ℝ) : partA b (mirrorAxis a v) = partA b v := by
  fin_cases a <;> fin_cases b <;> first | rfl | exact absurd rfl h

theorem comp_le_lenA (v : V3 ℝ) : |v.x| ≤ len v ∧ |v.y| ≤ len v ∧ |v.z| ≤ len v := by
  refine ⟨Real.abs_le_sqrt ?_, Real.abs_le_sqrt ?_, Real.abs_le_sqrt ?_⟩ <;> simp only [dot] <;>
    nlinarith [sq_nonneg v.x, sq_nonneg v.y, sq_nonneg v.z]

section
variable {c : SpinChain ℝ} {L s : ℕ}

theorem whole_eq_ring (w : WF c L s) (hL : 1 ≤ L) : wholeEnergy L c = ringEnergy L (S c) (J c) (H0 c) := by
  have hL' : (L : ℝ) ≠ 0 := by positivity
  unfold wholeEnergy
  rw [mc_total_energy_eq w hL]
  show (L : ℝ) * (ringEnergy L (S c) (J c) (H0 c) / L) = _
  field_simp

theorem S_map {O : ℕ → V3 ℝ → V3 ℝ} {i : ℕ} (w : WF c L s) (hi : i < L) : S (mapSpins O c) i = O i (S c i) := by
  have : i < c.spins.length := by rw [w.spins]; exact hi
  simp [S, mapSpins, this]

theorem map_wf (w : WF c L s) (O : ℕ → V3 ℝ → V3 ℝ) : WF (mapSpins O c) L s :=
  ⟨w.hsize, w.ssize, w.L_lt, w.s_lt, by simpa [mapSpins] using w.spins, w.j, w.h, w.hs⟩

/-- the energy of a chain with mapped spins, couplings and fields -/
theorem whole_map {c' : SpinChain ℝ} {s' : ℕ} {O : ℕ → V3 ℝ → V3 ℝ} (w : WF c L s) (w' : WF c' L s') (hL : 1 ≤ L)
    (hS : ∀ i < L, S c' i = S c i)
    (hJ : ∀ i < L, ∀ x y, dot (O i x) (had (J c' i) (O ((i + 1) % L) y)) = dot x (had (J c i) y))
    (hH : ∀ i < L, ∀ x, dot (H0 c' i) (O i x) = dot (H0 c i) x) :
    wholeEnergy L (mapSpins O c') = wholeEnergy L c := by
  rw [whole_eq_ring (map_wf w' O) hL, whole_eq_ring w hL]
  unfold ringEnergy
  refine sum_congr rfl fun i hi => ?_
  have hi := mem_range.1 hi
  have hn : (i + 1) % L < L := Nat.mod_lt _ (by omega)
  rw [S_map w' hi, S_map w' hn, hS i hi, hS _ hn]
  show -dot _ (had (J c' i) _) + dot (H0 c' i) _ = _
  rw [hJ i hi, hH i hi]

theorem whole_mirrorAxis (w : WF c L s) (hL : 1 ≤ L) {a : Fin 3} (h : ∀ i < L, partA a (H0 c i) = 0) :
    wholeEnergy L (mapSpins (fun _ => mirrorAxis a) c) = wholeEnergy L c := by
  refine whole_map w w hL (fun _ _ => rfl) (fun i hi x y => ?_) fun i hi x => ?_
  · fin_cases a <;> simp only [mirrorAxis, dot, had] <;> ring
  · have := h i hi
    fin_cases a <;> simp only [mirrorAxis, partA, dot] at * <;> rw [this] <;> ring

/-- C110, reflections: if the fields have no component along an axis, the thermal mean of every observable that
changes its sign when all spins are reflected at the plane normal to this axis vanishes.  The fields along the other
axes and the couplings are arbitrary. -/
theorem C110_odd (w : WF c L s) (hL : 2 ≤ L) (a : Fin 3) (h : ∀ i < L, partA a (H0 c i) = 0) (f : SpinChain ℝ → ℝ)
    (mf : Measurable fun v : Fin L → V3 ℝ => f (withSpins c v))
    (hf : ∀ v : Fin L → V3 ℝ, f (mapSpins (fun _ => mirrorAxis a) (withSpins c v)) = -f (withSpins c v)) :
    thermalMean c L (wholeEnergy L) f = 0 := by
  have e := C110_symmetry c c L (wholeEnergy L) (wholeEnergy L) (fun c => -f c) f (fun _ => mirrorAxis a)
    (fun _ _ => mirrorAxis_orthogonal a) rfl (fun v => whole_mirrorAxis (withSpins_wf w v) (by omega) h) hf
    (whole_tame w hL).meas mf
  have e2 : thermalMean c L (wholeEnergy L) (fun c => -f c) = -thermalMean c L (wholeEnergy L) f := by
    unfold thermalMean
    simp only [mul_neg, integral_neg, neg_div]
  rw [e2] at e
  linarith

theorem meas_partA (c : SpinChain ℝ) (a : Fin 3) (i : ℕ) :
    Measurable fun v : Fin L → V3 ℝ => partA a (S (withSpins c v) i) := by
  obtain ⟨h1, h2, h3⟩ := tame_S (L := L) c i
  fin_cases a
  · exact h1.meas
  · exact h2.meas
  · exact h3.meas

/-- C110, spins: if the fields have no component along an axis, the thermal means of the spin components along this
axis vanish, and so do their correlations with components along other axes. -/
theorem C110_spins (w : WF c L s) (hL : 2 ≤ L) (a : Fin 3) (h : ∀ i < L, partA a (H0 c i) = 0) (i j : ℕ) (hi : i < L)
    (hj : j < L) :
    thermalMean c L (wholeEnergy L) (fun c => partA a (S c i)) = 0 ∧
      ∀ b ≠ a, thermalMean c L (wholeEnergy L) (fun c => partA a (S c i) * partA b (S c j)) = 0 := by
  constructor
  · refine C110_odd w hL a h _ (meas_partA c a i) fun v => ?_
    rw [S_map (withSpins_wf w v) hi, partA_mirror]
  · intro b hb
    refine C110_odd w hL a h _ ((meas_partA c a i).mul (meas_partA c b j)) fun v => ?_
    rw [S_map (withSpins_wf w v) hi, S_map (withSpins_wf w v) hj, partA_mirror, partA_mirror_ne hb, neg_mul]

theorem cycle_orthogonal : Orthogonal fun v : V3 ℝ => ⟨v.y, v.z, v.x⟩ :=
  ⟨fun _ _ => rfl, fun _ _ => rfl, fun a => by
    unfold len
    congr 1
    simp only [dot]
    ring⟩

/-- C110, isotropic chains: with couplings that are the same along all axes, and no field, the thermal correlations
are the same along all axes. -/
theorem C110_isotropic (w : WF c L s) (hL : 2 ≤ L) (hJ : ∀ i < L, (J c i).x = (J c i).y ∧ (J c i).y = (J c i).z)
    (hH : ∀ i < L, H0 c i = zero) (a b : Fin 3) (i j : ℕ) (hi : i < L) (hj : j < L) :
    thermalMean c L (wholeEnergy L) (fun c => partA a (S c i) * partA a (S c j))
      = thermalMean c L (wholeEnergy L) (fun c => partA b (S c i) * partA b (S c j)) := by
  have key : ∀ a b : Fin 3, (∀ v : V3 ℝ, partA a (⟨v.y, v.z, v.x⟩ : V3 ℝ) = partA b v) →
      thermalMean c L (wholeEnergy L) (fun c => partA a (S c i) * partA a (S c j))
        = thermalMean c L (wholeEnergy L) (fun c => partA b (S c i) * partA b (S c j)) := by
    intro a b hab
    refine C110_symmetry c c L (wholeEnergy L) (wholeEnergy L) _ _ (fun _ v => ⟨v.y, v.z, v.x⟩)
      (fun _ _ => cycle_orthogonal) rfl (fun v => ?_) (fun v => ?_) (whole_tame w hL).meas
      ((meas_partA c a i).mul (meas_partA c a j))
    · refine whole_map (withSpins_wf w v) (withSpins_wf w v) (by omega) (fun _ _ => rfl) (fun i hi x y => ?_) fun i hi x => ?_
      · show dot _ (had (J c i) _) = dot _ (had (J c i) _)
        simp only [dot, had, (hJ i hi).1, (hJ i hi).2]
        ring
      · show dot (H0 c i) _ = dot (H0 c i) _
        rw [hH i hi]
        simp only [dot, zero]
        ring
    · rw [S_map (withSpins_wf w v) hi, S_map (withSpins_wf w v) hj, hab, hab]
  have e1 := key 0 1 fun _ => rfl
  have e2 := key 1 2 fun _ => rfl
  have e3 := e1.trans e2
  fin_cases a <;> fin_cases b <;> first | rfl | exact e1 | exact e2 | exact e1.symm | exact e2.symm | exact e3 | exact e3.symm

theorem sign_orthogonal {r : ℝ} (h : r = 1 ∨ r = -1) : Orthogonal fun v => smul r v := by
  refine ⟨fun a b => ?_, fun q a => ?_, fun a => ?_⟩
  · ext <;> simp only [add, smul] <;> ring
  · ext <;> simp only [smul] <;> ring
  · unfold len
    congr 1
    rcases h with rfl | rfl <;> simp only [dot, smul] <;> ring

/-- C110, signs: reversing the spins of some sites, with the couplings of the bonds at whose ends only one spin is
reversed and with the fields of the reversed sites, changes no thermal energy: the energy densities, as functions of
the inverse temperature, are the same. -/
theorem C110_signs (c c' : SpinChain ℝ) (L s s' : ℕ) (w : WF c L s) (w' : WF c' L s') (hL : 2 ≤ L) (σ : ℕ → ℝ)
    (hσ : ∀ i < L, σ i = 1 ∨ σ i = -1) (hJ : ∀ i < L, J c' i = smul (σ i * σ ((i + 1) % L)) (J c i))
    (hH : ∀ i < L, H0 c' i = smul (σ i) (H0 c i)) : energyAt c' L = energyAt c L := by
  funext beta
  have wb : WF (atBeta c beta) L s := ⟨w.hsize, w.ssize, w.L_lt, w.s_lt, w.spins, w.j, w.h, w.hs⟩
  have wb' : WF (atBeta c' beta) L s' := ⟨w'.hsize, w'.ssize, w'.L_lt, w'.s_lt, w'.spins, w'.j, w'.h, w'.hs⟩
  have hq : ∀ i < L, σ i * σ i = 1 := fun i hi => by rcases hσ i hi with h | h <;> rw [h] <;> norm_num
  have hE : ∀ v : Fin L → V3 ℝ, wholeEnergy L (mapSpins (fun i x => smul (σ i) x) (withSpins (atBeta c' beta) v))
      = wholeEnergy L (withSpins (atBeta c beta) v) := by
    intro v
    refine whole_map (withSpins_wf wb v) (withSpins_wf wb' v) (by omega) (fun i _ => ?_) (fun i hi x y => ?_) fun i hi x => ?_
    · rw [S_withSpins, S_withSpins]
    · have h1 := hq i hi
      have h2 := hq ((i + 1) % L) (Nat.mod_lt _ (by omega))
      show dot _ (had (J c' i) _) = dot _ (had (J c i) _)
      rw [hJ i hi]
      have : dot (smul (σ i) x) (had (smul (σ i * σ ((i + 1) % L)) (J c i)) (smul (σ ((i + 1) % L)) y))
          = (σ i * σ i) * (σ ((i + 1) % L) * σ ((i + 1) % L)) * dot x (had (J c i) y) := by
        simp only [dot, had, smul]
        ring
      rw [this, h1, h2]
      ring
    · show dot (H0 c' i) _ = dot (H0 c i) _
      rw [hH i hi]
      have : dot (smul (σ i) (H0 c i)) (smul (σ i) x) = (σ i * σ i) * dot (H0 c i) x := by
        simp only [dot, smul]
        ring
      rw [this, hq i hi, one_mul]
  exact C110_symmetry (atBeta c beta) (atBeta c' beta) L _ _ _ _ (fun i x => smul (σ i) x)
    (fun i hi => sign_orthogonal (hσ i hi)) rfl hE (fun v => by rw [hE]) (whole_tame wb' hL).meas
    ((whole_tame wb' hL).meas.div_const _)

/-- C110, ferromagnet and antiferromagnet: on a ring of even length without fields, reversing the sign of all
couplings changes no thermal energy density. -/
theorem C110_antiferromagnet (c c' : SpinChain ℝ) (L s s' : ℕ) (w : WF c L s) (w' : WF c' L s') (hL : 2 ≤ L)
    (he : L % 2 = 0) (hJ : ∀ i < L, J c' i = smul (-1) (J c i)) (hH : ∀ i < L, H0 c i = zero)
    (hH' : ∀ i < L, H0 c' i = zero) : energyAt c' L = energyAt c L := by
  refine C110_signs c c' L s s' w w' hL (fun i => if i % 2 = 0 then 1 else -1) (fun i _ => ?_) (fun i hi => ?_) fun i hi => ?_
  · by_cases h : i % 2 = 0 <;> simp [h]
  · rw [hJ i hi]
    congr 1
    have h2 : (i + 1) % L % 2 = (i + 1) % 2 := Nat.mod_mod_of_dvd _ (Nat.dvd_of_mod_eq_zero he)
    simp only [h2]
    rcases Nat.mod_two_eq_zero_or_one i with h | h
    · have : (i + 1) % 2 = 1 := by omega
      simp [h, this]
    · have : (i + 1) % 2 = 0 := by omega
      simp [h, this]
  · rw [hH i hi, hH' i hi]
    simp [smul, zero]

/-- C110, what the program finds: if the fields have no component along an axis, the average over `n` samples of the
total magnetisation along this axis is `δ` or more, or the loop panics, with probability at most `K L² / (n δ²)`, from
any unit spins and for all inverse temperatures up to `bmax`. -/
theorem C110_sampled (w : WF c L s) (hL : 2 ≤ L) (a : Fin 3) (h : ∀ i < L, partA a (H0 c i) = 0) (bmax : ℝ) :
    ∃ K : ℝ, 0 < K ∧ ∀ beta : ℝ, 0 ≤ beta → beta ≤ bmax →
    ∀ v : Fin L → V3 ℝ, (∀ i, len (v i) = 1) → ∀ per n : ℕ, 1 ≤ per → 1 ≤ n → ∀ δ : ℝ, 0 < δ →
    blockLaw L per n {w | ¬ ∃ c' xs,
        sampleLoop (fun c d => c.metropolis_update d) per n (fun c => do return partA a (← c.m_tot)) (blockDraws w)
          (withSpins (atBeta c beta) v) = .ok (c', xs) ∧ |meanOf xs n| < δ}
      ≤ ENNReal.ofReal (K * L ^ 2 / (n * δ ^ 2)) := by
  obtain ⟨K, hK, hp⟩ := C92_probability _ _ c L (C92_mean_square c L s w hL) bmax
  refine ⟨K, hK, fun beta h0 h1 v hv per n hper hn δ hδ => ?_⟩
  have wb : WF (atBeta c beta) L s := ⟨w.hsize, w.ssize, w.L_lt, w.s_lt, w.spins, w.j, w.h, w.hs⟩
  have mf : Measurable fun v : Fin L → V3 ℝ => ∑ i ∈ range L, partA a (S (withSpins (atBeta c beta) v) i) :=
    Finset.measurable_fun_sum _ fun i _ => meas_partA _ a i
  have := hp beta h0 h1 (fun c => ∑ i ∈ range L, partA a (S c i)) (fun c => do return partA a (← c.m_tot)) L
    (fun v => by
      rw [m_tot_eq (withSpins_wf wb v)]
      fin_cases a <;> rfl) mf
    (fun v hv => by
      refine (abs_sum_le_sum_abs _ _).trans ?_
      have : ∀ i ∈ range L, |partA a (S (withSpins (atBeta c beta) v) i)| ≤ 1 := by
        intro i hi
        rw [S_withSpins, dif_pos (mem_range.1 hi)]
        have hl := hv ⟨i, mem_range.1 hi⟩
        have := comp_le_lenA (v ⟨i, mem_range.1 hi⟩)
        rw [hl] at this
        fin_cases a
        · exact this.1
        · exact this.2.1
        · exact this.2.2
      refine (sum_le_sum this).trans ?_
      simp) v hv per n hper hn δ hδ
  rw [C110_odd wb hL a h _ mf fun v => by
    rw [← sum_neg_distrib]
    exact sum_congr rfl fun i hi => by rw [S_map (withSpins_wf wb v) (mem_range.1 hi), partA_mirror]] at this
  simpa only [sub_zero] using this

/-- the energy of the spins in the static fields -/
def fieldEnergy (L : ℕ) (c : SpinChain ℝ) : ℝ := ∑ i ∈ range L, dot (H0 c i) (S c i)

theorem field_tame (c : SpinChain ℝ) (L : ℕ) : Tame fun v : Fin L → V3 ℝ => fieldEnergy L (withSpins c v) := by
  unfold fieldEnergy
  refine Tame.sum fun i => ?_
  obtain ⟨h1, h2, h3⟩ := tame_S (L := L) c i
  exact (((Tame.const (H0 c i).x).mul h1).add ((Tame.const (H0 c i).y).mul h2)).add ((Tame.const (H0 c i).z).mul h3)

theorem whole_reverse (w : WF c L s) (hL : 1 ≤ L) :
    wholeEnergy L (mapSpins (fun _ x => smul (-1) x) c) = wholeEnergy L c - 2 * fieldEnergy L c := by
  rw [whole_eq_ring (map_wf w _) hL, whole_eq_ring w hL]
  unfold ringEnergy fieldEnergy
  rw [mul_sum, ← sum_sub_distrib]
  refine sum_congr rfl fun i hi => ?_
  have hi := mem_range.1 hi
  have hn : (i + 1) % L < L := Nat.mod_lt _ (by omega)
  rw [S_map w hi, S_map w hn]
  show -dot _ (had (J c i) _) + dot (H0 c i) _ = _
  simp only [dot, had, smul]
  ring

theorem field_reverse (w : WF c L s) : fieldEnergy L (mapSpins (fun _ x => smul (-1) x) c) = -fieldEnergy L c := by
  unfold fieldEnergy
  rw [← sum_neg_distrib]
  refine sum_congr rfl fun i hi => ?_
  rw [S_map w (mem_range.1 hi)]
  show dot (H0 c i) _ = _
  simp only [dot, smul]
  ring

/-- the field energy does not vanish almost everywhere -/
theorem field_ne (hne : ∃ i < L, H0 c i ≠ zero) :
    ¬ ∀ᵐ v ∂(Measure.pi fun _ : Fin L => sphereMeasure), fieldEnergy L (withSpins c v) = 0 := by
  intro h
  obtain ⟨i, hi, hx⟩ := hne
  have ha : ∃ a : Axis, a.co (H0 c i) ≠ 0 := by
    by_contra hc
    push Not at hc
    exact hx (by ext; exacts [hc axisX, hc axisY, hc axisZ])
  obtain ⟨a, ha⟩ := ha
  have h2 := (flip_preserving a ⟨i, hi⟩).quasiMeasurePreserving.ae h
  have h3 := (h.and (h2.and (site_ae a ⟨i, hi⟩))).exists
  obtain ⟨v, e1, e2, e3⟩ := h3
  have : fieldEnergy L (withSpins c v)
      - fieldEnergy L (withSpins c (Function.update v ⟨i, hi⟩ (a.fl (v ⟨i, hi⟩)))) = 2 * (a.co (H0 c i) * a.co (v ⟨i, hi⟩)) := by
    rw [← a.dots]
    unfold fieldEnergy
    rw [← sum_sub_distrib, sum_eq_single i]
    · show dot (H0 c i) _ - dot (H0 c i) _ = _
      rw [S_withSpins, S_withSpins, dif_pos hi, dif_pos hi, Function.update_self]
    · intro j hj hji
      have hj := mem_range.1 hj
      rw [S_withSpins, S_withSpins, dif_pos hj, dif_pos hj, Function.update_of_ne (by
        intro hc
        exact hji (congrArg Fin.val hc))]
      exact sub_self _
    · intro hc
      exact absurd (mem_range.2 hi) hc
  rw [e1, e2, sub_zero] at this
  have := mul_ne_zero two_ne_zero (mul_ne_zero ha e3)
  simp_all

theorem sinh_neg (b x : ℝ) (hb : 0 < b) : x * (Real.exp (-(b * x)) - Real.exp (b * x)) ≤ 0 ∧
    (x * (Real.exp (-(b * x)) - Real.exp (b * x)) = 0 → x = 0) := by
  rcases lt_trichotomy x 0 with h | h | h
  · have : Real.exp (b * x) < Real.exp (-(b * x)) := Real.exp_lt_exp.2 (by nlinarith)
    have := mul_neg_of_neg_of_pos h (sub_pos.2 this)
    exact ⟨this.le, fun h => absurd h this.ne⟩
  · simp [h]
  · have : Real.exp (-(b * x)) < Real.exp (b * x) := Real.exp_lt_exp.2 (by nlinarith)
    have := mul_neg_of_pos_of_neg h (sub_neg.2 this)
    exact ⟨this.le, fun h => absurd h this.ne⟩

/-- C110, fields: at every positive inverse temperature, whatever the couplings, the spins on the whole point against
the fields: the thermal mean of the energy in the fields is negative, unless all fields are zero. -/
theorem C110_field (w : WF c L s) (hL : 2 ≤ L) (hb : 0 < c.vars.beta) (hne : ∃ i < L, H0 c i ≠ zero) :
    thermalMean c L (wholeEnergy L) (fieldEnergy L) < 0 := by
  set μ := Measure.pi fun _ : Fin L => sphereMeasure with hμ
  set b := c.vars.beta with hbe
  set E : (Fin L → V3 ℝ) → ℝ := fun v => wholeEnergy L (withSpins c v) with hE
  set G : (Fin L → V3 ℝ) → ℝ := fun v => fieldEnergy L (withSpins c v) with hG
  have tE : Tame E := whole_tame w hL
  have tG : Tame G := field_tame c L
  obtain ⟨D, hD⟩ := tE.bound
  obtain ⟨M, hM⟩ := tG.bound
  obtain ⟨D', hD'⟩ := (tE.sub ((Tame.const 2).mul tG)).bound
  have aD : ∀ᵐ v ∂μ, |E v| ≤ D := (good_ae sphere_ae).mono fun v hv => hD v hv
  have aM : ∀ᵐ v ∂μ, |G v| ≤ M := (good_ae sphere_ae).mono fun v hv => hM v hv
  have aD' : ∀ᵐ v ∂μ, |E v - 2 * G v| ≤ D' := (good_ae sphere_ae).mono fun v hv => hD' v hv
  have Z := part_pos tE.meas aD b
  have i1 := exp_int tE.meas aD b tG.meas aM
  have i2 := exp_int (tE.sub ((Tame.const 2).mul tG)).meas aD' b tG.meas aM
  have e := integral_mapped (L := L) (O := fun _ x => smul (-1) x) (fun _ _ => sign_orthogonal (Or.inr rfl))
    (g := fun v => Real.exp (-(b * E v)) * G v) ((tE.meas.const_mul _).neg.exp.mul tG.meas)
  have r1 : ∀ v : Fin L → V3 ℝ, E (fun i => smul (-1) (v i)) = E v - 2 * G v := fun v => by
    show wholeEnergy L (withSpins c fun i => smul (-1) (v i)) = _
    rw [← map_withSpins (fun _ x => smul (-1) x), whole_reverse (withSpins_wf w v) (by omega)]
  have r2 : ∀ v : Fin L → V3 ℝ, G (fun i => smul (-1) (v i)) = -G v := fun v => by
    show fieldEnergy L (withSpins c fun i => smul (-1) (v i)) = _
    rw [← map_withSpins (fun _ x => smul (-1) x), field_reverse (withSpins_wf w v)]
  simp only [r1, r2, mul_neg, integral_neg] at e
  unfold thermalMean
  refine div_neg_of_neg_of_pos ?_ Z
  have sum : 2 * ∫ v, Real.exp (-(b * E v)) * G v ∂μ
      = ∫ v, Real.exp (-(b * (E v - G v))) * (G v * (Real.exp (-(b * G v)) - Real.exp (b * G v))) ∂μ := by
    have : ∀ v, Real.exp (-(b * (E v - G v))) * (G v * (Real.exp (-(b * G v)) - Real.exp (b * G v)))
        = Real.exp (-(b * E v)) * G v - Real.exp (-(b * (E v - 2 * G v))) * G v := by
      intro v
      rw [show -(b * E v) = -(b * (E v - G v)) + -(b * G v) by ring,
        show -(b * (E v - 2 * G v)) = -(b * (E v - G v)) + b * G v by ring, Real.exp_add, Real.exp_add]
      ring
    simp only [this]
    rw [integral_sub i1 i2]
    linarith
  have np : ∀ v, 0 ≤ -(Real.exp (-(b * (E v - G v))) * (G v * (Real.exp (-(b * G v)) - Real.exp (b * G v)))) := by
    intro v
    have := mul_nonpos_of_nonneg_of_nonpos (Real.exp_pos (-(b * (E v - G v)))).le (sinh_neg b (G v) hb).1
    linarith
  have ki : Integrable (fun v => -(Real.exp (-(b * (E v - G v))) * (G v * (Real.exp (-(b * G v)) - Real.exp (b * G v))))) μ := by
    have : ∀ v, -(Real.exp (-(b * (E v - G v))) * (G v * (Real.exp (-(b * G v)) - Real.exp (b * G v))))
        = Real.exp (-(b * (E v - 2 * G v))) * G v - Real.exp (-(b * E v)) * G v := by
      intro v
      rw [show -(b * E v) = -(b * (E v - G v)) + -(b * G v) by ring,
        show -(b * (E v - 2 * G v)) = -(b * (E v - G v)) + b * G v by ring, Real.exp_add, Real.exp_add]
      ring
    simp only [this]
    exact i2.sub i1
  have neg : ∫ v, Real.exp (-(b * (E v - G v))) * (G v * (Real.exp (-(b * G v)) - Real.exp (b * G v))) ∂μ < 0 := by
    rw [← neg_pos, ← integral_neg]
    refine lt_of_le_of_ne (integral_nonneg np) fun h0 => ?_
    have := (integral_eq_zero_iff_of_nonneg np ki).1 h0.symm
    refine field_ne hne (this.mono fun v hv => ?_)
    have hv := neg_eq_zero.1 hv
    rcases mul_eq_zero.1 hv with h1 | h1
    · exact absurd h1 (Real.exp_ne_zero _)
    · exact (sinh_neg b (G v) hb).2 h1
  linarith

/-- C110, uniform field: in the same static field `h ≠ 0` at all sites, the thermal mean of the component of `m_tot`
along `h` is negative. -/
theorem C110_uniform_field (w : WF c L s) (hL : 2 ≤ L) (hb : 0 < c.vars.beta) (h : V3 ℝ) (h0 : h ≠ zero)
    (hh : ∀ i < L, H0 c i = h) :
    thermalMean c L (wholeEnergy L) (fun c => match c.m_tot with | .ok m => dot h m | .error _ => 0) < 0 := by
  have e := C110_field w hL hb ⟨0, by omega, by rw [hh 0 (by omega)]; exact h0⟩
  convert e using 1
  unfold thermalMean
  congr 1
  refine integral_congr_ae (Filter.Eventually.of_forall fun v => ?_)
  dsimp only
  congr 1
  rw [m_tot_eq (withSpins_wf w v)]
  unfold fieldEnergy
  have : ∑ i ∈ range L, dot (H0 (withSpins c v) i) (S (withSpins c v) i)
      = ∑ i ∈ range L, dot h (S (withSpins c v) i) :=
    sum_congr rfl fun i hi => by rw [← hh i (mem_range.1 hi)]; rfl
  rw [this]
  simp only [dot, sum_add_distrib, mul_sum]

end

/-- four spins with different couplings along the axes, in a field that has no component along x -/
noncomputable def demoPlane : SpinChain ℝ :=
  { demo with
    j_couple := [⟨1, -1 / 2, 1 / 3⟩, ⟨9 / 10, 1, 1 / 2⟩, ⟨1, 2, 1 / 2⟩, ⟨11 / 10, 1, 3 / 5⟩]
    static_h := [⟨0, 1 / 2, 6 / 5⟩, ⟨0, 1 / 2, 6 / 5⟩, ⟨0, 1 / 2, 6 / 5⟩, ⟨0, 1 / 2, 6 / 5⟩] }

example : WF demoPlane 4 2 ∧ 0 < demoPlane.vars.beta ∧ (∀ i < 4, partA 0 (H0 demoPlane i) = 0) ∧
    (∀ i < 4, H0 demoPlane i = ⟨0, 1 / 2, 6 / 5⟩) ∧ (⟨0, 1 / 2, 6 / 5⟩ : V3 ℝ) ≠ zero := by
  refine ⟨by constructor <;> simp [demoPlane, demo, demoVars], by norm_num [demoPlane, demo, demoVars], ?_, ?_, ?_⟩
  · intro i hi
    have : i = 0 ∨ i = 1 ∨ i = 2 ∨ i = 3 := by omega
    rcases this with rfl | rfl | rfl | rfl <;> simp [H0, demoPlane, partA]
  · intro i hi
    have : i = 0 ∨ i = 1 ∨ i = 2 ∨ i = 3 := by omega
    rcases this with rfl | rfl | rfl | rfl <;> simp [H0, demoPlane]
  · intro h
    have := congrArg V3.y h
    norm_num [zero] at this

/-- isotropic chains of four spins without field: the first with couplings of both signs, the second with all
couplings reversed, the third with the signs of two bonds reversed by reversing the spin between them -/
noncomputable def demoSigns (a b d e : ℝ) : SpinChain ℝ :=
  { demo with
    j_couple := [⟨a, a, a⟩, ⟨b, b, b⟩, ⟨d, d, d⟩, ⟨e, e, e⟩]
    static_h := [zero, zero, zero, zero] }

theorem demoSigns_wf (a b d e : ℝ) : WF (demoSigns a b d e) 4 2 := by
  constructor <;> simp [demoSigns, demo, demoVars]

example : (∀ i < 4, (J (demoSigns 1 (-2) 3 4) i).x = (J (demoSigns 1 (-2) 3 4) i).y ∧
      (J (demoSigns 1 (-2) 3 4) i).y = (J (demoSigns 1 (-2) 3 4) i).z) ∧
    (∀ i < 4, H0 (demoSigns 1 (-2) 3 4) i = zero) ∧
    (∀ i < 4, J (demoSigns (-1) 2 (-3) (-4)) i = smul (-1) (J (demoSigns 1 (-2) 3 4) i)) ∧
    ∃ σ : ℕ → ℝ, (∀ i < 4, σ i = 1 ∨ σ i = -1) ∧
      ∀ i < 4, J (demoSigns (-1) 2 3 4) i = smul (σ i * σ ((i + 1) % 4)) (J (demoSigns 1 (-2) 3 4) i) := by
  have c4 : ∀ i < 4, i = 0 ∨ i = 1 ∨ i = 2 ∨ i = 3 := fun i hi => by omega
  refine ⟨?_, ?_, ?_, fun i => if i = 1 then -1 else 1, ?_, ?_⟩
  · intro i hi
    rcases c4 i hi with rfl | rfl | rfl | rfl <;> simp [J, demoSigns]
  · intro i hi
    rcases c4 i hi with rfl | rfl | rfl | rfl <;> simp [H0, demoSigns]
  · intro i hi
    rcases c4 i hi with rfl | rfl | rfl | rfl <;> norm_num [J, demoSigns, smul]
  · intro i hi
    by_cases h : i = 1 <;> simp [h]
  · intro i hi
    rcases c4 i hi with rfl | rfl | rfl | rfl <;> norm_num [J, demoSigns, smul]

end Verif.Props
