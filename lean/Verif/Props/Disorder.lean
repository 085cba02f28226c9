/-
C111: distribution of the random couplings and static fields of a new chain (/repo/src/spinchain.rs `new`, lines
168-198, and /repo/src/spinchain_langevin.rs `new`, lines 159-189).
-/
import Verif.Props.Init
import Verif.Props.ThermalSymmetry
import Mathlib.Probability.Distributions.Gaussian.Real
import Mathlib.Probability.Independence.InfinitePi

namespace Verif.Props

open Spec Finset MeasureTheory ProbabilityTheory

/-- independent standard normal numbers: those with `false` are used for the couplings, those with `true` for the
fields -/
noncomputable def normalLaw : Measure (Bool × ℕ → ℝ) := Measure.infinitePi fun _ => gaussianReal 0 1

instance : IsProbabilityMeasure normalLaw := by
  unfold normalLaw
  infer_instance

/-- the component along the axis `a` of the coupling (`b = false`) or field (`b = true`) at site `i` -/
noncomputable def entry (c : SpinChain ℝ) (b : Bool) (i : ℕ) (a : Fin 3) : ℝ := partA a (if b then H0 c i else J c i)

/-- what the configuration asks for at site `i`, without disorder -/
noncomputable def cleanEntry (conf : Config ℝ) (f h : V3 ℝ) (b : Bool) (i : ℕ) (a : Fin 3) : ℝ :=
  partA a (if b then (if (i : ℤ) < conf.ssize then add f h else f) else ⟨1, 1, conf.lambda⟩)

/-- the parameter of the configuration that sets the disorder -/
def strength (conf : Config ℝ) (b : Bool) : ℝ := if b then conf.hvar else conf.jvar

theorem partA_axpy (a : Fin 3) (u v : V3 ℝ) (r : ℝ) : partA a (add u (smul r v)) = partA a u + r * partA a v := by
  fin_cases a <;> rfl

theorem partA_draws (a : Fin 3) (z : ℕ → ℝ) (i : ℕ) : partA a ⟨z (3 * i), z (3 * i + 1), z (3 * i + 2)⟩ = z (3 * i + a) := by
  fin_cases a <;> rfl

theorem new_entry (conf : Config ℝ) (num : ℕ) (u zj zh : ℕ → ℝ) (L : ℕ)
    (hL : conf.hsize = L) (hlt : L < 2 ^ 31) (f h : V3 ℝ) (fr hr : List ℝ)
    (hf : conf.hfield = f.x :: f.y :: f.z :: fr) (hh : conf.hs = h.x :: h.y :: h.z :: hr) (c : SpinChain ℝ)
    (hc : SpinChain.new conf num u zj zh = .ok c) (b : Bool) (i : ℕ) (hi : i < L) (a : Fin 3) :
    entry c b i a = cleanEntry conf f h b i a + strength conf b * (if b then zh else zj) (3 * i + a) := by
  obtain ⟨c', h1, h2⟩ := C12_couplings_fields conf num u zj zh L hL hlt f h fr hr hf hh
  rw [hc] at h1
  cases h1
  obtain ⟨e1, e2⟩ := h2 i hi
  unfold entry cleanEntry strength
  cases b
  · simp only [Bool.false_eq_true, if_false]
    rw [e1, partA_axpy, partA_draws]
  · simp only [if_true]
    rw [e2, partA_axpy, partA_draws]

/-- the number drawn for a component -/
def drawOf {L : ℕ} (k : Bool × Fin L × Fin 3) : Bool × ℕ := (k.1, 3 * (k.2.1 : ℕ) + k.2.2)

theorem drawOf_injective {L : ℕ} : Function.Injective (drawOf (L := L)) := by
  rintro ⟨b, i, a⟩ ⟨b', i', a'⟩ h
  simp only [drawOf, Prod.mk.injEq] at h
  obtain ⟨h1, h2⟩ := h
  have ha := a.2
  have ha' := a'.2
  have e1 : (i : ℕ) = i' := by omega
  have e2 : (a : ℕ) = a' := by omega
  simp [h1, Fin.ext e1, Fin.ext e2]

theorem draw_law (k : Bool × ℕ) : HasLaw (fun z : Bool × ℕ → ℝ => z k) (gaussianReal 0 1) normalLaw :=
  (measurePreserving_eval_infinitePi (fun _ : Bool × ℕ => gaussianReal 0 1) k).hasLaw

theorem draw_indep : iIndepFun (fun (k : Bool × ℕ) (z : Bool × ℕ → ℝ) => z k) normalLaw :=
  iIndepFun_infinitePi (X := fun _ x => x) fun _ => measurable_id

/-- C111: the components of the couplings and static fields of a new chain are independent and normally distributed
around the values of the configuration, with the standard deviations `jvar` and `hvar`. -/
theorem C111_law (conf : Config ℝ) (num : ℕ) (u : ℕ → ℝ) (L : ℕ) (hL : conf.hsize = L) (hlt : L < 2 ^ 31) (f h : V3 ℝ)
    (fr hr : List ℝ) (hf : conf.hfield = f.x :: f.y :: f.z :: fr) (hh : conf.hs = h.x :: h.y :: h.z :: hr) :
    ∃ C : (Bool × ℕ → ℝ) → SpinChain ℝ,
      (∀ z, SpinChain.new conf num u (fun k => z (false, k)) (fun k => z (true, k)) = .ok (C z)) ∧
      (∀ b, ∀ i < L, ∀ a, HasLaw (fun z => entry (C z) b i a)
        (gaussianReal (cleanEntry conf f h b i a) (Real.toNNReal (strength conf b ^ 2))) normalLaw) ∧
      iIndepFun (fun (k : Bool × Fin L × Fin 3) z => entry (C z) k.1 k.2.1 k.2.2) normalLaw := by
  have hex : ∀ z : Bool × ℕ → ℝ, ∃ c, SpinChain.new conf num u (fun k => z (false, k)) (fun k => z (true, k)) = .ok c :=
    fun z => (C12_couplings_fields conf num u _ _ L hL hlt f h fr hr hf hh).imp fun _ h => h.1
  choose C hC using hex
  have key : ∀ z b, ∀ i < L, ∀ a, entry (C z) b i a = cleanEntry conf f h b i a + strength conf b * z (b, 3 * i + a) := by
    intro z b i hi a
    rw [new_entry conf num u _ _ L hL hlt f h fr hr hf hh (C z) (hC z) b i hi a]
    cases b <;> rfl
  refine ⟨C, hC, fun b i hi a => ?_, ?_⟩
  · have h1 := gaussianReal_const_add (gaussianReal_const_mul (draw_law (b, 3 * i + a)) (strength conf b))
      (cleanEntry conf f h b i a)
    have e : (fun z => entry (C z) b i a)
        = fun z : Bool × ℕ → ℝ => cleanEntry conf f h b i a + strength conf b * z (b, 3 * i + a) :=
      funext fun z => key z b i hi a
    rw [e]
    convert h1 using 2
    · ring
    · rw [mul_one]
      ext
      simp [sq_nonneg]
  · have h1 := (draw_indep.precomp (drawOf_injective (L := L))).comp
      (fun k x => cleanEntry conf f h k.1 k.2.1 k.2.2 + strength conf k.1 * x) fun k => by fun_prop
    have e : (fun (k : Bool × Fin L × Fin 3) z => entry (C z) k.1 k.2.1 k.2.2)
        = fun k => (fun x => cleanEntry conf f h k.1 k.2.1 k.2.2 + strength conf k.1 * x)
          ∘ fun z : Bool × ℕ → ℝ => z (drawOf k) := by
      funext k z
      exact key z k.1 k.2.1 k.2.1.2 k.2.2
    rw [e]
    exact h1

/-- C111, against the documentation ("variance in J couplings", "variance in field"): the variance of a component of
a coupling or field is the square of `jvar` or `hvar`, not `jvar` or `hvar`. -/
theorem C111_variance (conf : Config ℝ) (num : ℕ) (u : ℕ → ℝ) (L : ℕ) (hL : conf.hsize = L) (hlt : L < 2 ^ 31)
    (f h : V3 ℝ) (fr hr : List ℝ) (hf : conf.hfield = f.x :: f.y :: f.z :: fr) (hh : conf.hs = h.x :: h.y :: h.z :: hr)
    (C : (Bool × ℕ → ℝ) → SpinChain ℝ)
    (hC : ∀ z, SpinChain.new conf num u (fun k => z (false, k)) (fun k => z (true, k)) = .ok (C z)) (b : Bool) (i : ℕ)
    (hi : i < L) (a : Fin 3) :
    variance (fun z => entry (C z) b i a) normalLaw = strength conf b ^ 2 ∧
      (variance (fun z => entry (C z) b i a) normalLaw = strength conf b ↔ strength conf b = 0 ∨ strength conf b = 1) := by
  obtain ⟨C', h1, h2, -⟩ := C111_law conf num u L hL hlt f h fr hr hf hh
  have e : C = C' := funext fun z => by
    have := (hC z).symm.trans (h1 z)
    injection this
  rw [e]
  have hv : variance (fun z => entry (C' z) b i a) normalLaw = strength conf b ^ 2 := by
    rw [(h2 b i hi a).variance_eq, variance_id_gaussianReal, Real.coe_toNNReal _ (sq_nonneg _)]
  refine ⟨hv, ?_⟩
  rw [hv]
  constructor
  · intro h
    have : strength conf b * (strength conf b - 1) = 0 := by linear_combination h
    rcases mul_eq_zero.1 this with h | h
    · exact Or.inl h
    · exact Or.inr (by linarith)
  · rintro (h | h) <;> rw [h] <;> norm_num

/-- the vector with given components -/
def ofParts (p : Fin 3 → ℝ) : V3 ℝ := ⟨p 0, p 1, p 2⟩

theorem sum_entries {L : ℕ} (g : Bool → ℕ → Fin 3 → ℝ) : ∑ k : Bool × Fin L × Fin 3, g k.1 k.2.1 k.2.2
    = ∑ i ∈ range L, ∑ a, g false i a + ∑ i ∈ range L, ∑ a, g true i a := by
  rw [Fintype.sum_prod_type, Fintype.sum_bool, Fintype.sum_prod_type, Fintype.sum_prod_type, add_comm,
    Fin.sum_univ_eq_sum_range (fun i => ∑ a, g false i a), Fin.sum_univ_eq_sum_range (fun i => ∑ a, g true i a)]

/-- C111, energies: for given spins, the reported energy density `mc_total_energy` of chains with random couplings and
fields has the mean of the chain without disorder, and the variance
`(jvar² Σ (S_i^a S_{i+1}^a)² + hvar² Σ (S_i^a)²) / L²`. -/
theorem C111_energy (conf : Config ℝ) (num : ℕ) (u : ℕ → ℝ) (L s : ℕ) (hL : conf.hsize = L) (hlt : L < 2 ^ 31)
    (hs : conf.ssize = s) (hslt : s < 2 ^ 31) (h1 : 1 ≤ L)
    (f h : V3 ℝ) (fr hr : List ℝ) (hf : conf.hfield = f.x :: f.y :: f.z :: fr) (hh : conf.hs = h.x :: h.y :: h.z :: hr)
    (C : (Bool × ℕ → ℝ) → SpinChain ℝ)
    (hC : ∀ z, SpinChain.new conf num u (fun k => z (false, k)) (fun k => z (true, k)) = .ok (C z))
    (v : Fin L → V3 ℝ) (T : ℕ → V3 ℝ) (hT : ∀ i : Fin L, T i = v i) :
    ∃ e : (Bool × ℕ → ℝ) → ℝ, (∀ z, (withSpins (C z) v).mc_total_energy = .ok (e z)) ∧
      ∫ z, e z ∂normalLaw = ringEnergy L T (fun i => ofParts (cleanEntry conf f h false i))
        (fun i => ofParts (cleanEntry conf f h true i)) / L ∧
      variance e normalLaw = (conf.jvar ^ 2 * (∑ i ∈ range L, ∑ a, (partA a (T i) * partA a (T ((i + 1) % L))) ^ 2)
        + conf.hvar ^ 2 * (∑ i ∈ range L, ∑ a, partA a (T i) ^ 2)) / L ^ 2 := by
  have wf : ∀ z, WF (C z) L s := by
    intro z
    obtain ⟨c, e1, w⟩ := C11_new_wf' conf num u (fun k => z (false, k)) (fun k => z (true, k)) L s hL hlt hs hslt
      (by rw [hf]; simp) (by rw [hh]; simp) rfl rfl
    have := (hC z).symm.trans e1
    injection this with this
    rw [this]
    exact w
  set clean := ringEnergy L T (fun i => ofParts (cleanEntry conf f h false i))
        (fun i => ofParts (cleanEntry conf f h true i)) with hclean
  -- coefficient of each draw
  set co : Bool × Fin L × Fin 3 → ℝ := fun k => strength conf k.1 *
    (if k.1 then partA k.2.2 (T k.2.1) else -(partA k.2.2 (T k.2.1) * partA k.2.2 (T ((k.2.1 + 1) % L)))) / L with hco
  have form : ∀ z, (withSpins (C z) v).mc_total_energy = .ok (clean / L + ∑ k, co k * z (drawOf k)) := by
    intro z
    rw [mc_total_energy_eq (withSpins_wf (wf z) v) h1]
    congr 1
    have key := fun b i hi a => new_entry conf num u _ _ L hL hlt f h fr hr hf hh (C z) (hC z) b i hi a
    have hS : ∀ i < L, S (withSpins (C z) v) i = T i := fun i hi => by
      rw [S_withSpins, dif_pos hi]
      exact (hT ⟨i, hi⟩).symm
    have hsum : ∑ k, co k * z (drawOf k)
        = (∑ i ∈ range L, ∑ a : Fin 3, conf.jvar * -(partA a (T i) * partA a (T ((i + 1) % L))) * z (false, 3 * i + a)
          + ∑ i ∈ range L, ∑ a : Fin 3, conf.hvar * partA a (T i) * z (true, 3 * i + a)) / L := by
      refine (sum_entries (fun b i a => strength conf b *
        (if b then partA a (T i) else -(partA a (T i) * partA a (T ((i + 1) % L)))) / L * z (b, 3 * i + a))).trans ?_
      rw [add_div, sum_div, sum_div]
      congr 1 <;> refine sum_congr rfl fun i _ => ?_ <;> rw [sum_div] <;> refine sum_congr rfl fun a _ => ?_ <;>
        simp [strength] <;> ring
    rw [hsum, ← add_div]
    congr 1
    rw [hclean]
    unfold ringEnergy
    rw [← sum_add_distrib, ← sum_add_distrib]
    refine sum_congr rfl fun i hi => ?_
    have hi := mem_range.1 hi
    rw [hS i hi, hS _ (Nat.mod_lt _ (by omega))]
    have j0 := key false i hi 0
    have j1 := key false i hi 1
    have j2 := key false i hi 2
    have b0 := key true i hi 0
    have b1 := key true i hi 1
    have b2 := key true i hi 2
    simp only [entry, strength, partA, Bool.false_eq_true, if_false, if_true] at j0 j1 j2 b0 b1 b2
    show -dot _ (had (J (C z) i) _) + dot (H0 (C z) i) _ = _
    simp only [dot, had, ofParts, Fin.sum_univ_three, partA, j0, j1, j2, b0, b1, b2]
    simp only [Fin.val_zero, Fin.val_one, Fin.val_two]
    ring
  have mem : ∀ k, MemLp (fun z : Bool × ℕ → ℝ => co k * z (drawOf k)) 2 normalLaw := by
    intro k
    have h0 := memLp_id_gaussianReal (μ := 0) (v := 1) 2
    have h1 := (draw_law (drawOf k))
    have h2 : MemLp (fun z : Bool × ℕ → ℝ => z (drawOf k)) 2 normalLaw := by
      rw [← h1.map_eq] at h0
      exact (memLp_map_measure_iff (by fun_prop) h1.aemeasurable).1 h0
    exact h2.const_mul _
  have ex : ∀ k : Bool × ℕ, ∫ z : Bool × ℕ → ℝ, z k ∂normalLaw = 0 := fun k => by
    rw [(draw_law k).integral_eq, integral_id_gaussianReal]
  have vx : ∀ k : Bool × ℕ, variance (fun z : Bool × ℕ → ℝ => z k) normalLaw = 1 := fun k => by
    rw [(draw_law k).variance_eq, variance_id_gaussianReal]
    rfl
  refine ⟨_, form, ?_, ?_⟩
  · rw [integral_add (integrable_const _) (integrable_finsetSum _ fun k _ => (mem k).integrable one_le_two),
      integral_finsetSum _ fun k _ => (mem k).integrable one_le_two]
    simp only [integral_const_mul, ex]
    simp
  · rw [variance_const_add (by
      refine Measurable.aestronglyMeasurable ?_
      fun_prop)]
    have hv := IndepFun.variance_sum (μ := normalLaw) (s := univ)
      (X := fun (k : Bool × Fin L × Fin 3) (z : Bool × ℕ → ℝ) => co k * z (drawOf k)) (fun k _ => mem k) (by
        intro k _ k' _ hne
        have h1 := (draw_indep.precomp (drawOf_injective (L := L))).indepFun hne
        exact h1.comp (φ := fun x => co k * x) (ψ := fun x => co k' * x) (by fun_prop) (by fun_prop))
    have e : (∑ k : Bool × Fin L × Fin 3, fun z : Bool × ℕ → ℝ => co k * z (drawOf k))
        = fun z => ∑ k, co k * z (drawOf k) := by
      funext z
      simp
    rw [e] at hv
    rw [hv]
    simp only [variance_const_mul, vx, mul_one]
    refine (sum_entries (fun b i a => (strength conf b *
        (if b then partA a (T i) else -(partA a (T i) * partA a (T ((i + 1) % L)))) / L) ^ 2)).trans ?_
    rw [add_div, mul_sum, mul_sum, sum_div, sum_div]
    congr 1 <;> refine sum_congr rfl fun i _ => ?_ <;> rw [mul_sum, sum_div] <;> refine sum_congr rfl fun a _ => ?_ <;>
      simp [strength] <;> ring

/-- C111, Langevin mode: the couplings and fields of a new chain are the same function of the draws. -/
theorem C111_langevin (conf : Config ℝ) (num : ℕ) (gamma : ℝ) (u zj zh : ℕ → ℝ) (c : SpinChain ℝ)
    (hc : SpinChain.new conf num u zj zh = .ok c) :
    ∃ l : LangevinChain ℝ, LangevinChain.new conf num gamma u zj zh = .ok l ∧
      ∀ b i a, entry l.toSpinChain b i a = entry c b i a := by
  refine ⟨_, by unfold LangevinChain.new; rw [hc]; rfl, fun b i a => rfl⟩

/-- the default configuration: the variance of a coupling is `10⁻⁶`, not `jvar = 10⁻³` as documented -/
theorem C111_default (num : ℕ) (u : ℕ → ℝ) :
    ∃ C : (Bool × ℕ → ℝ) → SpinChain ℝ,
      (∀ z, SpinChain.new Config.default num u (fun k => z (false, k)) (fun k => z (true, k)) = .ok (C z)) ∧
      (Config.default : Config ℝ).jvar = 1 / 1000 ∧
      ∀ i < 512, ∀ a, variance (fun z => entry (C z) false i a) normalLaw = 1 / 1000000 := by
  obtain ⟨C, h1, -⟩ := C111_law (Config.default : Config ℝ) num u 512 rfl (by norm_num) ⟨0.0, 0.0, 0.0⟩ ⟨0.0, 0.0, 0.0⟩ [] []
    rfl rfl
  refine ⟨C, h1, by norm_num [Config.default], fun i hi a => ?_⟩
  rw [(C111_variance (Config.default : Config ℝ) num u 512 rfl (by norm_num) ⟨0.0, 0.0, 0.0⟩ ⟨0.0, 0.0, 0.0⟩ [] [] rfl rfl C
    h1 false i hi a).1]
  norm_num [strength, Config.default]

example : (Config.default : Config ℝ).hsize = (512 : ℕ) ∧ (512 : ℕ) < 2 ^ 31 ∧
    (Config.default : Config ℝ).ssize = (8 : ℕ) ∧
    (Config.default : Config ℝ).hfield = [0.0, 0.0, 0.0] ∧ (Config.default : Config ℝ).hs = [0.0, 0.0, 0.0] :=
  ⟨rfl, by norm_num, rfl, rfl, rfl⟩

end Verif.Props
