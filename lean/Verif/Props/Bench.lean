/-
Properties C100 and C101: the benchmarked kernels against the ones the program runs
(/repo/benches/spin_rotate.rs, /repo/benches/even_omega.rs, /repo/src/spin.rs `rotate`,
/repo/src/spinchain.rs `even_omega`), and the index functions of the ring
(`pbc_index_odd`, `pbc_index_even`).
-/
import Verif.Model.Bench
import Verif.Lemmas.Rotate
import Verif.Lemmas.Trotter
import Verif.Props.Demo

namespace Verif.Props

open Spec

set_option linter.unusedSectionVars false

section
variable {F : Type} [Add F] [Sub F] [Mul F] [Div F] [Neg F] [OfScientific F] [FOps F]

/-! ### Helper lemmas -/

theorem mapRange_congr {α : Type} {lo hi : ℕ} {f g : ℕ → R α} (h : ∀ n, lo ≤ n → n < hi → f n = g n) :
    mapRange lo hi f = mapRange lo hi g := by
  unfold mapRange
  have key : ∀ l : List ℕ, (∀ n ∈ l, f n = g n) → l.mapM f = l.mapM g := by
    intro l
    induction l with
    | nil => intro _; rfl
    | cons a l ih =>
      intro hl
      rw [List.mapM_cons, List.mapM_cons, hl a (by simp), ih fun n hn => hl n (by simp [hn])]
  refine key _ fun n hn => ?_
  rw [List.mem_range'_1] at hn
  exact h n hn.1 (by omega)

theorem mapRange_first {α : Type} {hi : ℕ} (hpos : 0 < hi) (f : ℕ → R α) :
    mapRange 0 hi f = f 0 >>= fun a => mapRange 1 hi f >>= fun r => .ok (a :: r) := by
  obtain ⟨n, rfl⟩ : ∃ n, hi = n + 1 := ⟨hi - 1, by omega⟩
  unfold mapRange
  rw [Nat.sub_zero, Nat.add_sub_cancel, List.range'_succ, List.mapM_cons]
  rfl

theorem idx_updateField (h : List (V3 F)) (s : ℕ) (e : V3 F) (i : ℕ) :
    idx (SpinChain.updateField h s e) i
      = (idx h i).map fun x => if i < s then SpinChain.sum_vec x e else x := by
  unfold idx SpinChain.updateField
  rw [List.getElem?_map, List.getElem?_zipIdx]
  cases h[i]? with
  | none => rfl
  | some x => simp [Except.map]

theorem evenOmega_at {js hs : List (V3 F)} {spins : List (Spin F)} {j h : ℕ → V3 F} {sp : ℕ → Spin F}
    (hL : 2 ≤ spins.length) (hj : ∀ i < 2 * (spins.length / 2), idx js i = .ok (j i))
    (hh : ∀ i < 2 * (spins.length / 2), idx hs i = .ok (h i))
    (hsp : ∀ i < 2 * (spins.length / 2), idx spins i = .ok (sp i)) :
    SpinChain.evenOmega js spins hs
      = .ok ((List.range (spins.length / 2)).map fun k => omF (2 * (spins.length / 2)) j h sp (2 * k)) := by
  unfold SpinChain.evenOmega
  obtain ⟨n, hn⟩ : ∃ n, spins.length / 2 = n + 1 := ⟨spins.length / 2 - 1, by omega⟩
  simp only [hn] at hj hh hsp ⊢
  rw [usub_ok (by omega), ok_bind, hj _ (by omega), ok_bind, hsp _ (by omega), ok_bind,
    hj _ (by omega), ok_bind, hsp _ (by omega), ok_bind, hh _ (by omega), ok_bind]
  rw [mapRange_ok (fun k => omF (2 * (n + 1)) j h sp (2 * k))]
  · rw [ok_bind, List.range_eq_range', List.range'_succ, List.map_cons, Nat.add_sub_cancel]
    show Except.ok (_ :: _) = Except.ok (_ :: _)
    congr 2
    unfold omF
    rw [Nat.mul_zero, left_zero (by omega), right_lt (by omega)]
  · intro k h0 h1
    rw [hj _ (by omega), ok_bind, hsp _ (by omega), ok_bind,
      hj _ (by omega), ok_bind, hsp _ (by omega), ok_bind, hh _ (by omega), ok_bind]
    unfold omF
    rw [left_pos (by omega) (by omega), right_lt (by omega)]
    rfl

/-! ### C100 -/

/-- The rotation before optimisation and the rotation the program uses agree in every arithmetic: they
perform the same operations, so also in floating point. -/
theorem C100_rotate (s : Spin F) (b : V3 F) (dt : F) :
    Bench.rotate_original s b dt = .ok (s.rotate b dt).dir := by
  rfl

/-- The optimised field computation of the benchmark is the one of the program, for any arithmetic and any
arguments (also those that make it panic). -/
theorem C100_even_omega (spins : List (Spin F)) (h j : List (V3 F)) (t : F) :
    Bench.even_omega_new spins h j t = SpinChain.evenOmega j spins h := by
  unfold Bench.even_omega_new SpinChain.evenOmega
  simp only
  refine congrArg (usub (2 * (spins.length / 2)) 1 >>= ·) ?_
  funext i
  rw [mapRange_congr]
  intro n h1 h2
  rw [usub_ok (by omega)]
  rfl

/-- The original field computation of the benchmark is the one of the program, given the static field plus
the drive (of period 10, on the first 10 sites), whenever there are at least two spins; with fewer it returns
no fields while the program's panics. -/
theorem C100_original (spins : List (Spin F)) (h j : List (V3 F)) (t : F) :
    (2 ≤ spins.length → Bench.even_omega spins h j t
      = SpinChain.evenOmega j spins (SpinChain.updateField h 10 (Bench.h_ext t))) ∧
    (spins.length < 2 → Bench.even_omega spins h j t = .ok [] ∧
      SpinChain.evenOmega j spins h = .error .underflow) := by
  constructor
  · intro hl
    unfold Bench.even_omega SpinChain.evenOmega
    simp only
    rw [mapRange_first (by omega)]
    simp only [idx_updateField]
    rw [mapRange_congr (lo := 1) (g := fun n => do
      let a ← idx j (2 * n - 1)
      let b ← idx spins (2 * n - 1)
      let d ← idx j (2 * n)
      let e ← idx spins (2 * n + 1)
      let x ← (idx h (2 * n)).map fun x => if 2 * n < 10 then SpinChain.sum_vec x (Bench.h_ext t) else x
      return SpinChain.ssh_sum (SpinChain.j_s a b) (SpinChain.j_s d e) x)]
    · generalize mapRange 1 _ _ = rest
      rw [if_pos trivial, usub_ok (by omega)]
      simp only [ok_bind]
      cases idx j (2 * (spins.length / 2) - 1) <;> [rfl; simp only [ok_bind]]
      cases idx spins (2 * (spins.length / 2) - 1) <;> [rfl; simp only [ok_bind]]
      cases idx j (2 * 0) <;> [rfl; simp only [ok_bind]]
      cases idx spins (2 * 0 + 1) <;> [rfl; simp only [ok_bind]]
      cases idx h (2 * 0) <;> rfl
    · intro n h1 h2
      rw [if_neg (by omega), usub_ok (by omega)]
      simp only [ok_bind]
      cases idx j (2 * n - 1) <;> [rfl; simp only [ok_bind]]
      cases idx spins (2 * n - 1) <;> [rfl; simp only [ok_bind]]
      cases idx j (2 * n) <;> [rfl; simp only [ok_bind]]
      cases idx spins (2 * n + 1) <;> [rfl; simp only [ok_bind]]
      cases idx h (2 * n) <;> rfl
  · intro hl
    have e : spins.length / 2 = 0 := by omega
    constructor
    · unfold Bench.even_omega
      simp only [e]
      rfl
    · unfold SpinChain.evenOmega
      simp only [e]
      rfl

end

/-- The optimised rotation of the benchmark leaves out the normalisation: it gives the program's result times
the length of the spin, hence the same for unit spins (in exact arithmetic). -/
theorem C100_unnormalised (s : Spin ℝ) (b : V3 ℝ) (hs : s.dir ≠ zero) (hb : b ≠ zero) (dt : ℝ) :
    Bench.rotate s b dt = smul (len s.dir) (s.rotate b dt).dir ∧
    (IsUnit3 s → Bench.rotate s b dt = (s.rotate b dt).dir) := by
  have h : Bench.rotate s b dt = rodr (nrm b) s.dir (len b * dt) := by
    have h1 : Real.sqrt (sumSq b) = len b := by rw [sumSq_real]; rfl
    simp only [Bench.rotate, fsqrt_real, fcos_real, fsin_real, h1]
    simp only [rodr, nrm, dot, lit_0, lit_1, zero_add]
  have hl := (len_pos hs).ne'
  constructor
  · rw [h, rotate_eq hb]
    ext <;> simp [smul] <;> field_simp
  · intro hu
    rw [h, rotate_unit_eq hu hb]

example : (⟨⟨2, 0, 0⟩⟩ : Spin ℝ).dir ≠ zero ∧ (⟨0, 0, 1⟩ : V3 ℝ) ≠ zero := by
  simp [zero]

theorem bench_drive (t : ℝ) : (Bench.h_ext t).x ^ 2 + (Bench.h_ext t).y ^ 2 = 1 := by
  unfold Bench.h_ext
  exact Real.cos_sq_add_sin_sq _

/-- Full claim: the optimised field computation returns what the original returns.  It holds only for sites
beyond the first ten: the optimised one ignores the drive and its time argument. -/
theorem C100_fields_partial (spins : List (Spin ℝ)) (h j : List (V3 ℝ)) (t : ℝ) (hL : 2 ≤ spins.length)
    (hh : spins.length ≤ h.length) (hj : spins.length ≤ j.length) :
    ∃ r r' : ℕ → V3 ℝ,
      Bench.even_omega spins h j t = .ok ((List.range (spins.length / 2)).map r) ∧
      Bench.even_omega_new spins h j t = .ok ((List.range (spins.length / 2)).map r') ∧
      ∀ n < spins.length / 2, r n = r' n ↔ 10 ≤ 2 * n := by
  have get : ∀ {α : Type} (xs : List α) (d : α) (i : ℕ), i < xs.length → idx xs i = .ok (xs.getD i d) := by
    intro α xs d i hi
    apply idx_some
    simp [List.getD, List.getElem?_eq_getElem hi]
  have hsp : ∀ i < 2 * (spins.length / 2), idx spins i = .ok (spins.getD i ⟨zero⟩) := fun i hi =>
    get _ _ _ (by omega)
  have hjj : ∀ i < 2 * (spins.length / 2), idx j i = .ok (j.getD i zero) := fun i hi => get _ _ _ (by omega)
  have hhh : ∀ i < 2 * (spins.length / 2), idx h i = .ok (h.getD i zero) := fun i hi => get _ _ _ (by omega)
  have hup : ∀ i < 2 * (spins.length / 2), idx (SpinChain.updateField h 10 (Bench.h_ext t)) i
      = .ok (if i < 10 then SpinChain.sum_vec (h.getD i zero) (Bench.h_ext t) else h.getD i zero) := by
    intro i hi
    rw [idx_updateField, hhh i hi]
    rfl
  refine ⟨_, _, ((C100_original spins h j t).1 hL).trans (evenOmega_at hL hjj hup hsp),
    (C100_even_omega spins h j t).trans (evenOmega_at hL hjj hhh hsp), fun n hn => ?_⟩
  unfold omF
  dsimp only
  by_cases h10 : 2 * n < 10
  · rw [if_pos h10]
    refine ⟨fun e => ?_, fun e => by omega⟩
    have ex := congrArg V3.x e
    have ey := congrArg V3.y e
    simp only [SpinChain.ssh_sum, SpinChain.sum_vec] at ex ey
    have hx : (Bench.h_ext t).x = 0 := by linarith
    have hy : (Bench.h_ext t).y = 0 := by linarith
    have := bench_drive t
    rw [hx, hy] at this
    norm_num at this
  · rw [if_neg h10]
    exact ⟨fun _ => by omega, fun _ => rfl⟩

/-- so on the benchmark's own data (100 spins along x, 200 equal couplings and fields) they differ -/
theorem C100_differ :
    Bench.even_omega (List.replicate 100 (⟨⟨1, 0, 0⟩⟩ : Spin ℝ)) (List.replicate 200 ⟨1.23, 4.56, 7.89⟩)
        (List.replicate 200 ⟨1.23, 4.56, 7.89⟩) 0.02
      ≠ Bench.even_omega_new (List.replicate 100 (⟨⟨1, 0, 0⟩⟩ : Spin ℝ)) (List.replicate 200 ⟨1.23, 4.56, 7.89⟩)
        (List.replicate 200 ⟨1.23, 4.56, 7.89⟩) 0.02 := by
  obtain ⟨r, r', h1, h2, h3⟩ := C100_fields_partial (List.replicate 100 (⟨⟨1, 0, 0⟩⟩ : Spin ℝ))
    (List.replicate 200 ⟨1.23, 4.56, 7.89⟩) (List.replicate 200 ⟨1.23, 4.56, 7.89⟩) 0.02
    (by simp only [List.length_replicate]; omega) (by simp only [List.length_replicate]; omega)
    (by simp only [List.length_replicate]; omega)
  rw [h1, h2]
  intro h
  have h' := Except.ok.inj h
  have h0 := congrArg (fun l => l[0]?) h'
  simp at h0
  have := (h3 0 (by simp only [List.length_replicate]; omega)).1 h0
  omega

/-! ### C101 -/

/-- `pbc_index_odd n l` is the left neighbour of site `2 n`, `pbc_index_even n l` the right neighbour of site
`2 n - 1`, on the ring of `2 l` sites.  The former panics exactly for the first site of the empty ring. -/
theorem C101_neighbours (n l : ℕ) :
    (n < l → Bench.pbc_index_odd n l = .ok (left (2 * l) (2 * n))) ∧
    (1 ≤ n → n ≤ l → Bench.pbc_index_even n l = right (2 * l) (2 * n - 1)) ∧
    ((∃ p, Bench.pbc_index_odd n l = .error p) ↔ n = 0 ∧ l = 0) := by
  refine ⟨fun h => ?_, fun h1 h2 => ?_, ?_⟩
  · rcases Nat.eq_zero_or_pos n with rfl | hn
    · show usub (2 * l) 1 = _
      rw [usub_ok (by omega)]
      unfold left
      rw [Nat.mul_zero, Nat.zero_add, Nat.mod_eq_of_lt (by omega)]
    · obtain ⟨k, rfl⟩ : ∃ k, n = k + 1 := ⟨n - 1, by omega⟩
      show usub (2 * (k + 1)) 1 = _
      rw [usub_ok (by omega)]
      unfold left
      rw [show 2 * (k + 1) + 2 * l - 1 = (2 * (k + 1) - 1) + 2 * l by omega, Nat.add_mod_right,
        Nat.mod_eq_of_lt (by omega)]
  · unfold Bench.pbc_index_even right
    rw [show 2 * n - 1 + 1 = 2 * n by omega]
    split
    · rw [Nat.mod_eq_of_lt (by omega)]
    · rw [show n = l by omega, Nat.mod_self]
  · rcases Nat.eq_zero_or_pos n with rfl | hn
    · show (∃ p, usub (2 * l) 1 = .error p) ↔ _
      unfold usub
      split
      · simp; omega
      · exact ⟨fun _ => ⟨rfl, by omega⟩, fun _ => ⟨_, rfl⟩⟩
    · obtain ⟨k, rfl⟩ : ∃ k, n = k + 1 := ⟨n - 1, by omega⟩
      show (∃ p, usub (2 * (k + 1)) 1 = .error p) ↔ _
      rw [usub_ok (by omega)]
      simp

example : Bench.pbc_index_odd 0 5 = .ok 9 ∧ Bench.pbc_index_odd 3 5 = .ok 5 ∧ Bench.pbc_index_even 5 5 = 0 :=
  ⟨rfl, rfl, rfl⟩

end Verif.Props
