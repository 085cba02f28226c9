/-
Property C104: a periodic drive with period zero.
-/
import Verif.Lemmas.Exact
import Verif.Props.NaN

set_option linter.unusedSectionVars false

namespace Verif.Props

open Spec

section anyF
variable {F : Type} [Add F] [Sub F] [Mul F] [Div F] [Neg F] [OfScientific F] [FOps F] {n : F}

/-- the drives that depend on time -/
def Periodic (v : Config F) : Prop :=
  v.drive = .xyplane ∨ v.drive = .uniaxial ∨ v.drive = .xyelliptic

/-- The cosine of the phase of the drive is `n` at all times. -/
def NoPhase (n : F) (v : Config F) : Prop := ∀ t, fcos (2.0 * fpi * t / v.tau) = n

theorem h_ext_lost {c : SpinChain F} (hp : Periodic c.vars) (h : NoPhase n c.vars) (t : F) :
    ∃ e, c.h_ext t = .ok e ∧ e.x = n := by
  unfold SpinChain.h_ext
  rcases hp with hp | hp | hp <;> rw [hp] <;> exact ⟨_, rfl, h t⟩

theorem C104_spins (hn : Absorbing n) {c c' : SpinChain F} {L s : ℕ} (w : WF c L s) (hL : 2 ≤ L)
    (hp : Periodic c.vars) (hc : NoPhase n c.vars) (h : c.update = .ok c') {i : ℕ}
    (hi : i < 2 * (L / 2)) (his : i < s) : LostAt n c' i := by
  obtain ⟨j, hh, sp, tj, th, tsp⟩ := wf_tabs w (by omega)
  obtain ⟨e, he, hx⟩ := h_ext_lost hp hc (c.t + c.vars.dt / 2.0)
  obtain ⟨s1, g1, g2⟩ := update_tab w hL tj th tsp he
  rw [h] at g1
  cases g1
  refine ⟨_, g2.getElem? (by omega), ?_⟩
  have hom : ∀ sp, Sick n (omF (2 * (L / 2)) j (fieldF s hh e) sp i) := by
    intro sp
    left
    unfold omF fieldF SpinChain.ssh_sum
    rw [if_pos his]
    simp only [SpinChain.sum_vec, hx, hn.add_r, hn.sub_r]
  have hsub : ∀ (par : ℕ) (dt : F) (sp : ℕ → Spin F), i % 2 = par →
      Lost n (subF (2 * (L / 2)) par j (fieldF s hh e) dt sp i).dir := by
    intro par dt sp hpar
    unfold subF
    rw [if_pos ⟨hi, hpar⟩]
    exact C64_rotate hn _ _ _ (.inr (hom sp))
  unfold stepF
  rcases Nat.mod_two_eq_zero_or_one i with h0 | h1
  · exact hsub 0 _ _ h0
  · exact subF_keepLost hn (hsub 1 _ _ h1)

theorem bond_lost (hn : Absorbing n) {a b : Spin F} {j h : V3 F} (hh : h.x = n) (e : F) :
    SpinChain.bondField a b j h e = n := by
  simp only [SpinChain.bondField, for3, V3.get, hh, hn.mul_r, hn.add_r, hn.add_l, hn.sub_l]

theorem bond_keep (hn : Absorbing n) {a b : Spin F} {j h : V3 F} :
    SpinChain.bondField a b j h n = n := by
  simp only [SpinChain.bondField, for3, hn.add_l, hn.sub_l]

theorem foldl_lost {g : ℕ → F → F} (h0 : ∀ e, g 0 e = n) (hk : ∀ i, g i n = n) (k : ℕ) (e : F) :
    (List.range' 0 (k + 1)).foldl (fun acc i => g i acc) e = n := by
  rw [List.range'_succ, List.foldl_cons, h0]
  generalize List.range' (0 + 1) k = l
  induction l with
  | nil => rfl
  | cons a l ih => rw [List.foldl_cons, hk, ih]

theorem C104_energies (hn : Absorbing n) {c : SpinChain F} {L s : ℕ} (w : WF c L s) (hL : 1 ≤ L)
    (hs : 1 ≤ s) (hp : Periodic c.vars) (hc : NoPhase n c.vars) :
    c.total_energy2 = .ok n ∧ (s ≤ L → c.total_energy = .ok n) ∧
      (2 ≤ s → s ≤ L → c.system_energy = .ok n) := by
  obtain ⟨j, hh, sp, tj, th, tsp⟩ := wf_tabs w hL
  obtain ⟨e, he, hx⟩ := h_ext_lost hp hc c.t
  refine ⟨?_, fun hsL => ?_, fun hs2 hsL => ?_⟩
  · unfold SpinChain.total_energy2
    rw [hsize_natF w, ssize_natF w, he, ok_bind, mapRange_ok (fieldF s hh e), ok_bind, usub_ok hL,
      ok_bind]
    · have hf : ∀ i, i < L → idx ((List.range' 0 (L - 0)).map (fieldF s hh e)) i
          = .ok (fieldF s hh e i) := fun i hi => idx_some (getElem?_map_range' _ _ _ (by omega))
      rw [forRange_ok (fun i e' => SpinChain.bondField (sp i) (sp (i + 1)) (j i) (fieldF s hh e i) e')]
      · rw [ok_bind, tsp.idx (by omega), ok_bind, tsp.idx (by omega), ok_bind, tj.idx (by omega),
          ok_bind, hf _ (by omega), ok_bind]
        have h0 : (fieldF s hh e 0).x = n := by
          unfold fieldF
          rw [if_pos (by omega)]
          simp only [SpinChain.sum_vec, hx, hn.add_r]
        rcases Nat.eq_or_lt_of_le hL with rfl | hL1
        · dsimp only
          rw [bond_lost hn h0, hn.div_l]
          rfl
        · obtain ⟨k, hk⟩ : ∃ k, L - 1 - 0 = k + 1 := ⟨L - 2, by omega⟩
          rw [hk, foldl_lost (fun e => bond_lost hn h0 e) (fun i => bond_keep hn), bond_keep hn]
          dsimp only
          rw [hn.div_l]
          rfl
      · intro i _ hi acc
        rw [tsp.idx (by omega), ok_bind, tsp.idx (by omega), ok_bind, tj.idx (by omega),
          ok_bind, hf _ (by omega), ok_bind]
        rfl
    · intro i _ hi
      rw [th.idx hi, ok_bind]
      unfold fieldF
      split <;> rfl
  · unfold SpinChain.total_energy
    rw [hsize_natF w, ssize_natF w]
    dsimp only
    rw [usub_ok hL, ok_bind, forRange_ok (fun i e => e - SpinChain.sjs_energy (sp i) (sp (i + 1)) (j i)),
      ok_bind, tsp.idx (by omega), ok_bind, tsp.idx (by omega), ok_bind, tj.idx (by omega), ok_bind,
      forRange_ok (fun i e => e + SpinChain.sh_energy (sp i) (hh i)), ok_bind, he, ok_bind,
      forRange_ok (fun i e' => e' + SpinChain.sh_energy (sp i) e), ok_bind]
    · obtain ⟨k, hk⟩ : ∃ k, s - 0 = k + 1 := ⟨s - 1, by omega⟩
      rw [hk, foldl_lost (g := fun i e' => e' + SpinChain.sh_energy (sp i) e) (fun e => ?_)
        (fun i => hn.add_l _), hn.add_r, hn.div_l]
      · rfl
      · simp only [SpinChain.sh_energy, for3, V3.get, hx, hn.mul_r, hn.add_l, hn.add_r]
    · intro i _ hi acc
      rw [tsp.idx (by omega), ok_bind]; rfl
    · intro i _ hi acc
      rw [tsp.idx (by omega), ok_bind, th.idx (by omega), ok_bind]; rfl
    · intro i _ hi acc
      rw [tsp.idx (by omega), ok_bind, tsp.idx (by omega), ok_bind, tj.idx (by omega), ok_bind]; rfl
  · unfold SpinChain.system_energy
    rw [ssize_natF w, he, ok_bind, mapRange_ok (fun i => SpinChain.sum_vec (hh i) e), ok_bind,
      usub_ok hs, ok_bind]
    · have hf : ∀ i, i < s → idx ((List.range' 0 (s - 0)).map fun i => SpinChain.sum_vec (hh i) e) i
          = .ok (SpinChain.sum_vec (hh i) e) := fun i hi => idx_some (getElem?_map_range' _ _ _ (by omega))
      rw [forRange_ok (fun i e' => SpinChain.bondField (sp i) (sp (i + 1)) (j i)
        (SpinChain.sum_vec (hh i) e) e')]
      · obtain ⟨k, hk⟩ : ∃ k, s - 1 - 0 = k + 1 := ⟨s - 2, by omega⟩
        rw [ok_bind, hk, foldl_lost (fun e' => bond_lost hn ?_ e') (fun i => bond_keep hn), hn.div_l]
        · rfl
        · simp only [SpinChain.sum_vec, hx, hn.add_r]
      · intro i _ hi acc
        rw [tsp.idx (by omega), ok_bind, tsp.idx (by omega), ok_bind, tj.idx (by omega),
          ok_bind, hf _ (by omega), ok_bind]
        rfl
    · intro i _ hi
      rw [th.idx (by omega), ok_bind]
      rfl

end anyF

/-! ### period zero -/

theorem xf_noPhase {v : Config XF} (h : v.tau.IsZero) : NoPhase XF.nan v := by
  intro t
  have key : ∀ x z : XF, z.IsZero → fcos (x / z) = XF.nan := by
    intro x z hz
    have : x / z = .nan ∨ ∃ b, x / z = .inf b := by
      have hz' : z.real = 0 := by rcases hz with rfl | rfl <;> rfl
      by_cases hx : x.real = 0 <;> rcases hz with rfl | rfl <;> cases x <;>
        simp [HDiv.hDiv, Div.div, XF.div, hz', hx]
    rcases this with h | ⟨b, h⟩ <;> rw [h]
    · rfl
    · cases b <;> rfl
  exact key _ _ h

/-- the zeros of binary64 -/
def B64v.IsZero (x : B64v) : Prop := x = .fin 0 ∨ x = .nzero

/-- The library returns `NaN` for the cosine of an infinity and of `NaN`. -/
def CosOK (m : Libm) : Prop := m.cos .nan = .nan ∧ ∀ b, m.cos (.inf b) = .nan

theorem b64_noPhase {m : Libm} (hm : CosOK m) {v : Config (B64 m)} (h : B64v.IsZero v.tau) :
    NoPhase (F := B64 m) B64v.nan v := by
  intro t
  have key : ∀ x z : B64v, B64v.IsZero z → m.cos (B64v.div x z) = .nan := by
    intro x z hz
    have : B64v.div x z = .nan ∨ ∃ b, B64v.div x z = .inf b := by
      have hz' : z.val = 0 := by rcases hz with rfl | rfl <;> rfl
      by_cases hx : x.val = 0 <;> rcases hz with rfl | rfl <;> cases x <;>
        simp [B64v.div, hz', hx]
    rcases this with h | ⟨b, h⟩ <;> rw [h]
    · exact hm.1
    · exact hm.2 b
  exact key (2.0 * fpi * t : B64 m) v.tau h

/-- In IEEE binary64, a periodic drive whose period is zero (of either sign): every reported energy is
`NaN`, one update turns every driven spin into three `NaN`s, and half as many further updates as
there are sites do so with every spin. -/
theorem C104_binary64 {m : Libm} (hm : CosOK m) (c : SpinChain (B64 m)) (L s : ℕ) (w : WF c L s)
    (hL : 2 ≤ L) (hs : 1 ≤ s) (hp : Periodic c.vars) (h : B64v.IsZero c.vars.tau) :
    c.total_energy2 = .ok (B64v.nan : B64 m) ∧
    (s ≤ L → c.total_energy = .ok (B64v.nan : B64 m)) ∧
    (2 ≤ s → s ≤ L → c.system_energy = .ok (B64v.nan : B64 m)) ∧
    (∃ c', c.update = .ok c' ∧ ∀ i < 2 * (L / 2), i < s → LostAt (B64v.nan : B64 m) c' i) ∧
    ∀ k, L / 2 ≤ k → ∃ c', c.updates (k + 1) = .ok c' ∧
      ∀ i < 2 * (L / 2), LostAt (B64v.nan : B64 m) c' i := by
  have hc := b64_noPhase hm h
  have hn := b64_absorbing m
  obtain ⟨h1, h2, h3⟩ := C104_energies hn w (by omega) hs hp hc
  obtain ⟨c1, u1⟩ := updates_ok w hL 1
  obtain ⟨c1', u1', u1''⟩ := updates_succ u1
  cases u1''
  have hl := fun i hi his => C104_spins hn w hL hp hc u1' (i := i) hi his
  refine ⟨h1, h2, h3, ⟨c1, u1', hl⟩, fun k hk => ?_⟩
  obtain ⟨c2, u2⟩ := updates_ok (update_wf w u1') hL k
  refine ⟨c2, by unfold SpinChain.updates; rw [u1', ok_bind, u2], fun i hi => ?_⟩
  exact C64_all_lost hn (update_wf w u1') hL (i := 0) (by omega) (hl 0 (by omega) (by omega)).sick k
    hk u2 i hi

/-- the same with extended real numbers: the ends of C103 meet -/
theorem C104_exact (c : SpinChain XF) (L s : ℕ) (w : WF c L s)
    (hL : 2 ≤ L) (hs : 1 ≤ s) (hp : Periodic c.vars) (h : c.vars.tau.IsZero) :
    c.total_energy2 = .ok .nan ∧ (s ≤ L → c.total_energy = .ok .nan) ∧
    (2 ≤ s → s ≤ L → c.system_energy = .ok .nan) ∧
    ∃ c', c.update = .ok c' ∧ ∀ i < 2 * (L / 2), i < s → LostAt XF.nan c' i := by
  have hc := xf_noPhase h
  have hn := xf_absorbing
  obtain ⟨h1, h2, h3⟩ := C104_energies hn w (by omega) hs hp hc
  obtain ⟨c1, u1⟩ := updates_ok w hL 1
  obtain ⟨c1', u1', u1''⟩ := updates_succ u1
  cases u1''
  exact ⟨h1, h2, h3, c1, u1', fun i hi his => C104_spins hn w hL hp hc u1' hi his⟩

/-- four healthy spins, two of them driven in the plane with period zero -/
def zeroChain (m : Libm) : SpinChain (B64 m) where
  t := 0.0
  spins := [⟨⟨0.0, 0.0, 1.0⟩⟩, ⟨⟨1.0, 0.0, 0.0⟩⟩, ⟨⟨0.0, 1.0, 0.0⟩⟩, ⟨⟨0.0, 0.0, 1.0⟩⟩]
  j_couple := List.replicate 4 ⟨1.0, 1.0, 1.0⟩
  static_h := List.replicate 4 ⟨0.0, 0.0, 0.0⟩
  file := none
  vars := { (Config.default : Config (B64 m)) with
            hsize := 4
            ssize := 2
            drive := .xyplane
            tau := B64v.fin 0 }

theorem zeroChain_wf (m : Libm) : WF (zeroChain m) 4 2 := by
  constructor <;> simp [zeroChain, Config.default]

example {m : Libm} (hm : CosOK m) : (zeroChain m).system_energy = .ok (B64v.nan : B64 m) ∧
    ∃ c', (zeroChain m).updates 3 = .ok c' ∧ ∀ i < 4, LostAt (B64v.nan : B64 m) c' i := by
  obtain ⟨_, _, h3, _, h5⟩ := C104_binary64 hm (zeroChain m) 4 2 (zeroChain_wf m) (by norm_num)
    (by norm_num) (.inl rfl) (.inl rfl)
  exact ⟨h3 (by norm_num) (by norm_num), h5 2 (by norm_num)⟩

/-- a library with this property exists -/
example : CosOK ⟨id, id, fun x => match x with
  | .fin q => .fin q
  | .nzero => .fin 1
  | _ => .nan, id, id, id, id, id⟩ := ⟨rfl, fun _ => rfl⟩

end Verif.Props
