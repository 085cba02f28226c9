/-
Properties C82 and C83: symmetries of the time evolution (/repo/src/spinchain.rs `update`).
-/
import Verif.Props.Work
import Verif.Instances.B64
import Mathlib.Data.List.Rotate

set_option linter.unusedSectionVars false

namespace Verif.Props

open Spec Finset

/-! ### C83: translations by an even number of sites, and the mirror image -/

section anyF
variable {F : Type} [Add F] [Sub F] [Mul F] [Div F] [Neg F] [OfScientific F] [FOps F]

theorem tab_rotate {α : Type} {xs : List α} {n : ℕ} {f : ℕ → α} (h : Tab xs n f) (k : ℕ) :
    Tab (xs.rotate k) n (fun i => f ((i + k) % n)) := by
  apply tab_of_getElem?
  · rw [List.length_rotate, h.length]
  · intro i hi
    rw [List.getElem?_rotate (by rw [h.length]; exact hi), h.length,
      h.getElem? (Nat.mod_lt _ (by omega))]

theorem tab_reverse {α : Type} {xs : List α} {n : ℕ} {f : ℕ → α} (h : Tab xs n f) :
    Tab xs.reverse n (fun i => f (n - 1 - i)) := by
  apply tab_of_getElem?
  · rw [List.length_reverse, h.length]
  · intro i hi
    rw [List.getElem?_reverse (by rw [h.length]; exact hi), h.length, h.getElem? (by omega)]

/-- relabelling the sites by `σ` commutes with a sub-step if it preserves parity and carries local
fields over -/
theorem subF_relabel {m par : ℕ} {σ : ℕ → ℕ} {j j' h h' : ℕ → V3 F} {sp sp' : ℕ → Spin F} (dt : F)
    (hσ : ∀ i < m, σ i < m ∧ σ i % 2 = i % 2) (hs : ∀ i < m, sp' i = sp (σ i))
    (ho : ∀ i < m, omF m j' h' sp' i = omF m j h sp (σ i)) :
    ∀ i < m, subF m par j' h' dt sp' i = subF m par j h dt sp (σ i) := by
  intro i hi
  obtain ⟨h1, h2⟩ := hσ i hi
  unfold subF
  rw [h2]
  by_cases hp : i % 2 = par
  · rw [if_pos ⟨hi, hp⟩, if_pos ⟨h1, hp⟩, hs i hi, ho i hi]
  · rw [if_neg (fun h => hp h.2), if_neg (fun h => hp h.2), hs i hi]

theorem stepF_relabel {m : ℕ} {σ : ℕ → ℕ} {j j' h h' : ℕ → V3 F} {sp sp' : ℕ → Spin F} (dt : F)
    (hσ : ∀ i < m, σ i < m ∧ σ i % 2 = i % 2) (hs : ∀ i < m, sp' i = sp (σ i))
    (ho : ∀ sp sp' : ℕ → Spin F, (∀ i < m, sp' i = sp (σ i)) →
      ∀ i < m, omF m j' h' sp' i = omF m j h sp (σ i)) :
    ∀ i < m, stepF m j' h' dt sp' i = stepF m j h dt sp (σ i) := by
  have h1 := subF_relabel (par := 0) (dt / 2.0) hσ hs (ho _ _ hs)
  have h2 := subF_relabel (par := 1) dt hσ h1 (ho _ _ h1)
  exact subF_relabel (par := 0) (dt / 2.0) hσ h2 (ho _ _ h2)

/-- the chain seen `k` sites further on: site `i` becomes what site `i + k` was -/
def translate (k : ℕ) (c : SpinChain F) : SpinChain F :=
  { c with
    spins := c.spins.rotate k
    j_couple := c.j_couple.rotate k
    static_h := c.static_h.rotate k }

theorem translate_wf {c : SpinChain F} {L s : ℕ} (w : WF c L s) (k : ℕ) : WF (translate k c) L s :=
  ⟨w.hsize, w.ssize, w.L_lt, w.s_lt, by simp [translate, w.spins], by simp [translate, w.j],
    by simp [translate, w.h], w.hs⟩

theorem update_translate {c : SpinChain F} {L s k : ℕ} (w : WF c L s) (hL : 2 ≤ L)
    (heven : L % 2 = 0) (hk : k % 2 = 0) (hs : s = 0 ∨ L ≤ s) :
    (translate k c).update = c.update.map (translate k) := by
  obtain ⟨j, h, sp, hj, hh, hsp⟩ := wf_tabs w (by omega)
  obtain ⟨e, he⟩ := h_ext_ok w.hs (c.t + c.vars.dt / 2.0)
  obtain ⟨s1, g1, g2⟩ := update_tab w hL hj hh hsp he
  obtain ⟨s2, g3, g4⟩ := update_tab (translate_wf w k) hL (tab_rotate hj k) (tab_rotate hh k)
    (tab_rotate hsp k) (e := e) (by rw [← he]; exact h_ext_vars rfl _)
  rw [g1, g3]
  show Except.ok _ = Except.ok _
  congr 1
  unfold translate
  congr 1
  have hm : 2 * (L / 2) = L := by omega
  rw [hm] at g2 g4
  have hlt : ∀ i, (i + k) % L < L := fun i => Nat.mod_lt _ (by omega)
  have key := stepF_relabel (m := L) (σ := fun i => (i + k) % L) (j := j) (h := fieldF s h e)
    (j' := fun i => j ((i + k) % L)) (h' := fieldF s (fun i => h ((i + k) % L)) e)
    (sp := sp) (sp' := fun i => sp ((i + k) % L)) c.vars.dt
    (fun i hi => ⟨hlt i, by
      rw [Nat.mod_mod_of_dvd _ (Nat.dvd_of_mod_eq_zero heven)]; omega⟩)
    (fun i _ => rfl) (by
      intro sp sp' hsp i hi
      unfold omF
      have e1 : (((i + L - 1) % L) + k) % L = ((i + k) % L + L - 1) % L := by
        rw [Nat.mod_add_mod, show (i + k) % L + L - 1 = (i + k) % L + (L - 1) by omega,
          Nat.mod_add_mod]
        congr 1; omega
      have e2 : (((i + 1) % L) + k) % L = ((i + k) % L + 1) % L := by
        rw [Nat.mod_add_mod, Nat.mod_add_mod]; congr 1; omega
      have hf : fieldF s (fun i => h ((i + k) % L)) e i = fieldF s h e ((i + k) % L) := by
        unfold fieldF
        have := hlt i
        rcases hs with rfl | hs
        · simp
        · rw [if_pos (by omega), if_pos (by omega)]
      simp only [hsp _ (Nat.mod_lt (i + L - 1) (show 0 < L by omega)),
        hsp _ (Nat.mod_lt (i + 1) (show 0 < L by omega)), e1, e2, hf])
  have t1 := tab_rotate g2 k
  have t2 := g4.congr (fun i hi => key i hi)
  unfold Tab at t1 t2
  rw [t1]
  exact t2

/-- On a chain of even length that is driven everywhere or nowhere, moving all spins, couplings and
fields by an even number of sites around the ring moves the whole history with them. -/
theorem C83_translation (c : SpinChain F) (L s n k : ℕ) (w : WF c L s) (hL : 2 ≤ L)
    (heven : L % 2 = 0) (hk : k % 2 = 0) (hs : s = 0 ∨ L ≤ s) :
    ∃ c' d', c.updates n = .ok c' ∧
      ({ c with
        spins := c.spins.rotate k
        j_couple := c.j_couple.rotate k
        static_h := c.static_h.rotate k } : SpinChain F).updates n = .ok d' ∧
      d'.spins = c'.spins.rotate k ∧ d'.t = c'.t := by
  have key : (translate k c).updates n = (c.updates n).map (translate k) := by
    induction n generalizing c with
    | zero => rfl
    | succ n ih =>
      show ((translate k c).update >>= _) = ((c.update >>= _).map _)
      rw [update_translate w hL heven hk hs]
      obtain ⟨c', h'⟩ := update_ok w hL
      rw [h']
      exact ih c' (update_wf w h')
  obtain ⟨c', h⟩ := updates_ok w hL n
  rw [h] at key
  exact ⟨c', translate k c', h, key, rfl, rfl⟩

/-- the mirror image: site `i` becomes what site `-i` was, and the bond to the right of `i` the bond
to the left of `-i` -/
def mirror (c : SpinChain F) : SpinChain F :=
  { c with
    spins := c.spins.reverse.rotate (c.spins.length - 1)
    j_couple := c.j_couple.reverse
    static_h := c.static_h.reverse.rotate (c.static_h.length - 1) }

theorem mirror_wf {c : SpinChain F} {L s : ℕ} (w : WF c L s) : WF (mirror c) L s :=
  ⟨w.hsize, w.ssize, w.L_lt, w.s_lt, by simp [mirror, w.spins], by simp [mirror, w.j],
    by simp [mirror, w.h], w.hs⟩

theorem tab_mirror {α : Type} {xs : List α} {n : ℕ} {f : ℕ → α} (h : Tab xs n f) :
    Tab (xs.reverse.rotate (xs.length - 1)) n (fun i => f ((n - i) % n)) := by
  have := tab_rotate (tab_reverse h) (xs.length - 1)
  refine this.congr fun i hi => ?_
  rw [h.length]
  congr 1
  rcases Nat.eq_zero_or_pos i with rfl | h0
  · rw [Nat.zero_add, Nat.mod_eq_of_lt (show n - 1 < n by omega), Nat.sub_zero, Nat.mod_self]
    omega
  · rw [show i + (n - 1) = (i - 1) + n by omega, Nat.add_mod_right,
      Nat.mod_eq_of_lt (show i - 1 < n by omega), Nat.mod_eq_of_lt (show n - i < n by omega)]
    omega

theorem update_mirror (hcomm : ∀ a b : F, a + b = b + a) {c : SpinChain F} {L s : ℕ} (w : WF c L s)
    (hL : 2 ≤ L) (heven : L % 2 = 0) (hs : s = 0 ∨ L ≤ s) :
    (mirror c).update = c.update.map mirror := by
  obtain ⟨j, h, sp, hj, hh, hsp⟩ := wf_tabs w (by omega)
  obtain ⟨e, he⟩ := h_ext_ok w.hs (c.t + c.vars.dt / 2.0)
  obtain ⟨s1, g1, g2⟩ := update_tab w hL hj hh hsp he
  obtain ⟨s2, g3, g4⟩ := update_tab (mirror_wf w) hL (tab_reverse hj) (tab_mirror hh)
    (tab_mirror hsp) (e := e) (by rw [← he]; exact h_ext_vars rfl _)
  rw [g1, g3]
  show Except.ok _ = Except.ok _
  congr 1
  unfold mirror
  congr 1
  have hm : 2 * (L / 2) = L := by omega
  rw [hm] at g2 g4
  have hlt : ∀ i, (L - i) % L < L := fun i => Nat.mod_lt _ (by omega)
  have hval : ∀ i < L, (L - i) % L = if i = 0 then 0 else L - i := by
    intro i hi
    split
    · next h => rw [h, Nat.sub_zero, Nat.mod_self]
    · rw [Nat.mod_eq_of_lt (by omega)]
  have key := stepF_relabel (m := L) (σ := fun i => (L - i) % L) (j := j) (h := fieldF s h e)
    (j' := fun i => j (L - 1 - i)) (h' := fieldF s (fun i => h ((L - i) % L)) e)
    (sp := sp) (sp' := fun i => sp ((L - i) % L)) c.vars.dt
    (fun i hi => ⟨hlt i, by
      simp only [hval i hi]; split <;> omega⟩)
    (fun i _ => rfl) (by
      intro sp sp' hsp i hi
      have hl : (i + L - 1) % L < L := Nat.mod_lt _ (by omega)
      have hr : (i + 1) % L < L := Nat.mod_lt _ (by omega)
      have e1 : (L - (i + L - 1) % L) % L = ((L - i) % L + 1) % L := by
        rcases Nat.eq_zero_or_pos i with rfl | h0
        · rw [left_zero (by omega), Nat.sub_zero, Nat.mod_self]; congr 1; omega
        · rw [left_pos h0 hi, Nat.mod_add_mod]; congr 1; omega
      have e2 : (L - (i + 1) % L) % L = ((L - i) % L + L - 1) % L := by
        rcases Nat.eq_zero_or_pos i with rfl | h0
        · rw [right_lt (by omega), Nat.sub_zero, Nat.mod_self]; congr 1; omega
        · by_cases h1 : i + 1 = L
          · rw [right_last h1, Nat.mod_eq_of_lt (show L - i < L by omega), Nat.sub_zero,
              show L - i + L - 1 = L by omega]
          · rw [right_lt (by omega), Nat.mod_eq_of_lt (show L - i < L by omega),
              show L - i + L - 1 = (L - (i + 1)) + L by omega, Nat.add_mod_right]
      have e3 : L - 1 - (i + L - 1) % L = (L - i) % L := by
        rcases Nat.eq_zero_or_pos i with rfl | h0
        · rw [left_zero (by omega), Nat.sub_zero, Nat.mod_self]; omega
        · rw [left_pos h0 hi, Nat.mod_eq_of_lt (show L - i < L by omega)]; omega
      have e4 : L - 1 - i = ((L - i) % L + L - 1) % L := by
        rcases Nat.eq_zero_or_pos i with rfl | h0
        · simp only [Nat.sub_zero, Nat.mod_self]; rw [left_zero (by omega)]
        · rw [Nat.mod_eq_of_lt (show L - i < L by omega), left_pos (by omega) (by omega)]; omega
      unfold omF
      simp only [hsp _ hl, hsp _ hr, e1, e2, e3, e4]
      have hf : fieldF s (fun i => h ((L - i) % L)) e i = fieldF s h e ((L - i) % L) := by
        unfold fieldF
        have := hlt i
        rcases hs with rfl | hs
        · simp
        · rw [if_pos (by omega), if_pos (by omega)]
      rw [hf]
      unfold SpinChain.ssh_sum
      congr 1 <;> (congr 1; exact hcomm _ _))
  have t1 := tab_mirror g2
  have t2 := g4.congr (fun i hi => key i hi)
  unfold Tab at t1 t2
  rw [t1]
  exact t2

/-- The same for the mirror image of the chain, when addition is commutative (as it is in exact and in
floating-point arithmetic, see below). -/
theorem C83_mirror (hcomm : ∀ a b : F, a + b = b + a) (c : SpinChain F) (L s n : ℕ) (w : WF c L s)
    (hL : 2 ≤ L) (heven : L % 2 = 0) (hs : s = 0 ∨ L ≤ s) :
    ∃ c' d', c.updates n = .ok c' ∧
      ({ c with
        spins := c.spins.reverse.rotate (c.spins.length - 1)
        j_couple := c.j_couple.reverse
        static_h := c.static_h.reverse.rotate (c.static_h.length - 1) } : SpinChain F).updates n
          = .ok d' ∧
      d'.spins = c'.spins.reverse.rotate (c'.spins.length - 1) ∧ d'.t = c'.t := by
  have key : (mirror c).updates n = (c.updates n).map mirror := by
    induction n generalizing c with
    | zero => rfl
    | succ n ih =>
      show ((mirror c).update >>= _) = ((c.update >>= _).map _)
      rw [update_mirror hcomm w hL heven hs]
      obtain ⟨c', h'⟩ := update_ok w hL
      rw [h']
      exact ih c' (update_wf w h')
  obtain ⟨c', h⟩ := updates_ok w hL n
  rw [h] at key
  exact ⟨c', mirror c', h, key, rfl, rfl⟩

end anyF

theorem b64_add_comm (m : Libm) (a b : B64 m) : a + b = b + a := by
  show B64v.add a b = B64v.add b a
  cases a <;> cases b <;> simp only [B64v.add, add_comm]
  next x y => cases x <;> cases y <;> rfl

/-- the demo chain, driven everywhere -/
noncomputable def demoAll : SpinChain ℝ := { demo with vars := { demoVars with ssize := 4 } }

example : WF demoAll 4 4 ∧ 4 % 2 = 0 ∧ 4 ≤ 4 ∧ demoAll.spins.rotate 2 ≠ demoAll.spins := by
  refine ⟨by constructor <;> simp [demoAll, demo, demoVars], rfl, le_rfl, ?_⟩
  intro h
  have := congrArg (fun l => l[0]?) h
  norm_num [demoAll, demo] at this

/-! ### C82: rotations of all spins -/

/-- a rotation of space: linear, preserving inner products and orientation -/
structure IsRotation (R : V3 ℝ → V3 ℝ) : Prop where
  add : ∀ a b, R (Spec.add a b) = Spec.add (R a) (R b)
  smul : ∀ r a, R (smul r a) = smul r (R a)
  dot : ∀ a b, dot (R a) (R b) = dot a b
  cross : ∀ a b, cross (R a) (R b) = R (cross a b)

variable {R : V3 ℝ → V3 ℝ}

theorem IsRotation.len (h : IsRotation R) (a : V3 ℝ) : len (R a) = len a := by
  unfold Spec.len; rw [h.dot]

theorem sub_eq_add (a b : V3 ℝ) : Spec.sub a b = Spec.add a (smul (-1) b) := by
  ext <;> simp only [Spec.sub, Spec.add, smul] <;> ring

theorem IsRotation.sub (h : IsRotation R) (a b : V3 ℝ) : R (Spec.sub a b) = Spec.sub (R a) (R b) := by
  rw [sub_eq_add, h.add, h.smul, ← sub_eq_add]

theorem IsRotation.ne_zero (h : IsRotation R) {a : V3 ℝ} (ha : a ≠ zero) : R a ≠ zero := by
  intro h0
  apply ha
  have : Spec.dot a a = 0 := by rw [← h.dot, h0]; simp [Spec.dot, zero]
  simp only [Spec.dot] at this
  ext <;> simp only [zero] <;> nlinarith [sq_nonneg a.x, sq_nonneg a.y, sq_nonneg a.z]

theorem IsRotation.precess (h : IsRotation R) (v b : V3 ℝ) (t : ℝ) :
    Spec.precess (R v) (R b) t = R (Spec.precess v b t) := by
  unfold Spec.precess
  simp only
  simp only [h.len, h.sub, h.add, ← h.smul, h.dot, h.cross]

section
variable {m par : ℕ} {J B B' S : ℕ → V3 ℝ} {dt : ℝ}

theorem omega_rot (h : IsRotation R) (hm : 1 ≤ m) (hJ : ∀ i < m, ∀ v, R (had (J i) v) = had (J i) (R v))
    (hB : ∀ i < m, B' i = R (B i)) {i : ℕ} (hi : i < m) :
    omega m (fun k => R (S k)) J B' i = R (omega m S J B i) := by
  unfold omega
  rw [h.sub, h.add, hJ _ (left_lt hm), hJ i hi, hB i hi]

theorem subStep_rot (h : IsRotation R) (hm : 1 ≤ m)
    (hJ : ∀ i < m, ∀ v, R (had (J i) v) = had (J i) (R v)) (hB : ∀ i < m, B' i = R (B i)) :
    subStep m par J B' dt (fun k => R (S k)) = fun k => R (subStep m par J B dt S k) := by
  funext i
  by_cases hi : i < m ∧ i % 2 = par
  · rw [subStep_pos hi]
    rw [subStep_pos hi, omega_rot h hm hJ hB hi.1, h.precess]
  · rw [subStep_neg hi]
    rw [subStep_neg hi]

theorem step_rot (h : IsRotation R) (hm : 1 ≤ m)
    (hJ : ∀ i < m, ∀ v, R (had (J i) v) = had (J i) (R v)) (hB : ∀ i < m, B' i = R (B i)) :
    step m J B' dt (fun k => R (S k)) = fun k => R (step m J B dt S k) := by
  unfold step
  rw [subStep_rot h hm hJ hB, subStep_rot h hm hJ hB, subStep_rot h hm hJ hB]

theorem regular_rot (h : IsRotation R) (hm : 1 ≤ m)
    (hJ : ∀ i < m, ∀ v, R (had (J i) v) = had (J i) (R v)) (hB : ∀ i < m, B' i = R (B i))
    (hr : Regular m J B dt S) : Regular m J B' dt (fun k => R (S k)) := by
  obtain ⟨r1, r2, r3⟩ := hr
  refine ⟨?_, ?_, ?_⟩
  · intro i hi hp
    rw [omega_rot h hm hJ hB hi]
    exact h.ne_zero (r1 i hi hp)
  · intro i hi hp
    rw [subStep_rot h hm hJ hB, omega_rot h hm hJ hB hi]
    exact h.ne_zero (r2 i hi hp)
  · intro i hi hp
    rw [subStep_rot h hm hJ hB, subStep_rot h hm hJ hB, omega_rot h hm hJ hB hi]
    exact h.ne_zero (r3 i hi hp)
end

/-- the chain with all spins turned by `R` and the clock moved by `δ` -/
def turn (R : V3 ℝ → V3 ℝ) (δ : ℝ) (c : SpinChain ℝ) : SpinChain ℝ :=
  { c with
    spins := c.spins.map fun x => ⟨R x.dir⟩
    t := c.t + δ }

theorem turn_wf {c : SpinChain ℝ} {L s : ℕ} (w : WF c L s) (δ : ℝ) : WF (turn R δ c) L s :=
  ⟨w.hsize, w.ssize, w.L_lt, w.s_lt, by simp [turn, w.spins], w.j, w.h, w.hs⟩

theorem turn_S {c : SpinChain ℝ} (h : IsRotation R) (δ : ℝ) : S (turn R δ c) = fun k => R (S c k) := by
  have h0 : R zero = zero := by
    have := h.smul 0 zero
    have e : ∀ v, smul 0 v = zero := by intro v; ext <;> simp [smul, zero]
    rwa [e, e] at this
  funext k
  unfold S turn
  rw [List.getElem?_map]
  cases c.spins[k]? with
  | none => simp [h0]
  | some x => rfl

theorem turn_unit {c : SpinChain ℝ} (h : IsRotation R) (δ : ℝ) (hu : ∀ x ∈ c.spins, IsUnit3 x) :
    ∀ x ∈ (turn R δ c).spins, IsUnit3 x := by
  intro x hx
  obtain ⟨y, hy, rfl⟩ := List.mem_map.1 hx
  show len (R y.dir) = 1
  rw [h.len]
  exact hu y hy

/-- what has to be unchanged by the rotation: couplings and static fields; the drive may turn with
it, if the clock is moved accordingly -/
structure TurnSym (R : V3 ℝ → V3 ℝ) (δ : ℝ) (c : SpinChain ℝ) (L : ℕ) : Prop where
  rot : IsRotation R
  coupling : ∀ i < L, ∀ v, R (had (J c i) v) = had (J c i) (R v)
  field : ∀ i < L, R (H0 c i) = H0 c i
  drive : ∀ t, drive c.vars (t + δ) = R (drive c.vars t)

theorem turn_B {c : SpinChain ℝ} {L s : ℕ} {δ : ℝ} (hs : TurnSym R δ c L) (t : ℝ) {i : ℕ} (hi : i < L) :
    B (turn R δ c) s (t + δ) i = R (B c s t i) := by
  unfold B
  show (if i < s then Spec.add (H0 c i) (Spec.drive c.vars (t + δ)) else H0 c i) = _
  split
  · rw [hs.rot.add, hs.field i hi, hs.drive]
  · rw [hs.field i hi]

theorem update_turn {c : SpinChain ℝ} {L s : ℕ} {δ : ℝ} (w : WF c L s) (hL : 2 ≤ L)
    (hu : ∀ x ∈ c.spins, IsUnit3 x) (hr : RegularStep c L s) (hs : TurnSym R δ c L) :
    (turn R δ c).update = c.update.map (turn R δ) := by
  have hm : 1 ≤ 2 * (L / 2) := by omega
  have hJ : ∀ i < 2 * (L / 2), ∀ v, R (had (J c i) v) = had (J c i) (R v) :=
    fun i hi => hs.coupling i (by omega)
  have hB : ∀ i < 2 * (L / 2), B (turn R δ c) s ((turn R δ c).t + (turn R δ c).vars.dt / 2) i
      = R (B c s (c.t + c.vars.dt / 2) i) := by
    intro i hi
    rw [← turn_B hs _ (show i < L by omega)]
    congr 1
    show c.t + δ + c.vars.dt / 2 = _
    ring
  have hr' : RegularStep (turn R δ c) L s := by
    unfold RegularStep
    rw [turn_S hs.rot]
    exact regular_rot hs.rot hm hJ hB hr
  obtain ⟨c', h1, _, h3⟩ := update_spec w hL hu hr
  obtain ⟨d', g1, _, g3⟩ := update_spec (turn_wf w δ) hL (turn_unit hs.rot δ hu) hr'
  rw [h1, g1]
  show Except.ok _ = Except.ok _
  congr 1
  rw [turn_S hs.rot, show J (turn R δ c) = J c from rfl] at g3
  have e := g3.trans (step_rot hs.rot hm hJ hB)
  rw [show (turn R δ c).vars.dt = c.vars.dt from rfl, ← h3, ← turn_S hs.rot δ] at e
  have hsp := S_ext (update_wf (turn_wf w δ) g1) (turn_wf (update_wf w h1) δ) e
  obtain ⟨a1, a2, a3, a4, _⟩ := update_frame h1
  obtain ⟨b1, b2, b3, b4, _⟩ := update_frame g1
  have ht := C25_time _ c' 1 (updates_succ'.2 ⟨_, rfl, h1⟩)
  have ht' := C25_time _ d' 1 (updates_succ'.2 ⟨_, rfl, g1⟩)
  cases d'; cases c'
  simp only [turn] at *
  subst a1 a2 a3 a4 b1 b2 b3 b4 hsp ht ht'
  congr 1
  ring

/-- Turning all spins by a rotation that leaves couplings and static fields alone, and the clock such
that the drive turns with them, turns the whole history, and the reported energy stays the same. -/
theorem C82_rotation (R : V3 ℝ → V3 ℝ) (δ : ℝ) (c : SpinChain ℝ) (L s n : ℕ) (w : WF c L s)
    (hL : 2 ≤ L) (hu : ∀ x ∈ c.spins, IsUnit3 x) (hr : RegularRun c L s n)
    (rot : IsRotation R) (hJ : ∀ i < L, ∀ v, R (had (J c i) v) = had (J c i) (R v))
    (hH : ∀ i < L, R (H0 c i) = H0 c i)
    (hD : ∀ t, drive c.vars (t + δ) = R (drive c.vars t)) :
    ∃ c' d', c.updates n = .ok c' ∧
      ({ c with
        spins := c.spins.map fun x => ⟨R x.dir⟩
        t := c.t + δ } : SpinChain ℝ).updates n = .ok d' ∧
      d'.spins = c'.spins.map (fun x => ⟨R x.dir⟩) ∧ d'.t = c'.t + δ ∧
      d'.total_energy2 = c'.total_energy2 := by
  have hs : TurnSym R δ c L := ⟨rot, hJ, hH, hD⟩
  have key : (turn R δ c).updates n = (c.updates n).map (turn R δ) := by
    clear hJ hH hD
    induction n generalizing c with
    | zero => rfl
    | succ n ih =>
      show ((turn R δ c).update >>= _) = ((c.update >>= _).map _)
      rw [update_turn w hL hu (hr 0 (by omega) c rfl) hs]
      obtain ⟨c', h', u', _⟩ := update_spec w hL hu (hr 0 (by omega) c rfl)
      rw [h']
      obtain ⟨a1, a2, a3, _⟩ := update_frame h'
      refine ih c' (update_wf w h') u' ?_ ⟨hs.rot, ?_, ?_, ?_⟩
      · intro k hk d hd
        refine hr (k + 1) (by omega) d ?_
        show (c.update >>= _) = _
        rw [h']
        exact hd
      · rw [J_congr a1]; exact hs.coupling
      · rw [H0_congr a2]; exact hs.field
      · rw [a3]; exact hs.drive
  obtain ⟨c', h⟩ := updates_ok w hL n
  rw [h] at key
  refine ⟨c', turn R δ c', h, key, rfl, rfl, ?_⟩
  have w' := updates_wf w h
  obtain ⟨a1, a2, a3, _⟩ := updates_frame h
  have hs' : TurnSym R δ c' L :=
    ⟨rot, by rw [J_congr a1]; exact hJ, by rw [H0_congr a2]; exact hH, by rw [a3]; exact hD⟩
  rw [total_energy2_eq (turn_wf w' δ) (by omega), total_energy2_eq w' (by omega)]
  congr 2
  unfold ringEnergy
  refine Finset.sum_congr rfl fun i hi => ?_
  rw [mem_range] at hi
  rw [turn_S rot, show (turn R δ c').t = c'.t + δ from rfl, turn_B hs' _ hi, rot.dot,
    show J (turn R δ c') = J c' from rfl]
  beta_reduce
  rw [← hs'.coupling i hi, rot.dot]

/-- rotation about z by the angle `a` -/
noncomputable def rotZ (a : ℝ) (v : V3 ℝ) : V3 ℝ :=
  ⟨Real.cos a * v.x - Real.sin a * v.y, Real.sin a * v.x + Real.cos a * v.y, v.z⟩

theorem rotZ_rotation (a : ℝ) : IsRotation (rotZ a) := by
  have h := Real.sin_sq_add_cos_sq a
  constructor
  · intro u v; ext <;> simp only [rotZ, Spec.add] <;> ring
  · intro r v; ext <;> simp only [rotZ, smul] <;> ring
  · intro u v
    simp only [rotZ, dot]
    linear_combination (u.x * v.x + u.y * v.y) * h
  · intro u v
    ext <;> simp only [rotZ, cross]
    · ring
    · ring
    · linear_combination (u.x * v.y - u.y * v.x) * h

/-- Chains with couplings `(j, j, λ)` and static fields along z (the ones the program makes without
disorder, unless `hfield` or `hs` is tilted): turning all spins about z by any angle turns the
history; with the rotating drive the clock has to be moved by the same fraction of a period. -/
theorem C82_about_z (a : ℝ) (c : SpinChain ℝ) (L s n : ℕ) (w : WF c L s)
    (hL : 2 ≤ L) (hu : ∀ x ∈ c.spins, IsUnit3 x) (hr : RegularRun c L s n)
    (hJ : ∀ i < L, (J c i).x = (J c i).y) (hH : ∀ i < L, (H0 c i).x = 0 ∧ (H0 c i).y = 0)
    (δ : ℝ) (hd : c.vars.drive = .none ∨
      (c.vars.drive = .xyplane ∧ c.vars.tau ≠ 0 ∧ δ = a * c.vars.tau / (2 * Real.pi))) :
    ∃ c' d', c.updates n = .ok c' ∧
      ({ c with
        spins := c.spins.map fun x => ⟨rotZ a x.dir⟩
        t := c.t + δ } : SpinChain ℝ).updates n = .ok d' ∧
      d'.spins = c'.spins.map (fun x => ⟨rotZ a x.dir⟩) ∧ d'.t = c'.t + δ ∧
      d'.total_energy2 = c'.total_energy2 := by
  refine C82_rotation (rotZ a) δ c L s n w hL hu hr (rotZ_rotation a) ?_ ?_ ?_
  · intro i hi v
    have := hJ i hi
    ext <;> simp only [rotZ, had, this] <;> ring
  · intro i hi
    obtain ⟨h1, h2⟩ := hH i hi
    ext <;> simp [rotZ, h1, h2]
  · intro t
    rcases hd with hd | ⟨hd, ht, hδ⟩
    · unfold drive
      rw [hd]
      ext <;> simp [rotZ, zero]
    · unfold drive
      rw [hd]
      have e : 2 * Real.pi * (t + δ) / c.vars.tau = a + 2 * Real.pi * t / c.vars.tau := by
        rw [hδ]
        field_simp
        ring
      simp only [e, rotZ, Real.cos_add, Real.sin_add]

/-- Isotropic chains without fields and drive: any rotation of all spins. -/
theorem C82_isotropic (R : V3 ℝ → V3 ℝ) (rot : IsRotation R) (c : SpinChain ℝ) (L s n : ℕ)
    (w : WF c L s) (hL : 2 ≤ L) (hu : ∀ x ∈ c.spins, IsUnit3 x) (hr : RegularRun c L s n)
    (hJ : ∀ i < L, (J c i).x = (J c i).z ∧ (J c i).y = (J c i).z) (hH : ∀ i < L, H0 c i = zero)
    (hd : c.vars.drive = .none) :
    ∃ c' d', c.updates n = .ok c' ∧
      ({ c with spins := c.spins.map fun x => ⟨R x.dir⟩ } : SpinChain ℝ).updates n = .ok d' ∧
      d'.spins = c'.spins.map (fun x => ⟨R x.dir⟩) ∧ d'.t = c'.t ∧
      d'.total_energy2 = c'.total_energy2 := by
  have h0 : R zero = zero := by
    have := rot.smul 0 zero
    have e : ∀ v, smul 0 v = zero := by intro v; ext <;> simp [smul, zero]
    rwa [e, e] at this
  have := C82_rotation R 0 c L s n w hL hu hr rot ?_ ?_ ?_
  · simpa only [add_zero] using this
  · intro i hi v
    have e : ∀ u, had (J c i) u = smul (J c i).z u := by
      intro u; ext <;> simp only [had, smul, (hJ i hi).1, (hJ i hi).2]
    rw [e, e, rot.smul]
  · intro i hi; rw [hH i hi, h0]
  · intro t; unfold drive; rw [hd]; exact h0.symm

/-- four spins with xxz couplings, strong fields along z, rotating drive on the first two -/
noncomputable def xxz : SpinChain ℝ :=
  { demo with
    j_couple := [⟨1, 1, 1 / 2⟩, ⟨9 / 10, 9 / 10, 1 / 2⟩, ⟨1, 1, 1 / 2⟩, ⟨1, 1, 3 / 5⟩]
    static_h := [⟨0, 0, 6 / 5⟩, ⟨0, 0, 6 / 5⟩, ⟨0, 0, 3 / 2⟩, ⟨0, 0, 3 / 2⟩] }

theorem xxz_wf : WF xxz 4 2 := by
  constructor <;> simp [xxz, demo, demoVars]

theorem xxz_regular (n : ℕ) : RegularRun xxz 4 2 n := by
  refine regularRun_of_dominant xxz_wf (by norm_num) demo_unit ?_ n
  intro t i hi
  have : i = 0 ∨ i = 1 ∨ i = 2 ∨ i = 3 := by omega
  rcases this with rfl | rfl | rfl | rfl <;>
    norm_num [J, B, H0, xxz, demo, demoVars, left, drive, Spec.add, zero, Config.default, abs_of_pos]

example (n : ℕ) : WF xxz 4 2 ∧ (∀ x ∈ xxz.spins, IsUnit3 x) ∧ RegularRun xxz 4 2 n ∧
    (∀ i < 4, (J xxz i).x = (J xxz i).y) ∧ (∀ i < 4, (H0 xxz i).x = 0 ∧ (H0 xxz i).y = 0) ∧
    xxz.vars.drive = .xyplane ∧ xxz.vars.tau ≠ 0 := by
  refine ⟨xxz_wf, demo_unit, xxz_regular n, ?_, ?_, rfl, by norm_num [xxz, demo, demoVars]⟩
  all_goals
    intro i hi
    have : i = 0 ∨ i = 1 ∨ i = 2 ∨ i = 3 := by omega
    rcases this with rfl | rfl | rfl | rfl <;> norm_num [J, H0, xxz]

/-- four spins with isotropic couplings, no field, no drive: neighbours at right angles -/
noncomputable def iso : SpinChain ℝ :=
  { demoStatic with
    j_couple := List.replicate 4 ⟨1, 1, 1⟩
    static_h := List.replicate 4 ⟨0, 0, 0⟩
    spins := [⟨⟨0, 0, 1⟩⟩, ⟨⟨3 / 5, 4 / 5, 0⟩⟩, ⟨⟨0, 0, 1⟩⟩, ⟨⟨3 / 5, 4 / 5, 0⟩⟩] }

theorem iso_wf : WF iso 4 2 := by
  constructor <;> simp [iso, demoStatic, demo, demoVars]

theorem iso_unit : ∀ x ∈ iso.spins, IsUnit3 x := by
  intro x hx
  simp only [iso, List.mem_cons, List.not_mem_nil, or_false] at hx
  rw [unit_iff]
  rcases hx with rfl | rfl | rfl | rfl <;> norm_num [dot]

theorem iso_omega {Sf Bf : ℕ → V3 ℝ} (hB : ∀ i < 4, Bf i = zero) (h02 : Sf 0 = Sf 2)
    (h13 : Sf 1 = Sf 3) {i : ℕ} (hi : i < 4) :
    omega 4 Sf (J iso) Bf i = smul 2 (Sf (left 4 i)) := by
  have : i = 0 ∨ i = 1 ∨ i = 2 ∨ i = 3 := by omega
  rcases this with rfl | rfl | rfl | rfl <;>
    (ext <;> simp [omega, hB, left, right, J, iso, smul, Spec.add, Spec.sub, had, zero, h02, h13] <;>
      ring)

theorem iso_sub {Sf Bf : ℕ → V3 ℝ} {par : ℕ} {dt : ℝ} (hB : ∀ i < 4, Bf i = zero) (h02 : Sf 0 = Sf 2)
    (h13 : Sf 1 = Sf 3) : subStep 4 par (J iso) Bf dt Sf 0 = subStep 4 par (J iso) Bf dt Sf 2 ∧
      subStep 4 par (J iso) Bf dt Sf 1 = subStep 4 par (J iso) Bf dt Sf 3 := by
  have e : ∀ i < 4, omega 4 Sf (J iso) Bf i = smul 2 (Sf (left 4 i)) :=
    fun i hi => iso_omega hB h02 h13 hi
  constructor
  · unfold subStep
    rw [e 0 (by norm_num), e 2 (by norm_num), h02, show left 4 0 = 3 from rfl,
      show left 4 2 = 1 from rfl, h13]
    norm_num
  · unfold subStep
    rw [e 1 (by norm_num), e 3 (by norm_num), h13, show left 4 1 = 0 from rfl,
      show left 4 3 = 2 from rfl, h02]
    norm_num

theorem iso_regular_spec {Sf Bf : ℕ → V3 ℝ} {dt : ℝ} (hB : ∀ i < 4, Bf i = zero)
    (hu : ∀ i < 4, len (Sf i) = 1) (h02 : Sf 0 = Sf 2) (h13 : Sf 1 = Sf 3) :
    Regular 4 (J iso) Bf dt Sf := by
  have key : ∀ T : ℕ → V3 ℝ, (∀ i < 4, len (T i) = 1) → T 0 = T 2 → T 1 = T 3 → ∀ i < 4,
      omega 4 T (J iso) Bf i ≠ zero := by
    intro T hT h1 h2 i hi h
    rw [iso_omega hB h1 h2 hi] at h
    have hl := hT _ (left_lt (m := 4) (i := i) (by norm_num))
    have : T (left 4 i) = zero := by
      have hx := congrArg V3.x h
      have hy := congrArg V3.y h
      have hz := congrArg V3.z h
      simp only [smul, zero] at hx hy hz
      ext <;> simp only [zero] <;> linarith
    rw [this, len_zero] at hl
    norm_num at hl
  obtain ⟨a1, a2⟩ := iso_sub (par := 0) (dt := dt / 2) hB h02 h13
  obtain ⟨b1, b2⟩ := iso_sub (par := 1) (dt := dt) hB a1 a2
  exact ⟨fun i hi _ => key _ hu h02 h13 i hi,
    fun i hi _ => key _ (subStep_len hu) a1 a2 i hi,
    fun i hi _ => key _ (subStep_len (subStep_len hu)) b1 b2 i hi⟩

theorem iso_B {c : SpinChain ℝ} (h : c.static_h = iso.static_h) (hv : c.vars = iso.vars) (t : ℝ) :
    ∀ i < 4, B c 2 t i = zero := by
  intro i hi
  rw [B_none (by rw [hv]; rfl), H0_congr h]
  have : i = 0 ∨ i = 1 ∨ i = 2 ∨ i = 3 := by omega
  rcases this with rfl | rfl | rfl | rfl <;> simp [H0, iso, zero]

theorem iso_regular (n : ℕ) : RegularRun iso 4 2 n := by
  have key : ∀ k, ∀ c', iso.updates k = .ok c' →
      (∀ x ∈ c'.spins, IsUnit3 x) ∧ S c' 0 = S c' 2 ∧ S c' 1 = S c' 3 := by
    intro k
    induction k with
    | zero =>
      intro c' h
      cases h
      exact ⟨iso_unit, by simp [S, iso], by simp [S, iso]⟩
    | succ k ih =>
      intro c' h
      obtain ⟨c1, h1, h2⟩ := updates_succ'.1 h
      obtain ⟨u, e1, e2⟩ := ih c1 h1
      obtain ⟨a1, a2, a3, _⟩ := updates_frame h1
      have w1 := updates_wf iso_wf h1
      have hB := iso_B a2 a3 (c1.t + c1.vars.dt / 2)
      have hr : RegularStep c1 4 2 := by
        unfold RegularStep
        rw [J_congr a1]
        exact iso_regular_spec hB (fun i hi => unit_S w1 u hi) e1 e2
      obtain ⟨c2, g1, g2, g3⟩ := update_spec w1 (by norm_num) u hr
      rw [h2] at g1
      cases g1
      obtain ⟨p1, p2⟩ := iso_sub (par := 0) (dt := c1.vars.dt / 2) hB e1 e2
      obtain ⟨q1, q2⟩ := iso_sub (par := 1) (dt := c1.vars.dt) hB p1 p2
      obtain ⟨r1, r2⟩ := iso_sub (par := 0) (dt := c1.vars.dt / 2) hB q1 q2
      rw [J_congr a1] at g3
      exact ⟨g2, by rw [g3]; exact r1, by rw [g3]; exact r2⟩
  intro k hk c' h
  obtain ⟨u, e1, e2⟩ := key k c' h
  obtain ⟨a1, a2, a3, _⟩ := updates_frame h
  unfold RegularStep
  rw [J_congr a1]
  exact iso_regular_spec (iso_B a2 a3 _) (fun i hi => unit_S (updates_wf iso_wf h) u hi) e1 e2

example (n : ℕ) (a : ℝ) : IsRotation (rotZ a) ∧ WF iso 4 2 ∧ (∀ x ∈ iso.spins, IsUnit3 x) ∧
    RegularRun iso 4 2 n ∧ (∀ i < 4, (J iso i).x = (J iso i).z ∧ (J iso i).y = (J iso i).z) ∧
    (∀ i < 4, H0 iso i = zero) ∧ iso.vars.drive = .none := by
  refine ⟨rotZ_rotation a, iso_wf, iso_unit, iso_regular n, ?_, ?_, rfl⟩
  all_goals
    intro i hi
    have : i = 0 ∨ i = 1 ∨ i = 2 ∨ i = 3 := by omega
    rcases this with rfl | rfl | rfl | rfl <;> norm_num [J, H0, iso, zero]

end Verif.Props
