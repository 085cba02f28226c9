/-
Helper lemmas about `update` for any scalar type: success, frame, locality, order of rotation.
-/
import Verif.Lemmas.Trotter
import Verif.Spec.Chain

set_option linter.unusedSectionVars false

namespace Verif

open Spec

variable {F : Type} [Add F] [Sub F] [Mul F] [Div F] [Neg F] [OfScientific F] [FOps F]

section
variable {c : SpinChain F} {L s : ℕ}

theorem hsize_natF (w : WF c L s) : asUsize c.vars.hsize = L := by
  rw [w.hsize, asUsize_nat w.L_lt]

theorem ssize_natF (w : WF c L s) : asUsize c.vars.ssize = s := by
  rw [w.ssize, asUsize_nat w.s_lt]

theorem h_ext_ok (h : 3 ≤ c.vars.hs.length) (t : F) : ∃ e, c.h_ext t = .ok e := by
  unfold SpinChain.h_ext
  split
  · exact ⟨_, rfl⟩
  · exact ⟨_, rfl⟩
  · exact ⟨_, rfl⟩
  · rw [idx_ok (by omega : 0 < c.vars.hs.length), idx_ok (by omega : 1 < c.vars.hs.length),
      idx_ok (by omega : 2 < c.vars.hs.length)]
    exact ⟨_, rfl⟩
  · exact ⟨_, rfl⟩

theorem h_ext_vars {d : SpinChain F} (h : c.vars = d.vars) (t : F) : c.h_ext t = d.h_ext t := by
  unfold SpinChain.h_ext; rw [h]

/-- total field used in an update -/
def fieldF (s : ℕ) (h : ℕ → V3 F) (e : V3 F) (i : ℕ) : V3 F :=
  if i < s then SpinChain.sum_vec (h i) e else h i

theorem update_tab (w : WF c L s) (hL : 2 ≤ L) {j h : ℕ → V3 F} {sp : ℕ → Spin F}
    (hj : Tab c.j_couple L j) (hh : Tab c.static_h L h) (hsp : Tab c.spins L sp) {e : V3 F}
    (he : c.h_ext (c.t + c.vars.dt / 2.0) = .ok e) :
    ∃ spins', c.update = .ok { c with spins := spins', t := c.t + c.vars.dt } ∧
      Tab spins' L (stepF (2 * (L / 2)) j (fieldF s h e) c.vars.dt sp) := by
  obtain ⟨s', h1, t1⟩ := trotter_tab hj (updateField_tab hh s e) hsp hL c.vars.dt
  refine ⟨s', ?_, t1⟩
  unfold SpinChain.update
  rw [he, ok_bind, ssize_natF w]
  simp only
  rw [h1]
  rfl

theorem update_no_field_tab (w : WF c L s) (hL : 2 ≤ L) {j h : ℕ → V3 F} {sp : ℕ → Spin F}
    (hj : Tab c.j_couple L j) (hh : Tab c.static_h L h) (hsp : Tab c.spins L sp) {e : V3 F}
    (he : c.h_ext (c.t + c.vars.dt / 2.0) = .ok e) :
    ∃ spins', c.update_no_field = .ok { c with spins := spins', t := c.t + c.vars.dt } ∧
      Tab spins' L (stepF (2 * (L / 2)) j (fun i => if i < s then e else ⟨0.0, 0.0, 0.0⟩)
        c.vars.dt sp) := by
  obtain ⟨s', h1, t1⟩ := trotter_tab hj (updateFieldNoStatic_tab hh s e) hsp hL c.vars.dt
  refine ⟨s', ?_, t1⟩
  unfold SpinChain.update_no_field
  rw [he, ok_bind, ssize_natF w]
  simp only
  rw [h1]
  rfl

theorem wf_tabs (w : WF c L s) (hL : 1 ≤ L) :
    ∃ (j h : ℕ → V3 F) (sp : ℕ → Spin F),
      Tab c.j_couple L j ∧ Tab c.static_h L h ∧ Tab c.spins L sp := by
  obtain ⟨j, hj⟩ := exists_tab c.j_couple (by rw [w.j]; omega)
  obtain ⟨h, hh⟩ := exists_tab c.static_h (by rw [w.h]; omega)
  obtain ⟨sp, hsp⟩ := exists_tab c.spins (by rw [w.spins]; omega)
  rw [w.j] at hj; rw [w.h] at hh; rw [w.spins] at hsp
  exact ⟨j, h, sp, hj, hh, hsp⟩

theorem update_ok (w : WF c L s) (hL : 2 ≤ L) : ∃ c', c.update = .ok c' := by
  obtain ⟨j, h, sp, hj, hh, hsp⟩ := wf_tabs w (by omega)
  obtain ⟨e, he⟩ := h_ext_ok w.hs (c.t + c.vars.dt / 2.0)
  obtain ⟨s', h1, _⟩ := update_tab w hL hj hh hsp he
  exact ⟨_, h1⟩

end

/-! ### frame -/

theorem bind_eq_ok {α β : Type} {x : R α} {f : α → R β} {b : β} (h : (x >>= f) = .ok b) :
    ∃ a, x = .ok a ∧ f a = .ok b := by
  cases x with
  | error e => cases h
  | ok a => exact ⟨a, rfl, h⟩

theorem setIdx_eq_ok {α : Type} {xs ys : List α} {i : ℕ} {a : α} (h : setIdx xs i a = .ok ys) :
    ys = xs.set i a ∧ i < xs.length := by
  unfold setIdx at h
  split at h
  · next hi => exact ⟨(Except.ok.inj h).symm, hi⟩
  · cases h

theorem rotateAt_length {spins spins' : List (Spin F)} {i : ℕ} {f : V3 F} {dt : F}
    (h : SpinChain.rotateAt spins i f dt = .ok spins') : spins'.length = spins.length := by
  obtain ⟨a, _, h2⟩ := bind_eq_ok h
  rw [(setIdx_eq_ok h2).1, List.length_set]

theorem foldlM_length {α β : Type} (body : List β → α → R (List β))
    (hb : ∀ a sp sp', body sp a = .ok sp' → sp'.length = sp.length) (l : List α) :
    ∀ sp sp', l.foldlM body sp = .ok sp' → sp'.length = sp.length := by
  induction l with
  | nil => intro sp sp' h; cases h; rfl
  | cons a l ih =>
    intro sp sp' h
    rw [List.foldlM_cons] at h
    obtain ⟨m, h1, h2⟩ := bind_eq_ok h
    rw [ih _ _ h2, hb _ _ _ h1]

theorem rotateSub_length {off : ℕ} {spins spins' : List (Spin F)} {f : List (V3 F)} {dt : F}
    (h : SpinChain.rotateSub off spins f dt = .ok spins') : spins'.length = spins.length :=
  foldlM_length _ (fun _ _ _ h => rotateAt_length h) _ _ _ h

theorem trotter_length {js hs : List (V3 F)} {dt : F} {spins spins' : List (Spin F)}
    (h : SpinChain.trotter js hs dt spins = .ok spins') : spins'.length = spins.length := by
  unfold SpinChain.trotter at h
  obtain ⟨_, _, h⟩ := bind_eq_ok h
  obtain ⟨s1, h1, h⟩ := bind_eq_ok h
  obtain ⟨_, _, h⟩ := bind_eq_ok h
  obtain ⟨s2, h2, h⟩ := bind_eq_ok h
  obtain ⟨_, _, h⟩ := bind_eq_ok h
  rw [rotateSub_length h, rotateSub_length h2, rotateSub_length h1]

theorem update_frame {c c' : SpinChain F} (h : c.update = .ok c') :
    c'.j_couple = c.j_couple ∧ c'.static_h = c.static_h ∧ c'.vars = c.vars ∧ c'.file = c.file ∧
      c'.spins.length = c.spins.length ∧ c'.t = c.t + c.vars.dt := by
  unfold SpinChain.update at h
  obtain ⟨_, _, h⟩ := bind_eq_ok h
  obtain ⟨s1, h1, h⟩ := bind_eq_ok h
  cases h
  exact ⟨rfl, rfl, rfl, rfl, trotter_length h1, rfl⟩

theorem update_wf {c c' : SpinChain F} {L s : ℕ} (w : WF c L s) (h : c.update = .ok c') :
    WF c' L s := by
  obtain ⟨h1, h2, h3, h4, h5, h6⟩ := update_frame h
  exact ⟨by rw [h3, w.hsize], by rw [h3, w.ssize], w.L_lt, w.s_lt, by rw [h5, w.spins],
    by rw [h1, w.j], by rw [h2, w.h], by rw [h3]; exact w.hs⟩

theorem updates_ok {c : SpinChain F} {L s : ℕ} (w : WF c L s) (hL : 2 ≤ L) (n : ℕ) :
    ∃ c', c.updates n = .ok c' := by
  induction n generalizing c with
  | zero => exact ⟨c, rfl⟩
  | succ n ih =>
    obtain ⟨c1, h1⟩ := update_ok w hL
    obtain ⟨c2, h2⟩ := ih (update_wf w h1)
    exact ⟨c2, by unfold SpinChain.updates; rw [h1, ok_bind, h2]⟩

theorem updates_succ {c c' : SpinChain F} {n : ℕ} (h : c.updates (n + 1) = .ok c') :
    ∃ c1, c.update = .ok c1 ∧ c1.updates n = .ok c' := bind_eq_ok h

/-- the last of `n + 1` updates -/
theorem updates_succ' {c c' : SpinChain F} {n : ℕ} :
    c.updates (n + 1) = .ok c' ↔ ∃ c1, c.updates n = .ok c1 ∧ c1.update = .ok c' := by
  induction n generalizing c with
  | zero =>
    constructor
    · intro h
      obtain ⟨c1, h1, h2⟩ := updates_succ h
      cases h2
      exact ⟨c, rfl, h1⟩
    · rintro ⟨c1, h1, h2⟩
      cases h1
      unfold SpinChain.updates
      rw [h2]; rfl
  | succ n ih =>
    constructor
    · intro h
      obtain ⟨c1, h1, h2⟩ := updates_succ h
      obtain ⟨c2, h3, h4⟩ := ih.1 h2
      exact ⟨c2, by unfold SpinChain.updates; rw [h1, ok_bind, h3], h4⟩
    · rintro ⟨c1, h1, h2⟩
      obtain ⟨c2, h3, h4⟩ := updates_succ h1
      unfold SpinChain.updates
      rw [h3, ok_bind]
      exact ih.2 ⟨c1, h4, h2⟩

/-! ### locality -/

/-- the site of a ring of `m` sites with integer coordinate `x` -/
def site (m : ℕ) (x : ℤ) : ℕ := (x % (m : ℤ)).toNat

theorem site_cast {m : ℕ} (hm : 1 ≤ m) (x : ℤ) : ((site m x : ℕ) : ℤ) = x % m :=
  Int.toNat_of_nonneg (Int.emod_nonneg _ (by omega))

theorem site_lt {m : ℕ} (hm : 1 ≤ m) (x : ℤ) : site m x < m := by
  have := Int.emod_lt_of_pos x (by omega : (0 : ℤ) < m)
  have := site_cast hm x
  omega

theorem site_self {m i : ℕ} (hi : i < m) : site m i = i := by
  have := site_cast (by omega : 1 ≤ m) (i : ℤ)
  rw [Int.emod_eq_of_lt (by omega) (by omega)] at this
  exact_mod_cast this

theorem site_left {m : ℕ} (hm : 1 ≤ m) (x : ℤ) :
    (site m x + m - 1) % m = site m (x - 1) := by
  zify [show 1 ≤ site m x + m by omega]
  rw [site_cast hm, site_cast hm]
  rw [show x % (m : ℤ) + m - 1 = (x % m - 1) + m by ring, Int.add_emod_right, Int.sub_emod,
    Int.emod_emod_of_dvd _ dvd_rfl, ← Int.sub_emod]

theorem site_right {m : ℕ} (hm : 1 ≤ m) (x : ℤ) : (site m x + 1) % m = site m (x + 1) := by
  zify
  rw [site_cast hm, site_cast hm, Int.add_emod, Int.emod_emod_of_dvd _ dvd_rfl, ← Int.add_emod]

/-- two tables agree on the sites within distance `r` of `x` -/
def Near {α : Type} (m : ℕ) (x : ℤ) (r : ℤ) (f g : ℕ → α) : Prop :=
  ∀ d : ℤ, |d| ≤ r → f (site m (x + d)) = g (site m (x + d))

theorem Near.mono {α : Type} {m : ℕ} {x : ℤ} {r r' : ℤ} {f g : ℕ → α} (h : Near m x r f g)
    (hr : r' ≤ r) : Near m x r' f g := fun d hd => h d (hd.trans hr)

theorem Near.shift {α : Type} {m : ℕ} {x : ℤ} {r r' : ℤ} {f g : ℕ → α} (h : Near m x r f g)
    (d : ℤ) (hd : |d| + r' ≤ r) : Near m (x + d) r' f g := by
  intro d' hd'
  rw [add_assoc]
  exact h _ ((abs_add_le d d').trans (by omega))

theorem Near.at {α : Type} {m : ℕ} {x : ℤ} {r : ℤ} {f g : ℕ → α} (h : Near m x r f g)
    (d : ℤ) (hd : |d| ≤ r) : f (site m (x + d)) = g (site m (x + d)) := h d hd

theorem omF_near {m : ℕ} (hm : 1 ≤ m) {x : ℤ} {j j' h h' : ℕ → V3 F} {sp sp' : ℕ → Spin F}
    (hj : Near m x 1 j j') (hh : Near m x 0 h h') (hsp : Near m x 1 sp sp') :
    omF m j h sp (site m x) = omF m j' h' sp' (site m x) := by
  unfold omF
  rw [site_left hm, site_right hm]
  have e1 := hj (-1) (by norm_num)
  have e2 := hj 0 (by norm_num)
  have e3 := hh 0 (by norm_num)
  have e4 := hsp (-1) (by norm_num)
  have e5 := hsp 1 (by norm_num)
  rw [← sub_eq_add_neg] at e1 e4
  rw [add_zero] at e2 e3
  rw [e1, e2, e3, e4, e5]

theorem subF_near {m : ℕ} (hm : 1 ≤ m) {x : ℤ} {j j' h h' : ℕ → V3 F} {sp sp' : ℕ → Spin F}
    {r : ℤ} (par : ℕ) (dt : F)
    (hj : Near m x (r + 1) j j') (hh : Near m x (r + 1) h h') (hsp : Near m x (r + 1) sp sp') :
    Near m x r (subF m par j h dt sp) (subF m par j' h' dt sp') := by
  intro d hd
  unfold subF
  have e0 : sp (site m (x + d)) = sp' (site m (x + d)) := hsp d (by omega)
  rw [e0, omF_near hm (hj.shift d (by omega)) (hh.shift d (by omega)) (hsp.shift d (by omega))]

/-- on a ring of even length the parity of a coordinate is the parity of its site -/
theorem site_parity {l : ℕ} (hl : 1 ≤ l) (x : ℤ) : ((site (2 * l) x : ℕ) : ℤ) % 2 = x % 2 := by
  rw [site_cast (by omega)]
  exact Int.emod_emod_of_dvd _ ⟨(l : ℤ), by push_cast; ring⟩

/-- a sub-step of the other parity leaves a site alone -/
theorem subF_other {m par : ℕ} {j h : ℕ → V3 F} {dt : F} {sp : ℕ → Spin F} {i : ℕ}
    (hi : i % 2 ≠ par) : subF m par j h dt sp i = sp i := by
  unfold subF; rw [if_neg (fun h => hi h.2)]

theorem stepF_near {l : ℕ} (hl : 1 ≤ l) {x : ℤ} {j j' h h' : ℕ → V3 F} {sp sp' : ℕ → Spin F}
    (dt : F) {r : ℤ} (hr : r = if x % 2 = 0 then 3 else 2)
    (hj : Near (2 * l) x r j j') (hh : Near (2 * l) x r h h') (hsp : Near (2 * l) x r sp sp') :
    stepF (2 * l) j h dt sp (site (2 * l) x) = stepF (2 * l) j' h' dt sp' (site (2 * l) x) := by
  have hm : 1 ≤ 2 * l := by omega
  have hpar := site_parity hl x
  unfold stepF
  by_cases hx : x % 2 = 0
  · rw [if_pos hx] at hr
    subst hr
    have h1 := subF_near (r := 2) hm 0 (dt / 2.0) hj hh hsp
    have h2 := subF_near (r := 1) hm 1 dt (hj.mono (by norm_num))
      (hh.mono (by norm_num)) h1
    have h3 := subF_near (r := 0) hm 0 (dt / 2.0) (hj.mono (by norm_num))
      (hh.mono (by norm_num)) h2
    have := h3 0 (by norm_num)
    rwa [add_zero] at this
  · rw [if_neg hx] at hr
    subst hr
    have hi : site (2 * l) x % 2 ≠ 0 := by omega
    rw [subF_other hi, subF_other hi]
    have h1 := subF_near (r := 1) hm 0 (dt / 2.0) hj hh hsp
    have h2 := subF_near (r := 0) hm 1 dt (hj.mono (by norm_num))
      (hh.mono (by norm_num)) h1
    have := h2 0 (by norm_num)
    rwa [add_zero] at this

/-! ### order of the rotations in a sub-step -/

theorem rotateAt_oob {spins : List (Spin F)} {i : ℕ} (h : spins.length ≤ i) (f : V3 F) (dt : F) :
    SpinChain.rotateAt spins i f dt = .error .indexOOB := by
  unfold SpinChain.rotateAt
  rw [idx_oob h]
  rfl

theorem rotateAt_in {spins : List (Spin F)} {i : ℕ} (h : i < spins.length) (f : V3 F) (dt : F) :
    SpinChain.rotateAt spins i f dt = .ok (spins.set i (spins[i].rotate f dt)) := by
  unfold SpinChain.rotateAt
  rw [idx_ok h, ok_bind, setIdx_ok h]

theorem rotateAt_comm (spins : List (Spin F)) {i k : ℕ} (hik : i ≠ k) (f g : V3 F) (dt : F) :
    (SpinChain.rotateAt spins i f dt >>= fun s => SpinChain.rotateAt s k g dt)
      = (SpinChain.rotateAt spins k g dt >>= fun s => SpinChain.rotateAt s i f dt) := by
  by_cases hi : i < spins.length <;> by_cases hk : k < spins.length
  · rw [rotateAt_in hi, rotateAt_in hk, ok_bind, ok_bind,
      rotateAt_in (by rw [List.length_set]; exact hk),
      rotateAt_in (by rw [List.length_set]; exact hi)]
    rw [List.getElem_set_ne hik, List.getElem_set_ne hik.symm, List.set_comm _ _ hik]
  · rw [rotateAt_in hi, ok_bind, rotateAt_oob (i := k) (by rw [List.length_set]; omega),
      rotateAt_oob (by omega)]
    rfl
  · rw [rotateAt_in hk, ok_bind, rotateAt_oob (i := i) (by omega),
      rotateAt_oob (by rw [List.length_set]; omega)]
    rfl
  · rw [rotateAt_oob (by omega), rotateAt_oob (by omega)]
    rfl

theorem rotations_perm {l l' : List (ℕ × V3 F)} (hp : l.Perm l') (hd : (l.map Prod.fst).Nodup)
    (spins : List (Spin F)) (dt : F) :
    l.foldlM (fun sp (p : ℕ × V3 F) => SpinChain.rotateAt sp p.1 p.2 dt) spins
      = l'.foldlM (fun sp (p : ℕ × V3 F) => SpinChain.rotateAt sp p.1 p.2 dt) spins := by
  induction hp generalizing spins with
  | nil => rfl
  | cons a _ ih =>
    rw [List.foldlM_cons, List.foldlM_cons]
    congr 1
    funext sp
    exact ih (List.nodup_cons.1 (by simpa using hd)).2 sp
  | swap a b l =>
    simp only [List.foldlM_cons]
    have hne : b.1 ≠ a.1 := by
      simp only [List.map_cons, List.nodup_cons, List.mem_cons, not_or] at hd
      exact hd.1.1
    rw [← bind_assoc, ← bind_assoc, rotateAt_comm spins hne]
  | trans h1 h2 ih1 ih2 =>
    rw [ih1 hd, ih2 ((h1.map Prod.fst).nodup_iff.1 hd)]

end Verif
