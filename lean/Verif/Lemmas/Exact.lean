/-
Helper lemmas: on finite inputs the extended scalars compute what the reals compute, function by
function.
-/
import Verif.Lemmas.XFRotate
import Verif.Lemmas.XFUnit
import Verif.Model.MagFull

namespace Verif

open Spec

namespace XF

theorem rpi : (fpi : XF).Rep (fpi : ℝ) := Or.inl rfl
theorem rint (n : ℤ) : (fofInt n : XF).Rep (fofInt n : ℝ) := Or.inl rfl
theorem Rep.rsin {x : XF} {r : ℝ} (h : x.Rep r) : (fsin x).Rep (fsin r) := h.sin
theorem Rep.rcos {x : XF} {r : ℝ} (h : x.Rep r) : (fcos x).Rep (fcos r) := h.cos
theorem Rep.rsqrt {x : XF} {r : ℝ} (h : x.Rep r) (h0 : 0 ≤ r) : (fsqrt x).Rep (fsqrt r) := h.sqrt h0

theorem Rep.rexp {x : XF} {r : ℝ} (h : x.Rep r) : (fexp x).Rep (fexp r) := by
  rcases h with rfl | ⟨rfl, rfl⟩
  · exact Or.inl rfl
  · refine Or.inl ?_
    change XF.fin 1 = XF.fin (Real.exp 0)
    rw [Real.exp_zero]

theorem Rep.rabs {x : XF} {r : ℝ} (h : x.Rep r) : (fabs x).Rep (fabs r) := by
  rcases h with rfl | ⟨rfl, rfl⟩
  · exact Or.inl rfl
  · refine Or.inl ?_
    change XF.fin 0 = XF.fin |0|
    rw [abs_zero]

theorem Rep.racos {x : XF} {r : ℝ} (h : x.Rep r) (h1 : -1 ≤ r) (h2 : r ≤ 1) :
    (facos x).Rep (facos r) := by
  rcases h with rfl | ⟨rfl, rfl⟩
  · refine Or.inl ?_
    change (if -1 ≤ r ∧ r ≤ 1 then XF.fin (Real.arccos r) else nan) = _
    rw [if_pos ⟨h1, h2⟩]
    rfl
  · refine Or.inl ?_
    change XF.fin (Real.pi / 2) = XF.fin (Real.arccos 0)
    rw [Real.arccos_zero]

theorem Rep.flt {x y : XF} {r q : ℝ} (hx : x.Rep r) (hy : y.Rep q) :
    Verif.flt x y = Verif.flt r q := by
  rcases hx with rfl | ⟨rfl, rfl⟩ <;> rcases hy with rfl | ⟨rfl, rfl⟩ <;>
    exact Bool.decide_congr Iff.rfl

theorem Rep.toNat {x : XF} {r : ℝ} (h : x.Rep r) : ftoNat x = ftoNat r := by
  rcases h with rfl | ⟨rfl, rfl⟩
  · rfl
  · change 0 = min ⌊(0:ℝ)⌋₊ (2 ^ 64 - 1)
    simp

end XF

/-- reduce a statement about sums, products, ... to the atoms -/
macro "rep" : tactic => `(tactic| repeat' with_reducible first
  | assumption
  | exact rep_lit _ _ _
  | exact XF.rpi
  | exact XF.rint _
  | apply XF.Rep.sub
  | apply XF.Rep.add
  | apply XF.Rep.mul
  | apply XF.Rep.neg
  | apply XF.Rep.div
  | apply XF.Rep.rsin
  | apply XF.Rep.rcos
  | apply XF.Rep.rexp
  | apply XF.Rep.rabs)

/-! ### panics and loops -/

section
variable {α β γ δ : Type} {r : α → β → Prop} {q : γ → δ → Prop}

theorem Spec.RepR.pure {a : α} {b : β} (h : r a b) : RepR r (Pure.pure a) (Pure.pure b) := .ok h

theorem Spec.RepR.bind {x : R α} {y : R β} {f : α → R γ} {g : β → R δ} (h : RepR r x y)
    (hf : ∀ a b, r a b → RepR q (f a) (g b)) : RepR q (x >>= f) (y >>= g) := by
  cases h with
  | ok h => exact hf _ _ h
  | error e => exact .error e

theorem Spec.RepR.mono {r' : α → β → Prop} {x : R α} {y : R β} (h : RepR r x y)
    (hr : ∀ a b, r a b → r' a b) : RepR r' x y := by
  cases h with
  | ok h => exact .ok (hr _ _ h)
  | error e => exact .error e

theorem Spec.RepR.refl (x : R α) : RepR (fun a b => a = b) x x := by
  cases x with
  | ok a => exact .ok rfl
  | error e => exact .error e

theorem Spec.RepR.bindEq {x : R α} {f : α → R γ} {g : α → R δ}
    (hf : ∀ a, RepR q (f a) (g a)) : RepR q (x >>= f) (x >>= g) :=
  (RepR.refl x).bind fun a b h => by subst h; exact hf a

theorem forall₂_getElem? {xs : List α} {ys : List β} (h : List.Forall₂ r xs ys) (i : ℕ) :
    (∃ a b, xs[i]? = some a ∧ ys[i]? = some b ∧ r a b) ∨ (xs[i]? = none ∧ ys[i]? = none) := by
  induction h generalizing i with
  | nil => exact .inr ⟨rfl, rfl⟩
  | cons h _ ih =>
    cases i with
    | zero => exact .inl ⟨_, _, rfl, rfl, h⟩
    | succ i => simpa using ih i

theorem Spec.RepR.idx {xs : List α} {ys : List β} (h : List.Forall₂ r xs ys) (i : ℕ) :
    RepR r (Verif.idx xs i) (Verif.idx ys i) := by
  unfold Verif.idx
  rcases forall₂_getElem? h i with ⟨a, b, h1, h2, h3⟩ | ⟨h1, h2⟩
  · rw [h1, h2]; exact .ok h3
  · rw [h1, h2]; exact .error _

theorem forall₂_set {xs : List α} {ys : List β} (h : List.Forall₂ r xs ys) (i : ℕ) {a : α} {b : β}
    (hab : r a b) : List.Forall₂ r (xs.set i a) (ys.set i b) := by
  induction h generalizing i with
  | nil => exact .nil
  | cons h hs ih =>
    cases i with
    | zero => exact .cons hab hs
    | succ i => exact .cons h (ih i)

theorem Spec.RepR.setIdx {xs : List α} {ys : List β} (h : List.Forall₂ r xs ys) (i : ℕ) {a : α} {b : β}
    (hab : r a b) : RepR (List.Forall₂ r) (Verif.setIdx xs i a) (Verif.setIdx ys i b) := by
  unfold Verif.setIdx
  rw [h.length_eq]
  split
  · exact .ok (forall₂_set h i hab)
  · exact .error _

theorem Spec.RepR.foldlM {l : List ι} {f : α → ι → R α} {g : β → ι → R β} {a : α} {b : β} (h : r a b)
    (hf : ∀ i ∈ l, ∀ a b, r a b → RepR r (f a i) (g b i)) :
    RepR r (l.foldlM f a) (l.foldlM g b) := by
  induction l generalizing a b with
  | nil => exact .ok h
  | cons i l ih =>
    rw [List.foldlM_cons, List.foldlM_cons]
    exact (hf i (by simp) _ _ h).bind fun a b h => ih h fun i hi => hf i (by simp [hi])

theorem Spec.RepR.forRange {lo hi : ℕ} {f : ℕ → α → R α} {g : ℕ → β → R β} {a : α} {b : β} (h : r a b)
    (hf : ∀ i a b, lo ≤ i → i < hi → r a b → RepR r (f i a) (g i b)) :
    RepR r (Verif.forRange lo hi a f) (Verif.forRange lo hi b g) := by
  unfold Verif.forRange
  refine RepR.foldlM h fun i hi a b hab => ?_
  rw [List.mem_range'_1] at hi
  exact hf i a b hi.1 (by omega) hab

theorem Spec.RepR.mapM {l : List ι} {f : ι → R α} {g : ι → R β}
    (hf : ∀ i ∈ l, RepR r (f i) (g i)) : RepR (List.Forall₂ r) (l.mapM f) (l.mapM g) := by
  induction l with
  | nil => exact .ok .nil
  | cons i l ih =>
    rw [List.mapM_cons, List.mapM_cons]
    refine (hf i (by simp)).bind fun a b hab => ?_
    refine (ih fun i hi => hf i (by simp [hi])).bind fun as bs habs => ?_
    exact .ok (.cons hab habs)

theorem Spec.RepR.mapRange {lo hi : ℕ} {f : ℕ → R α} {g : ℕ → R β}
    (hf : ∀ i, lo ≤ i → i < hi → RepR r (f i) (g i)) :
    RepR (List.Forall₂ r) (Verif.mapRange lo hi f) (Verif.mapRange lo hi g) := by
  unfold Verif.mapRange
  refine RepR.mapM fun i hi => ?_
  rw [List.mem_range'_1] at hi
  exact hf i hi.1 (by omega)

theorem Spec.RepR.ite {p : Prop} [Decidable p] {x x' : R α} {y y' : R β} (h : p → RepR r x y)
    (h' : ¬p → RepR r x' y') : RepR r (if p then x else x') (if p then y else y') := by
  split
  · exact h ‹_›
  · exact h' ‹_›

end

/-! ### the functions of the chain -/

/-- related spins -/
def RepS (a : Spin XF) (b : Spin ℝ) : Prop := Rep3 a.dir b.dir

namespace SpinChain

theorem rep_sum_vec {a b : V3 XF} {a' b' : V3 ℝ} (ha : Rep3 a a') (hb : Rep3 b b') :
    Rep3 (sum_vec a b) (sum_vec a' b') :=
  ⟨ha.1.add hb.1, ha.2.1.add hb.2.1, ha.2.2.add hb.2.2⟩

theorem rep_j_s {j : V3 XF} {s : Spin XF} {j' : V3 ℝ} {s' : Spin ℝ} (hj : Rep3 j j')
    (hs : RepS s s') : Rep3 (j_s j s) (j_s j' s') :=
  ⟨hj.1.mul hs.1, hj.2.1.mul hs.2.1, hj.2.2.mul hs.2.2⟩

theorem rep_ssh_sum {l r h : V3 XF} {l' r' h' : V3 ℝ} (hl : Rep3 l l') (hr : Rep3 r r')
    (hh : Rep3 h h') : Rep3 (ssh_sum l r h) (ssh_sum l' r' h') :=
  ⟨(hl.1.add hr.1).sub hh.1, (hl.2.1.add hr.2.1).sub hh.2.1, (hl.2.2.add hr.2.2).sub hh.2.2⟩

theorem rep_bondField {s1 s2 : Spin XF} {j h : V3 XF} {e : XF} {s1' s2' : Spin ℝ} {j' h' : V3 ℝ}
    {e' : ℝ} (hs1 : RepS s1 s1') (hs2 : RepS s2 s2') (hj : Rep3 j j') (hh : Rep3 h h')
    (he : e.Rep e') : (bondField s1 s2 j h e).Rep (bondField s1' s2' j' h' e') := by
  obtain ⟨a1, a2, a3⟩ := hs1
  obtain ⟨b1, b2, b3⟩ := hs2
  obtain ⟨j1, j2, j3⟩ := hj
  obtain ⟨h1, h2, h3⟩ := hh
  simp only [bondField, for3, V3.get_zero, V3.get_one, V3.get_two]
  rep

theorem rep_sjs {s1 s2 : Spin XF} {j : V3 XF} {s1' s2' : Spin ℝ} {j' : V3 ℝ}
    (hs1 : RepS s1 s1') (hs2 : RepS s2 s2') (hj : Rep3 j j') :
    (sjs_energy s1 s2 j).Rep (sjs_energy s1' s2' j') := by
  obtain ⟨a1, a2, a3⟩ := hs1
  obtain ⟨b1, b2, b3⟩ := hs2
  obtain ⟨j1, j2, j3⟩ := hj
  simp only [sjs_energy, for3, V3.get_zero, V3.get_one, V3.get_two]
  rep

theorem rep_sh {s1 : Spin XF} {j : V3 XF} {s1' : Spin ℝ} {j' : V3 ℝ}
    (hs1 : RepS s1 s1') (hj : Rep3 j j') : (sh_energy s1 j).Rep (sh_energy s1' j') := by
  obtain ⟨a1, a2, a3⟩ := hs1
  obtain ⟨j1, j2, j3⟩ := hj
  simp only [sh_energy, for3, V3.get_zero, V3.get_one, V3.get_two]
  rep

theorem rep_sq {v : V3 XF} {r : V3 ℝ} (h : Rep3 v r) : (sqMacro v).Rep (sqMacro r) := by
  obtain ⟨a1, a2, a3⟩ := h
  simp only [sqMacro]
  rep

theorem rep_dot {v w : V3 XF} {r q : V3 ℝ} (h : Rep3 v r) (h' : Rep3 w q) :
    (dotMacro v w).Rep (dotMacro r q) := by
  obtain ⟨a1, a2, a3⟩ := h
  obtain ⟨b1, b2, b3⟩ := h'
  simp only [dotMacro]
  rep

section
variable {c : SpinChain XF} {d : SpinChain ℝ}

theorem rep_phase (h : RepChain c d) {t : XF} {t' : ℝ} (ht : t.Rep t') (h0 : d.vars.tau ≠ 0) :
    (2.0 * fpi * t / c.vars.tau).Rep (2.0 * fpi * t' / d.vars.tau) :=
  (((rep_lit _ _ _).mul XF.rpi).mul ht).div h.vars.tau h0

theorem rep_h_ext (h : RepChain c d) (hd : DriveOK d.vars) {t : XF} {t' : ℝ} (ht : t.Rep t') :
    RepR Rep3 (c.h_ext t) (d.h_ext t') := by
  unfold h_ext
  rw [h.vars.drive]
  have he := h.vars.e
  unfold DriveOK at hd
  cases hk : d.vars.drive <;> rw [hk] at hd <;> simp only [reduceCtorEq, false_or] at hd
  · have := rep_phase h ht hd
    exact .ok ⟨this.rcos, this.rsin, rep_lit _ _ _⟩
  · have := rep_phase h ht hd
    exact .ok ⟨this.rcos, he.mul this.rsin, rep_lit _ _ _⟩
  · have := rep_phase h ht hd
    exact .ok ⟨this.rcos, rep_lit _ _ _, rep_lit _ _ _⟩
  · refine (RepR.idx h.vars.hs 0).bind fun _ _ h0 => ?_
    refine (RepR.idx h.vars.hs 1).bind fun _ _ h1 => ?_
    refine (RepR.idx h.vars.hs 2).bind fun _ _ h2 => ?_
    exact .ok ⟨h0, h1, h2⟩
  · exact .ok ⟨rep_lit _ _ _, rep_lit _ _ _, rep_lit _ _ _⟩

theorem rep_h_extp (h : RepChain c d) (hd : DriveOK d.vars) {t : XF} {t' : ℝ} (ht : t.Rep t') :
    Rep3 (c.h_extp t) (d.h_extp t') := by
  unfold h_extp
  rw [h.vars.drive]
  have he := h.vars.e
  unfold DriveOK at hd
  cases hk : d.vars.drive <;> rw [hk] at hd <;> simp only [reduceCtorEq, false_or] at hd
  · have := rep_phase h ht hd
    exact ⟨this.rsin.neg, this.rcos, rep_lit _ _ _⟩
  · have := rep_phase h ht hd
    exact ⟨this.rsin.neg, he.mul this.rcos, rep_lit _ _ _⟩
  · have := rep_phase h ht hd
    exact ⟨this.rsin.neg, rep_lit _ _ _, rep_lit _ _ _⟩
  · exact ⟨rep_lit _ _ _, rep_lit _ _ _, rep_lit _ _ _⟩
  · exact ⟨rep_lit _ _ _, rep_lit _ _ _, rep_lit _ _ _⟩

/-- one pass of the energy loops -/
theorem rep_bf (h : RepChain c d) {f : List (V3 XF)} {f' : List (V3 ℝ)} (hf : List.Forall₂ Rep3 f f')
    (i k : ℕ) {a : XF} {b : ℝ} (hab : a.Rep b) : RepR XF.Rep
      (do
        return bondField (← idx c.spins i) (← idx c.spins k) (← idx c.j_couple i) (← idx f i) a)
      (do
        return bondField (← idx d.spins i) (← idx d.spins k) (← idx d.j_couple i)
          (← idx f' i) b) := by
  refine (RepR.idx h.spins i).bind fun _ _ h1 => ?_
  refine (RepR.idx h.spins k).bind fun _ _ h2 => ?_
  refine (RepR.idx h.j i).bind fun _ _ h3 => ?_
  refine (RepR.idx hf i).bind fun _ _ h4 => ?_
  exact .ok (rep_bondField h1 h2 h3 h4 hab)

theorem rep_total_energy2 (h : RepChain c d) (hd : DriveOK d.vars) (h0 : d.vars.hsize ≠ 0) :
    RepR XF.Rep c.total_energy2 d.total_energy2 := by
  unfold total_energy2
  rw [h.vars.hsize, h.vars.ssize]
  refine (rep_h_ext h hd h.t).bind fun e e' he => ?_
  refine (RepR.mapRange (r := Rep3) fun i _ _ => ?_).bind fun f f' hf => ?_
  · refine (RepR.idx h.h i).bind fun a b hab => ?_
    split
    · exact .ok (rep_sum_vec hab he)
    · exact .ok hab
  refine RepR.bindEq fun l1 => ?_
  refine (RepR.forRange (r := XF.Rep) (rep_lit _ _ _) fun i a b _ _ hab => rep_bf h hf i (i + 1) hab).bind
    fun a b hab => ?_
  refine (RepR.idx h.spins l1).bind fun _ _ h1 => ?_
  refine (RepR.idx h.spins 0).bind fun _ _ h2 => ?_
  refine (RepR.idx h.j l1).bind fun _ _ h3 => ?_
  refine (RepR.idx hf l1).bind fun _ _ h4 => ?_
  exact .ok ((rep_bondField h1 h2 h3 h4 hab).div (XF.rint _) (by simpa using h0))

theorem rep_total_energy (h : RepChain c d) (hd : DriveOK d.vars) (h0 : asUsize d.vars.hsize ≠ 0) :
    RepR XF.Rep c.total_energy d.total_energy := by
  unfold total_energy
  rw [h.vars.hsize, h.vars.ssize]
  dsimp only
  refine RepR.bindEq fun s1 => ?_
  refine (RepR.forRange (r := XF.Rep) (rep_lit _ _ _) fun i a b _ _ hab => ?_).bind
    fun a b hab => ?_
  · refine (RepR.idx h.spins i).bind fun _ _ h1 => ?_
    refine (RepR.idx h.spins (i + 1)).bind fun _ _ h2 => ?_
    refine (RepR.idx h.j i).bind fun _ _ h3 => ?_
    exact .ok (hab.sub (rep_sjs h1 h2 h3))
  refine (RepR.idx h.spins s1).bind fun _ _ h1 => ?_
  refine (RepR.idx h.spins 0).bind fun _ _ h2 => ?_
  refine (RepR.idx h.j s1).bind fun _ _ h3 => ?_
  refine (RepR.forRange (r := XF.Rep) (rep_lit _ _ _) fun i a b _ _ hab => ?_).bind
    fun a' b' hab' => ?_
  · refine (RepR.idx h.spins i).bind fun _ _ h1 => ?_
    refine (RepR.idx h.h i).bind fun _ _ h2 => ?_
    exact .ok (hab.add (rep_sh h1 h2))
  refine (rep_h_ext h hd h.t).bind fun e e' he => ?_
  refine (RepR.forRange (r := XF.Rep) hab' fun i a b _ _ hab => ?_).bind
    fun a'' b'' hab'' => ?_
  · refine (RepR.idx h.spins i).bind fun _ _ h1 => ?_
    exact .ok (hab.add (rep_sh h1 he))
  refine .ok (((hab.sub (rep_sjs h1 h2 h3)).add hab'').div (XF.rint _) ?_)
  simpa using h0

theorem rep_system_energy (h : RepChain c d) (hd : DriveOK d.vars) (h0 : asUsize d.vars.ssize ≠ 1) :
    RepR XF.Rep c.system_energy d.system_energy := by
  unfold system_energy
  rw [h.vars.ssize]
  refine (rep_h_ext h hd h.t).bind fun e e' he => ?_
  refine (RepR.mapRange (r := Rep3) fun i _ _ => ?_).bind fun f f' hf => ?_
  · exact (RepR.idx h.h i).bind fun a b hab => .ok (rep_sum_vec hab he)
  by_cases hs : 1 ≤ asUsize d.vars.ssize
  · rw [usub_ok hs, ok_bind, ok_bind]
    refine (RepR.forRange (r := XF.Rep) (rep_lit _ _ _)
      fun i a b _ _ hab => rep_bf h hf i (i + 1) hab).bind fun a b hab => ?_
    refine .ok (hab.div (XF.rint _) ?_)
    rw [fofInt_real]
    have : asUsize d.vars.ssize - 1 ≠ 0 := by omega
    exact_mod_cast this
  · rw [usub_err (by omega)]
    exact .error _

theorem rep_mcEnergy (h : RepChain c d) {s : ℕ} : RepR XF.Rep (c.mcEnergy s) (d.mcEnergy s) := by
  unfold mcEnergy
  by_cases hs : 1 ≤ s
  · rw [usub_ok hs, ok_bind, ok_bind]
    refine (RepR.forRange (r := XF.Rep) (rep_lit _ _ _)
      fun i a b _ _ hab => rep_bf h h.h i (i + 1) hab).bind fun a b hab => ?_
    refine (RepR.idx h.spins _).bind fun _ _ h1 => ?_
    refine (RepR.idx h.spins 0).bind fun _ _ h2 => ?_
    refine (RepR.idx h.j _).bind fun _ _ h3 => ?_
    refine (RepR.idx h.h _).bind fun _ _ h4 => ?_
    refine .ok ((rep_bondField h1 h2 h3 h4 hab).div (XF.rint _) ?_)
    rw [fofInt_real]
    have : s ≠ 0 := by omega
    exact_mod_cast this
  · rw [usub_err (by omega)]
    exact .error _

theorem rep_mc_total (h : RepChain c d) : RepR XF.Rep c.mc_total_energy d.mc_total_energy := by
  unfold mc_total_energy
  rw [h.vars.hsize]
  exact rep_mcEnergy h

theorem rep_mc_system (h : RepChain c d) : RepR XF.Rep c.mc_system_energy d.mc_system_energy := by
  unfold mc_system_energy
  rw [h.vars.ssize]
  exact rep_mcEnergy h

theorem rep_foldl_mag {xs : List (Spin XF)} {ys : List (Spin ℝ)} (h : List.Forall₂ RepS xs ys)
    {a : V3 XF} {b : V3 ℝ} (hab : Rep3 a b) : Rep3
    (xs.foldl (fun acc x => ⟨acc.x + x.dir.x, acc.y + x.dir.y, acc.z + x.dir.z⟩) a)
    (ys.foldl (fun acc x => ⟨acc.x + x.dir.x, acc.y + x.dir.y, acc.z + x.dir.z⟩) b) := by
  induction h generalizing a b with
  | nil => exact hab
  | cons h _ ih =>
    rw [List.foldl_cons, List.foldl_cons]
    exact ih ⟨hab.1.add h.1, hab.2.1.add h.2.1, hab.2.2.add h.2.2⟩

theorem rep_lit0 : Rep3 (⟨0.0, 0.0, 0.0⟩ : V3 XF) ⟨0.0, 0.0, 0.0⟩ :=
  ⟨rep_lit _ _ _, rep_lit _ _ _, rep_lit _ _ _⟩

theorem rep_magSum (h : RepChain c d) (n : ℕ) : RepR Rep3 (magSum c.spins n) (magSum d.spins n) := by
  unfold magSum
  rw [h.spins.length_eq]
  refine RepR.ite (fun _ => ?_) fun _ => .error _
  exact .ok (rep_foldl_mag (List.forall₂_take n h.spins) rep_lit0)

theorem rep_m (h : RepChain c d) : RepR Rep3 c.m d.m := by
  unfold m
  rw [h.vars.ssize]
  exact rep_magSum h _

theorem rep_m_tot (h : RepChain c d) : RepR Rep3 c.m_tot d.m_tot := by
  unfold m_tot
  rw [h.vars.hsize]
  exact rep_magSum h _

theorem rep_boundary_term (h : RepChain c d) (h0 : d.vars.beta ≠ 0) :
    RepR XF.Rep c.boundary_term d.boundary_term := by
  unfold boundary_term
  rw [h.vars.ssize]
  dsimp only
  refine (RepR.idx h.spins 0).bind fun _ _ h1 => ?_
  refine RepR.bindEq fun l1 => ?_
  refine (RepR.idx h.spins l1).bind fun _ _ h2 => ?_
  refine (RepR.idx h.h 0).bind fun _ _ h3 => ?_
  refine (RepR.idx h.h l1).bind fun _ _ h4 => ?_
  refine (RepR.idx h.j 0).bind fun _ _ h5 => ?_
  refine (RepR.idx h.spins 1).bind fun _ _ h6 => ?_
  refine RepR.bindEq fun l2 => ?_
  refine (RepR.idx h.j l2).bind fun _ _ h7 => ?_
  refine (RepR.idx h.spins l2).bind fun _ _ h8 => ?_
  refine (rep_m h).bind fun _ _ _ => ?_
  have e1 := rep_j_s h5 h6
  have e2 := rep_j_s h7 h8
  have o1 : Rep3 ⟨_, _, _⟩ ⟨_, _, _⟩ := ⟨e1.1.sub h3.1, e1.2.1.sub h3.2.1, e1.2.2.sub h3.2.2⟩
  have o2 : Rep3 ⟨_, _, _⟩ ⟨_, _, _⟩ := ⟨e2.1.sub h4.1, e2.2.1.sub h4.2.1, e2.2.2.sub h4.2.2⟩
  have a1 := rep_sq h1
  have a2 := rep_sq h2
  have a3 := rep_sq o1
  have a4 := rep_sq o2
  have a5 := rep_dot o1 h1
  have a6 := rep_dot o2 h2
  have a7 := (rep_lit 20 true 1).div h.vars.beta h0
  refine .ok ?_
  exact (a7.mul (a5.add a6)).sub
    ((((a1.mul a3).sub (a5.mul a5)).add (a2.mul a4)).sub (a6.mul a6))

/-! ### Metropolis updates -/

theorem rep_proposal {u1 u2 : XF} {v1 v2 : ℝ} (h1 : u1.Rep v1) (h2 : u2.Rep v2) (h0 : 0 ≤ v2)
    (h0' : v2 ≤ 1) : RepS (proposal u1 u2) (proposal v1 v2) := by
  have a1 : (2.0 * fpi * u1).Rep (2.0 * fpi * v1) := ((rep_lit _ _ _).mul XF.rpi).mul h1
  have a2 : (facos (1.0 - 2.0 * u2)).Rep (facos (1.0 - 2.0 * v2)) :=
    XF.Rep.racos ((rep_lit _ _ _).sub ((rep_lit _ _ _).mul h2))
      (by rw [lit_1, lit_2]; linarith) (by rw [lit_1, lit_2]; linarith)
  exact ⟨a1.rcos.mul a2.rsin, a1.rsin.mul a2.rsin, a2.rcos⟩

theorem rep_accept {b de u : XF} {b' de' u' : ℝ} (hb : b.Rep b') (hd : de.Rep de')
    (hu : u.Rep u') : accept b de u = accept b' de' u' := by
  unfold accept
  rw [XF.Rep.flt hd (rep_lit 0 true 1), XF.Rep.flt hu (XF.Rep.rexp (hb.neg.mul hd))]

theorem rep_finish (h : RepChain c d) (i : ℕ) {sp : Spin XF} {sp' : Spin ℝ} (hs : RepS sp sp')
    {de u : XF} {de' u' : ℝ} (hd : de.Rep de') (hu : u.Rep u') :
    RepR RepChain (c.finish i sp de u) (d.finish i sp' de' u') := by
  unfold finish
  rw [rep_accept h.vars.beta hd hu]
  refine RepR.ite (fun _ => ?_) fun _ => .ok h
  refine (RepR.setIdx h.spins i hs).bind fun a b hab => ?_
  exact .ok { h with spins := hab }

structure RepN1 (n : Nbhd1 XF) (k : Nbhd1 ℝ) : Prop where
  s_l : RepS n.s_l k.s_l
  s_c : RepS n.s_c k.s_c
  s_r : RepS n.s_r k.s_r
  j_l : Rep3 n.j_l k.j_l
  j_r : Rep3 n.j_r k.j_r
  h : Rep3 n.h k.h

structure RepN (n : Nbhd XF) (k : Nbhd ℝ) : Prop where
  s_jm2 : RepS n.s_jm2 k.s_jm2
  s_jm1 : RepS n.s_jm1 k.s_jm1
  s_j : RepS n.s_j k.s_j
  s_jp1 : RepS n.s_jp1 k.s_jp1
  s_jp2 : RepS n.s_jp2 k.s_jp2
  j_jm2 : Rep3 n.j_jm2 k.j_jm2
  j_jm1 : Rep3 n.j_jm1 k.j_jm1
  j_j : Rep3 n.j_j k.j_j
  j_jp1 : Rep3 n.j_jp1 k.j_jp1

theorem rep_nbhd1 (h : RepChain c d) (s i : ℕ) : RepR RepN1 (c.nbhd1 s i) (d.nbhd1 s i) := by
  unfold nbhd1
  refine (RepR.idx h.h i).bind fun _ _ h1 => ?_
  refine (RepR.idx h.spins i).bind fun _ _ h2 => ?_
  refine RepR.bindEq fun _ => ?_
  refine (RepR.idx h.spins _).bind fun _ _ h3 => ?_
  refine RepR.bindEq fun _ => ?_
  refine (RepR.idx h.spins _).bind fun _ _ h4 => ?_
  refine RepR.bindEq fun _ => ?_
  refine (RepR.idx h.j _).bind fun _ _ h5 => ?_
  refine (RepR.idx h.j _).bind fun _ _ h6 => ?_
  exact .ok ⟨h3, h2, h4, h5, h6, h1⟩

theorem rep_nbhd (h : RepChain c d) (s i : ℕ) : RepR RepN (c.nbhd s i) (d.nbhd s i) := by
  unfold nbhd
  refine (RepR.idx h.spins i).bind fun _ _ h1 => ?_
  refine RepR.bindEq fun _ => ?_
  refine (RepR.idx h.spins _).bind fun _ _ h2 => ?_
  refine RepR.bindEq fun _ => ?_
  refine (RepR.idx h.spins _).bind fun _ _ h3 => ?_
  refine RepR.bindEq fun _ => ?_
  refine (RepR.idx h.spins _).bind fun _ _ h4 => ?_
  refine RepR.bindEq fun _ => ?_
  refine (RepR.idx h.spins _).bind fun _ _ h5 => ?_
  refine RepR.bindEq fun _ => ?_
  refine (RepR.idx h.j _).bind fun _ _ h6 => ?_
  refine RepR.bindEq fun _ => ?_
  refine (RepR.idx h.j _).bind fun _ _ h7 => ?_
  refine (RepR.idx h.j _).bind fun _ _ h8 => ?_
  refine RepR.bindEq fun _ => ?_
  refine (RepR.idx h.j _).bind fun _ _ h9 => ?_
  exact .ok ⟨h3, h2, h1, h4, h5, h7, h6, h8, h9⟩

theorem rep_metroDe {n : Nbhd1 XF} {k : Nbhd1 ℝ} (h : RepN1 n k) {s : Spin XF} {s' : Spin ℝ}
    (hs : RepS s s') : (metroDe n s).Rep (metroDe k s') := by
  obtain ⟨⟨a1, a2, a3⟩, ⟨b1, b2, b3⟩, ⟨c1, c2, c3⟩, ⟨d1, d2, d3⟩, ⟨e1, e2, e3⟩, ⟨f1, f2, f3⟩⟩ := h
  obtain ⟨s1, s2, s3⟩ := hs
  simp only [metroDe, for3, V3.get_zero, V3.get_one, V3.get_two]
  rep

theorem rep_om (h : RepChain c d) (h0 : d.vars.tau ≠ 0) : c.om.Rep d.om :=
  ((rep_lit _ _ _).mul XF.rpi).div h.vars.tau h0

theorem om_ne (h0 : d.vars.tau ≠ 0) : d.om ≠ 0 := by
  unfold om
  rw [lit_2, fpi_real]
  exact div_ne_zero (by positivity) h0

theorem rep_maglabDe {om : XF} {om' : ℝ} (ho : om.Rep om') (h0 : om' ≠ 0) {n : Nbhd1 XF}
    {k : Nbhd1 ℝ} (h : RepN1 n k) {s : Spin XF} {s' : Spin ℝ} (hs : RepS s s') :
    (maglabDe om n s).Rep (maglabDe om' k s') := by
  obtain ⟨⟨a1, a2, a3⟩, ⟨b1, b2, b3⟩, ⟨c1, c2, c3⟩, ⟨d1, d2, d3⟩, ⟨e1, e2, e3⟩, ⟨f1, f2, f3⟩⟩ := h
  obtain ⟨s1, s2, s3⟩ := hs
  have h2 : (2.0 : ℝ) * om' ≠ 0 := mul_ne_zero (by norm_num) h0
  simp only [maglabDe, for3, V3.get_zero, V3.get_one, V3.get_two]
  rep

theorem rep_mgAcc {n : Nbhd XF} {k : Nbhd ℝ} (h : RepN n k) {s : Spin XF} {s' : Spin ℝ}
    (hs : RepS s s') {m : XF} {m' : ℝ} (hm : m.Rep m') : (mgAcc n s m).Rep (mgAcc k s' m') := by
  obtain ⟨⟨a1, a2, a3⟩, ⟨b1, b2, b3⟩, ⟨c1, c2, c3⟩, ⟨d1, d2, d3⟩, ⟨e1, e2, e3⟩, ⟨f1, f2, f3⟩,
    ⟨g1, g2, g3⟩, ⟨i1, i2, i3⟩, ⟨j1, j2, j3⟩⟩ := h
  obtain ⟨s1, s2, s3⟩ := hs
  simp only [mgAcc, zxi_trip]
  rep

theorem rep_rotEnergy {om : XF} {om' : ℝ} (ho : om.Rep om') (h0 : om' ≠ 0) {n : Nbhd XF}
    {k : Nbhd ℝ} (h : RepN n k) (b : Bool) {s : Spin XF} {s' : Spin ℝ} (hs : RepS s s') {e : XF}
    {e' : ℝ} (he : e.Rep e') : (rotEnergy om n b s e).Rep (rotEnergy om' k b s' e') := by
  have hm := rep_mgAcc h hs (rep_lit 0 true 1)
  obtain ⟨⟨a1, a2, a3⟩, ⟨b1, b2, b3⟩, ⟨c1, c2, c3⟩, ⟨d1, d2, d3⟩, ⟨e1, e2, e3⟩, ⟨f1, f2, f3⟩,
    ⟨g1, g2, g3⟩, ⟨i1, i2, i3⟩, ⟨j1, j2, j3⟩⟩ := h
  obtain ⟨s1, s2, s3⟩ := hs
  have h2 : (16.0 : ℝ) * om' ≠ 0 := mul_ne_zero (by norm_num) h0
  cases b <;> simp only [rotEnergy, for2, V3.get_zero, V3.get_one, if_true, Bool.false_eq_true, if_false]
  · rep
  · rep

theorem rep_rotDe {om : XF} {om' : ℝ} (ho : om.Rep om') (h0 : om' ≠ 0) {n : Nbhd XF}
    {k : Nbhd ℝ} (h : RepN n k) (b : Bool) {s : Spin XF} {s' : Spin ℝ} (hs : RepS s s') :
    (rotDe om n b s).Rep (rotDe om' k b s') :=
  rep_rotEnergy ho h0 h b hs (rep_rotEnergy ho h0 h b h.s_j (rep_lit _ _ _)).neg

theorem rep_magnusBracket {n : Nbhd XF} {k : Nbhd ℝ} (h : RepN n k) (b b' : Bool) {z s : Spin XF}
    {z' s' : Spin ℝ} (hz : RepS z z') (hs : RepS s s') :
    (magnusBracket n b b' z s).Rep (magnusBracket k b b' z' s') := by
  obtain ⟨⟨a1, a2, a3⟩, ⟨b1, b2, b3⟩, ⟨c1, c2, c3⟩, ⟨d1, d2, d3⟩, ⟨e1, e2, e3⟩, ⟨f1, f2, f3⟩,
    ⟨g1, g2, g3⟩, ⟨i1, i2, i3⟩, ⟨j1, j2, j3⟩⟩ := h
  obtain ⟨s1, s2, s3⟩ := hs
  obtain ⟨z1, z2, z3⟩ := hz
  cases b <;> cases b' <;>
    simp only [magnusBracket, if_true, Bool.false_eq_true, if_false] <;> rep

theorem rep_magnusDe {tau : XF} {tau' : ℝ} (ho : tau.Rep tau') (h0 : tau' ≠ 0) {n : Nbhd XF}
    {k : Nbhd ℝ} (h : RepN n k) (b b' b'' : Bool) {s : Spin XF} {s' : Spin ℝ} (hs : RepS s s') :
    (magnusDe tau n b b' b'' s).Rep (magnusDe tau' k b b' b'' s') := by
  have m1 := rep_magnusBracket h b' b'' h.s_j h.s_j
  have m2 := rep_magnusBracket h b' b'' h.s_j hs
  obtain ⟨⟨a1, a2, a3⟩, ⟨b1, b2, b3⟩, ⟨c1, c2, c3⟩, ⟨d1, d2, d3⟩, ⟨e1, e2, e3⟩, ⟨f1, f2, f3⟩,
    ⟨g1, g2, g3⟩, ⟨i1, i2, i3⟩, ⟨j1, j2, j3⟩⟩ := h
  obtain ⟨s1, s2, s3⟩ := hs
  cases b <;> simp only [magnusDe, for3, V3.get_zero, V3.get_one, V3.get_two, if_true,
    Bool.false_eq_true, if_false] <;> rep

theorem rep_magFullEi2 {n : Nbhd XF} {k : Nbhd ℝ} (h : RepN n k) :
    (magFullEi2 n).Rep (magFullEi2 k) := by
  obtain ⟨⟨a1, a2, a3⟩, ⟨b1, b2, b3⟩, ⟨c1, c2, c3⟩, ⟨d1, d2, d3⟩, ⟨e1, e2, e3⟩, ⟨f1, f2, f3⟩,
    ⟨g1, g2, g3⟩, ⟨i1, i2, i3⟩, ⟨j1, j2, j3⟩⟩ := h
  have h2 : (2.0 : ℝ) ≠ 0 := by norm_num
  have h4 : (4.0 : ℝ) ≠ 0 := by norm_num
  simp only [magFullEi2]
  rep

theorem rep_magFullDe2 {n : Nbhd XF} {k : Nbhd ℝ} (h : RepN n k) {s : Spin XF} {s' : Spin ℝ}
    (hs : RepS s s') : (magFullDe2 n s).Rep (magFullDe2 k s') := by
  obtain ⟨⟨a1, a2, a3⟩, ⟨b1, b2, b3⟩, ⟨c1, c2, c3⟩, ⟨d1, d2, d3⟩, ⟨e1, e2, e3⟩, ⟨f1, f2, f3⟩,
    ⟨g1, g2, g3⟩, ⟨i1, i2, i3⟩, ⟨j1, j2, j3⟩⟩ := h
  obtain ⟨s1, s2, s3⟩ := hs
  have h2 : (2.0 : ℝ) ≠ 0 := by norm_num
  have h4 : (4.0 : ℝ) ≠ 0 := by norm_num
  simp only [magFullDe2]
  rep

theorem rep_magFullDe {om : XF} {om' : ℝ} (ho : om.Rep om') (h0 : om' ≠ 0) {n : Nbhd XF}
    {k : Nbhd ℝ} (h : RepN n k) (b : Bool) {s : Spin XF} {s' : Spin ℝ} (hs : RepS s s') :
    (magFullDe om n b s).Rep (magFullDe om' k b s') := by
  have m1 := rep_magFullEi2 h
  have m2 := rep_magFullDe2 h hs
  obtain ⟨⟨a1, a2, a3⟩, ⟨b1, b2, b3⟩, ⟨c1, c2, c3⟩, ⟨d1, d2, d3⟩, ⟨e1, e2, e3⟩, ⟨f1, f2, f3⟩,
    ⟨g1, g2, g3⟩, ⟨i1, i2, i3⟩, ⟨j1, j2, j3⟩⟩ := h
  obtain ⟨s1, s2, s3⟩ := hs
  have h2 : (2.0 : ℝ) ≠ 0 := by norm_num
  have h3 : om' * om' ≠ 0 := mul_ne_zero h0 h0
  cases b <;> simp only [magFullDe, magFullEi, magFullEi0, magFullEi1, magFullDe0, magFullDe1, for3,
    V3.get_zero, V3.get_one, V3.get_two, if_true, Bool.false_eq_true, if_false] <;> rep

variable {a : Draw XF} {b : Draw ℝ}

theorem rep_metropolis (h : RepChain c d) (hab : RepDraw a b) (h0 : 0 ≤ b.u2) (h1 : b.u2 ≤ 1) :
    RepR RepChain (c.metropolis_update a) (d.metropolis_update b) := by
  unfold metropolis_update
  rw [h.vars.hsize, hab.site]
  refine RepR.bindEq fun i => ?_
  refine (rep_nbhd1 h _ i).bind fun n k hn => ?_
  have hp := rep_proposal hab.u1 hab.u2 h0 h1
  exact rep_finish h i hp (rep_metroDe hn hp) hab.u3

theorem rep_maglab (h : RepChain c d) (ht : d.vars.tau ≠ 0) (hab : RepDraw a b) (h0 : 0 ≤ b.u2)
    (h1 : b.u2 ≤ 1) : RepR RepChain (c.metropolis_update_maglab a) (d.metropolis_update_maglab b) := by
  unfold metropolis_update_maglab
  rw [h.vars.hsize, hab.site]
  refine RepR.bindEq fun i => ?_
  refine (rep_nbhd1 h _ i).bind fun n k hn => ?_
  have hp := rep_proposal hab.u1 hab.u2 h0 h1
  exact rep_finish h i hp (rep_maglabDe (rep_om h ht) (om_ne ht) hn hp) hab.u3

theorem rep_rot_magnus (h : RepChain c d) (ht : d.vars.tau ≠ 0) (hab : RepDraw a b) (h0 : 0 ≤ b.u2)
    (h1 : b.u2 ≤ 1) :
    RepR RepChain (c.metropolis_update_rot_magnus a) (d.metropolis_update_rot_magnus b) := by
  unfold metropolis_update_rot_magnus
  rw [h.vars.hsize, h.vars.ssize, hab.site]
  dsimp only
  refine RepR.bindEq fun i => ?_
  refine (RepR.idx h.h i).bind fun _ _ _ => ?_
  refine (rep_nbhd h _ i).bind fun n k hn => ?_
  have hp := rep_proposal hab.u1 hab.u2 h0 h1
  exact rep_finish h i hp (rep_rotDe (rep_om h ht) (om_ne ht) hn _ hp) hab.u3

theorem rep_magnus (h : RepChain c d) (ht : d.vars.tau ≠ 0) (hab : RepDraw a b) (h0 : 0 ≤ b.u2)
    (h1 : b.u2 ≤ 1) : RepR RepChain (c.metropolis_update_magnus a) (d.metropolis_update_magnus b) := by
  unfold metropolis_update_magnus
  rw [h.vars.hsize, h.vars.ssize, hab.site]
  dsimp only
  refine RepR.bindEq fun i => ?_
  refine (RepR.idx h.h i).bind fun _ _ _ => ?_
  refine (rep_nbhd h _ i).bind fun n k hn => ?_
  have hp := rep_proposal hab.u1 hab.u2 h0 h1
  exact rep_finish h i hp (rep_magnusDe h.vars.tau ht hn _ _ _ hp) hab.u3

theorem rep_mag_full (h : RepChain c d) (ht : d.vars.tau ≠ 0) (hab : RepDraw a b) (h0 : 0 ≤ b.u2)
    (h1 : b.u2 ≤ 1) :
    RepR RepChain (c.metropolis_update_mag_full a) (d.metropolis_update_mag_full b) := by
  unfold metropolis_update_mag_full
  rw [h.vars.hsize, h.vars.ssize, hab.site]
  dsimp only
  refine RepR.bindEq fun i => ?_
  refine (RepR.idx h.h i).bind fun _ _ _ => ?_
  refine (rep_nbhd h _ i).bind fun n k hn => ?_
  have hp := rep_proposal hab.u1 hab.u2 h0 h1
  exact rep_finish h i hp (rep_magFullDe (rep_om h ht) (om_ne ht) hn _ hp) hab.u3

/-! ### Magnus energies -/

theorem rep_mgSum (h : RepChain c d) (n : ℕ) : RepR XF.Rep (c.mgSum n) (d.mgSum n) := by
  unfold mgSum
  refine RepR.forRange (rep_lit _ _ _) fun i a b _ _ hab => ?_
  exact (rep_nbhd h n i).bind fun _ _ hn => .ok (rep_mgAcc hn hn.s_j hab)

theorem rep_energy_maglab (h : RepChain c d) (ht : d.vars.tau ≠ 0) :
    RepR XF.Rep c.mc_system_energy_maglab d.mc_system_energy_maglab := by
  unfold mc_system_energy_maglab
  rw [h.vars.hsize]
  dsimp only
  have ho := rep_om h ht
  have h2 : (2.0 : ℝ) * d.om ≠ 0 := mul_ne_zero (by norm_num) (om_ne ht)
  have h16 : (16.0 : ℝ) * d.om ≠ 0 := mul_ne_zero (by norm_num) (om_ne ht)
  have hb : ∀ (s1 s2 : Spin XF) (j : V3 XF) (e : XF) (s1' s2' : Spin ℝ) (j' : V3 ℝ) (e' : ℝ),
      RepS s1 s1' → RepS s2 s2' → Rep3 j j' → e.Rep e' →
      (for3 e fun k e => e - s1.dir.get k * j.get k * s2.dir.get k).Rep
        (for3 e' fun k e => e - s1'.dir.get k * j'.get k * s2'.dir.get k) := by
    rintro s1 s2 j e s1' s2' j' e' ⟨a1, a2, a3⟩ ⟨b1, b2, b3⟩ ⟨c1, c2, c3⟩ he
    simp only [for3, V3.get_zero, V3.get_one, V3.get_two]
    rep
  by_cases hs : 1 ≤ asUsize d.vars.hsize
  · rw [usub_ok hs, ok_bind, ok_bind]
    refine (RepR.forRange (r := XF.Rep) (rep_lit _ _ _) fun i a b _ _ hab => ?_).bind
      fun a b hab => ?_
    · refine (RepR.idx h.spins i).bind fun _ _ h1 => ?_
      refine (RepR.idx h.spins (i + 1)).bind fun _ _ h2 => ?_
      refine (RepR.idx h.j i).bind fun _ _ h3 => ?_
      exact .ok (hb _ _ _ _ _ _ _ _ h1 h2 h3 hab)
    refine (RepR.idx h.spins _).bind fun _ _ g1 => ?_
    refine (RepR.idx h.spins 0).bind fun _ _ g2 => ?_
    refine (RepR.idx h.j _).bind fun _ _ g3 => ?_
    refine (RepR.forRange (r := XF.Rep) (hb _ _ _ _ _ _ _ _ g1 g2 g3 hab) fun i a b _ _ hab => ?_).bind
      fun a b hab => ?_
    · refine (RepR.idx h.spins i).bind fun _ _ h1 => ?_
      exact .ok (hab.add (h1.2.2.neg.div ((rep_lit _ _ _).mul ho) h2))
    refine (rep_mgSum h _).bind fun m m' hm => ?_
    refine .ok ((hab.sub (hm.div ((rep_lit _ _ _).mul ho) h16)).div (XF.rint _) ?_)
    rw [fofInt_real]
    have : asUsize d.vars.hsize ≠ 0 := by omega
    exact_mod_cast this
  · rw [usub_err (by omega)]
    exact .error _

theorem rep_energy_rot (h : RepChain c d) (ht : d.vars.tau ≠ 0) :
    RepR XF.Rep c.mc_system_energy_rot d.mc_system_energy_rot := by
  unfold mc_system_energy_rot
  rw [h.vars.hsize, h.vars.ssize]
  dsimp only
  have ho := rep_om h ht
  have h16 : (16.0 : ℝ) * d.om ≠ 0 := mul_ne_zero (by norm_num) (om_ne ht)
  have hb : ∀ (s1 s2 : Spin XF) (j : V3 XF) (e : XF) (s1' s2' : Spin ℝ) (j' : V3 ℝ) (e' : ℝ),
      RepS s1 s1' → RepS s2 s2' → Rep3 j j' → e.Rep e' →
      ((for2 e fun k e => e - s1.dir.get k * 0.5 * (j.x + j.y) * s2.dir.get k)
          - s1.dir.z * j.z * s2.dir.z).Rep
        ((for2 e' fun k e => e - s1'.dir.get k * 0.5 * (j'.x + j'.y) * s2'.dir.get k)
          - s1'.dir.z * j'.z * s2'.dir.z) := by
    rintro s1 s2 j e s1' s2' j' e' ⟨a1, a2, a3⟩ ⟨b1, b2, b3⟩ ⟨c1, c2, c3⟩ he
    simp only [for2, V3.get_zero, V3.get_one]
    rep
  by_cases hs : 1 ≤ asUsize d.vars.hsize
  · rw [usub_ok hs, ok_bind, ok_bind]
    refine (RepR.forRange (r := XF.Rep) (rep_lit _ _ _) fun i a b _ _ hab => ?_).bind
      fun a b hab => ?_
    · refine (RepR.idx h.spins i).bind fun _ _ h1 => ?_
      refine (RepR.idx h.spins (i + 1)).bind fun _ _ h2 => ?_
      refine (RepR.idx h.j i).bind fun _ _ h3 => ?_
      exact .ok (hb _ _ _ _ _ _ _ _ h1 h2 h3 hab)
    refine (RepR.idx h.spins _).bind fun _ _ g1 => ?_
    refine (RepR.idx h.spins 0).bind fun _ _ g2 => ?_
    refine (RepR.idx h.j _).bind fun _ _ g3 => ?_
    refine (RepR.forRange (r := XF.Rep) (hb _ _ _ _ _ _ _ _ g1 g2 g3 hab) fun i a b _ _ hab => ?_).bind
      fun a b hab => ?_
    · exact (RepR.idx h.spins i).bind fun _ _ h1 => .ok (hab.add h1.1)
    refine (RepR.forRange (r := XF.Rep) hab fun i a b _ _ hab => ?_).bind fun a b hab => ?_
    · exact (RepR.idx h.spins i).bind fun _ _ h1 => .ok (hab.add (ho.neg.mul h1.2.2))
    refine (rep_mgSum h _).bind fun m m' hm => ?_
    refine .ok ((hab.sub (hm.div ((rep_lit _ _ _).mul ho) h16)).div (XF.rint _) ?_)
    rw [fofInt_real]
    have : asUsize d.vars.hsize ≠ 0 := by omega
    exact_mod_cast this
  · rw [usub_err (by omega)]
    exact .error _

/-! ### spectrum and log -/

theorem rep_dft {xs : List XF} {ys : List ℝ} (h : List.Forall₂ XF.Rep xs ys) {l : ℕ} (hl : l ≠ 0)
    (n : ℕ) : (dft xs l n).1.Rep (dft ys l n).1 ∧ (dft xs l n).2.Rep (dft ys l n).2 := by
  unfold dft
  have hl' : (fofInt (l : ℤ) : ℝ) ≠ 0 := by rw [fofInt_real]; exact_mod_cast hl
  suffices H : ∀ (k : ℕ) (p : XF × XF) (q : ℝ × ℝ), p.1.Rep q.1 → p.2.Rep q.2 →
      let f : XF × XF := (xs.zipIdx k).foldl (fun acc p =>
        let a := 2.0 * fpi * fofInt (n * p.2 : ℕ) / fofInt l
        (acc.1 + p.1 * fcos a, acc.2 - p.1 * fsin a)) p
      let g : ℝ × ℝ := (ys.zipIdx k).foldl (fun acc p =>
        let a := 2.0 * fpi * fofInt (n * p.2 : ℕ) / fofInt l
        (acc.1 + p.1 * fcos a, acc.2 - p.1 * fsin a)) q
      f.1.Rep g.1 ∧ f.2.Rep g.2 from H 0 _ _ (rep_lit _ _ _) (rep_lit _ _ _)
  induction h with
  | nil => intro k p q h1 h2; exact ⟨h1, h2⟩
  | cons h _ ih =>
    intro k p q h1 h2
    dsimp only
    rw [List.zipIdx_cons, List.zipIdx_cons, List.foldl_cons, List.foldl_cons]
    have ha : ((2.0 : XF) * fpi * fofInt ((n * k : ℕ) : ℤ) / fofInt (l : ℤ)).Rep
        ((2.0 : ℝ) * fpi * fofInt ((n * k : ℕ) : ℤ) / fofInt (l : ℤ)) :=
      (((rep_lit _ _ _).mul XF.rpi).mul (XF.rint _)).div (XF.rint _) hl'
    exact ih (k + 1) _ _ (h1.add (h.mul ha.rcos)) (h2.sub (h.mul ha.rsin))

theorem rep_modePower {xs : List (Spin XF)} {ys : List (Spin ℝ)} (h : List.Forall₂ RepS xs ys)
    {l : ℕ} (hl : l ≠ 0) (i : ℕ) : (modePower xs l i).Rep (modePower ys l i) := by
  have hx : List.Forall₂ XF.Rep (xs.map fun s => s.dir.x) (ys.map fun s => s.dir.x) :=
    List.forall₂_map_left_iff.2 (List.forall₂_map_right_iff.2 (h.imp fun _ _ h => h.1))
  have hy : List.Forall₂ XF.Rep (xs.map fun s => s.dir.y) (ys.map fun s => s.dir.y) :=
    List.forall₂_map_left_iff.2 (List.forall₂_map_right_iff.2 (h.imp fun _ _ h => h.2.1))
  have hz : List.Forall₂ XF.Rep (xs.map fun s => s.dir.z) (ys.map fun s => s.dir.z) :=
    List.forall₂_map_left_iff.2 (List.forall₂_map_right_iff.2 (h.imp fun _ _ h => h.2.2))
  obtain ⟨x1, x2⟩ := rep_dft hx hl i
  obtain ⟨y1, y2⟩ := rep_dft hy hl i
  obtain ⟨z1, z2⟩ := rep_dft hz hl i
  simp only [modePower]
  rep

theorem rep_energy_spectrum (h : RepChain c d) :
    RepR (List.Forall₂ XF.Rep) c.energy_spectrum d.energy_spectrum := by
  unfold energy_spectrum
  rw [h.vars.hsize, h.spins.length_eq]
  dsimp only
  refine RepR.ite (fun _ => .error _) fun hl => ?_
  have hrep : List.Forall₂ XF.Rep (List.replicate (asUsize d.vars.hsize) (0.0 : XF))
      (List.replicate (asUsize d.vars.hsize) (0.0 : ℝ)) :=
    List.forall₂_iff_get.2 ⟨by simp, fun i _ _ => by simpa using rep_lit 0 true 1⟩
  refine (RepR.forRange (r := List.Forall₂ XF.Rep) hrep fun i a b h1 h2 hab => ?_).bind
    fun a b hab => ?_
  · exact RepR.setIdx hab _ (rep_modePower h.spins (by omega) i)
  · refine RepR.forRange hab fun i a b h1 h2 hab => ?_
    exact RepR.setIdx hab _ (rep_modePower h.spins (by omega) i)

theorem rep_log (h : RepChain c d) (ht : d.vars.tau ≠ 0) (h0 : d.vars.hsize ≠ 0)
    (h1 : d.vars.ssize ≠ 0) (h2 : asUsize d.vars.ssize ≠ 1) : RepR RepRow c.log d.log := by
  have hd : DriveOK d.vars := Or.inr (Or.inr ht)
  unfold log
  rw [h.vars.hsize, h.vars.ssize]
  refine (rep_system_energy h hd h2).bind fun e e' he => ?_
  refine (rep_total_energy2 h hd h0).bind fun es es' hes => ?_
  refine (rep_m h).bind fun m m' hm => ?_
  refine (rep_m_tot h).bind fun mt mt' hmt => ?_
  have hs : (fofInt d.vars.ssize : XF).Rep (fofInt d.vars.ssize : ℝ) := XF.rint _
  have hs0 : (fofInt d.vars.ssize : ℝ) ≠ 0 := by rw [fofInt_real]; exact_mod_cast h1
  have hh0 : (fofInt d.vars.hsize : ℝ) ≠ 0 := by rw [fofInt_real]; exact_mod_cast h0
  have h4 : (4.0 : ℝ) ≠ 0 := by norm_num
  dsimp only
  rw [XF.Rep.toNat (hs.div (rep_lit 40 true 1) h4),
    XF.Rep.toNat (((rep_lit 30 true 1).mul hs).div (rep_lit 40 true 1) h4)]
  refine (RepR.idx h.spins _).bind fun sm sm' hsm => ?_
  refine (RepR.idx h.spins _).bind fun sp sp' hsp => ?_
  have hp : (fpi * c.t / (100.0 * c.vars.tau)).Rep (fpi * d.t / (100.0 * d.vars.tau)) :=
    (XF.rpi.mul h.t).div ((rep_lit _ _ _).mul h.vars.tau) (mul_ne_zero (by norm_num) ht)
  have hq : (c.vars.dt / (20.0 * fpi)).Rep (d.vars.dt / (20.0 * fpi)) := by
    refine h.vars.dt.div ((rep_lit _ _ _).mul XF.rpi) (mul_ne_zero (by norm_num) ?_)
    rw [fpi_real]; exact Real.pi_ne_zero
  rw [XF.Rep.flt hp.rsin.rabs hq, h.file]
  have hrow : List.Forall₂ XF.Rep
      [c.t, es, e, m.x / fofInt d.vars.ssize, m.y / fofInt d.vars.ssize, m.z / fofInt d.vars.ssize,
        mt.z / fofInt d.vars.hsize, sm.dir.x, sm.dir.y, sm.dir.z, sp.dir.x, sp.dir.y, sp.dir.z]
      [d.t, es', e', m'.x / fofInt d.vars.ssize, m'.y / fofInt d.vars.ssize,
        m'.z / fofInt d.vars.ssize, mt'.z / fofInt d.vars.hsize, sm'.dir.x, sm'.dir.y, sm'.dir.z,
        sp'.dir.x, sp'.dir.y, sp'.dir.z] :=
    .cons h.t <| .cons hes <| .cons he <| .cons (hm.1.div hs hs0) <| .cons (hm.2.1.div hs hs0) <|
    .cons (hm.2.2.div hs hs0) <| .cons (hmt.2.2.div (XF.rint _) hh0) <| .cons hsm.1 <|
    .cons hsm.2.1 <| .cons hsm.2.2 <| .cons hsp.1 <| .cons hsp.2.1 <| .cons hsp.2.2 .nil
  have hfin : ∀ {x : List XF} {y : List ℝ}, List.Forall₂ XF.Rep x y → RepR RepRow
      (Pure.pure (if d.file.isSome = true then some x else none))
      (Pure.pure (if d.file.isSome = true then some y else none)) := by
    intro x y hrow
    refine .ok ?_
    split
    · exact .inr ⟨_, _, rfl, rfl, hrow⟩
    · exact .inl ⟨rfl, rfl⟩
  refine RepR.ite (fun _ => ?_) fun _ => hfin hrow
  exact (rep_energy_spectrum h).bind fun _ _ _ => hfin hrow

end

end SpinChain

end Verif
