/-
C72: the microcanonical start of the dynamic histogram of `gen_hist`.
-/
import Verif.Props.Trajectories
import Verif.Lemmas.LogTotal

namespace Verif.Props

open Spec Finset

variable {L s : ℕ}

theorem whileN_some {σ : Type} {guard : σ → Bool} {body : σ → R σ} {Q : σ → Prop}
    (hQ : ∀ a b, body a = .ok b → Q b) : ∀ n a b, whileN guard body n a = .ok (some b) →
      guard b = false ∧ (guard a = true → Q b) := by
  intro n
  induction n with
  | zero =>
    intro a b h
    unfold whileN at h
    split at h
    · cases h
    · rename_i hg
      cases h
      simp only [Bool.not_eq_true] at hg
      exact ⟨hg, fun h => by rw [hg] at h; cases h⟩
  | succ n ih =>
    intro a b h
    unfold whileN at h
    split at h
    · obtain ⟨a', h1, h2⟩ := bind_eq_ok h
      have h3 := ih a' b h2
      refine ⟨h3.1, fun _ => ?_⟩
      by_cases hg : guard a' = true
      · exact h3.2 hg
      · cases n with
        | zero =>
          unfold whileN at h2
          rw [if_neg hg] at h2
          cases h2
          exact hQ _ _ h1
        | succ n =>
          unfold whileN at h2
          rw [if_neg hg] at h2
          cases h2
    · cases h

/-- the configuration used by `gen_hist` -/
def histConf (conf : Config ℝ) : Config ℝ := { conf with
  drive := .none
  file := "x" }

theorem histSample2_total {F : Type} [Add F] [Sub F] [Mul F] [Div F] [Neg F] [OfScientific F] [FOps F]
    {c : SpinChain F} (w : WF c L s) (hs : 1 ≤ s) (hsL : s ≤ L)
    (h1 : ftoNat ((fofInt (s : ℤ) : F) / 4.0) < L)
    (h3 : ftoNat ((3.0 : F) * (fofInt (s : ℤ) : F) / 4.0) < L) : ∃ r, histSample2 c = .ok r := by
  obtain ⟨e, he⟩ := system_energy_total w hs hsL
  obtain ⟨m, hm⟩ := m_total w hsL
  obtain ⟨a, ha⟩ := spins_total w h1
  obtain ⟨b, hb⟩ := spins_total w h3
  unfold histSample2 histSample
  simp only [he, hm, w.ssize, ha, hb, ok_bind]
  exact ⟨_, rfl⟩

/-- Whenever the search of `gen_hist` ends (after any number of passes), the chain on which the
dynamic histogram starts has an energy density within 0.005 of the configured one and each component
of the magnetisation per site within 0.003 of zero, the couplings of the chain the Monte-Carlo
histogram was made with, and the time at which chains start.  Both histograms have `sample_num`
rows, and the rows of the dynamic one are the samples after 10000, 20000, ... updates of the
drive-free chain. -/
theorem C72_shell (conf : Config ℝ) (v : ValidConf conf L s) (hs : 1 ≤ s) (hsL : s ≤ L)
    (k : ℕ) (r : Rand ℝ) (ds' : ℕ → ℕ → Draw ℝ) (n : ℕ) (g : GenHist ℝ)
    (h : genHist conf k r ds' n = .ok (some g)) :
    WF g.shell L s ∧ g.shell.vars = histConf conf ∧ g.shell.t = -conf.trel ∧
    (∃ c, SpinChain.new (histConf conf) 0 r.u r.zj r.zh = .ok c ∧
      g.shell.j_couple = c.j_couple ∧ g.shell.static_h = c.static_h) ∧
    |ringEnergy L (S g.shell) (J g.shell) (H0 g.shell) / L - conf.ednsty| ≤ 0.005 ∧
    |(∑ i ∈ range L, (S g.shell i).x) / L| ≤ 0.003 ∧
    |(∑ i ∈ range L, (S g.shell i).y) / L| ≤ 0.003 ∧
    |(∑ i ∈ range L, (S g.shell i).z) / L| ≤ 0.003 ∧
    g.mc.length = k ∧ g.dyn.length = k ∧
    ∀ i (hi : i < g.dyn.length), ∃ c, g.shell.updates (10000 * (i + 1)) = .ok c ∧
      histSample2 c = .ok g.dyn[i] := by
  have v' : ValidConf (histConf conf) L s :=
    ⟨v.hsize, v.ssize, v.L_two, v.L_lt, v.s_lt, v.hfield, v.hs, v.jvar, v.hvar⟩
  obtain ⟨c, h1, w, ht, hv, -, -⟩ := valid_new v' 0 r.u r.zj r.zh
  have n1 : ftoNat ((fofInt (s : ℤ) : ℝ) / 4.0) < L := by
    rw [ftoNat_real, fofInt_real, lit_4, min_lt_iff]
    left
    have : (((s : ℤ) : ℝ)) / 4 = ((s : ℕ) : ℝ) / ((4 : ℕ) : ℝ) := by push_cast; ring
    rw [this, Nat.floor_div_eq_div]
    omega
  have n2 : ftoNat ((3.0 : ℝ) * (fofInt (s : ℤ) : ℝ) / 4.0) < L := by
    rw [ftoNat_real, fofInt_real, lit_4, lit_3, min_lt_iff]
    left
    have : 3 * (((s : ℤ) : ℝ)) / 4 = ((3 * s : ℕ) : ℝ) / ((4 : ℕ) : ℝ) := by push_cast; ring
    rw [this, Nat.floor_div_eq_div]
    omega
  obtain ⟨chain, val, c0, c1, c2, c3, c4⟩ := sampleLoop_eq .plain 10000 k histSample2 r.ds c w v.L_two
    (fun d wd => histSample2_total wd hs hsL n1 n2)
  have c4' : sampleLoop SpinChain.metropolis_update 10000 k histSample2 r.ds c
      = .ok (chain k, (List.range k).map val) := c4
  have hframe : ∀ i, (chain i).vars = histConf conf ∧ (chain i).t = -conf.trel ∧
      (chain i).j_couple = c.j_couple ∧ (chain i).static_h = c.static_h := by
    intro i
    induction i with
    | zero => rw [c0]; exact ⟨hv, ht, rfl, rfl⟩
    | succ i ih =>
      obtain ⟨-, a2, a3, a4, a5, -⟩ := C34_frame _ _ _ (c1 i)
      exact ⟨a5.trans ih.1, a4.trans ih.2.1, a2.trans ih.2.2.1, a3.trans ih.2.2.2⟩
  unfold genHist at h
  rw [show ({ conf with drive := DriveType.none, file := "x" } : Config ℝ) = histConf conf from rfl] at h
  simp only [h1, ok_bind, c4'] at h
  obtain ⟨o, h2, h3⟩ := bind_eq_ok h
  cases o with
  | none => cases h3
  | some st =>
    obtain ⟨d, p, fl⟩ := st
    -- what every pass of the search keeps
    have hinv : ∀ n (a b : SpinChain ℝ × ℕ × Bool),
        whileN (fun s : SpinChain ℝ × ℕ × Bool => s.2.2) (histPass ds') n a = .ok (some b) →
        (WF a.1 L s ∧ a.1.vars = histConf conf ∧ a.1.t = -conf.trel ∧ a.1.j_couple = c.j_couple ∧
          a.1.static_h = c.static_h) →
        (WF b.1 L s ∧ b.1.vars = histConf conf ∧ b.1.t = -conf.trel ∧ b.1.j_couple = c.j_couple ∧
          b.1.static_h = c.static_h) := by
      intro n
      induction n with
      | zero =>
        intro a b hh ha
        unfold whileN at hh
        split at hh <;> cases hh
        exact ha
      | succ n ih =>
        intro a b hh ha
        unfold whileN at hh
        split at hh
        · obtain ⟨a', q1, q2⟩ := bind_eq_ok hh
          refine ih a' b q2 ?_
          unfold histPass at q1
          obtain ⟨d', q3, q4⟩ := bind_eq_ok q1
          obtain ⟨f, q5, q6⟩ := bind_eq_ok q4
          cases q6
          obtain ⟨d'', q7, q8, q9, q10, q11, q12, q13⟩ := warm_ok ha.1 v.L_two (ds' a.2.1) 10000
          rw [q7] at q3
          cases q3
          exact ⟨q8, q9.trans ha.2.1, q10.trans ha.2.2.1, q12.trans ha.2.2.2.1, q13.trans ha.2.2.2.2⟩
        · cases hh
    obtain ⟨wd, dv, dt, dj, dh⟩ := hinv n _ _ h2 ⟨c2 k, hframe k⟩
    simp only at wd dv dt dj dh
    obtain ⟨hfl, hq⟩ := whileN_some (Q := fun b : SpinChain ℝ × ℕ × Bool => histReject b.1 = .ok b.2.2)
      (by
        intro a b hh
        unfold histPass at hh
        obtain ⟨d', q3, q4⟩ := bind_eq_ok hh
        obtain ⟨f, q5, q6⟩ := bind_eq_ok q4
        cases q6
        exact q5) n _ _ h2
    have hrej := hq rfl
    simp only at hfl hrej
    rw [hfl] at hrej
    have hL1 : 1 ≤ L := by have := v.L_two; omega
    have hB : ∀ i, B d s d.t i = H0 d i := by
      intro i
      unfold B drive
      rw [dv]
      simp only [histConf, add, zero, add_zero]
      split <;> rfl
    have hB' : B d s d.t = H0 d := funext hB
    unfold histReject at hrej
    simp only [total_energy2_eq wd hL1, m_tot_eq wd, ok_bind, fofInt_real, dv,
      show (histConf conf).hsize = L from v.hsize, Int.cast_natCast, hB', flt_real, fabs_real] at hrej
    have hrej' := Except.ok.inj hrej
    simp only [Bool.or_eq_false_iff, decide_eq_false_iff_not, not_lt] at hrej'
    obtain ⟨⟨⟨hr1, hr2⟩, hr3⟩, hr4⟩ := hrej'
    -- the dynamic histogram
    obtain ⟨orb, o0, ow, ostep, oupd⟩ := update_orbit wd v.L_two
    choose smp hsmp using fun i => histSample2_total (ow i) hs hsL n1 n2
    have horb : ∀ i j, (orb i).updates j = .ok (orb (i + j)) := by
      intro i j
      induction j generalizing i with
      | zero => rfl
      | succ j ih =>
        show ((orb i).update >>= fun c' => c'.updates j) = _
        rw [ostep, ok_bind, ih, show i + 1 + j = i + (j + 1) by omega]
    have hdyn : histDyn d k = .ok (orb (10000 * k), (List.range k).map fun i => smp (10000 * (i + 1))) := by
      have := forRange_trace (hi := k) (body := fun _ (st : SpinChain ℝ × List (List ℝ)) => do
          let c ← st.1.updates 10000
          return (c, st.2 ++ [← histSample2 c]))
        (fun i => (orb (10000 * i), (List.range i).map fun i => smp (10000 * (i + 1)))) (by
          intro i hi
          simp only [horb, ok_bind]
          rw [show 10000 * i + 10000 = 10000 * (i + 1) by ring, hsmp, ok_bind, List.range_succ,
            List.map_append]
          rfl)
      simp only [Nat.mul_zero, o0, List.range_zero, List.map_nil] at this
      exact this
    simp only [hdyn, ok_bind] at h3
    have hg := Except.ok.inj h3
    have hg := Option.some.inj hg
    subst hg
    refine ⟨wd, dv, dt, ⟨c, h1, dj, dh⟩, hr1, hr2, hr3, hr4, by simp, by simp, ?_⟩
    intro i hi
    simp only [List.getElem_map, List.getElem_range]
    exact ⟨_, oupd _, hsmp _⟩

/-- The shell is kept: in the drive-free dynamics on an even chain of unit spins in non-vanishing
local fields the energy density stays within 0.005 of the configured one for ever. -/
theorem C72_shell_kept (conf : Config ℝ) (v : ValidConf conf L s) (hs : 1 ≤ s) (hsL : s ≤ L)
    (heven : L % 2 = 0) (k : ℕ) (r : Rand ℝ) (ds' : ℕ → ℕ → Draw ℝ) (n : ℕ) (g : GenHist ℝ)
    (h : genHist conf k r ds' n = .ok (some g)) (hu : ∀ x ∈ g.shell.spins, IsUnit3 x)
    (j : ℕ) (hr : RegularRun g.shell L s j) :
    ∃ c e, g.shell.updates j = .ok c ∧ c.total_energy2 = .ok e ∧ |e - conf.ednsty| ≤ 0.005 := by
  obtain ⟨w, hv, -, -, he, -⟩ := C72_shell conf v hs hsL k r ds' n g h
  obtain ⟨c, h1, h2, -, h3⟩ := C23_energy_conserved g.shell L s j w v.L_two heven
    (Or.inl (by rw [hv]; rfl)) hu hr
  refine ⟨c, _, h1, h2.trans h3, ?_⟩
  have hB : B g.shell s g.shell.t = H0 g.shell := by
    funext i
    unfold B drive
    rw [hv]
    simp only [histConf, add, zero, add_zero]
    split <;> rfl
  rw [hB]
  exact he

/-- Not-a-number observables end the search: every comparison with NaN is false, so a chain whose
energy and magnetisation are NaN is accepted as being in the shell. -/
theorem C72_nan_accepted (c : SpinChain XF) (m : V3 XF) (he : c.total_energy2 = .ok .nan)
    (hm : c.m_tot = .ok m) (hx : m.x = .nan) (hy : m.y = .nan) (hz : m.z = .nan) :
    histReject c = .ok false := by
  unfold histReject
  simp only [he, hm, ok_bind, hx, hy, hz]
  rfl

/-- a chain of two spins -/
noncomputable def pairConf : Config ℝ := { strobConf with
  hsize := 2
  ssize := 2
  jvar := 0
  hvar := 0
  hs := [0, 0, 1 / 5]
  hfield := [0, 1 / 2, 0]
  ednsty := 1 }

theorem pairConf_valid : ValidConf pairConf 2 2 := by
  constructor <;> simp [pairConf]

/-- draws that turn the first spin along x and the second against x -/
noncomputable def pairDraw (k : ℕ) : Draw ℝ :=
  { site := k, u1 := if k % 2 = 0 then 0 else 1 / 2, u2 := 1 / 2, u3 := 0 }

theorem pair_step {c : SpinChain ℝ} (w : WF c 2 2) (k : ℕ) :
    ∃ c', c.metropolis_update (pairDraw k) = .ok c' ∧
      c' = replace c (k % 2) (spherePoint (if k % 2 = 0 then 0 else 1 / 2) (1 / 2)) := by
  obtain ⟨e, e', -, -, h⟩ := C35_energy_difference c 2 2 (pairDraw k) w le_rfl
    ⟨by simp only [pairDraw]; split <;> norm_num, by norm_num [pairDraw], by norm_num [pairDraw]⟩
  refine ⟨_, h, ?_⟩
  unfold metropolis
  rw [show (pairDraw k).u3 = 0 from rfl, if_pos (Or.inr (Real.exp_pos _))]
  rfl

theorem pair_sweeps {c : SpinChain ℝ} (w : WF c 2 2) (n : ℕ) (hn : 2 ≤ n) :
    ∃ c', sweeps SpinChain.metropolis_update pairDraw n c = .ok c' ∧ WF c' 2 2 ∧
      c'.vars = c.vars ∧ c'.t = c.t ∧ c'.j_couple = c.j_couple ∧ c'.static_h = c.static_h ∧
      S c' 0 = ⟨1, 0, 0⟩ ∧ S c' 1 = ⟨-1, 0, 0⟩ := by
  have p0 : spherePoint 0 (1 / 2) = ⟨1, 0, 0⟩ := by simp [spherePoint]
  have p1 : spherePoint (1 / 2) (1 / 2) = ⟨-1, 0, 0⟩ := by
    have : 2 * Real.pi * (1 / 2) = Real.pi := by ring
    unfold spherePoint
    rw [this]
    simp
  obtain ⟨c', h, h1⟩ := forRange_inv (lo := 0) (hi := n) (init := c)
    (body := fun k c => c.metropolis_update (pairDraw k))
    (fun i c' => WF c' 2 2 ∧ c'.vars = c.vars ∧ c'.t = c.t ∧ c'.j_couple = c.j_couple ∧
      c'.static_h = c.static_h ∧ (1 ≤ i → S c' 0 = ⟨1, 0, 0⟩) ∧ (2 ≤ i → S c' 1 = ⟨-1, 0, 0⟩))
    ⟨w, rfl, rfl, rfl, rfl, by omega, by omega⟩ (Nat.zero_le _) (by
      rintro i d - - ⟨wd, h1, h2, h3, h4, h5, h6⟩
      obtain ⟨d', e1, e2⟩ := pair_step wd i
      refine ⟨d', e1, ?_⟩
      rw [e2]
      refine ⟨replace_wf wd _ _, h1, h2, h3, h4, ?_, ?_⟩
      · intro _
        rcases Nat.mod_two_eq_zero_or_one i with hi | hi
        · simp only [hi, S, replace, if_true]
          rw [List.getElem?_set_self (by rw [wd.spins]; omega), Option.map_some, Option.getD_some, p0]
        · simp only [hi, S, replace]
          rw [List.getElem?_set_ne (by omega)]
          exact h5 (by omega)
      · intro h
        rcases Nat.mod_two_eq_zero_or_one i with hi | hi
        · simp only [hi, S, replace]
          rw [List.getElem?_set_ne (by omega)]
          exact h6 (by omega)
        · simp only [hi, S, replace]
          rw [List.getElem?_set_self (by rw [wd.spins]; omega), Option.map_some, Option.getD_some,
            if_neg (by omega), p1])
  exact ⟨c', h, h1.1, h1.2.1, h1.2.2.1, h1.2.2.2.1, h1.2.2.2.2.1, h1.2.2.2.2.2.1 (by omega),
    h1.2.2.2.2.2.2 hn⟩

/-- The search can end: the hypothesis of `C72_shell` is met. -/
theorem C72_reachable (k : ℕ) : ∃ r g, genHist pairConf k r (fun _ => pairDraw) 1 = .ok (some g) ∧
    S g.shell 0 = ⟨1, 0, 0⟩ ∧ S g.shell 1 = ⟨-1, 0, 0⟩ := by
  obtain ⟨r, hr⟩ : ∃ r : Rand ℝ, r = ⟨fun _ => 0, fun _ => 0, fun _ => 0, fun _ => pairDraw⟩ := ⟨_, rfl⟩
  have v' : ValidConf (histConf pairConf) 2 2 := by constructor <;> simp [histConf, pairConf]
  obtain ⟨c, h1, w, ht, hv, -, -⟩ := valid_new v' 0 r.u r.zj r.zh
  obtain ⟨cc, hcc, hJH⟩ := C12_couplings_fields (histConf pairConf) 0 r.u r.zj r.zh 2 rfl (by norm_num)
    ⟨0, 1 / 2, 0⟩ ⟨0, 0, 1 / 5⟩ [] [] rfl rfl
  rw [h1] at hcc
  cases hcc
  have n1 : ftoNat ((fofInt ((2 : ℕ) : ℤ) : ℝ) / 4.0) < 2 := by
    rw [ftoNat_real, fofInt_real, lit_4, Nat.floor_eq_zero.mpr (by norm_num)]; norm_num
  have n2 : ftoNat ((3.0 : ℝ) * (fofInt ((2 : ℕ) : ℤ) : ℝ) / 4.0) < 2 := by
    rw [ftoNat_real, fofInt_real, lit_4, lit_3, min_lt_iff]
    left
    rw [Nat.floor_lt (by norm_num)]
    norm_num
  obtain ⟨chain, val, c0, c1, c2, c3, c4⟩ := sampleLoop_eq .plain 10000 k histSample2 r.ds c w le_rfl
    (fun d wd => histSample2_total wd (by norm_num) (by norm_num) n1 n2)
  have c4' : sampleLoop SpinChain.metropolis_update 10000 k histSample2 r.ds c
      = .ok (chain k, (List.range k).map val) := c4
  have hframe : ∀ i, (chain i).vars = histConf pairConf ∧ (chain i).t = -pairConf.trel ∧
      (chain i).j_couple = c.j_couple ∧ (chain i).static_h = c.static_h := by
    intro i
    induction i with
    | zero => rw [c0]; exact ⟨hv, ht, rfl, rfl⟩
    | succ i ih =>
      obtain ⟨-, a2, a3, a4, a5, -⟩ := C34_frame _ _ _ (c1 i)
      exact ⟨a5.trans ih.1, a4.trans ih.2.1, a2.trans ih.2.2.1, a3.trans ih.2.2.2⟩
  obtain ⟨d, d1, d2, d3, d4, d5, d6, d7, d8⟩ := pair_sweeps (c2 k) 10000 (by norm_num)
  have dB : ∀ i, B d 2 d.t i = H0 c i := by
    intro i
    unfold B drive
    rw [d3, (hframe k).1]
    simp only [histConf, add, zero, add_zero, H0, d6, (hframe k).2.2.2]
    split <;> rfl
  have dJ : ∀ i, J d i = J c i := by
    intro i
    simp only [J, d5, (hframe k).2.2.1]
  have hrej : histReject d = .ok false := by
    unfold histReject
    simp only [total_energy2_eq d2 (by norm_num), m_tot_eq d2, ok_bind]
    show Except.ok _ = Except.ok _
    congr 1
    simp only [ringEnergy, sum_range_succ, range_zero, sum_empty, d7, d8, dB, dJ,
      (hJH 0 (by norm_num)).1, (hJH 0 (by norm_num)).2, (hJH 1 (by norm_num)).1,
      (hJH 1 (by norm_num)).2, d3, (hframe k).1]
    norm_num [dot, had, add, smul, histConf, pairConf, hr]
  obtain ⟨orb, o0, ow, ostep, oupd⟩ := update_orbit d2 le_rfl
  choose smp hsmp using fun i => histSample2_total (ow i) (by norm_num) (by norm_num) n1 n2
  have horb : ∀ i j, (orb i).updates j = .ok (orb (i + j)) := by
    intro i j
    induction j generalizing i with
    | zero => rfl
    | succ j ih =>
      show ((orb i).update >>= fun c' => c'.updates j) = _
      rw [ostep, ok_bind, ih, show i + 1 + j = i + (j + 1) by omega]
  have hdyn : ∃ x, histDyn d k = .ok x := by
    have := forRange_trace (hi := k) (body := fun _ (st : SpinChain ℝ × List (List ℝ)) => do
        let c ← st.1.updates 10000
        return (c, st.2 ++ [← histSample2 c]))
      (fun i => (orb (10000 * i), (List.range i).map fun i => smp (10000 * (i + 1)))) (by
        intro i hi
        simp only [horb, ok_bind]
        rw [show 10000 * i + 10000 = 10000 * (i + 1) by ring, hsmp, ok_bind, List.range_succ,
          List.map_append]
        rfl)
    simp only [Nat.mul_zero, o0, List.range_zero, List.map_nil] at this
    exact ⟨_, this⟩
  obtain ⟨x, hx⟩ := hdyn
  refine ⟨r, ⟨(List.range k).map val, d, x.2⟩, ?_, d7, d8⟩
  unfold genHist
  rw [show ({ pairConf with drive := DriveType.none, file := "x" } : Config ℝ) = histConf pairConf from rfl]
  simp only [h1, ok_bind, c4']
  have hw : whileN (fun s : SpinChain ℝ × ℕ × Bool => s.2.2) (histPass fun _ => pairDraw) 1
      (chain k, 0, true) = .ok (some (d, 1, false)) := by
    unfold whileN
    rw [if_pos rfl]
    unfold histPass
    simp only [d1, ok_bind, hrej]
    rfl
  rw [hw, ok_bind]
  simp only [hx, ok_bind]
  rfl

end Verif.Props
