/-
C62: reading the configuration.
-/
import Verif.Model.Main
import Verif.Instances.Real
import Mathlib.Tactic.NormNum

set_option linter.unusedSectionVars false

namespace Verif.Props

section anyF

variable {F : Type} [Add F] [Sub F] [Mul F] [Div F] [Neg F] [OfScientific F] [FOps F]

/-- The integer fields fit their types, and can be written to a TOML file. -/
structure InRange (c : Config F) : Prop where
  hsize : -2 ^ 31 ≤ c.hsize ∧ c.hsize < 2 ^ 31
  ssize : -2 ^ 31 ≤ c.ssize ∧ c.ssize < 2 ^ 31
  runs : -2 ^ 31 ≤ c.runs ∧ c.runs < 2 ^ 31
  method : -2 ^ 31 ≤ c.method ∧ c.method < 2 ^ 31
  offset : c.offset < 2 ^ 32
  threads : c.threads < 2 ^ 63
  mc_points : c.mc_points < 2 ^ 63

theorem default_inRange : InRange (Config.default : Config F) := by
  constructor <;> simp [Config.default]

theorem toFs_floats (l : List F) : (l.map TVal.float).mapM TVal.toF = some l := by
  rw [List.mapM_map]
  show List.mapM (fun x => some x) l = some l
  induction l with
  | nil => rfl
  | cons x l ih => rw [List.mapM_cons, ih]; rfl

theorem toDrive_name (d : DriveType) : TVal.toDrive (.str d.name : TVal F) = some d := by
  cases d <;> rfl

/-- A saved configuration is read back as it was. -/
theorem C62_roundtrip (c : Config F) (h : InRange c) : Config.ofTable c.toTable = some c := by
  have lk : ∀ k v, (k, v) ∈ c.toTable → lookupKey c.toTable k = some v := by
    intro k v hkv
    simp only [Config.toTable, List.mem_cons, Prod.mk.injEq, List.not_mem_nil, or_false] at hkv
    rcases hkv with ⟨rfl, rfl⟩ | ⟨rfl, rfl⟩ | ⟨rfl, rfl⟩ | ⟨rfl, rfl⟩ | ⟨rfl, rfl⟩ | ⟨rfl, rfl⟩ | ⟨rfl, rfl⟩ |
      ⟨rfl, rfl⟩ | ⟨rfl, rfl⟩ | ⟨rfl, rfl⟩ | ⟨rfl, rfl⟩ | ⟨rfl, rfl⟩ | ⟨rfl, rfl⟩ | ⟨rfl, rfl⟩ | ⟨rfl, rfl⟩ |
      ⟨rfl, rfl⟩ | ⟨rfl, rfl⟩ | ⟨rfl, rfl⟩ | ⟨rfl, rfl⟩ | ⟨rfl, rfl⟩ | ⟨rfl, rfl⟩ | ⟨rfl, rfl⟩ | ⟨rfl, rfl⟩ <;> rfl
  have e : ∀ {α : Type} k v (conv : TVal F → Option α) d x, (k, v) ∈ c.toTable → conv v = some x →
      fieldOf c.toTable k conv d = some x := by
    intro α k v conv d x h1 h2
    unfold fieldOf
    rw [lk k v h1]
    exact h2
  have int : ∀ lo hi i, lo ≤ i ∧ i < hi → TVal.toInt lo hi (.int i : TVal F) = some i := by
    intro lo hi i hh
    exact if_pos hh
  have o := h.offset
  have th := h.threads
  have mp := h.mc_points
  unfold Config.ofTable
  dsimp only
  rw [e "hsize" (.int c.hsize) _ _ c.hsize (by simp [Config.toTable]) (int _ _ _ h.hsize),
    e "ssize" (.int c.ssize) _ _ c.ssize (by simp [Config.toTable]) (int _ _ _ h.ssize),
    e "t" (.float c.t) _ _ c.t (by simp [Config.toTable]) rfl,
    e "dt" (.float c.dt) _ _ c.dt (by simp [Config.toTable]) rfl,
    e "runs" (.int c.runs) _ _ c.runs (by simp [Config.toTable]) (int _ _ _ h.runs),
    e "trel" (.float c.trel) _ _ c.trel (by simp [Config.toTable]) rfl,
    e "threads" (.int c.threads) _ _ (c.threads : ℤ) (by simp [Config.toTable]) (int _ _ _ (by omega)),
    e "tau" (.float c.tau) _ _ c.tau (by simp [Config.toTable]) rfl,
    e "lambda" (.float c.lambda) _ _ c.lambda (by simp [Config.toTable]) rfl,
    e "hfield" (.arr (c.hfield.map .float)) _ _ c.hfield (by simp [Config.toTable]) (toFs_floats _),
    e "hs" (.arr (c.hs.map .float)) _ _ c.hs (by simp [Config.toTable]) (toFs_floats _),
    e "jvar" (.float c.jvar) _ _ c.jvar (by simp [Config.toTable]) rfl,
    e "hvar" (.float c.hvar) _ _ c.hvar (by simp [Config.toTable]) rfl,
    e "method" (.int c.method) _ _ c.method (by simp [Config.toTable]) (int _ _ _ h.method),
    e "ednsty" (.float c.ednsty) _ _ c.ednsty (by simp [Config.toTable]) rfl,
    e "file" (.str c.file) _ _ c.file (by simp [Config.toTable]) rfl,
    e "strob" (.bool c.strob) _ _ c.strob (by simp [Config.toTable]) rfl,
    e "offset" (.int c.offset) _ _ (c.offset : ℤ) (by simp [Config.toTable]) (int _ _ _ (by omega)),
    e "beta" (.float c.beta) _ _ c.beta (by simp [Config.toTable]) rfl,
    e "mc_points" (.int c.mc_points) _ _ (c.mc_points : ℤ) (by simp [Config.toTable]) (int _ _ _ (by omega)),
    e "e" (.float c.e) _ _ c.e (by simp [Config.toTable]) rfl,
    e "drive" (.str c.drive.name) _ _ c.drive (by simp [Config.toTable]) (toDrive_name _),
    e "log" (.bool c.log) _ _ c.log (by simp [Config.toTable]) rfl]
  rfl

/-- what a successful reading says about a field -/
theorem field_some {α : Type} {kvs : List (String × TVal F)} {k : String} {conv : TVal F → Option α}
    {d x : α} (h : fieldOf kvs k conv d = some x) :
    (lookupKey kvs k = none → x = d) ∧ (∀ v, lookupKey kvs k = some v → conv v = some x) := by
  unfold fieldOf at h
  cases hl : lookupKey kvs k with
  | none =>
    rw [hl] at h
    cases h
    exact ⟨fun _ => rfl, by intro v hv; cases hv⟩
  | some v =>
    rw [hl] at h
    exact ⟨(by intro hc; cases hc), by intro w hw; cases hw; exact h⟩

/-- A table is read field by field: a missing key gives the default, an existing one its value. -/
theorem C62_fields (kvs : List (String × TVal F)) (c : Config F) (h : Config.ofTable kvs = some c) :
    ∀ d : Config F, d = Config.default →
    InRange c ∧
    (lookupKey kvs "hsize" = none → c.hsize = d.hsize) ∧ (∀ i, lookupKey kvs "hsize" = some (.int i) → c.hsize = i) ∧
    (lookupKey kvs "ssize" = none → c.ssize = d.ssize) ∧ (∀ i, lookupKey kvs "ssize" = some (.int i) → c.ssize = i) ∧
    (lookupKey kvs "t" = none → c.t = d.t) ∧ (∀ x, lookupKey kvs "t" = some (.float x) → c.t = x) ∧
    (lookupKey kvs "dt" = none → c.dt = d.dt) ∧ (∀ x, lookupKey kvs "dt" = some (.float x) → c.dt = x) ∧
    (lookupKey kvs "runs" = none → c.runs = d.runs) ∧ (∀ i, lookupKey kvs "runs" = some (.int i) → c.runs = i) ∧
    (lookupKey kvs "trel" = none → c.trel = d.trel) ∧ (∀ x, lookupKey kvs "trel" = some (.float x) → c.trel = x) ∧
    (lookupKey kvs "threads" = none → c.threads = d.threads) ∧
      (∀ i, lookupKey kvs "threads" = some (.int i) → c.threads = i) ∧
    (lookupKey kvs "tau" = none → c.tau = d.tau) ∧ (∀ x, lookupKey kvs "tau" = some (.float x) → c.tau = x) ∧
    (lookupKey kvs "lambda" = none → c.lambda = d.lambda) ∧
      (∀ x, lookupKey kvs "lambda" = some (.float x) → c.lambda = x) ∧
    (lookupKey kvs "hfield" = none → c.hfield = d.hfield) ∧
      (∀ l : List F, lookupKey kvs "hfield" = some (.arr (l.map .float)) → c.hfield = l) ∧
    (lookupKey kvs "hs" = none → c.hs = d.hs) ∧
      (∀ l : List F, lookupKey kvs "hs" = some (.arr (l.map .float)) → c.hs = l) ∧
    (lookupKey kvs "jvar" = none → c.jvar = d.jvar) ∧ (∀ x, lookupKey kvs "jvar" = some (.float x) → c.jvar = x) ∧
    (lookupKey kvs "hvar" = none → c.hvar = d.hvar) ∧ (∀ x, lookupKey kvs "hvar" = some (.float x) → c.hvar = x) ∧
    (lookupKey kvs "method" = none → c.method = d.method) ∧
      (∀ i, lookupKey kvs "method" = some (.int i) → c.method = i) ∧
    (lookupKey kvs "ednsty" = none → c.ednsty = d.ednsty) ∧
      (∀ x, lookupKey kvs "ednsty" = some (.float x) → c.ednsty = x) ∧
    (lookupKey kvs "file" = none → c.file = d.file) ∧ (∀ s, lookupKey kvs "file" = some (.str s) → c.file = s) ∧
    (lookupKey kvs "strob" = none → c.strob = d.strob) ∧
      (∀ b, lookupKey kvs "strob" = some (.bool b) → c.strob = b) ∧
    (lookupKey kvs "offset" = none → c.offset = d.offset) ∧
      (∀ i, lookupKey kvs "offset" = some (.int i) → c.offset = i) ∧
    (lookupKey kvs "beta" = none → c.beta = d.beta) ∧ (∀ x, lookupKey kvs "beta" = some (.float x) → c.beta = x) ∧
    (lookupKey kvs "mc_points" = none → c.mc_points = d.mc_points) ∧
      (∀ i, lookupKey kvs "mc_points" = some (.int i) → c.mc_points = i) ∧
    (lookupKey kvs "e" = none → c.e = d.e) ∧ (∀ x, lookupKey kvs "e" = some (.float x) → c.e = x) ∧
    (lookupKey kvs "drive" = none → c.drive = d.drive) ∧
      (∀ v : DriveType, lookupKey kvs "drive" = some (.str v.name) → c.drive = v) ∧
    (lookupKey kvs "log" = none → c.log = d.log) ∧ (∀ b, lookupKey kvs "log" = some (.bool b) → c.log = b) := by
  rintro d rfl
  have int : ∀ {lo hi : ℤ} {k : String} {d x : ℤ}, lo ≤ d ∧ d < hi →
      fieldOf kvs k (TVal.toInt lo hi) d = some x →
      (lo ≤ x ∧ x < hi) ∧ (lookupKey kvs k = none → x = d) ∧ ∀ i, lookupKey kvs k = some (.int i) → x = i := by
    intro lo hi k d x hd hx
    obtain ⟨h1, h2⟩ := field_some hx
    refine ⟨?_, h1, ?_⟩
    · cases hl : lookupKey kvs k with
      | none => rw [h1 hl]; exact hd
      | some v =>
        have := h2 v hl
        cases v with
        | int i =>
          change (if lo ≤ i ∧ i < hi then some i else none) = some x at this
          by_cases hc : lo ≤ i ∧ i < hi
          · rw [if_pos hc] at this
            cases this
            exact hc
          · rw [if_neg hc] at this
            cases this
        | float y => cases this
        | str y => cases this
        | bool y => cases this
        | arr y => cases this
    · intro i hi'
      have := h2 _ hi'
      change (if lo ≤ i ∧ i < hi then some i else none) = some x at this
      by_cases hc : lo ≤ i ∧ i < hi
      · rw [if_pos hc] at this
        cases this
        rfl
      · rw [if_neg hc] at this
        cases this
  have flo : ∀ {k : String} {d x : F}, fieldOf kvs k TVal.toF d = some x →
      (lookupKey kvs k = none → x = d) ∧ ∀ y, lookupKey kvs k = some (.float y) → x = y := by
    intro k d x hx
    obtain ⟨h1, h2⟩ := field_some hx
    refine ⟨h1, fun y hy => ?_⟩
    have := h2 _ hy
    exact (Option.some.inj this).symm
  have flos : ∀ {k : String} {d x : List F}, fieldOf kvs k TVal.toFs d = some x →
      (lookupKey kvs k = none → x = d) ∧ ∀ y, lookupKey kvs k = some (.arr (y.map .float)) → x = y := by
    intro k d x hx
    obtain ⟨h1, h2⟩ := field_some hx
    refine ⟨h1, fun y hy => ?_⟩
    have := h2 _ hy
    change (y.map TVal.float).mapM TVal.toF = some x at this
    rw [toFs_floats] at this
    exact (Option.some.inj this).symm
  have stri : ∀ {k : String} {d x : String}, fieldOf kvs k TVal.toStr d = some x →
      (lookupKey kvs k = none → x = d) ∧ ∀ y, lookupKey kvs k = some (.str y) → x = y := by
    intro k d x hx
    obtain ⟨h1, h2⟩ := field_some hx
    refine ⟨h1, fun y hy => ?_⟩
    exact (Option.some.inj (h2 _ hy)).symm
  have boo : ∀ {k : String} {d x : Bool}, fieldOf kvs k TVal.toBool d = some x →
      (lookupKey kvs k = none → x = d) ∧ ∀ y, lookupKey kvs k = some (.bool y) → x = y := by
    intro k d x hx
    obtain ⟨h1, h2⟩ := field_some hx
    refine ⟨h1, fun y hy => ?_⟩
    exact (Option.some.inj (h2 _ hy)).symm
  have dri : ∀ {k : String} {d x : DriveType}, fieldOf kvs k TVal.toDrive d = some x →
      (lookupKey kvs k = none → x = d) ∧ ∀ y : DriveType, lookupKey kvs k = some (.str y.name) → x = y := by
    intro k d x hx
    obtain ⟨h1, h2⟩ := field_some hx
    refine ⟨h1, fun y hy => ?_⟩
    have := h2 _ hy
    rw [toDrive_name] at this
    exact (Option.some.inj this).symm
  unfold Config.ofTable at h
  dsimp only at h
  obtain ⟨x1, h1, h⟩ := Option.bind_eq_some_iff.mp h
  obtain ⟨x2, h2, h⟩ := Option.bind_eq_some_iff.mp h
  obtain ⟨x3, h3, h⟩ := Option.bind_eq_some_iff.mp h
  obtain ⟨x4, h4, h⟩ := Option.bind_eq_some_iff.mp h
  obtain ⟨x5, h5, h⟩ := Option.bind_eq_some_iff.mp h
  obtain ⟨x6, h6, h⟩ := Option.bind_eq_some_iff.mp h
  obtain ⟨x7, h7, h⟩ := Option.bind_eq_some_iff.mp h
  obtain ⟨x8, h8, h⟩ := Option.bind_eq_some_iff.mp h
  obtain ⟨x9, h9, h⟩ := Option.bind_eq_some_iff.mp h
  obtain ⟨x10, h10, h⟩ := Option.bind_eq_some_iff.mp h
  obtain ⟨x11, h11, h⟩ := Option.bind_eq_some_iff.mp h
  obtain ⟨x12, h12, h⟩ := Option.bind_eq_some_iff.mp h
  obtain ⟨x13, h13, h⟩ := Option.bind_eq_some_iff.mp h
  obtain ⟨x14, h14, h⟩ := Option.bind_eq_some_iff.mp h
  obtain ⟨x15, h15, h⟩ := Option.bind_eq_some_iff.mp h
  obtain ⟨x16, h16, h⟩ := Option.bind_eq_some_iff.mp h
  obtain ⟨x17, h17, h⟩ := Option.bind_eq_some_iff.mp h
  obtain ⟨x18, h18, h⟩ := Option.bind_eq_some_iff.mp h
  obtain ⟨x19, h19, h⟩ := Option.bind_eq_some_iff.mp h
  obtain ⟨x20, h20, h⟩ := Option.bind_eq_some_iff.mp h
  obtain ⟨x21, h21, h⟩ := Option.bind_eq_some_iff.mp h
  obtain ⟨x22, h22, h⟩ := Option.bind_eq_some_iff.mp h
  obtain ⟨x23, h23, h⟩ := Option.bind_eq_some_iff.mp h
  cases h
  have a1 := int (by simp [Config.default]) h1
  have a2 := int (by simp [Config.default]) h2
  have a5 := int (by simp [Config.default]) h5
  have a7 := int (by simp [Config.default]) h7
  have a14 := int (by simp [Config.default]) h14
  have a18 := int (by simp [Config.default]) h18
  have a20 := int (by simp [Config.default]) h20
  have a3 := flo h3
  have a4 := flo h4
  have a6 := flo h6
  have a8 := flo h8
  have a9 := flo h9
  have a10 := flos h10
  have a11 := flos h11
  have a12 := flo h12
  have a13 := flo h13
  have a15 := flo h15
  have a16 := stri h16
  have a17 := boo h17
  have a19 := flo h19
  have a21 := flo h21
  have a22 := dri h22
  have a23 := boo h23
  have nat : ∀ {hi x : ℤ} {d : ℕ} {k : String}, ((0 ≤ x ∧ x < hi) ∧ (lookupKey kvs k = none → x = (d : ℤ)) ∧
      ∀ i, lookupKey kvs k = some (.int i) → x = i) →
      (lookupKey kvs k = none → x.toNat = d) ∧ ∀ i, lookupKey kvs k = some (.int i) → (x.toNat : ℤ) = i := by
    rintro hi x d k ⟨g1, g2, g3⟩
    exact ⟨fun hk => by rw [g2 hk]; rfl, fun i hk => by rw [← g3 i hk]; omega⟩
  have b7 := nat a7
  have b18 := nat a18
  have b20 := nat a20
  refine ⟨⟨a1.1, a2.1, a5.1, a14.1, ?_, ?_, ?_⟩, a1.2.1, a1.2.2, a2.2.1, a2.2.2, a3.1, a3.2, a4.1, a4.2,
    a5.2.1, a5.2.2, a6.1, a6.2, b7.1, b7.2, a8.1, a8.2, a9.1, a9.2, a10.1, a10.2, a11.1, a11.2, a12.1, a12.2,
    a13.1, a13.2, a14.2.1, a14.2.2, a15.1, a15.2, a16.1, a16.2, a17.1, a17.2, b18.1, b18.2, a19.1, a19.2,
    b20.1, b20.2, a21.1, a21.2, a22.1, a22.2, a23.1, a23.2⟩
  · show x18.toNat < 2 ^ 32
    have := a18.1
    omega
  · show x7.toNat < 2 ^ 63
    have := a7.1
    omega
  · show x20.toNat < 2 ^ 63
    have := a20.1
    omega

/-- the keys of a configuration -/
def configKeys : List String :=
  ["hsize", "ssize", "t", "dt", "runs", "trel", "threads", "tau", "lambda", "hfield", "hs", "jvar",
    "hvar", "method", "ednsty", "file", "strob", "offset", "beta", "mc_points", "e", "drive", "log"]

/-- A configuration depends on the entries of its keys only: the order of the entries and entries of
unknown (or misspelt) keys make no difference. -/
theorem C62_unknown_keys (kvs kvs' : List (String × TVal F))
    (h : ∀ k ∈ configKeys, lookupKey kvs k = lookupKey kvs' k) :
    Config.ofTable kvs = Config.ofTable kvs' := by
  have e : ∀ {α : Type} k (conv : TVal F → Option α) d, k ∈ configKeys →
      fieldOf kvs k conv d = fieldOf kvs' k conv d := by
    intro α k conv d hk
    unfold fieldOf
    rw [h k hk]
  unfold Config.ofTable
  dsimp only
  rw [e "hsize" _ _ (by decide), e "ssize" _ _ (by decide), e "t" _ _ (by decide), e "dt" _ _ (by decide),
    e "runs" _ _ (by decide), e "trel" _ _ (by decide), e "threads" _ _ (by decide), e "tau" _ _ (by decide),
    e "lambda" _ _ (by decide), e "hfield" _ _ (by decide), e "hs" _ _ (by decide), e "jvar" _ _ (by decide),
    e "hvar" _ _ (by decide), e "method" _ _ (by decide), e "ednsty" _ _ (by decide),
    e "file" _ _ (by decide), e "strob" _ _ (by decide), e "offset" _ _ (by decide),
    e "beta" _ _ (by decide), e "mc_points" _ _ (by decide), e "e" _ _ (by decide),
    e "drive" _ _ (by decide), e "log" _ _ (by decide)]

/-- A readable file gives what it says and is left alone. -/
theorem C62_valid (name : String) (fs : FS F) (kvs : List (String × TVal F)) (c : Config F)
    (h : fs name = some (.table kvs)) (hc : Config.ofTable kvs = some c) :
    read_config name fs = (fs, .ok c) := by
  unfold read_config
  simp only [h, hc]

/-- An invalid file panics and no file changes. -/
theorem C62_invalid (name : String) (fs : FS F)
    (h : fs name = some .notToml ∨ ∃ kvs, fs name = some (.table kvs) ∧ Config.ofTable kvs = none) :
    read_config name fs = (fs, .error .invalidConfig) := by
  unfold read_config
  rcases h with h | ⟨kvs, h, hc⟩
  · simp only [h]
  · simp only [h, hc]

/-- Without a file the defaults are used and written to `config.toml`; no other file changes, and
reading `config.toml` again gives the same configuration and changes nothing. -/
theorem C62_missing (name : String) (fs : FS F) (h : fs name = none) :
    ∃ fs', read_config name fs = (fs', .ok Config.default) ∧
      (∀ n, n ≠ "config.toml" → fs' n = fs n) ∧
      read_config "config.toml" fs' = (fs', .ok Config.default) := by
  refine ⟨fs.write "config.toml" (.table (Config.default : Config F).toTable),
    by unfold read_config; simp only [h], ?_, ?_⟩
  · intro n hn
    unfold FS.write
    rw [if_neg hn]
  · refine C62_valid _ _ _ _ ?_ (C62_roundtrip _ default_inRange)
    unfold FS.write
    rw [if_pos rfl]

/-- A configuration file that is not UTF-8 text counts as missing and is overwritten. -/
theorem C62_not_text_overwritten (fs : FS F) (h : fs "config.toml" = some .notText) :
    ∃ fs', read_config "config.toml" fs = (fs', .ok Config.default) ∧
      fs' "config.toml" = some (.table (Config.default : Config F).toTable) := by
  refine ⟨fs.write "config.toml" (.table (Config.default : Config F).toTable),
    by unfold read_config; simp only [h], ?_⟩
  unfold FS.write
  rw [if_pos rfl]

/-- Reading a missing file of another name overwrites `config.toml`, whatever it holds. -/
theorem C62_other_name_overwrites (name : String) (fs : FS F) (h : fs name = none) :
    ∃ fs', read_config name fs = (fs', .ok Config.default) ∧
      fs' "config.toml" = some (.table (Config.default : Config F).toTable) := by
  refine ⟨fs.write "config.toml" (.table (Config.default : Config F).toTable),
    by unfold read_config; simp only [h], ?_⟩
  unfold FS.write
  rw [if_pos rfl]

/-- a value of the wrong type -/
example : Config.ofTable [("tau", (.str "ten" : TVal F))] = none := rfl

/-- a number out of range -/
example : Config.ofTable [("runs", (.int (2 ^ 31) : TVal F))] = none := rfl

/-- a misspelt key -/
example : Config.ofTable [("Tau", (.int 5 : TVal F))] = some Config.default := rfl

end anyF

/-- a short file -/
example : ∃ c, Config.ofTable [("tau", (.float 5 : TVal ℝ)), ("hs", .arr [.int 1, .float 0, .int 0])] = some c ∧
    c.tau = 5 ∧ c.hsize = 512 ∧ c.hs = [((1 : ℤ) : ℝ), 0, ((0 : ℤ) : ℝ)] := ⟨_, rfl, rfl, rfl, rfl⟩

end Verif.Props
