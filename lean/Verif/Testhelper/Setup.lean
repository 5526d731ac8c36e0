import Verif.Common.Path
/-
Model of setting up a tree for a test: /repo/fsutil/testhelper/setup.go 14-26, 96-127, 132-260 (C112).

Names are lists of elements; the path is these joined (`Path.join`), and clean. The filesystem is an ideal one: a table of names, no link is followed, a call fails only when a directory on the way is
missing, is no directory or denies access, or when something is in the place. `sup` says whether access is denied to nobody. Reading and writing of the clock are left out: a time is what `Chtimes` set,
or `none` when something was changed since. What a failing `CreateFile` removes again is left out. A hard link is a copy of the file, which is not changed any more.
-/
namespace Verif.Testhelper.Setup
open Verif Verif.Path

/-- setup.go 132-256: what is asked for. A mode of 0 and a time of `none` ask for nothing. -/
inductive Proc where
  | dir (name : List Str) (mode : Nat) (mtime : Option Nat)
  | file (name : List Str) (mode : Nat) (mtime : Option Nat) (content : Str)
  | link (name target : List Str)
  | symlink (name : List Str) (target : Str)
  deriving DecidableEq, Repr

/-- setup.go 138, 166, 215, 239 `Path`. -/
def Proc.name : Proc → List Str
  | .dir n _ _ => n
  | .file n _ _ _ => n
  | .link n _ => n
  | .symlink n _ => n

/-- setup.go 142, 170, 219, 243 `Order`. -/
def Proc.order : Proc → Nat
  | .dir _ _ _ => 0
  | .file _ _ _ _ => 1
  | .link _ _ => 2
  | .symlink _ _ => 3

def Proc.isDir : Proc → Bool
  | .dir _ _ _ => true
  | _ => false

/-- setup.go 96-102 `compareSetupProc`, 108-120 `pathDepth`: whether `l` does not come after `r`. -/
def le (l r : Proc) : Bool :=
  if l.order ≠ r.order then l.order < r.order
  else if l.name.length ≠ r.name.length then l.name.length < r.name.length
  else decide (join l.name ≤ join r.name)

inductive Node where
  | dir (mode : Nat) (mtime : Option Nat)
  | file (content : Str) (mode : Nat) (mtime : Option Nat)
  | symlink (target : Str)
  deriving DecidableEq, Repr

abbrev Fs := List Str → Option Node

section
variable (sup : Bool)

/-- The bits by which the owner may search a directory, and change it. -/
def search (m : Nat) : Bool := sup || (m / 64) % 2 = 1
def write (m : Nat) : Bool := sup || (m / 128) % 2 = 1

/-- Something is put into a directory, whose time changes. -/
def put (fs : Fs) (y : List Str) (n : Node) : Fs := fun z =>
  if z = y then some n else if z = y.dropLast then match fs z with
    | some (.dir m _) => some (.dir m none)
    | o => o
  else fs z

def set (fs : Fs) (y : List Str) (n : Node) : Fs := fun z => if z = y then some n else fs z

/-- Whether every directory on the way can be searched. -/
def reach (fs : Fs) (y : List Str) : Bool := (List.range y.length).all fun i => match fs (y.take i) with
  | some (.dir m _) => search sup m
  | _ => false

/-- Whether the directory `y` lies in can be changed. -/
def open' (fs : Fs) (y : List Str) : Bool := match fs y.dropLast with
  | some (.dir m _) => write sup m
  | _ => false

variable (dm fm : Nat)

/-- `MkdirAll`, from the `i`th directory on the way. -/
def mkdirs (fs : Fs) (y : List Str) (i : Nat) : Nat → Option Fs
  | 0 => some fs
  | n + 1 => match fs (y.take i) with
    | some (.dir m _) =>
      if search sup m then match fs (y.take (i + 1)) with
        | some (.dir _ _) => mkdirs fs y (i + 1) n
        | none => if write sup m then mkdirs (put fs (y.take (i + 1)) (.dir dm none)) y (i + 1) n else none
        | _ => none
      else none
    | _ => none

def mkdirAll (fs : Fs) (y : List Str) : Option Fs := mkdirs sup dm fs y 0 y.length

/-- `Chmod`, unless nothing is asked for (setup.go 150-154, 191-197); `Perm` keeps nine bits. That of a file is done through the open handle, which needs no search of the directories; here they were
searched just before, to open it. -/
def chmod (fs : Fs) (y : List Str) (mode : Nat) : Option Fs :=
  if mode = 0 then some fs
  else if reach sup fs y then match fs y with
    | some (.dir _ t) => some (set fs y (.dir (mode % 512) t))
    | some (.file c _ t) => some (set fs y (.file c (mode % 512) t))
    | _ => none
  else none

/-- `Chtimes`, unless nothing is asked for (setup.go 155-159, 204-209). -/
def chtimes (fs : Fs) (y : List Str) : Option Nat → Option Fs
  | none => some fs
  | some t => if reach sup fs y then match fs y with
      | some (.dir m _) => some (set fs y (.dir m (some t)))
      | some (.file c m _) => some (set fs y (.file c m (some t)))
      | _ => none
    else none

/-- `Create` and `Write` (setup.go 179-189). -/
def create (fs : Fs) (y : List Str) (content : Str) : Option Fs :=
  if reach sup fs y then match fs y with
    | none => if open' sup fs y then some (put fs y (.file content fm none)) else none
    | some (.file _ m _) => if write sup m then some (set fs y (.file content m none)) else none
    | _ => none
  else none

/-- `Link` and `Symlink`: something new is put into a directory. -/
def place (fs : Fs) (y : List Str) (n : Node) : Option Fs :=
  if reach sup fs y && open' sup fs y && (fs y).isNone then some (put fs y n) else none

/-- setup.go 146-161, 174-212, 223-231, 247-260 `Setup`, with 122-131 `mkdirParent`. -/
def apply (fs : Fs) : Proc → Option Fs
  | .dir y mode mtime => do
    let f ← mkdirAll sup dm fs y
    let f ← chmod sup f y mode
    chtimes sup f y mtime
  | .file y mode mtime content => do
    let f ← mkdirAll sup dm fs y.dropLast
    let f ← create sup fm f y content
    let f ← chmod sup f y mode
    chtimes sup f y mtime
  | .link y target => do
    let f ← mkdirAll sup dm fs y.dropLast
    if reach sup f target then match f target with
      | some (.file c m t) => place sup f y (.file c m t)
      | _ => none
    else none
  | .symlink y target => do
    let f ← mkdirAll sup dm fs y.dropLast
    place sup f y (.symlink target)

/-- The procs in turn; the first failure fails the test. -/
def applyAll (fs : Fs) : List Proc → Option Fs
  | [] => some fs
  | p :: ps => (apply sup dm fm fs p).bind fun f => applyAll f ps

/-- setup.go 14-26 `Setup`: `slices.SortStableFunc`, then one after the other. -/
def setup (fs : Fs) (ps : List Proc) : Option Fs := applyAll sup dm fm fs (ps.mergeSort le)

end

/-- The tree a test begins with: a directory. -/
def empty (m : Nat) : Fs := fun z => if z = [] then some (.dir m none) else none

/-! ## Specification -/

/-- `x` is a directory above `y`. -/
def Above (x y : List Str) : Prop := ∃ c r, y = x ++ c :: r

/-- A description that fits together: every name once, nothing below anything that is not a directory, hard links to files of the description, and directories that can be changed. -/
structure Fits (sup : Bool) (ps : List Proc) : Prop where
  named : ∀ p ∈ ps, p.name ≠ []
  once : (ps.map Proc.name).Nodup
  leaves : ∀ p ∈ ps, p.isDir = false → ∀ q ∈ ps, ¬ Above p.name q.name
  links : ∀ y t, Proc.link y t ∈ ps → ∃ mode mtime c, Proc.file t mode mtime c ∈ ps
  modes : ∀ y mode t, Proc.dir y mode t ∈ ps → mode ≠ 0 → search sup (mode % 512) = true ∧ write sup (mode % 512) = true

/-- What there is at the name of each, in the tree set up. -/
def Told (dm fm : Nat) (ps : List Proc) (fs : Fs) : Proc → Prop
  | .dir y mode mtime => ∃ t, fs y = some (.dir (if mode = 0 then dm else mode % 512) t) ∧ ((∀ q ∈ ps, ¬ Above y q.name) → mtime ≠ none → t = mtime)
  | .file y mode mtime content => ∃ t, fs y = some (.file content (if mode = 0 then fm else mode % 512) t) ∧ (mtime ≠ none → t = mtime)
  | .link y target => fs y = fs target
  | .symlink y target => fs y = some (.symlink target)

/-- **C112**: the tree is the one described. -/
structure Described (dm fm : Nat) (ps : List Proc) (fs : Fs) : Prop where
  told : ∀ p ∈ ps, Told dm fm ps fs p
  above : ∀ p ∈ ps, ∀ y, Above y p.name → y ≠ [] → (∃ t m, fs y = some (.dir m t)) ∧ ((∀ q ∈ ps, q.name ≠ y) → ∃ t, fs y = some (.dir dm t))
  only : ∀ y, y ≠ [] → fs y ≠ none → ∃ p ∈ ps, p.name = y ∨ Above y p.name

/-! ## One call -/

/-- Nothing, or a directory that can be changed. -/
def Room (sup : Bool) (o : Option Node) : Prop := o = none ∨ ∃ m t, o = some (.dir m t) ∧ search sup m = true ∧ write sup m = true

theorem take_inj {y : List Str} {i j : Nat} (hi : i ≤ y.length) (hj : j ≤ y.length) (h : y.take i = y.take j) : i = j := by
  have := congrArg List.length h
  rw [List.length_take, List.length_take] at this
  omega

theorem take_succ_dropLast {y : List Str} {i : Nat} (hi : i < y.length) : (y.take (i + 1)).dropLast = y.take i := by
  rw [List.dropLast_eq_take, List.take_take, List.length_take]
  congr 1
  omega

theorem put_self (fs : Fs) (y : List Str) (n : Node) : put fs y n y = some n := by
  unfold put
  rw [if_pos rfl]

theorem put_other {fs : Fs} {y z : List Str} {n : Node} (h1 : z ≠ y) (h2 : z ≠ y.dropLast) : put fs y n z = fs z := by
  unfold put
  rw [if_neg h1, if_neg h2]

theorem put_dir {fs : Fs} {y z : List Str} {n : Node} {m : Nat} {t : Option Nat} (h1 : z ≠ y) (h : fs z = some (.dir m t)) : ∃ t', put fs y n z = some (.dir m t') := by
  unfold put
  rw [if_neg h1]
  split
  · rw [h]
    exact ⟨none, rfl⟩
  · exact ⟨t, h⟩

theorem put_none {fs : Fs} {y z : List Str} {n : Node} (h1 : z ≠ y) (h : fs z = none) : put fs y n z = none := by
  unfold put
  rw [if_neg h1]
  split
  · rw [h]
  · exact h

theorem mkdirs_spec {sup : Bool} {dm : Nat} (hdm : search sup dm = true ∧ write sup dm = true) (y : List Str) : ∀ (n i : Nat) (fs : Fs), i + n = y.length →
    (∀ j, i ≤ j → j ≤ y.length → Room sup (fs (y.take j))) → fs (y.take i) ≠ none →
    ∃ f, mkdirs sup dm fs y i n = some f ∧ (∀ z, (∀ j, i ≤ j → j ≤ y.length → z ≠ y.take j) → f z = fs z) ∧
      ∀ j, i ≤ j → j ≤ y.length → ∃ m t, f (y.take j) = some (.dir m t) ∧ search sup m = true ∧ write sup m = true ∧ (∀ m0 t0, fs (y.take j) = some (.dir m0 t0) → m = m0) ∧ (fs (y.take j) = none → m = dm) := by
  intro n
  induction n with
  | zero =>
    intro i fs hi hroom hne
    refine ⟨fs, rfl, fun _ _ => rfl, fun j h1 h2 => ?_⟩
    have : j = i := by omega
    subst this
    rcases hroom j (Nat.le_refl _) h2 with h | ⟨m, t, h, hs, hw⟩
    · exact absurd h hne
    · exact ⟨m, t, h, hs, hw, fun m0 t0 h0 => by rw [h] at h0; cases h0; rfl, fun h0 => absurd h0 hne⟩
  | succ n ih =>
    intro i fs hi hroom hne
    rcases hroom i (Nat.le_refl _) (by omega) with h | ⟨m, t, h, hs, hw⟩
    · exact absurd h hne
    · unfold mkdirs
      simp only [h, hs, if_true]
      rcases hroom (i + 1) (by omega) (by omega) with h' | ⟨m', t', h', hs', hw'⟩
      · simp only [h', hw, if_true]
        have hput : ∀ j, j ≤ y.length → j ≠ i + 1 → y.take j ≠ y.take (i + 1) := fun j hj hne he => hne (take_inj hj (by omega) he)
        obtain ⟨f, hf, ha, hb⟩ := ih (i + 1) (put fs (y.take (i + 1)) (.dir dm none)) (by omega) (fun j h1 h2 => by
          by_cases hj : j = i + 1
          · subst hj
            rw [put_self]
            exact Or.inr ⟨dm, none, rfl, hdm.1, hdm.2⟩
          · rw [put_other (hput j h2 hj) (by
              rw [take_succ_dropLast (by omega)]
              intro he
              have := take_inj h2 (by omega) he
              omega)]
            exact hroom j (by omega) h2) (by
          rw [put_self]
          simp)
        refine ⟨f, hf, fun z hz => ?_, fun j h1 h2 => ?_⟩
        · rw [ha z fun j h1 h2 => hz j (by omega) h2, put_other (hz (i + 1) (by omega) (by omega)) (by
            rw [take_succ_dropLast (by omega)]
            exact hz i (Nat.le_refl _) (by omega))]
        · by_cases hj : j = i
          · subst hj
            rw [ha (y.take j) fun k h3 h4 he => by
              have := take_inj (by omega) h4 he
              omega]
            obtain ⟨t2, h2'⟩ := put_dir (n := .dir dm none) (hput j h2 (by omega)) h
            exact ⟨m, t2, h2', hs, hw, fun m0 t0 h0 => by rw [h] at h0; cases h0; rfl, fun h0 => by rw [h] at h0; cases h0⟩
          · obtain ⟨m2, t2, h2', hs2, hw2, hx, hy⟩ := hb j (by omega) h2
            refine ⟨m2, t2, h2', hs2, hw2, ?_, ?_⟩
            · intro m0 t0 h0
              have hji : j ≠ i + 1 := by
                rintro rfl
                rw [h'] at h0
                cases h0
              obtain ⟨t3, h3⟩ := put_dir (n := .dir dm none) (hput j h2 hji) h0
              exact hx m0 t3 h3
            · intro h0
              by_cases hji : j = i + 1
              · subst hji
                exact hx dm none (put_self _ _ _)
              · exact hy (put_none (hput j h2 hji) h0)
      · simp only [h']
        obtain ⟨f, hf, ha, hb⟩ := ih (i + 1) fs (by omega) (fun j h1 h2 => hroom j (by omega) h2) (by rw [h']; simp)
        refine ⟨f, hf, fun z hz => ha z fun j h1 h2 => hz j (by omega) h2, fun j h1 h2 => ?_⟩
        by_cases hj : j = i
        · subst hj
          rw [ha (y.take j) fun k h3 h4 he => by
            have := take_inj (by omega) h4 he
            omega]
          exact ⟨m, t, h, hs, hw, fun m0 t0 h0 => by rw [h] at h0; cases h0; rfl, fun h0 => by rw [h] at h0; cases h0⟩
        · exact hb j (by omega) h2

/-- The way to a name is free: directories that can be changed, or nothing. -/
def Free (sup : Bool) (fs : Fs) (y : List Str) : Prop := fs [] ≠ none ∧ ∀ j, j < y.length → Room sup (fs (y.take j))

/-- After the way was made: the directories on it are there, of the mode they had or the usual one, and nothing else changed. -/
structure Made (sup : Bool) (dm : Nat) (fs f : Fs) (y : List Str) : Prop where
  way : ∀ j, j < y.length → ∃ m t, f (y.take j) = some (.dir m t) ∧ search sup m = true ∧ write sup m = true ∧ (∀ m0 t0, fs (y.take j) = some (.dir m0 t0) → m = m0) ∧ (fs (y.take j) = none → m = dm)
  rest : ∀ z, z ≠ y → (∀ j, j < y.length → z ≠ y.take j) → f z = fs z

theorem Made.reach {sup : Bool} {dm : Nat} {fs f : Fs} {y : List Str} (h : Made sup dm fs f y) : reach sup f y = true := by
  unfold Setup.reach
  rw [List.all_eq_true]
  intro i hi
  obtain ⟨m, t, h1, hs, _⟩ := h.way i (List.mem_range.mp hi)
  simp only [h1, hs]

theorem Made.open' {sup : Bool} {dm : Nat} {fs f : Fs} {y : List Str} (h : Made sup dm fs f y) (hy : y ≠ []) : open' sup f y = true := by
  unfold Setup.open'
  have hl : 0 < y.length := List.length_pos_iff.mpr hy
  obtain ⟨m, t, h1, _, hw, _⟩ := h.way (y.length - 1) (by omega)
  rw [List.dropLast_eq_take, h1]
  exact hw

/-- Setting the name itself keeps the way. -/
theorem Made.set {sup : Bool} {dm : Nat} {fs f : Fs} {y : List Str} (h : Made sup dm fs f y) (n : Node) : Made sup dm fs (set f y n) y := by
  have hne : ∀ j, j < y.length → y.take j ≠ y := fun j hj he => by
    have := congrArg List.length he
    rw [List.length_take] at this
    omega
  refine ⟨fun j hj => ?_, fun z hz hj => ?_⟩
  · obtain ⟨m, t, h1, h2⟩ := h.way j hj
    refine ⟨m, t, ?_, h2⟩
    unfold Setup.set
    rw [if_neg (hne j hj)]
    exact h1
  · unfold Setup.set
    rw [if_neg hz]
    exact h.rest z hz hj

theorem Made.put {sup : Bool} {dm : Nat} {fs f : Fs} {y : List Str} (h : Made sup dm fs f y) (hy : y ≠ []) (n : Node) : Made sup dm fs (put f y n) y := by
  have hne : ∀ j, j < y.length → y.take j ≠ y := fun j hj he => by
    have := congrArg List.length he
    rw [List.length_take] at this
    omega
  have hl : 0 < y.length := List.length_pos_iff.mpr hy
  refine ⟨fun j hj => ?_, fun z hz hj => ?_⟩
  · obtain ⟨m, t, h1, h2⟩ := h.way j hj
    obtain ⟨t', h1'⟩ := put_dir (n := n) (hne j hj) h1
    exact ⟨m, t', h1', h2⟩
  · rw [put_other hz (by rw [List.dropLast_eq_take]; exact hj (y.length - 1) (by omega))]
    exact h.rest z hz hj

theorem set_self (fs : Fs) (y : List Str) (n : Node) : set fs y n y = some n := by
  unfold set
  rw [if_pos rfl]

/-- The parent of a name is made. -/
theorem mkdirAll_parent {sup : Bool} {dm : Nat} (hdm : search sup dm = true ∧ write sup dm = true) {fs : Fs} {y : List Str} (hy : y ≠ []) (hf : Free sup fs y) :
    ∃ f, mkdirAll sup dm fs y.dropLast = some f ∧ Made sup dm fs f y ∧ f y = fs y := by
  have hl : 0 < y.length := List.length_pos_iff.mpr hy
  have hlen : y.dropLast.length = y.length - 1 := List.length_dropLast
  have htake : ∀ j, j < y.length → y.dropLast.take j = y.take j := fun j hj => by
    rw [List.dropLast_eq_take, List.take_take]
    congr 1
    omega
  obtain ⟨f, h1, h2, h3⟩ := mkdirs_spec hdm y.dropLast y.dropLast.length 0 fs (by omega) (fun j _ hj => by
    rw [htake j (by omega)]
    exact hf.2 j (by omega)) (by simpa using hf.1)
  refine ⟨f, h1, ⟨fun j hj => ?_, fun z hz hj => h2 z fun j _ h => ?_⟩, h2 y fun j _ h he => ?_⟩
  · have := h3 j (Nat.zero_le _) (by omega)
    rw [htake j hj] at this
    exact this
  · rw [htake j (by omega)]
    exact hj j (by omega)
  · have := congrArg List.length he
    rw [List.length_take] at this
    omega

theorem chmod_spec {sup : Bool} {dm : Nat} {fs f : Fs} {y : List Str} (h : Made sup dm fs f y) (mode : Nat) :
    (∀ m t, f y = some (.dir m t) → ∃ g, chmod sup f y mode = some g ∧ Made sup dm fs g y ∧ g y = some (.dir (if mode = 0 then m else mode % 512) t)) ∧
    (∀ c m t, f y = some (.file c m t) → ∃ g, chmod sup f y mode = some g ∧ Made sup dm fs g y ∧ g y = some (.file c (if mode = 0 then m else mode % 512) t)) := by
  unfold chmod
  by_cases hm : mode = 0
  · simp only [hm, if_true]
    exact ⟨fun m t hy => ⟨f, rfl, h, hy⟩, fun c m t hy => ⟨f, rfl, h, hy⟩⟩
  · simp only [hm, if_false, h.reach, if_true]
    refine ⟨fun m t hy => ?_, fun c m t hy => ?_⟩
    · simp only [hy]
      exact ⟨_, rfl, h.set _, set_self _ _ _⟩
    · simp only [hy]
      exact ⟨_, rfl, h.set _, set_self _ _ _⟩

theorem chtimes_spec {sup : Bool} {dm : Nat} {fs f : Fs} {y : List Str} (h : Made sup dm fs f y) (mtime : Option Nat) :
    (∀ m t, f y = some (.dir m t) → ∃ g t', chtimes sup f y mtime = some g ∧ Made sup dm fs g y ∧ g y = some (.dir m t') ∧ (mtime ≠ none → t' = mtime)) ∧
    (∀ c m t, f y = some (.file c m t) → ∃ g t', chtimes sup f y mtime = some g ∧ Made sup dm fs g y ∧ g y = some (.file c m t') ∧ (mtime ≠ none → t' = mtime)) := by
  unfold chtimes
  cases mtime with
  | none => exact ⟨fun m t hy => ⟨f, t, rfl, h, hy, fun h => absurd rfl h⟩, fun c m t hy => ⟨f, t, rfl, h, hy, fun h => absurd rfl h⟩⟩
  | some s =>
    simp only [h.reach, if_true]
    refine ⟨fun m t hy => ?_, fun c m t hy => ?_⟩
    · simp only [hy]
      exact ⟨_, some s, rfl, h.set _, set_self _ _ _, fun _ => rfl⟩
    · simp only [hy]
      exact ⟨_, some s, rfl, h.set _, set_self _ _ _, fun _ => rfl⟩

/-- What is a file is not touched while a way is made. -/
theorem Made.keeps {sup : Bool} {dm : Nat} {fs f : Fs} {y z : List Str} (h : Made sup dm fs f y) (hfree : Free sup fs y) (hy : fs y = none) {c : Str} {m : Nat} {t : Option Nat} (hz : fs z = some (.file c m t)) :
    f z = fs z := by
  refine h.rest z (fun he => ?_) fun j hj he => ?_
  · rw [he, hy] at hz
    cases hz
  · rcases hfree.2 j hj with h | ⟨m', t', h, _⟩
    · rw [he, h] at hz
      cases hz
    · rw [he, h] at hz
      cases hz

theorem Made.reaches {sup : Bool} {dm : Nat} {fs f : Fs} {y z : List Str} (h : Made sup dm fs f y) (hy : fs y = none) (hz : Setup.reach sup fs z = true) : Setup.reach sup f z = true := by
  unfold Setup.reach at hz ⊢
  rw [List.all_eq_true] at hz ⊢
  intro i hi
  have hi' := hz i hi
  by_cases h1 : z.take i = y
  · rw [h1, hy] at hi'
    cases hi'
  · by_cases h2 : ∃ j, j < y.length ∧ z.take i = y.take j
    · obtain ⟨j, hj, he⟩ := h2
      obtain ⟨m, t, hf, hs, _⟩ := h.way j hj
      rw [he]
      simp only [hf, hs]
    · rw [h.rest _ h1 fun j hj he => h2 ⟨j, hj, he⟩]
      exact hi'

/-- What one proc does where its way and its place are free. -/
theorem apply_spec {sup : Bool} {dm fm : Nat} (hdm : search sup dm = true ∧ write sup dm = true) {fs : Fs} (p : Proc) (hp : p.name ≠ []) (hfree : Free sup fs p.name)
    (hplace : fs p.name = none ∨ (p.isDir = true ∧ ∃ t, fs p.name = some (.dir dm t)))
    (hlink : ∀ y t, p = .link y t → reach sup fs t = true ∧ ∃ c m s, fs t = some (.file c m s)) :
    ∃ f, apply sup dm fm fs p = some f ∧ Made sup dm fs f p.name ∧ match p with
      | .dir y mode mtime => ∃ t, f y = some (.dir (if mode = 0 then dm else mode % 512) t) ∧ (mtime ≠ none → t = mtime)
      | .file y mode mtime content => ∃ t, f y = some (.file content (if mode = 0 then fm else mode % 512) t) ∧ (mtime ≠ none → t = mtime)
      | .link y target => f y = fs target
      | .symlink y target => f y = some (.symlink target) := by
  cases p with
  | dir y mode mtime =>
    simp only [Proc.name] at hp hfree hplace ⊢
    have hne : fs (y.take 0) ≠ none := by simpa using hfree.1
    have hroom : Room sup (fs y) := by
      rcases hplace with h | ⟨_, t, h⟩
      · exact Or.inl h
      · exact Or.inr ⟨dm, t, h, hdm.1, hdm.2⟩
    obtain ⟨f, h1, h2, h3⟩ := mkdirs_spec hdm y y.length 0 fs (by omega) (fun j _ hj => by
      by_cases hjl : j < y.length
      · exact hfree.2 j hjl
      · rw [List.take_of_length_le (by omega)]
        exact hroom) hne
    have hmade : Made sup dm fs f y := ⟨fun j hj => h3 j (Nat.zero_le _) (by omega), fun z hz hj => h2 z fun j _ h => by
      by_cases hjl : j < y.length
      · exact hj j hjl
      · rw [List.take_of_length_le (by omega)]
        exact hz⟩
    obtain ⟨m, t, hfy, _, _, hm1, hm2⟩ := h3 y.length (Nat.zero_le _) (Nat.le_refl _)
    rw [List.take_length] at hfy hm1 hm2
    have hm : m = dm := by
      rcases hplace with h | ⟨_, t0, h⟩
      · exact hm2 h
      · exact hm1 dm t0 h
    subst hm
    obtain ⟨g, hg1, hg2, hg3⟩ := (chmod_spec hmade mode).1 m t hfy
    obtain ⟨k, t', hk1, hk2, hk3, hk4⟩ := (chtimes_spec hg2 mtime).1 _ _ hg3
    refine ⟨k, ?_, hk2, t', hk3, hk4⟩
    show (mkdirAll sup m fs y).bind _ = _
    unfold mkdirAll
    rw [h1]
    show (chmod sup f y mode).bind _ = _
    rw [hg1]
    exact hk1
  | file y mode mtime content =>
    simp only [Proc.name] at hp hfree hplace ⊢
    have hnone : fs y = none := by
      rcases hplace with h | ⟨h, _⟩
      · exact h
      · cases h
    obtain ⟨f, h1, hmade, hfy⟩ := mkdirAll_parent hdm hp hfree
    have hc : create sup fm f y content = some (put f y (.file content fm none)) := by
      unfold create
      rw [hmade.reach, if_pos rfl, hfy, hnone]
      simp only
      rw [hmade.open' hp, if_pos rfl]
    obtain ⟨g, hg1, hg2, hg3⟩ := (chmod_spec (hmade.put hp (.file content fm none)) mode).2 _ _ _ (put_self _ _ _)
    obtain ⟨k, t', hk1, hk2, hk3, hk4⟩ := (chtimes_spec hg2 mtime).2 _ _ _ hg3
    refine ⟨k, ?_, hk2, t', hk3, hk4⟩
    show (mkdirAll sup dm fs y.dropLast).bind _ = _
    rw [h1]
    show (create sup fm f y content).bind _ = _
    rw [hc]
    show (chmod sup _ y mode).bind _ = _
    rw [hg1]
    exact hk1
  | link y target =>
    simp only [Proc.name] at hp hfree hplace ⊢
    have hnone : fs y = none := by
      rcases hplace with h | ⟨h, _⟩
      · exact h
      · cases h
    obtain ⟨hreach, c, m, s, hfile⟩ := hlink y target rfl
    obtain ⟨f, h1, hmade, hfy⟩ := mkdirAll_parent hdm hp hfree
    have hkeep := hmade.keeps hfree hnone hfile
    refine ⟨put f y (.file c m s), ?_, hmade.put hp _, by rw [put_self, hfile]⟩
    show (mkdirAll sup dm fs y.dropLast).bind _ = _
    rw [h1]
    show (if reach sup f target = true then _ else none) = _
    rw [hmade.reaches hnone hreach, if_pos rfl, hkeep, hfile]
    show place sup f y (.file c m s) = _
    unfold place
    rw [hmade.reach, hmade.open' hp, hfy, hnone]
    rfl
  | symlink y target =>
    simp only [Proc.name] at hp hfree hplace ⊢
    have hnone : fs y = none := by
      rcases hplace with h | ⟨h, _⟩
      · exact h
      · cases h
    obtain ⟨f, h1, hmade, hfy⟩ := mkdirAll_parent hdm hp hfree
    refine ⟨put f y (.symlink target), ?_, hmade.put hp _, put_self _ _ _⟩
    show (mkdirAll sup dm fs y.dropLast).bind _ = _
    rw [h1]
    show place sup f y (.symlink target) = _
    unfold place
    rw [hmade.reach, hmade.open' hp, hfy, hnone]
    rfl

/-! ## All of them -/

theorem above_take {y : List Str} {j : Nat} (hj : j < y.length) : Above (y.take j) y :=
  ⟨y[j], y.drop (j + 1), by rw [← List.drop_eq_getElem_cons hj, List.take_append_drop]⟩

theorem take_of_above {x y : List Str} (h : Above x y) : ∃ j, j < y.length ∧ x = y.take j := by
  obtain ⟨c, r, rfl⟩ := h
  exact ⟨x.length, by simp, by simp⟩

theorem above_irrefl {x : List Str} : ¬ Above x x := by
  rintro ⟨c, r, h⟩
  have := congrArg List.length h
  simp at this

theorem Above.ne {x y : List Str} (h : Above x y) : x ≠ y := fun he => above_irrefl (he ▸ h)

/-- What holds while the tree is set up: `l` is done. -/
structure Doing (sup : Bool) (dm fm : Nat) (l : List Proc) (fs : Fs) : Prop where
  shows : Described dm fm l fs
  root : fs [] ≠ none
  dirs : ∀ y m t, fs y = some (.dir m t) → search sup m = true ∧ write sup m = true
  top : ∃ m t, fs [] = some (.dir m t)

theorem doing_step {sup : Bool} {dm fm : Nat} (hdm : search sup dm = true ∧ write sup dm = true) {l : List Proc} {fs : Fs} (h : Doing sup dm fm l fs) {ps : List Proc} (hfit : Fits sup ps) (hl : ∀ q ∈ l, q ∈ ps)
    (p : Proc) (hp : p ∈ ps) (hnew : ∀ q ∈ l, q.name ≠ p.name) (hlinks : ∀ y t, p = .link y t → ∃ mode mtime c, Proc.file t mode mtime c ∈ l)
    (hlinks' : ∀ y t, Proc.link y t ∈ l → ∃ mode mtime c, Proc.file t mode mtime c ∈ l) :
    ∃ f, apply sup dm fm fs p = some f ∧ Doing sup dm fm (p :: l) f := by
  have hname := hfit.named p hp
  have hpos : 0 < p.name.length := List.length_pos_iff.mpr hname
  have notdir : ∀ q ∈ ps, ∀ r ∈ ps, Above q.name r.name → q.isDir = true := by
    intro q hq r hr ha
    cases hd : q.isDir with
    | true => rfl
    | false => exact absurd ha (hfit.leaves q hq hd r hr)
  have hdirTold : ∀ q ∈ l, q.isDir = true → ∃ m t, fs q.name = some (.dir m t) := by
    intro q hq hd
    have := h.shows.told q hq
    cases q with
    | dir y mode mtime =>
      obtain ⟨t, ht, _⟩ := this
      exact ⟨_, t, ht⟩
    | _ => cases hd
  have hfileTold : ∀ t mode mtime c, Proc.file t mode mtime c ∈ l → ∃ m s, fs t = some (.file c m s) := by
    intro t mode mtime c hq
    obtain ⟨s, hs, _⟩ := h.shows.told _ hq
    exact ⟨_, s, hs⟩
  -- the way is free
  have hfree : Free sup fs p.name := by
    refine ⟨h.root, fun j hj => ?_⟩
    cases hn : fs (p.name.take j) with
    | none => exact Or.inl rfl
    | some n =>
      have hdir : ∃ m t, fs (p.name.take j) = some (.dir m t) := by
        by_cases h0 : p.name.take j = []
        · rw [h0]
          exact h.top
        · obtain ⟨q, hq, hqn | hqa⟩ := h.shows.only _ h0 (by rw [hn]; simp)
          · rw [← hqn]
            refine hdirTold q hq (notdir q (hl q hq) p hp ?_)
            rw [hqn]
            exact above_take hj
          · obtain ⟨t, m, ht⟩ := (h.shows.above q hq _ hqa h0).1
            exact ⟨m, t, ht⟩
      obtain ⟨m, t, ht⟩ := hdir
      have := h.dirs _ m t ht
      rw [hn] at ht
      exact Or.inr ⟨m, t, ht, this.1, this.2⟩
  have hplace : fs p.name = none ∨ (p.isDir = true ∧ ∃ t, fs p.name = some (.dir dm t)) := by
    cases hn : fs p.name with
    | none => exact Or.inl rfl
    | some n =>
      obtain ⟨q, hq, hqn | hqa⟩ := h.shows.only _ hname (by rw [hn]; simp)
      · exact absurd hqn (hnew q hq)
      · refine Or.inr ⟨notdir p hp q (hl q hq) hqa, ?_⟩
        rw [← hn]
        exact (h.shows.above q hq _ hqa hname).2 hnew
  have hlink : ∀ y t, p = .link y t → reach sup fs t = true ∧ ∃ c m s, fs t = some (.file c m s) := by
    intro y t he
    obtain ⟨mode, mtime, c, hq⟩ := hlinks y t he
    obtain ⟨m, s, hs⟩ := hfileTold t mode mtime c hq
    refine ⟨?_, c, m, s, hs⟩
    unfold reach
    rw [List.all_eq_true]
    intro i hi
    have hdir : ∃ m t', fs (t.take i) = some (.dir m t') := by
      by_cases h0 : t.take i = []
      · rw [h0]
        exact h.top
      · obtain ⟨t', m', h'⟩ := (h.shows.above _ hq (t.take i) (above_take (List.mem_range.mp hi)) h0).1
        exact ⟨m', t', h'⟩
    obtain ⟨m', t', h'⟩ := hdir
    rw [h']
    exact (h.dirs _ _ _ h').1
  obtain ⟨f, hf, hmade, htold⟩ := apply_spec (fm := fm) hdm p hname hfree hplace hlink
  refine ⟨f, hf, ⟨?_, ?_, ?_⟩, ?_, ?_, ?_⟩
  · -- told
    have hstay : ∀ t mode mtime c, Proc.file t mode mtime c ∈ l → f t = fs t := by
      intro t mode mtime c hq
      refine hmade.rest t (hnew _ hq) fun j hj he => ?_
      have : Above t p.name := by
        rw [he]
        exact above_take hj
      exact absurd (notdir _ (hl _ hq) p hp this) (by simp [Proc.isDir])
    intro q hq
    rcases List.mem_cons.mp hq with rfl | hq
    · cases q with
      | dir y mode mtime =>
        obtain ⟨t, h1, h2⟩ := htold
        exact ⟨t, h1, fun _ => h2⟩
      | file y mode mtime content => exact htold
      | symlink y target => exact htold
      | link y target =>
        obtain ⟨mode, mtime, c, hq'⟩ := hlinks y target rfl
        show f y = f target
        rw [hstay target mode mtime c hq']
        exact htold
    · have hold := h.shows.told q hq
      by_cases hab : Above q.name p.name
      · have hd := notdir q (hl q hq) p hp hab
        cases q with
        | dir y mode mtime =>
          obtain ⟨t, h1, _⟩ := hold
          obtain ⟨j, hj, he⟩ := take_of_above hab
          obtain ⟨m, t', h1', _, _, h2', _⟩ := hmade.way j hj
          change y = _ at he
          rw [← he] at h1' h2'
          rw [h2' _ _ h1] at h1'
          exact ⟨t', h1', fun hno => absurd hab (hno p List.mem_cons_self)⟩
        | _ => cases hd
      · have hsame : f q.name = fs q.name := hmade.rest q.name (hnew q hq) fun j hj he => hab (by rw [he]; exact above_take hj)
        cases q with
        | dir y mode mtime =>
          obtain ⟨t, h1, h2⟩ := hold
          exact ⟨t, by rw [← h1]; exact hsame, fun hno => h2 fun r hr => hno r (List.mem_cons_of_mem _ hr)⟩
        | file y mode mtime content =>
          obtain ⟨t, h1, h2⟩ := hold
          exact ⟨t, by rw [← h1]; exact hsame, h2⟩
        | symlink y target => exact hsame.trans hold
        | link y target =>
          obtain ⟨mode, mtime, c, hq'⟩ := hlinks' y target hq
          show f y = f target
          rw [hstay target mode mtime c hq']
          exact hsame.trans hold
  · -- above
    have hway : ∀ y, Above y p.name → (∃ t m, f y = some (.dir m t)) ∧ (∀ m0 t0, fs y = some (.dir m0 t0) → ∃ t, f y = some (.dir m0 t)) ∧ (fs y = none → ∃ t, f y = some (.dir dm t)) := by
      intro y hy
      obtain ⟨j, hj, rfl⟩ := take_of_above hy
      obtain ⟨m, t, h1, _, _, h2, h3⟩ := hmade.way j hj
      exact ⟨⟨t, m, h1⟩, fun m0 t0 h0 => ⟨t, by rw [h1, h2 m0 t0 h0]⟩, fun h0 => ⟨t, by rw [h1, h3 h0]⟩⟩
    intro q hq y hy hy0
    by_cases hyp : Above y p.name
    · refine ⟨(hway y hyp).1, fun hno => ?_⟩
      cases hn : fs y with
      | none => exact (hway y hyp).2.2 hn
      | some n =>
        obtain ⟨r, hr, hrn | hra⟩ := h.shows.only y hy0 (by rw [hn]; simp)
        · exact absurd hrn (hno r (List.mem_cons_of_mem _ hr))
        · obtain ⟨t, ht⟩ := (h.shows.above r hr y hra hy0).2 fun s hs => hno s (List.mem_cons_of_mem _ hs)
          exact (hway y hyp).2.1 _ _ ht
    · rcases List.mem_cons.mp hq with rfl | hq
      · exact absurd hy hyp
      · by_cases hyn : y = p.name
        · subst hyn
          have hd := notdir p hp q (hl q hq) hy
          refine ⟨?_, fun hno => absurd rfl (hno p List.mem_cons_self)⟩
          cases p with
          | dir y mode mtime =>
            obtain ⟨t, h1, _⟩ := htold
            exact ⟨t, _, h1⟩
          | _ => cases hd
        · have hsame : f y = fs y := hmade.rest y hyn fun j hj he => hyp (by rw [he]; exact above_take hj)
          rw [hsame]
          have := h.shows.above q hq y hy hy0
          exact ⟨this.1, fun hno => this.2 fun r hr => hno r (List.mem_cons_of_mem _ hr)⟩
  · -- only
    intro y hy0 hne
    by_cases hyn : y = p.name
    · exact ⟨p, List.mem_cons_self, Or.inl hyn.symm⟩
    · by_cases hyp : Above y p.name
      · exact ⟨p, List.mem_cons_self, Or.inr hyp⟩
      · rw [hmade.rest y hyn fun j hj he => hyp (by rw [he]; exact above_take hj)] at hne
        obtain ⟨q, hq, h'⟩ := h.shows.only y hy0 hne
        exact ⟨q, List.mem_cons_of_mem _ hq, h'⟩
  · obtain ⟨m, t, h1, _⟩ := hmade.way 0 hpos
    rw [List.take_zero] at h1
    rw [h1]
    simp
  · intro y m t hy
    by_cases hyn : y = p.name
    · subst hyn
      cases p with
      | dir y mode mtime =>
        obtain ⟨t', h1, _⟩ := htold
        simp only [Proc.name] at hy
        rw [h1] at hy
        cases hy
        by_cases h0 : mode = 0
        · rw [if_pos h0]
          exact hdm
        · rw [if_neg h0]
          exact hfit.modes _ _ _ hp h0
      | file y mode mtime content =>
        obtain ⟨t', h1, _⟩ := htold
        simp only [Proc.name] at hy
        rw [h1] at hy
        cases hy
      | symlink y target =>
        simp only [Proc.name] at hy
        rw [show f y = _ from htold] at hy
        cases hy
      | link y target =>
        obtain ⟨_, c, m', s, h1⟩ := hlink y target rfl
        simp only [Proc.name] at hy
        rw [show f y = _ from htold, h1] at hy
        cases hy
    · by_cases hyp : Above y p.name
      · obtain ⟨j, hj, rfl⟩ := take_of_above hyp
        obtain ⟨m', t', h1, h2, h3, _⟩ := hmade.way j hj
        rw [h1] at hy
        cases hy
        exact ⟨h2, h3⟩
      · rw [hmade.rest y hyn fun j hj he => hyp (by rw [he]; exact above_take hj)] at hy
        exact h.dirs y m t hy
  · obtain ⟨m, t, h1, _⟩ := hmade.way 0 hpos
    rw [List.take_zero] at h1
    exact ⟨m, t, h1⟩

theorem le_order {a b : Proc} (h : le a b = true) : a.order ≤ b.order := by
  unfold le at h
  split at h
  · simp only [decide_eq_true_eq] at h
    omega
  · omega

theorem applyAll_spec {sup : Bool} {dm fm : Nat} (hdm : search sup dm = true ∧ write sup dm = true) {ps : List Proc} (hfit : Fits sup ps) : ∀ (r l : List Proc) (fs : Fs), Doing sup dm fm l fs →
    (∀ q, q ∈ ps ↔ q ∈ l ∨ q ∈ r) → (∀ q ∈ l, ∀ p ∈ r, q.name ≠ p.name) → (r.map Proc.name).Nodup → r.Pairwise (fun a b => le a b = true) → (∀ y t, Proc.link y t ∈ l → ∃ mode mtime c, Proc.file t mode mtime c ∈ l) →
    ∃ f, applyAll sup dm fm fs r = some f ∧ Described dm fm (r.reverse ++ l) f := by
  intro r
  induction r with
  | nil => exact fun l fs h _ _ _ _ _ => ⟨fs, rfl, h.shows⟩
  | cons p r ih =>
    intro l fs h hmem hdis hnd hsort hlinks
    have hp : p ∈ ps := (hmem p).mpr (Or.inr List.mem_cons_self)
    have hfile : ∀ y t, p = .link y t → ∃ mode mtime c, Proc.file t mode mtime c ∈ l := by
      rintro y t rfl
      obtain ⟨mode, mtime, c, hq⟩ := hfit.links y t hp
      refine ⟨mode, mtime, c, ?_⟩
      rcases (hmem _).mp hq with hq | hq
      · exact hq
      · rcases List.mem_cons.mp hq with hq | hq
        · cases hq
        · have := le_order (List.rel_of_pairwise_cons hsort hq)
          exact absurd this (by simp [Proc.order])
    obtain ⟨f, hf, hdo⟩ := doing_step hdm h hfit (fun q hq => (hmem q).mpr (Or.inl hq)) p hp (fun q hq => hdis q hq p List.mem_cons_self) hfile hlinks
    rw [List.map_cons, List.nodup_cons] at hnd
    obtain ⟨g, hg, hdesc⟩ := ih (p :: l) f hdo (fun q => by
        rw [hmem q]
        simp only [List.mem_cons]
        constructor
        · rintro (h | h | h)
          · exact Or.inl (Or.inr h)
          · exact Or.inl (Or.inl h)
          · exact Or.inr h
        · rintro ((h | h) | h)
          · exact Or.inr (Or.inl h)
          · exact Or.inl h
          · exact Or.inr (Or.inr h)) (fun q hq s hs => by
        rcases List.mem_cons.mp hq with rfl | hq
        · exact fun he => hnd.1 (List.mem_map.mpr ⟨s, hs, he.symm⟩)
        · exact hdis q hq s (List.mem_cons_of_mem _ hs)) hnd.2 (List.Pairwise.of_cons hsort) (fun y t hq => by
        rcases List.mem_cons.mp hq with hq | hq
        · obtain ⟨mode, mtime, c, h⟩ := hfile y t hq.symm
          exact ⟨mode, mtime, c, List.mem_cons_of_mem _ h⟩
        · obtain ⟨mode, mtime, c, h⟩ := hlinks y t hq
          exact ⟨mode, mtime, c, List.mem_cons_of_mem _ h⟩)
    refine ⟨g, ?_, ?_⟩
    · show (apply sup dm fm fs p).bind _ = _
      rw [hf]
      exact hg
    · rw [List.reverse_cons, List.append_assoc]
      exact hdesc

theorem Described.congr {dm fm : Nat} {ps qs : List Proc} {fs : Fs} (h : ∀ p, p ∈ ps ↔ p ∈ qs) (hd : Described dm fm ps fs) : Described dm fm qs fs := by
  refine ⟨fun p hp => ?_, fun p hp y hy hy0 => ?_, fun y hy0 hne => ?_⟩
  · have := hd.told p ((h p).mpr hp)
    cases p with
    | dir y mode mtime =>
      obtain ⟨t, h1, h2⟩ := this
      exact ⟨t, h1, fun hno => h2 fun q hq => hno q ((h q).mp hq)⟩
    | file y mode mtime content => exact this
    | link y target => exact this
    | symlink y target => exact this
  · have := hd.above p ((h p).mpr hp) y hy hy0
    exact ⟨this.1, fun hno => this.2 fun q hq => hno q ((h q).mp hq)⟩
  · obtain ⟨p, hp, h'⟩ := hd.only y hy0 hne
    exact ⟨p, (h p).mp hp, h'⟩

theorem le_trans (a b c : Proc) (h1 : le a b = true) (h2 : le b c = true) : le a c = true := by
  unfold le at *
  by_cases hab : a.order = b.order
  · by_cases hbc : b.order = c.order
    · have hac : a.order = c.order := hab.trans hbc
      simp only [hab, hbc, ne_eq, not_true_eq_false, if_false] at h1 h2 ⊢
      by_cases lab : a.name.length = b.name.length
      · by_cases lbc : b.name.length = c.name.length
        · simp only [lab, lbc, not_true_eq_false, if_false, decide_eq_true_eq] at h1 h2 ⊢
          exact List.le_trans h1 h2
        · simp only [lab, lbc, not_true_eq_false, not_false_eq_true, if_true, if_false, decide_eq_true_eq] at h1 h2 ⊢
          exact h2
      · by_cases lbc : b.name.length = c.name.length
        · rw [if_pos lab] at h1
          simp only [decide_eq_true_eq] at h1
          rw [if_pos (by omega)]
          simp only [decide_eq_true_eq]
          omega
        · rw [if_pos lab] at h1
          rw [if_pos lbc] at h2
          simp only [decide_eq_true_eq] at h1 h2
          rw [if_pos (by omega)]
          simp only [decide_eq_true_eq]
          omega
    · rw [if_pos hbc] at h2
      simp only [decide_eq_true_eq] at h2
      rw [if_pos (by omega)]
      simp only [decide_eq_true_eq]
      omega
  · rw [if_pos hab] at h1
    simp only [decide_eq_true_eq] at h1
    by_cases hbc : b.order = c.order
    · rw [if_pos (by omega)]
      simp only [decide_eq_true_eq]
      omega
    · rw [if_pos hbc] at h2
      simp only [decide_eq_true_eq] at h2
      rw [if_pos (by omega)]
      simp only [decide_eq_true_eq]
      omega

theorem le_total (a b : Proc) : (le a b || le b a) = true := by
  unfold le
  rw [Bool.or_eq_true]
  by_cases hab : a.order = b.order
  · by_cases lab : a.name.length = b.name.length
    · simp only [hab, lab, ne_eq, not_true_eq_false, if_false, decide_eq_true_eq]
      exact List.le_total _ _
    · simp only [hab, ne_eq, not_true_eq_false, if_false]
      rw [if_pos lab, if_pos (fun h => lab h.symm)]
      simp only [decide_eq_true_eq]
      omega
  · rw [if_pos hab, if_pos (fun h => hab h.symm)]
    simp only [decide_eq_true_eq]
    omega

theorem nodup_map_inj {l : List Proc} {g : Proc → Str} (h : (l.map g).Nodup) {a b : Proc} (ha : a ∈ l) (hb : b ∈ l) (he : g a = g b) : a = b := by
  induction l with
  | nil => cases ha
  | cons x l ih =>
    rw [List.map_cons, List.nodup_cons] at h
    rcases List.mem_cons.mp ha with ha' | ha'
    · rcases List.mem_cons.mp hb with hb' | hb'
      · rw [ha', hb']
      · exact absurd (List.mem_map.mpr ⟨b, hb', by rw [← he, ha']⟩) h.1
    · rcases List.mem_cons.mp hb with hb' | hb'
      · exact absurd (List.mem_map.mpr ⟨a, ha', by rw [he, hb']⟩) h.1
      · exact ih h.2 ha' hb'

/-- What is in order already stays as it is. -/
theorem setup_sorted {sup : Bool} {dm fm : Nat} {fs : Fs} {ps : List Proc} (h : ps.Pairwise fun a b => le a b = true) : setup sup dm fm fs ps = applyAll sup dm fm fs ps := by
  unfold setup
  rw [List.mergeSort_of_pairwise h]

/-- Two that may stand in either order have the same path. -/
theorem le_antisymm {a b : Proc} (h1 : le a b = true) (h2 : le b a = true) : join a.name = join b.name := by
  unfold le at *
  by_cases hab : a.order = b.order
  · rw [if_neg (by simpa using hab)] at h1
    rw [if_neg (by simpa using hab.symm)] at h2
    by_cases lab : a.name.length = b.name.length
    · rw [if_neg (by simpa using lab)] at h1
      rw [if_neg (by simpa using lab.symm)] at h2
      simp only [decide_eq_true_eq] at h1 h2
      exact List.le_antisymm h1 h2
    · rw [if_pos lab] at h1
      rw [if_pos (fun h => lab h.symm)] at h2
      simp only [decide_eq_true_eq] at h1 h2
      omega
  · rw [if_pos hab] at h1
    rw [if_pos (fun h => hab h.symm)] at h2
    simp only [decide_eq_true_eq] at h1 h2
    omega

/-! ## C112 -/

/-- **C112** (the tree described). Whatever fits together, in whatever order it is given, is set up without failure in an empty directory: every file, link and directory is there as told, the directories above
them, and nothing else. The time of a directory is the one asked for only if nothing lies below it. -/
theorem C112_describes_partial (sup : Bool) (dm fm rm : Nat) (hdm : search sup dm = true ∧ write sup dm = true) (hrm : search sup rm = true ∧ write sup rm = true) (ps : List Proc) (hfit : Fits sup ps) :
    ∃ f, setup sup dm fm (empty rm) ps = some f ∧ Described dm fm ps f := by
  have hperm : (ps.mergeSort le).Perm ps := List.mergeSort_perm _ _
  have hstart : Doing sup dm fm [] (empty rm) := by
    refine ⟨⟨(fun p hp => by cases hp), (fun p hp => by cases hp), fun y hy hne => absurd ?_ hne⟩, by simp [empty], fun y m t h => ?_, rm, none, by simp [empty]⟩
    · unfold empty
      rw [if_neg hy]
    · unfold empty at h
      split at h
      · cases h
        exact hrm
      · cases h
  obtain ⟨f, hf, hd⟩ := applyAll_spec hdm hfit (ps.mergeSort le) [] (empty rm) hstart (fun q => by simp [hperm.mem_iff]) (fun q hq => by cases hq)
    ((hperm.map Proc.name).nodup_iff.mpr hfit.once) (List.pairwise_mergeSort le_trans le_total ps) (fun y t h => by cases h)
  exact ⟨f, hf, hd.congr fun p => by simp [hperm.mem_iff]⟩

/-- **C112** (any order). When all paths differ, the order in which the procs are given makes no difference, whatever tree there is before and whatever fails. -/
theorem C112_order (sup : Bool) (dm fm : Nat) (fs : Fs) (ps qs : List Proc) (hperm : ps.Perm qs) (hnd : (ps.map fun p => join p.name).Nodup) : setup sup dm fm fs ps = setup sup dm fm fs qs := by
  have hsame : ps.mergeSort le = qs.mergeSort le := by
    refine List.Perm.eq_of_pairwise (le := fun a b => le a b = true) ?_ (List.pairwise_mergeSort le_trans le_total ps) (List.pairwise_mergeSort le_trans le_total qs)
      (((List.mergeSort_perm ps le).trans hperm).trans (List.mergeSort_perm qs le).symm)
    intro a b ha hb h1 h2
    have ha' : a ∈ ps := (List.mergeSort_perm ps le).mem_iff.mp ha
    have hb' : b ∈ ps := hperm.mem_iff.mpr ((List.mergeSort_perm qs le).mem_iff.mp hb)
    exact nodup_map_inj hnd ha' hb' (le_antisymm h1 h2)
  unfold setup
  rw [hsame]

/-- The time asked for a directory is lost when something lies below it: the directory is set up first, and what is put into it later changes its time. -/
theorem C112_counterexample_mtime : let ps := [Proc.dir [['d']] 0 (some 7), .file [['d'], ['f']] 0 none []]
    Fits false ps ∧ (setup false 0o755 0o644 (empty 0o755) ps).bind (fun f => f [['d']]) = some (.dir 0o755 none) := by
  refine ⟨⟨?_, by decide, ?_, ?_, ?_⟩, by rw [setup_sorted (by decide +kernel)]; decide +kernel⟩
  · intro p hp
    simp only [List.mem_cons, List.not_mem_nil, or_false] at hp
    rcases hp with rfl | rfl <;> decide
  · intro p hp hd q hq
    simp only [List.mem_cons, List.not_mem_nil, or_false] at hp hq
    rcases hp with rfl | rfl
    · cases hd
    · rintro ⟨c, r, h⟩
      have := congrArg List.length h
      rcases hq with rfl | rfl <;> simp [Proc.name] at this <;> omega
  · intro y t h
    simp only [List.mem_cons, List.not_mem_nil, or_false] at h
    rcases h with h | h <;> cases h
  · intro y mode t h h0
    simp only [List.mem_cons, List.not_mem_nil, or_false] at h
    rcases h with h | h
    · cases h
      exact absurd rfl h0
    · cases h

/-- A directory asked for without the bit to change it gets its mode before what lies below it is made, which then fails, unless access is denied to nobody. -/
theorem C112_counterexample_mode : let ps := [Proc.dir [['d']] 0o555 none, .file [['d'], ['f']] 0 none []]
    setup false 0o755 0o644 (empty 0o755) ps = none ∧ (setup true 0o755 0o644 (empty 0o755) ps).bind (fun f => f [['d']]) = some (.dir 0o555 none) := by
  constructor
  · rw [setup_sorted (by decide +kernel)]
    decide +kernel
  · rw [setup_sorted (by decide +kernel)]
    decide +kernel

/-- Files, links of both kinds, a directory between, given in the wrong order. -/
example : let ps := [Proc.symlink [['s']] ['x'], .link [['d'], ['h']] [['d'], ['e'], ['f']], .file [['d'], ['e'], ['f']] 0o600 (some 3) ['c'], .dir [['d']] 0o700 none]
    (setup false 0o755 0o644 (empty 0o755) ps).map (fun f => [f [['s']], f [['d'], ['h']], f [['d']], f [['d'], ['e']], f [['e']]]) =
      some [some (.symlink ['x']), some (.file ['c'] 0o600 (some 3)), some (.dir 0o700 none), some (.dir 0o755 none), none] := by
  intro ps
  rw [C112_order _ _ _ _ ps [.dir [['d']] 0o700 none, .file [['d'], ['e'], ['f']] 0o600 (some 3) ['c'], .link [['d'], ['h']] [['d'], ['e'], ['f']], .symlink [['s']] ['x']] (by decide +kernel) (by decide +kernel),
    setup_sorted (by decide +kernel)]
  decide +kernel

end Verif.Testhelper.Setup
