import Verif.Overlay.Store
/-
Model of the open-file removal guard of the overlay: /repo/vroot-adapter/overlayfs/file.go 20-103 (`handleTracker`, `trackedFile`),
/repo/vroot-adapter/overlayfs/fs.go 256-262 (`track`) and /repo/vroot-adapter/overlayfs/remove.go 91-115 (`removable`, `removableTree`).

Every tracker method runs under its own mutex, so a run of any number of goroutines is a sequence of them; the sequences below are arbitrary.
-/
namespace Verif.Overlay.Handles
open Verif.Path Verif.Overlay

/-- file.go 28-31 `handleTracker.open`: a Go map, as a list of entries. -/
abbrev Counts := List (Str × Nat)

/-- The value of a Go map at a key, 0 when absent. -/
def get (m : Counts) (name : Str) : Nat :=
  match m with
  | [] => 0
  | (n, c) :: rest => if n = name then c else get rest name

/-- `m[name] = v` on a Go map. -/
def put (m : Counts) (name : Str) (v : Nat) : Counts :=
  match m with
  | [] => [(name, v)]
  | (n, c) :: rest => if n = name then (n, v) :: rest else (n, c) :: put rest name v

/-- `delete(m, name)` on a Go map. -/
def del (m : Counts) (name : Str) : Counts := m.filter (fun e => e.1 != name)

/-- file.go 37-41 `acquire`. -/
def acquire (m : Counts) (name : Str) : Counts := put m name (get m name + 1)

/-- file.go 45-53 `release`. -/
def release (m : Counts) (name : Str) : Counts :=
  if get m name - 1 > 0 then put m name (get m name - 1) else del m name

/-- file.go 55-59 `count`. -/
def count (m : Counts) (name : Str) : Nat := get m name

/-- file.go 74: is this entry counted? -/
def counted (name opened : Str) : Bool := opened == name || hasPrefix opened (if name = [] then [] else name ++ [slash])

/-- file.go 65-79 `countSubtree`. -/
def countSubtree (m : Counts) (name : Str) : Nat :=
  match m with
  | [] => 0
  | (n, c) :: rest => (if counted name n then c else 0) + countSubtree rest name

/-- file.go 83-103 `trackedFile`: the name it is counted under and whether `once` is still unused. -/
structure Handle where
  key : Str
  live : Bool
  deriving DecidableEq, Repr

structure State where
  counts : Counts
  handles : List Handle
  deriving Repr

/-- fs.go 259-262 `track`. -/
def track (key : Str) (s : State) : State := ⟨acquire s.counts key, s.handles ++ [⟨key, true⟩]⟩

/-- file.go 99-103 `Close` of the `i`-th handle handed out; closing again releases nothing. -/
def close (i : Nat) (s : State) : State :=
  match s.handles[i]? with
  | some h => if h.live then ⟨release s.counts h.key, s.handles.set i ⟨h.key, false⟩⟩ else s
  | none => s

/-- What an overlay does, as far as the tracker is concerned: renames and removals do not touch it (rename.go, remove.go). -/
inductive Event where
  | opened (key : Str)
  | closed (i : Nat)
  | removed (name : Str)
  | renamed (old new : Str)
  deriving Repr

def run : List Event → State → State
  | [], s => s
  | .opened k :: es, s => run es (track k s)
  | .closed i :: es, s => run es (close i s)
  | .removed _ :: es, s => run es s
  | .renamed _ _ :: es, s => run es s

def start : State := ⟨[], []⟩

/-- remove.go 95-100 `removable`: does `Remove(full)` answer with a sharing violation? -/
def refusesRemove (disable : Bool) (s : State) (full : Str) : Bool := disable && decide (count s.counts full > 0)
/-- remove.go 110-115 `removableTree`: does `RemoveAll(full)`? -/
def refusesRemoveAll (disable : Bool) (s : State) (full : Str) : Bool := disable && decide (countSubtree s.counts full > 0)

/-! ### the counts are exact -/

/-- Handles that are still open and whose name satisfies `p`. -/
def openCount (p : Str → Bool) (hs : List Handle) : Nat := hs.countP (fun h => h.live && p h.key)

/-- Sum of the counts of the names satisfying `p`. -/
def total (p : Str → Bool) (m : Counts) : Nat :=
  match m with
  | [] => 0
  | (n, c) :: rest => (if p n then c else 0) + total p rest

def Keys (m : Counts) : List Str := m.map (·.1)

structure Inv (s : State) : Prop where
  nodup : (Keys s.counts).Nodup
  exact : ∀ p, total p s.counts = openCount p s.handles

theorem get_of_not_mem {m : Counts} {n : Str} (h : n ∉ Keys m) : get m n = 0 := by
  induction m with
  | nil => rfl
  | cons e m ih =>
    obtain ⟨k, c⟩ := e
    simp only [Keys, List.map_cons, List.mem_cons, not_or] at h
    unfold get
    rw [if_neg (fun e => h.1 e.symm)]
    exact ih h.2

theorem total_eq {m : Counts} (h : (Keys m).Nodup) (n : Str) : total (fun k => k == n) m = get m n := by
  induction m with
  | nil => rfl
  | cons e m ih =>
    obtain ⟨k, c⟩ := e
    simp only [Keys, List.map_cons, List.nodup_cons] at h
    unfold total get
    by_cases hk : k = n
    · subst hk
      rw [ih h.2, get_of_not_mem h.1]; simp
    · rw [if_neg hk, ih h.2]; simp [hk]

theorem keys_put (m : Counts) (n : Str) (v : Nat) : Keys (put m n v) = if n ∈ Keys m then Keys m else Keys m ++ [n] := by
  induction m with
  | nil => rfl
  | cons e m ih =>
    obtain ⟨k, c⟩ := e
    unfold put
    by_cases hk : k = n
    · subst hk
      simp [Keys]
    · rw [if_neg hk]
      show k :: Keys (put m n v) = _
      rw [ih]
      have hn : n ∈ Keys ((k, c) :: m) ↔ n ∈ Keys m := by
        simp only [Keys, List.map_cons, List.mem_cons]
        exact ⟨fun h => h.resolve_left (fun e => hk e.symm), .inr⟩
      by_cases hm : n ∈ Keys m
      · rw [if_pos hm, if_pos (hn.2 hm)]; rfl
      · rw [if_neg hm, if_neg (fun h => hm (hn.1 h))]; rfl

theorem nodup_put {m : Counts} (h : (Keys m).Nodup) (n : Str) (v : Nat) : (Keys (put m n v)).Nodup := by
  rw [keys_put]
  split
  · exact h
  · rename_i hn
    rw [List.nodup_append]
    refine ⟨h, by simp, ?_⟩
    intro a ha b hb e
    simp only [List.mem_singleton] at hb
    exact hn (by rw [← hb, ← e]; exact ha)

theorem total_put (p : Str → Bool) {m : Counts} (h : (Keys m).Nodup) (n : Str) (v : Nat) :
    total p (put m n v) + (if p n then get m n else 0) = total p m + (if p n then v else 0) := by
  induction m with
  | nil => simp [put, total, get]
  | cons e m ih =>
    obtain ⟨k, c⟩ := e
    simp only [Keys, List.map_cons, List.nodup_cons] at h
    unfold put get
    by_cases hk : k = n
    · subst hk
      rw [if_pos rfl, if_pos rfl]
      simp only [total]
      split <;> omega
    · rw [if_neg hk, if_neg hk]
      simp only [total]
      have := ih h.2
      omega

theorem total_del (p : Str → Bool) {m : Counts} (h : (Keys m).Nodup) (n : Str) :
    total p (del m n) + (if p n then get m n else 0) = total p m := by
  induction m with
  | nil => simp [del, total, get]
  | cons e m ih =>
    obtain ⟨k, c⟩ := e
    simp only [Keys, List.map_cons, List.nodup_cons] at h
    have ih := ih h.2
    unfold get
    by_cases hk : k = n
    · subst hk
      have hd : del ((k, c) :: m) k = del m k := by simp [del]
      rw [hd, if_pos rfl]
      rw [get_of_not_mem h.1] at ih
      simp only [total]
      split at ih <;> omega
    · have hd : del ((k, c) :: m) n = (k, c) :: del m n := by simp [del, hk]
      rw [hd, if_neg hk]
      simp only [total]
      omega

theorem nodup_del {m : Counts} (h : (Keys m).Nodup) (n : Str) : (Keys (del m n)).Nodup := by
  unfold Keys del
  exact (List.filter_sublist.map _).nodup h

theorem nodup_release {m : Counts} (h : (Keys m).Nodup) (n : Str) : (Keys (release m n)).Nodup := by
  unfold release
  split
  · exact nodup_put h _ _
  · exact nodup_del h _

theorem total_acquire (p : Str → Bool) {m : Counts} (h : (Keys m).Nodup) (n : Str) :
    total p (acquire m n) = total p m + (if p n then 1 else 0) := by
  have := total_put p h n (get m n + 1)
  unfold acquire
  split at this <;> simp_all <;> omega

theorem total_release (p : Str → Bool) {m : Counts} (h : (Keys m).Nodup) (n : Str) (hp : get m n > 0) :
    total p (release m n) + (if p n then 1 else 0) = total p m := by
  unfold release
  split
  · have := total_put p h n (get m n - 1)
    split at this <;> simp_all <;> omega
  · have := total_del p h n
    have h1 : get m n = 1 := by omega
    rw [h1] at this
    exact this

theorem openCount_set (p : Str → Bool) {hs : List Handle} {i : Nat} {h : Handle} (hi : hs[i]? = some h) (hl : h.live = true) :
    openCount p (hs.set i ⟨h.key, false⟩) + (if p h.key then 1 else 0) = openCount p hs := by
  induction hs generalizing i with
  | nil => simp at hi
  | cons a hs ih =>
    cases i with
    | zero =>
      simp only [List.getElem?_cons_zero, Option.some.injEq] at hi
      subst hi
      simp only [List.set, openCount, List.countP_cons, hl, Bool.false_and, Bool.true_and]
      split <;> simp_all
    | succ i =>
      simp only [List.getElem?_cons_succ] at hi
      have := ih hi
      simp only [List.set, openCount, List.countP_cons] at this ⊢
      omega

theorem inv_track {s : State} (h : Inv s) (k : Str) : Inv (track k s) := by
  refine ⟨nodup_put h.nodup _ _, fun p => ?_⟩
  show total p (acquire s.counts k) = openCount p (s.handles ++ [⟨k, true⟩])
  rw [total_acquire p h.nodup, h.exact p]
  simp only [openCount, List.countP_append, List.countP_cons, List.countP_nil, Bool.true_and, Nat.zero_add]

theorem get_pos {s : State} (h : Inv s) {i : Nat} {x : Handle} (hi : s.handles[i]? = some x) (hl : x.live = true) : get s.counts x.key > 0 := by
  rw [← total_eq h.nodup, h.exact]
  unfold openCount
  rw [gt_iff_lt, List.countP_pos_iff]
  exact ⟨x, List.mem_of_getElem? hi, by simp [hl]⟩

theorem inv_close {s : State} (h : Inv s) (i : Nat) : Inv (close i s) := by
  unfold close
  split
  · rename_i x hi
    split
    · rename_i hl
      refine ⟨nodup_release h.nodup _, fun p => ?_⟩
      have h1 := total_release p h.nodup x.key (get_pos h hi hl)
      have h2 := openCount_set p hi hl
      rw [h.exact p] at h1
      show total p (release s.counts x.key) = openCount p (s.handles.set i ⟨x.key, false⟩)
      omega
    · exact h
  · exact h

theorem inv_run (es : List Event) {s : State} (h : Inv s) : Inv (run es s) := by
  induction es generalizing s with
  | nil => exact h
  | cons e es ih =>
    cases e with
    | opened k => exact ih (inv_track h k)
    | closed i => exact ih (inv_close h i)
    | removed _ => exact ih h
    | renamed _ _ => exact ih h

theorem inv_start : Inv start := ⟨by simp [start, Keys], fun _ => rfl⟩

theorem countSubtree_total (m : Counts) (name : Str) : countSubtree m name = total (counted name) m := by
  induction m with
  | nil => rfl
  | cons e m ih => obtain ⟨k, c⟩ := e; simp only [countSubtree, total, ih]

/-! ### the property -/

/-- A handle was handed out under the name `place` (its components) by the events so far and has not been closed. -/
def OpenAt (es : List Event) (place : List Str) : Prop :=
  ∃ (i : Nat) (x : Handle), (run es start).handles[i]? = some x ∧ x.live = true ∧ x.key = join place

theorem openCount_pos {p : Str → Bool} {hs : List Handle} : openCount p hs > 0 ↔ ∃ x : Handle, ∃ i : Nat, hs[i]? = some x ∧ x.live = true ∧ p x.key = true := by
  unfold openCount
  rw [gt_iff_lt, List.countP_pos_iff]
  constructor
  · rintro ⟨x, hx, hp⟩
    obtain ⟨i, hi⟩ := List.getElem?_of_mem hx
    simp only [Bool.and_eq_true] at hp
    exact ⟨x, i, hi, hp⟩
  · rintro ⟨x, i, hi, hl, hp⟩
    exact ⟨x, List.mem_of_getElem? hi, by simp [hl, hp]⟩

theorem counted_iff {name place : List Str} (hn : CleanComps name) (hp : CleanComps place) :
    counted (join name) (join place) = true ↔ ∃ rest, place = name ++ rest := by
  unfold counted
  rw [Bool.or_eq_true, beq_iff_eq, hasPrefix_iff]
  by_cases he : name = []
  · subst he
    simp [join]
  · rw [if_neg (by rw [join_eq_nil hn]; exact he)]
    constructor
    · rintro (h | ⟨t, h⟩)
      · exact ⟨[], by rw [List.append_nil]; exact join_inj hp hn h⟩
      · obtain ⟨r, _, hr⟩ := (prefix_slash_comps hn hp he).1 ⟨t, by rw [h]; simp⟩
        exact ⟨r, hr⟩
    · rintro ⟨r, rfl⟩
      by_cases hr : r = []
      · subst hr; exact .inl (by rw [List.append_nil])
      · obtain ⟨t, ht⟩ := (prefix_slash_comps hn hp he).2 ⟨r, hr, rfl⟩
        exact .inr ⟨t, by rw [ht]; simp⟩

/-- Every handle was counted under a clean name, as `Fs.name` produces them (`C63`). -/
def CleanEvents (es : List Event) : Prop := ∀ k, Event.opened k ∈ es → IsClean k

theorem handles_clean (es : List Event) {s : State} (hs : ∀ x ∈ s.handles, IsClean x.key) (h : CleanEvents es) :
    ∀ x ∈ (run es s).handles, IsClean x.key := by
  induction es generalizing s with
  | nil => exact hs
  | cons e es ih =>
    have h' : CleanEvents es := fun k hk => h k (List.mem_cons_of_mem _ hk)
    cases e with
    | opened k =>
      refine ih ?_ h'
      intro x hx
      simp only [track, List.mem_append, List.mem_singleton] at hx
      rcases hx with hx | rfl
      · exact hs x hx
      · exact h k List.mem_cons_self
    | closed i =>
      refine ih ?_ h'
      intro x hx
      unfold close at hx
      split at hx
      · rename_i y hy
        split at hx
        · rcases List.mem_or_eq_of_mem_set hx with hx | rfl
          · exact hs x hx
          · exact hs y (List.mem_of_getElem? hy)
        · exact hs x hx
      · exact hs x hx
    | removed _ => exact ih hs h'
    | renamed _ _ => exact ih hs h'

/-- **C62** (Remove). With the guard on, after every history of opens, closes, removals and renames, `Remove` of a name is refused exactly
when a handle handed out under that name is still open. -/
theorem C62_remove_guard {es : List Event} {name : List Str} :
    refusesRemove true (run es start) (join name) = true ↔ OpenAt es name := by
  have h := inv_run es inv_start
  unfold refusesRemove count OpenAt
  rw [← total_eq h.nodup, h.exact]
  simp only [Bool.true_and, decide_eq_true_eq, openCount_pos, beq_iff_eq]
  constructor
  · rintro ⟨x, i, hx⟩; exact ⟨i, x, hx⟩
  · rintro ⟨i, x, hx⟩; exact ⟨x, i, hx⟩

/-- **C62** (RemoveAll). `RemoveAll` of a name is refused exactly when a handle handed out under that name or under a name beneath it is still
open. -/
theorem C62_removeAll_guard {es : List Event} (hc : CleanEvents es) {name : List Str} (hn : CleanComps name) :
    refusesRemoveAll true (run es start) (join name) = true ↔ ∃ rest, CleanComps (name ++ rest) ∧ OpenAt es (name ++ rest) := by
  have h := inv_run es inv_start
  unfold refusesRemoveAll OpenAt
  rw [countSubtree_total, h.exact]
  simp only [Bool.true_and, decide_eq_true_eq, openCount_pos]
  constructor
  · rintro ⟨x, i, hi, hl, hp⟩
    obtain ⟨cs, hcs, hk⟩ := handles_clean es (s := start) (by simp [start]) hc x (List.mem_of_getElem? hi)
    rw [hk] at hp
    obtain ⟨r, rfl⟩ := (counted_iff hn hcs).1 hp
    exact ⟨r, hcs, i, x, hi, hl, hk⟩
  · rintro ⟨r, hr, i, x, hi, hl, hk⟩
    exact ⟨x, i, hi, hl, by rw [hk]; exact (counted_iff hn hr).2 ⟨r, rfl⟩⟩

/-- With the guard off nothing is refused. -/
theorem C62_guard_off (s : State) (name : Str) : refusesRemove false s name = false ∧ refusesRemoveAll false s name = false := by
  simp [refusesRemove, refusesRemoveAll]

/-- Closing twice counts once: a second `Close` of the same handle changes nothing. -/
theorem C62_close_twice (s : State) (i : Nat) : close i (close i s) = close i s := by
  cases hi : s.handles[i]? with
  | none => simp [close, hi]
  | some h =>
    by_cases hl : h.live
    · have : close i s = ⟨release s.counts h.key, s.handles.set i ⟨h.key, false⟩⟩ := by simp [close, hi, hl]
      rw [this]
      have hlt : i < s.handles.length := by
        rw [List.getElem?_eq_some_iff] at hi
        exact hi.1
      unfold close
      simp [List.getElem?_set_self hlt]
    · have : close i s = s := by simp [close, hi, hl]
      rw [this, this]

/-- The name is the one the file was opened under: when an open file is renamed its handle is still counted under the old name, so removing it
under its new name is not refused, and a new file put at the old name cannot be removed. -/
theorem C62_note_rename_moves_no_handle :
    refusesRemove true (run [.opened ['a'], .renamed ['a'] ['b']] start) ['b'] = false ∧
    refusesRemove true (run [.opened ['a'], .renamed ['a'] ['b']] start) ['a'] = true := by decide

-- Two handles on one file, one closed (twice): still refused; both closed: not refused. A handle beneath stops RemoveAll but not Remove.
example : refusesRemove true (run [.opened ['a'], .opened ['a'], .closed 0, .closed 0] start) ['a'] = true := by decide
example : refusesRemove true (run [.opened ['a'], .opened ['a'], .closed 0, .closed 1] start) ['a'] = false := by decide
example : refusesRemoveAll true (run [.opened "d/x".toList] start) ['d'] = true ∧ refusesRemove true (run [.opened "d/x".toList] start) ['d'] = false ∧
    refusesRemoveAll true (run [.opened "d0".toList] start) ['d'] = false ∧ refusesRemoveAll true (run [.opened "d0".toList] start) [] = true := by decide
example : CleanEvents [.opened "d/x".toList] := by
  intro k hk
  simp only [List.mem_singleton, Event.opened.injEq] at hk
  subst hk
  exact ⟨[['d'], ['x']], (by intro c hc; simp only [List.mem_cons, List.not_mem_nil, or_false] at hc; rcases hc with rfl | rfl <;> decide), by decide⟩

end Verif.Overlay.Handles
