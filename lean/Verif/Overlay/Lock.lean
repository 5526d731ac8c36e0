/-
Model of /repo/vroot-adapter/overlayfs/internal/sqlvfs/file.go 108-153: the lock level of a database handle and the whole-file lock under it
(/repo/vroot/lock.go 16-36), for any number of handles on one file.

The operating system's lock is trusted to satisfy `grantable`: it gives a shared lock only when no other handle holds an exclusive one and an
exclusive lock only when no other handle holds anything. A request that would have to wait is a step that has not happened yet.
-/
namespace Verif.Overlay.Lock

/-- The lock levels of sqlite in their order (NONE, SHARED, RESERVED, PENDING, EXCLUSIVE). -/
inductive Level where
  | none | shared | reserved | pending | exclusive
  deriving DecidableEq, Repr

def Level.rank : Level → Nat
  | .none => 0 | .shared => 1 | .reserved => 2 | .pending => 3 | .exclusive => 4

/-- What the file lock under the handle is. -/
inductive Held where
  | none | shared | exclusive
  deriving DecidableEq, Repr

def Held.rank : Held → Nat
  | .none => 0 | .shared => 1 | .exclusive => 2

/-- How a call on the backend's locker ends: granted, refused with the lock that was held still there (flock(2),
/repo/vroot/osfs/lock_unix.go), or refused after dropping what was held (LockFileEx, /repo/vroot/osfs/lock_windows.go 19-50). -/
inductive Outcome where
  | ok | refused | dropped
  deriving DecidableEq, Repr

/-- file.go 41-48 `file`, the fields the locking uses. -/
structure File where
  readOnly : Bool
  level : Level
  held : Held
  deriving DecidableEq, Repr

/-- What became of the file lock when level `want` is asked of the backend. -/
def Held.after (h want : Held) : Outcome → Held
  | .ok => want
  | .refused => h
  | .dropped => .none

/-- file.go 114-118: the level asked of the backend. -/
def wanted (l : Level) : Held := if l = .shared then .shared else .exclusive

/-- file.go 107-126 `Lock` on a backend that has a locker (113); `true` is a nil error. -/
def lock (l : Level) (o : Outcome) (f : File) : File × Bool :=
  if f.level.rank ≥ l.rank then (f, true)
  else if l.rank ≥ Level.reserved.rank ∧ f.readOnly then (f, false)
  else if o = .ok then ({ f with level := l, held := wanted l }, true)
  else ({ f with held := f.held.after (wanted l) o }, false)

/-- file.go 129-146 `Unlock`. -/
def unlock (l : Level) (o : Outcome) (f : File) : File × Bool :=
  if f.level.rank ≤ l.rank then (f, true)
  else ({ f with level := l, held := f.held.after (if l = .shared then .shared else .none) o }, decide (o = .ok))

/-- file.go 149-154 `CheckReservedLock`. -/
def checkReserved (f : File) : Bool := f.level.rank ≥ Level.reserved.rank

/-- A request of sqlite's pager: `xUnlock` is only ever called with NONE or SHARED. -/
inductive Req where
  | lock (l : Level)
  | unlockShared
  | unlockNone
  deriving DecidableEq, Repr

def Req.run : Req → Outcome → File → File × Bool
  | .lock l => Lock.lock l
  | .unlockShared => unlock .shared
  | .unlockNone => unlock .none

/-! ### the property -/

/-- The file lock a level requires. -/
def required : Level → Held
  | .none => .none
  | .shared => .shared
  | .reserved | .pending | .exclusive => .exclusive

/-- All the handles on one file. -/
abbrev World := Nat → File

/-- May handle `h` be given `want`, with what the others hold? -/
def grantable (w : World) (h : Nat) (want : Held) : Prop :=
  ∀ k, k ≠ h → (want = .exclusive → (w k).held = .none) ∧ (want = .shared → (w k).held ≠ .exclusive)

def World.set (w : World) (h : Nat) (f : File) : World := fun k => if k = h then f else w k

/-- One request on one handle, with an outcome the operating system may give. -/
inductive Step (bad : Req → Outcome → Prop) : World → World → Prop
  | mk {w : World} {h : Nat} {r : Req} {o : Outcome} (hb : bad r o → False)
      (hg : (Req.run r o (w h)).1.held ≠ (w h).held → grantable w h (Req.run r o (w h)).1.held) :
      Step bad w (w.set h (Req.run r o (w h)).1)

/-- Everything reachable from handles that have just been opened. -/
inductive Reach (bad : Req → Outcome → Prop) (w0 : World) : World → Prop
  | start : Reach bad w0 w0
  | step {w w'} : Reach bad w0 w → Step bad w w' → Reach bad w0 w'

/-- Freshly opened handles (file.go 50-59): no level, no lock. -/
def Fresh (w : World) : Prop := ∀ h, (w h).level = .none ∧ (w h).held = .none

theorem required_wanted {l : Level} (h : l ≠ .none) : required l = wanted l := by
  cases l <;> simp_all [required, wanted]

theorem rank_required (l : Level) : (required l).rank = min l.rank 2 := by cases l <;> rfl

theorem wanted_required {l : Level} {f : File} (h : ¬ f.level.rank ≥ l.rank) : wanted l = required l := by
  cases l with
  | none => simp [Level.rank] at h
  | _ => rfl

/-- No call on the backend fails: the lock held is the one the level requires. -/
theorem exact_run {r : Req} {f : File} (h : f.held = required f.level) : (r.run .ok f).1.held = required (r.run .ok f).1.level := by
  cases r with
  | lock l =>
    simp only [Req.run, lock]
    split
    · exact h
    · rename_i hl
      split
      · exact h
      · rw [if_pos trivial]; exact wanted_required hl
  | unlockShared =>
    simp only [Req.run, unlock]
    split
    · exact h
    · rfl
  | unlockNone =>
    simp only [Req.run, unlock]
    split
    · exact h
    · rfl

theorem exact_run_lock {l : Level} {o : Outcome} (ho : o ≠ .dropped) {f : File} (h : f.held = required f.level) :
    (lock l o f).1.held = required (lock l o f).1.level := by
  unfold lock
  split
  · exact h
  · rename_i hl
    split
    · exact h
    · split
      · exact wanted_required hl
      · rename_i ho'
        cases o with
        | ok => exact absurd rfl ho'
        | refused => exact h
        | dropped => exact absurd rfl ho

/-- **C64** (1). When unlocking never fails and a refused request leaves the lock alone, every handle holds exactly the lock its level
requires, after every sequence of requests on any number of handles.
Missing from C64: failing unlocks and dropped conversions. -/
theorem C64_exact_partial {w0 w : World} (h0 : Fresh w0) (h : Reach (fun r o => o = .dropped ∨ (o = .refused ∧ ∀ l, r ≠ .lock l)) w0 w) (k : Nat) :
    (w k).held = required (w k).level := by
  induction h generalizing k with
  | start => rw [(h0 k).1, (h0 k).2]; rfl
  | @step w w' _ hs ih =>
    cases hs with
    | @mk h r o hb hg =>
      simp only [World.set]
      split
      · cases o with
        | ok => exact exact_run (ih h)
        | refused =>
          cases r with
          | lock l => exact exact_run_lock (by simp) (ih h)
          | unlockShared => exact absurd (hb (.inr ⟨rfl, by simp⟩)) (by simp)
          | unlockNone => exact absurd (hb (.inr ⟨rfl, by simp⟩)) (by simp)
        | dropped => exact absurd (hb (.inl rfl)) (by simp)
      · exact ih k

theorem enough_run {r : Req} {o : Outcome} (ho : o ≠ .dropped) {f : File} (h : (required f.level).rank ≤ f.held.rank) :
    (required (r.run o f).1.level).rank ≤ (r.run o f).1.held.rank := by
  have key : ∀ l : Level, (l = .none ∨ l = .shared) → (required (unlock l o f).1.level).rank ≤ (unlock l o f).1.held.rank := by
    intro l hl
    unfold unlock
    split
    · exact h
    · rename_i hlt
      cases o with
      | ok => rcases hl with rfl | rfl <;> exact Nat.le_refl _
      | dropped => exact absurd rfl ho
      | refused =>
        show (required l).rank ≤ f.held.rank
        refine Nat.le_trans ?_ h
        rw [rank_required, rank_required]
        omega
  cases r with
  | unlockShared => exact key _ (.inr rfl)
  | unlockNone => exact key _ (.inl rfl)
  | lock l =>
    show (required (lock l o f).1.level).rank ≤ (lock l o f).1.held.rank
    unfold lock
    split
    · exact h
    · rename_i hl
      split
      · exact h
      · split
        · rw [wanted_required hl]; exact Nat.le_refl _
        · cases o with
          | ok => rename_i hn; exact absurd rfl hn
          | refused => exact h
          | dropped => exact absurd rfl ho

/-- **C64** (2). Whatever fails, as long as a refused request does not take the held lock away, no handle ever holds less than its level
requires.
Missing from C64: dropped conversions. -/
theorem C64_never_less_partial {w0 w : World} (h0 : Fresh w0) (h : Reach (fun _ o => o = .dropped) w0 w) (k : Nat) :
    (required (w k).level).rank ≤ (w k).held.rank := by
  induction h generalizing k with
  | start => rw [(h0 k).1, (h0 k).2]; exact Nat.le_refl _
  | @step w w' _ hs ih =>
    cases hs with
    | @mk h r o hb hg =>
      simp only [World.set]
      split
      · exact enough_run hb (ih h)
      · exact ih k

/-- The operating system's side: an exclusive lock is held alone. -/
def OsExcl (w : World) : Prop := ∀ i j, i ≠ j → (w i).held = .exclusive → (w j).held = .none

theorem os_step {bad : Req → Outcome → Prop} {w w' : World} (h : OsExcl w) (hs : Step bad w w') : OsExcl w' := by
  cases hs with
  | @mk h' r o hb hg =>
    intro i j hij
    simp only [World.set]
    by_cases hc : (Req.run r o (w h')).1.held = (w h').held
    · by_cases hi : i = h'
      · subst hi
        rw [if_pos rfl, if_neg (fun e => hij e.symm), hc]
        exact h i j hij
      · rw [if_neg hi]
        by_cases hj : j = h'
        · subst hj
          rw [if_pos rfl, hc]; exact h i j hij
        · rw [if_neg hj]; exact h i j hij
    · have hgr := hg hc
      by_cases hi : i = h'
      · subst hi
        rw [if_pos rfl, if_neg (fun e => hij e.symm)]
        intro he
        exact (hgr j (fun e => hij e.symm)).1 he
      · rw [if_neg hi]
        by_cases hj : j = h'
        · subst hj
          rw [if_pos rfl]
          intro he
          cases hx : (Req.run r o (w j)).1.held with
          | none => rfl
          | shared => exact absurd he ((hgr i hi).2 hx)
          | exclusive =>
            have := (hgr i hi).1 hx
            rw [he] at this; cases this
        · rw [if_neg hj]; exact h i j hij

/-- **C64** (3). Exclusion between handles: while one handle's level is RESERVED or above, every other handle is at level NONE — with any
number of handles and requests, and with any request failing (as long as a refused request does not take the held lock away).
Missing from C64: dropped conversions. -/
theorem C64_exclusion_partial {w0 w : World} (h0 : Fresh w0) (h : Reach (fun _ o => o = .dropped) w0 w) {i j : Nat} (hij : i ≠ j)
    (hi : checkReserved (w i) = true) : (w j).level = .none := by
  have hos : OsExcl w := by
    clear hi
    induction h with
    | start => intro i j _ he; rw [(h0 i).2] at he; cases he
    | step _ hs ih => exact os_step ih hs
  have h1 := C64_never_less_partial h0 h i
  have h2 := C64_never_less_partial h0 h j
  rw [rank_required] at h1 h2
  have hi' : 2 ≤ (w i).level.rank := by simpa [checkReserved, Level.rank] using hi
  have he : (w i).held = .exclusive := by
    cases hx : (w i).held with
    | none => rw [hx] at h1; simp only [Held.rank] at h1; omega
    | shared => rw [hx] at h1; simp only [Held.rank] at h1; omega
    | exclusive => rfl
  have hj := hos i j hij he
  rw [hj] at h2
  cases hl : (w j).level with
  | none => rfl
  | _ => rw [hl] at h2; simp [Held.rank, Level.rank] at h2

/-- A failed request to lock changes neither level nor lock, and says so.
Missing from C64: dropped conversions. -/
theorem C64_failed_lock_keeps_partial {l : Level} {o : Outcome} {f : File} (ho : o ≠ .dropped) (h : (lock l o f).2 = false) : (lock l o f).1 = f := by
  unfold lock at h ⊢
  split
  · rfl
  · split
    · rfl
    · split
      · rename_i h1 h2 h3
        rw [if_neg h1, if_neg h2, if_pos h3] at h; cases h
      · cases o with
        | ok => rename_i hn; exact absurd rfl hn
        | refused => rfl
        | dropped => exact absurd rfl ho

/-- A handle opened read-only never gets to write. -/
theorem C64_readonly {l : Level} {o : Outcome} {f : File} (hr : f.readOnly = true) (hl : f.level.rank < Level.reserved.rank) :
    checkReserved (lock l o f).1 = false := by
  unfold lock
  split
  · simp [checkReserved]; omega
  · split
    · simp [checkReserved]; omega
    · rename_i h1 h2
      split
      · simp only [checkReserved]
        have : ¬ l.rank ≥ Level.reserved.rank := fun h => h2 ⟨h, hr⟩
        simpa using this
      · simp [checkReserved]; omega

/-- "A failed request leaves level and lock consistent" is not what the code does for a failed unlock: the level goes down although the lock is
still held. -/
theorem C64_counterexample_failed_unlock :
    (unlock .none .refused ⟨false, .exclusive, .exclusive⟩) = (⟨false, .none, .exclusive⟩, false) := by decide

/-- On a backend whose conversion drops the lock before taking the new one (Windows), a failed upgrade leaves level SHARED with no lock. -/
theorem C64_counterexample_dropped_upgrade :
    (lock .exclusive .dropped ⟨false, .shared, .shared⟩) = (⟨false, .shared, .none⟩, false) := by decide

-- A reachable run of two handles: both share, one unlocks, the other gets RESERVED.
def fresh2 : World := fun _ => ⟨false, .none, .none⟩
example : Fresh fresh2 := fun _ => ⟨rfl, rfl⟩
example : ∃ w, Reach (fun _ o => o = .dropped) fresh2 w ∧ checkReserved (w 0) = true ∧ (w 0).held = .exclusive := by
  have s1 : Step (fun _ o => o = .dropped) fresh2 (fresh2.set 1 (Req.run (.lock .shared) .ok (fresh2 1)).1) :=
    .mk (by simp) (by
      intro _ k _
      exact ⟨fun h => absurd h (by decide), fun _ => (by show Held.none ≠ .exclusive; decide)⟩)
  have s2 := Step.mk (bad := fun _ o => o = Outcome.dropped) (w := fresh2.set 1 (Req.run (.lock .shared) .ok (fresh2 1)).1)
    (h := 1) (r := .unlockNone) (o := .ok) (by simp) (by
      intro _ k _
      exact ⟨fun h => absurd h (by decide), fun h => absurd h (by decide)⟩)
  refine ⟨_, .step (.step (.step .start s1) s2) (.mk (h := 0) (r := .lock .reserved) (o := .ok) (by simp) ?_), by decide, by decide⟩
  intro _ k hk
  refine ⟨fun _ => ?_, fun h => absurd h (by decide)⟩
  by_cases h1 : k = 1
  · subst h1; decide
  · simp [World.set, h1, fresh2]

end Verif.Overlay.Lock
