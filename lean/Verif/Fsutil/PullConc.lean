import Verif.Common.Bytes
/-!
C123: Pulls of one name that run at the same time. Code: /repo/fsutil/resumable.go 268-446 `Pull`; the part file is called `name + suffix`, the
same for every Pull of `name`, and is opened with `O_RDWR|O_CREATE`, with `O_TRUNC` as well if the Pull starts at 0.

Files are kept apart from their names here, because an open handle stays with its file when the file is renamed. Every step of a process is one
call of the filesystem. Simplifications: the source does not change, tells its size and has no ETag (so that no sidecar is written and every part
that is not too long is trusted, 341-343); no hooks; the removal of a part that is too long is one step with the `Stat` before it. How one Pull
behaves alone, with ETags, hooks and failing calls, is C25 and those after it (PullModel.lean).
-/
namespace Verif.Fsutil.PullConc

/-- The filesystem: the bytes of every file, the file called `name`, the file called `name + suffix`, and the next file to be made. -/
structure Fs where
  data : Nat → Bytes
  name : Option Nat
  part : Option Nat
  next : Nat

/-- Where a Pull is. -/
inductive Proc where
  /-- before line 281 `fsys.Stat(name)` -/
  | start
  /-- `name` was not there -/
  | checked
  /-- line 328: the source is open at `off` -/
  | sized (off : Nat)
  /-- the copy loop: the handle is on the file `ino`, the next byte goes to `pos` -/
  | copying (ino pos : Nat)
  /-- line 437: everything is copied, before the `Rename` -/
  | closed (ino : Nat)
  /-- returned nil -/
  | ok
  /-- returned an error, or died -/
  | failed
deriving DecidableEq

structure State where
  fs : Fs
  proc : Nat → Proc

def setAt {α} (f : Nat → α) (i : Nat) (x : α) : Nat → α := fun j => if j = i then x else f j

/-- A write of `b` at `pos`: a gap reads as zeros. -/
def writeAt (d : Bytes) (pos : Nat) (b : Bytes) : Bytes :=
  d.take pos ++ List.replicate (pos - d.length) 0 ++ b ++ d.drop (pos + b.length)

/-- What the environment has a process do: its next call, moving at most `n` bytes more than one, or end with an error (or die). -/
inductive Do where
  | go (n : Nat)
  | fail

/-- 281-288: the file called `name` decides at once. -/
def stat (c : Bytes) (f : Fs) : Proc :=
  match f.name with
  | none => .checked
  | some k => if (f.data k).length = c.length then .ok else .failed

/-- 296-328: the size of the part file is where the source is opened; a part that is too long is removed. -/
def resume (c : Bytes) (f : Fs) : Fs × Proc :=
  match f.part with
  | none => (f, .sized 0)
  | some i => if c.length < (f.data i).length then ({ f with part := none }, .sized 0) else (f, .sized (f.data i).length)

/-- 382-389 and 399-404: the part file is opened, made if it is not there, cut to nothing if the Pull starts at 0. -/
def openPart (f : Fs) (off : Nat) : Fs × Proc :=
  match f.part with
  | none => ({ f with data := setAt f.data f.next [], part := some f.next, next := f.next + 1 }, .copying f.next off)
  | some i => (if off = 0 then { f with data := setAt f.data i [] } else f, .copying i off)

/-- 407-422: one round of the copy loop; at the end of the source the sizes agree and the file is closed. -/
def copy (c : Bytes) (f : Fs) (ino pos n : Nat) : Fs × Proc :=
  if pos < c.length then
    let b := (c.drop pos).take (n + 1)
    ({ f with data := setAt f.data ino (writeAt (f.data ino) pos b) }, .copying ino (pos + b.length))
  else if pos = c.length then (f, .closed ino) else (f, .failed)

/-- 440-442: `Rename(partPath, name)`. -/
def commit (f : Fs) : Fs × Proc :=
  match f.part with
  | none => (f, .failed)
  | some i => ({ f with name := some i, part := none }, .ok)

/-- The next call of a process. -/
def next (c : Bytes) (f : Fs) : Proc → Nat → Fs × Proc
  | .start, _ => (f, stat c f)
  | .checked, _ => resume c f
  | .sized off, _ => openPart f off
  | .copying ino pos, n => copy c f ino pos n
  | .closed _, _ => commit f
  | .ok, _ => (f, .ok)
  | .failed, _ => (f, .failed)

/-- One step of process `p`. -/
def step (c : Bytes) (s : State) : Nat × Do → State
  | (p, .go n) => ⟨(next c s.fs (s.proc p) n).1, setAt s.proc p (next c s.fs (s.proc p) n).2⟩
  | (p, .fail) => match s.proc p with
    | .ok => s
    | _ => ⟨s.fs, setAt s.proc p .failed⟩

/-- Schedules. -/
def run (c : Bytes) (s : State) : List (Nat × Do) → State
  | [] => s
  | a :: as => run c (step c s a) as

/-! ### Specification -/

/-- The file called `name`, if there is one, has the content of the source. -/
def Good (c : Bytes) (s : State) : Prop := ∀ k, s.fs.name = some k → s.fs.data k = c

/-- The process has the part file open. -/
def Proc.Active : Proc → Prop
  | .copying _ _ => True
  | .closed _ => True
  | _ => False

/-- Nothing has come between asking for the size of the part file and opening it: if the Pull goes on with a part, the part is still there
and no shorter; if it starts anew, no other Pull has the part open. -/
def Calm (s : State) (a : Nat × Do) : Prop :=
  match s.proc a.1, a.2 with
  | .sized off, .go _ => (0 < off ∧ ∃ i, s.fs.part = some i ∧ off ≤ (s.fs.data i).length) ∨ (off = 0 ∧ ∀ q, q ≠ a.1 → ¬(s.proc q).Active)
  | _, _ => True

/-- Every step of a schedule is calm. -/
def AllCalm (c : Bytes) (s : State) : List (Nat × Do) → Prop
  | [] => True
  | a :: as => Calm s a ∧ AllCalm c (step c s a) as

/-- Before the first step: the destination is not there or complete, the part file is not there or holds a beginning of the content, as an
interrupted Pull leaves it. -/
structure Init (c : Bytes) (s : State) : Prop where
  procs : ∀ p, s.proc p = .start
  good : Good c s
  part : ∀ i, s.fs.part = some i → s.fs.data i <+: c
  fresh : (∀ k, s.fs.name = some k → k < s.fs.next) ∧ (∀ i, s.fs.part = some i → i < s.fs.next)
  apart : ∀ k, s.fs.name = some k → s.fs.part ≠ some k

/-! ### Invariant -/

/-- The file `j` an active Pull writes to is the part file, or, if there is no part file any more, the destination. -/
def Own (f : Fs) (j : Nat) : Prop := f.part = some j ∨ (f.part = none ∧ f.name = some j)

structure Inv (c : Bytes) (s : State) : Prop where
  good : Good c s
  part : ∀ i, s.fs.part = some i → s.fs.data i <+: c
  fresh : (∀ k, s.fs.name = some k → k < s.fs.next) ∧ (∀ i, s.fs.part = some i → i < s.fs.next)
  apart : ∀ k, s.fs.name = some k → s.fs.part ≠ some k
  copying : ∀ p j pos, s.proc p = .copying j pos → Own s.fs j ∧ pos ≤ (s.fs.data j).length
  closed : ∀ p j, s.proc p = .closed j → Own s.fs j ∧ s.fs.data j = c
  done : ∀ p, s.proc p = .ok → s.fs.name ≠ none

theorem own_prefix {c : Bytes} {s : State} (h : Inv c s) {j : Nat} (ho : Own s.fs j) : s.fs.data j <+: c := by
  rcases ho with ho | ⟨_, ho⟩
  · exact h.part j ho
  · rw [h.good j ho]; exact List.prefix_refl _

theorem writeAt_prefix {c d : Bytes} (hd : d <+: c) {pos n : Nat} (hp : pos ≤ d.length) :
    writeAt d pos ((c.drop pos).take n) <+: c ∧ d.length ≤ (writeAt d pos ((c.drop pos).take n)).length ∧
    pos + ((c.drop pos).take n).length ≤ (writeAt d pos ((c.drop pos).take n)).length := by
  obtain ⟨t, ht⟩ := hd
  have hl : d.length ≤ c.length := by rw [← ht]; simp
  have e1 : d.take pos = c.take pos := by rw [← ht, List.take_append_of_le_length hp]
  have e0 : pos - d.length = 0 := by omega
  unfold writeAt
  rw [e0, e1]
  simp only [List.replicate_zero, List.append_nil]
  have e2 : c.take pos ++ (c.drop pos).take n = c.take (pos + n) := by rw [List.take_add]
  rw [e2]
  have hlen : ((c.drop pos).take n).length = min n (c.length - pos) := by simp
  rw [hlen]
  by_cases hn : n ≤ c.length - pos
  · rw [Nat.min_eq_left hn]
    refine ⟨?_, ?_, ?_⟩
    · by_cases hdn : pos + n ≤ d.length
      · have : c.take (pos + n) = d.take (pos + n) := by rw [← ht, List.take_append_of_le_length hdn]
        rw [this, List.take_append_drop]
        exact ⟨t, ht⟩
      · rw [List.drop_eq_nil_of_le (by omega), List.append_nil]
        exact List.take_prefix ..
    · simp; omega
    · simp; omega
  · rw [Nat.min_eq_right (by omega), List.take_of_length_le (by omega), List.drop_eq_nil_of_le (by omega), List.append_nil]
    exact ⟨List.prefix_refl _, hl, by omega⟩

/-- A process of which nothing is asked takes the place of another. -/
theorem inv_proc {c : Bytes} {s : State} (h : Inv c s) (p : Nat) (x : Proc) (hx : ¬x.Active) (hok : x = .ok → s.fs.name ≠ none) :
    Inv c ⟨s.fs, setAt s.proc p x⟩ := by
  refine ⟨h.good, h.part, h.fresh, h.apart, fun q j pos hq => ?_, fun q j hq => ?_, fun q hq => ?_⟩
  · simp only [setAt] at hq
    split at hq
    · subst hq; exact absurd trivial hx
    · exact h.copying q j pos hq
  · simp only [setAt] at hq
    split at hq
    · subst hq; exact absurd trivial hx
    · exact h.closed q j hq
  · simp only [setAt] at hq
    split at hq
    · exact hok hq
    · exact h.done q hq

theorem step_open {c : Bytes} {s : State} (h : Inv c s) {p off n : Nat} (hp : s.proc p = .sized off) (hc : Calm s (p, .go n)) :
    Inv c ⟨(openPart s.fs off).1, setAt s.proc p (openPart s.fs off).2⟩ := by
  simp only [Calm, hp] at hc
  unfold openPart
  cases hpart : s.fs.part with
  | some i =>
    simp only
    rcases hc with ⟨h0, i', hi', hle⟩ | ⟨h0, hno⟩
    · rw [hpart] at hi'
      injection hi' with hi'
      subst hi'
      rw [if_neg (by omega)]
      refine ⟨h.good, h.part, h.fresh, h.apart, fun q j pos hq => ?_, fun q j hq => ?_, fun q hq => ?_⟩
      · simp only [setAt] at hq
        split at hq
        · injection hq with e1 e2
          subst e1; subst e2
          exact ⟨.inl hpart, hle⟩
        · exact h.copying q j pos hq
      · simp only [setAt] at hq
        split at hq
        · cases hq
        · exact h.closed q j hq
      · simp only [setAt] at hq
        split at hq
        · cases hq
        · exact h.done q hq
    · rw [if_pos h0]
      refine ⟨fun k hk => ?_, fun j hj => ?_, by rw [← hpart]; exact h.fresh, by rw [← hpart]; exact h.apart, fun q j pos hq => ?_, fun q j hq => ?_, fun q hq => ?_⟩
      · have : k ≠ i := fun e => h.apart k hk (by rw [e]; exact hpart)
        simp only [setAt, if_neg this]
        exact h.good k hk
      · have : j = i := by
          simp only at hj
          injection hj with hj; exact hj.symm
        subst this
        simp only [setAt, if_true]
        exact List.nil_prefix
      · simp only [setAt] at hq
        split at hq
        · injection hq with e1 e2
          subst e1; subst e2
          exact ⟨.inl rfl, by omega⟩
        next hne => exact absurd (by rw [hq]; trivial) (hno q hne)
      · simp only [setAt] at hq
        split at hq
        · cases hq
        next hne => exact absurd (by rw [hq]; trivial) (hno q hne)
      · simp only [setAt] at hq
        split at hq
        · cases hq
        · exact h.done q hq
  | none =>
    simp only
    rcases hc with ⟨_, i', hi', _⟩ | ⟨h0, hno⟩
    · rw [hpart] at hi'; cases hi'
    · refine ⟨fun k hk => ?_, fun j hj => ?_, ⟨fun k hk => ?_, fun j hj => ?_⟩, fun k hk e => ?_, fun q j pos hq => ?_, fun q j hq => ?_, fun q hq => ?_⟩
      · have : k ≠ s.fs.next := by have := h.fresh.1 k hk; omega
        simp only [setAt, if_neg this]
        exact h.good k hk
      · simp only [Option.some.injEq] at hj
        subst hj
        simp only [setAt, if_true]
        exact List.nil_prefix
      · have := h.fresh.1 k hk
        simp only; omega
      · simp only [Option.some.injEq] at hj
        simp only; omega
      · simp only [Option.some.injEq] at e
        have := h.fresh.1 k hk
        omega
      · simp only [setAt] at hq
        split at hq
        · injection hq with e1 e2
          subst e1; subst e2
          exact ⟨.inl rfl, by omega⟩
        next hne => exact absurd (by rw [hq]; trivial) (hno q hne)
      · simp only [setAt] at hq
        split at hq
        · cases hq
        next hne => exact absurd (by rw [hq]; trivial) (hno q hne)
      · simp only [setAt] at hq
        split at hq
        · cases hq
        · exact h.done q hq

theorem step_copy {c : Bytes} {s : State} (h : Inv c s) {p j pos : Nat} (hp : s.proc p = .copying j pos) (n : Nat) :
    Inv c ⟨(copy c s.fs j pos n).1, setAt s.proc p (copy c s.fs j pos n).2⟩ := by
  obtain ⟨ho, hpos⟩ := h.copying p j pos hp
  have hpre := own_prefix h ho
  unfold copy
  split
  · obtain ⟨w1, w2, w3⟩ := writeAt_prefix hpre hpos (n := n + 1)
    simp only
    generalize hw : writeAt (s.fs.data j) pos ((c.drop pos).take (n + 1)) = w at w1 w2 w3
    have hfull : s.fs.data j = c → w = c := fun e => by
      rw [e] at w2
      exact w1.eq_of_length_le w2
    refine ⟨fun k hk => ?_, fun i hi => ?_, h.fresh, h.apart, fun q j' pos' hq => ?_, fun q j' hq => ?_, fun q hq => ?_⟩
    · simp only [setAt]
      split
      next e => exact hfull (by rw [← e]; exact h.good k hk)
      · exact h.good k hk
    · simp only [setAt]
      split
      · exact w1
      · exact h.part i hi
    · simp only [setAt] at hq ⊢
      split at hq
      · injection hq with e1 e2
        subst e1; subst e2
        exact ⟨ho, by simp only [if_true]; exact w3⟩
      · obtain ⟨a, b⟩ := h.copying q j' pos' hq
        refine ⟨a, ?_⟩
        split
        next e => rw [e] at b; omega
        · exact b
    · simp only [setAt] at hq ⊢
      split at hq
      · cases hq
      · obtain ⟨a, b⟩ := h.closed q j' hq
        refine ⟨a, ?_⟩
        split
        next e => exact hfull (by rw [← e]; exact b)
        · exact b
    · simp only [setAt] at hq
      split at hq
      · cases hq
      · exact h.done q hq
  · split
    next e =>
      have hfull : s.fs.data j = c := hpre.eq_of_length_le (by omega)
      refine ⟨h.good, h.part, h.fresh, h.apart, fun q j' pos' hq => ?_, fun q j' hq => ?_, fun q hq => ?_⟩
      · simp only [setAt] at hq
        split at hq
        · cases hq
        · exact h.copying q j' pos' hq
      · simp only [setAt] at hq
        split at hq
        · injection hq with e1
          subst e1
          exact ⟨ho, hfull⟩
        · exact h.closed q j' hq
      · simp only [setAt] at hq
        split at hq
        · cases hq
        · exact h.done q hq
    · exact inv_proc h p .failed (fun h => h) (fun e => by cases e)

theorem step_commit {c : Bytes} {s : State} (h : Inv c s) {p j : Nat} (hp : s.proc p = .closed j) :
    Inv c ⟨(commit s.fs).1, setAt s.proc p (commit s.fs).2⟩ := by
  obtain ⟨ho, hj⟩ := h.closed p j hp
  unfold commit
  cases hpart : s.fs.part with
  | none => exact inv_proc h p .failed (fun h => h) (fun e => by cases e)
  | some i =>
    have hij : j = i := by
      rcases ho with ho | ⟨ho, _⟩
      · rw [hpart] at ho; injection ho with ho; exact ho.symm
      · rw [hpart] at ho; cases ho
    subst hij
    have hown : ∀ j', Own s.fs j' → j' = j := fun j' ho' => by
      rcases ho' with ho' | ⟨ho', _⟩
      · rw [hpart] at ho'; injection ho' with ho'; exact ho'.symm
      · rw [hpart] at ho'; cases ho'
    simp only
    refine ⟨fun k hk => ?_, (fun i hi => by cases hi), ⟨fun k hk => ?_, fun i hi => by cases hi⟩, (fun k _ hk => by cases hk), fun q j' pos' hq => ?_,
      fun q j' hq => ?_, (fun q hq e => by cases e)⟩
    · injection hk with hk
      subst hk
      exact hj
    · injection hk with hk
      subst hk
      exact h.fresh.2 _ hpart
    · simp only [setAt] at hq
      split at hq
      · cases hq
      · obtain ⟨a, b⟩ := h.copying q j' pos' hq
        have := hown j' a
        subst this
        exact ⟨.inr ⟨rfl, rfl⟩, b⟩
    · simp only [setAt] at hq
      split at hq
      · cases hq
      · obtain ⟨a, b⟩ := h.closed q j' hq
        have := hown j' a
        subst this
        exact ⟨.inr ⟨rfl, rfl⟩, b⟩

theorem step_inv {c : Bytes} {s : State} (h : Inv c s) (a : Nat × Do) (hc : Calm s a) : Inv c (step c s a) := by
  obtain ⟨p, d⟩ := a
  cases d with
  | fail =>
    simp only [step]
    split
    · exact h
    · exact inv_proc h p .failed (fun h => h) (fun e => by cases e)
  | go n =>
    simp only [step]
    cases hp : s.proc p with
    | start =>
      simp only [next, stat]
      cases hn : s.fs.name with
      | none => exact inv_proc h p .checked (fun h => h) (fun e => by cases e)
      | some k =>
        simp only
        split
        · exact inv_proc h p .ok (fun h => h) (fun _ => by rw [hn]; exact fun e => by cases e)
        · exact inv_proc h p .failed (fun h => h) (fun e => by cases e)
    | checked =>
      simp only [next, resume]
      cases hi : s.fs.part with
      | none => exact inv_proc h p (.sized 0) (fun h => h) (fun e => by cases e)
      | some i =>
        simp only
        rw [if_neg (by have := (h.part i hi).length_le; omega)]
        exact inv_proc h p (.sized _) (fun h => h) (fun e => by cases e)
    | sized off => exact step_open h hp hc
    | copying j pos => exact step_copy h hp n
    | closed j => exact step_commit h hp
    | ok => exact inv_proc h p .ok (fun h => h) (fun _ => h.done p hp)
    | failed => exact inv_proc h p .failed (fun h => h) (fun e => by cases e)

theorem init_inv {c : Bytes} {s : State} (h : Init c s) : Inv c s :=
  ⟨h.good, h.part, h.fresh, h.apart, (fun p j pos e => by rw [h.procs p] at e; cases e), (fun p j e => by rw [h.procs p] at e; cases e),
    fun p e => by rw [h.procs p] at e; cases e⟩

theorem run_inv {c : Bytes} : ∀ as {s : State}, Inv c s → AllCalm c s as → Inv c (run c s as)
  | [], _, h, _ => h
  | a :: as, _, h, hc => run_inv as (step_inv h a hc.1) hc.2

/-! ### The property -/

/-- **C123** (part). Any number of Pulls of one name run at the same time, in any order, failing or dying anywhere: if nothing comes between
asking for the size of the part file and opening it, and none starts anew while another has the part file open, then at every moment the
destination, if it is there, holds exactly the content of the source; it is there once a Pull has returned nil; and the part file holds a
beginning of the content, from which a later Pull can go on. Missing: Pulls that overlap in those moments, for which it is false, see below. -/
theorem C123_together_partial (c : Bytes) (s : State) (h : Init c s) (as : List (Nat × Do)) (hc : AllCalm c s as) :
    Good c (run c s as) ∧ (∀ p, (run c s as).proc p = .ok → ∃ k, (run c s as).fs.name = some k ∧ (run c s as).fs.data k = c) ∧
    (∀ i, (run c s as).fs.part = some i → (run c s as).fs.data i <+: c) := by
  have hi := run_inv as (init_inv h) hc
  refine ⟨hi.good, fun p hp => ?_, hi.part⟩
  have := hi.done p hp
  cases hn : (run c s as).fs.name with
  | none => exact absurd hn this
  | some k => exact ⟨k, rfl, hi.good k hn⟩

theorem ends_closed {c : Bytes} {t : State} (h : Inv c t) {p j : Nat} (hp : t.proc p = .closed j) (n : Nat) :
    ((t.fs.part = some j ∧ (step c t (p, .go n)).proc p = .ok) ∨ (t.fs.part ≠ some j ∧ (step c t (p, .go n)).proc p = .failed)) ∧
    ∃ k, (step c t (p, .go n)).fs.name = some k ∧ (step c t (p, .go n)).fs.data k = c := by
  obtain ⟨ho, hj⟩ := h.closed p j hp
  rcases ho with ho | ⟨ho, hn⟩
  · refine ⟨.inl ⟨ho, ?_⟩, j, ?_⟩
    · simp only [step, hp, next, commit, ho, setAt, if_true]
    · simp only [step, hp, next, commit, ho]
      exact ⟨trivial, hj⟩
  · refine ⟨.inr ⟨(by rw [ho]; simp), ?_⟩, j, ?_⟩
    · simp only [step, hp, next, commit, ho, setAt, if_true]
    · simp only [step, hp, next, commit, ho]
      exact ⟨hn, hj⟩

theorem ends_copied {c : Bytes} {t : State} (h : Inv c t) {p j pos : Nat} (hp : t.proc p = .copying j pos) (hpos : pos = c.length) :
    ((t.fs.part = some j ∧ (run c t [(p, .go 0), (p, .go 0)]).proc p = .ok) ∨
      (t.fs.part ≠ some j ∧ (run c t [(p, .go 0), (p, .go 0)]).proc p = .failed)) ∧
    ∃ k, (run c t [(p, .go 0), (p, .go 0)]).fs.name = some k ∧ (run c t [(p, .go 0), (p, .go 0)]).fs.data k = c := by
  have hi := step_inv h (p, .go 0) (by simp only [Calm, hp])
  have e1 : (step c t (p, .go 0)).proc p = .closed j := by
    simp only [step, hp, next, copy, hpos, Nat.lt_irrefl, if_false, if_true, setAt]
  have e2 : (step c t (p, .go 0)).fs = t.fs := by
    simp only [step, hp, next, copy, hpos, Nat.lt_irrefl, if_false, if_true]
  have := ends_closed hi e1 0
  rw [e2] at this
  exact this

/-- The bytes a Pull writes end where the content ends. -/
theorem ends_copying {c : Bytes} {t : State} (h : Inv c t) {p j pos : Nat} (hp : t.proc p = .copying j pos) :
    ∃ bs : List (Nat × Do), (∀ b ∈ bs, ∃ n, b = (p, .go n)) ∧
      ((t.fs.part = some j ∧ (run c t bs).proc p = .ok) ∨ (t.fs.part ≠ some j ∧ (run c t bs).proc p = .failed)) ∧
      ∃ k, (run c t bs).fs.name = some k ∧ (run c t bs).fs.data k = c := by
  have hle : pos ≤ c.length := by
    obtain ⟨ho, h1⟩ := h.copying p j pos hp
    have := (own_prefix h ho).length_le
    omega
  by_cases hlt : pos < c.length
  · have hi := step_inv h (p, .go c.length) (by simp only [Calm, hp])
    have e1 : (step c t (p, .go c.length)).proc p = .copying j (pos + ((c.drop pos).take (c.length + 1)).length) := by
      simp only [step, hp, next, copy, hlt, if_true, setAt]
    have e2 : (step c t (p, .go c.length)).fs.part = t.fs.part := by
      simp only [step, hp, next, copy, hlt, if_true]
    refine ⟨[(p, .go c.length), (p, .go 0), (p, .go 0)], fun b hb => ?_, ?_⟩
    · simp at hb
      rcases hb with hb | hb <;> exact ⟨_, hb⟩
    · have := ends_copied hi e1 (by simp; omega)
      rw [e2] at this
      exact this
  · refine ⟨[(p, .go 0), (p, .go 0)], fun b hb => ?_, ends_copied h hp (by omega)⟩
    simp at hb
    exact ⟨_, hb⟩

/-- **C123** (a Pull succeeds beside others). In every state such Pulls can reach, one that has the part file open and is let run without a
failure returns nil, if no other has committed the file since; if another has, its `Rename` fails; the destination is complete in either case. -/
theorem C123_succeeds (c : Bytes) (s : State) (h : Init c s) (as : List (Nat × Do)) (hc : AllCalm c s as) (p j pos : Nat)
    (hp : (run c s as).proc p = .copying j pos) :
    ∃ bs : List (Nat × Do), (∀ b ∈ bs, ∃ n, b = (p, .go n)) ∧
      (((run c s as).fs.part = some j ∧ (run c (run c s as) bs).proc p = .ok) ∨
        ((run c s as).fs.part ≠ some j ∧ (run c (run c s as) bs).proc p = .failed)) ∧
      ∃ k, (run c (run c s as) bs).fs.name = some k ∧ (run c (run c s as) bs).fs.data k = c :=
  ends_copying (run_inv as (init_inv h) hc) hp

/-- Nothing is there, nobody has begun. -/
def empty : State := ⟨⟨fun _ => [], none, none, 0⟩, fun _ => .start⟩

theorem empty_init (c : Bytes) : Init c empty :=
  ⟨fun _ => rfl, (fun k h => by cases h), (fun i h => by cases h), ⟨(fun k h => by cases h), (fun i h => by cases h)⟩, fun k h => by cases h⟩

/-- Two Pulls; the second asks for the size of the part file while the first copies, and opens it after the first has committed. -/
def late : List (Nat × Do) :=
  [(0, .go 0), (0, .go 0), (0, .go 0), (0, .go 0), (1, .go 0), (1, .go 0), (0, .go 0), (0, .go 0), (0, .go 0),
    (1, .go 0), (1, .go 0), (1, .go 0), (1, .go 0)]

/-- The full property is false. Two Pulls into an empty place, nothing fails, both return nil, and the destination is left for good with zeros
where the second Pull believed the bytes to be there already: the second replaced the complete file of the first. -/
theorem C123_counterexample_zeros :
    ∃ (c : Bytes) (as : List (Nat × Do)), (∀ a ∈ as, ∃ n, a.2 = .go n) ∧ (run c empty (as.take 9)).proc 0 = .ok ∧
      (run c empty (as.take 9)).fs.name.map (run c empty (as.take 9)).fs.data = some c ∧
      (run c empty as).proc 0 = .ok ∧ (run c empty as).proc 1 = .ok ∧
      (run c empty as).fs.name.map (run c empty as).fs.data = some [0, 2] ∧ c = [1, 2] := by
  refine ⟨[1, 2], late, ?_, ?_⟩
  · intro a ha
    simp only [late, List.mem_cons, List.not_mem_nil, or_false] at ha
    rcases ha with h | h | h | h | h | h | h | h | h | h | h | h | h <;> exact ⟨0, by rw [h]⟩
  · decide

/-- Two Pulls find no part file; the second opens it, and cuts it, when the first has just copied everything. -/
def cut : List (Nat × Do) :=
  [(0, .go 0), (1, .go 0), (0, .go 0), (1, .go 0), (0, .go 0), (0, .go 5), (0, .go 0), (1, .go 0), (0, .go 0), (1, .fail)]

/-- A Pull returns nil and the destination is empty: another one, starting anew, cut the part file just before it was renamed. If that one dies,
this is final, and every later Pull reports that the size is wrong. -/
theorem C123_counterexample_empty :
    ∃ (c : Bytes) (as : List (Nat × Do)), c ≠ [] ∧ (run c empty as).proc 0 = .ok ∧
      (run c empty as).fs.name.map (run c empty as).fs.data = some [] ∧ (run c empty (as ++ [(2, .go 0)])).proc 2 = .failed :=
  ⟨[1, 2], cut, by decide⟩

/-! ### Concrete cases -/

/-- An interrupted Pull left one byte of three. -/
def half : State := ⟨⟨setAt (fun _ => []) 0 [1], none, some 0, 1⟩, fun _ => .start⟩

example : Init [1, 2, 3] half :=
  ⟨fun _ => rfl, (fun k h => by cases h), (fun i h => by injection h with h; subst h; exact ⟨[2, 3], rfl⟩),
    ⟨(fun k h => by cases h), (fun i h => by injection h with h; subst h; decide)⟩, fun k h => by cases h⟩

/-- Two Pulls go on with the same part and write the same bytes; the first to end commits, the `Rename` of the second fails. -/
def both : List (Nat × Do) :=
  [(0, .go 0), (1, .go 0), (0, .go 0), (1, .go 0), (0, .go 0), (1, .go 0), (0, .go 0), (1, .go 1), (1, .go 0), (1, .go 0), (0, .go 0), (0, .go 0), (0, .go 0)]

example : AllCalm [1, 2, 3] half both := by
  refine ⟨trivial, trivial, trivial, trivial, .inl ⟨by decide, 0, rfl, by decide⟩, .inl ⟨by decide, 0, rfl, by decide⟩, trivial, trivial, trivial,
    trivial, trivial, trivial, trivial, trivial⟩

example : (run [1, 2, 3] half both).proc 1 = .ok ∧ (run [1, 2, 3] half both).proc 0 = .failed ∧
    (run [1, 2, 3] half both).fs.name.map (run [1, 2, 3] half both).fs.data = some [1, 2, 3] ∧
    (run [1, 2, 3] half (both.take 7)).proc 0 = .copying 0 2 := by decide

end Verif.Fsutil.PullConc
