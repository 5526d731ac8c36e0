import Verif.Locks.Model
import Verif.Afero.Concurrent
/-
The locks of aferofs (C106). Every directory has a lock of its own (aferofs/synth/dir.go 11 `dir.mu`). Most steps of a call take one lock and nothing else meanwhile. Two take the locks of entries
while holding that of the directory: `ListFileInfo` (dir.go 55-70) asks every entry for its metadata, `notifyClose` (dir.go 47-53) closes everything below. So the order of locks is that of the tree,
which calls change.

The calls are those of Verif/Afero/Concurrent.lean. Locks of files, of their views and of directory handles are taken last and held while nothing of the tree is locked, except that of a file's metadata
(file.go 112-120 `Stat`), which is the lock of an entry without entries here. Views' own `Close` and `Stat` wait for nothing of the tree.
-/
namespace Verif.AferoLocks
open Verif.Locks (Mode)
open Verif.Afero.Concurrent hiding step start

/-- A directory whose lock is held, how, and the entries not looked at yet. -/
structure Frame where
  dir : Id
  mode : Mode
  todo : List Id
  deriving DecidableEq, Repr

/-- A goroutine: what is left of its calls (Verif/Afero/Concurrent.lean), the locks it holds, the last one first, and whether it has announced that it waits to write. -/
structure T where
  prog : P
  made : Nat
  stack : List Frame
  pend : Bool

/-- The filesystem and its goroutines. -/
structure S where
  heap : Heap
  ts : List T

/-- The entries of a directory. -/
def kids (h : Heap) (d : Id) : List Id := (h d).map (·.2)

/-- The lock a goroutine needs for its next step. `lookup`, `Len`, `ListName`, `ListFileInfo` take `RLock` (dir.go 38, 56, 73, 162), `AddDirent`, `RemoveName`, `notifyClose` `Lock` (dir.go 48, 117,
129). Closing a file takes no lock of the tree (file.go 96). -/
def wanted : P → Option (Id × Mode)
  | .lookup d _ _ => some (d, .r)
  | .len d _ => some (d, .r)
  | .names d _ => some (d, .r)
  | .list d _ => some (d, .r)
  | .add d _ _ _ => some (d, .w)
  | .remove d _ _ => some (d, .w)
  | .close x _ => if x.isDir then some (x, .w) else none
  | .fresh _ _ => none
  | .done _ => none
  | .crash => none

/-- The same, in the middle of `notifyClose` (dir.go 50-52, dirent.go 184-191) or `ListFileInfo` (dir.go 60-67): the lock of the next entry. -/
def T.wants (t : T) : Option (Id × Mode) :=
  match t.stack with
  | [] => wanted t.prog
  | f :: _ => match f.todo with
    | [] => none
    | c :: _ => match f.mode with
      | .w => if c.isDir then some (c, .w) else none
      | .r => some (c, .r)

/-- `sync.RWMutex`, as in Verif/Locks/Model.lean: nobody holds the lock; nobody holds it for writing; nobody waits to write. -/
def free (s : S) (d : Id) : Bool := s.ts.all fun t => t.stack.all fun f => f.dir ≠ d
def noWriter (s : S) (d : Id) : Bool := s.ts.all fun t => t.stack.all fun f => ! (f.dir = d && f.mode = .w)
def noPending (s : S) (d : Id) : Bool := s.ts.all fun t => ! (t.pend && t.wants = some (d, .w))

/-- The step, once the lock is granted: a step of Verif/Afero/Concurrent.lean; or dir.go 47-53 `notifyClose` and 55-70 `ListFileInfo`, entry by entry, the lock of the directory being held meanwhile. -/
def go (i : Nat) (h : Heap) (t : T) : Heap × T :=
  match t.stack with
  | [] => match t.prog with
    | .list d k => (h, ⟨k ((h d).map (·.1)), t.made, [⟨d, .r, kids h d⟩], false⟩)
    | .close x k => (h, ⟨k, t.made, if x.isDir then [⟨x, .w, kids h x⟩] else [], false⟩)
    | p => ((Verif.Afero.Concurrent.step i h ⟨p, t.made⟩).1, ⟨(Verif.Afero.Concurrent.step i h ⟨p, t.made⟩).2.prog, (Verif.Afero.Concurrent.step i h ⟨p, t.made⟩).2.made, [], false⟩)
  | f :: rest => match f.todo with
    | [] => (h, ⟨t.prog, t.made, rest, false⟩)
    | c :: cs => match f.mode with
      | .w => (h, ⟨t.prog, t.made, if c.isDir then ⟨c, .w, kids h c⟩ :: ⟨f.dir, .w, cs⟩ :: rest else ⟨f.dir, .w, cs⟩ :: rest, false⟩)
      | .r => (h, ⟨t.prog, t.made, ⟨f.dir, .r, cs⟩ :: rest, false⟩)

/-- Whether goroutine `t` gets the lock it wants, as in Verif/Locks/Model.lean. -/
def granted (s : S) (t : T) (pass : Bool) : Bool :=
  match t.wants with
  | none => true
  | some (d, .w) => t.pend && free s d
  | some (d, .r) => noWriter s d && (pass || noPending s d)

/-- `Lock` announces itself before it waits. -/
def announces (t : T) : Bool :=
  match t.wants with
  | some (_, .w) => ! t.pend
  | _ => false

/-- Whether a goroutine is through. -/
def T.over (t : T) : Bool := t.stack.isEmpty && (match t.prog with | .done _ => true | .crash => true | _ => false)

/-- Goroutine `i` tries its next step. -/
def step (s : S) (i : Nat) (pass : Bool) : S :=
  match s.ts[i]? with
  | none => s
  | some t =>
    if t.over then s
    else if announces t then ⟨s.heap, s.ts.set i { t with pend := true }⟩
    else if granted s t pass then ⟨(go i s.heap t).1, s.ts.set i (go i s.heap t).2⟩
    else s

def run (f : Nat → Nat × Bool) (s : S) : Nat → S
  | 0 => s
  | n + 1 => step (run f s n) (f n).1 (f n).2

def start (h : Heap) (scripts : List (List Call)) : S := ⟨h, scripts.map fun cs => ⟨script cs [], 0, [], false⟩⟩

def finished (s : S) : Prop := ∀ t ∈ s.ts, t.over = true

/-- No directory lies within itself: there are heights. -/
def Falls (ht : Id → Nat) (h : Heap) : Prop := ∀ d e, e ∈ kids h d → ht e < ht d

/-! ## Invariant -/

/-- Each directory held lies in the one held before. -/
def Chained (h : Heap) : List Frame → Prop
  | [] => True
  | [_] => True
  | f :: g :: r => f.dir ∈ kids h g.dir ∧ Chained h (g :: r)

structure Ok (h : Heap) (t : T) : Prop where
  todo : ∀ f ∈ t.stack, ∀ c ∈ f.todo, c ∈ kids h f.dir
  chain : Chained h t.stack

def Inv (s : S) : Prop := ∀ t ∈ s.ts, Ok s.heap t

theorem chained_congr {h h' : Heap} {l : List Frame} (he : ∀ f ∈ l, kids h' f.dir = kids h f.dir) (hc : Chained h l) : Chained h' l := by
  induction l with
  | nil => trivial
  | cons f l ih =>
    cases l with
    | nil => trivial
    | cons g r => exact ⟨by rw [he g (by simp)]; exact hc.1, ih (fun x hx => he x (List.mem_cons_of_mem _ hx)) hc.2⟩

theorem ok_congr {h h' : Heap} {t : T} (he : ∀ f ∈ t.stack, kids h' f.dir = kids h f.dir) (ho : Ok h t) : Ok h' t :=
  ⟨fun f hf c hc => by rw [he f hf]; exact ho.todo f hf c hc, chained_congr he ho.chain⟩

/-- The first frame of a chain may be replaced by one of the same directory. -/
theorem chained_head {h : Heap} {f g : Frame} {r : List Frame} (hd : f.dir = g.dir) (hc : Chained h (f :: r)) : Chained h (g :: r) := by
  cases r with
  | nil => trivial
  | cons x r => exact ⟨hd ▸ hc.1, hc.2⟩

theorem chained_tail {h : Heap} {f : Frame} {r : List Frame} (hc : Chained h (f :: r)) : Chained h r := by
  cases r with
  | nil => trivial
  | cons x r => exact hc.2

/-- A step changes the entries of no directory that is held. -/
theorem go_heap {s : S} {i : Nat} {t : T} {pass : Bool} (hg : granted s t pass = true) (u : T) (hu : u ∈ s.ts) (f : Frame) (hf : f ∈ u.stack) : kids (go i s.heap t).1 f.dir = kids s.heap f.dir := by
  have hfree : ∀ d, t.wants = some (d, .w) → f.dir ≠ d := by
    intro d hd
    unfold granted at hg
    rw [hd] at hg
    simp only [Bool.and_eq_true] at hg
    have := List.all_eq_true.mp (List.all_eq_true.mp hg.2 u hu) f hf
    exact of_decide_eq_true this
  unfold go
  unfold T.wants at hfree
  split
  · rename_i hs
    rw [hs] at hfree
    split
    · rfl
    · rfl
    · cases hp : t.prog with
      | add d n x k =>
        have := hfree d (by rw [hp]; rfl)
        show ((if f.dir = d then _ else s.heap f.dir) : List (Str × Id)).map (·.2) = _
        rw [if_neg this]
        rfl
      | remove d n k =>
        have := hfree d (by rw [hp]; rfl)
        show ((if f.dir = d then _ else s.heap f.dir) : List (Str × Id)).map (·.2) = _
        rw [if_neg this]
        rfl
      | _ => rfl
  · split
    · rfl
    · split <;> rfl

/-- The goroutine that steps stays in order. -/
theorem go_ok {h : Heap} {i : Nat} {t : T} (ho : Ok h t) : Ok (go i h t).1 (go i h t).2 := by
  unfold go
  split
  · split
    · refine ⟨fun f hf c hc => ?_, trivial⟩
      rw [List.mem_singleton.mp hf] at hc ⊢
      exact hc
    · rename_i x k _
      by_cases hx : x.isDir = true
      · simp only [hx, if_true]
        refine ⟨fun f hf c hc => ?_, trivial⟩
        rw [List.mem_singleton.mp hf] at hc ⊢
        exact hc
      · simp only [hx]
        exact ⟨(fun f hf => by cases hf), trivial⟩
    · exact ⟨(fun f hf => by cases hf), trivial⟩
  · rename_i f rest hs
    have h1 := ho.todo
    have h2 := ho.chain
    rw [hs] at h1 h2
    split
    · exact ⟨fun g hg => h1 g (List.mem_cons_of_mem _ hg), chained_tail h2⟩
    · rename_i c cs hcs
      have hc : c ∈ kids h f.dir := h1 f List.mem_cons_self c (by rw [hcs]; exact List.mem_cons_self)
      have keep : ∀ m : Mode, Ok h ⟨t.prog, t.made, ⟨f.dir, m, cs⟩ :: rest, false⟩ := by
        intro m
        refine ⟨fun g hg x hx => ?_, chained_head (f := f) rfl h2⟩
        rcases List.mem_cons.mp hg with rfl | hg
        · exact h1 f List.mem_cons_self x (by rw [hcs]; exact List.mem_cons_of_mem _ hx)
        · exact h1 g (List.mem_cons_of_mem _ hg) x hx
      split
      · by_cases hd : c.isDir = true
        · simp only [hd, if_true]
          refine ⟨fun g hg x hx => ?_, hc, (keep .w).chain⟩
          rcases List.mem_cons.mp hg with rfl | hg
          · exact hx
          · exact (keep .w).todo g hg x hx
        · simp only [hd]
          exact keep .w
      · exact keep .r

theorem step_inv {s : S} (hi : Inv s) (i : Nat) (pass : Bool) : Inv (step s i pass) := by
  unfold step
  split
  · exact hi
  · rename_i t ht
    split
    · exact hi
    · split
      · intro u hu
        rcases List.mem_or_eq_of_mem_set hu with hu | rfl
        · exact hi u hu
        · exact ⟨(hi t (List.mem_of_getElem? ht)).todo, (hi t (List.mem_of_getElem? ht)).chain⟩
      · split
        · rename_i hg
          intro u hu
          rcases List.mem_or_eq_of_mem_set hu with hu | rfl
          · exact ok_congr (fun f hf => go_heap hg u hu f hf) (hi u hu)
          · exact go_ok (hi t (List.mem_of_getElem? ht))
        · exact hi

theorem run_inv (f : Nat → Nat × Bool) {s : S} (hi : Inv s) (n : Nat) : Inv (run f s n) := by
  induction n with
  | zero => exact hi
  | succ n ih => exact step_inv ih _ _

theorem start_inv (h : Heap) (scripts : List (List Call)) : Inv (start h scripts) := by
  intro t ht
  obtain ⟨cs, _, rfl⟩ := List.mem_map.mp ht
  exact ⟨(fun f hf => by cases hf), trivial⟩

/-! ## Someone can go on -/

/-- The try of goroutine `i` has an effect. -/
def Goes (s : S) (i : Nat) (pass : Bool) : Prop := ∃ t, s.ts[i]? = some t ∧ t.over = false ∧ (announces t = true ∨ granted s t pass = true)

/-- Held directories are as low as possible at the top. -/
theorem chain_low {ht : Id → Nat} {h : Heap} (hf : Falls ht h) : ∀ (l : List Frame) (f : Frame), Chained h (f :: l) → ∀ g ∈ f :: l, ht f.dir ≤ ht g.dir := by
  intro l
  induction l with
  | nil =>
    intro f _ g hg
    rw [List.mem_singleton.mp hg]
    exact Nat.le_refl _
  | cons x l ih =>
    intro f hc g hg
    rcases List.mem_cons.mp hg with rfl | hg
    · exact Nat.le_refl _
    · exact Nat.le_trans (Nat.le_of_lt (hf _ _ hc.1)) (ih x hc.2 g hg)

/-- A directory nobody holds: whoever wants it can go on, or one who waits for it to write can. -/
theorem goes_of_free {s : S} {i : Nat} {t : T} (hi : s.ts[i]? = some t) (ho : t.over = false) (d : Id) (m : Mode) (hw : t.wants = some (d, m)) (hd : ∀ u ∈ s.ts, ∀ f ∈ u.stack, f.dir ≠ d) : ∃ j, j < s.ts.length ∧ Goes s j false := by
  have hfree : free s d = true := List.all_eq_true.mpr fun u hu => List.all_eq_true.mpr fun f hf => decide_eq_true (hd u hu f hf)
  have hil := (List.getElem?_eq_some_iff.mp hi).1
  cases m with
  | w =>
    refine ⟨i, hil, t, hi, ho, ?_⟩
    cases hp : t.pend with
    | false =>
      left
      unfold announces
      rw [hw]
      simp [hp]
    | true =>
      right
      unfold granted
      rw [hw]
      simp [hp, hfree]
  | r =>
    cases hnp : noPending s d with
    | true =>
      refine ⟨i, hil, t, hi, ho, Or.inr ?_⟩
      unfold granted
      rw [hw]
      have : noWriter s d = true := List.all_eq_true.mpr fun u hu => List.all_eq_true.mpr fun f hf => by simp [hd u hu f hf]
      simp [this, hnp]
    | false =>
      obtain ⟨u, hu, hpu⟩ : ∃ u ∈ s.ts, (u.pend && u.wants = some (d, .w)) = true := by
        apply Classical.byContradiction
        intro hcon
        have : noPending s d = true := List.all_eq_true.mpr fun u hu => by
          cases hx : (u.pend && decide (u.wants = some (d, .w))) with
          | false => rfl
          | true => exact absurd ⟨u, hu, hx⟩ hcon
        rw [this] at hnp
        cases hnp
      simp only [Bool.and_eq_true, decide_eq_true_eq] at hpu
      obtain ⟨j, hj⟩ := List.getElem?_of_mem hu
      refine ⟨j, (List.getElem?_eq_some_iff.mp hj).1, u, hj, ?_, Or.inr ?_⟩
      · cases hov : u.over with
        | false => rfl
        | true =>
          exfalso
          unfold T.over at hov
          simp only [Bool.and_eq_true, List.isEmpty_iff] at hov
          have hw := hpu.2
          unfold T.wants at hw
          rw [hov.1] at hw
          revert hov hw
          cases u.prog <;> simp [wanted]
      · unfold granted
        rw [hpu.2]
        simp [hpu.1, hfree]

theorem goes_of_none {s : S} {i : Nat} {t : T} (hi : s.ts[i]? = some t) (ho : t.over = false) (hw : t.wants = none) (pass : Bool) : Goes s i pass := by
  refine ⟨t, hi, ho, Or.inr ?_⟩
  unfold granted
  rw [hw]

/-- A least element. -/
theorem exists_least {α : Type} (m : α → Nat) (p : α → Prop) (h : ∃ x, p x) : ∃ x, p x ∧ ∀ y, p y → m x ≤ m y := by
  obtain ⟨x, hx⟩ := h
  induction hn : m x using Nat.strongRecOn generalizing x with
  | _ n ih =>
    by_cases hl : ∃ y, p y ∧ m y < n
    · obtain ⟨y, hy, hlt⟩ := hl
      exact ih (m y) hlt y hy rfl
    · refine ⟨x, hx, fun y hy => ?_⟩
      apply Classical.byContradiction
      intro hcon
      exact hl ⟨y, hy, by omega⟩

/-- As long as no directory lies within itself and not everyone is through, someone can go on. -/
theorem never_stuck {s : S} (hi : Inv s) {ht : Id → Nat} (hf : Falls ht s.heap) (hu : ¬ finished s) : ∃ i, i < s.ts.length ∧ Goes s i false := by
  by_cases hh : ∃ t ∈ s.ts, t.stack ≠ []
  · -- the lowest top
    obtain ⟨t, ⟨htm, hne⟩, hlow⟩ := exists_least (fun t : T => match t.stack with | [] => 0 | f :: _ => ht f.dir) (fun t => t ∈ s.ts ∧ t.stack ≠ []) (by
      obtain ⟨t, h1, h2⟩ := hh
      exact ⟨t, h1, h2⟩)
    obtain ⟨i, hti⟩ := List.getElem?_of_mem htm
    cases hst : t.stack with
    | nil => exact absurd hst hne
    | cons f rest =>
      have ho : t.over = false := by
        unfold T.over
        rw [hst]
        rfl
      have hall : ∀ u ∈ s.ts, ∀ g ∈ u.stack, ht f.dir ≤ ht g.dir := by
        intro u hum g hg
        cases hus : u.stack with
        | nil =>
          rw [hus] at hg
          cases hg
        | cons x r =>
          have h1 := hlow u ⟨hum, by rw [hus]; simp⟩
          simp only [hst, hus] at h1
          have hc := (hi u hum).chain
          rw [hus] at hc hg
          exact Nat.le_trans h1 (chain_low hf r x hc g hg)
      cases hw : t.wants with
      | none => exact ⟨i, (List.getElem?_eq_some_iff.mp hti).1, goes_of_none hti ho hw false⟩
      | some dm =>
        obtain ⟨d, m⟩ := dm
        have hd : d ∈ kids s.heap f.dir := by
          unfold T.wants at hw
          rw [hst] at hw
          cases htd : f.todo with
          | nil =>
            simp only [htd] at hw
            cases hw
          | cons c cs =>
            have hc : c ∈ kids s.heap f.dir := (hi t htm).todo f (by rw [hst]; exact List.mem_cons_self) c (by rw [htd]; exact List.mem_cons_self)
            simp only [htd] at hw
            cases hm : f.mode with
            | w =>
              simp only [hm] at hw
              split at hw
              · cases hw
                exact hc
              · cases hw
            | r =>
              simp only [hm] at hw
              cases hw
              exact hc
        exact goes_of_free hti ho d m hw (fun u hum g hg he => by
          have h1 := hall u hum g hg
          have h2 := hf _ _ hd
          rw [he] at h1
          omega)
  · -- nobody holds anything
    have hnone : ∀ u ∈ s.ts, u.stack = [] := fun u hum => Classical.byContradiction fun h => hh ⟨u, hum, h⟩
    obtain ⟨t, htm, ho⟩ : ∃ t ∈ s.ts, t.over = false := by
      apply Classical.byContradiction
      intro hcon
      refine hu fun t ht => ?_
      cases hov : t.over with
      | true => rfl
      | false => exact absurd ⟨t, ht, hov⟩ hcon
    obtain ⟨i, hti⟩ := List.getElem?_of_mem htm
    cases hw : t.wants with
    | none => exact ⟨i, (List.getElem?_eq_some_iff.mp hti).1, goes_of_none hti ho hw false⟩
    | some dm =>
      obtain ⟨d, m⟩ := dm
      exact goes_of_free hti ho d m hw (fun u hum g hg => by
        rw [hnone u hum] at hg
        cases hg)

/-! ## It comes to an end -/

/-- What is left of a program after a step. -/
inductive Sub : P → P → Prop
  | lookup {d n k} (x) : Sub (k x) (.lookup d n k)
  | add {d n x k} : Sub k (.add d n x k)
  | remove {d n k} : Sub k (.remove d n k)
  | len {d k} (m) : Sub (k m) (.len d k)
  | names {d k} (ns) : Sub (k ns) (.names d k)
  | list {d k} (ns) : Sub (k ns) (.list d k)
  | close {x k} : Sub k (.close x k)
  | fresh {b k} (x) : Sub (k x) (.fresh b k)

theorem sub_acc (p : P) : Acc Sub p := by
  induction p with
  | done rs => exact ⟨_, fun q h => by cases h⟩
  | crash => exact ⟨_, fun q h => by cases h⟩
  | lookup d n k ih => exact ⟨_, fun q h => by cases h; exact ih _⟩
  | add d n x k ih => exact ⟨_, fun q h => by cases h; exact ih⟩
  | remove d n k ih => exact ⟨_, fun q h => by cases h; exact ih⟩
  | len d k ih => exact ⟨_, fun q h => by cases h; exact ih _⟩
  | names d k ih => exact ⟨_, fun q h => by cases h; exact ih _⟩
  | list d k ih => exact ⟨_, fun q h => by cases h; exact ih _⟩
  | close x k ih => exact ⟨_, fun q h => by cases h; exact ih⟩
  | fresh b k ih => exact ⟨_, fun q h => by cases h; exact ih _⟩

/-- One of the programs goes on. -/
inductive One : List P → List P → Prop
  | here {p q l} (h : Sub q p) : One (q :: l) (p :: l)
  | there {p l l'} (h : One l' l) : One (p :: l') (p :: l)

theorem one_acc (l : List P) : Acc One l := by
  induction l with
  | nil => exact ⟨_, fun q h => by cases h⟩
  | cons p l ih =>
    have hp := sub_acc p
    induction hp generalizing l with
    | intro p _ ihp =>
      induction ih with
      | intro l hl ihl =>
        refine ⟨_, fun q h => ?_⟩
        cases h with
        | here hs => exact ihp _ hs l ⟨_, hl⟩
        | there ho => exact ihl _ ho

theorem one_set {l : List P} {i : Nat} {p q : P} (hi : l[i]? = some p) (h : Sub q p) : One (l.set i q) l := by
  induction l generalizing i with
  | nil => cases hi
  | cons x l ih =>
    cases i with
    | zero =>
      cases hi
      exact .here h
    | succ i => exact .there (ih hi)

/-- How much there is to look at below a directory, down to some depth. -/
def size (h : Heap) : Nat → Id → Nat
  | 0, _ => 0
  | n + 1, d => 1 + ((kids h d).map fun c => 1 + size h n c).sum

theorem size_stable {ht : Id → Nat} {h : Heap} (hf : Falls ht h) : ∀ (n m : Nat) (d : Id), ht d < n → ht d < m → size h n d = size h m d := by
  intro n
  induction n with
  | zero =>
    intro m d h1
    omega
  | succ n ih =>
    intro m d h1 h2
    cases m with
    | zero => omega
    | succ m =>
      unfold size
      have : (kids h d).map (fun c => 1 + size h n c) = (kids h d).map (fun c => 1 + size h m c) := by
        apply List.map_congr_left
        intro c hc
        have := hf d c hc
        rw [ih m c (by omega) (by omega)]
      rw [this]

def below (ht : Id → Nat) (h : Heap) (d : Id) : Nat := size h (ht d + 1) d

theorem below_eq {ht : Id → Nat} {h : Heap} (hf : Falls ht h) (d : Id) : below ht h d = 1 + ((kids h d).map fun c => 1 + below ht h c).sum := by
  unfold below
  rw [size]
  have : (kids h d).map (fun c => 1 + size h (ht d) c) = (kids h d).map (fun c => 1 + size h (ht c + 1) c) := by
    apply List.map_congr_left
    intro c hc
    rw [size_stable hf (ht d) (ht c + 1) c (hf d c hc) (Nat.lt_succ_self _)]
  rw [this]

def Frame.work (ht : Id → Nat) (h : Heap) (f : Frame) : Nat := 1 + (f.todo.map fun c => 1 + below ht h c).sum

/-- What a goroutine has still to do under the locks it holds. -/
def T.work (ht : Id → Nat) (h : Heap) (t : T) : Nat := 2 * (t.stack.map (·.work ht h)).sum + (if t.pend then 0 else 1)

def S.work (ht : Id → Nat) (s : S) : Nat := (s.ts.map (·.work ht s.heap)).sum

theorem sum_set_lt {l : List T} {g : T → Nat} {i : Nat} {t u : T} (hi : l[i]? = some t) (h : g u < g t) : ((l.set i u).map g).sum < (l.map g).sum := by
  induction l generalizing i with
  | nil => cases hi
  | cons x l ih =>
    cases i with
    | zero =>
      cases hi
      simp only [List.set_cons_zero, List.map_cons, List.sum_cons]
      omega
    | succ i =>
      have := ih hi
      simp only [List.set_cons_succ, List.map_cons, List.sum_cons]
      omega

def S.progs (s : S) : List P := s.ts.map (·.prog)

/-- What a step of a goroutine does: its program goes on, or it comes nearer to the end of what it does under its locks. -/
theorem go_less {ht : Id → Nat} {h : Heap} (hf : Falls ht h) (i : Nat) (t : T) (ho : t.over = false) :
    Sub (go i h t).2.prog t.prog ∨ ((go i h t).1 = h ∧ (go i h t).2.prog = t.prog ∧ (go i h t).2.work ht h < t.work ht h) := by
  have hb : ∀ b : Bool, (if b = true then 0 else 1) ≤ 1 := by
    intro b
    cases b <;> decide
  unfold go
  split
  · rename_i hs
    left
    split
    · rename_i d k hp
      rw [hp]
      exact .list _
    · rename_i x k hp
      rw [hp]
      exact .close
    · unfold T.over at ho
      rw [hs] at ho
      revert ho
      cases t.prog with
      | done rs => intro ho; cases ho
      | crash => intro ho; cases ho
      | lookup d n k => exact fun _ => .lookup _
      | add d n x k => exact fun _ => .add
      | remove d n k => exact fun _ => .remove
      | len d k => exact fun _ => .len _
      | names d k => exact fun _ => .names _
      | list d k => exact fun _ => .list _
      | close x k => exact fun _ => .close
      | fresh b k => exact fun _ => .fresh _
  · rename_i f rest hs
    right
    have hp := hb t.pend
    split
    · rename_i htd
      refine ⟨rfl, rfl, ?_⟩
      unfold T.work
      rw [hs]
      simp only [List.map_cons, List.sum_cons, Frame.work, htd, List.map_nil, List.sum_nil]
      simp
      omega
    · rename_i c cs htd
      split
      · refine ⟨rfl, rfl, ?_⟩
        unfold T.work
        rw [hs]
        by_cases hd : c.isDir = true
        · simp only [hd, if_true, List.map_cons, List.sum_cons, Frame.work, htd]
          rw [below_eq hf c]
          simp
          omega
        · simp only [hd, List.map_cons, List.sum_cons, Frame.work, htd]
          simp
          omega
      · refine ⟨rfl, rfl, ?_⟩
        unfold T.work
        rw [hs]
        simp only [List.map_cons, List.sum_cons, Frame.work, htd]
        simp
        omega

/-- An effective step, from a state without a directory within itself to another. -/
def Less (s' s : S) : Prop := ∃ i pass, s' = step s i pass ∧ Goes s i pass ∧ (∃ ht, Falls ht s.heap) ∧ (∃ ht, Falls ht s'.heap)

theorem less_acc (ps : List P) : ∀ (n : Nat) (s : S), s.progs = ps → (∃ ht, Falls ht s.heap ∧ s.work ht ≤ n) → Acc Less s := by
  have hps := one_acc ps
  induction hps with
  | intro ps _ ihp =>
    intro n
    induction n using Nat.strongRecOn with
    | _ n ihn =>
      rintro s hs ⟨ht, hf, hn⟩
      refine ⟨_, ?_⟩
      rintro s' ⟨i, pass, rfl, ⟨t, hti, hov, hgo⟩, _, hf'⟩
      have hstep : step s i pass = if announces t then ⟨s.heap, s.ts.set i { t with pend := true }⟩ else ⟨(go i s.heap t).1, s.ts.set i (go i s.heap t).2⟩ := by
        unfold step
        rw [hti]
        simp only [hov]
        cases ha : announces t with
        | true => rfl
        | false =>
          rcases hgo with h | h
          · rw [ha] at h
            cases h
          · rw [h]
            rfl
      rw [hstep] at hf' ⊢
      have same : ∀ (h : Heap) (u : T), u.prog = t.prog → S.progs ⟨h, s.ts.set i u⟩ = ps := by
        intro h u hu
        rw [← hs]
        show (s.ts.set i u).map (·.prog) = _
        rw [List.map_set, hu]
        apply List.ext_getElem?
        intro j
        rw [List.getElem?_set]
        split
        · rename_i hij
          subst hij
          have hl : i < (s.ts.map (·.prog)).length := by
            rw [List.length_map]
            exact (List.getElem?_eq_some_iff.mp hti).1
          rw [if_pos hl]
          show _ = (s.ts.map (·.prog))[i]?
          rw [List.getElem?_map, hti]
          rfl
        · rfl
      cases ha : announces t with
      | true =>
        rw [ha, if_pos rfl] at hf'
        have hp : t.pend = false := by
          unfold announces at ha
          split at ha
          · cases hp : t.pend with
            | false => rfl
            | true =>
              rw [hp] at ha
              cases ha
          · cases ha
        rw [if_pos rfl]
        refine ihn (S.work ht ⟨s.heap, s.ts.set i { t with pend := true }⟩) ?_ _ (same _ _ rfl) ⟨ht, hf, Nat.le_refl _⟩
        refine Nat.lt_of_lt_of_le (sum_set_lt hti ?_) hn
        unfold T.work
        rw [hp]
        simp
      | false =>
        rw [ha] at hf'
        rw [if_neg (by decide)] at hf' ⊢
        rcases go_less hf i t hov with h | ⟨h1, h2, h3⟩
        · obtain ⟨ht', hf'⟩ := hf'
          refine ihp _ ?_ (S.work ht' ⟨(go i s.heap t).1, s.ts.set i (go i s.heap t).2⟩) _ rfl ⟨ht', hf', Nat.le_refl _⟩
          rw [← hs]
          show One ((s.ts.set i (go i s.heap t).2).map (·.prog)) _
          rw [List.map_set]
          refine one_set (p := t.prog) ?_ h
          show (s.ts.map (·.prog))[i]? = _
          rw [List.getElem?_map, hti]
          rfl
        · rw [h1]
          refine ihn (S.work ht ⟨s.heap, s.ts.set i (go i s.heap t).2⟩) ?_ _ (same _ _ h2) ⟨ht, hf, Nat.le_refl _⟩
          exact Nat.lt_of_lt_of_le (sum_set_lt hti h3) hn

theorem step_length (s : S) (i : Nat) (pass : Bool) : (step s i pass).ts.length = s.ts.length := by
  unfold step
  split
  · rfl
  · split
    · rfl
    · split
      · simp
      · split <;> simp

theorem run_length (f : Nat → Nat × Bool) (s : S) (n : Nat) : (run f s n).ts.length = s.ts.length := by
  induction n with
  | zero => rfl
  | succ n ih => exact (step_length _ _ _).trans ih

/-- A try without effect changes nothing. -/
theorem step_of_not_goes {s : S} {i : Nat} {pass : Bool} (h : ¬ Goes s i pass) : step s i pass = s := by
  unfold step
  split
  · rfl
  · rename_i t ht
    split
    · rfl
    · rename_i ho
      split
      · rename_i ha
        exact absurd ⟨t, ht, by simpa using ho, Or.inl ha⟩ h
      · split
        · rename_i hg
          exact absurd ⟨t, ht, by simpa using ho, Or.inr hg⟩ h
        · rfl

/-- Luck does no harm. -/
theorem goes_luck {s : S} {i : Nat} (h : Goes s i false) (pass : Bool) : Goes s i pass := by
  obtain ⟨t, ht, ho, h⟩ := h
  refine ⟨t, ht, ho, h.imp id fun h => ?_⟩
  unfold granted at h ⊢
  cases hw : t.wants with
  | none => rfl
  | some dm =>
    obtain ⟨d, m⟩ := dm
    rw [hw] at h
    cases m with
    | w => exact h
    | r =>
      simp only [Bool.and_eq_true, Bool.false_or] at h ⊢
      exact ⟨h.1, by simp [h.2]⟩

/-! ## C106 -/

/-- **C106** (aferofs, nobody waits for good). Goroutines call one synthetic filesystem at once. Under every schedule, at every point at which no directory lies within itself and not everyone is through, there is a
goroutine whose next try has an effect. -/
theorem C106_afero_never_stuck_partial (h : Heap) (scripts : List (List Call)) (f : Nat → Nat × Bool) (n : Nat) (ht : Id → Nat) (hf : Falls ht (run f (start h scripts) n).heap) (hu : ¬ finished (run f (start h scripts) n)) :
    ∃ i, i < scripts.length ∧ Goes (run f (start h scripts) n) i false := by
  obtain ⟨i, hi, hg⟩ := never_stuck (run_inv f (start_inv h scripts) n) hf hu
  refine ⟨i, ?_, hg⟩
  rw [run_length] at hi
  simpa [start] using hi

/-- **C106** (aferofs, every call returns). Under every schedule that tries every goroutine again and again, and with any luck of readers, everyone comes to an end, if at no time a directory lies within
itself. -/
theorem C106_afero_returns_partial (h : Heap) (scripts : List (List Call)) (f : Nat → Nat × Bool) (hfair : ∀ i, i < scripts.length → ∀ m, ∃ m', m ≤ m' ∧ (f m').1 = i)
    (hf : ∀ n, ∃ ht, Falls ht (run f (start h scripts) n).heap) : ∃ n, finished (run f (start h scripts) n) := by
  have key : ∀ (s : S), Acc Less s → ∀ m, run f (start h scripts) m = s → ∃ n, finished (run f (start h scripts) n) := by
    intro s hs
    induction hs with
    | intro s _ ih =>
      intro m hm
      by_cases hfin : finished s
      · exact ⟨m, by rw [hm]; exact hfin⟩
      · obtain ⟨ht, hft⟩ := hf m
        obtain ⟨i, hi, hg⟩ := C106_afero_never_stuck_partial h scripts f m ht hft (by rw [hm]; exact hfin)
        -- the next effective try
        have hnext : ∃ m', m ≤ m' ∧ run f (start h scripts) m' = s ∧ Goes s (f m').1 (f m').2 := by
          apply Classical.byContradiction
          intro hcon
          have hstay : ∀ k, run f (start h scripts) (m + k) = s := by
            intro k
            induction k with
            | zero => exact hm
            | succ k ihk =>
              show step (run f (start h scripts) (m + k)) (f (m + k)).1 (f (m + k)).2 = s
              rw [ihk]
              exact step_of_not_goes fun hg => hcon ⟨m + k, by omega, ihk, hg⟩
          obtain ⟨m', hmm', hfi⟩ := hfair i hi m
          have hrun : run f (start h scripts) m' = s := by
            have := hstay (m' - m)
            rw [show m + (m' - m) = m' by omega] at this
            exact this
          rw [hm] at hg
          exact hcon ⟨m', hmm', hrun, by rw [hfi]; exact goes_luck hg _⟩
        obtain ⟨m', _, hrun, hgo⟩ := hnext
        refine ih (run f (start h scripts) (m' + 1)) ⟨(f m').1, (f m').2, ?_, hgo, ?_, hf (m' + 1)⟩ (m' + 1) rfl
        · show step (run f (start h scripts) m') _ _ = _
          rw [hrun]
        · rw [← hrun]
          exact hf m'
  obtain ⟨ht, hft⟩ := hf 0
  exact key _ (less_acc _ (S.work ht (start h scripts)) (start h scripts) rfl ⟨ht, hft, Nat.le_refl _⟩) 0 rfl

/-- A schedule: first these, then everyone in turn. -/
def sched (l : List Nat) (n : Nat) : Nat → Nat × Bool := fun m => (match l[m]? with | some i => i | none => m % n, true)

/-- The calls: remove a, move a into b, move b into a. -/
def three : List (List Call) := [[.remove [a]], [.rename [a] [b, c]], [.rename [b] [a, c]]]

/-- `Remove` has seen that a is empty; then both moves are made. -/
def unlucky : Nat → Nat × Bool := sched [0, 0, 1, 1, 1, 2, 2, 2, 1, 1, 1, 1, 2, 2, 2, 2, 0, 0, 0, 0] 3

/-- In a state in which no try has an effect nothing ever happens again. -/
theorem stays {f : Nat → Nat × Bool} {s : S} {m : Nat} (h : ∀ i, ¬ Goes (run f s m) i true) (k : Nat) : run f s (m + k) = run f s m := by
  induction k with
  | zero => rfl
  | succ k ih =>
    show step (run f s (m + k)) (f (m + k)).1 (f (m + k)).2 = _
    rw [ih]
    refine step_of_not_goes fun hg => h (f (m + k)).1 ?_
    cases hp : (f (m + k)).2 with
    | true => rwa [hp] at hg
    | false =>
      rw [hp] at hg
      exact goes_luck hg true

/-- Whether no try has an effect. -/
def idle (s : S) : Bool := s.ts.all fun t => t.over || (! announces t && ! granted s t true)

theorem not_goes_of_idle {s : S} (h : idle s = true) (i : Nat) : ¬ Goes s i true := by
  rintro ⟨t, ht, ho, hg⟩
  have := List.all_eq_true.mp h t (List.mem_of_getElem? ht)
  rw [ho] at this
  simp only [Bool.false_or, Bool.and_eq_true, Bool.not_eq_true'] at this
  rcases hg with hg | hg
  · rw [this.1] at hg
    cases hg
  · rw [this.2] at hg
    cases hg

/-- **C106** does not hold of aferofs: while one goroutine removes a, two others move a into b and b into a. The first closes what is in a: it locks a, then b which lies in it, then a which lies in that,
and waits for itself. It never returns, although everyone is tried again and again. -/
theorem C106_counterexample_afero : ∃ f : Nat → Nat × Bool, (∀ i, i < 3 → ∀ m, ∃ m', m ≤ m' ∧ (f m').1 = i) ∧ ∀ n, ¬ finished (run f (start two three) n) := by
  have hidle : idle (run unlucky (start two three) 22) = true := by decide +kernel
  have hbusy : (run unlucky (start two three) 22).ts.all T.over = false := by decide +kernel
  have hnot : ∀ k, ¬ finished (run unlucky (start two three) (22 + k)) := by
    intro k hfin
    rw [stays (fun i => not_goes_of_idle hidle i)] at hfin
    have : (run unlucky (start two three) 22).ts.all T.over = true := List.all_eq_true.mpr hfin
    rw [hbusy] at this
    cases this
  have hearly : ∀ n, n < 22 → (run unlucky (start two three) n).ts.all T.over = false := by decide +kernel
  refine ⟨unlucky, ?_, ?_⟩
  · intro i hi m
    refine ⟨3 * (m + 20) + i, by omega, ?_⟩
    show (match [0, 0, 1, 1, 1, 2, 2, 2, 1, 1, 1, 1, 2, 2, 2, 2, 0, 0, 0, 0][3 * (m + 20) + i]? with | some i => i | none => (3 * (m + 20) + i) % 3) = i
    rw [List.getElem?_eq_none (by simp; omega)]
    simp only
    omega
  · intro n hfin
    by_cases hn : n < 22
    · have : (run unlucky (start two three) n).ts.all T.over = true := List.all_eq_true.mpr hfin
      rw [hearly n hn] at this
      cases this
    · have := hnot (n - 22)
      rw [show 22 + (n - 22) = n by omega] at this
      exact this hfin

/-- The tree it was met in has heights, and so does every state before the second move: the condition of the theorems is lost there. -/
example : Falls (fun d => if d = root then 1 else 0) two := by
  intro d e he
  unfold kids two at he
  by_cases hd : d = root
  · subst hd
    simp only [if_true, List.map_cons, List.map_nil, List.mem_cons, List.not_mem_nil, or_false] at he
    rcases he with rfl | rfl <;> decide
  · rw [if_neg hd] at he
    cases he

/-! ## Without moves, no directory comes to lie within itself -/

/-- The entries only ever added are new ones, right after they are made; `S` are those others may know. -/
def Fine : Option Id → (Id → Prop) → P → Prop
  | none, _, .done _ => True
  | none, _, .crash => True
  | none, S, .lookup _ _ k => ∀ S' : Id → Prop, (∀ x, S x → S' x) → Fine none S' (k none) ∧ ∀ x, S' x → Fine none S' (k (some x))
  | none, S, .remove _ _ k => ∀ S' : Id → Prop, (∀ x, S x → S' x) → Fine none S' k
  | none, S, .len _ k => ∀ S' : Id → Prop, (∀ x, S x → S' x) → ∀ n, Fine none S' (k n)
  | none, S, .names _ k => ∀ S' : Id → Prop, (∀ x, S x → S' x) → ∀ ns, Fine none S' (k ns)
  | none, S, .list _ k => ∀ S' : Id → Prop, (∀ x, S x → S' x) → ∀ ns, Fine none S' (k ns)
  | none, S, .close _ k => ∀ S' : Id → Prop, (∀ x, S x → S' x) → Fine none S' k
  | none, S, .fresh _ k => ∀ S' : Id → Prop, (∀ x, S x → S' x) → ∀ x, Fine (some x) S' (k x)
  | some x, S, .add d _ y k => y = x ∧ S d ∧ ∀ S' : Id → Prop, (∀ x, S x → S' x) → S' x → Fine none S' k
  | _, _, _ => False

theorem fine_mono {o : Option Id} {S S' : Id → Prop} {p : P} (h : ∀ x, S x → S' x) (hp : Fine o S p) : Fine o S' p := by
  cases o with
  | none =>
    cases p with
    | done rs => trivial
    | crash => trivial
    | add d n x k => exact hp
    | lookup d n k => exact fun S'' h' => hp S'' fun x hx => h' x (h x hx)
    | remove d n k => exact fun S'' h' => hp S'' fun x hx => h' x (h x hx)
    | len d k => exact fun S'' h' => hp S'' fun x hx => h' x (h x hx)
    | names d k => exact fun S'' h' => hp S'' fun x hx => h' x (h x hx)
    | list d k => exact fun S'' h' => hp S'' fun x hx => h' x (h x hx)
    | close d k => exact fun S'' h' => hp S'' fun x hx => h' x (h x hx)
    | fresh b k => exact fun S'' h' => hp S'' fun x hx => h' x (h x hx)
  | some y =>
    cases p with
    | add d n x k => exact ⟨hp.1, h _ hp.2.1, fun S'' h' => hp.2.2 S'' fun x hx => h' x (h x hx)⟩
    | _ => exact hp

/-- The continuation is fine, whatever is reported. -/
def Cont {α : Type} (S : Id → Prop) (k : α → P) : Prop := ∀ S' : Id → Prop, (∀ x, S x → S' x) → ∀ r, Fine none S' (k r)

theorem Cont.mono {α : Type} {S S' : Id → Prop} {k : α → P} (h : ∀ x, S x → S' x) (hk : Cont S k) : Cont S' k := fun S'' h' => hk S'' fun x hx => h' x (h x hx)
theorem Cont.at {α : Type} {S : Id → Prop} {k : α → P} (hk : Cont S k) (r : α) : Fine none S (k r) := hk S (fun _ h => h) r

/-- The continuation is fine when an entry reported is known. -/
def ContId (S : Id → Prop) (k : Except Err Id → P) : Prop := ∀ S' : Id → Prop, (∀ x, S x → S' x) → (∀ e, Fine none S' (k (.error e))) ∧ ∀ x, S' x → Fine none S' (k (.ok x))

theorem ContId.mono {S S' : Id → Prop} {k : Except Err Id → P} (h : ∀ x, S x → S' x) (hk : ContId S k) : ContId S' k := fun S'' h' => hk S'' fun x hx => h' x (h x hx)

theorem fine_findParent (p : List Str) : ∀ (S : Id → Prop) (d : Id) (k : Except Err Id → P), S d → ContId S k → Fine none S (findParent d p k) := by
  induction p with
  | nil => exact fun S d k hd hk => (hk S fun _ h => h).2 d hd
  | cons c r ih =>
    intro S d k hd hk
    cases r with
    | nil => exact (hk S fun _ h => h).2 d hd
    | cons c' r =>
      intro S' h
      refine ⟨(hk S' h).1 _, fun x hx => ?_⟩
      simp only
      split
      · exact ih S' x k hx (hk.mono h)
      · exact (hk S' h).1 _

theorem fine_find (p : List Str) (S : Id → Prop) (k : Except Err Id → P) (hr : S root) (hk : ContId S k) : Fine none S (find p k) := by
  refine fine_findParent p S root _ hr fun S' h => ⟨fun e => (hk S' h).1 e, fun d hd => ?_⟩
  simp only
  cases p.getLast? with
  | none => exact (hk S' h).2 d hd
  | some b => exact fun S'' h' => ⟨((hk.mono h) S'' h').1 _, fun x hx => ((hk.mono h) S'' h').2 x hx⟩

theorem fine_mkdirAll (p : List Str) : ∀ (S : Id → Prop) (d : Id) (k : Res → P), S d → Cont S k → Fine none S (mkdirAll d p k) := by
  induction p with
  | nil => exact fun S d k _ hk => hk.at _
  | cons c r ih =>
    intro S d k hd hk S' h
    refine ⟨?_, fun x hx => ?_⟩
    · intro S'' h' x
      refine ⟨rfl, h' _ (h _ hd), fun S3 h3 hx => ih S3 x k hx ?_⟩
      exact hk.mono fun y hy => h3 y (h' y (h y hy))
    · simp only
      split
      · exact ih S' x k hx (hk.mono h)
      · exact (hk.mono h).at _

theorem fine_removeFromParent (d : Id) (b : Str) (S : Id → Prop) (k : Option Err → P) (hk : Cont S k) : Fine none S (removeFromParent d b k) := by
  intro S' h
  have hrm : ∀ (x : Id) (S'' : Id → Prop), (∀ y, S' y → S'' y) → Fine none S'' (.close x (.remove d b (k none))) := by
    intro x S'' h' S3 h3 S4 h4
    exact hk S4 (fun y hy => h4 y (h3 y (h' y (h y hy)))) _
  refine ⟨(hk.mono h).at _, fun x _ => ?_⟩
  simp only
  split
  · intro S'' h' n
    simp only
    split
    · exact ((hk.mono h).mono h').at _
    · exact hrm x S'' h'
  · exact hrm x S' fun _ hy => hy

theorem fine_remove (p : List Str) (S : Id → Prop) (k : Option Err → P) (hr : S root) (hk : Cont S k) : Fine none S (Verif.Afero.Concurrent.remove p k) := by
  refine fine_findParent p S root _ hr fun S' h => ⟨fun e => hk S' h _, fun d _ => ?_⟩
  simp only
  cases p.getLast? with
  | none => exact hk S' h _
  | some b => exact fine_removeFromParent d b S' k (hk.mono h)

theorem fine_removeAllFrom (fuel : Nat) : ∀ (d : Id) (b : Str) (S : Id → Prop) (k : Res → P), Cont S k → Fine none S (removeAllFrom fuel d b k) := by
  induction fuel with
  | zero => exact fun _ _ _ _ _ => trivial
  | succ f ih =>
    intro d b S k hk
    refine fine_removeFromParent d b S _ fun S' h r => ?_
    cases r with
    | none => exact hk S' h _
    | some e =>
      cases e with
      | notempty =>
        intro S'' h'
        refine ⟨trivial, fun x _ => ?_⟩
        simp only
        split
        · intro S3 h3 ns
          have hk3 : Cont S3 k := hk.mono fun y hy => h3 y (h' y (h y hy))
          have fold : ∀ (ns : List Str) (S4 : Id → Prop), (∀ y, S3 y → S4 y) →
              Fine none S4 (ns.foldr (fun c cont => removeAllFrom f x c fun r => if r = .ok then cont else k r) (k .ok)) := by
            intro ns
            induction ns with
            | nil => exact fun S4 h4 => hk3 S4 h4 _
            | cons c ns ihn =>
              intro S4 h4
              refine ih x c S4 _ fun S5 h5 r => ?_
              split
              · exact ihn S5 fun y hy => h5 y (h4 y hy)
              · exact hk3 S5 (fun y hy => h5 y (h4 y hy)) _
          exact fold ns S3 fun _ hy => hy
        · trivial
      | _ => exact hk S' h _

theorem fine_openFile (p : List Str) (cr ex w : Bool) (S : Id → Prop) (k : Res → P) (hr : S root) (hk : Cont S k) : Fine none S (openFile p cr ex w k) := by
  refine fine_findParent p S root _ hr fun S' h => ⟨fun e => hk S' h _, fun d hd => ?_⟩
  simp only
  cases p.getLast? with
  | none => exact hk S' h _
  | some b =>
    intro S'' h'
    have hk' := (hk.mono h).mono h'
    refine ⟨?_, fun x _ => ?_⟩
    · simp only
      split
      · exact hk'.at _
      · intro S3 h3 x
        exact ⟨rfl, h3 _ (h' _ hd), fun S4 h4 _ => hk' S4 (fun y hy => h4 y (h3 y hy)) _⟩
    · simp only
      split
      · exact hk'.at _
      · split <;> exact hk'.at _

/-- The call moves nothing. -/
def NoMove : Call → Prop
  | .rename _ _ => False
  | _ => True

theorem fine_call (c : Call) (hc : NoMove c) (S : Id → Prop) (k : Res → P) (hr : S root) (hk : Cont S k) : Fine none S (c.prog k) := by
  cases c with
  | rename o n => exact hc.elim
  | stat p =>
    simp only [Call.prog, Verif.Afero.Concurrent.stat]
    exact fine_find p S _ hr fun S' h => ⟨fun e => hk S' h _, fun x _ => hk S' h _⟩
  | readNames p =>
    simp only [Call.prog, Verif.Afero.Concurrent.readNames]
    refine fine_find p S _ hr fun S' h => ⟨fun e => hk S' h _, fun x _ => ?_⟩
    simp only
    split
    · exact fun S'' h' ns => (hk.mono h) S'' h' _
    · exact hk S' h _
  | mkdir p =>
    simp only [Call.prog, Verif.Afero.Concurrent.mkdir]
    refine fine_find _ S _ hr fun S' h => ⟨fun e => hk S' h _, fun d hd => ?_⟩
    simp only
    split
    · exact hk S' h _
    · cases p.getLast? with
      | none => exact hk S' h _
      | some b =>
        intro S'' h'
        refine ⟨?_, fun x _ => (hk.mono h) S'' h' _⟩
        intro S3 h3 x
        exact ⟨rfl, h3 _ (h' _ hd), fun S4 h4 _ => (hk.mono h) S4 (fun y hy => h4 y (h3 y (h' y hy))) _⟩
  | mkdirAll p => exact fine_mkdirAll p S root k hr hk
  | openFile p cr ex w => exact fine_openFile p cr ex w S k hr hk
  | remove p =>
    simp only [Call.prog]
    refine fine_remove p S _ hr fun S' h r => ?_
    cases r <;> exact hk S' h _
  | removeAll f p =>
    show Fine none S (Verif.Afero.Concurrent.removeAll f p k)
    unfold Verif.Afero.Concurrent.removeAll
    cases p.getLast? with
    | none => exact hk.at _
    | some b =>
      refine fine_remove p S _ hr fun S' h r => ?_
      have again : Fine none S' (findParent root p fun | .error e => k (.err e) | .ok d => removeAllFrom f d b k) :=
        fine_findParent p S' root _ (h _ hr) fun S'' h' => ⟨fun e => (hk.mono h) S'' h' _, fun d _ => fine_removeAllFrom f d b S'' k ((hk.mono h).mono h')⟩
      cases r with
      | none => exact hk S' h _
      | some e =>
        cases e with
        | noent => exact hk S' h _
        | _ => exact again

theorem fine_script (cs : List Call) (hcs : ∀ c ∈ cs, NoMove c) : ∀ (acc : List Res) (S : Id → Prop), S root → Fine none S (script cs acc) := by
  induction cs with
  | nil => exact fun _ _ _ => trivial
  | cons c cs ih =>
    intro acc S hr
    exact fine_call c (hcs c List.mem_cons_self) S _ hr fun S' h r => ih (fun c hc => hcs c (List.mem_cons_of_mem _ hc)) _ S' (h _ hr)

/-- Nothing that is known was made later than now; entries lie among known ones; every goroutine adds only what it has just made and nobody knows. -/
structure Clean (s : S) (K : Id → Prop) (own : Nat → Option Id) : Prop where
  root : K root
  old : ∀ x, K x → ∀ (i : Nat) (t : T), s.ts[i]? = some t → x.owner = i + 1 → x.num < t.made
  edges : ∀ d e, e ∈ kids s.heap d → K d ∧ K e
  fine : ∀ (i : Nat) (t : T), s.ts[i]? = some t → Fine (own i) K t.prog
  mine : ∀ (i : Nat) (x : Id), own i = some x → x.owner = i + 1 ∧ ¬ K x
  mineOld : ∀ (i : Nat) (x : Id) (t : T), own i = some x → s.ts[i]? = some t → x.num < t.made
  falls : ∃ ht, Falls ht s.heap

theorem lookup_kid {h : Heap} {d x : Id} {n : Str} (hl : h.lookup d n = some x) : x ∈ kids h d := by
  unfold Heap.lookup at hl
  cases hf : (h d).find? (fun e => e.1 = n) with
  | none =>
    rw [hf] at hl
    cases hl
  | some e =>
    rw [hf] at hl
    cases hl
    exact List.mem_map.mpr ⟨e, List.mem_of_find?_eq_some hf, rfl⟩

theorem kids_remove {h : Heap} {d c e : Id} {n : Str} (hk : e ∈ kids (h.remove d n) c) : e ∈ kids h c := by
  unfold kids Heap.remove at hk
  by_cases hc : c = d
  · subst hc
    simp only [if_true] at hk
    obtain ⟨y, hy, rfl⟩ := List.mem_map.mp hk
    exact List.mem_map.mpr ⟨y, (List.mem_filter.mp hy).1, rfl⟩
  · rw [if_neg hc] at hk
    exact hk

theorem kids_add {h : Heap} {d c e x : Id} {n : Str} (hk : e ∈ kids (h.add d n x) c) : e ∈ kids h c ∨ (c = d ∧ e = x) := by
  unfold kids Heap.add at hk
  by_cases hc : c = d
  · subst hc
    simp only [if_true] at hk
    obtain ⟨y, hy, rfl⟩ := List.mem_map.mp hk
    rcases List.mem_append.mp hy with hy | hy
    · exact Or.inl (List.mem_map.mpr ⟨y, (List.mem_filter.mp hy).1, rfl⟩)
    · rw [List.mem_singleton.mp hy]
      exact Or.inr ⟨rfl, rfl⟩
  · rw [if_neg hc] at hk
    exact Or.inl hk

/-- Replacing a goroutine by one that is as old, when the tree does not grow. -/
theorem clean_set {s : S} {K : Id → Prop} {own : Nat → Option Id} (hc : Clean s K own) {i : Nat} {t : T} (hi : s.ts[i]? = some t) (h : Heap) (u : T) (hm : u.made = t.made) (hp : Fine (own i) K u.prog)
    (hk : ∀ d e, e ∈ kids h d → e ∈ kids s.heap d) : Clean ⟨h, s.ts.set i u⟩ K own := by
  have look : ∀ (j : Nat) (v : T), (s.ts.set i u)[j]? = some v → (j = i ∧ v = u) ∨ (j ≠ i ∧ s.ts[j]? = some v) := by
    intro j v hv
    rw [List.getElem?_set] at hv
    split at hv
    · rename_i hij
      split at hv
      · cases hv
        exact Or.inl ⟨hij.symm, rfl⟩
      · cases hv
    · rename_i hij
      exact Or.inr ⟨fun h => hij h.symm, hv⟩
  obtain ⟨ht, hf⟩ := hc.falls
  refine ⟨hc.root, ?_, fun d e he => hc.edges d e (hk d e he), ?_, hc.mine, ?_, ht, fun d e he => hf d e (hk d e he)⟩
  · intro x hx j v hv ho
    rcases look j v hv with ⟨rfl, rfl⟩ | ⟨_, hv⟩
    · rw [hm]
      exact hc.old x hx j t hi ho
    · exact hc.old x hx j v hv ho
  · intro j v hv
    rcases look j v hv with ⟨rfl, rfl⟩ | ⟨_, hv⟩
    · exact hp
    · exact hc.fine j v hv
  · intro j x v hx hv
    rcases look j v hv with ⟨rfl, rfl⟩ | ⟨_, hv⟩
    · rw [hm]
      exact hc.mineOld j x t hx hi
    · exact hc.mineOld j x v hx hv

theorem look_set {l : List T} {i j : Nat} {u v : T} (hv : (l.set i u)[j]? = some v) : (j = i ∧ v = u) ∨ (j ≠ i ∧ l[j]? = some v) := by
  rw [List.getElem?_set] at hv
  split at hv
  · rename_i hij
    split at hv
    · cases hv
      exact Or.inl ⟨hij.symm, rfl⟩
    · cases hv
  · rename_i hij
    exact Or.inr ⟨fun h => hij h.symm, hv⟩

/-- A granted step keeps all that. -/
theorem clean_go {s : S} {K : Id → Prop} {own : Nat → Option Id} (hc : Clean s K own) {i : Nat} {t : T} (hi : s.ts[i]? = some t) :
    ∃ K' own', Clean ⟨(go i s.heap t).1, s.ts.set i (go i s.heap t).2⟩ K' own' := by
  have hfine := hc.fine i t hi
  unfold go
  split
  · split
    · rename_i d k hp
      rw [hp] at hfine
      refine ⟨K, own, clean_set hc hi _ _ rfl ?_ fun _ _ h => h⟩
      cases ho : own i with
      | some x =>
        rw [ho] at hfine
        exact hfine.elim
      | none =>
        rw [ho] at hfine
        exact hfine K (fun _ h => h) _
    · rename_i x k hp
      rw [hp] at hfine
      refine ⟨K, own, clean_set hc hi _ _ rfl ?_ fun _ _ h => h⟩
      cases ho : own i with
      | some x =>
        rw [ho] at hfine
        exact hfine.elim
      | none =>
        rw [ho] at hfine
        exact hfine K (fun _ h => h)
    · cases hp : t.prog with
      | done rs =>
        rw [hp] at hfine
        exact ⟨K, own, clean_set hc hi _ _ rfl hfine fun _ _ h => h⟩
      | crash =>
        rw [hp] at hfine
        exact ⟨K, own, clean_set hc hi _ _ rfl hfine fun _ _ h => h⟩
      | lookup d n k =>
        rw [hp] at hfine
        refine ⟨K, own, clean_set hc hi _ _ rfl ?_ fun _ _ h => h⟩
        cases ho : own i with
        | some x =>
          rw [ho] at hfine
          exact hfine.elim
        | none =>
          rw [ho] at hfine
          show Fine none K (k (s.heap.lookup d n))
          cases hl : s.heap.lookup d n with
          | none => exact (hfine K fun _ h => h).1
          | some x => exact (hfine K fun _ h => h).2 x (hc.edges d x (lookup_kid hl)).2
      | remove d n k =>
        rw [hp] at hfine
        refine ⟨K, own, clean_set hc hi _ _ rfl ?_ fun _ _ h => kids_remove h⟩
        cases ho : own i with
        | some x =>
          rw [ho] at hfine
          exact hfine.elim
        | none =>
          rw [ho] at hfine
          exact hfine K fun _ h => h
      | len d k =>
        rw [hp] at hfine
        refine ⟨K, own, clean_set hc hi _ _ rfl ?_ fun _ _ h => h⟩
        cases ho : own i with
        | some x =>
          rw [ho] at hfine
          exact hfine.elim
        | none =>
          rw [ho] at hfine
          exact hfine K (fun _ h => h) _
      | names d k =>
        rw [hp] at hfine
        refine ⟨K, own, clean_set hc hi _ _ rfl ?_ fun _ _ h => h⟩
        cases ho : own i with
        | some x =>
          rw [ho] at hfine
          exact hfine.elim
        | none =>
          rw [ho] at hfine
          exact hfine K (fun _ h => h) _
      | list d k =>
        rename_i h _
        exact (h d k hp).elim
      | close d k =>
        rename_i h
        exact (h d k hp).elim
      | fresh b k =>
        rw [hp] at hfine
        have ho : own i = none := by
          cases ho : own i with
          | some x =>
            rw [ho] at hfine
            exact hfine.elim
          | none => rfl
        rw [ho] at hfine
        have hnew : ¬ K ⟨i + 1, t.made, b⟩ := fun hK => Nat.lt_irrefl _ (hc.old _ hK i t hi rfl)
        refine ⟨K, fun j => if j = i then some ⟨i + 1, t.made, b⟩ else own j, hc.root, ?_, hc.edges, ?_, ?_, ?_, hc.falls⟩
        · intro x hx j v hv hxo
          rcases look_set hv with ⟨rfl, rfl⟩ | ⟨_, hv⟩
          · exact Nat.lt_succ_of_lt (hc.old x hx j t hi hxo)
          · exact hc.old x hx j v hv hxo
        · intro j v hv
          rcases look_set hv with ⟨rfl, rfl⟩ | ⟨hj, hv⟩
          · rw [if_pos rfl]
            exact hfine K (fun _ h => h) _
          · rw [if_neg hj]
            exact hc.fine j v hv
        · intro j x hx
          by_cases hj : j = i
          · rw [if_pos hj] at hx
            cases hx
            exact ⟨by rw [hj], hnew⟩
          · rw [if_neg hj] at hx
            exact hc.mine j x hx
        · intro j x v hx hv
          rcases look_set hv with ⟨rfl, rfl⟩ | ⟨hj, hv⟩
          · rw [if_pos rfl] at hx
            cases hx
            exact Nat.lt_succ_self _
          · rw [if_neg hj] at hx
            exact hc.mineOld j x v hx hv
      | add d n y k =>
        rw [hp] at hfine
        cases ho : own i with
        | none =>
          rw [ho] at hfine
          exact hfine.elim
        | some x =>
          rw [ho] at hfine
          obtain ⟨rfl, hd, hk⟩ := hfine
          obtain ⟨hxo, hxK⟩ := hc.mine i y ho
          have hdy : d ≠ y := fun h => hxK (h ▸ hd)
          have hleaf : ∀ e, e ∉ kids s.heap y := fun e he => hxK (hc.edges y e he).1
          have hnokid : ∀ c, y ∉ kids s.heap c := fun c he => hxK (hc.edges c y he).2
          obtain ⟨ht, hf⟩ := hc.falls
          refine ⟨fun z => K z ∨ z = y, fun j => if j = i then none else own j, Or.inl hc.root, ?_, ?_, ?_, ?_, ?_, fun z => if z = y then 0 else ht z + 1, ?_⟩
          · intro z hz j v hv hzo
            have hold : ∀ w, s.ts[j]? = some w → z.num < w.made := by
              intro w hw
              rcases hz with hz | rfl
              · exact hc.old z hz j w hw hzo
              · have : j = i := by omega
                rw [this] at hw
                exact hc.mineOld i z w ho hw
            rcases look_set hv with ⟨rfl, rfl⟩ | ⟨_, hv⟩
            · exact hold t hi
            · exact hold v hv
          · intro c e he
            rcases kids_add he with he | ⟨rfl, rfl⟩
            · exact ⟨Or.inl (hc.edges c e he).1, Or.inl (hc.edges c e he).2⟩
            · exact ⟨Or.inl hd, Or.inr rfl⟩
          · intro j v hv
            rcases look_set hv with ⟨rfl, rfl⟩ | ⟨hj, hv⟩
            · rw [if_pos rfl]
              exact hk _ (fun z hz => Or.inl hz) (Or.inr rfl)
            · rw [if_neg hj]
              exact fine_mono (fun z hz => Or.inl hz) (hc.fine j v hv)
          · intro j z hz
            by_cases hj : j = i
            · rw [if_pos hj] at hz
              cases hz
            · rw [if_neg hj] at hz
              obtain ⟨h1, h2⟩ := hc.mine j z hz
              refine ⟨h1, fun h => ?_⟩
              rcases h with h | rfl
              · exact h2 h
              · omega
          · intro j z v hz hv
            by_cases hj : j = i
            · rw [if_pos hj] at hz
              cases hz
            · rw [if_neg hj] at hz
              rcases look_set hv with ⟨rfl, rfl⟩ | ⟨_, hv⟩
              · exact absurd rfl hj
              · exact hc.mineOld j z v hz hv
          · intro c e he
            rcases kids_add he with he | ⟨rfl, rfl⟩
            · have hcy : c ≠ y := fun h => hleaf e (h ▸ he)
              have hey : e ≠ y := fun h => hnokid c (h ▸ he)
              show (if e = y then 0 else ht e + 1) < (if c = y then 0 else ht c + 1)
              rw [if_neg hcy, if_neg hey]
              exact Nat.succ_lt_succ (hf c e he)
            · show (if e = e then 0 else ht e + 1) < (if c = e then 0 else ht c + 1)
              rw [if_pos rfl, if_neg hdy]
              exact Nat.succ_pos _
  · split
    · exact ⟨K, own, clean_set hc hi _ _ rfl hfine fun _ _ h => h⟩
    · split <;> exact ⟨K, own, clean_set hc hi _ _ rfl hfine fun _ _ h => h⟩

theorem clean_step {s : S} (hc : ∃ K own, Clean s K own) (i : Nat) (pass : Bool) : ∃ K own, Clean (step s i pass) K own := by
  obtain ⟨K, own, hc⟩ := hc
  unfold step
  split
  · exact ⟨K, own, hc⟩
  · rename_i t ht
    split
    · exact ⟨K, own, hc⟩
    · split
      · exact ⟨K, own, clean_set hc ht _ _ rfl (hc.fine i t ht) fun _ _ h => h⟩
      · split
        · exact clean_go hc ht
        · exact ⟨K, own, hc⟩

/-- **C106** (aferofs, every call returns). If nobody moves anything, every call returns, under every schedule that tries every goroutine again and again and with any luck of readers: looking, listing, creating,
opening, removing, also whole trees. -/
theorem C106_afero_returns (h : Heap) (ht : Id → Nat) (hf : Falls ht h) (hold : ∀ d e, e ∈ kids h d → d.owner = 0 ∧ e.owner = 0) (scripts : List (List Call)) (hno : ∀ cs ∈ scripts, ∀ c ∈ cs, NoMove c)
    (f : Nat → Nat × Bool) (hfair : ∀ i, i < scripts.length → ∀ m, ∃ m', m ≤ m' ∧ (f m').1 = i) : ∃ n, finished (run f (start h scripts) n) := by
  refine C106_afero_returns_partial h scripts f hfair fun n => ?_
  have : ∃ K own, Clean (run f (start h scripts) n) K own := by
    induction n with
    | zero =>
      refine ⟨fun x => x.owner = 0, fun _ => none, rfl, ?_, hold, ?_, (fun _ _ h => by cases h), (fun _ _ _ h => by cases h), ht, hf⟩
      · intro x hx i t _ ho
        rw [hx] at ho
        cases ho
      · intro i t hi
        obtain ⟨cs, hcs, rfl⟩ := List.mem_map.mp (List.mem_of_getElem? hi)
        exact fine_script cs (hno cs hcs) [] _ rfl
    | succ n ih => exact clean_step ih _ _
  obtain ⟨K, own, hc⟩ := this
  exact hc.falls

/-- Two goroutines remove a tree and fill it. -/
example : ∃ n, finished (run (fun n => (n % 2, false)) (start nested [[.removeAll 3 [a], .mkdirAll [a, c]], [.readNames [a], .openFile [a, c] true false true, .remove [a, b]]]) n) := by
  refine C106_afero_returns nested (fun d => if d = root then 2 else if d = dirA then 1 else 0) ?_ ?_ _ ?_ _ ?_
  · intro d e he
    unfold kids nested at he
    by_cases h1 : d = root
    · subst h1
      simp only [if_true, List.map_cons, List.map_nil, List.mem_singleton] at he
      subst he
      decide
    · rw [if_neg h1] at he
      by_cases h2 : d = dirA
      · subst h2
        simp only [if_true, List.map_cons, List.map_nil, List.mem_singleton] at he
        subst he
        decide
      · rw [if_neg h2] at he
        cases he
  · intro d e he
    unfold kids nested at he
    by_cases h1 : d = root
    · subst h1
      simp only [if_true, List.map_cons, List.map_nil, List.mem_singleton] at he
      subst he
      decide
    · rw [if_neg h1] at he
      by_cases h2 : d = dirA
      · subst h2
        simp only [if_true, List.map_cons, List.map_nil, List.mem_singleton] at he
        subst he
        decide
      · rw [if_neg h2] at he
        cases he
  · intro cs hcs c hc
    simp only [List.mem_cons, List.not_mem_nil, or_false] at hcs
    rcases hcs with rfl | rfl
    · simp only [List.mem_cons, List.not_mem_nil, or_false] at hc
      rcases hc with rfl | rfl <;> trivial
    · simp only [List.mem_cons, List.not_mem_nil, or_false] at hc
      rcases hc with rfl | rfl | rfl <;> trivial
  · intro i hi m
    refine ⟨2 * m + i, by omega, ?_⟩
    show (2 * m + i) % 2 = i
    simp only [List.length_cons, List.length_nil] at hi
    omega

end Verif.AferoLocks
