import Verif.Common.Bytes
import Verif.Common.Path
/-!
C125: what the synthetic filesystem of aferofs shows of an entry. Code: /repo/aferofs/synth/file.go 28-158, dirent.go 20-33, 118-151, 171-175, dir.go 10-35, 55-114,
fs.go 49, 180-208, 243, 288, 338-373, 547-552, fs_link.go 30-60, impl_inmem_file.go 157-198, 224-247.

Which entry a path leads to is C86 and those after it: here every call is given the entry it has found. Times are integers, `none` is the zero time.
Simplifications: only calls that succeed; a view is a file that may not be there yet (a bound file of another filesystem), with a mode and a time of
its own, written in place. Owners are left out: nothing shows them.
-/
namespace Verif.Afero.Meta

/-- std io/fs `FileMode` -/
abbrev Mode := BitVec 32

/-- std io/fs 152-180 -/
def modeDir : Mode := 0x80000000#32
def modePerm : Mode := 0x1ff#32
def modeType : Mode := 0x8f280000#32

/-- What a `FileView` says and holds. -/
structure View where
  mode : Mode
  mtime : Int
  content : Bytes

/-- file.go 28-37 `virtualFileData` and dir.go 10-22 `dir`, with the name of the entry. -/
inductive Entry where
  | dir (name : Str) (mode : Mode) (mtime : Int)
  | file (name : Str) (mode : Mode) (mtime : Int) (initialized : Bool) (view : Nat)

/-- Entries are numbers; a view that is `none` is not there yet. -/
structure State where
  ent : Nat → Option Entry
  view : Nat → Option View
  next : Nat
  nextView : Nat

inductive Call where
  | mkdir (now : Int) (name : Str) (perm : Mode)
  | create (now : Int) (name : Str) (perm : Mode)
  /-- `AddFile` of a view, there or not yet -/
  | add (name : Str) (v : Option View)
  /-- opening; `made` is what the view becomes if it was not there -/
  | open_ (n : Nat) (made : View)
  | rename (n : Nat) (name : Str)
  | chmod (n : Nat) (mode : Mode)
  | chtimes (n : Nat) (mtime : Option Int)
  | write (n : Nat) (now : Int) (off : Nat) (p : Bytes)
  | truncate (n : Nat) (size : Nat)
  /-- the source behind a view changes by itself -/
  | outside (view : Nat) (v : View)

def setAt {α} (f : Nat → α) (i : Nat) (x : α) : Nat → α := fun j => if j = i then x else f j

/-- A new entry. -/
def put (s : State) (e : Entry) : State := { s with ent := setAt s.ent s.next (some e), next := s.next + 1 }

/-- A new view. -/
def putView (s : State) (v : Option View) : State := { s with view := setAt s.view s.nextView v, nextView := s.nextView + 1 }

/-- Change an entry. -/
def onEnt (s : State) (n : Nat) (f : Entry → Entry) : State :=
  match s.ent n with
  | none => s
  | some e => { s with ent := setAt s.ent n (some (f e)) }

/-- Change the view of a file that is there. -/
def onView (s : State) (n : Nat) (f : View → View) : State :=
  match s.ent n with
  | some (.file _ _ _ _ k) => match s.view k with
    | some v => { s with view := setAt s.view k (some (f v)) }
    | none => s
  | _ => s

/-- impl_inmem_file.go 224-247 `WriteAt` -/
def writeAt (d : Bytes) (off : Nat) (p : Bytes) : Bytes :=
  if p = [] then d else d.take off ++ List.replicate (off - d.length) 0 ++ p ++ d.drop (off + p.length)

/-- impl_inmem_file.go 186-198 `Truncate` -/
def truncAt (d : Bytes) (size : Nat) : Bytes := d.take size ++ List.replicate (size - d.length) 0

/-- file.go 64-94 `init`: mode and time are taken from the view, once. -/
def init (v : View) : Entry → Entry
  | .file name _ _ false k => .file name v.mode v.mtime true k
  | e => e

/-- file.go 140-144, dir.go 96-100 -/
def chmodEnt (mode : Mode) : Entry → Entry
  | .dir name _ t => .dir name (mode &&& (modeType ||| modePerm)) t
  | .file name _ t i k => .file name (mode &&& (modeType ||| modePerm)) t i k

/-- file.go 152-158, dir.go 108-114 -/
def chtimesEnt (t : Option Int) : Entry → Entry
  | .dir name m old => .dir name m (match t with | some t => t | none => old)
  | .file name m old i k => .file name m (match t with | some t => t | none => old) i k

/-- The calls. -/
def step (s : State) : Call → State
  -- fs.go 243, 288, dirent.go 20-25, dir.go 24-35 (`perm` is what `maskPerm` has left)
  | .mkdir now name perm => put s (.dir name ((modeDir ||| perm) &&& (modeType ||| modePerm)) now)
  -- fs.go 363-372, impl_inmem_file.go 166-172, dirent.go 27-33, file.go 39-62
  | .create now name perm =>
    put (putView s (some ⟨perm &&& (modeType ||| modePerm), now, []⟩)) (.file name (perm &&& (modeType ||| modePerm)) now true s.nextView)
  -- fs_link.go 30-60, file.go 39-62: a view that is not there leaves the entry without mode and time
  | .add name v => put (putView s v) (match v with | some v => .file name v.mode v.mtime true s.nextView | none => .file name 0#32 0 false s.nextView)
  -- file.go 100-110
  | .open_ n made => match s.ent n with
    | some (.file _ _ _ _ k) => match s.view k with
      | some v => onEnt s n (init v)
      | none => onEnt { s with view := setAt s.view k (some made) } n (init made)
    | _ => s
  -- fs.go 547-552, dirent.go 171-175, file.go 132-134: the name the entry has of itself stays
  | .rename _ _ => s
  -- fs.go 180-188, dirent.go 126-133
  | .chmod n mode => onEnt s n (chmodEnt mode)
  -- fs.go 201-208, dirent.go 144-151
  | .chtimes n t => onEnt s n (chtimesEnt t)
  -- impl_inmem_file.go 224-247: the time goes to the view, not to the entry
  | .write n now off p => onView s n (fun v => if p = [] then v else { v with content := writeAt v.content off p, mtime := now })
  -- file.go 136-138, impl_inmem_file.go 186-198
  | .truncate n size => onView s n (fun v => { v with content := truncAt v.content size })
  | .outside k v => { s with view := setAt s.view k (some v) }

def run (s : State) : List Call → State
  | [] => s
  | c :: cs => run (step s c) cs

/-- fs.go 49: entry 0 is the root. -/
def newFs (now : Int) : State := put ⟨fun _ => none, fun _ => none, 0, 0⟩ (.dir ['.'] ((modeDir ||| modePerm) &&& (modeType ||| modePerm)) now)

structure Info where
  name : Str
  size : Nat
  mode : Mode
  mtime : Int
deriving DecidableEq

/-- dirent.go 118-124, dir.go 85-94, file.go 112-130; also what `Readdir` says of an entry (dir.go 55-70) and `Stat` of a handle. -/
def stat (s : State) (n : Nat) : Option Info :=
  match s.ent n with
  | some (.dir name mode t) => some ⟨name, 4096, modeDir ||| (mode &&& modePerm), t⟩
  | some (.file name mode t _ k) => (s.view k).map (fun v => ⟨name, v.content.length, mode, t⟩)
  | none => none

/-! ### Specification -/

/-- The bytes reading the file gives. -/
def bytes (s : State) (n : Nat) : Option Bytes :=
  match s.ent n with
  | some (.file _ _ _ _ k) => (s.view k).map (·.content)
  | _ => none

def IsDir (s : State) (n : Nat) : Prop := ∃ name mode t, s.ent n = some (.dir name mode t)

/-- The modes given say nothing about a type. -/
def Call.Plain : Call → Prop
  | .create _ _ perm => perm &&& modeType = 0#32
  | .add _ (some v) => v.mode &&& modeType = 0#32
  | .open_ _ v => v.mode &&& modeType = 0#32
  | .outside _ v => v.mode &&& modeType = 0#32
  | .chmod _ mode => mode &&& modeType = 0#32
  | _ => True

def Call.SetsMode (n : Nat) : Call → Prop
  | .chmod k _ => k = n
  | _ => False

def Call.SetsTime (n : Nat) : Call → Prop
  | .chtimes k (some _) => k = n
  | _ => False

/-! ### Lemmas -/

def Entry.name : Entry → Str
  | .dir x _ _ => x
  | .file x _ _ _ _ => x

def Entry.mode : Entry → Mode
  | .dir _ m _ => m
  | .file _ m _ _ _ => m

def Entry.mtime : Entry → Int
  | .dir _ _ t => t
  | .file _ _ t _ _ => t

/-- The view of a file that has taken its mode and time from it. -/
def Entry.settled : Entry → Bool
  | .dir _ _ _ => true
  | .file _ _ _ i _ => i

def Entry.view : Entry → Option Nat
  | .dir _ _ _ => none
  | .file _ _ _ _ k => some k

structure Inv (s : State) : Prop where
  fresh : ∀ n e, s.ent n = some e → n < s.next ∧ ∀ k, e.view = some k → k < s.nextView
  there : ∀ n e, s.ent n = some e → e.settled = true → ∀ k, e.view = some k → s.view k ≠ none

theorem onEnt_ent (s : State) (k : Nat) (f : Entry → Entry) {n : Nat} {e : Entry} (hn : s.ent n = some e) :
    (onEnt s k f).ent n = some (if k = n then f e else e) := by
  unfold onEnt
  by_cases h : k = n
  · subst h
    simp only [hn, setAt, if_true]
  · rw [if_neg h]
    cases s.ent k with
    | none => exact hn
    | some x =>
      simp only [setAt]
      rw [if_neg (fun h' => h h'.symm)]
      exact hn

theorem onEnt_view (s : State) (k : Nat) (f : Entry → Entry) : (onEnt s k f).view = s.view ∧ (onEnt s k f).next = s.next ∧
    (onEnt s k f).nextView = s.nextView := by
  unfold onEnt
  split <;> exact ⟨rfl, rfl, rfl⟩

theorem onView_ent (s : State) (k : Nat) (f : View → View) : (onView s k f).ent = s.ent ∧ (onView s k f).next = s.next ∧
    (onView s k f).nextView = s.nextView ∧ ∀ j, s.view j ≠ none → (onView s k f).view j ≠ none := by
  unfold onView
  split
  · split
    · refine ⟨rfl, rfl, rfl, fun j hj => ?_⟩
      simp only [setAt]
      split
      · exact fun h => by cases h
      · exact hj
    · exact ⟨rfl, rfl, rfl, fun _ h => h⟩
  · exact ⟨rfl, rfl, rfl, fun _ h => h⟩

theorem inv_onEnt {s : State} (h : Inv s) (n : Nat) (f : Entry → Entry)
    (hf : ∀ e, s.ent n = some e → (f e).view = e.view ∧ ((f e).settled = true → e.settled = true ∨ ∀ k, e.view = some k → s.view k ≠ none)) :
    Inv (onEnt s n f) := by
  obtain ⟨a, b, c⟩ := onEnt_view s n f
  have key : ∀ k e, (onEnt s n f).ent k = some e → ∃ e0, s.ent k = some e0 ∧ e = (if n = k then f e0 else e0) := by
    intro k e hk
    cases h0 : s.ent k with
    | some e0 =>
      rw [onEnt_ent s n f h0] at hk
      injection hk with hk
      exact ⟨e0, rfl, hk.symm⟩
    | none =>
      exfalso
      unfold onEnt at hk
      split at hk
      · rw [h0] at hk; cases hk
      next x hx =>
        simp only [setAt] at hk
        split at hk
        next e => rw [e] at h0; rw [h0] at hx; cases hx
        · rw [h0] at hk; cases hk
  refine ⟨fun k e hk => ?_, fun k e hk hs => ?_⟩
  · obtain ⟨e0, h0, he⟩ := key k e hk
    have := h.fresh k e0 h0
    rw [b, c]
    refine ⟨this.1, fun j hj => ?_⟩
    subst he
    split at hj
    next e => subst e; rw [(hf e0 h0).1] at hj; exact this.2 j hj
    · exact this.2 j hj
  · obtain ⟨e0, h0, he⟩ := key k e hk
    rw [a]
    subst he
    split at hs
    next e =>
      subst e
      rw [if_pos rfl, (hf e0 h0).1]
      rcases (hf e0 h0).2 hs with h1 | h1
      · exact h.there n e0 h0 h1
      · exact h1
    next hne =>
      rw [if_neg hne]
      exact h.there k e0 h0 hs

theorem inv_onView {s : State} (h : Inv s) (n : Nat) (f : View → View) : Inv (onView s n f) := by
  obtain ⟨a, b, c, d⟩ := onView_ent s n f
  exact ⟨by rw [a, b, c]; exact h.fresh, fun k e hk hs j hj => d j (h.there k e (by rw [a] at hk; exact hk) hs j hj)⟩

theorem inv_put {s : State} (h : Inv s) (e : Entry) (h1 : ∀ k, e.view = some k → k < s.nextView)
    (h2 : e.settled = true → ∀ k, e.view = some k → s.view k ≠ none) : Inv (put s e) := by
  refine ⟨fun n x hn => ?_, fun n x hn hs => ?_⟩
  · simp only [put, setAt] at *
    split at hn
    next e => injection hn with hn; subst hn; exact ⟨by omega, h1⟩
    · have := h.fresh n x hn; exact ⟨by omega, this.2⟩
  · simp only [put, setAt] at *
    split at hn
    next e => injection hn with hn; subst hn; exact h2 hs
    · exact h.there n x hn hs

theorem inv_putView {s : State} (h : Inv s) (v : Option View) : Inv (putView s v) := by
  refine ⟨fun n x hn => ?_, fun n x hn hs k hk => ?_⟩
  · have := h.fresh n x hn
    exact ⟨this.1, fun k hk => Nat.lt_succ_of_lt (this.2 k hk)⟩
  · have h1 := (h.fresh n x hn).2 k hk
    simp only [putView, setAt]
    rw [if_neg (by omega)]
    exact h.there n x hn hs k hk

theorem inv_setView {s : State} (h : Inv s) (k : Nat) (v : View) : Inv { s with view := setAt s.view k (some v) } := by
  refine ⟨h.fresh, fun n x hn hs j hj => ?_⟩
  simp only [setAt]
  split
  · exact fun h => by cases h
  · exact h.there n x hn hs j hj

theorem init_view (v : View) (e : Entry) : (init v e).view = e.view ∧ (init v e).name = e.name ∧
    (e.settled = true → init v e = e) := by
  cases e with
  | dir => exact ⟨rfl, rfl, fun _ => rfl⟩
  | file x m t i k => cases i with
    | true => exact ⟨rfl, rfl, fun _ => rfl⟩
    | false => exact ⟨rfl, rfl, fun h => by cases h⟩

theorem step_inv {s : State} (h : Inv s) (c : Call) : Inv (step s c) := by
  cases c with
  | mkdir now name perm => exact inv_put h _ (fun k hk => by cases hk) (fun _ k hk => by cases hk)
  | create now name perm =>
    refine inv_put (inv_putView h _) _ (fun k hk => ?_) (fun _ k hk => ?_)
    · injection hk with hk; subst hk; exact Nat.lt_succ_self _
    · injection hk with hk; subst hk; simp [putView, setAt]
  | add name v =>
    refine inv_put (inv_putView h _) _ (fun k hk => ?_) (fun hs k hk => ?_)
    · cases v <;> (injection hk with hk; subst hk; exact Nat.lt_succ_self _)
    · cases v with
      | none => cases hs
      | some v => injection hk with hk; subst hk; simp [putView, setAt]
  | open_ n made =>
    simp only [step]
    cases hn : s.ent n with
    | none => exact h
    | some e =>
      cases e with
      | dir => exact h
      | file x m t i k =>
        simp only
        cases hv : s.view k with
        | some v =>
          refine inv_onEnt h n _ (fun e he => ⟨(init_view v e).1, fun _ => .inr fun j hj => ?_⟩)
          rw [hn] at he
          injection he with he
          subst he
          injection hj with hj
          subst hj
          rw [hv]
          exact fun h => by cases h
        | none =>
          refine inv_onEnt (inv_setView h k made) n _ (fun e he => ⟨(init_view made e).1, fun _ => .inr fun j hj => ?_⟩)
          have he : s.ent n = some e := he
          rw [hn] at he
          injection he with he
          subst he
          injection hj with hj
          subst hj
          simp [setAt]
  | rename n name => exact h
  | chmod n mode => exact inv_onEnt h n _ (fun e _ => by cases e <;> exact ⟨rfl, fun h => .inl h⟩)
  | chtimes n t => exact inv_onEnt h n _ (fun e _ => by cases e <;> exact ⟨rfl, fun h => .inl h⟩)
  | write n now off p => simp only [step]; exact inv_onView h n _
  | truncate n size => simp only [step]; exact inv_onView h n _
  | outside k v => exact inv_setView h k v

theorem newFs_inv (now : Int) : Inv (newFs now) :=
  inv_put ⟨(fun _ _ h => by cases h), (fun _ _ h => by cases h)⟩ _ (fun _ h => by cases h) (fun _ _ h => by cases h)

theorem run_inv : ∀ cs {s : State}, Inv s → Inv (run s cs)
  | [], _, h => h
  | c :: cs, _, h => run_inv cs (step_inv h c)

theorem run_append : ∀ as bs (s : State), run s (as ++ bs) = run (run s as) bs
  | [], _, _ => rfl
  | _ :: as, bs, _ => run_append as bs _

/-- What a step makes of an entry. -/
theorem step_ent {s : State} (h : Inv s) {n : Nat} {e : Entry} (hn : s.ent n = some e) (c : Call) :
    ∃ e', (step s c).ent n = some e' ∧ e'.view = e.view ∧ e'.name = e.name ∧ (e.settled = true → e'.settled = true) ∧
      (e.settled = true → ¬c.SetsMode n → e'.mode = e.mode) ∧ (e.settled = true → ¬c.SetsTime n → e'.mtime = e.mtime) ∧
      (∀ mode, c = .chmod n mode → e' = chmodEnt mode e) ∧ (∀ t, c = .chtimes n (some t) → e'.mtime = t) := by
  have hlt := (h.fresh n e hn).1
  have hput : ∀ (t : State) (x : Entry), t.ent = s.ent → t.next = s.next → (put t x).ent n = some e := by
    intro t x h1 h2
    simp only [put, setAt, h1, h2]
    rw [if_neg (by omega)]
    exact hn
  have same : ∀ t : State, t.ent n = some e → ∃ e', t.ent n = some e' ∧ e'.view = e.view ∧ e'.name = e.name ∧
      (e.settled = true → e'.settled = true) ∧ (e.settled = true → e'.mode = e.mode) ∧ (e.settled = true → e'.mtime = e.mtime) :=
    fun t ht => ⟨e, ht, rfl, rfl, fun h => h, fun _ => rfl, fun _ => rfl⟩
  cases c with
  | mkdir now name perm =>
    obtain ⟨e', a, b, c, d, f, g⟩ := same _ (hput s (.dir name ((modeDir ||| perm) &&& (modeType ||| modePerm)) now) rfl rfl)
    exact ⟨e', a, b, c, d, fun h _ => f h, fun h _ => g h, (fun _ e => by cases e), fun _ e => by cases e⟩
  | create now name perm =>
    exact ⟨e, hput _ _ rfl rfl, rfl, rfl, fun h => h, fun _ _ => rfl, fun _ _ => rfl, (fun _ e => by cases e), fun _ e => by cases e⟩
  | add name v =>
    exact ⟨e, hput _ _ rfl rfl, rfl, rfl, fun h => h, fun _ _ => rfl, fun _ _ => rfl, (fun _ e => by cases e), fun _ e => by cases e⟩
  | open_ k made =>
    have keep : ∀ (t : State) (v : View), t.ent = s.ent → ∃ e', (onEnt t k (init v)).ent n = some e' ∧ e'.view = e.view ∧ e'.name = e.name ∧
        (e.settled = true → e' = e) := by
      intro t v ht
      refine ⟨_, onEnt_ent t k (init v) (by rw [ht]; exact hn), ?_, ?_, ?_⟩
      · split
        · exact (init_view v e).1
        · rfl
      · split
        · exact (init_view v e).2.1
        · rfl
      · intro hs
        split
        · exact (init_view v e).2.2 hs
        · rfl
    have : ∃ e', (step s (.open_ k made)).ent n = some e' ∧ e'.view = e.view ∧ e'.name = e.name ∧ (e.settled = true → e' = e) := by
      simp only [step]
      split
      · split
        · exact keep s _ rfl
        · exact keep _ _ rfl
      · exact ⟨e, hn, rfl, rfl, fun _ => rfl⟩
    obtain ⟨e', a, b, c, d⟩ := this
    exact ⟨e', a, b, c, (fun hs => by rw [d hs]; exact hs), (fun hs _ => by rw [d hs]), (fun hs _ => by rw [d hs]), (fun _ e => by cases e), fun _ e => by cases e⟩
  | rename k name =>
    exact ⟨e, hn, rfl, rfl, fun h => h, fun _ _ => rfl, fun _ _ => rfl, (fun _ e => by cases e), fun _ e => by cases e⟩
  | chmod k mode =>
    refine ⟨_, onEnt_ent s k _ hn, ?_, ?_, ?_, ?_, ?_, ?_, fun _ e => by cases e⟩
    · split
      · cases e <;> rfl
      · rfl
    · split
      · cases e <;> rfl
      · rfl
    · intro hs
      split
      · cases e <;> exact hs
      · exact hs
    · intro _ hs
      rw [if_neg (show ¬k = n from hs)]
    · intro _ _
      split
      · cases e <;> rfl
      · rfl
    · intro mode' he
      injection he with e1 e2
      rw [if_pos e1, e2]
  | chtimes k t =>
    refine ⟨_, onEnt_ent s k _ hn, ?_, ?_, ?_, ?_, ?_, (fun _ e => by cases e), ?_⟩
    · split
      · cases e <;> rfl
      · rfl
    · split
      · cases e <;> rfl
      · rfl
    · intro hs
      split
      · cases e <;> exact hs
      · exact hs
    · intro _ _
      split
      · cases e <;> rfl
      · rfl
    · intro _ hs
      cases t with
      | none =>
        split
        · cases e <;> rfl
        · rfl
      | some t => rw [if_neg (show ¬k = n from hs)]
    · intro t' he
      injection he with e1 e2
      rw [if_pos e1, e2]
      cases e <;> rfl
  | write k now off p =>
    exact ⟨e, by simp only [step, (onView_ent s k _).1]; exact hn, rfl, rfl, fun h => h, fun _ _ => rfl, fun _ _ => rfl, (fun _ e => by cases e), fun _ e => by cases e⟩
  | truncate k size =>
    exact ⟨e, by simp only [step, (onView_ent s k _).1]; exact hn, rfl, rfl, fun h => h, fun _ _ => rfl, fun _ _ => rfl, (fun _ e => by cases e), fun _ e => by cases e⟩
  | outside k v =>
    exact ⟨e, hn, rfl, rfl, fun h => h, fun _ _ => rfl, fun _ _ => rfl, (fun _ e => by cases e), fun _ e => by cases e⟩

theorem run_ent : ∀ cs {s : State}, Inv s → ∀ {n : Nat} {e : Entry}, s.ent n = some e → e.settled = true →
    ∃ e', (run s cs).ent n = some e' ∧ e'.view = e.view ∧ e'.name = e.name ∧ e'.settled = true ∧
      ((∀ c ∈ cs, ¬c.SetsMode n) → e'.mode = e.mode) ∧ ((∀ c ∈ cs, ¬c.SetsTime n) → e'.mtime = e.mtime)
  | [], _, _, _, e, hn, hs => ⟨e, hn, rfl, rfl, hs, fun _ => rfl, fun _ => rfl⟩
  | c :: cs, s, h, n, e, hn, hs => by
    obtain ⟨e1, h1, v1, x1, s1, m1, t1, _⟩ := step_ent h hn c
    obtain ⟨e2, h2, v2, x2, s2, m2, t2⟩ := run_ent cs (step_inv h c) h1 (s1 hs)
    refine ⟨e2, h2, v2.trans v1, x2.trans x1, s2, fun hh => ?_, fun hh => ?_⟩
    · exact (m2 (fun c hc => hh c (List.mem_cons_of_mem _ hc))).trans (m1 hs (hh c List.mem_cons_self))
    · exact (t2 (fun c hc => hh c (List.mem_cons_of_mem _ hc))).trans (t1 hs (hh c List.mem_cons_self))

/-- The entry behind what is shown. -/
theorem stat_some {s : State} {n : Nat} {i : Info} (h : stat s n = some i) :
    ∃ e, s.ent n = some e ∧ i.name = e.name ∧ i.mtime = e.mtime ∧ i.mode &&& modePerm = e.mode &&& modePerm := by
  unfold stat at h
  cases hn : s.ent n with
  | none => rw [hn] at h; cases h
  | some e =>
    rw [hn] at h
    refine ⟨e, rfl, ?_⟩
    cases e with
    | dir x m t =>
      simp only [Option.some.injEq] at h
      subst h
      refine ⟨rfl, rfl, ?_⟩
      simp only [Entry.mode]
      rw [BitVec.and_or_distrib_right, BitVec.and_assoc]
      have e1 : modeDir &&& modePerm = 0#32 := by decide
      have e2 : modePerm &&& modePerm = modePerm := by decide
      rw [e1, e2, BitVec.zero_or]
    | file x m t j k =>
      simp only [Option.map_eq_some_iff] at h
      obtain ⟨v, hv, h⟩ := h
      subst h
      exact ⟨rfl, rfl, rfl⟩

theorem stat_of {s : State} (h : Inv s) {n : Nat} {e : Entry} (hn : s.ent n = some e) (hs : e.settled = true) :
    ∃ i, stat s n = some i ∧ i.name = e.name ∧ i.mtime = e.mtime ∧ i.mode &&& modePerm = e.mode &&& modePerm := by
  have : ∃ i, stat s n = some i := by
    unfold stat
    rw [hn]
    cases e with
    | dir x m t => exact ⟨_, rfl⟩
    | file x m t j k =>
      have := h.there n _ hn hs k rfl
      cases hv : s.view k with
      | none => exact absurd hv this
      | some v => exact ⟨_, by simp only [hv]; rfl⟩
  obtain ⟨i, hi⟩ := this
  obtain ⟨e', he', a, b, c⟩ := stat_some hi
  rw [hn] at he'
  injection he' with he'
  subst he'
  exact ⟨i, hi, a, b, c⟩

/-! ### Theorems -/

/-- C125: after any history the size shown of a file is the number of bytes it holds, whoever wrote them, and a directory has no bytes to read. -/
theorem C125_size (now : Int) (cs : List Call) (n : Nat) (i : Info) (h : stat (run (newFs now) cs) n = some i) :
    (¬IsDir (run (newFs now) cs) n → ∃ b, bytes (run (newFs now) cs) n = some b ∧ i.size = b.length) ∧
    (IsDir (run (newFs now) cs) n → bytes (run (newFs now) cs) n = none ∧ i.size = 4096) := by
  revert h
  generalize run (newFs now) cs = s
  intro h
  unfold stat at h
  cases hn : s.ent n with
  | none => rw [hn] at h; cases h
  | some e =>
    rw [hn] at h
    cases e with
    | dir x m t =>
      simp only [Option.some.injEq] at h
      subst h
      exact ⟨fun hd => absurd ⟨x, m, t, hn⟩ hd, fun _ => ⟨by simp only [bytes, hn], rfl⟩⟩
    | file x m t j k =>
      simp only [Option.map_eq_some_iff] at h
      obtain ⟨v, hv, h⟩ := h
      subst h
      refine ⟨fun _ => ⟨v.content, ?_, rfl⟩, fun ⟨_, _, _, hd⟩ => ?_⟩
      · simp only [bytes, hn, hv, Option.map_some]
      · rw [hn] at hd; cases hd

/-- A write that goes past the end: the size follows. -/
example : ((stat (run (newFs 0) [.create 1 ['f'] 0x1a4#32, .write 1 2 3 [7, 8]]) 1).map (·.size)) = some 5 := by decide

/-- C125: a directory stays a directory whatever is done, and is always shown as one. -/
theorem C125_dir (now : Int) (as bs : List Call) (n : Nat) (hd : IsDir (run (newFs now) as) n) :
    IsDir (run (newFs now) (as ++ bs)) n ∧
    ∃ i, stat (run (newFs now) (as ++ bs)) n = some i ∧ i.mode &&& modeType = modeDir := by
  obtain ⟨x, m, t, hn⟩ := hd
  rw [run_append]
  have hi := run_inv as (newFs_inv now)
  obtain ⟨e, he, hv, _⟩ := run_ent bs hi hn rfl
  cases e with
  | file _ _ _ _ k => cases hv
  | dir x' m' t' =>
    refine ⟨⟨x', m', t', he⟩, _, by unfold stat; rw [he], ?_⟩
    simp only
    rw [BitVec.and_or_distrib_right, BitVec.and_assoc]
    have e1 : modeDir &&& modeType = modeDir := by decide
    have e2 : modePerm &&& modeType = 0#32 := by decide
    rw [e1, e2, BitVec.and_zero, BitVec.or_zero]

example : IsDir (run (newFs 0) [.mkdir 1 ['d'] 0x1ff#32]) 1 := ⟨_, _, _, rfl⟩

/-- Modes of files and views without type bits. -/
def Clean (s : State) : Prop :=
  (∀ n x m t j k, s.ent n = some (.file x m t j k) → m &&& modeType = 0#32) ∧ ∀ k v, s.view k = some v → v.mode &&& modeType = 0#32

theorem mask_type {m : Mode} (h : m &&& modeType = 0#32) : (m &&& (modeType ||| modePerm)) &&& modeType = 0#32 := by
  rw [BitVec.and_assoc]
  have : (modeType ||| modePerm) &&& modeType = modeType := by decide
  rw [this, h]

theorem clean_onEnt {s : State} (h : Clean s) (n : Nat) (f : Entry → Entry)
    (hf : ∀ e x m t j k, s.ent n = some e → f e = .file x m t j k → m &&& modeType = 0#32) : Clean (onEnt s n f) := by
  refine ⟨fun q x m t j k hq => ?_, by rw [(onEnt_view s n f).1]; exact h.2⟩
  unfold onEnt at hq
  split at hq
  · exact h.1 q x m t j k hq
  next e he =>
    simp only [setAt] at hq
    split at hq
    · injection hq with hq; exact hf e x m t j k he hq
    · exact h.1 q x m t j k hq

theorem clean_onView {s : State} (h : Clean s) (n : Nat) (f : View → View) (hf : ∀ v, (f v).mode = v.mode) : Clean (onView s n f) := by
  refine ⟨by rw [(onView_ent s n f).1]; exact h.1, fun k v hk => ?_⟩
  unfold onView at hk
  split at hk
  next q _ =>
    split at hk
    next w hw =>
      simp only [setAt] at hk
      split at hk
      · injection hk with hk; rw [← hk, hf]; exact h.2 _ _ hw
      · exact h.2 k v hk
    · exact h.2 k v hk
  · exact h.2 k v hk

theorem clean_setView {s : State} (h : Clean s) (k : Nat) (v : View) (hv : v.mode &&& modeType = 0#32) :
    Clean { s with view := setAt s.view k (some v) } := by
  refine ⟨h.1, fun j w hj => ?_⟩
  simp only [setAt] at hj
  split at hj
  · injection hj with hj; rw [← hj]; exact hv
  · exact h.2 j w hj

theorem clean_putView {s : State} (h : Clean s) (v : Option View) (hv : ∀ w, v = some w → w.mode &&& modeType = 0#32) : Clean (putView s v) := by
  refine ⟨h.1, fun j w hj => ?_⟩
  simp only [putView, setAt] at hj
  split at hj
  · exact hv w hj
  · exact h.2 j w hj

theorem clean_put {s : State} (h : Clean s) (e : Entry) (he : ∀ x m t j k, e = .file x m t j k → m &&& modeType = 0#32) : Clean (put s e) := by
  refine ⟨fun q x m t j k hq => ?_, h.2⟩
  simp only [put, setAt] at hq
  split at hq
  · injection hq with hq; exact he x m t j k hq
  · exact h.1 q x m t j k hq

theorem clean_init {s : State} (h : Clean s) (n : Nat) (v : View) (hv : v.mode &&& modeType = 0#32) : Clean (onEnt s n (init v)) := by
  refine clean_onEnt h n _ (fun e x m t j k he hf => ?_)
  cases e with
  | dir => cases hf
  | file x' m' t' j' k' =>
    cases j' with
    | true => injection hf with _ e2; rw [← e2]; exact h.1 n _ _ _ _ _ he
    | false => injection hf with _ e2; rw [← e2]; exact hv

theorem clean_step {s : State} (h : Clean s) (c : Call) (hc : c.Plain) : Clean (step s c) := by
  cases c with
  | mkdir now name perm => exact clean_put h _ (fun _ _ _ _ _ e => by cases e)
  | create now name perm =>
    refine clean_put (clean_putView h _ (fun w hw => ?_)) _ (fun x m t j k e => ?_)
    · injection hw with hw; rw [← hw]; exact mask_type hc
    · injection e with _ e2; rw [← e2]; exact mask_type hc
  | add name v =>
    refine clean_put (clean_putView h _ (fun w hw => ?_)) _ (fun x m t j k e => ?_)
    · subst hw; exact hc
    · cases v with
      | none => injection e with _ e2; rw [← e2]; decide
      | some v => injection e with _ e2; rw [← e2]; exact hc
  | open_ n made =>
    simp only [step]
    split
    · split
      next v hv => exact clean_init h n v (h.2 _ _ hv)
      · exact clean_init (clean_setView h _ made hc) n made hc
    · exact h
  | rename n name => exact h
  | chmod n mode =>
    refine clean_onEnt h n _ (fun e x m t j k _ hf => ?_)
    cases e with
    | dir => cases hf
    | file => injection hf with _ e2; rw [← e2]; exact mask_type hc
  | chtimes n t =>
    refine clean_onEnt h n _ (fun e x m t j k he hf => ?_)
    cases e with
    | dir => cases hf
    | file => injection hf with _ e2; rw [← e2]; exact h.1 n _ _ _ _ _ he
  | write n now off p => simp only [step]; exact clean_onView h n _ (fun v => by split <;> rfl)
  | truncate n size => simp only [step]; exact clean_onView h n _ (fun v => rfl)
  | outside k v => exact clean_setView h k v hc

theorem clean_run : ∀ cs {s : State}, Clean s → (∀ c ∈ cs, c.Plain) → Clean (run s cs)
  | [], _, h, _ => h
  | c :: cs, _, h, hc => clean_run cs (clean_step h c (hc c List.mem_cons_self)) (fun c h => hc c (List.mem_cons_of_mem _ h))

theorem newFs_clean (now : Int) : Clean (newFs now) :=
  clean_put ⟨(fun _ _ _ _ _ _ h => by cases h), (fun _ _ h => by cases h)⟩ _ (fun _ _ _ _ _ h => by cases h)

/-- C125, partial: an entry is shown as a directory exactly when it is one, as long as no mode given has type bits.
Missing: `C125_counterexample_type`. -/
theorem C125_kind_partial (now : Int) (cs : List Call) (hc : ∀ c ∈ cs, c.Plain) (n : Nat) (i : Info)
    (h : stat (run (newFs now) cs) n = some i) : i.mode &&& modeDir ≠ 0#32 ↔ IsDir (run (newFs now) cs) n := by
  have hcl := clean_run cs (newFs_clean now) hc
  revert h hcl
  generalize run (newFs now) cs = s
  intro h hcl
  unfold stat at h
  cases hn : s.ent n with
  | none => rw [hn] at h; cases h
  | some e =>
    rw [hn] at h
    cases e with
    | dir x m t =>
      simp only [Option.some.injEq] at h
      subst h
      refine ⟨fun _ => ⟨x, m, t, hn⟩, fun _ => ?_⟩
      simp only
      rw [BitVec.and_or_distrib_right, BitVec.and_assoc]
      have e1 : modePerm &&& modeDir = 0#32 := by decide
      rw [e1, BitVec.and_zero, BitVec.or_zero]
      decide
    | file x m t j k =>
      simp only [Option.map_eq_some_iff] at h
      obtain ⟨v, hv, h⟩ := h
      subst h
      refine ⟨fun hd => absurd ?_ hd, fun ⟨_, _, _, hd⟩ => by rw [hn] at hd; cases hd⟩
      simp only
      have e1 : modeDir = modeType &&& modeDir := by decide
      rw [e1, ← BitVec.and_assoc, hcl.1 n x m t j k hn, BitVec.zero_and]

example : ∀ c ∈ [Call.mkdir 1 ['d'] 0x1ed#32, .create 2 ['f'] 0x1a4#32, .chmod 2 0x180#32], c.Plain := by
  intro c hc
  simp only [List.mem_cons, List.not_mem_nil, or_false] at hc
  rcases hc with h | h | h <;> subst h <;> simp only [Call.Plain] <;> decide

/-- `Chmod` of a file to `ModeDir|0o755`: the file says it is a directory. -/
theorem C125_counterexample_type : ∃ cs i, stat (run (newFs 0) cs) 1 = some i ∧ ¬IsDir (run (newFs 0) cs) 1 ∧ i.mode &&& modeDir ≠ 0#32 :=
  ⟨[.create 1 ['f'] 0x1a4#32, .chmod 1 0x800001ed#32], _, rfl, (fun ⟨_, _, _, h⟩ => by cases h), by decide⟩

/-- C125, partial: the permissions last asked of `Chmod` are the ones shown, whatever happens to the entry after, if the source of the file
was there when the entry was made, or the file has been opened before. Missing: `C125_counterexample_mode`. -/
theorem C125_mode_partial (now : Int) (as bs : List Call) (n : Nat) (mode : Mode) (e : Entry) (hn : (run (newFs now) as).ent n = some e)
    (hs : e.settled = true) (hb : ∀ c ∈ bs, ¬c.SetsMode n) :
    (∃ i, stat (run (newFs now) (as ++ .chmod n mode :: bs)) n = some i ∧ i.mode &&& modePerm = mode &&& modePerm) ∧
    ∃ i j, stat (run (newFs now) as) n = some i ∧ stat (run (newFs now) (as ++ bs)) n = some j ∧ j.mode &&& modePerm = i.mode &&& modePerm := by
  rw [run_append, run_append]
  have hi := run_inv as (newFs_inv now)
  refine ⟨?_, ?_⟩
  rotate_left
  · obtain ⟨i, h1, _, _, a⟩ := stat_of hi hn hs
    obtain ⟨e2, h2, _, _, s2, m2, _⟩ := run_ent bs hi hn hs
    obtain ⟨j, h3, _, _, b⟩ := stat_of (run_inv bs hi) h2 s2
    exact ⟨i, j, h1, h3, by rw [a, b, m2 hb]⟩
  obtain ⟨e1, h1, _, _, s1, _, _, c1, _⟩ := step_ent hi hn (.chmod n mode)
  have hi1 := step_inv hi (.chmod n mode)
  obtain ⟨e2, h2, _, _, s2, m2, _⟩ := run_ent bs hi1 h1 (s1 hs)
  obtain ⟨i, hst, _, _, hm⟩ := stat_of (run_inv bs hi1) h2 s2
  refine ⟨i, hst, ?_⟩
  rw [hm, m2 hb, c1 mode rfl]
  have key : (mode &&& (modeType ||| modePerm)) &&& modePerm = mode &&& modePerm := by
    rw [BitVec.and_assoc]
    have : (modeType ||| modePerm) &&& modePerm = modePerm := by decide
    rw [this]
  cases e <;> exact key

example : ∃ e, (run (newFs 0) [.create 1 ['f'] 0x1a4#32]).ent 1 = some e ∧ e.settled = true := ⟨_, rfl, rfl⟩

/-- `AddFile` of a source that is not there yet, `Chmod`, then the first open: the mode of the source replaces the one asked for. -/
theorem C125_counterexample_mode : ∃ as bs i, (run (newFs 0) as).ent 1 ≠ none ∧ (∀ c ∈ bs, ¬c.SetsMode 1) ∧
    stat (run (newFs 0) (as ++ .chmod 1 0x180#32 :: bs)) 1 = some i ∧ i.mode &&& modePerm ≠ 0x180#32 &&& modePerm := by
  refine ⟨[.add ['f'] none], [.open_ 1 ⟨0x1a4#32, 5, []⟩], _, (fun h => by cases h), fun c hc => ?_, rfl, by decide⟩
  simp only [List.mem_cons, List.not_mem_nil, or_false] at hc
  subst hc
  exact fun h => h

/-- C125, partial: the time last set by `Chtimes` is shown until the next one. Missing: `C125_note_write`, `C125_counterexample_time`. -/
theorem C125_time_partial (now : Int) (as bs : List Call) (n : Nat) (t : Int) (e : Entry) (hn : (run (newFs now) as).ent n = some e)
    (hs : e.settled = true) (hb : ∀ c ∈ bs, ¬c.SetsTime n) :
    (∃ i, stat (run (newFs now) (as ++ .chtimes n (some t) :: bs)) n = some i ∧ i.mtime = t) ∧
    ∃ i j, stat (run (newFs now) as) n = some i ∧ stat (run (newFs now) (as ++ bs)) n = some j ∧ j.mtime = i.mtime := by
  rw [run_append, run_append]
  have hi := run_inv as (newFs_inv now)
  refine ⟨?_, ?_⟩
  rotate_left
  · obtain ⟨i, h1, _, a, _⟩ := stat_of hi hn hs
    obtain ⟨e2, h2, _, _, s2, _, t2⟩ := run_ent bs hi hn hs
    obtain ⟨j, h3, _, b, _⟩ := stat_of (run_inv bs hi) h2 s2
    exact ⟨i, j, h1, h3, by rw [a, b, t2 hb]⟩
  obtain ⟨e1, h1, _, _, s1, _, _, _, c1⟩ := step_ent hi hn (.chtimes n (some t))
  have hi1 := step_inv hi (.chtimes n (some t))
  obtain ⟨e2, h2, _, _, s2, _, t2⟩ := run_ent bs hi1 h1 (s1 hs)
  obtain ⟨i, hst, _, hm, _⟩ := stat_of (run_inv bs hi1) h2 s2
  exact ⟨i, hst, by rw [hm, t2 hb, c1 t rfl]⟩

/-- Writing to a file never changes the time shown: whatever is written, `Stat` says what it said. -/
theorem C125_note_write : ∀ now cs n now' off p i, stat (run (newFs now) cs) n = some i →
    ∃ j, stat (run (newFs now) (cs ++ [.write n now' off p])) n = some j ∧ j.mtime = i.mtime := by
  intro now cs n now' off p i h
  rw [run_append]
  show ∃ j, stat (onView _ n _) n = some j ∧ _
  revert h
  generalize run (newFs now) cs = s
  intro h
  unfold stat at h ⊢
  rw [(onView_ent s n _).1]
  cases hn : s.ent n with
  | none => rw [hn] at h; cases h
  | some e =>
    rw [hn] at h
    cases e with
    | dir x m t => simp only [Option.some.injEq] at h; subst h; exact ⟨_, rfl, rfl⟩
    | file x m t b k =>
      simp only [Option.map_eq_some_iff] at h
      obtain ⟨v, hv, h⟩ := h
      subst h
      simp only [onView, hn, hv, setAt, if_true, Option.map_some]
      exact ⟨_, rfl, rfl⟩

/-- The same loss as for the mode: `Chtimes` before the first open. -/
theorem C125_counterexample_time : ∃ as bs i, (∀ c ∈ bs, ¬c.SetsTime 1) ∧
    stat (run (newFs 0) (as ++ .chtimes 1 (some 9) :: bs)) 1 = some i ∧ i.mtime ≠ 9 := by
  refine ⟨[.add ['f'] none], [.open_ 1 ⟨0x1a4#32, 5, []⟩], _, fun c hc => ?_, rfl, by decide⟩
  simp only [List.mem_cons, List.not_mem_nil, or_false] at hc
  subst hc
  exact fun h => h

/-- C125: what is shown of a new file: the name and the permissions asked for, no bytes, the time of the call. -/
theorem C125_made (now : Int) (cs : List Call) (t : Int) (name : Str) (perm : Mode) :
    let s := run (newFs now) cs
    stat (step s (.create t name perm)) s.next = some ⟨name, 0, perm &&& (modeType ||| modePerm), t⟩ ∧
    stat (step s (.mkdir t name perm)) s.next = some ⟨name, 4096, modeDir ||| (perm &&& modePerm), t⟩ := by
  intro s
  refine ⟨by simp [step, stat, put, putView, setAt], ?_⟩
  have : ((modeDir ||| perm) &&& (modeType ||| modePerm)) &&& modePerm = perm &&& modePerm := by
    rw [BitVec.and_assoc]
    have e1 : (modeType ||| modePerm) &&& modePerm = modePerm := by decide
    have e2 : modeDir &&& modePerm = 0#32 := by decide
    rw [e1, BitVec.and_or_distrib_right, e2, BitVec.zero_or]
  simp [step, stat, put, setAt, this]

/-- After a rename the entry still says its old name. -/
theorem C125_counterexample_name : ∃ cs i, stat (run (newFs 0) (cs ++ [.rename 1 ['g']])) 1 = some i ∧ i.name ≠ ['g'] :=
  ⟨[.create 1 ['f'] 0x1a4#32], _, rfl, by decide⟩

/-! ### Writing one file -/

theorem onEnt_origin {s : State} {k : Nat} {f : Entry → Entry} (hf : ∀ e, (f e).view = e.view) {n : Nat} {e : Entry}
    (h : (onEnt s k f).ent n = some e) : ∃ e0, s.ent n = some e0 ∧ e.view = e0.view := by
  unfold onEnt at h
  split at h
  · exact ⟨e, h, rfl⟩
  next x hx =>
    simp only [setAt] at h
    split at h
    next e1 => subst e1; injection h with h; subst h; exact ⟨x, hx, hf x⟩
    · exact ⟨e, h, rfl⟩

theorem put_origin {s : State} {x : Entry} {n : Nat} {e : Entry} (h : (put s x).ent n = some e) :
    s.ent n = some e ∨ (n = s.next ∧ e = x) := by
  simp only [put, setAt] at h
  split at h
  next e1 => injection h with h; exact .inr ⟨e1, h.symm⟩
  · exact .inl h

/-- An entry after a step was there before, with the same view, or is the new one with a new view. -/
theorem step_origin {s : State} (c : Call) {n : Nat} {e : Entry} (h : (step s c).ent n = some e) :
    (∃ e0, s.ent n = some e0 ∧ e.view = e0.view) ∨ (n = s.next ∧ ∀ k, e.view = some k → k = s.nextView) := by
  cases c with
  | mkdir now name perm =>
    rcases put_origin h with h0 | ⟨h0, e1⟩
    · exact .inl ⟨e, h0, rfl⟩
    · subst e1; exact .inr ⟨h0, fun k hk => by cases hk⟩
  | create now name perm =>
    rcases put_origin h with h0 | ⟨h0, e1⟩
    · exact .inl ⟨e, h0, rfl⟩
    · subst e1; exact .inr ⟨h0, fun k hk => by injection hk with hk; exact hk.symm⟩
  | add name v =>
    rcases put_origin h with h0 | ⟨h0, e1⟩
    · exact .inl ⟨e, h0, rfl⟩
    · subst e1
      refine .inr ⟨h0, fun k hk => ?_⟩
      cases v <;> (injection hk with hk; exact hk.symm)
  | open_ q made =>
    simp only [step] at h
    split at h
    · split at h
      next v _ => exact .inl (onEnt_origin (fun e => (init_view v e).1) h)
      · obtain ⟨e0, h0, v0⟩ := onEnt_origin (fun e => (init_view made e).1) h
        exact .inl ⟨e0, h0, v0⟩
    · exact .inl ⟨e, h, rfl⟩
  | rename q name => exact .inl ⟨e, h, rfl⟩
  | chmod q mode => exact .inl (onEnt_origin (fun e => by cases e <;> rfl) h)
  | chtimes q t => exact .inl (onEnt_origin (fun e => by cases e <;> rfl) h)
  | write q now off p => simp only [step, (onView_ent s q _).1] at h; exact .inl ⟨e, h, rfl⟩
  | truncate q size => simp only [step, (onView_ent s q _).1] at h; exact .inl ⟨e, h, rfl⟩
  | outside k v => exact .inl ⟨e, h, rfl⟩

/-- No two entries have the same view. -/
def Apart (s : State) : Prop := ∀ n m e f k, s.ent n = some e → s.ent m = some f → e.view = some k → f.view = some k → n = m

theorem step_apart {s : State} (hi : Inv s) (h : Apart s) (c : Call) : Apart (step s c) := by
  intro n m e f k hn hm he hf
  rcases step_origin c hn with ⟨e0, h0, v0⟩ | ⟨n1, k1⟩ <;> rcases step_origin c hm with ⟨f0, g0, w0⟩ | ⟨m1, k2⟩
  · exact h n m e0 f0 k h0 g0 (v0 ▸ he) (w0 ▸ hf)
  · have := (hi.fresh n e0 h0).2 k (v0 ▸ he)
    have := k2 k hf
    omega
  · have := (hi.fresh m f0 g0).2 k (w0 ▸ hf)
    have := k1 k he
    omega
  · rw [n1, m1]

theorem run_apart : ∀ cs {s : State}, Inv s → Apart s → Apart (run s cs)
  | [], _, _, h => h
  | c :: cs, _, hi, h => run_apart cs (step_inv hi c) (step_apart hi h c)

theorem newFs_apart (now : Int) : Apart (newFs now) := by
  intro n m e f k hn hm he hf
  rcases put_origin hn with h | ⟨_, h⟩
  · cases h
  · subst h; cases he

theorem onView_bytes {s : State} {n : Nat} {d : Bytes} (h : bytes s n = some d) (f : View → View) :
    ∃ v, v.content = d ∧ bytes (onView s n f) n = some (f v).content := by
  unfold bytes at h
  split at h
  next x m t j k hn =>
    simp only [Option.map_eq_some_iff] at h
    obtain ⟨v, hv, h⟩ := h
    exact ⟨v, h, by simp only [bytes, (onView_ent s n f).1, hn]; simp [onView, hn, hv, setAt]⟩
  · cases h

theorem onView_apart {s : State} (ha : Apart s) {n m : Nat} (hnm : m ≠ n) (f : View → View) :
    stat (onView s n f) m = stat s m ∧ bytes (onView s n f) m = bytes s m := by
  have key : ∀ x mo t j k, s.ent m = some (.file x mo t j k) → (onView s n f).view k = s.view k := by
    intro x mo t j k hm
    unfold onView
    split
    next x' mo' t' j' k' hn =>
      split
      next v hv =>
        simp only [setAt]
        rw [if_neg]
        intro e
        subst e
        exact hnm (ha m n _ _ k hm hn rfl rfl)
      · rfl
    · rfl
  constructor
  · unfold stat
    rw [(onView_ent s n f).1]
    cases hm : s.ent m with
    | none => rfl
    | some e => cases e with
      | dir => rfl
      | file x mo t j k => simp only [key x mo t j k hm]
  · unfold bytes
    rw [(onView_ent s n f).1]
    cases hm : s.ent m with
    | none => rfl
    | some e => cases e with
      | dir => rfl
      | file x mo t j k => simp only [key x mo t j k hm]

/-- The content `d` with `p` put at `off`, byte by byte. -/
def Patched (d : Bytes) (off : Nat) (p d' : Bytes) : Prop :=
  ∀ i, d'[i]? = if off ≤ i ∧ i < off + p.length then p[i - off]? else if i < d.length then d[i]? else if i < off ∧ p ≠ [] then some 0 else none

/-- The content `d` made `size` long, byte by byte. -/
def Resized (d : Bytes) (size : Nat) (d' : Bytes) : Prop :=
  ∀ i, d'[i]? = if i < size then (if i < d.length then d[i]? else some 0) else none

theorem patched (d : Bytes) (off : Nat) (p : Bytes) : Patched d off p (writeAt d off p) := by
  intro i
  unfold writeAt
  by_cases hp : p = []
  · subst hp
    rw [if_pos rfl, if_neg (by simp)]
    split
    · rfl
    · rw [if_neg (fun h => h.2 rfl)]; exact List.getElem?_eq_none (by omega)
  · rw [if_neg hp]
    have hl : 0 < p.length := List.length_pos_iff.mpr hp
    simp only [List.getElem?_append, List.getElem?_take, List.getElem?_drop, List.getElem?_replicate, List.length_append, List.length_take,
      List.length_replicate]
    by_cases h1 : off ≤ i ∧ i < off + p.length
    · rw [if_pos h1, if_pos (by omega), if_neg (by omega)]
      congr 1
      omega
    · rw [if_neg h1]
      by_cases h2 : i < off
      · by_cases h3 : i < d.length
        · rw [if_pos (by omega), if_pos (by omega), if_pos (by omega), if_pos h2, if_pos h3]
        · rw [if_pos (by omega), if_pos (by omega), if_neg (by omega), if_pos (by omega), if_neg h3, if_pos ⟨h2, hp⟩]
      · rw [if_neg (by omega)]
        by_cases h3 : i < d.length
        · rw [if_pos h3]
          congr 1
          omega
        · rw [if_neg h3, if_neg (fun h => h2 h.1)]
          exact List.getElem?_eq_none (by omega)

theorem resized (d : Bytes) (size : Nat) : Resized d size (truncAt d size) := by
  intro i
  unfold truncAt
  simp only [List.getElem?_append, List.getElem?_take, List.getElem?_replicate, List.length_take]
  by_cases h : i < size
  · by_cases h2 : i < d.length
    · rw [if_pos (by omega), if_pos h, if_pos h, if_pos h2]
    · rw [if_neg (by omega), if_pos (by omega), if_pos h, if_neg h2]
  · rw [if_neg (by omega), if_neg (by omega), if_neg h]

/-- C125: a write puts its bytes at its offset, with zeros in a gap, truncation cuts or fills up with zeros, and `Stat` follows (`C125_size`);
nothing that is shown of another entry changes, nor its bytes. -/
theorem C125_write (now : Int) (cs : List Call) (n : Nat) (d : Bytes) (hd : bytes (run (newFs now) cs) n = some d) :
    (∀ t off p, ∃ d', bytes (run (newFs now) (cs ++ [.write n t off p])) n = some d' ∧ Patched d off p d') ∧
    (∀ size, ∃ d', bytes (run (newFs now) (cs ++ [.truncate n size])) n = some d' ∧ Resized d size d') ∧
    ∀ m, m ≠ n → ∀ c, (∃ t off p, c = .write n t off p) ∨ (∃ size, c = .truncate n size) →
      stat (run (newFs now) (cs ++ [c])) m = stat (run (newFs now) cs) m ∧ bytes (run (newFs now) (cs ++ [c])) m = bytes (run (newFs now) cs) m := by
  have ha := run_apart cs (newFs_inv now) (newFs_apart now)
  refine ⟨fun t off p => ?_, fun size => ?_, fun m hm c hc => ?_⟩
  · rw [run_append]
    obtain ⟨v, hv, h⟩ := onView_bytes hd (fun v => if p = [] then v else { v with content := writeAt v.content off p, mtime := t })
    refine ⟨_, h, ?_⟩
    have e : (if p = [] then v else { v with content := writeAt v.content off p, mtime := t }).content = writeAt d off p := by
      subst hv
      by_cases hp : p = []
      · simp only [hp, if_true, writeAt]
      · simp only [hp, if_false]
    simp only [e]
    exact patched d off p
  · rw [run_append]
    obtain ⟨v, hv, h⟩ := onView_bytes hd (fun v => { v with content := truncAt v.content size })
    subst hv
    exact ⟨_, h, resized v.content size⟩
  · rw [run_append]
    rcases hc with ⟨t, off, p, e⟩ | ⟨size, e⟩
    · subst e; exact onView_apart ha hm _
    · subst e; exact onView_apart ha hm _

example : bytes (run (newFs 0) [.create 1 ['f'] 0x1a4#32, .create 1 ['g'] 0x1a4#32, .write 1 2 3 [7, 8]]) 1 = some [0, 0, 0, 7, 8] := by decide

end Verif.Afero.Meta
