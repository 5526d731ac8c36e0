import Verif.Common.Str
/-
Model of concurrent calls on a synthetic filesystem of aferofs: /repo/aferofs/synth/fs.go 96-151, 216-301, 309-400, 402-564 and dir.go 37-46, 63-80, 114-142, 159-165.

A call is a sequence of steps, each of which holds the lock of one directory: `lookup`, `AddDirent`, `RemoveName`, `Len`, `ListName`. Goroutines interleave between steps.
`ListFileInfo` and `notifyClose` look at other entries meanwhile, which changes no entry; that they wait for the locks of these is left out here and modelled in Verif/Locks/Afero.lean (C106).
Whether an entry is a directory or a file never changes (dirent.go 10-18), so it is part of its identity. Simplified: every permission is granted, views never fail, names are
given as lists of elements that passed `validatePath`; times, owners and modes are left out. An entry keeps the name it was created with (dirent.go 13; see C89).
-/
namespace Verif.Afero.Concurrent
open Verif

/-- A `dirent` (dirent.go 10-18): who made it, and whether it is a directory. -/
structure Id where
  owner : Nat
  num : Nat
  isDir : Bool
  deriving DecidableEq, Repr

/-- fs.go 46 the root. -/
def root : Id := ⟨0, 0, true⟩

/-- The entries of every directory (dir.go 10-22), in the order of insertion. -/
abbrev Heap := Id → List (Str × Id)

/-- dir.go 37-46 `lookup`. -/
def Heap.lookup (h : Heap) (d : Id) (n : Str) : Option Id := ((h d).find? (fun e => e.1 = n)).map (·.2)
/-- dir.go 114-124 `AddDirent`. -/
def Heap.add (h : Heap) (d : Id) (n : Str) (x : Id) : Heap := fun e => if e = d then (h d).filter (fun e => e.1 ≠ n) ++ [(n, x)] else h e
/-- dir.go 126-135 `RemoveName`. -/
def Heap.remove (h : Heap) (d : Id) (n : Str) : Heap := fun e => if e = d then (h d).filter (fun e => e.1 ≠ n) else h e

inductive Err where
  | noent | notdir | isdir | exist | notempty | busy | inval | perm | rofs
  deriving DecidableEq, Repr

/-- What a call reports. -/
inductive Res where
  | ok
  | found (x : Id)
  | listed (ns : List Str)
  | err (e : Err)
  deriving DecidableEq, Repr

/-- What is left to do of a goroutine, step by step. -/
inductive P where
  | done (rs : List Res)
  | crash
  | lookup (d : Id) (n : Str) (k : Option Id → P)
  | add (d : Id) (n : Str) (x : Id) (k : P)
  | remove (d : Id) (n : Str) (k : P)
  | len (d : Id) (k : Nat → P)
  | names (d : Id) (k : List Str → P)
  /-- dir.go 55-70 `ListFileInfo`: looks at every entry under the lock of the directory. -/
  | list (d : Id) (k : List Str → P)
  /-- dirent.go 184-191 `notifyClose`: closes the views at and below, under the locks of the directories. -/
  | close (x : Id) (k : P)
  | fresh (isDir : Bool) (k : Id → P)

/-- fs.go 96-127 `findParent`: the last element is not looked up; `[]` is ".". -/
def findParent (d : Id) : List Str → (Except Err Id → P) → P
  | [], k => k (.ok d)
  | [_], k => k (.ok d)
  | c :: c' :: r, k => .lookup d c fun
    | none => k (.error .noent)
    | some x => if x.isDir then findParent x (c' :: r) k else k (.error .notdir)

/-- fs.go 129-143 `find`. -/
def find (p : List Str) (k : Except Err Id → P) : P :=
  findParent root p fun
    | .error e => k (.error e)
    | .ok d => match p.getLast? with
      | none => k (.ok d)
      | some b => .lookup d b fun
        | none => k (.error .noent)
        | some x => k (.ok x)

/-- fs.go 216-244 `mkdir`. -/
def mkdir (p : List Str) (k : Res → P) : P :=
  find p.dropLast fun
    | .error e => k (.err e)
    | .ok d =>
      if d.isDir = false then k (.err .notdir)
      else match p.getLast? with
        | none => k (.err .exist)
        | some b => .lookup d b fun
          | some _ => k (.err .exist)
          | none => .fresh true fun x => .add d b x (k .ok)

/-- fs.go 251-301 `mkdirAll`, the loop. -/
def mkdirAll (d : Id) : List Str → (Res → P) → P
  | [], k => k .ok
  | c :: r, k => .lookup d c fun
    | none => .fresh true fun x => .add d c x (mkdirAll x r k)
    | some x => if x.isDir then mkdirAll x r k else k (.err .notdir)

/-- fs.go 316-371 `openFile`. -/
def openFile (p : List Str) (create excl write : Bool) (k : Res → P) : P :=
  findParent root p fun
    | .error e => k (.err e)
    | .ok d => match p.getLast? with
      | none => k (.found d)
      | some b => .lookup d b fun
        | some x => if excl then k (.err .exist) else if x.isDir && write then k (.err .isdir) else k (.found x)
        | none => if create = false then k (.err .noent) else .fresh false fun x => .add d b x (k (.found x))

/-- fs.go 385-408 `removeFromParent`: `none` when removed. -/
def removeFromParent (d : Id) (b : Str) (k : Option Err → P) : P :=
  .lookup d b fun
    | none => k (some .noent)
    | some x =>
      if x.isDir then .len x fun n => if n > 0 then k (some .notempty) else .close x (.remove d b (k none))
      else .close x (.remove d b (k none))

/-- fs.go 373-383 `Remove`. -/
def remove (p : List Str) (k : Option Err → P) : P :=
  findParent root p fun
    | .error e => k (some e)
    | .ok d => match p.getLast? with
      | none => k (some .perm)
      | some b => removeFromParent d b k

/-- fs.go 442-459 `removeAllFrom`, with a bound on the recursion; a directory that is gone, or is no directory any more, when it is looked up again is dereferenced as nil. -/
def removeAllFrom : Nat → Id → Str → (Res → P) → P
  | 0, _, _, _ => .crash
  | f + 1, d, b, k => removeFromParent d b fun
    | none => k .ok
    | some .noent => k .ok
    | some .notempty => .lookup d b fun
      | none => .crash
      | some x => if x.isDir then .names x fun ns => ns.foldr (fun c cont => removeAllFrom f x c fun r => if r = .ok then cont else k r) (k .ok) else .crash
    | some e => k (.err e)

/-- fs.go 415-440 `removeAll`. -/
def removeAll (fuel : Nat) (p : List Str) (k : Res → P) : P :=
  match p.getLast? with
  | none => k (.err .perm)
  | some b => remove p fun
    | none => k .ok
    | some .noent => k .ok
    | some _ => findParent root p fun
      | .error e => k (.err e)
      | .ok d => removeAllFrom fuel d b k

/-- fs.go 466-556 `rename`. -/
def rename (old new : List Str) (k : Res → P) : P :=
  if old = new then k .ok
  else match old.getLast?, new.getLast? with
    | some b, some b' =>
      if old.isPrefixOf new then k (.err .inval)
      else findParent root old fun
        | .error e => k (.err e)
        | .ok od => .lookup od b fun
          | none => k (.err .noent)
          | some x => findParent root new fun
            | .error e => k (.err e)
            | .ok nd => .lookup nd b' fun
              | none => .remove od b (.add nd b x (k .ok))
              | some y =>
                if x.isDir = false ∧ y.isDir then k (.err .isdir)
                else if x.isDir ∧ y.isDir = false then k (.err .notdir)
                else if x.isDir then .len y fun n => if n > 0 then k (.err .notempty) else .remove od b (.add nd b x (k .ok))
                else .remove od b (.add nd b x (k .ok))
    | _, _ => k (.err .busy)

/-- fs.go 558-564 `Stat`, as far as which entry it finds. -/
def stat (p : List Str) (k : Res → P) : P := find p fun | .error e => k (.err e) | .ok x => k (.found x)

/-- Opening a directory and reading its names (dir_handle.go 42-81, dir.go 55-70). -/
def readNames (p : List Str) (k : Res → P) : P :=
  find p fun | .error e => k (.err e) | .ok x => if x.isDir then .list x fun ns => k (.listed ns) else k (.err .notdir)

inductive Call where
  | stat (p : List Str)
  | readNames (p : List Str)
  | mkdir (p : List Str)
  | mkdirAll (p : List Str)
  | openFile (p : List Str) (create excl write : Bool)
  | remove (p : List Str)
  | removeAll (fuel : Nat) (p : List Str)
  | rename (old new : List Str)
  deriving DecidableEq, Repr

def Call.prog : Call → (Res → P) → P
  | .stat p, k => Concurrent.stat p k
  | .readNames p, k => Concurrent.readNames p k
  | .mkdir p, k => Concurrent.mkdir p k
  | .mkdirAll p, k => Concurrent.mkdirAll Concurrent.root p k
  | .openFile p c e w, k => Concurrent.openFile p c e w k
  | .remove p, k => Concurrent.remove p fun | none => k .ok | some e => k (.err e)
  | .removeAll f p, k => Concurrent.removeAll f p k
  | .rename o n, k => Concurrent.rename o n k

/-- A goroutine that makes calls one after the other. -/
def script : List Call → List Res → P
  | [], acc => .done acc
  | c :: cs, acc => c.prog fun r => script cs (acc ++ [r])

/-- A goroutine: what it has left to do and how many entries it has made. -/
structure Thread where
  prog : P
  made : Nat

/-- One step of a goroutine. -/
def step (i : Nat) (h : Heap) (t : Thread) : Heap × Thread :=
  match t.prog with
  | .done rs => (h, ⟨.done rs, t.made⟩)
  | .crash => (h, ⟨.crash, t.made⟩)
  | .lookup d n k => (h, ⟨k (h.lookup d n), t.made⟩)
  | .add d n x k => (h.add d n x, ⟨k, t.made⟩)
  | .remove d n k => (h.remove d n, ⟨k, t.made⟩)
  | .len d k => (h, ⟨k (h d).length, t.made⟩)
  | .names d k => (h, ⟨k ((h d).map (·.1)), t.made⟩)
  | .list d k => (h, ⟨k ((h d).map (·.1)), t.made⟩)
  | .close _ k => (h, ⟨k, t.made⟩)
  | .fresh b k => (h, ⟨k ⟨i + 1, t.made, b⟩, t.made + 1⟩)

/-- The filesystem and its goroutines. -/
structure Sys where
  heap : Heap
  threads : List Thread

def Sys.step (s : Sys) (i : Nat) : Sys :=
  match s.threads[i]? with
  | none => s
  | some t => ⟨(Concurrent.step i s.heap t).1, s.threads.set i (Concurrent.step i s.heap t).2⟩

def Sys.run (s : Sys) : List Nat → Sys
  | [] => s
  | i :: r => (s.step i).run r

def start (h : Heap) (scripts : List (List Call)) : Sys := ⟨h, scripts.map fun cs => ⟨script cs [], 0⟩⟩

/-- What a goroutine reported, once it is through. -/
def Sys.result (s : Sys) (i : Nat) : Option (List Res) :=
  match s.threads[i]? with
  | some ⟨.done rs, _⟩ => some rs
  | _ => none

def Sys.crashed (s : Sys) (i : Nat) : Bool :=
  match s.threads[i]? with
  | some ⟨.crash, _⟩ => true
  | _ => false

/-! ## What does not hold -/

def empty : Heap := fun _ => []
def a : Str := ['a']
def b : Str := ['b']
def c : Str := ['c']
def dirA : Id := ⟨0, 1, true⟩
def dirB : Id := ⟨0, 2, true⟩
def fileX : Id := ⟨0, 3, false⟩
/-- The root holds a/ and b/. -/
def two : Heap := fun d => if d = root then [(a, dirA), (b, dirB)] else []
/-- The root holds a/, which holds b. -/
def nested : Heap := fun d => if d = root then [(a, dirA)] else if d = dirA then [(b, fileX)] else []

/-- **C105** does not hold: two exclusive creations of the same name both succeed, with different files. -/
theorem C105_counterexample_exclusive : ∃ sched,
    let s := (start empty [[.openFile [a] true true true], [.openFile [a] true true true]]).run sched
    s.result 0 = some [.found ⟨1, 0, false⟩] ∧ s.result 1 = some [.found ⟨2, 0, false⟩] :=
  ⟨[0, 1, 0, 0, 1, 1], by decide +kernel⟩

/-- **C105** does not hold: a directory made by `MkdirAll` is gone although nothing was removed. -/
theorem C105_counterexample_mkdirAll : ∃ sched,
    let s := (start empty [[.mkdirAll [a, b], .stat [a, b]], [.mkdirAll [a, c]]]).run sched
    s.result 0 = some [.ok, .err .noent] ∧ s.result 1 = some [.ok] :=
  ⟨[0, 1, 0, 0, 0, 0, 0, 1, 1, 1, 1, 1, 0, 0], by decide +kernel⟩

/-- **C105** does not hold: of two directories renamed into each other both are gone. -/
theorem C105_counterexample_rename : ∃ sched,
    let s := (start two [[.rename [a] [b, c]], [.rename [b] [a, c]]]).run sched
    s.result 0 = some [.ok] ∧ s.result 1 = some [.ok] ∧ s.heap root = [] :=
  ⟨[0, 0, 0, 1, 1, 1, 0, 0, 1, 1], by decide +kernel⟩

/-- **C105** does not hold: a file being moved is at neither place. -/
theorem C105_counterexample_gap : ∃ sched,
    let h : Heap := fun d => if d = root then [(a, dirA), (b, dirB)] else if d = dirA then [(c, fileX)] else []
    let s := (start h [[.rename [a, c] [b, c]], [.stat [a, c], .stat [b, c]]]).run sched
    s.result 1 = some [.err .noent, .err .noent] ∧ s.result 0 = none :=
  ⟨[0, 0, 0, 0, 0, 1, 1, 1, 1], by decide +kernel⟩

/-- **C105** does not hold: `RemoveAll` dereferences nil when the directory goes away under it. -/
theorem C105_counterexample_crash : ∃ sched,
    ((start nested [[.removeAll 5 [a]], [.remove [a, b], .remove [a]]]).run sched).crashed 0 = true :=
  ⟨[0, 0, 0, 0, 1, 1, 1, 1, 1, 1, 1, 1, 0], by decide +kernel⟩

end Verif.Afero.Concurrent
