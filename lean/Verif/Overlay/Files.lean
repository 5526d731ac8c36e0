import Verif.Common.Bytes
import Verif.Common.Path
/-!
Model of the identity of files in the overlay: hard links and open handles. Code: /repo/vroot-adapter/overlayfs/link.go 16-50,
open.go 14-79, fs.go 188-229 (`Open`, `OpenFile`), 259-262 (`track`), chmod.go 14-18, remove.go 18-55 and 126-143, rename.go 22-110,
write.go 29-78 and 94-99, copyup.go 118-165, file.go 83-103 (`trackedFile`: everything but `Close` and `Name` is the layer's handle).

The models of Ops.lean give every name a content of its own. Here names lead to files: the top layer is a table of names and a table of
files (inodes), so that two names can be one file and a handle stays with the file it was opened on.

Simplified: the names are those of one directory that the top layer holds, and what has a name is a regular file; the layers below are given
by what they show together at a name, as a file of theirs (masks among them: Merged.lean); calls of layers and of the metadata store do
not fail (failures and crashes: C55–C59, C68). What a handle writes is any function on the file, what it reads is the whole file.
`Option.DisableOpenFileRemoval` is off (C62).
-/
namespace Verif.Overlay.Files

/-- A file's permission bits and bytes. -/
structure File where
  perm : Nat
  data : Bytes
deriving DecidableEq

/-- The layers below: what they show at a name (merged.go 53-84 `lookupFrom(name, 1)`), and their files. They are never written to. -/
structure Lower where
  name : Str → Option Nat
  file : Nat → File

/-- A handle handed out: on a file of the top layer, with write access or without, or on a file of a lower layer (fs.go 220-227: read-only). -/
inductive Handle where
  | top (i : Nat) (w : Bool)
  | low (j : Nat)
  | closed
deriving DecidableEq

/-- The top layer's names and files, the whiteouts recorded for it, and the handles handed out. -/
structure State where
  top : Str → Option Nat
  file : Nat → File
  next : Nat
  wh : Str → Bool
  handles : List Handle

/-- What is asked of the overlay. `openW` is `OpenFile` with a flag that asks for more than a read (fs.go 201-203): `w` is write access,
the others are `O_CREATE`, `O_EXCL`, `O_TRUNC`. -/
inductive Call where
  | look (n : Str)
  | openR (n : Str)
  | openW (n : Str) (w creat excl trunc : Bool) (perm : Nat)
  | read (h : Nat)
  | change (h : Nat) (g : File → File)
  | chmodH (h : Nat) (perm : Nat)
  | close (h : Nat)
  | chmod (n : Str) (perm : Nat)
  | link (a b : Str)
  | remove (n : Str)
  | rename (a b : Str)

inductive Ans where
  | done
  | file (f : File)
  | handle (h : Nat)
  | exists_
  | missing
  | denied
deriving DecidableEq

def setAt {α : Type} [DecidableEq α] {β : Type} (f : α → β) (a : α) (b : β) : α → β := fun x => if x = a then b else f x

/-- merged.go 31-33 `lookup` at a name: the top layer first; a whiteout hides the layers below (state.go 300-320 `cutFrom`). -/
def lookup (L : Lower) (s : State) (n : Str) : Option (Nat ⊕ Nat) :=
  match s.top n with
  | some i => some (.inl i)
  | none => if s.wh n then none else (L.name n).map .inr

/-- write.go 48-75 `copyUp` with copyup.go 121-165 `copyRegular`: a name of a lower layer gets a new file of the top layer with the same bytes
and permission bits. -/
def copyUp (L : Lower) (n : Str) (s : State) : State :=
  match lookup L s n with
  | some (.inr j) =>
    { s with top := setAt s.top n (some s.next), file := setAt s.file s.next (L.file j), next := s.next + 1 }
  | _ => s

/-- fs.go 259-262 `track`. -/
def track (h : Handle) (s : State) : State × Ans := ({ s with handles := s.handles ++ [h] }, .handle s.handles.length)

/-- open.go 58-78: opening the file of the top layer, which has the name. -/
def openTop (n : Str) (w trunc : Bool) (s : State) : State × Ans :=
  match s.top n with
  | some i => track (.top i w) (if trunc then { s with file := setAt s.file i ⟨(s.file i).perm, []⟩ } else s)
  | none => (s, .missing)

/-- open.go 63-78: a new file, and the whiteout on its name lifted. -/
def createTop (n : Str) (w : Bool) (perm : Nat) (s : State) : State × Ans :=
  track (.top s.next w)
    { s with top := setAt s.top n (some s.next), file := setAt s.file s.next ⟨perm, []⟩, next := s.next + 1, wh := setAt s.wh n false }

/-- remove.go 127-137: the whiteout set when the layers below show the name, and the records dropped otherwise. -/
def mask (L : Lower) (n : Str) (s : State) : State := { s with wh := setAt s.wh n (L.name n).isSome }

/-- The rename of the top layer: rename(2) does nothing when both names are one file. -/
def renameTop (a b : Str) (s : State) : State :=
  if s.top a = s.top b then s else { s with top := setAt (setAt s.top b (s.top a)) a none }

def step (L : Lower) (c : Call) (s : State) : State × Ans :=
  match c with
  -- fs.go 160-168 and reading through a new handle
  | .look n =>
    match lookup L s n with
    | some (.inl i) => (s, .file (s.file i))
    | some (.inr j) => (s, .file (L.file j))
    | none => (s, .missing)
  -- fs.go 205-228
  | .openR n =>
    match lookup L s n with
    | some (.inl i) => track (.top i false) s
    | some (.inr j) => track (.low j) s
    | none => (s, .missing)
  -- open.go 21-79
  | .openW n w creat excl trunc perm =>
    match lookup L s n with
    | some _ => if creat && excl then (s, .exists_) else openTop n w trunc (copyUp L n s)
    | none => if creat then createTop n w perm s else (s, .missing)
  | .read h =>
    match s.handles[h]? with
    | some (.top i _) => (s, .file (s.file i))
    | some (.low j) => (s, .file (L.file j))
    | _ => (s, .denied)
  | .change h g =>
    match s.handles[h]? with
    | some (.top i true) => ({ s with file := setAt s.file i (g (s.file i)) }, .done)
    | _ => (s, .denied)
  -- fchmod(2) needs no write access; the read-only handle of vroot refuses
  | .chmodH h perm =>
    match s.handles[h]? with
    | some (.top i _) => ({ s with file := setAt s.file i ⟨perm, (s.file i).data⟩ }, .done)
    | _ => (s, .denied)
  | .close h => if h < s.handles.length then ({ s with handles := s.handles.set h .closed }, .done) else (s, .denied)
  -- chmod.go 14-18 with write.go 138-146
  | .chmod n perm =>
    match (copyUp L n s).top n with
    | some i =>
      let s1 := copyUp L n s
      ({ s1 with file := setAt s1.file i ⟨perm, (s1.file i).data⟩ }, .done)
    | none => (s, .missing)
  -- link.go 22-50
  | .link a b =>
    match lookup L s a, lookup L s b with
    | none, _ => (s, .missing)
    | some _, some _ => (s, .exists_)
    | some _, none =>
      let s1 := copyUp L a s
      ({ s1 with top := setAt s1.top b (s1.top a), wh := setAt s1.wh b false }, .done)
  -- remove.go 24-55
  | .remove n =>
    match lookup L s n with
    | none => (s, .missing)
    | some _ =>
      let s1 := mask L n s
      ({ s1 with top := setAt s1.top n none }, .done)
  -- rename.go 28-110
  | .rename a b =>
    match lookup L s a with
    | none => (s, .missing)
    | some _ =>
      if a = b then (s, .done)
      else
        let s1 := renameTop a b (copyUp L a s)
        let s2 := { s1 with wh := setAt s1.wh b false }
        (mask L a s2, .done)

/-- A history of calls: the state after it and the answers. -/
def run (L : Lower) : List Call → State → State × List Ans
  | [], s => (s, [])
  | c :: cs, s =>
    let r := step L c s
    let q := run L cs r.1
    (q.1, r.2 :: q.2)

end Verif.Overlay.Files
