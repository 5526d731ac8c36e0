import Verif.Common.Str
/-
Model of the locks of the filesystems and of the calls that take them, for C106: sync.Mutex and sync.RWMutex, and the order in which the calls of
vroot/synthfs, vroot-adapter/overlayfs, vroot-adapter/sftpfs, tarfs and stream/httprange lock and unlock.

Only locking is modelled: what a call does between its lock operations is left out, except for the calls it makes into other code (views, layers, readers), which may lock too.
-/
namespace Verif.Locks
open Verif

/-- `RLock` or `Lock`. A `sync.Mutex` only knows `Lock`. -/
inductive Mode where
  | r
  | w
  deriving DecidableEq, Repr

/-- The locks of one filesystem. -/
inductive Kind where
  /-- overlayfs/file.go 120 `mergedDir.mu`, one for each directory handle. -/
  | mdir (n : Nat)
  /-- overlayfs/state.go 39 `overlayState.mu`. -/
  | ostate
  /-- overlayfs/file.go 88 `trackedFile.once`, held while its function runs. -/
  | once (n : Nat)
  /-- overlayfs/file.go 29 `handleTracker.mu`. -/
  | tracker
  /-- synthfs/handle.go 31 and handle_dir.go 23 `mu`, one for each handle. -/
  | handle (n : Nat)
  /-- synthfs/tree.go 20 `state.mu`. -/
  | tree
  /-- The lock of a handle that `OpenFile` has not returned yet: only the opening goroutine can take it. -/
  | young (n : Nat)
  /-- synthfs/view_mem_buf.go 120 `memHandle.mu`. -/
  | mem (n : Nat)
  /-- synthfs/view_mem_buf.go 28 `memBuf.mu`. -/
  | buf (n : Nat)
  /-- tarfs/entdir.go 203 `openDir.mu`. -/
  | tdir (n : Nat)
  /-- tarfs/entfile.go 34 `openFile.mu`. -/
  | tfile (n : Nat)
  /-- tarfs/entfile.go 36 `openFile.readMu`. -/
  | tread (n : Nat)
  /-- sftpfs/sftpfs.go 374 `sftpFile.dirMu`. -/
  | sdir (n : Nat)
  /-- httprange/stream.go 44 `stream.mu`. -/
  | lane
  deriving DecidableEq, Repr

/-- A filesystem and its place in the stack: layers and views of a filesystem are at a higher level. -/
structure Fs where
  lvl : Nat
  num : Nat
  deriving DecidableEq, Repr

structure Lock where
  fs : Fs
  kind : Kind
  deriving DecidableEq, Repr

inductive Op where
  | acq (l : Lock) (m : Mode)
  | rel (l : Lock) (m : Mode)
  deriving DecidableEq, Repr

/-- A goroutine: the lock operations it has yet to make, what it holds, and whether it waits in `Lock`. -/
structure Thread where
  todo : List Op
  held : List (Lock × Mode)
  pending : Bool
  deriving DecidableEq, Repr

abbrev Sys := List Thread

def free (s : Sys) (l : Lock) : Bool := s.all fun t => t.held.all fun h => h.1 ≠ l
def noWriter (s : Sys) (l : Lock) : Bool := s.all fun t => t.held.all fun h => h ≠ (l, Mode.w)
def noPending (s : Sys) (l : Lock) : Bool := s.all fun t => ! (t.pending && t.todo.head? = some (.acq l .w))

/-- Goroutine `i` tries its next operation. `Lock` first announces itself, then waits for everyone; `RLock` waits for a writer, and for writers announced, unless the runtime lets
it pass (`pass`; sync.RWMutex lets waiting readers in when a writer leaves, and only one writer announces itself at a time). Neither is granted to a goroutine that holds the lock
itself. -/
def step (s : Sys) (i : Nat) (pass : Bool) : Sys :=
  match s[i]? with
  | none => s
  | some t => match t.todo with
    | [] => s
    | .rel l m :: r => s.set i ⟨r, t.held.erase (l, m), false⟩
    | .acq l .w :: r =>
      if t.pending then (if free s l then s.set i ⟨r, (l, .w) :: t.held, false⟩ else s)
      else s.set i ⟨t.todo, t.held, true⟩
    | .acq l .r :: r => if noWriter s l && (pass || noPending s l) then s.set i ⟨r, (l, .r) :: t.held, false⟩ else s

/-- The state after `n` attempts, of the goroutines and with the luck that `f` says. -/
def run (f : Nat → Nat × Bool) (s : Sys) : Nat → Sys
  | 0 => s
  | n + 1 => step (run f s n) (f n).1 (f n).2

/-- Code that locks, does more code, unlocks (`defer`), and goes on. -/
inductive Code where
  | done
  | lock (l : Lock) (m : Mode) (inner rest : Code)

def Code.ops : Code → List Op
  | .done => []
  | .lock l m inner rest => .acq l m :: (inner.ops ++ .rel l m :: rest.ops)

/-- One after the other. -/
def Code.seq : Code → Code → Code
  | .done, c => c
  | .lock l m inner rest, c => .lock l m inner (rest.seq c)

/-- Lock, do, unlock. -/
def under (l : Lock) (m : Mode) (inner : Code) : Code := .lock l m inner .done

def goroutine (calls : List Code) : Thread := ⟨(calls.map Code.ops).flatten, [], false⟩

def start (gs : List (List Code)) : Sys := gs.map goroutine

/-- Whether everyone is through. -/
def finished (s : Sys) : Prop := ∀ t ∈ s, t.todo = []

/-! ## The calls -/

/-- The calls that lock. `v` is what is called into: views of a synthetic tree and their handles, layers and metadata stores of an overlay, the reader below a tar archive, the
client of an sftp file, the response body of a range request. -/
inductive Call where
  -- synthfs, on the tree
  /-- `Stat`, `Lstat`, `ReadLink` (inspect.go 12-46), `OpenRoot` (root.go 54-72), `fileHandle.Stat` (handle.go 140-150), `dirHandle.Stat` (handle_dir.go 49-53). -/
  | inspect (t : Fs) (v : Code)
  /-- `Mkdir`, `Chmod`, `Chown`, `Chtimes`, `Remove` (root.go 80 `withWriteLock`), `MkdirAll` (mkdir.go 18), `Symlink`, `Link` (link.go), `Rename` (rename.go 11), `RemoveAll` (remove.go 34), `AddFS` (add.go 95),
  `Chmod` and `Chown` of handles (handle.go 152-165, handle_dir.go 187-200). -/
  | change (t : Fs) (v : Code)
  /-- `AddFile` (add.go 30-84): the view is asked before the lock is taken. -/
  | addFile (t : Fs) (ask v : Code)
  /-- `OpenFile` (open.go 20-97): the view is opened; with `O_TRUNC` the new handle is asked to truncate, and closed if that fails. -/
  | openFile (t : Fs) (n : Nat) (v : Code) (trunc : Option (Code × Bool))
  -- synthfs, on handles
  /-- `fileHandle.Close` (handle.go 45-58). -/
  | closeFile (t : Fs) (n : Nat) (again : Bool) (v : Code)
  /-- `Read`, `ReadAt`, `Write`, `WriteAt`, `WriteString`, `Truncate`, `Seek`, `Sync` (handle.go 60-138). -/
  | useFile (t : Fs) (n : Nat) (v : Code)
  /-- `dirHandle.Close` (handle_dir.go 34-47). -/
  | closeDir (t : Fs) (n : Nat) (again : Bool)
  /-- `ReadDir`, `Readdir`, `Readdirnames`, `Seek` (handle_dir.go 81-185), with and without a look at the tree. -/
  | readDir (t : Fs) (n : Nat) (look : Bool)
  -- overlayfs
  /-- `Lstat`, `Stat`, `ReadLink`, `OpenRoot` (fs.go 149-185, 238-254). -/
  | oInspect (o : Fs) (v : Code)
  /-- `OpenFile` for reading (fs.go 201-230, 259-262). -/
  | oOpen (o : Fs) (v : Code)
  /-- `OpenFile` for writing (open.go 21-100). -/
  | oOpenWrite (o : Fs) (v : Code)
  /-- `Mkdir`, `MkdirAll`, `Link`, `Symlink`, `Rename`, `Remove`, `RemoveAll`, `Chmod` and the like (`mutateTop`), `Close`; removals may count handles (remove.go 96, 111). -/
  | oChange (o : Fs) (count : Bool) (v : Code)
  /-- `trackedFile.Close` of a file (file.go 99-103). -/
  | oCloseFile (o : Fs) (n : Nat) (v : Code)
  /-- `trackedFile.Close` of a directory: `mergedDir.Close` (file.go 150-158) first. -/
  | oCloseDir (o : Fs) (n : Nat) (v : Code)
  /-- `mergedDir.Fd`, `Stat` (file.go 134-144). -/
  | oDirStat (o : Fs) (n : Nat) (v : Code)
  /-- `ReadDir`, `Readdir`, `Readdirnames`, `Seek` (file.go 160-290): the listing is loaded once; `Readdir` asks the entries. -/
  | oReadDir (o : Fs) (n : Nat) (load : Option Code) (v : Code)
  /-- `mergedDir.Chmod`, `Chown` (file.go 315-355): `a` changes the layers, `b` opens the directory anew, `c` closes what was open. -/
  | oDirChange (o : Fs) (n : Nat) (a b c : Code)
  -- tarfs
  /-- Calls on a directory handle (entdir.go 212-300); `Seek` looks twice. -/
  | tarDir (t : Fs) (n : Nat) (twice : Bool)
  /-- `Read`, `Seek` (entfile.go 58-70, 84-95). -/
  | tarRead (t : Fs) (n : Nat) (v : Code)
  /-- `Stat`, `ReadAt`, `Close` (entfile.go 43-56, 72-82, 97-103). -/
  | tarUse (t : Fs) (n : Nat) (v : Code)
  -- sftpfs
  /-- `Readdir` and the others (sftpfs.go 404-460). -/
  | sftpDir (t : Fs) (n : Nat) (v : Code)
  -- httprange
  /-- `streamReadAt`, `kill`, `killDetached` (stream.go 88-120, 168-230). -/
  | lane (t : Fs) (v : Code)

/-- The lock of a filesystem. -/
def Fs.l (t : Fs) (k : Kind) : Lock := ⟨t, k⟩

def Call.code : Call → Code
  | .inspect t v => under (t.l .tree) .r v
  | .change t v => under (t.l .tree) .w v
  | .addFile t ask v => ask.seq (under (t.l .tree) .w v)
  | .openFile t _ v none => under (t.l .tree) .w v
  | .openFile t n v (some (tr, failed)) => under (t.l .tree) .w (v.seq ((under (t.l (.young n)) .w .done).seq (tr.seq
      (if failed then under (t.l (.young n)) .w (under (t.l .tree) .w .done) else .done))))
  | .closeFile t n again v => under (t.l (.handle n)) .w (if again then .done else (under (t.l .tree) .w .done).seq v)
  | .useFile t n v => (under (t.l (.handle n)) .w .done).seq v
  | .closeDir t n again => under (t.l (.handle n)) .w (if again then .done else under (t.l .tree) .w .done)
  | .readDir t n look => under (t.l (.handle n)) .w (if look then under (t.l .tree) .r .done else .done)
  | .oInspect o v => under (o.l .ostate) .r v
  | .oOpen o v => under (o.l .ostate) .r (v.seq (under (o.l .tracker) .w .done))
  | .oOpenWrite o v => under (o.l .ostate) .w (v.seq (under (o.l .tracker) .w .done))
  | .oChange o count v => under (o.l .ostate) .w (if count then (under (o.l .tracker) .w .done).seq v else v)
  | .oCloseFile o n v => v.seq (under (o.l (.once n)) .w (under (o.l .tracker) .w .done))
  | .oCloseDir o n v => (under (o.l (.mdir n)) .w v).seq (under (o.l (.once n)) .w (under (o.l .tracker) .w .done))
  | .oDirStat o n v => under (o.l (.mdir n)) .w v
  | .oReadDir o n load v => under (o.l (.mdir n)) .w (match load with | none => v | some w => (under (o.l .ostate) .r w).seq v)
  | .oDirChange o n a b c => under (o.l (.mdir n)) .w ((under (o.l .ostate) .w a).seq ((under (o.l .ostate) .r b).seq c))
  | .tarDir t n twice => (under (t.l (.tdir n)) .w .done).seq (if twice then under (t.l (.tdir n)) .w .done else .done)
  | .tarRead t n v => (under (t.l (.tfile n)) .w .done).seq (under (t.l (.tread n)) .w v)
  | .tarUse t n v => (under (t.l (.tfile n)) .w .done).seq v
  | .sftpDir t n v => (under (t.l (.sdir n)) .w v).seq (under (t.l (.sdir n)) .w .done)
  | .lane t v => under (t.l .lane) .w v

/-! Calls on files in memory (synthfs/view_mem_buf.go, view_mem.go): what `v` is for the files `OpenFile` creates. -/

/-- view_mem_buf.go 162-177 `Read`. -/
def memRead (t : Fs) (n k : Nat) : Code := under (t.l (.mem n)) .w (under (t.l (.buf k)) .r .done)
/-- 51-65 `ReadAt`, 34-43 `Stat` (view_mem.go asks it for the views). -/
def memReadAt (t : Fs) (k : Nat) : Code := under (t.l (.buf k)) .r .done
/-- 193-208 `Write`. -/
def memWrite (t : Fs) (n k : Nat) (append : Bool) : Code :=
  under (t.l (.mem n)) .w ((if append then under (t.l (.buf k)) .r .done else .done).seq (under (t.l (.buf k)) .w .done))
/-- 67-106 `WriteAt`, `Truncate`, 150-155 `Chmod`. -/
def memWriteAt (t : Fs) (k : Nat) : Code := under (t.l (.buf k)) .w .done
/-- 229-256 `Seek`. -/
def memSeek (t : Fs) (n k : Nat) (fromEnd : Bool) : Code := under (t.l (.mem n)) .w (if fromEnd then under (t.l (.buf k)) .r .done else .done)

end Verif.Locks
