import Verif.Common.Bytes
import Verif.Common.Str
import Verif.Fsutil.CopyModel
/-
Model of /repo/fsutil/safe_write.go 57-223: `SafeWriteOption.Write`, `Copy`, `CopyFs` and `safeOperation`.

A disk maps paths (component lists, no symlinks) to entries. An action of the code on the filesystem has crash points: the disks it goes
through. Effects reach the disk in the order they are made (no reordering by caches: that is what `SyncHook` is for). `Rename` is atomic,
as on a POSIX filesystem. Panics of hooks are in SafePanic.lean, concurrent writers in
SafeConc.lean.
-/
namespace Verif.Fsutil.Safe

/-- Entries of the disk, as in the model of the copy: directories and files with their modes, symlinks. -/
abbrev Ent := Copy.DEnt

abbrev Path := List Str
abbrev Disk := Path → Option Ent

/-- What is at and below `p`. -/
def sub (p : Path) (d : Disk) : Path → Option Ent := fun q => d (p ++ q)

/-- A piece of code acting on the filesystem: the disks it goes through, the disk it leaves, and whether it returned nil. -/
abbrev Act := Disk → List Disk × Disk × Bool

/-- What `safeOperation` does, for the log. -/
inductive Ev where
  | optPre (i : Nat) | argPre (i : Nat) | operation | argPost (i : Nat) | optPost (i : Nat) | close | rename | removeAll
  deriving DecidableEq, Repr

structure St where
  disk : Disk
  /-- every disk so far, the crash points -/
  trace : List Disk
  /-- what was called, and whether it returned nil -/
  log : List (Ev × Bool)

def runAct (ev : Ev) (a : Act) (st : St) : St × Bool :=
  let r := a st.disk
  ({ disk := r.2.1, trace := st.trace ++ r.1 ++ [r.2.1], log := st.log ++ [(ev, r.2.2)] }, r.2.2)

/-- safe_write.go 184-188 and the three other hook loops. Returns the failing event, if any. -/
def runHooks (tag : Nat → Ev) : (i : Nat) → List Act → St → St × Option Ev
  | _, [], st => (st, none)
  | i, h :: rest, st =>
    let r := runAct (tag i) h st
    if r.2 then runHooks tag (i + 1) rest r.1 else (r.1, some (tag i))

/-- std/`fsys.Rename(temp, target)`, when it succeeds: moves everything at and below `temp`, replacing what is at the target. -/
def moved (temp target : Path) (d : Disk) : Disk := fun q =>
  if target <+: q then d (temp ++ q.drop target.length)
  else if temp <+: q then none
  else d q

/-- `fsys.Rename`: fails without effect when the filesystem says so (`ok = false`) or when there is nothing to rename. -/
def renameAct (temp target : Path) (ok : Bool) : Act := fun d =>
  if ok ∧ d temp ≠ none then ([], moved temp target d, true) else ([], d, false)

/-- A `Close`: no effect on the disk. -/
def closeAct (ok : Bool) : Act := fun d => ([], d, ok)

structure Cfg where
  target : Path
  temp : Path
  optPre : List Act
  argPre : List Act
  op : Act
  argPost : List Act
  optPost : List Act
  ignoreCloseErr : Bool
  /-- outcomes chosen by the environment -/
  closeOk : Bool
  renameOk : Bool
  /-- `fsys.RemoveAll(temp)` -/
  removeAll : Act

/-- safe_write.go 174-181: the deferred cleanup, on error. -/
def cleanup (c : Cfg) (closed : Bool) (st : St) : St :=
  let st := if closed then st else (runAct .close (closeAct c.closeOk) st).1
  (runAct .removeAll c.removeAll st).1

/-- safe_write.go 212-222: closing and publishing. -/
def finish (c : Cfg) (st : St) : St × Option Ev :=
  let s1 := (runAct .close (closeAct c.closeOk) st).1
  if !c.closeOk && !c.ignoreCloseErr then (cleanup c true s1, some .close)
  else
    let r := runAct .rename (renameAct c.temp c.target c.renameOk) s1
    if r.2 then (r.1, none) else (cleanup c true r.1, some .rename)

/-- safe_write.go 159-223 `safeOperation`: the final state and the step whose error is returned. -/
def safeOperation (c : Cfg) (st : St) : St × Option Ev :=
  match runHooks .optPre 0 c.optPre st with
  | (st, some e) => (cleanup c false st, some e)
  | (st, none) =>
  match runHooks .argPre 0 c.argPre st with
  | (st, some e) => (cleanup c false st, some e)
  | (st, none) =>
  match runAct .operation c.op st with
  | (st, false) => (cleanup c false st, some .operation)
  | (st, true) =>
  match runHooks .argPost 0 c.argPost st with
  | (st, some e) => (cleanup c false st, some e)
  | (st, none) =>
  match runHooks .optPost 0 c.optPost st with
  | (st, some e) => (cleanup c false st, some e)
  | (st, none) =>
  finish c st

/-! ### the operations -/

/-- A write of the temporary file: bytes are added at the end. -/
def appendFile (temp : Path) (bs : Bytes) (d : Disk) : Disk := fun q =>
  if q = temp then (match d temp with
    | some (.file m c) => some (.file m (c ++ bs))
    | x => x)
  else d q

/-- How a reader ends. -/
inductive End where
  | eof | err
  deriving DecidableEq, Repr

/-- safe_write.go 118 / std `io.CopyBuffer`: `chunks` are the results of the reads, `ending` the last one; `w i` is the answer of write `i`:
bytes accepted and whether it returned nil. -/
def copyLoop (temp : Path) (ending : End) (w : Nat → Nat × Bool) : (i : Nat) → (chunks : List Bytes) → Act
  | _, [], d => ([], d, decide (ending = .eof))
  | i, c :: rest, d =>
    if c = [] then copyLoop temp ending w i rest d
    else
      let n := min (w i).1 c.length
      let d1 := appendFile temp (c.take n) d
      if !(w i).2 then ([], d1, false)
      else if n ≠ c.length then ([], d1, false)
      else
        let r := copyLoop temp ending w (i + 1) rest d1
        (d1 :: r.1, r.2.1, r.2.2)

/-- safe_write.go 149-154: the operation of `CopyFs`, a copy of the source to the path of the temporary. -/
def copyTree (e : Copy.Env) (tempPath : Str) (src : Copy.Node) : Act := fun d =>
  let r := Copy.copyAll e tempPath src d
  (r.1, r.2.1, r.2.2.isOk)

/-! ### creating the temporary -/

/-- How one attempt to open the temporary ends: opened, the name is taken, or another error. -/
inductive Try where
  | opened | taken | failed
  deriving DecidableEq, Repr

/-- One attempt: the name tried and what the filesystem answers (`callOk` to `OpenFile` or `Mkdir`, `openOk` to the `OpenFile` after a `Mkdir`). -/
structure Att where
  path : Path
  callOk : Bool
  openOk : Bool

/-- open_random.go 27-46: one attempt of `OpenFileRandom`, an exclusive creation; `mode` is what the filesystem makes of the permission. -/
def createTry (mode : Nat) (a : Att) (d : Disk) : Disk × Try :=
  if a.callOk = false then (d, .failed)
  else if d a.path ≠ none then (d, .taken)
  else (Copy.Disk.set d a.path (.file mode []), .opened)

/-- open_random.go 65-71: one attempt of `MkdirRandom`. Simplification: the error of the `OpenFile` is not `ErrExist`. -/
def mkdirTry (mode : Nat) (a : Att) (d : Disk) : Disk × Try :=
  if a.callOk = false then (d, .failed)
  else if d a.path ≠ none then (d, .taken)
  else
    let d1 := Copy.Disk.set d a.path (.dir mode)
    if a.openOk then (d1, .opened) else (d1, .failed)

/-- open_random.go 95-116: the loop over random names (`TempModel` has the names; here any list, whose end is `ErrMaxRetry`). -/
def openLoop (try_ : Att → Disk → Disk × Try) : List Att → Disk → Disk × Option Path
  | [], d => (d, none)
  | a :: rest, d =>
    match try_ a d with
    | (d1, .opened) => (d1, some a.path)
    | (d1, .taken) => openLoop try_ rest d1
    | (d1, .failed) => (d1, none)

/-- safe_write.go 58-157 `Write`, `Copy` and `CopyFs`: they differ in how the temporary is made and in the operation. The error is `none` for a failing
creation, or the failing step. -/
def safeRun (try_ : Att → Disk → Disk × Try) (atts : List Att) (cfg : Path → Cfg) (d0 : Disk) : St × Option (Option Ev) :=
  match openLoop try_ atts d0 with
  | (d1, none) => ({ disk := d1, trace := [d0, d1], log := [] }, some none)
  | (d1, some temp) =>
    let r := safeOperation (cfg temp) { disk := d1, trace := [d0, d1], log := [] }
    (r.1, r.2.map some)

end Verif.Fsutil.Safe
