import Verif.Common.Bytes
import Verif.Common.Str
import Verif.Common.Prog
/-
Model of /repo/fsutil/resumable.go (`Pull`, `Push` and their helpers) and of /repo/fsutil/resumable_fs.go (`FsSink`).

The disk is reduced to the three files these functions touch: the destination, its part file and its sidecar, all plain files in one
directory. Every call of the filesystem or of the source may fail; the environment decides which (`Env`), and how much of a failing write
reaches the disk. The states passed through are the crash points. Simplifications: file modes are left out; one process at a time; a
pre-commit hook reads the whole part file and accepts or rejects what it read (it does not write to the part file); `Close` of a file has no effect on what is on disk.
-/
namespace Verif.Fsutil.Pull

/-- resumable.go 25-33 `ContentInfo`: `[]` is the empty ETag, `none` the unknown size (-1). -/
structure Info where
  etag : Str
  size : Option Nat
  deriving DecidableEq, Repr

/-- The destination `name`, `name + suffix` and `name + suffix + ".etag"`. -/
structure Disk where
  target : Option Bytes
  part : Option Bytes
  side : Option Str
  deriving DecidableEq, Repr

/-- How a reader ends: EOF, or an error (a cancelled context included). -/
inductive End where
  | eof | err
  deriving DecidableEq, Repr

/-- A reader returned by `ResumableSource.Open`, with the content info: the results of its reads and how it ends. -/
structure Opened where
  info : Info
  reads : List Bytes
  ending : End
  deriving DecidableEq, Repr

/-- The places where the filesystem (or a hook) can report an error. -/
inductive Op where
  | statName | statPart | readSide | removePart | removeSide | openPart | openSide | closeSide | seek | hookSeek | hook (i : Nat)
  | closePart | rename | truncate | statOpen | openLocal | statLocal | seekLocal
  deriving DecidableEq, Repr

/-- The errors of the model. -/
inductive Err where
  | io (op : Op) | sizeMismatch | contentChanged | openSource | unexpectedEOF | copy | writeSide | renameNotExist
  deriving DecidableEq, Repr

/-- What the environment decides during one run. -/
structure Env where
  fail : Op → Bool
  /-- call number, offset ↦ result of `src.Open` -/
  src : Nat → Nat → Option Opened
  /-- answer of the `i`-th write of data: bytes accepted, and whether it returned nil -/
  wr : Nat → Nat × Bool
  /-- the same for the write of the sidecar -/
  sideWr : Nat × Bool
  /-- number of pre-commit hooks -/
  hooks : Nat
  /-- the verdict of the `i`-th hook on the bytes of the part file -/
  accept : Nat → Bytes → Bool

abbrev P := Prog Disk Err

/-- A call that fails when the environment says so and has no effect of its own. -/
def call (e : Env) (op : Op) : P Unit := if e.fail op then Prog.fail (.io op) else pure ()

/-- std `unicode.IsSpace`, ASCII part (the rest of `strings.TrimSpace` is left out). -/
def isSpace (c : Char) : Bool := c = ' ' || c = '\t' || c = '\n' || c = '\r' || c = '\x0b' || c = '\x0c'

/-- std `strings.TrimSpace` -/
def trimSpace (s : Str) : Str := ((s.dropWhile isSpace).reverse.dropWhile isSpace).reverse

/-- resumable.go 162-176 `removePartFiles` -/
def removePartFiles (e : Env) : P Unit := do
  let d ← Prog.get
  (match d.part with
    | none => pure ()
    | some _ => do
      call e .removePart
      Prog.modify (fun d => { d with part := none }))
  (match d.side with
    | none => pure ()
    | some _ => do
      call e .removeSide
      Prog.modify (fun d => { d with side := none }))

/-- resumable.go 180-197 `readSidecar` (and resumable_fs.go 142-156) -/
def readSidecar (e : Env) : P Str := do
  let d ← Prog.get
  match d.side with
  | none => pure []
  | some s => do
    call e .readSide
    pure (trimSpace s)

/-- resumable.go 200-214 `writeSidecar` (and resumable_fs.go 160-172): truncate, write, close. -/
def writeSidecar (e : Env) (etag : Str) : P Unit := do
  call e .openSide
  Prog.modify (fun d => { d with side := some [] })
  Prog.modify (fun d => { d with side := some (etag.take e.sideWr.1) })
  if e.sideWr.2 then do
    Prog.modify (fun d => { d with side := some etag })
    call e .closeSide
  else Prog.fail .writeSide

/-- A write at the end of the part file. -/
def appendPart (bs : Bytes) (d : Disk) : Disk := { d with part := d.part.map (· ++ bs) }

/-- resumable.go 219-246 `ctxCopy` (and `io.Copy` in resumable_fs.go 266), the file being positioned at its end. Returns the number of bytes
copied. -/
def copy (e : Env) (ending : End) : (i : Nat) → (reads : List Bytes) → P Nat
  | _, [] => if ending = .eof then pure 0 else Prog.fail .copy
  | i, c :: rest =>
    if c = [] then copy e ending i rest
    else do
      let n := min (e.wr i).1 c.length
      Prog.modify (appendPart (c.take n))
      if (e.wr i).2 = false ∨ n ≠ c.length then Prog.fail .copy
      else do
        let m ← copy e ending (i + 1) rest
        pure (c.length + m)

/-- resumable.go 290-325: where to resume, and the stored ETag. -/
def resumePoint (e : Env) (exp : Info) : P (Nat × Str) := do
  call e .statPart
  let d ← Prog.get
  match d.part with
  | none => pure (0, [])
  | some p => do
    let stored ← readSidecar e
    if (exp.size.any (fun n => n < p.length)) ∨ (stored ≠ [] ∧ exp.etag ≠ [] ∧ stored ≠ exp.etag) then do
      removePartFiles e
      pure (0, [])
    else pure (p.length, stored)

/-- `src.Open` -/
def openSource (e : Env) (k off : Nat) : P Opened :=
  match e.src k off with
  | none => Prog.fail .openSource
  | some o => pure o

/-- resumable.go 341-343 -/
def trusted (exp : Info) (srcEtag stored : Str) : Bool :=
  srcEtag = [] || srcEtag = stored || (stored = [] && exp.etag ≠ [] && srcEtag = exp.etag)

/-- resumable.go 327-356: open the source, restarting from 0 when the partial cannot be trusted. -/
def openChecked (e : Env) (exp : Info) (startAt : Nat) (stored : Str) : P (Opened × Nat × Str) := do
  let o ← openSource e 0 startAt
  if exp.etag ≠ [] ∧ o.info.etag ≠ [] ∧ o.info.etag ≠ exp.etag then Prog.fail .contentChanged
  else if startAt > 0 ∧ trusted exp o.info.etag stored = false then do
    removePartFiles e
    let o ← openSource e 1 0
    pure (o, 0, [])
  else pure (o, startAt, stored)

/-- resumable.go 359-371: `none` is the disagreement, `some none` an unknown size. -/
def effectiveSize (src exp : Option Nat) : Option (Option Nat) :=
  match src, exp with
  | some a, some b => if a ≠ b then none else some (some a)
  | some a, none => some (some a)
  | none, some b => some (some b)
  | none, none => some none

/-- resumable.go 374-377 -/
def effectiveETag (src exp : Str) : Str := if src = [] then exp else src

/-- resumable.go 423-434: the pre-commit hooks, each handed the part file positioned at its start. -/
def runHooks (e : Env) : (i n : Nat) → P Unit
  | _, 0 => pure ()
  | i, n + 1 =>
    if e.fail .hookSeek then do
      let _ ← Prog.attempt (removePartFiles e)
      Prog.fail (.io .hookSeek)
    else do
      let d ← Prog.get
      if e.accept i (d.part.getD []) then runHooks e (i + 1) n
      else do
        let _ ← Prog.attempt (removePartFiles e)
        Prog.fail (.io (.hook i))

/-- resumable.go 440 `fsys.Rename(partPath, name)`: atomic; fails without effect. -/
def renamePart (e : Env) : P Unit := do
  call e .rename
  let d ← Prog.get
  match d.part with
  | none => Prog.fail .renameNotExist
  | some p => Prog.modify (fun d => { d with target := some p, part := none })

/-- resumable.go 436-445: hooks, close, rename, and the ignored removal of the sidecar. -/
def commit (e : Env) : P Unit := do
  runHooks e 0 e.hooks
  call e .closePart
  renamePart e
  if e.fail .removeSide then pure () else Prog.modify (fun d => { d with side := none })

/-- resumable.go 382-390: open (and truncate or create) the part file. -/
def openPart (e : Env) (startAt : Nat) : P Unit := do
  call e .openPart
  Prog.modify (fun d => { d with part := if startAt = 0 then some [] else some (d.part.getD []) })

/-- resumable.go 379-420: open the part file, record the ETag, copy, and check the size. -/
def transfer (e : Env) (o : Opened) (startAt : Nat) (stored etag : Str) (size : Option Nat) : P Unit := do
  openPart e startAt
  (if etag ≠ [] ∧ etag ≠ stored then writeSidecar e etag else pure ())
  (if startAt > 0 then call e .seek else pure ())
  let n ← copy e o.ending 0 o.reads
  if size.any (fun s => startAt + n ≠ s) then Prog.fail .unexpectedEOF else pure ()

/-- resumable.go 268-446 `Pull` -/
def pull (e : Env) (exp : Info) : P Unit := do
  call e .statName
  let d ← Prog.get
  match d.target with
  | some t => if exp.size.any (fun n => t.length ≠ n) then Prog.fail .sizeMismatch else pure ()
  | none => do
    let (start0, stored0) ← resumePoint e exp
    let (o, startAt, stored) ← openChecked e exp start0 stored0
    match effectiveSize o.info.size exp.size with
    | none => Prog.fail .sizeMismatch
    | some size => do
      transfer e o startAt stored (effectiveETag o.info.etag exp.etag) size
      commit e

/-! ### `FsSink` and `Push` -/

/-- resumable.go 46-57 `SinkState` -/
structure SinkState where
  offset : Nat
  etag : Str
  complete : Bool
  deriving DecidableEq, Repr

/-- resumable_fs.go 180-205 `FsSink.State` -/
def sinkState (e : Env) : P SinkState := do
  call e .statName
  let d ← Prog.get
  match d.target with
  | some t => pure ⟨t.length, [], true⟩
  | none => do
    call e .statPart
    match d.part with
    | none => pure ⟨0, [], false⟩
    | some p => do
      let etag ← readSidecar e
      pure ⟨p.length, etag, false⟩

/-- resumable_fs.go 226-256: open the part file at `offset`, shortening it if needed. -/
def sinkOpen (e : Env) (offset : Nat) : P Unit := do
  call e .openPart
  Prog.modify (fun d => { d with part := if offset = 0 then some [] else some (d.part.getD []) })
  if offset = 0 then pure ()
  else do
    call e .statOpen
    let d ← Prog.get
    (if (d.part.getD []).length > offset then do
        call e .truncate
        Prog.modify (fun d => { d with part := d.part.map (·.take offset) })
      else if (d.part.getD []).length < offset then Prog.fail .sizeMismatch
      else pure ())
    call e .seek

/-- resumable_fs.go 213-274 `FsSink.Append` -/
def sinkAppend (e : Env) (etag : Str) (offset : Nat) (reads : List Bytes) (ending : End) : P Unit := do
  sinkOpen e offset
  (if etag ≠ [] then writeSidecar e etag else pure ())
  let _ ← copy e ending 0 reads
  call e .closePart

/-- resumable_fs.go 282-306 `FsSink.Commit` -/
def sinkCommit (e : Env) : P Unit := do
  call e .statName
  let d ← Prog.get
  match d.target with
  | some _ => do
    (match d.part with
      | none => pure ()
      | some _ => do
        call e .removePart
        Prog.modify (fun d => { d with part := none }))
    if e.fail .removeSide then pure () else Prog.modify (fun d => { d with side := none })
  | none => do
    renamePart e
    if e.fail .removeSide then pure () else Prog.modify (fun d => { d with side := none })

/-- resumable.go 460-523 `Push` to an `FsSink`: `size` is the size of the local file, `lcl off` what reading it from `off` gives (through
the limit and the context check). -/
def push (e : Env) (info : Info) (size : Nat) (lcl : Nat → List Bytes × End) : P Unit := do
  call e .openLocal
  call e .statLocal
  if info.size.any (fun n => n ≠ size) then Prog.fail .sizeMismatch
  else do
    let st ← sinkState e
    if st.complete then pure ()
    else do
      let offset := if (st.offset > size) ∨ (st.etag ≠ [] ∧ info.etag ≠ [] ∧ st.etag ≠ info.etag) then 0 else st.offset
      if offset = size then sinkCommit e
      else do
        (if offset > 0 then call e .seekLocal else pure ())
        sinkAppend e info.etag offset (lcl offset).1 (lcl offset).2
        sinkCommit e

end Verif.Fsutil.Pull
