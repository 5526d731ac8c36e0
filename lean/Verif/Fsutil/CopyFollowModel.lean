import Verif.Fsutil.CopyPathModel
/-
Model of /repo/fsutil/copy_fs.go 57-250 (`CopyAll`, `CopyPath`, `copyEntry`) over a destination that behaves like a directory of the operating system:
the calls follow symlinks, and access is denied to a user who is not the superuser. The programs are those of `CopyModel` and `CopyPathModel`; the calls of
the destination are other ones. The source is as there.

The destination is rooted: a link with an absolute target, and a way that leads above the root, is refused. Everything belongs to the user who copies.
-/
namespace Verif.Fsutil.Copy
open Verif.Path

/-- Who copies, and how many links a way may lead through. -/
structure View where
  /-- access is denied to nobody -/
  sup : Bool
  /-- 40 on Linux -/
  lim : Nat

/-- The owner's bits: a directory may be searched; a directory or a file may be written. -/
def View.search (v : View) (m : Nat) : Bool := v.sup || (m / 64) % 2 = 1
def View.write (v : View) (m : Nat) : Bool := v.sup || (m / 128) % 2 = 1

/-- Where a way ends, as far as no link is in it. -/
inductive Stop where
  | place (k : List Str)
  | link (here : List Str) (target : Str) (rest : List Str)
  | err (er : Err)

/-- Go from a directory, name by name. A link as the last name is followed if `last` says so. -/
def scan (v : View) (d : Disk) (last : Bool) (here : List Str) : List Str → Stop
  | [] => .place here
  | c :: cs => match d here with
    | none => .err .notExist
    | some (.dir m) =>
      if v.search m = false then .err .denied
      else if c = dotdot then (if here = [] then .err .escapes else scan v d last here.dropLast cs)
      else match d (here ++ [c]) with
        | some (.link t) => if cs = [] ∧ last = false then .place (here ++ [c]) else .link here t cs
        | _ => scan v d last (here ++ [c]) cs
    | some _ => .err .notDir

/-- The names in the target of a link. -/
def names (t : Str) : List Str := (split t).filter (fun c => c ≠ [] ∧ c ≠ dot)

/-- The place a way leads to. -/
def real (v : View) (d : Disk) (last : Bool) : Nat → List Str → List Str → Except Err (List Str)
  | n, here, way => match scan v d last here way with
    | .place k => .ok k
    | .err er => .error er
    | .link h t rest => match n with
      | 0 => .error .loop
      | n + 1 => if isAbs t then .error .escapes else real v d last n h (names t ++ rest)

/-- The directory a new entry is put into must be one that may be changed. -/
def mayCreate (v : View) (k : List Str) : P Unit := do
  let d ← Prog.get
  match d k.dropLast with
  | some (.dir m) => if v.write m then pure () else Prog.fail .denied
  | some _ => Prog.fail .notDir
  | none => Prog.fail .notExist

/-- The place a path of the destination leads to. -/
def resolve (v : View) (last : Bool) (p : Str) : P (List Str) := do
  let d ← Prog.get
  match real v d last v.lim [] (comps p) with
  | .ok k => pure k
  | .error er => Prog.fail er

/-- Mkdir -/
def mkdirF (v : View) (e : Env) (p : Str) (perm : Nat) : P Unit := do
  call e (.mkdir p)
  let k ← resolve v false p
  let d ← Prog.get
  match d k with
  | some _ => Prog.fail .exist
  | none => do
    mayCreate v k
    Prog.modify (fun d => d.set k (.dir (e.umask perm)))

/-- Chmod -/
def chmodF (v : View) (e : Env) (p : Str) (mode : Nat) : P Unit := do
  call e (.chmod p)
  let k ← resolve v true p
  let d ← Prog.get
  match d k with
  | none => Prog.fail .notExist
  | some (.dir _) => Prog.modify (fun d => d.set k (.dir mode))
  | some (.file _ b) => Prog.modify (fun d => d.set k (.file mode b))
  | some (.link _) => Prog.fail .loop

/-- OpenFile(O_WRONLY|O_CREATE|O_TRUNC): the place of the file that is now open. -/
def openDstF (v : View) (e : Env) (p : Str) (perm : Nat) : P (List Str) := do
  call e (.openDst p)
  let k ← resolve v true p
  let d ← Prog.get
  match d k with
  | none => do
    mayCreate v k
    Prog.modify (fun d => d.set k (.file (e.umask perm) []))
    pure k
  | some (.file m _) =>
    if v.write m then do
      Prog.modify (fun d => d.set k (.file m []))
      pure k
    else Prog.fail .denied
  | some (.dir _) => Prog.fail .isDir
  | some (.link _) => Prog.fail .loop

/-- Symlink -/
def symlinkF (v : View) (e : Env) (target p : Str) : P Unit := do
  call e (.symlink p)
  let k ← resolve v false p
  let d ← Prog.get
  match d k with
  | some _ => Prog.fail .exist
  | none => do
    mayCreate v k
    Prog.modify (fun d => d.set k (.link target))

/-- copy_fs.go 190-194: an existing directory (or anything else in the place) is accepted. -/
def mkdirOrExistF (v : View) (e : Env) (p : Str) : P Unit := do
  let r ← Prog.attempt (mkdirF v e p modePerm)
  match r with
  | .error .exist => pure ()
  | .error err => Prog.fail err
  | .ok _ => pure ()

/-- copy_fs.go 173-250 `copyEntry` -/
def copyEntryF (v : View) (e : Env) (dst src : Str) : Ent → P Unit
  | .dir m => do
    mkdirOrExistF v e dst
    chmodF v e dst (e.mask m)
  | .file m b => do
    call e (.openSrc src)
    let k ← openDstF v e dst (e.mask m)
    copyBytes e src k 0 (pieces (e.cuts src) b)
  | .link t =>
    if e.links then do
      call e (.readLink src)
      symlinkF v e t dst
    else pure ()
  | .other => pure ()

/-- copy_fs.go 61-83 -/
def visitF (v : View) (e : Env) (root path : Str) (ent : Ent) : P Unit := do
  call e (.info path)
  copyEntryF v e (join2 root path) path ent

mutual
/-- std io/fs walk.go 78-108 `walkDir` -/
def walkNodeF (v : View) (e : Env) (root path : Str) : Node → P Unit
  | .mk ent kids => do
    visitF v e root path ent
    match ent with
    | .dir _ =>
      if e.fail (.readDir path) then do
        walkErr e (.io (.readDir path))
        walkKidsF v e root path (some (e.listed path)) kids
      else walkKidsF v e root path none kids
    | _ => pure ()
def walkKidsF (v : View) (e : Env) (root path : Str) : Option Nat → Kids → P Unit
  | _, .nil => pure ()
  | some 0, .cons _ _ _ => pure ()
  | lim, .cons name n rest => do
    walkNodeF v e root (join2 path name) n
    walkKidsF v e root path (lim.map (· - 1)) rest
end

/-- copy_fs.go 57-84 `CopyAll` -/
def copyAllF (v : View) (e : Env) (root : Str) (src : Node) : P Unit :=
  if e.fail .statRoot then walkErr e (.io .statRoot) else walkNodeF v e root dot src

/-- copy_fs.go 137-160: one directory. -/
def makeDirF (v : View) (e : Env) (src : Node) (root d : Str) : P Unit :=
  if d = dot then pure ()
  else do
    mkdirOrExistF v e d
    match relTo root d with
    | none => pure ()
    | some r =>
      if r = dot then pure ()
      else do
        call e (.stat r)
        match srcStat src r with
        | none => Prog.fail .notExist
        | some ent => chmodF v e d (e.mask (modeOf ent))

/-- copy_fs.go 137-160 -/
def makeDirsF (v : View) (e : Env) (src : Node) (root : Str) : List Str → P Unit
  | [] => pure ()
  | d :: ds => do
    makeDirF v e src root d
    makeDirsF v e src root ds

/-- copy_fs.go 163-169 -/
def copyEntriesF (v : View) (e : Env) (root : Str) : List (Str × Ent) → P Unit
  | [] => pure ()
  | x :: xs => do
    copyEntryF v e (join2 root x.1) x.1 x.2
    copyEntriesF v e root xs

/-- copy_fs.go 88-170 `CopyPath` -/
def copyPathF (v : View) (e : Env) (src : Node) (root : Str) (paths : List Str) : P Unit :=
  let root := clean root
  if isAbs root then Prog.fail .escapes
  else do
    let sources ← gather e src paths
    makeDirsF v e src root (Tarfs.sortKeys (sources.flatMap (fun x => parents root x.1)).eraseDups)
    copyEntriesF v e root sources

end Verif.Fsutil.Copy
