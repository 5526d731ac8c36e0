import Verif.Common.Path
import Verif.Common.Prog
import Verif.Common.Bytes
/-
Model of /repo/fsutil/copy_fs.go: `CopyFsOption.CopyAll` (57-84), `copyEntry` (173-250), and of the std `fs.WalkDir` it drives.

The source is a finite tree that does not change. The destination is a map from paths (component lists, under its root) to entries with the ordinary
meaning of Mkdir, Chmod, OpenFile and Symlink. Every call on either side may fail; the environment decides which, and how much of a failing write
arrives. The states passed through are the crash points. Simplifications: permissions are not enforced and the destination path is not walked through
symlinks (`CopyFollowModel` does both); `SkipDir` is not used by the callback; errors of the deferred `Close` calls are ignored by the code and left out.
-/
namespace Verif.Fsutil.Copy
open Verif.Path

/-- An entry of the source; modes are numbers, their masking is a parameter. -/
inductive Ent where
  | dir (mode : Nat)
  | file (mode : Nat) (content : Bytes)
  | link (target : Str)
  | other
  deriving DecidableEq, Repr

mutual
/-- A source tree: an entry, and what is below it (for directories), in the order in which `ReadDir` lists it. -/
inductive Node where
  | mk (e : Ent) (kids : Kids)
inductive Kids where
  | nil
  | cons (name : Str) (n : Node) (rest : Kids)
end

/-- An entry of the destination. -/
inductive DEnt where
  | dir (mode : Nat)
  | file (mode : Nat) (content : Bytes)
  | link (target : Str)
  deriving DecidableEq, Repr

/-- The destination. -/
abbrev Disk := List Str → Option DEnt

/-- The calls that may fail. Each is made at most once for a path. -/
inductive Op where
  | statRoot | readDir (p : Str) | info (p : Str) | openSrc (p : Str) | read (p : Str) (i : Nat) | readLink (p : Str)
  | mkdir (p : Str) | chmod (p : Str) | openDst (p : Str) | symlink (p : Str) | stat (p : Str)
  deriving DecidableEq, Repr

inductive Err where
  | exist | notExist | notDir | isDir | io (op : Op) | write (p : Str) | escapes | denied | loop
  deriving DecidableEq, Repr

/-- What the environment decides, and the options. -/
structure Env where
  fail : Op → Bool
  /-- sizes of the reads of a file (the rest comes in one piece) -/
  cuts : Str → List Nat
  /-- the `i`-th write of a file: `none` is success, `some n` a failure after `n` bytes -/
  wr : Str → Nat → Option Nat
  /-- entries listed by a `ReadDir` that fails -/
  listed : Str → Nat
  /-- copy_fs.go 48-53 `maskPerm` -/
  mask : Nat → Nat
  /-- what the destination makes of the permission given at creation (umask) -/
  umask : Nat → Nat
  /-- copy_fs.go 63 `IgnoreErr` -/
  ignore : Err → Bool
  /-- the source has `ReadLink` and the destination has `Symlink` -/
  links : Bool

abbrev P := Prog Disk Err

def call (e : Env) (op : Op) : P Unit := if e.fail op then Prog.fail (.io op) else pure ()

/-- fs.ModePerm -/
def modePerm : Nat := 511

def Disk.set (d : Disk) (k : List Str) (v : DEnt) : Disk := fun k' => if k' = k then some v else d k'

/-- The parent of a new entry must be a directory. -/
def needParent (k : List Str) : P Unit := do
  let d ← Prog.get
  match d k.dropLast with
  | some (.dir _) => pure ()
  | some _ => Prog.fail .notDir
  | none => Prog.fail .notExist

/-- Mkdir of the destination -/
def mkdir (e : Env) (p : Str) (perm : Nat) : P Unit := do
  call e (.mkdir p)
  let d ← Prog.get
  match d (comps p) with
  | some _ => Prog.fail .exist
  | none => do
    needParent (comps p)
    Prog.modify (fun d => d.set (comps p) (.dir (e.umask perm)))

/-- Chmod of the destination (simplification: not through a symlink) -/
def chmod (e : Env) (p : Str) (mode : Nat) : P Unit := do
  call e (.chmod p)
  let d ← Prog.get
  match d (comps p) with
  | none => Prog.fail .notExist
  | some (.dir _) => Prog.modify (fun d => d.set (comps p) (.dir mode))
  | some (.file _ b) => Prog.modify (fun d => d.set (comps p) (.file mode b))
  | some (.link _) => Prog.fail .notExist

/-- OpenFile(O_WRONLY|O_CREATE|O_TRUNC) of the destination (simplification: not through a symlink) -/
def openDst (e : Env) (p : Str) (perm : Nat) : P Unit := do
  call e (.openDst p)
  let d ← Prog.get
  match d (comps p) with
  | none => do
    needParent (comps p)
    Prog.modify (fun d => d.set (comps p) (.file (e.umask perm) []))
  | some (.file m _) => Prog.modify (fun d => d.set (comps p) (.file m []))
  | some (.dir _) => Prog.fail .isDir
  | some (.link _) => Prog.fail .exist

/-- Symlink of the destination -/
def symlink (e : Env) (target p : Str) : P Unit := do
  call e (.symlink p)
  let d ← Prog.get
  match d (comps p) with
  | some _ => Prog.fail .exist
  | none => do
    needParent (comps p)
    Prog.modify (fun d => d.set (comps p) (.link target))

/-- Bytes added at the end of an open file. -/
def Disk.append (d : Disk) (k : List Str) (bs : Bytes) : Disk :=
  match d k with
  | some (.file m b) => d.set k (.file m (b ++ bs))
  | _ => d

/-- The pieces in which a content is read. -/
def pieces : List Nat → Bytes → List Bytes
  | [], b => [b]
  | n :: ns, b => b.take n :: pieces ns (b.drop n)

/-- copy_fs.go 223 std `io.CopyBuffer`: the pieces read are written one by one. -/
def copyBytes (e : Env) (src : Str) (k : List Str) : Nat → List Bytes → P Unit
  | _, [] => pure ()
  | i, b :: rest => do
    call e (.read src i)
    match e.wr src i with
    | some n => do
      Prog.modify (fun d => d.append k (b.take n))
      Prog.fail (.write src)
    | none => do
      Prog.modify (fun d => d.append k b)
      copyBytes e src k (i + 1) rest

/-- copy_fs.go 190-194: an existing directory is accepted. -/
def mkdirOrExist (e : Env) (p : Str) : P Unit := do
  let r ← Prog.attempt (mkdir e p modePerm)
  match r with
  | .error .exist => pure ()
  | .error err => Prog.fail err
  | .ok _ => pure ()

/-- copy_fs.go 173-250 `copyEntry` -/
def copyEntry (e : Env) (dst src : Str) : Ent → P Unit
  | .dir m => do
    mkdirOrExist e dst
    chmod e dst (e.mask m)
  | .file m b => do
    call e (.openSrc src)
    openDst e dst (e.mask m)
    copyBytes e src (comps dst) 0 (pieces (e.cuts src) b)
  | .link t =>
    if e.links then do
      call e (.readLink src)
      symlink e t dst
    else pure ()
  | .other => pure ()

/-- copy_fs.go 61-83: the callback, for an entry without walk error. -/
def visit (e : Env) (root path : Str) (ent : Ent) : P Unit := do
  call e (.info path)
  copyEntry e (join2 root path) path ent

/-- copy_fs.go 62-67: the callback, for a walk error. -/
def walkErr (e : Env) (err : Err) : P Unit := if e.ignore err then pure () else Prog.fail err

mutual
/-- std io/fs walk.go 78-108 `walkDir`: the entry, then its children. A failing `ReadDir` is reported to the callback, and what it listed is visited if the
callback lets it pass. -/
def walkNode (e : Env) (root path : Str) : Node → P Unit
  | .mk ent kids => do
    visit e root path ent
    match ent with
    | .dir _ =>
      if e.fail (.readDir path) then do
        walkErr e (.io (.readDir path))
        walkKids e root path (some (e.listed path)) kids
      else walkKids e root path none kids
    | _ => pure ()
/-- The loop of `walkDir`; the number is the number of entries listed. -/
def walkKids (e : Env) (root path : Str) : Option Nat → Kids → P Unit
  | _, .nil => pure ()
  | some 0, .cons _ _ _ => pure ()
  | lim, .cons name n rest => do
    walkNode e root (join2 path name) n
    walkKids e root path (lim.map (· - 1)) rest
end

/-- copy_fs.go 57-84 `CopyAll` with std `fs.WalkDir(src, ".", ...)`. -/
def copyAll (e : Env) (root : Str) (src : Node) : P Unit :=
  if e.fail .statRoot then walkErr e (.io .statRoot) else walkNode e root dot src

end Verif.Fsutil.Copy
