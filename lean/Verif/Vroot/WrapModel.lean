import Verif.Common.Path
import Verif.Vroot.Flag
/-
Model of the wrappers /repo/vroot/readonly.go and /repo/vroot/iofs_to.go over an arbitrary filesystem.
-/
namespace Verif.Vroot
open Verif.Path

/-! ### The interfaces -/

/-- Methods of `Fs` and `Root` (vroot.go 28-62).  Modes, owners and times are numbers. -/
inductive FsCall where
  | chmod (name : Str) (mode : Nat)
  | chown (name : Str) (uid gid : Int)
  | chtimes (name : Str) (atime mtime : Int)
  | close
  | create (name : Str)
  | lchown (name : Str) (uid gid : Int)
  | link (oldname newname : Str)
  | lstat (name : Str)
  | mkdir (name : Str) (perm : Nat)
  | mkdirAll (name : Str) (perm : Nat)
  | name
  | open_ (name : Str)
  | openFile (name : Str) (flag : Flag) (perm : Nat)
  | openRoot (name : Str)
  | readLink (name : Str)
  | remove (name : Str)
  | removeAll (name : Str)
  | rename (oldname newname : Str)
  | stat (name : Str)
  | symlink (oldname newname : Str)
deriving DecidableEq

/-- Methods of `File` (vroot.go 66-105). -/
inductive FileCall where
  | chmod (mode : Nat)
  | chown (uid gid : Int)
  | close
  | fd
  | name
  | read (n : Nat)
  | readAt (n : Nat) (off : Int)
  | readDir (n : Int)
  | readdir (n : Int)
  | readdirnames (n : Int)
  | seek (off whence : Int)
  | stat
  | sync
  | truncate (size : Int)
  | write (b : List Nat)
  | writeAt (b : List Nat) (off : Int)
  | writeString (s : Str)
deriving DecidableEq

inductive Errno where
  | rofs | perm | inval | notSupported | other (n : Nat)
deriving DecidableEq

/-- What a call returns: an error, nothing, a value (informations, names, bytes), a file or a root.  Files and roots are numbered. -/
inductive Ret (V : Type) where
  | err (e : Errno)
  | ok
  | value (v : V)
  | file (id : Nat)
  | root (id : Nat)
deriving DecidableEq

/-- Any filesystem: what each call on each of its roots and files does. -/
structure Inner (σ V : Type) where
  fs : Nat → FsCall → σ → σ × Ret V
  file : Nat → FileCall → σ → σ × Ret V

/-- What a client can hold. -/
inductive Obj where
  | root (id : Nat)
  | file (id : Nat)
deriving DecidableEq

inductive Call where
  | fs (c : FsCall)
  | file (c : FileCall)
deriving DecidableEq

/-- What is obtained by a call. -/
def Ret.obtained {V : Type} : Ret V → List Obj
  | .file id => [.file id]
  | .root id => [.root id]
  | _ => []

/-! ### readonly.go -/

/-- readonly.go 30-122 `ReadOnlyFs` and 124-232 `ReadOnlyRoot`, on the wrapped root `id`.  (`Fs` has no `OpenRoot`.) -/
def roFs {σ V : Type} (w : Inner σ V) (id : Nat) (c : FsCall) (s : σ) : σ × Ret V :=
  match c with
  | .chmod _ _ => (s, .err .rofs)
  | .chown _ _ _ => (s, .err .rofs)
  | .chtimes _ _ _ => (s, .err .rofs)
  | .close => w.fs id .close s
  | .create _ => (s, .err .rofs)
  | .lchown _ _ _ => (s, .err .rofs)
  | .link _ _ => (s, .err .rofs)
  | .lstat name => w.fs id (.lstat name) s
  | .mkdir _ _ => (s, .err .rofs)
  | .mkdirAll _ _ => (s, .err .rofs)
  | .name => w.fs id .name s
  | .open_ name => w.fs id (.open_ name) s
  | .openFile name flag perm => if writeOp flag then (s, .err .rofs) else w.fs id (.openFile name flag perm) s
  | .openRoot name => w.fs id (.openRoot name) s
  | .readLink name => w.fs id (.readLink name) s
  | .remove _ => (s, .err .rofs)
  | .removeAll _ => (s, .err .rofs)
  | .rename _ _ => (s, .err .rofs)
  | .stat name => w.fs id (.stat name) s
  | .symlink _ _ => (s, .err .rofs)

/-- readonly.go 253-255 `pathErr`: asks the wrapped file for its name. -/
def roDeny {σ V : Type} (w : Inner σ V) (id : Nat) (s : σ) : σ × Ret V := ((w.file id .name s).1, .err .perm)

/-- readonly.go 234-311 `ReadOnlyFile` on the wrapped file `id`. -/
def roFile {σ V : Type} (w : Inner σ V) (id : Nat) (c : FileCall) (s : σ) : σ × Ret V :=
  match c with
  | .chmod _ => roDeny w id s
  | .chown _ _ => roDeny w id s
  | .close => w.file id .close s
  | .fd => w.file id .fd s
  | .name => w.file id .name s
  | .read n => w.file id (.read n) s
  | .readAt n off => w.file id (.readAt n off) s
  | .readDir n => w.file id (.readDir n) s
  | .readdir n => w.file id (.readdir n) s
  | .readdirnames n => w.file id (.readdirnames n) s
  | .seek off whence => w.file id (.seek off whence) s
  | .stat => w.file id .stat s
  | .sync => roDeny w id s
  | .truncate _ => roDeny w id s
  | .write _ => roDeny w id s
  | .writeAt _ _ => roDeny w id s
  | .writeString _ => roDeny w id s

/-- A client of the read-only filesystem: the state of the wrapped one, and what the client holds (everything wrapped). -/
structure Client (σ : Type) where
  inner : σ
  held : List Obj

/-- One call of the client on something it holds. -/
def clientStep {σ V : Type} (w : Inner σ V) (st : Client σ) (o : Obj) (c : Call) : Client σ × Option (Ret V) :=
  if o ∈ st.held then
    match o, c with
    | .root id, .fs c => let r := roFs w id c st.inner; ({ inner := r.1, held := r.2.obtained ++ st.held }, some r.2)
    | .file id, .file c => let r := roFile w id c st.inner; ({ inner := r.1, held := r.2.obtained ++ st.held }, some r.2)
    | _, _ => (st, none)
  else (st, none)

def clientRun {σ V : Type} (w : Inner σ V) (st : Client σ) : List (Obj × Call) → Client σ
  | [] => st
  | (o, c) :: rest => clientRun w (clientStep w st o c).1 rest

/-! ### iofs_to.go -/

/-- std `fs.ValidPath`, of names that are valid UTF-8: the loop over the elements (io/fs/fs.go). `elem` is the element so far. -/
def validLoop (elem : Str) : Str → Bool
  | [] => decide (elem ≠ [] ∧ elem ≠ dot ∧ elem ≠ dotdot)
  | c :: rest =>
    if c = slash then decide (elem ≠ [] ∧ elem ≠ dot ∧ elem ≠ dotdot) && validLoop [] rest
    else validLoop (elem ++ [c]) rest

/-- std `fs.ValidPath`; `utf8` is std `utf8.ValidString`. -/
def validPath (utf8 : Str → Bool) (name : Str) : Bool := utf8 name && (decide (name = dot) || validLoop [] name)

/-- iofs_to.go 193-211 `validFsPath` on Unix, where `filepath.Localize` refuses names with a NUL. -/
def validFsPath (utf8 : Str → Bool) (name : Str) : Bool := validPath utf8 name && !decide (Char.ofNat 0 ∈ name)

/-- What the `fs.FS` of `ToIoFsRoot` (and, except for `sub`, of `ToIoFs`) offers: iofs_to.go 53-112, 118-187. -/
inductive IoCall where
  | close
  | open_ (name : Str)
  | readDir (name : Str)
  | readFile (name : Str)
  | readLink (name : Str)
  | lstat (name : Str)
  | stat (name : Str)
  | sub (name : Str)
deriving DecidableEq

/-- What a file opened through it offers: iofs_to.go 213-302 (`seek` and `readAt` only if the probe did not report "not supported"). -/
inductive IoFileCall where
  | close | name
  | read (n : Nat)
  | readDir (n : Int)
  | readdir (n : Int)
  | readdirnames (n : Int)
  | stat
  | seek (off whence : Int)
  | readAt (n : Nat) (off : Int)
deriving DecidableEq

/-- std `io.ReadAll`: read until an error (`fuel` reads at most); buffers of 512 bytes. -/
def readAll {σ V : Type} (w : Inner σ V) (id : Nat) : (fuel : Nat) → σ → σ × Ret V
  | 0, s => (s, .ok)
  | fuel + 1, s =>
    match w.file id (.read 512) s with
    | (s', .err e) => (s', .err e)
    | (s', _) => readAll w id fuel s'

/-- `lstat` of each of the names (iofs_to.go 273-282). -/
def lstatAll {σ V : Type} (w : Inner σ V) (root : Nat) : List Str → σ → σ
  | [], s => s
  | n :: rest, s => lstatAll w root rest (w.fs root (.lstat n) s).1

/-- funcs.go 16-35 `ReadDir` and 42-53 `ReadFile`, without native implementations: open, read, close. -/
def openThen {σ V : Type} (w : Inner σ V) (root : Nat) (name : Str) (body : Nat → σ → σ × Ret V) (s : σ) : σ × Ret V :=
  match w.fs root (.open_ name) s with
  | (s1, .file id) => let r := body id s1; ((w.file id .close r.1).1, r.2)
  | (s1, r) => (s1, r)

/-- iofs_to.go 118-187, 53-112. -/
def ioFs {σ V : Type} (utf8 : Str → Bool) (fuel : Nat) (w : Inner σ V) (root : Nat) (c : IoCall) (s : σ) : σ × Ret V :=
  match c with
  | .close => w.fs root .close s
  | .open_ name =>
    if validFsPath utf8 name = false then (s, .err .inval)
    else match w.fs root (.open_ name) s with
      | (s1, .file id) => ((w.file id (.readAt 1 0) s1).1, .file id)
      | (s1, r) => (s1, r)
  | .readDir name => if validFsPath utf8 name = false then (s, .err .inval) else openThen w root name (fun id => w.file id (.readDir (-1))) s
  | .readFile name => if validFsPath utf8 name = false then (s, .err .inval) else openThen w root name (fun id => readAll w id fuel) s
  | .readLink name => if validFsPath utf8 name = false then (s, .err .inval) else w.fs root (.readLink name) s
  | .lstat name => if validFsPath utf8 name = false then (s, .err .inval) else w.fs root (.lstat name) s
  | .stat name => if validFsPath utf8 name = false then (s, .err .inval) else w.fs root (.stat name) s
  | .sub name => if validFsPath utf8 name = false then (s, .err .inval) else w.fs root (.openRoot name) s

/-- iofs_to.go 250-302; `children` are the paths of the entries in the answer to `ReadDir`, `root` where the file was opened. -/
def ioFile {σ V : Type} (children : Ret V → List Str) (w : Inner σ V) (root id : Nat) (c : IoFileCall) (s : σ) : σ × Ret V :=
  match c with
  | .close => w.file id .close s
  | .name => w.file id .name s
  | .read n => w.file id (.read n) s
  | .readDir n => let r := w.file id (.readDir n) s; (lstatAll w root (children r.2) r.1, r.2)
  | .readdir n => w.file id (.readdir n) s
  | .readdirnames n => w.file id (.readdirnames n) s
  | .stat => w.file id .stat s
  | .seek off whence => w.file id (.seek off whence) s
  | .readAt n off => w.file id (.readAt n off) s

/-- What a client of the `fs.FS` does: a call on a root or a file. -/
inductive IoOp where
  | fs (root : Nat) (c : IoCall)
  | file (root id : Nat) (c : IoFileCall)

def ioStep {σ V : Type} (utf8 : Str → Bool) (fuel : Nat) (children : Ret V → List Str) (w : Inner σ V) (s : σ) : IoOp → σ × Ret V
  | .fs root c => ioFs utf8 fuel w root c s
  | .file root id c => ioFile children w root id c s

end Verif.Vroot
