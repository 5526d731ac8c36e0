import Verif.Common.Path
import Verif.Vroot.WrapModel
/-
Model of the synthetic filesystem for afero, /repo/aferofs/synth: fs.go, dir.go, dirent.go, file.go, fd.go, and of fs_link.go `AddFile` and `Reallocate`.

The tree of `dirent`s is a value; a directory keeps its entries in the order of their addition (dir.go 13-21: `dirents` and `direntMap` hold the same
objects). A pointer to a directory of the tree is the place where it is. Calls are taken one after the other. What the code asks of a `FileView` is
recorded, and every such question may fail. Simplifications: times and owners are left out; a view whose `Stat` says "not exist" is not
added (file.go 41-47 would add it without mode); a file reported by `Stat` is told by its mode alone, not by its size; of the open flags the three access
modes, create, exclusive, append and truncate are modelled.
-/
namespace Verif.Afero
open Verif.Path

mutual
/-- dirent.go 11-18 `dirent`, without its name: a file (mode and view) or a directory (permission bits and entries). A directory's mode is only ever
used through `Perm` (dirent.go 111, dir.go 89), so its other bits are left out. -/
inductive Node where
  | file (mode view : Nat)
  | dir (mode : Nat) (ents : Ents)
/-- dir.go 10-22: the entries of a directory, oldest first. -/
inductive Ents where
  | nil
  | cons (name : Str) (n : Node) (rest : Ents)
end

/-- What a view can be asked. -/
inductive Ask where
  | stat (view : Nat)
  | open_ (view : Nat)
  | truncate (view : Nat)
  | close (view : Nat)
  | rename (view : Nat) (newname : Str)
  deriving DecidableEq

/-- The errors a view can return, as far as the code tells them apart. -/
inductive ViewErr where
  | notExist | other
  deriving DecidableEq

inductive Err where
  | invalid | nameTooLong | noent | notDir | acces | perm | exist | isDir | rofs | notEmpty | busy | inval | badf
  | view (e : ViewErr) | closedWith (e : ViewErr)
  deriving DecidableEq

/-- std `errors.Is(err, fs.ErrNotExist)` (ErrClosedWithError wraps the error of the view, fs.go 406). -/
def Err.isNotExist : Err → Bool
  | .noent => true
  | .view .notExist => true
  | .closedWith .notExist => true
  | _ => false

/-- fs.go 33-38 `Fs` (without tree) and the environment. -/
structure Env where
  umask : Nat
  /-- there is an allocator -/
  alloc : Bool
  /-- the mode that the `Stat` of a view allocated with this permission reports (impl_inmem.go 24: the permission bits) -/
  allocMode : Nat → Nat
  /-- std `utf8.ValidString` -/
  utf8 : Str → Bool
  /-- the answer to the n-th question asked of a view; `none` is success -/
  answer : Nat → Option ViewErr

/-- The tree, what views have been asked so far, and the number of views that exist. -/
structure St where
  root : Node
  asked : List Ask
  next : Nat

/-- fs.go 40-51 `newFsys`. -/
def St.new : St := ⟨.dir 511 .nil, [], 0⟩

/-! ### dir.go -/

/-- dir.go 37-45 `lookup` -/
def Ents.find : Ents → Str → Option Node
  | .nil, _ => none
  | .cons a n rest, c => if a = c then some n else rest.find c

/-- dir.go 128-137 `RemoveName` -/
def Ents.remove : Ents → Str → Ents
  | .nil, _ => .nil
  | .cons a n rest, c => if a = c then rest.remove c else .cons a n (rest.remove c)

/-- dir.go 124 `PushBack` -/
def Ents.push : Ents → Str → Node → Ents
  | .nil, c, k => .cons c k .nil
  | .cons a n rest, c, k => .cons a n (rest.push c k)

/-- dir.go 116-126 `AddDirent`: an entry of the same name is taken out first. Its last line returns nil, so the caller never learns of it. -/
def Ents.add (es : Ents) (c : Str) (k : Node) : Ents := (es.remove c).push c k

/-- dir.go 72-83 `ListName` -/
def Ents.names : Ents → List Str
  | .nil => []
  | .cons a _ rest => a :: rest.names

/-- A change of the entry behind a pointer. -/
def Ents.update : Ents → Str → (Node → Node) → Ents
  | .nil, _, _ => .nil
  | .cons a n rest, c, f => if a = c then .cons a (f n) (rest.update c f) else .cons a n (rest.update c f)

/-- A change of what is at a place. -/
def Node.modify : List Str → (Node → Node) → Node → Node
  | [], f, n => f n
  | c :: p, f, .dir m es => .dir m (es.update c (Node.modify p f))
  | _ :: _, _, n => n

/-! ### dirent.go -/

/-- dirent.go 87-89 `IsDir` -/
def Node.isDir : Node → Bool
  | .dir _ _ => true
  | .file _ _ => false

def Node.mode : Node → Nat
  | .dir m _ => m
  | .file m _ => m

/-- dirent.go 102-112 `hasPerm` -/
def hasPerm (mode userPerm : Nat) : Bool := ((mode &&& 511) >>> 6) &&& userPerm == userPerm

/-- dirent.go 114-116 `lookup` (never called on a file: every caller has made sure of a directory) -/
def Node.lookup : Node → Str → Option Node
  | .dir _ es, c => es.find c
  | .file _ _, _ => none

/-- dirent.go 35-46 `IsSearchableDir` of what a lookup gave. -/
def searchable : Option Node → Except Err Node
  | none => .error .noent
  | some (.file _ _) => .error .notDir
  | some (.dir m es) => if hasPerm m 1 then .ok (.dir m es) else .error .acces

/-- dirent.go 159-161 `addDirent` -/
def Node.add (c : Str) (k : Node) : Node → Node
  | .dir m es => .dir m (es.add c k)
  | n => n

/-- dirent.go 167-169 `removeName` -/
def Node.removeName (c : Str) : Node → Node
  | .dir m es => .dir m (es.remove c)
  | n => n

/-- dirent.go 177-182 `len` is zero -/
def Node.empty : Node → Bool
  | .dir _ (.cons _ _ _) => false
  | _ => true

/-- the bits of fs.ModeType -/
def modeType : Nat := 0x8F280000

/-- dirent.go 126-133 `chmod`, dir.go 96-100, file.go 140-144 -/
def Node.chmod (mode : Nat) : Node → Node
  | .dir _ es => .dir (mode &&& 511) es
  | .file _ v => .file (mode &&& (modeType ||| 511)) v

mutual
/-- dirent.go 184-191 `notifyClose`, dir.go 47-53: the views below, in the order in which they are told. -/
def Node.views : Node → List Nat
  | .file _ v => [v]
  | .dir _ es => es.views
def Ents.views : Ents → List Nat
  | .nil => []
  | .cons _ n rest => n.views ++ rest.views
end

/-! ### asking views -/

/-- One question to a view. -/
def ask (e : Env) (S : St) (a : Ask) : St × Option ViewErr := ({ S with asked := S.asked ++ [a] }, e.answer S.asked.length)

/-- Several views are told that they are no longer in use; their answers are not looked at. -/
def closeAll (S : St) (vs : List Nat) : St := { S with asked := S.asked ++ vs.map .close }

/-! ### fs.go -/

/-- fs.go 85-96 `validatePath` -/
def validate (e : Env) (path : Str) : Option Err :=
  if !Vroot.validPath e.utf8 path then some .invalid
  else if (base path).length > 255 then some .nameTooLong
  else none

/-- fs.go 118-128: the loop of `findParent`, over the elements of the path (a valid path has no empty ones). -/
def descend : Node → List Str → Except Err Node
  | n, [] => .ok n
  | n, [_] => .ok n
  | n, c :: rest => match searchable (n.lookup c) with
    | .error er => .error er
    | .ok k => descend k rest

/-- fs.go 98-129 `findParent`: the directory and where it is. -/
def findParent (e : Env) (root : Node) (path : Str) : Except Err (List Str × Node) :=
  match validate e path with
  | some er => .error er
  | none =>
    if path = dot then .ok ([], root)
    else match searchable (some root) with
      | .error er => .error er
      | .ok r => match descend r (split path) with
        | .error er => .error er
        | .ok n => .ok ((split path).dropLast, n)

/-- fs.go 131-145 `find` -/
def find (e : Env) (root : Node) (path : Str) : Except Err (List Str × Node) :=
  match findParent e root path with
  | .error er => .error er
  | .ok (loc, parent) =>
    if base path = dot then .ok (loc, parent)
    else match parent.lookup (base path) with
      | none => .error .noent
      | some n => .ok (loc ++ [base path], n)

/-- fs.go 147-159 `findWritableDir` -/
def findWritableDir (e : Env) (root : Node) (path : Str) : Except Err (List Str × Node) :=
  match find e root path with
  | .error er => .error er
  | .ok (loc, n) =>
    if !n.isDir then .error .notDir
    else if !hasPerm n.mode 2 then .error .acces
    else .ok (loc, n)

/-- fs.go 61-63 `maskPerm` -/
def maskPerm (e : Env) (perm : Nat) : Nat := (perm &&& 511) &&& (511 ^^^ (e.umask &&& 511))

def change (S : St) (loc : List Str) (f : Node → Node) : St := { S with root := S.root.modify loc f }

/-- fs.go 180-188 `Chmod` -/
def chmod (e : Env) (S : St) (name : Str) (mode : Nat) : St × Except Err Unit :=
  match find e S.root name with
  | .error er => (S, .error er)
  | .ok (loc, _) => (change S loc (Node.chmod mode), .ok ())

/-- fs.go 558-564 `Stat`: what is there and its mode. Of a file the view is asked. -/
def stat (e : Env) (S : St) (name : Str) : St × Except Err (Bool × Nat) :=
  match find e S.root name with
  | .error er => (S, .error er)
  | .ok (_, .dir m _) => (S, .ok (true, m))
  | .ok (_, .file m v) => match ask e S (.stat v) with
    | (S1, some er) => (S1, .error (.view er))
    | (S1, none) => (S1, .ok (false, m))

/-- fs.go 219-246 `mkdir` -/
def mkdir (e : Env) (S : St) (name : Str) (perm : Nat) : St × Except Err Unit :=
  match findWritableDir e S.root (dir name) with
  | .error er => (S, .error er)
  | .ok (loc, parent) =>
    if base name = dot then (S, .error .exist)
    else if (parent.lookup (base name)).isSome then (S, .error .exist)
    else if !hasPerm parent.mode 1 then (S, .error .acces)
    else if !hasPerm parent.mode 2 then (S, .error .perm)
    else (change S loc (Node.add (base name) (.dir (maskPerm e perm) .nil)), .ok ())

/-- fs.go 277-296: the loop of `mkdirAll`, below a directory. A directory that is missing is added and then looked at like any other. -/
def mkdirAllLoop (e : Env) (perm : Nat) : Node → List Str → Node × Option Err
  | n, [] => (n, none)
  | .file m v, _ :: _ => (.file m v, some .notDir)
  | .dir m es, c :: cs =>
    let es1 := match es.find c with
      | some _ => es
      | none => es.add c (.dir (maskPerm e perm) .nil)
    match searchable (es1.find c) with
    | .error er => (.dir m es1, some er)
    | .ok k =>
      let r := mkdirAllLoop e perm k cs
      (.dir m (es1.update c (fun _ => r.1)), r.2)

/-- fs.go 253-299 `mkdirAll` -/
def mkdirAll (e : Env) (S : St) (path : Str) (perm : Nat) : St × Except Err Unit :=
  match validate e path with
  | some er => (S, .error er)
  | none =>
    if path = dot then (S, .ok ())
    else match searchable (some S.root) with
      | .error er => (S, .error er)
      | .ok r =>
        let q := mkdirAllLoop e perm r (split path)
        ({ S with root := q.1 }, match q.2 with | some er => .error er | none => .ok ())

inductive Access where
  | rd | wr | rdwr
  deriving DecidableEq

structure Flag where
  acc : Access
  create : Bool
  excl : Bool
  trunc : Bool
  append : Bool
  deriving DecidableEq

/-- flag.go 5-14 `flagPerm` -/
def Flag.perm (f : Flag) : Nat := match f.acc with | .rdwr => 6 | .wr => 2 | .rd => 4
/-- flag.go 27-36 `flagWritable` -/
def Flag.writable (f : Flag) : Bool := match f.acc with | .rdwr => true | .wr => true | .rd => false

/-- What is opened. -/
inductive Handle where
  | dir (place : List Str)
  | file (view : Nat)
  deriving DecidableEq

/-- fd.go 12-25 `newOpenHandle`, file.go 100-110 -/
def openHandle (e : Env) (S : St) (loc : List Str) : Node → St × Except Err Handle
  | .dir _ _ => (S, .ok (.dir loc))
  | .file _ v => match ask e S (.open_ v) with
    | (S1, some er) => (S1, .error (.view er))
    | (S1, none) => (S1, .ok (.file v))

/-- fs.go 314-374 `openFile` -/
def openFile (e : Env) (S : St) (name : Str) (flag : Flag) (perm : Nat) : St × Except Err Handle :=
  match findParent e S.root name with
  | .error er => (S, .error er)
  | .ok (loc, parent) =>
    if base name = dot then openHandle e S [] S.root
    else match parent.lookup (base name) with
      | some ent =>
        if flag.excl then (S, .error .exist)
        else if !hasPerm ent.mode flag.perm then (S, .error .acces)
        else if ent.isDir && (flag.writable || flag.trunc) then (S, .error .isDir)
        else match ent with
          | .dir m es => openHandle e S (loc ++ [base name]) (.dir m es)
          | .file m v =>
            if flag.trunc then
              match ask e S (.truncate v) with
              | (S1, some er) => (S1, .error (.view er))
              | (S1, none) => openHandle e S1 (loc ++ [base name]) (.file m v)
            else openHandle e S (loc ++ [base name]) (.file m v)
      | none =>
        if !flag.create then (S, .error .noent)
        else if !hasPerm parent.mode 3 then (S, .error .acces)
        else if !e.alloc then (S, .error .rofs)
        else
          let v := S.next
          let S0 := { S with next := S.next + 1 }
          match ask e S0 (.stat v) with
          | (S1, some er) => (S1, .error (.view er))
          | (S1, none) => match ask e S1 (.open_ v) with
            | (S2, some er) => (S2, .error (.view er))
            | (S2, none) => (change S2 loc (Node.add (base name) (.file (e.allocMode perm) v)), .ok (.file v))

/-- fs.go 388-409 `removeFromParent` -/
def removeFromParent (e : Env) (S : St) (loc : List Str) (parent : Node) (b : Str) : St × Except Err Unit :=
  if b = dot then (S, .error .perm)
  else if !hasPerm parent.mode 3 then (S, .error .acces)
  else match parent.lookup b with
    | none => (S, .error .noent)
    | some ent =>
      if !ent.empty then (S, .error .notEmpty)
      else match ent with
        | .dir _ _ => (change S loc (Node.removeName b), .ok ())
        | .file _ v => match ask e S (.close v) with
          | (S1, some er) => (change S1 loc (Node.removeName b), .error (.closedWith er))
          | (S1, none) => (change S1 loc (Node.removeName b), .ok ())

/-- fs.go 376-386 `Remove` -/
def remove (e : Env) (S : St) (name : Str) : St × Except Err Unit :=
  match findParent e S.root name with
  | .error er => (S, .error er)
  | .ok (loc, parent) => removeFromParent e S loc parent (base name)

mutual
/-- fs.go 443-459 `removeAllFrom` for an entry that is there: what is left of it, the views told, and the error. `w`: the parent may be changed. A view's
error at closing is passed over (445-447). After its entries have been removed, a directory is not tried again (452-458). -/
def Node.prune (w : Bool) : Node → Option Node × List Nat × Option Err
  | .file m v => if !w then (some (.file m v), [], some .acces) else (none, [v], none)
  | .dir m .nil => if !w then (some (.dir m .nil), [], some .acces) else (none, [], none)
  | .dir m (.cons a n rest) =>
    if !w then (some (.dir m (.cons a n rest)), [], some .acces)
    else
      let r := (Ents.cons a n rest).prune (hasPerm m 3)
      (some (.dir m r.1), r.2.1, r.2.2)
/-- fs.go 452-457: the loop over the names listed. -/
def Ents.prune (w : Bool) : Ents → Ents × List Nat × Option Err
  | .nil => (.nil, [], none)
  | .cons a n rest =>
    match n.prune w with
    | (left, vs, some er) => ((match left with | some n' => .cons a n' rest | none => rest), vs, some er)
    | (left, vs, none) =>
      let r := rest.prune w
      ((match left with | some n' => .cons a n' r.1 | none => r.1), vs ++ r.2.1, r.2.2)
end

/-- fs.go 443-459 `removeAllFrom` -/
def removeAllFrom (S : St) (loc : List Str) (parent : Node) (b : Str) : St × Except Err Unit :=
  if b = dot then (S, .error .perm)
  else if !hasPerm parent.mode 3 then (S, .error .acces)
  else match parent.lookup b with
    | none => (S, .ok ())
    | some ent =>
      let r := ent.prune true
      let S1 := change (closeAll S r.2.1) loc (match r.1 with | none => Node.removeName b | some k => Node.modify [b] (fun _ => k))
      (S1, match r.2.2 with | some er => .error er | none => .ok ())

/-- fs.go 416-441 `removeAll` -/
def removeAll (e : Env) (S : St) (name : Str) : St × Except Err Unit :=
  match validate e name with
  | some er => (S, .error er)
  | none =>
    if name = dot then (S, .error .acces)
    else match remove e S name with
      | (S1, .ok _) => (S1, .ok ())
      | (S1, .error er) =>
        if er.isNotExist then (S1, .ok ())
        else match findParent e S1.root name with
          | .error er => (S1, .error er)
          | .ok (loc, parent) => removeAllFrom S1 loc parent (base name)

/-- fs.go 501-516: `findDirent` of `rename`. -/
def findDirent (e : Env) (root : Node) (name : Str) : Except Err (List Str × Option Node) :=
  match findParent e root name with
  | .error er => .error er
  | .ok (loc, parent) =>
    if !hasPerm parent.mode 2 then .error .acces
    else if base name = dot then .error .perm
    else .ok (loc, parent.lookup (base name))

/-- fs.go 535-545: what is at the new name must allow the move. -/
def mayReplace (old : Node) : Option Node → Option Err
  | none => none
  | some new =>
    if !old.isDir && new.isDir then some .isDir
    else if old.isDir && !new.isDir then some .notDir
    else if old.isDir && new.isDir && !new.empty then some .notEmpty
    else none

/-- fs.go 466-556 `rename`. 547-548: the entry is removed and added under the name it has, the base of the old name (dirent.go 11-13: `name` is never
changed); what it replaces is not reported by `AddDirent` (dir.go 125), so 549-551 never run. -/
def rename (e : Env) (S : St) (oldname newname : Str) : St × Except Err Unit :=
  match validate e oldname with
  | some er => (S, .error er)
  | none => match validate e newname with
    | some er => (S, .error er)
    | none =>
      if oldname = newname then (S, .ok ())
      else if oldname = dot ∨ newname = dot then (S, .error .busy)
      else if hasPrefix (newname ++ [slash]) (oldname ++ [slash]) then (S, .error .inval)
      else match findDirent e S.root oldname with
        | .error er => (S, .error er)
        | .ok (_, none) => (S, .error .noent)
        | .ok (oloc, some old) => match findDirent e S.root newname with
          | .error er => (S, .error er)
          | .ok (nloc, new) =>
            if old.isDir && !hasPerm old.mode 2 then (S, .error .acces)
            else match mayReplace old new with
              | some er => (S, .error er)
              | none =>
                let S1 := change (change S oloc (Node.removeName (base oldname))) nloc (Node.add (base oldname) old)
                (match old with
                  | .file _ v => (ask e S1 (.rename v newname)).1
                  | .dir _ _ => S1, .ok ())

/-! ### fs_link.go -/

/-- A view as `Stat` shows it when it is added. -/
structure View where
  id : Nat
  mode : Nat
  isDir : Bool

/-- fs_link.go 30-59 `addFile` -/
def addFile (e : Env) (S : St) (path : Str) (v : View) : St × Except Err Unit :=
  match ask e S (.stat v.id) with
  | (S1, some er) => (S1, .error (.view er))
  | (S1, none) =>
    if v.isDir then (S1, .error .isDir)
    else if filePart path = [] then (S1, .error .invalid)
    else match mkdirAll e S1 (clean (dirPart path)) 511 with
      | (S2, .error er) => (S2, .error er)
      | (S2, .ok _) => match find e S2.root (clean (dirPart path)) with
        | .error er => (S2, .error er)
        | .ok (loc, parent) => match searchable (some parent) with
          | .error er => (S2, .error er)
          | .ok _ =>
            if !hasPerm parent.mode 2 then (S2, .error .acces)
            else
              let S3 := match parent.lookup (filePart path) with
                | some ent => closeAll S2 ent.views
                | none => S2
              (change S3 loc (Node.add (base path) (.file v.mode v.id)), .ok ())

/-- fs_link.go 21-28 `AddFile` -/
def addFileCall (e : Env) (S : St) (path : Str) (v : View) : St × Except Err Unit :=
  match validate e path with
  | some er => (S, .error er)
  | none => addFile e S path v

/-- fs_link.go 65-109 `Reallocate`; `copied` says whether the content could be copied. (dirent.go 153-157 `copyMeta` gives the new entry the mode of the
old one.) -/
def reallocate (e : Env) (S : St) (path : Str) (copied : Option ViewErr) : St × Except Err Unit :=
  match find e S.root path with
  | .error er => (S, .error er)
  | .ok (_, .dir _ _) => (S, .error .badf)
  | .ok (loc, .file m old) => match ask e S (.open_ old) with
    | (S1, some er) => (S1, .error (.view er))
    | (S1, none) =>
      let v := S1.next
      match ask e { S1 with next := S1.next + 1 } (.open_ v) with
      | (S2, some er) => (S2, .error (.view er))
      | (S2, none) => match copied with
        | some er => (S2, .error (.view er))
        | none => match addFile e S2 path ⟨v, e.allocMode 511, false⟩ with
          | (S3, .error er) => (S3, .error er)
          | (S3, .ok _) =>
            let S4 := change S3 loc (Node.chmod m)
            match ask e S4 (.close old) with
            | (S5, some er) => (S5, .error (.closedWith er))
            | (S5, none) => (S5, .ok ())

end Verif.Afero
