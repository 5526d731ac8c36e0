import Verif.Common.Path
/-
Model of the merged view of the overlay: /repo/vroot-adapter/overlayfs/merged.go 34-193 and state.go 270-332.

Names are lists of components, leaf first: the entry `c` of the directory `d` is `c :: d`, the parent is the tail, the root is `[]`. (The
code's clean slash paths correspond one to one, `Verif.Overlay.Names`.) A layer is a tree of nodes. A layer resolves symlinks in the middle
of a path itself; where that leads is an arbitrary function (`follow`), since it depends on the backend.

Not modelled: times and owners, a layer failing to answer (an I/O error ends the lookup with that error, merged.go 70-74), Windows error codes.
-/
namespace Verif.Overlay.Stack
open Verif.Path

/-- A merged-view name, leaf first. -/
abbrev Name := List Str

/-- What a layer holds at a name. `mode` is the permission bits. `special` stands for devices, sockets, pipes. -/
inductive Node
  | dir (mode : Nat)
  | file (mode : Nat) (data : Str)
  | link (target : Str)
  | special
deriving DecidableEq, Repr

def Node.isDir : Node → Bool
  | .dir _ => true
  | _ => false

/-- info.Mode().Perm() -/
def Node.mode : Node → Nat
  | .dir m => m
  | .file m _ => m
  | .link _ => 0o777
  | .special => 0o666

abbrev Tree := Name → Option Node

/-- The errors the overlay tells apart (Unix). -/
inductive Errno
  | notExist | notDir | exist | isDir | notEmpty | xdev | inval | unsupported
  | other (code : Nat)
deriving DecidableEq, Repr

/-- One layer's content. `follow t n` is where the layer's own path resolution ends up when it meets the symlink stored at `n`; `enum t n` the
order in which it lists the directory `n`. -/
structure Layer where
  tree : Tree
  follow : Tree → Name → Except Errno Name
  enum : Tree → Name → List Str

/-- Where the symlink at `r` leads, when a directory is wanted there. -/
def Layer.jump (L : Layer) (r : Name) : Except Errno Name :=
  match L.follow L.tree r with
  | .error e => .error e
  | .ok q =>
    match L.tree q with
    | some (.dir _) => .ok q
    | some _ => .error .notDir
    | none => .error .notExist

/-- The layer's own name for the directory it reaches by following `n`, last component included. -/
def Layer.realDir (L : Layer) : Name → Except Errno Name
  | [] => .ok []
  | c :: d =>
    match L.realDir d with
    | .error e => .error e
    | .ok r =>
      match L.tree (c :: r) with
      | none => .error .notExist
      | some (.dir _) => .ok (c :: r)
      | some (.link _) => L.jump (c :: r)
      | some _ => .error .notDir

/-- The layer's own name for an entry: symlinks on the way followed, the last component not. -/
def Layer.entry (L : Layer) : Name → Except Errno Name
  | [] => .ok []
  | c :: d =>
    match L.realDir d with
    | .error e => .error e
    | .ok r => .ok (c :: r)

/-- `Lstat` on a layer (the backend's, as POSIX lstat). -/
def Layer.lstat (L : Layer) (n : Name) : Except Errno Node :=
  match L.entry n with
  | .error e => .error e
  | .ok r =>
    match L.tree r with
    | none => .error .notExist
    | some nd => .ok nd

/-- merged.go 90-108 `blockedIn`, from the parent `n` of the name asked about. -/
def Layer.blockedIn (L : Layer) : Name → Except Errno Bool
  | [] =>
    match L.lstat [] with
    | .ok nd => .ok (!nd.isDir)
    | .error .notDir => .ok false
    | .error .notExist => .ok false
    | .error e => .error e
  | c :: d =>
    match L.lstat (c :: d) with
    | .ok nd => .ok (!nd.isDir)
    | .error .notDir => L.blockedIn d
    | .error .notExist => .ok false
    | .error e => .error e

/-- state.go 48-51 `layerMask`. -/
structure Mask where
  wh : List Name
  op : List Name
deriving DecidableEq

/-- The overlay: layers `0` (the top) to `last`, their marks (state.go 38-43), the staging area of the top (`work/tmp-N`, copyup.go 134) with the counter
naming its files (copyup.go 63-69), and what the process's umask leaves of a mode. -/
structure Sys where
  last : Nat
  layer : Nat → Layer
  mask : Nat → Mask
  stage : Nat → Option Node
  temp : Nat
  umask : Nat → Nat

/-- state.go 293-301, one pass over the layers: the first `i` with `p i`, from `i` on, `k` layers in all; `cut` if there is none. -/
def scan (p : Nat → Bool) (cut : Nat) : (k i : Nat) → Nat
  | 0, _ => cut
  | k + 1, i => if p i then i else scan p cut k (i + 1)

/-- state.go 295-297. -/
def Sys.marked (S : Sys) (n : Name) (self : Bool) (i : Nat) : Bool := decide (n ∈ (S.mask i).wh) || (decide (n ∈ (S.mask i).op) && !self)

/-- state.go 292-305: the loop over the name and its ancestors. -/
def Sys.cutGo (S : Sys) (from_ : Nat) : Name → Bool → Nat → Nat
  | [], self, cut => scan (S.marked [] self) cut (cut + 1 - from_) from_
  | c :: d, self, cut => S.cutGo from_ d false (scan (S.marked (c :: d) self) cut (cut + 1 - from_) from_)

/-- state.go 290-306 `cutFrom`. -/
def Sys.cutFrom (S : Sys) (n : Name) (from_ : Nat) : Nat := S.cutGo from_ n true S.last

/-- state.go 275-277 `cut`. -/
def Sys.cut (S : Sys) (n : Name) : Nat := S.cutFrom n 0

/-- state.go 311-319 `childCut`. -/
def Sys.childCut (S : Sys) (n : Name) : Nat := scan (fun i => decide (n ∈ (S.mask i).op)) (S.cut n) (S.cut n + 1) 0

/-- state.go 325-332 `whiteoutAbove`. -/
def Sys.whiteoutAbove (S : Sys) (i : Nat) (n : Name) : Bool := (List.range i).any (fun j => decide (n ∈ (S.mask j).wh))

/-- merged.go 50-76: the loop over `k` layers from `i` on; `perr` is what `blockedErr` answers. -/
def Sys.search (S : Sys) (n : Name) (perr : Errno) : (k i : Nat) → Except Errno (Nat × Node)
  | 0, _ => .error .notExist
  | k + 1, i =>
    match (S.layer i).lstat n with
    | .ok nd => .ok (i, nd)
    | .error .notDir =>
      match (S.layer i).blockedIn n.tail with
      | .error e => .error e
      | .ok true => .error perr
      | .ok false => S.search n perr k (i + 1)
    | .error .notExist => S.search n perr k (i + 1)
    | .error e => .error e

/-- merged.go 118-122: from the lookup of the parent. -/
def blockedErr : Except Errno (Nat × Node) → Errno
  | .ok (_, .dir _) => .notExist
  | _ => .notDir

/-- merged.go 34-36, 47-77, 114-123 `lookup`. -/
def Sys.lookup (S : Sys) : Name → Except Errno (Nat × Node)
  | [] => S.search [] .notDir (S.cutFrom [] 0 + 1) 0
  | c :: d => S.search (c :: d) (blockedErr (S.lookup d)) (S.cutFrom (c :: d) 0 + 1) 0

/-- merged.go 114-123 `blockedErr`. -/
def Sys.perr (S : Sys) : Name → Errno
  | [] => .notDir
  | _ :: d => blockedErr (S.lookup d)

/-- merged.go 47-77 `lookupFrom`. -/
def Sys.lookupFrom (S : Sys) (n : Name) (from_ : Nat) : Except Errno (Nat × Node) :=
  S.search n (S.perr n) (S.cutFrom n from_ + 1 - from_) from_

/-- An entry of a listing: its name, the layer it comes from, and what that layer holds. -/
structure Entry where
  name : Str
  layer : Nat
  node : Node
deriving DecidableEq, Repr

/-- merged.go 173-182: the entries of one layer, after those already collected. -/
def Sys.collect (S : Sys) (d : Name) (i : Nat) (r : Name) : List Str → List Entry → List Entry
  | [], acc => acc
  | c :: cs, acc =>
    if c ∈ acc.map Entry.name ∨ S.whiteoutAbove i (c :: d) = true then S.collect d i r cs acc
    else
      match (S.layer i).tree (c :: r) with
      | none => S.collect d i r cs acc
      | some nd => S.collect d i r cs (acc ++ [⟨c, i, nd⟩])

/-- merged.go 146-184: the loop over `k` layers from `i` on. A layer lists a directory under its own name for it. -/
def Sys.readLoop (S : Sys) (d : Name) : (k i : Nat) → List Entry → Except Errno (List Entry)
  | 0, _, acc => .ok acc
  | k + 1, i, acc =>
    match (S.layer i).lstat d with
    | .ok (.dir _) =>
      match (S.layer i).entry d with
      | .error e => .error e
      | .ok r => S.readLoop d k (i + 1) (S.collect d i r ((S.layer i).enum (S.layer i).tree r) acc)
    | .ok _ => .ok acc
    | .error .notDir =>
      match (S.layer i).blockedIn d.tail with
      | .error e => .error e
      | .ok true => .ok acc
      | .ok false => S.readLoop d k (i + 1) acc
    | .error .notExist => S.readLoop d k (i + 1) acc
    | .error e => .error e

/-- Byte order of names (`cmp.Compare` on strings, merged.go 187-193); a character stands for a byte. -/
def nameLe : Str → Str → Bool
  | [], _ => true
  | _ :: _, [] => false
  | a :: as, b :: bs => if a.val < b.val then true else if b.val < a.val then false else nameLe as bs

/-- Insertion into a sorted list. -/
def insertEntry (e : Entry) : List Entry → List Entry
  | [] => [e]
  | x :: xs => if nameLe e.name x.name then e :: x :: xs else x :: insertEntry e xs

/-- merged.go 187-193 `sortEntries`. (Any sorting function gives the same list: the names differ.) -/
def sortEntries : List Entry → List Entry
  | [] => []
  | e :: es => insertEntry e (sortEntries es)

/-- merged.go 133-185 `readDir`. -/
def Sys.readDir (S : Sys) (d : Name) : Except Errno (List Entry) :=
  match S.lookup d with
  | .error e => .error e
  | .ok (i, .dir _) => (S.readLoop d (S.childCut d + 1 - i) i []).map sortEntries
  | .ok _ => .error .notDir

end Verif.Overlay.Stack
