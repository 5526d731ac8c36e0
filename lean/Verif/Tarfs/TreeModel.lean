import Verif.Common.Path
/-
Model of the tree that /repo/tarfs builds from an archive and of name lookup in it: fs.go, entdir.go, headers.go 12-25,
entfile.go, enthardlink.go, entsymlink.go.
-/
namespace Verif.Tarfs
open Verif.Path

/-- Type flags of archive/tar as fs.go 76-90 and entdir.go 78-100 tell them apart: `reg` is TypeReg, TypeRegA, TypeGNUSparse; `dev` is
TypeChar, TypeBlock, TypeFifo; `other` everything else. -/
inductive TypeFlag where
  | reg | dir | symlink | link | dev | other
deriving DecidableEq, Repr

/-- headers.go 28-33 `Section` with its `tar.Header`, reduced to what naming depends on.  `id` tells sections apart (it stands for
the position of the body and all other header fields). -/
structure Hdr where
  name : Str
  typ : TypeFlag
  linkname : Str
  id : Nat
deriving DecidableEq, Repr

/-- fs.go 27-35 `FsOption`. -/
structure Opt where
  allowDev : Bool
  handleSymlink : Bool
  isRooted : Bool
deriving DecidableEq, Repr

/-! ### Collecting the headers -/

/-- Assignment to a Go map, as an association list. -/
def mapPut (m : List (Str × Hdr)) (k : Str) (h : Hdr) : List (Str × Hdr) :=
  match m with
  | [] => [(k, h)]
  | (k', h') :: rest => if k' = k then (k, h) :: rest else (k', h') :: mapPut rest k h

/-- Lookup in a Go map. -/
def mapGet (m : List (Str × Hdr)) (k : Str) : Option Hdr :=
  match m with
  | [] => none
  | (k', h') :: rest => if k' = k then some h' else mapGet rest k

/-- headers.go 12-25 `tryCollectHeaderOffsets`: by cleaned name, the last header wins. -/
def collect (hs : List Hdr) : List (Str × Hdr) := hs.foldl (fun m h => mapPut m (clean h.name) h) []

/-- Order of Go strings.  (Go compares bytes; for valid UTF-8 this is the order of the code points.) -/
def strLe : Str → Str → Bool
  | [], _ => true
  | _ :: _, [] => false
  | a :: s, b :: t => decide (a.toNat < b.toNat) || (decide (a.toNat = b.toNat) && strLe s t)

/-- Insertion into a sorted list. -/
def insertKey (k : Str) : List Str → List Str
  | [] => [k]
  | a :: rest => if strLe k a then k :: a :: rest else a :: insertKey k rest

/-- std `slices.Sorted` over the keys. -/
def sortKeys : List Str → List Str
  | [] => []
  | a :: rest => insertKey a (sortKeys rest)

/-! ### The tree -/

/-- The direntries of ent.go: `*dir` (entdir.go 16-21; implicit directories have no header), `*symlink`, `*hardlink`, `*file`. -/
inductive Ent where
  | dir (h : Option Hdr)
  | symlink (h : Hdr)
  | hardlink (h : Hdr)
  | file (h : Hdr)
deriving DecidableEq, Repr

/-- An element of `dir.ordered` (entdir.go 20): a pointer to the directory created for name `c`, or a leaf with its header. -/
inductive Slot where
  | at (c : Str)
  | leaf (h : Hdr)
deriving DecidableEq, Repr

/-- All directories of the tree, addressed by the path of names from the root.  A `*dir` pointer of the code is represented by the
path at which that directory was created; `ent p` is the entry at `p`, `names p` the keys of `dir.files` of the directory at `p`, in the
order they were first assigned, and `ord p` its `dir.ordered`.  Simplification: when an entry is replaced, everything beneath the old one is
forgotten (nothing can reach it any more, except through stale elements of `ordered`, whose headers do not change). -/
structure Tree where
  ent : List Str → Option Ent
  names : List Str → List Str
  ord : List Str → List Slot

/-- fs.go 53-67: the root directory alone. -/
def emptyTree (root : Hdr) : Tree :=
  { ent := fun p => if p = [] then some (.dir (some root)) else none, names := fun _ => [], ord := fun _ => [] }

/-- `currentDir.files[c] = e`, with a fresh `e`, and (when `slot` is given) `currentDir.ordered = append(currentDir.ordered, e)`:
entdir.go 56-58, 63-65, 84-85, 102-103. -/
def Tree.put (t : Tree) (d : List Str) (c : Str) (e : Ent) (slot : List Slot) : Tree :=
  { ent := fun q => if q = d ++ [c] then some e else if (d ++ [c]).isPrefixOf q then none else t.ent q
    names := fun q => if q = d then (if c ∈ t.names d then t.names d else t.names d ++ [c])
      else if (d ++ [c]).isPrefixOf q then [] else t.names q
    ord := fun q => if q = d then t.ord d ++ slot else if (d ++ [c]).isPrefixOf q then [] else t.ord q }

/-- entdir.go 53-74: make sure that the intermediate component is a directory. -/
def ensureDir (t : Tree) (cur : List Str) (c : Str) : Tree :=
  match t.ent (cur ++ [c]) with
  | some (.dir _) => t
  | _ => t.put cur c (.dir none) [.at c]

/-- entdir.go 77-100: the entry a header becomes. -/
def entOf (h : Hdr) : Ent :=
  match h.typ with
  | .dir => .dir (some h)
  | .symlink => .symlink h
  | .link => .hardlink h
  | _ => .file h

/-- entdir.go 75-105: the final component. -/
def addFinal (t : Tree) (cur : List Str) (c : Str) (h : Hdr) : Tree :=
  match h.typ with
  | .dir =>
    match t.ent (cur ++ [c]) with
    | some (.dir _) => { t with ent := fun q => if q = cur ++ [c] then some (.dir (some h)) else t.ent q }
    | some _ => t.put cur c (.dir (some h)) []
    | none => t.put cur c (.dir (some h)) [.at c]
  | _ => t.put cur c (entOf h) [.leaf h]

/-- entdir.go 40-106, the loop of `addChild` over the components.  (The code recognises the last component by counting bytes, lines
45-50; for the cleaned names it is called with, that is the last element of the split.) -/
def addLoop (t : Tree) (h : Hdr) : (cur : List Str) → List Str → Tree
  | _, [] => t
  | cur, [c] => addFinal t cur c h
  | cur, c :: d :: rest => addLoop (ensureDir t cur c) h (cur ++ [c]) (d :: rest)

/-- entdir.go 35-107 `addChild`, called on the root. -/
def addChild (t : Tree) (name : Str) (h : Hdr) : Tree := addLoop t h [] (split name)

/-- fs.go 76-90: which entries are taken. -/
def kept (opt : Opt) (h : Hdr) : Bool :=
  match h.typ with
  | .reg | .dir | .link => true
  | .symlink => opt.handleSymlink
  | .dev => opt.allowDev
  | .other => false

/-- fs.go 58-65: the header of the root when the archive has none. -/
def defaultRoot : Hdr := { name := ['.', '/'], typ := .dir, linkname := [], id := 0 }

/-- fs.go 70-92, one key of the loop. -/
def addKey (opt : Opt) (m : List (Str × Hdr)) (t : Tree) (key : Str) : Tree :=
  if hasPrefix key dotdot then t
  else match mapGet m key with
    | none => t
    | some h => if kept opt h then addChild t key h else t

/-- fs.go 53-67: the header of the root. -/
def rootOf (m : List (Str × Hdr)) : Hdr :=
  match mapGet m dot with
  | some h => h
  | none => defaultRoot

/-- fs.go 37-99 `New`, from the sequence of headers in the archive. -/
def newTree (opt : Opt) (hs : List Hdr) : Tree :=
  let m := collect hs
  (sortKeys ((m.map (·.1)).filter (· ≠ dot))).foldl (addKey opt m) (emptyTree (rootOf m))

/-! ### Lookup -/

inductive Err where
  | invalid | notExist | escapes | eloop | notDir | eof
deriving DecidableEq, Repr

/-- fs.go 20-25 `Fs`: the root is the path [], `sub` is `subRoot`. -/
structure Fsys where
  t : Tree
  sub : List Str
  rooted : Bool

/-- std `strings.Cut(rest, "/")`. -/
def cutSlash (s : Str) : Str × Str :=
  match cutFirst slash s with
  | some r => r
  | none => (s, [])

/-- entdir.go 117. -/
def maxLinks : Nat := 40

/-- Outcome of a lookup: the path of the entry found, or an error. -/
abbrev Look := Except Err (List Str)

/-- entdir.go 127-195, the loop of `openChildResolve`.  `hl` is `fsys.resolveHardlink`.  `none`: not finished within `fuel` rounds, or
`hl` does not return. -/
def openLoop (fs : Fsys) (hl : Hdr → Option Look) (skipLast : Bool) :
    (fuel : Nat) → (resolved : Nat) → (cur dirent : List Str) → (rest : Str) → Option Look
  | 0, _, _, _, _ => none
  | fuel + 1, resolved, cur, dirent, rest =>
    if rest = [] then some (.ok dirent)
    else
      let c := (cutSlash rest).1
      let rest' := (cutSlash rest).2
      if c = dot then some (.ok cur)
      else if c = dotdot then
        if fs.rooted ∧ (cur = [] ∨ cur = fs.sub) then some (.error .escapes)
        else if cur = [] then some (.error .notExist)
        else openLoop fs hl skipLast fuel resolved cur.dropLast dirent rest'
      else match fs.t.ent (cur ++ [c]) with
        | none => some (.error .notExist)
        | some (.symlink h) =>
          if rest' ≠ [] ∨ skipLast = false then
            if resolved ≥ maxLinks then some (.error .eloop)
            else if isAbs (clean h.linkname) then some (.error .escapes)
            else openLoop fs hl skipLast fuel (resolved + 1) cur (cur ++ [c]) (clean h.linkname ++ slash :: rest')
          else some (.ok (cur ++ [c]))
        | some (.dir _) =>
          if rest' = [] then some (.ok (cur ++ [c]))
          else openLoop fs hl skipLast fuel resolved (cur ++ [c]) (cur ++ [c]) rest'
        | some (.hardlink h) =>
          if rest' = [] then some (.ok (cur ++ [c]))
          else match hl h with
            | none => none
            | some (.error e) => some (.error e)
            | some (.ok p) =>
              match fs.t.ent p with
              | some (.dir _) => openLoop fs hl skipLast fuel resolved p (cur ++ [c]) rest'
              | _ => some (.error .notDir)
        | some (.file _) => if rest' = [] then some (.ok (cur ++ [c])) else some (.error .notDir)

/-- entdir.go 109-114 `openChild` on the directory `d`. -/
def openChild (fs : Fsys) (hl : Hdr → Option Look) (fuel : Nat) (d : List Str) (name : Str) (skipLast : Bool) : Option Look :=
  if name = dot then some (.ok d) else openLoop fs hl skipLast fuel 0 d d name

/-- fs.go 101-104 `resolveHardlink`; it and `openChildResolve` call each other, `depth` bounds the nesting. -/
def resolveHardlink (fs : Fsys) (fuel : Nat) : (depth : Nat) → Hdr → Option Look
  | 0, _ => none
  | depth + 1, h => openChild fs (resolveHardlink fs fuel depth) fuel [] (clean h.linkname) false

/-- std `fs.ValidPath`. -/
def validPath (name : Str) : Bool :=
  decide (name = dot) || (split name).all (fun c => decide (c ≠ [] ∧ c ≠ dot ∧ c ≠ dotdot))

/-- What fs.go 106-128 `findFile` returns: an entry, or a hard link together with the entry it was resolved to. -/
inductive Found where
  | plain (p : List Str)
  | overlay (p tgt : List Str)
deriving DecidableEq, Repr

/-- fs.go 106-128 `findFile`. -/
def findFile (fs : Fsys) (fuel depth : Nat) (name : Str) (skipLast : Bool) : Option (Except Err Found) :=
  if validPath name = false then some (.error .invalid)
  else match openChild fs (resolveHardlink fs fuel depth) fuel fs.sub name skipLast with
    | none => none
    | some (.error e) => some (.error e)
    | some (.ok p) =>
      match fs.t.ent p with
      | some (.hardlink h) =>
        match resolveHardlink fs fuel depth h with
        | none => none
        | some (.error e) => some (.error e)
        | some (.ok q) => some (.ok (.overlay p q))
      | _ => some (.ok (.plain p))

/-- What `Open` gives. -/
inductive Opened where
  | file (body info : Hdr)      -- contents of `body`, Stat of `info`
  | dir (p : List Str)
  | err (e : Err)
  | panic
deriving DecidableEq, Repr

/-- fs.go 130-136 `Open` with the `open` methods entfile.go 18-25, entdir.go 27-29, entsymlink.go 16-19, enthardlink.go 17-20 and 39-51. -/
def openFile (fs : Fsys) (fuel depth : Nat) (name : Str) : Option Opened :=
  match findFile fs fuel depth name false with
  | none => none
  | some (.error e) => some (.err e)
  | some (.ok (.plain p)) =>
    match fs.t.ent p with
    | some (.file h) => some (.file h h)
    | some (.dir _) => some (.dir p)
    | _ => some .panic
  | some (.ok (.overlay p q)) =>
    match fs.t.ent p, fs.t.ent q with
    | some (.hardlink h), some (.file b) => some (.file b h)
    | _, some (.dir _) => some (.dir q)
    | _, _ => some .panic

/-- std `tar.Header.FileInfo().Name()`. -/
def infoName (h : Hdr) : Str := if h.typ = .dir then base (clean h.name) else base h.name

/-- `ordered[i].header()`: the header of an element of `ordered` in the directory at `p`; `none` for an implicit directory. -/
def slotHdr (t : Tree) (p : List Str) : Slot → Option Hdr
  | .leaf h => some h
  | .at c => match t.ent (p ++ [c]) with
    | some (.dir h) => h
    | _ => none

/-- entdir.go 312-316: build the entries `cursor … cursor+k-1`; `none` is a panic (index out of range, or `header().h` of an
implicit directory). -/
def readEntries (t : Tree) (p : List Str) (slots : List Slot) : (k : Nat) → Option (List Hdr)
  | 0 => some []
  | k + 1 =>
    match slots with
    | [] => none
    | s :: rest =>
      match slotHdr t p s with
      | none => none
      | some h => (readEntries t p rest k).map (h :: ·)

/-- entdir.go 294-319 `ReadDir` on the open directory at `p` with cursor `cursor`: entries and error, and the new cursor. -/
def readDir (t : Tree) (p : List Str) (cursor : Nat) (n : Int) : Option ((List Hdr × Option Err) × Nat) :=
  if cursor ≥ (t.names p).length then
    if n ≤ 0 then some (([], none), cursor) else some (([], some .eof), cursor)
  else
    let n' : Int := if n ≤ 0 then ((t.ord p).length : Int) - cursor else n
    let k := (min n' ((t.names p).length - cursor : Int)).toNat
    match readEntries t p ((t.ord p).drop cursor) k with
    | none => none
    | some es => some ((es, none), cursor + k)

end Verif.Tarfs
