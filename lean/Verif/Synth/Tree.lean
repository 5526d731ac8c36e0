import Verif.Common.PathWalk
import Verif.Common.StrLemmas
import Verif.Fsutil.HeadTail
/-
Model of the synthetic tree, /repo/vroot/synthfs: node.go, tree.go, root.go, mkdir.go, open.go (creation), link.go,
remove.go, rename.go, add.go, add_decision.go.

Nodes are numbered; pointers are numbers, so sharing and cycles are visible.  Node 0 is the root of the tree.  Every
method holds the state lock throughout, so a concurrent history is one sequence of calls.  Not modelled: owner, times,
file modes except where they are copied, and reference counts (whether an open handle blocks a removal is an argument).
-/
namespace Verif.Synth.Tree
open Verif.Path

abbrev Id := Nat

/-- node.go 47-54 `dir`. An element of container/list is a pair of its own identity and the node it holds. -/
structure DirRec where
  name : Str
  parent : Option Id
  ordered : List (Nat × Id)
  index : List (Str × (Nat × Id))
  mode : Nat
deriving DecidableEq

/-- node.go 22-64 -/
inductive Node where
  | dir (d : DirRec)
  | file (name : Str) (mode : Nat) (view : Nat)
  | link (name : Str) (target : Str)
deriving DecidableEq

/-- node.go 33 `metadata.name` -/
def Node.name : Node → Str
  | .dir d => d.name
  | .file n _ _ => n
  | .link n _ => n

/-- tree.go 19-23 `state`; `closed` are the file views that were closed, in order, `nextElem`/`nextView` supply fresh identities. -/
structure St where
  nodes : List Node
  nextElem : Nat
  nextView : Nat
  closed : List Nat
deriving DecidableEq

/-! ### Maps -/

/-- a Go map read -/
def assoc {β : Type} (k : Str) : List (Str × β) → Option β
  | [] => none
  | (k', v) :: rest => if k' = k then some v else assoc k rest

/-- Go `delete` -/
def del {β : Type} (k : Str) (l : List (Str × β)) : List (Str × β) := l.filter (fun p => p.1 ≠ k)

/-! ### node.go -/

def St.dir? (s : St) (i : Id) : Option DirRec := match s.nodes[i]? with
  | some (.dir d) => some d
  | _ => none

def St.setDir (s : St) (i : Id) (d : DirRec) : St := { s with nodes := s.nodes.set i (.dir d) }

/-- node.go 71-83 `newDir` (as a value) -/
def newDir (name : Str) (mode : Nat) (parent : Option Id) : DirRec := ⟨name, parent, [], [], mode⟩

/-- Allocate a node. -/
def St.alloc (s : St) (n : Node) : St × Id := ({ s with nodes := s.nodes ++ [n] }, s.nodes.length)

/-- node.go 85-93 `lookup` -/
def St.lookup (s : St) (d : Id) (k : Str) : Option Id := match s.dir? d with
  | none => none
  | some r => (assoc k r.index).map (·.2)

/-- node.go 108-118 `removeEntry` -/
def St.removeEntry (s : St) (d : Id) (k : Str) : St := match s.dir? d with
  | none => s
  | some r => match assoc k r.index with
    | none => s
    | some e => s.setDir d { r with ordered := r.ordered.filter (fun x => x.1 ≠ e.1), index := del k r.index }

/-- node.go 101-102: the new element at the end of the list, and in the index. -/
def St.pushBack (s : St) (d : Id) (k : Str) (c : Id) : St := match s.dir? d with
  | none => s
  | some r => { s.setDir d { r with ordered := r.ordered ++ [(s.nextElem, c)], index := (k, (s.nextElem, c)) :: r.index } with nextElem := s.nextElem + 1 }

/-- node.go 95-104 `addEntry` -/
def St.addEntry (s : St) (d : Id) (k : Str) (c : Id) : St := (s.removeEntry d k).pushBack d k c

/-- node.go 120-128 `entriesSnapshot` -/
def St.entries (s : St) (d : Id) : List Id := match s.dir? d with
  | none => []
  | some r => r.ordered.map (·.2)

/-- `view.Close()` when the node is a file. -/
def St.closeView (s : St) (i : Id) : St := match s.nodes[i]? with
  | some (.file _ _ v) => { s with closed := s.closed ++ [v] }
  | _ => s

/-! ### tree.go -/

inductive Err where
  | escapes | notExist | loop | notDir | invalid | exist | notEmpty | sharing | source
  | stuck   -- not an error of the code: the recursion is deeper than `fuel`
deriving DecidableEq

/-- tree.go 29-41 `normalize` -/
def normalize (name : Str) : Except Err Str :=
  if clean name = dot then .ok dot
  else if isLocal (clean name) = false then .error .escapes
  else .ok (clean name)

structure Res where
  node : Id
  parent : Option Id
  base : Str
deriving DecidableEq

/-- `strings.Cut(rest, "/")` as used in tree.go 80: the component and what is left. -/
def cut (rest : Str) : Str × Str := match cutFirst slash rest with
  | some p => p
  | none => (rest, [])

/-- tree.go 27 -/
def maxHops : Nat := 40

theorem cutFirst_lt : ∀ {rest : Str} {p : Str × Str}, cutFirst slash rest = some p → p.2.length < rest.length := by
  intro rest
  induction rest with
  | nil => intro p h; cases h
  | cons c rest ih =>
    intro p h
    simp only [cutFirst] at h
    split at h
    · cases h; simp
    · cases hc : cutFirst slash rest with
      | none => rw [hc] at h; cases h
      | some q =>
        rw [hc] at h
        cases h
        have := ih hc
        simp; omega

theorem cut_lt {rest : Str} (h : rest ≠ []) : (cut rest).2.length < rest.length := by
  unfold cut
  cases hc : cutFirst slash rest with
  | none => simpa using List.length_pos_iff.2 h
  | some p => exact cutFirst_lt hc

/-- tree.go 108-112: what is left to walk after a link with this target. -/
def afterLink (target rest : Str) : Str := if rest = [] then target else target ++ slash :: rest

/-- tree.go 78-130: the loop of `resolve` until the next link is followed; then `jump` continues from the directory of the
link with the target and what is left. `fuel` is the length of `rest`, which every round shortens. -/
def seg (s : St) (boundary : Id) (followLast : Bool) (jump : Id → Str → Str → Except Err Res) : (fuel : Nat) → (cur : Id) → (rest : Str) → Except Err Res
  | 0, cur, _ => .ok ⟨cur, none, []⟩
  | fuel + 1, cur, rest =>
    if rest = [] then .ok ⟨cur, none, []⟩
    else
      if (cut rest).1 = [] ∨ (cut rest).1 = dot then seg s boundary followLast jump fuel cur (cut rest).2
      else if (cut rest).1 = dotdot then
        if cur = boundary then .error .escapes
        else match (s.dir? cur).bind (·.parent) with
          | none => .error .escapes
          | some p => seg s boundary followLast jump fuel p (cut rest).2
      else match s.lookup cur (cut rest).1 with
        | none => .error .notExist
        | some child => match s.nodes[child]? with
          | some (.link _ target) =>
            if (cut rest).2 = [] ∧ followLast = false then .ok ⟨child, some cur, (cut rest).1⟩
            else jump cur target (cut rest).2
          | some (.dir _) =>
            if (cut rest).2 = [] then .ok ⟨child, some cur, (cut rest).1⟩ else seg s boundary followLast jump fuel child (cut rest).2
          | some (.file ..) =>
            if (cut rest).2 = [] then .ok ⟨child, some cur, (cut rest).1⟩ else .error .notDir
          | none => .error .notExist   -- a dangling pointer; does not happen (`Good`)

/-- tree.go 78-130: the whole loop; `left` is `maxSymlinkResolution - symlinkHops`, the number of links that may still be followed.
`walk_unfold` below is the loop as it is written in the code. -/
def walk (s : St) (boundary : Id) (followLast : Bool) : (left : Nat) → (cur : Id) → (rest : Str) → Except Err Res
  | 0, cur, rest => seg s boundary followLast (fun _ _ _ => .error .loop) rest.length cur rest
  | left + 1, cur, rest => seg s boundary followLast (fun cur target rest => if isAbs target then .error .escapes else walk s boundary followLast left cur (afterLink target rest))
      rest.length cur rest

/-- tree.go 58-76 `resolve` -/
def resolve (s : St) (boundary start : Id) (name : Str) (followLast : Bool) : Except Err Res :=
  match normalize name with
  | .error e => .error e
  | .ok slash => if slash = dot then .ok ⟨start, none, []⟩ else walk s boundary followLast maxHops start slash

/-- tree.go 150-154, add.go 298-302: `path.Split`, trailing slash trimmed, "" read as ".". -/
def splitLast (p : Str) : Str × Str :=
  let d := if (dirPart p).getLast? = some slash then (dirPart p).dropLast else dirPart p
  (if d = [] then dot else d, filePart p)

/-- tree.go 135-164 `resolveParent` -/
def resolveParent (s : St) (boundary start : Id) (name : Str) : Except Err (Id × Str) :=
  match normalize name with
  | .error e => .error e
  | .ok slash =>
    if slash = dot then .error .invalid
    else match resolve s boundary start (splitLast slash).1 true with
      | .error e => .error e
      | .ok r => match s.dir? r.node with
        | none => .error .notDir
        | some _ => .ok (r.node, (splitLast slash).2)

/-! ### The operations; `b` is the boundary of the root they are called on -/

/-- mkdir.go 46-61 `mkdirLocked` -/
def mkdirOne (s : St) (b : Id) (name : Str) (mode : Nat) : St × Option Err :=
  match resolveParent s b b name with
  | .error e => (s, some e)
  | .ok (parent, base) =>
    if base = [] ∨ base = dot ∨ base = dotdot then (s, some .invalid)
    else match s.lookup parent base with
      | some _ => (s, some .exist)
      | none =>
        let (s1, d) := s.alloc (.dir (newDir base mode (some parent)))
        (s1.addEntry parent base d, none)

/-- mkdir.go 28-42: the loop of `MkdirAll`. -/
def mkdirEach (b : Id) (mode : Nat) : List Str → St → St × Option Err
  | [], s => (s, none)
  | p :: rest, s => match mkdirOne s b p mode with
    | (s1, none) => mkdirEach b mode rest s1
    | (s1, some .exist) => match resolve s1 b b p true with
      | .error e => (s1, some e)
      | .ok r => match s1.dir? r.node with
        | none => (s1, some .notEmpty)
        | some _ => mkdirEach b mode rest s1
    | (s1, some e) => (s1, some e)

/-- mkdir.go 18-43 `MkdirAll` -/
def mkdirAll (s : St) (b : Id) (name : Str) (mode : Nat) : St × Option Err :=
  match normalize name with
  | .error e => (s, some e)
  | .ok slash => if slash = dot then (s, none) else mkdirEach b mode (Fsutil.vPathFromHead slash) s

/-- open.go 24-50: `OpenFile` with O_CREATE, the part that changes the tree (a missing leaf is created; an existing one is
opened by the code after line 52, which changes no entry). -/
def create (s : St) (b : Id) (name : Str) (mode : Nat) : St × Option Err :=
  match resolveParent s b b name with
  | .error e => (s, some e)
  | .ok (parent, base) => match s.lookup parent base with
    | some _ => (s, some .exist)
    | none =>
      let (s1, f) := { s with nextView := s.nextView + 1 }.alloc (.file base mode s.nextView)
      (s1.addEntry parent base f, none)

/-- link.go 12-31 `Symlink` -/
def symlink (s : St) (b : Id) (target name : Str) : St × Option Err :=
  match resolveParent s b b name with
  | .error e => (s, some e)
  | .ok (parent, base) => match s.lookup parent base with
    | some _ => (s, some .exist)
    | none =>
      let (s1, l) := s.alloc (.link base target)
      (s1.addEntry parent base l, none)

/-- link.go 33-66 `Link` -/
def link (s : St) (b : Id) (old new : Str) : St × Option Err :=
  match resolve s b b old true with
  | .error e => (s, some e)
  | .ok r => match s.nodes[r.node]? with
    | some (.file _ mode view) => match resolveParent s b b new with
      | .error e => (s, some e)
      | .ok (parent, base) => match s.lookup parent base with
        | some _ => (s, some .exist)
        | none =>
          let (s1, f) := s.alloc (.file base mode view)
          (s1.addEntry parent base f, none)
    | _ => (s, some .invalid)

/-- remove.go 10-33 `Remove`; `busy`: the target is open and DisableOpenFileRemoval is set. -/
def remove (s : St) (b : Id) (name : Str) (busy : Bool) : St × Option Err :=
  match resolveParent s b b name with
  | .error e => (s, some e)
  | .ok (parent, base) => match s.lookup parent base with
    | none => (s, some .notExist)
    | some t =>
      if s.entries t ≠ [] then (s, some .notEmpty)
      else if busy then (s, some .sharing)
      else ((s.removeEntry parent base).closeView t, none)

/-- remove.go 79-81 (and 76-78): unlink all children of a directory. -/
def St.clear (s : St) (d : Id) : St := match s.dir? d with
  | none => s
  | some r => s.setDir d { r with ordered := [], index := [] }

/-- remove.go 73-75: over the children. -/
def eachChild (rec : Id → St → Option St) : List Id → St → Option St
  | [], s => some s
  | c :: cs, s => match rec c s with
    | none => none
    | some s1 => eachChild rec cs s1

/-- remove.go 70-82 `removeSubtree`. `none` when the tree is deeper than `fuel`; the code recurses without bound. -/
def removeSubtree : (fuel : Nat) → Id → St → Option St
  | 0, _, _ => none
  | fuel + 1, n, s => match s.nodes[n]? with
    | some (.dir _) => (eachChild (removeSubtree fuel) (s.entries n) s).map (·.clear n)
    | some (.file ..) => some (s.closeView n)
    | _ => some s

/-- root.go 101-109 `endsWithDot` -/
def endsWithDot (name : Str) : Bool := name = dot || (name.getLast? = some '.' && name.dropLast.getLast? = some slash)

/-- remove.go 35-66 `RemoveAll` -/
def removeAll (fuel : Nat) (s : St) (b : Id) (name : Str) : St × Option Err :=
  if endsWithDot name then (s, some .invalid)
  else match normalize name with
    | .error e => (s, some e)
    | .ok slash =>
      if slash = dot then (s, some .invalid)
      else match resolveParent s b b name with
        | .error e => (s, some e)
        | .ok (parent, base) => match s.lookup parent base with
          | none => (s, none)
          | some t => match removeSubtree fuel t s with
            | none => (s, some .stuck)
            | some s1 => (s1.removeEntry parent base, none)

/-- rename.go 39-42: `target.meta().name = newBase`, and the parent of a directory. -/
def St.relabel (s : St) (t : Id) (name : Str) (parent : Id) : St := match s.nodes[t]? with
  | some (.dir d) => { s with nodes := s.nodes.set t (.dir { d with name := name, parent := some parent }) }
  | some (.file _ m v) => { s with nodes := s.nodes.set t (.file name m v) }
  | some (.link _ tg) => { s with nodes := s.nodes.set t (.link name tg) }
  | none => s

/-- rename.go 38-45: the move itself. -/
def St.move (s : St) (oldParent : Id) (oldBase : Str) (t : Id) (newParent : Id) (newBase : Str) : St :=
  ((s.removeEntry oldParent oldBase).relabel t newBase newParent).addEntry newParent newBase t

/-- rename.go 11-47 `Rename` -/
def rename (s : St) (b : Id) (old new : Str) : St × Option Err :=
  match resolveParent s b b old with
  | .error e => (s, some e)
  | .ok (oldParent, oldBase) => match s.lookup oldParent oldBase with
    | none => (s, some .notExist)
    | some t => match resolveParent s b b new with
      | .error e => (s, some e)
      | .ok (newParent, newBase) => match s.lookup newParent newBase with
        | none => (s.move oldParent oldBase t newParent newBase, none)
        | some ex =>
          if s.entries ex ≠ [] then (s, some .notEmpty)
          else (((s.removeEntry newParent newBase).closeView ex).move oldParent oldBase t newParent newBase, none)

/-- root.go 55-76 `OpenRoot`: the boundary of the new root. -/
def openRoot (s : St) (b : Id) (name : Str) : Except Err Id :=
  match resolve s b b name true with
  | .error e => .error e
  | .ok r => match s.dir? r.node with
    | none => .error .notDir
    | some _ => .ok r.node

/-! ### add.go -/

inductive Kind where
  | dir | file | link
deriving DecidableEq

def Node.kind : Node → Kind
  | .dir _ => .dir
  | .file .. => .file
  | .link .. => .link

/-- add_decision.go 8-25 -/
inductive Decision where
  | skip | keep | override
deriving DecidableEq

/-- add_decision.go 40-56 `AddFunc`: sees the path, the incoming kind and the kind of an existing entry. (The real one also
sees sizes, modes and times.) -/
abbrev AddFunc := Str → Kind → Option Kind → Except Err Decision

/-- add_decision.go 60-68 -/
def mergeOverwrite : AddFunc := fun _ inc ex => match ex with
  | none => .ok .override
  | some k => if inc = .dir ∧ k = .dir then .ok .keep else .ok .override

/-- add_decision.go 72-79 -/
def mergeKeep : AddFunc := fun _ _ ex => match ex with
  | none => .ok .override
  | some _ => .ok .keep

/-- add_decision.go 83-95 -/
def failOnConflict : AddFunc := fun _ inc ex => match ex with
  | none => .ok .override
  | some k => if inc = .dir ∧ k = .dir then .ok .keep else .error .exist

/-- A snapshot of the filesystem to add. `none`: the view or link cannot be read; `ok = false`: the directory cannot be read. -/
inductive Src where
  | dir (mode : Nat) (ok : Bool) (kids : List (Str × Src))
  | file (mode : Nat) (view : Option Nat)
  | link (target : Option Str)
  | bad

/-- add.go 355-365 `slashJoin` -/
def slashJoin (parent base : Str) : Str := if parent = dot ∨ parent = [] then base else parent ++ slash :: base

/-- The existing node under `base`, and its kind. -/
def St.existing (s : St) (d : Id) (k : Str) : Option Kind := ((s.lookup d k).bind fun i => s.nodes[i]?).map (·.kind)

/-- `dst.removeEntry(base)`, and the view of a file is closed (add.go 187-192, 212-217, 68-73). -/
def St.unlink (s : St) (d : Id) (k : Str) : St := match s.lookup d k with
  | none => s
  | some i => (s.removeEntry d k).closeView i

/-- A new node put under `base` in `dst`, as in add.go 218-227. -/
def St.put (s : St) (d : Id) (k : Str) (n : Node) : St := ((s.alloc n).1).addEntry d k (s.alloc n).2

/-- add.go 254-257 -/
def St.putDir (s : St) (dst : Id) (base : Str) (mode : Nat) : St × Id := (s.put dst base (.dir (newDir base mode (some dst))), s.nodes.length)

/-- add.go 236-258 `materializeDir`: the state, and the directory. -/
def materializeDir (fuel : Nat) (s : St) (dst : Id) (base : Str) (mode : Nat) (override : Bool) : Option (St × Id) :=
  match s.lookup dst base with
  | none => some (s.putDir dst base mode)
  | some ex =>
    if (s.dir? ex).isSome ∧ override = false then some (s, ex)
    else if override then (removeSubtree fuel ex (s.removeEntry dst base)).map (·.putDir dst base mode)
    else some ((s.removeEntry dst base).putDir dst base mode)

mutual
/-- add.go 122-230 `addFSWalk` (the source is a snapshot; the path given to the callback is `path`) -/
def addWalk (fuel : Nat) (cb : AddFunc) (s : St) (dst : Id) (base path : Str) : Src → St × Option Err
  | .bad => (s, some .source)
  | .dir mode ok kids => match cb path .dir (s.existing dst base) with
    | .error e => (s, some e)
    | .ok .skip => (s, none)
    | .ok .keep => match materializeDir fuel s dst base mode false with
      | none => (s, some .stuck)
      | some (s1, d) => if ok then addKids fuel cb s1 d path kids else (s1, some .source)
    | .ok .override => match materializeDir fuel s dst base mode true with
      | none => (s, some .stuck)
      | some (s1, d) => if ok then addKids fuel cb s1 d path kids else (s1, some .source)
  | .link target => match cb path .link (s.existing dst base) with
    | .error e => (s, some e)
    | .ok .skip => (s, none)
    | .ok .keep => match target with
      | none => (s, some .source)
      | some t => match s.lookup dst base with
        | some _ => (s, none)
        | none => (s.put dst base (.link base t), none)
    | .ok .override => match target with
      | none => (s, some .source)
      | some t => ((s.unlink dst base).put dst base (.link base t), none)
  | .file mode view => match cb path .file (s.existing dst base) with
    | .error e => (s, some e)
    | .ok .skip => (s, none)
    | .ok .keep => match view with
      | none => (s, some .source)
      | some v => match s.lookup dst base with
        | some _ => ({ s with closed := s.closed ++ [v] }, none)
        | none => (s.put dst base (.file base mode v), none)
    | .ok .override => match view with
      | none => (s, some .source)
      | some v => ((s.unlink dst base).put dst base (.file base mode v), none)
/-- add.go 262-283 `descend`: the loop -/
def addKids (fuel : Nat) (cb : AddFunc) (s : St) (d : Id) (path : Str) : List (Str × Src) → St × Option Err
  | [] => (s, none)
  | (k, c) :: rest => match addWalk fuel cb s d k (slashJoin path k) c with
    | (s1, some e) => (s1, some e)
    | (s1, none) => addKids fuel cb s1 d path rest
end

/-- add.go 304-329: the loop of `ensureParents`. -/
def ensureEach (b : Id) : List Str → Id → St → St × Except Err Id
  | [], parent, s => (s, .ok parent)
  | p :: rest, _, s => match resolve s b b p true with
    | .ok r => match s.dir? r.node with
      | none => (s, .error .notDir)
      | some _ => ensureEach b rest r.node s
    | .error .notExist => match resolveParent s b b p with
      | .error e => (s, .error e)
      | .ok (pp, pb) => ensureEach b rest s.nodes.length (s.put pp pb (.dir (newDir pb 0o755 (some pp))))
    | .error e => (s, .error e)

/-- add.go 288-332 `ensureParents` -/
def ensureParents (s : St) (b : Id) (name : Str) : St × Except Err (Id × Str) :=
  match normalize name with
  | .error e => (s, .error e)
  | .ok slash =>
    if slash = dot then (s, .error .invalid)
    else if (splitLast slash).1 = dot then (s, .ok (b, (splitLast slash).2))
    else match ensureEach b (Fsutil.vPathFromHead (splitLast slash).1) b s with
      | (s1, .error e) => (s1, .error e)
      | (s1, .ok d) => (s1, .ok (d, (splitLast slash).2))

/-- add.go 96-117 `AddFS` -/
def addFS (fuel : Nat) (cb : AddFunc) (s : St) (b : Id) (name : Str) (src : Src) : St × Option Err :=
  match normalize name with
  | .error e => (s, some e)
  | .ok slash =>
    if slash = dot then match src with
      | .dir _ true kids => addKids fuel cb s b dot kids
      | _ => (s, some .source)
    else match ensureParents s b name with
      | (s1, .error e) => (s1, some e)
      | (s1, .ok (d, base)) => addWalk fuel cb s1 d base slash src

/-- add.go 31-84 `AddFile` -/
def addFile (cb : AddFunc) (s : St) (b : Id) (name : Str) (mode view : Nat) : St × Option Err :=
  match ensureParents s b name with
  | (s1, .error e) => (s1, some e)
  | (s1, .ok (d, base)) => match cb (clean name) .file (s1.existing d base) with
    | .error e => (s1, some e)
    | .ok .skip => (s1, none)
    | .ok .keep => (s1, none)
    | .ok .override => ((s1.unlink d base).put d base (.file base mode view), none)

/-! ### Histories -/

/-- Calls; `r` is the number of the root (0 is the first one, others are made by `openRoot`). -/
inductive Call where
  | mkdir (name : Str) (mode : Nat)
  | mkdirAll (name : Str) (mode : Nat)
  | create (name : Str) (mode : Nat)
  | symlink (target name : Str)
  | link (old new : Str)
  | remove (name : Str) (busy : Bool)
  | removeAll (fuel : Nat) (name : Str)
  | rename (old new : Str)
  | addFile (cb : AddFunc) (name : Str) (mode view : Nat)
  | addFS (fuel : Nat) (cb : AddFunc) (name : Str) (src : Src)
  | openRoot (name : Str)

/-- The tree and the boundaries of the roots opened on it. -/
structure World where
  st : St
  roots : List Id

/-- root.go 34-38 `NewRoot` -/
def World.init : World := ⟨⟨[.dir (newDir [] 0o755 none)], 0, 0, []⟩, [0]⟩

/-- One call on the root with boundary `b`. -/
def callOn (s : St) (b : Id) : Call → St × Option Err
  | .mkdir n m => mkdirOne s b n m
  | .mkdirAll n m => mkdirAll s b n m
  | .create n m => create s b n m
  | .symlink t n => symlink s b t n
  | .link o n => link s b o n
  | .remove n busy => remove s b n busy
  | .removeAll fuel n => removeAll fuel s b n
  | .rename o n => rename s b o n
  | .addFile cb n m v => addFile cb s b n m v
  | .addFS fuel cb n src => addFS fuel cb s b n src
  | .openRoot _ => (s, none)

def World.step (w : World) (r : Nat) (c : Call) : World := match w.roots[r]? with
  | none => w
  | some b =>
    let st := (callOn w.st b c).1
    match c with
    | .openRoot n => match Tree.openRoot w.st b n with
      | .ok d => ⟨st, w.roots ++ [d]⟩
      | .error _ => ⟨st, w.roots⟩
    | _ => ⟨st, w.roots⟩

def World.run (w : World) : List (Nat × Call) → World
  | [] => w
  | (r, c) :: rest => (w.step r c).run rest

end Verif.Synth.Tree
