import Verif.Overlay.Layers
import Verif.Common.Prog
/-
Model of the mutating operations of the overlay as sequences of elementary effects on the layers' trees, the marks of the top and the staging
area: /repo/vroot-adapter/overlayfs/{state,copyup,write,open,remove,mkdir,rename,link,chmod}.go.

The operations start from the name `Fs.resolve` found (`Verif.Overlay.Names`); the whole operation runs under one lock. Every elementary
effect is one atomic step, so the states a crash can leave are those between the steps; an effect that fails leaves the same states, since
every operation returns at once then. The store and the memory copy of a mark change together (C60). The effects take the number of the layer they act on, so
that a mistake in the code acting on the wrong layer would be visible.

Simplified: `Link` makes a second entry with a copy of the node (later writes through one name do not show at the other; hard links as one file: Files.lean). Handles on open files: see
`Verif.Overlay.Lower`. The open-file guard is C62. Staged data is written in one step.
-/
namespace Verif.Overlay.Stack
open Verif.Path

abbrev Op := Prog Sys Errno

/-! ### elementary effects -/

def setTree (t : Tree) (n : Name) (v : Option Node) : Tree := fun m => if m = n then v else t m

def onTree (i : Nat) (f : Tree → Tree) (S : Sys) : Sys :=
  { S with layer := fun k => if k = i then { S.layer k with tree := f (S.layer k).tree } else S.layer k }

def onMask (i : Nat) (f : Mask → Mask) (S : Sys) : Sys := { S with mask := fun k => if k = i then f (S.mask k) else S.mask k }

def onStage (k : Nat) (v : Option Node) (S : Sys) : Sys := { S with stage := fun j => if j = k then v else S.stage j }

def Node.withMode : Node → Nat → Node
  | .dir _, m => .dir m
  | .file _ d, m => .file m d
  | n, _ => n

/-- The name a layer acts on when the last component is followed too. -/
def Layer.target (L : Layer) (n : Name) : Except Errno Name :=
  match L.entry n with
  | .error e => .error e
  | .ok r =>
    match L.tree r with
    | some (.link _) => L.follow L.tree r
    | _ => .ok r

/-- `Stat` on a layer. -/
def Layer.stat (L : Layer) (n : Name) : Except Errno Node :=
  match L.target n with
  | .error e => .error e
  | .ok r =>
    match L.tree r with
    | none => .error .notExist
    | some nd => .ok nd

/-- `Mkdir` on layer `i`. -/
def fsMkdir (i : Nat) (n : Name) (perm : Nat) : Op Unit := do
  let S ← Prog.get
  match (S.layer i).entry n with
  | .error e => Prog.fail e
  | .ok r =>
    match (S.layer i).tree r with
    | some _ => Prog.fail .exist
    | none => Prog.modify (onTree i (fun t => setTree t r (some (.dir (S.umask perm)))))

/-- `Chmod` on layer `i`, following the last component. -/
def fsChmod (i : Nat) (n : Name) (m : Nat) : Op Unit := do
  let S ← Prog.get
  match (S.layer i).target n with
  | .error e => Prog.fail e
  | .ok r =>
    match (S.layer i).tree r with
    | none => Prog.fail .notExist
    | some nd => Prog.modify (onTree i (fun t => setTree t r (some (nd.withMode m))))

/-- `Symlink` on layer `i`. -/
def fsSymlink (i : Nat) (target : Str) (n : Name) : Op Unit := do
  let S ← Prog.get
  match (S.layer i).entry n with
  | .error e => Prog.fail e
  | .ok r =>
    match (S.layer i).tree r with
    | some _ => Prog.fail .exist
    | none => Prog.modify (onTree i (fun t => setTree t r (some (.link target))))

/-- `Link` on layer `i`. -/
def fsLink (i : Nat) (old new : Name) : Op Unit := do
  let S ← Prog.get
  match (S.layer i).entry old, (S.layer i).entry new with
  | .ok q, .ok r =>
    match (S.layer i).tree q, (S.layer i).tree r with
    | none, _ => Prog.fail .notExist
    | _, some _ => Prog.fail .exist
    | some nd, none => if nd.isDir then Prog.fail .isDir else Prog.modify (onTree i (fun t => setTree t r (some nd)))
  | .error e, _ => Prog.fail e
  | _, .error e => Prog.fail e

/-- `OpenFile` for writing on layer `i`; the answer is the name of the file opened. -/
def fsOpen (i : Nat) (n : Name) (create excl trunc : Bool) (perm : Nat) : Op Name := do
  let S ← Prog.get
  match (if create && excl then (S.layer i).entry n else (S.layer i).target n) with
  | .error e => Prog.fail e
  | .ok r =>
    match (S.layer i).tree r with
    | none =>
      if create = true ∧ r ≠ [] ∧ ((S.layer i).tree r.tail).any Node.isDir = true then do
        Prog.modify (onTree i (fun t => setTree t r (some (.file (S.umask perm) []))))
        return r
      else Prog.fail .notExist
    | some (.file m _) =>
      if create && excl then Prog.fail .exist
      else if trunc then do
        Prog.modify (onTree i (fun t => setTree t r (some (.file m []))))
        return r
      else return r
    | some (.dir _) => Prog.fail (if create && excl then .exist else .isDir)
    | some _ => Prog.fail .exist

/-- A write through a handle on the file `r` of layer `i`. -/
def fsWrite (i : Nat) (r : Name) (data : Str) : Op Unit := do
  let S ← Prog.get
  match (S.layer i).tree r with
  | some (.file m _) => Prog.modify (onTree i (fun t => setTree t r (some (.file m data))))
  | _ => pure ()

/-- `Remove` on layer `i`. -/
def fsRemove (i : Nat) (n : Name) : Op Unit := do
  let S ← Prog.get
  match (S.layer i).entry n with
  | .error e => Prog.fail e
  | .ok r =>
    match (S.layer i).tree r with
    | none => Prog.fail .notExist
    | some (.dir _) =>
      if r = [] ∨ (S.layer i).enum (S.layer i).tree r ≠ [] then Prog.fail .notEmpty
      else Prog.modify (onTree i (fun t => setTree t r none))
    | some _ => Prog.modify (onTree i (fun t => setTree t r none))

/-- Some name from `m` upwards is chosen. -/
def anyUp (f : Name → Bool) : Name → Bool
  | [] => f []
  | c :: d => f (c :: d) || anyUp f d

/-- Take away, at or under `r`, the entries chosen by `f` and everything beneath them. -/
def dropUnder (t : Tree) (r : Name) (f : Name → Bool) : Tree := fun m => if r <:+ m ∧ anyUp (fun a => decide (r <:+ a) && f a) m = true then none else t m

def removeSteps (i : Nat) (r : Name) : List (Name → Bool) → Op Unit
  | [] => pure ()
  | f :: fs => do
    Prog.modify (onTree i (fun t => dropUnder t r f))
    removeSteps i r fs

/-- `RemoveAll` on layer `i`: entries at or under the name go in an arbitrary order, any number at a time, until nothing is left. A name
that is not there is no error. -/
def fsRemoveAll (i : Nat) (n : Name) (steps : List (Name → Bool)) : Op Unit := do
  let S ← Prog.get
  match (S.layer i).entry n with
  | .error .notExist => pure ()
  | .error e => Prog.fail e
  | .ok r =>
    if r = [] then Prog.fail .inval
    else do
      removeSteps i r steps
      Prog.modify (onTree i (fun t => dropUnder t r (fun _ => true)))

/-- Move what is at or under `old` to `new`. -/
def moveTree (t : Tree) (old new : Name) : Tree := fun m =>
  if new <:+ m then t (m.take (m.length - new.length) ++ old)
  else if old <:+ m then none
  else t m

/-- `Rename` on layer `i`. -/
def fsRename (i : Nat) (old new : Name) : Op Unit := do
  let S ← Prog.get
  match (S.layer i).entry old, (S.layer i).entry new with
  | .ok q, .ok r =>
    match (S.layer i).tree q with
    | none => Prog.fail .notExist
    | some nd =>
      if q <:+ r ∨ r = [] then Prog.fail .inval
      else if r <:+ q then Prog.fail .notEmpty
      else
        match (S.layer i).tree r with
        | none => Prog.modify (onTree i (fun t => moveTree t q r))
        | some (.dir _) =>
          if nd.isDir = false then Prog.fail .isDir
          else if (S.layer i).enum (S.layer i).tree r ≠ [] then Prog.fail .notEmpty
          else Prog.modify (onTree i (fun t => moveTree t q r))
        | some _ => if nd.isDir then Prog.fail .notDir else Prog.modify (onTree i (fun t => moveTree t q r))
  | .error e, _ => Prog.fail e
  | _, .error e => Prog.fail e

/-- `Rename` of a staged file onto a content name of layer `i` (copyup.go 159). -/
def fsPublish (i k : Nat) (n : Name) : Op Unit := do
  let S ← Prog.get
  match (S.layer i).entry n, S.stage k with
  | .error e, _ => Prog.fail e
  | .ok _, none => Prog.fail .notExist
  | .ok r, some nd =>
    match (S.layer i).tree r with
    | some (.dir _) => Prog.fail .isDir
    | _ => Prog.modify (fun S => onTree i (fun t => setTree t r (some nd)) (onStage k none S))

/-! ### marks of the top (state.go 113-268) -/

/-- state.go 113-122 `setWhiteout`. -/
def setWhiteout (n : Name) : Op Unit :=
  Prog.modify (onMask 0 (fun m => ⟨n :: m.wh.filter (fun x => ¬ n <:+ x), m.op.filter (fun x => ¬ n <:+ x)⟩))

/-- state.go 125-132 `clearWhiteout`. -/
def clearWhiteout (n : Name) : Op Unit := Prog.modify (onMask 0 (fun m => ⟨m.wh.filter (fun x => x ≠ n), m.op⟩))

/-- state.go 137-144 `setOpaque`. -/
def setOpaque (n : Name) : Op Unit := Prog.modify (onMask 0 (fun m => ⟨m.wh, n :: m.op⟩))

/-- state.go 148-155 `clearOpaque`. -/
def clearOpaque (n : Name) : Op Unit := Prog.modify (onMask 0 (fun m => ⟨m.wh, m.op.filter (fun x => x ≠ n)⟩))

/-- The slash path of a name. -/
def pathOf (n : Name) : Str := join n.reverse

def insertName (n : Name) : List Name → List Name
  | [] => [n]
  | x :: xs => if nameLe (pathOf n) (pathOf x) then n :: x :: xs else x :: insertName n xs

/-- slices.Sort, state.go 180-181. -/
def sortNames : List Name → List Name
  | [] => []
  | n :: ns => insertName n (sortNames ns)

/-- state.go 164-183 `maskedUnder`, one kind of mark. -/
def under (d : Name) (l : List Name) : List Name := sortNames (l.filter (fun x => d <:+ x ∧ x ≠ d))

/-- write.go 94-99 `unmask`; state.go 196-201. -/
def unmask (n : Name) : Op Unit := do
  let S ← Prog.get
  if n ∈ (S.mask 0).wh then clearWhiteout n else pure ()

/-- write.go 68-70; state.go 204-209. -/
def unopaque (n : Name) : Op Unit := do
  let S ← Prog.get
  if n ∈ (S.mask 0).op then clearOpaque n else pure ()

/-- Run an operation on every name of a list. -/
def forNames (f : Name → Op Unit) : List Name → Op Unit
  | [] => pure ()
  | n :: ns => do
    f n
    forNames f ns

/-- state.go 192-212 `clearSubtree`. -/
def clearSubtree (n : Name) : Op Unit := do
  let S ← Prog.get
  forNames unmask (under n (S.mask 0).wh ++ [n])
  forNames unopaque (under n (S.mask 0).op ++ [n])

/-- state.go 244-246: the same place under another directory. -/
def rebase (old new n : Name) : Name := n.take (n.length - old.length) ++ new

/-- state.go 238-268 `renameSubtree`. -/
def renameSubtree (old new : Name) : Op Unit := do
  let S ← Prog.get
  let ws := under old (S.mask 0).wh
  let os := under old (S.mask 0).op
  forNames (fun n => setWhiteout (rebase old new n)) ws
  forNames (fun n => setOpaque (rebase old new n)) os
  forNames clearWhiteout ws
  forNames clearOpaque os

/-! ### copy-up (copyup.go 77-219, write.go 48-99) -/

/-- copyup.go 216-219 `copyAttrs`: errors are dropped. -/
def copyAttrs (n : Name) (nd : Node) : Op Unit := do
  let _ ← Prog.attempt (fsChmod 0 n nd.mode)
  return ()

/-- copyup.go 193-204: create the directory with the mode the layer read from describes. -/
def materializeOne (j : Nat) (n : Name) : Op Unit := do
  let S ← Prog.get
  match (S.layer j).stat n with
  | .ok nd => do
    fsMkdir 0 n nd.mode
    copyAttrs n nd
  | .error _ => fsMkdir 0 n 0o777

/-- copyup.go 172-206 `materializeParents`, reading layer `j`. -/
def materializeParents (j : Nat) : Name → Op Unit
  | [] => pure ()
  | c :: d => do
    materializeParents j d
    let S ← Prog.get
    match (S.layer 0).lstat (c :: d) with
    | .ok _ => pure ()
    | .error .notExist => materializeOne j (c :: d)
    | .error e => Prog.fail e

/-- copyup.go 122-164 `copyRegular`. -/
def copyRegular (n : Name) (m : Nat) (data : Str) : Op Unit := do
  let S ← Prog.get
  Prog.modify (fun S => { S with temp := S.temp + 1 })
  Prog.modify (onStage (S.temp + 1) (some (.file (S.umask m) [])))
  Prog.modify (onStage (S.temp + 1) (some (.file (S.umask m) data)))
  Prog.modify (onStage (S.temp + 1) (some (.file m data)))
  fsPublish 0 (S.temp + 1) n

/-- copyup.go 77-119 `CopyUp`, reading layer `j`. -/
def policyCopyUp (j : Nat) (n : Name) : Op Unit := do
  let S ← Prog.get
  match (S.layer j).lstat n with
  | .error e => Prog.fail e
  | .ok .special => Prog.fail .unsupported
  | .ok (.dir m) => do
    materializeParents j n.tail
    fsMkdir 0 n m
    copyAttrs n (.dir m)
  | .ok (.link t) => do
    materializeParents j n.tail
    fsSymlink 0 t n
  | .ok (.file m data) => do
    materializeParents j n.tail
    copyRegular n m data

/-- write.go 48-72 `copyUp`. -/
def copyUp : Name → Op Unit
  | [] => pure ()
  | c :: d => do
    let S ← Prog.get
    match S.lookup (c :: d) with
    | .error .notExist => pure ()
    | .error e => Prog.fail e
    | .ok (0, _) => pure ()
    | .ok (j + 1, _) => do
      policyCopyUp (j + 1) (c :: d)
      unopaque (c :: d)

/-- write.go 80-90 `ensureParent`. -/
def ensureParent (n : Name) : Op Unit := do
  let S ← Prog.get
  match S.lookup n.tail with
  | .error e => Prog.fail e
  | .ok (_, .dir _) => copyUp n.tail
  | .ok _ => Prog.fail .notDir

/-! ### the operations, from the resolved name on -/

/-- write.go 138-146 `mutateLocked` with chmod.go's operation: `Chmod`. (`Chown` and `Chtimes` differ only in an attribute the model leaves out.) -/
def chmodOp (n : Name) (m : Nat) : Op Unit := do
  copyUp n
  fsChmod 0 n m

/-- `Chown`, `Lchown`, `Chtimes` (chmod.go): copy-up, then an attribute that is not modelled. -/
def attrOp (n : Name) : Op Unit := copyUp n

/-- open.go 39-79, from the resolved name on; the answer is the name of the top's file the handle is on. -/
def openWriteOp (n : Name) (create excl trunc : Bool) (perm : Nat) : Op Name := do
  let S ← Prog.get
  match S.lookup n with
  | .ok (_, .dir _) => Prog.fail .isDir
  | .ok _ =>
    if create && excl then Prog.fail .exist
    else do
      copyUp n
      fsOpen 0 n create excl trunc perm
  | .error .notExist =>
    if create then do
      ensureParent n
      let r ← fsOpen 0 n create excl trunc perm
      unmask n
      return r
    else Prog.fail .notExist
  | .error e => Prog.fail e

/-- remove.go 139-142. -/
def ignoreMissing (rm : Op Unit) : Op Unit := do
  let r ← Prog.attempt rm
  match r with
  | .error .notExist => pure ()
  | .error e => Prog.fail e
  | .ok _ => pure ()

/-- remove.go 127-138: the masking half of `unlink`. -/
def maskRemoved (n : Name) : Op Unit := do
  let S ← Prog.get
  match S.lookupFrom n 1 with
  | .ok _ => setWhiteout n
  | .error .notExist => clearSubtree n
  | .error e => Prog.fail e

/-- remove.go 126-143 `unlink`. -/
def unlink (n : Name) (rm : Op Unit) : Op Unit := do
  maskRemoved n
  ignoreMissing rm

/-- remove.go 42-50. -/
def emptyCheck (n : Name) : Op Unit := do
  let S ← Prog.get
  match S.readDir n with
  | .error e => Prog.fail e
  | .ok [] => pure ()
  | .ok (_ :: _) => Prog.fail .notEmpty

/-- remove.go 32-51. -/
def removeOp (n : Name) : Op Unit := do
  let S ← Prog.get
  if n = [] then Prog.fail .inval
  else
    match S.lookup n with
    | .error e => Prog.fail e
    | .ok (_, .dir _) => do
      emptyCheck n
      unlink n (fsRemove 0 n)
    | .ok _ => unlink n (fsRemove 0 n)

/-- remove.go 76-88. -/
def removeAllOp (n : Name) (steps : List (Name → Bool)) : Op Unit := do
  let S ← Prog.get
  if n = [] then Prog.fail .inval
  else
    match S.lookup n with
    | .error .notExist => pure ()
    | .error e => Prog.fail e
    | .ok _ => unlink n (fsRemoveAll 0 n steps)

/-- mkdir.go 50-58 `mkdirOne`. -/
def mkdirOne (n : Name) (perm : Nat) : Op Unit := do
  fsMkdir 0 n perm
  setOpaque n
  unmask n

/-- mkdir.go 32-41. -/
def mkdirOp (n : Name) (perm : Nat) : Op Unit := do
  let S ← Prog.get
  match S.lookup n with
  | .ok _ => Prog.fail .exist
  | .error .notExist => do
    ensureParent n
    mkdirOne n perm
  | .error e => Prog.fail e

/-- mkdir.go 79-92: one component. -/
def mkdirStep (n : Name) (perm : Nat) : Op Unit := do
  let S ← Prog.get
  match S.lookup n with
  | .ok (_, .dir _) => pure ()
  | .ok _ => Prog.fail .notDir
  | .error .notExist => do
    ensureParent n
    mkdirOne n perm
  | .error e => Prog.fail e

/-- mkdir.go 78-94, write.go 158-165: from the top down. -/
def mkdirAllOp (perm : Nat) : Name → Op Unit
  | [] => pure ()
  | c :: d => do
    mkdirAllOp perm d
    mkdirStep (c :: d) perm

/-- link.go 68-80, from the resolved name on. -/
def symlinkOp (target : Str) (n : Name) : Op Unit := do
  let S ← Prog.get
  match S.lookup n with
  | .ok _ => Prog.fail .exist
  | .error .notExist => do
    ensureParent n
    fsSymlink 0 target n
    unmask n
  | .error e => Prog.fail e

/-- link.go 27-49, from the resolved names on. -/
def linkOp (old new : Name) : Op Unit := do
  let S ← Prog.get
  match S.lookup old with
  | .error e => Prog.fail e
  | .ok _ =>
    match S.lookup new with
    | .ok _ => Prog.fail .exist
    | .error .notExist => do
      copyUp old
      ensureParent new
      fsLink 0 old new
      unmask new
    | .error e => Prog.fail e

/-- rename.go 127-138: the layers that may still contribute to a directory, from `i` on. -/
def anyHolds (S : Sys) (n : Name) : (k i : Nat) → Option Errno
  | 0, _ => none
  | k + 1, i =>
    match (S.layer i).lstat n with
    | .ok _ => some .xdev
    | .error .notExist => anyHolds S n k (i + 1)
    | .error .notDir => anyHolds S n k (i + 1)
    | .error e => some e

/-- rename.go 126-139 `renameDirCheck`. -/
def renameDirCheck (S : Sys) (n : Name) : Option Errno := anyHolds S n (S.childCut n) 1

/-- rename.go 145-167 `renameTargetCheck`. -/
def renameTargetCheck (S : Sys) (n : Name) (srcIsDir : Bool) : Option Errno :=
  match S.lookup n with
  | .error .notExist => none
  | .error e => some e
  | .ok (_, .dir _) =>
    if srcIsDir = false then some .isDir
    else
      match S.readDir n with
      | .error e => some e
      | .ok [] => none
      | .ok (_ :: _) => some .notEmpty
  | .ok _ => if srcIsDir then some .notDir else none

def whenOp (b : Bool) (m : Op Unit) : Op Unit := if b then m else pure ()

/-- rename.go 84-114: the marks, after the move. -/
def renameMarks (old new : Name) (isDir maskOld : Bool) : Op Unit := do
  clearSubtree new
  renameSubtree old new
  whenOp isDir (setOpaque new)
  if maskOld then setWhiteout old else clearSubtree old

/-- rename.go 64-114: what follows the checks. -/
def renameGo (old new : Name) (isDir : Bool) : Op Unit := do
  copyUp old
  ensureParent new
  let S ← Prog.get
  match S.lookupFrom old 1 with
  | .ok _ => do
    fsRename 0 old new
    renameMarks old new isDir true
  | .error .notExist => do
    fsRename 0 old new
    renameMarks old new isDir false
  | .error e => Prog.fail e

/-- rename.go 40-115, from the resolved names on. -/
def renameOp (old new : Name) : Op Unit := do
  let S ← Prog.get
  if old = [] ∨ new = [] then Prog.fail .inval
  else
    match S.lookup old with
    | .error e => Prog.fail e
    | .ok (_, nd) =>
      if old = new then pure ()
      else if old <:+ new then Prog.fail .inval
      else
        match (if nd.isDir then renameDirCheck S old else none) with
        | some e => Prog.fail e
        | none =>
          match renameTargetCheck S new nd.isDir with
          | some e => Prog.fail e
          | none => renameGo old new nd.isDir

end Verif.Overlay.Stack
