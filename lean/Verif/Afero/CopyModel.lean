import Verif.Afero.OpenProps
/-
Model of filling the afero filesystem from another one, /repo/aferofs/synth/fs_link.go 111-158.
-/
namespace Verif.Afero
open Verif.Path

mutual
/-- The filesystem copied from, below some name: what `WalkDir` sees of it. -/
inductive Src where
  /-- not a directory; whether it is a regular file; the view of it, if its `Stat` succeeds and says so too (impl_fslink.go 36-48) -/
  | file (regular : Bool) (view : Option View)
  /-- a directory; whether it can be listed -/
  | dir (listable : Bool) (ents : SrcEnts)
/-- A listing, in the order in which it is walked. -/
inductive SrcEnts where
  | nil
  | cons (name : Str) (n : Src) (rest : SrcEnts)
end

inductive CopyErr where
  | root            -- srcRoot or dstRoot is not valid
  | source          -- the filesystem copied from failed
  | add (e : Err)   -- AddFile failed
  deriving DecidableEq

/-- fs_link.go 115-127 `MapFsIter`: what the pairs give, in order; a pair without view is one whose source cannot be referred to. -/
def mapFs (e : Env) (S : St) : List (Option View × Str) → St × Except CopyErr Unit
  | [] => (S, .ok ())
  | (none, _) :: _ => (S, .error .source)
  | (some v, dst) :: rest => match addFileCall e S dst v with
    | (S1, .error er) => (S1, .error (.add er))
    | (S1, .ok _) => mapFs e S1 rest

/-- fs_link.go 152-156: the name that a file of the source gets. -/
def copyName (srcRoot dstRoot path : Str) : Str :=
  join2 dstRoot (if srcRoot ≠ dot then (cutPrefix path (srcRoot ++ [slash])).getD path else path)

mutual
/-- fs_link.go 138-157: std `fs.WalkDir` with the function given there, at and below `path`. (When a directory cannot be listed the function is called again,
with the error, and returns it.) -/
def Src.copy (e : Env) (srcRoot dstRoot : Str) (path : Str) (S : St) : Src → St × Except CopyErr Unit
  | .file regular view =>
    if path = srcRoot then (S, .ok ())
    else if !regular then (S, .ok ())
    else match view with
      | none => (S, .error .source)
      | some v => match addFileCall e S (copyName srcRoot dstRoot path) v with
        | (S1, .error er) => (S1, .error (.add er))
        | (S1, .ok _) => (S1, .ok ())
  | .dir listable ents => if !listable then (S, .error .source) else ents.copy e srcRoot dstRoot path S

def SrcEnts.copy (e : Env) (srcRoot dstRoot : Str) (path : Str) (S : St) : SrcEnts → St × Except CopyErr Unit
  | .nil => (S, .ok ())
  | .cons name n rest => match n.copy e srcRoot dstRoot (join2 path name) S with
    | (S1, .error er) => (S1, .error er)
    | (S1, .ok _) => rest.copy e srcRoot dstRoot path S1
end

/-- fs_link.go 131-158 `Copy`; `src` is what is at `srcRoot`, if its `Stat` succeeds. -/
def copyCall (e : Env) (S : St) (src : Option Src) (srcRoot dstRoot : Str) : St × Except CopyErr Unit :=
  match validate e srcRoot, validate e dstRoot with
  | some _, _ => (S, .error .root)
  | _, some _ => (S, .error .root)
  | none, none => match src with
    | none => (S, .error .source)
    | some t => t.copy e srcRoot dstRoot srcRoot S

end Verif.Afero
