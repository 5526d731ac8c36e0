import Verif.Fsutil.CopyModel
import Verif.Fsutil.HeadTail
import Verif.Tarfs.TreeModel
/-
Model of /repo/fsutil/copy_fs.go 86-170: `CopyFsOption.CopyPath`. The source and the destination are those of `CopyModel`.
Simplifications: the source is not looked up through symlinks; Unix paths; std `fs.ValidPath` is modelled without its check of the encoding.
-/
namespace Verif.Fsutil.Copy
open Verif.Path

mutual
/-- The entry of the source at a path. -/
def Node.look : Node → List Str → Option Ent
  | .mk ent _, [] => some ent
  | .mk (.dir _) kids, c :: p => kids.look c p
  | .mk _ _, _ :: _ => none
def Kids.look : Kids → Str → List Str → Option Ent
  | .nil, _, _ => none
  | .cons name n rest, c, p => if name = c then n.look p else rest.look c p
end

/-- A call of the source's `Stat` or `Lstat`: paths that are not valid are refused. -/
def srcStat (src : Node) (p : Str) : Option Ent := if Tarfs.validPath p then src.look (comps p) else none

/-- copy_fs.go 118-124: the entries named. -/
def gather (e : Env) (src : Node) : List Str → P (List (Str × Ent))
  | [] => pure []
  | p :: ps => do
    call e (.info (clean p))
    match srcStat src (clean p) with
    | none => Prog.fail .notExist
    | some ent => do
      let rest ← gather e src ps
      pure ((clean p, ent) :: rest)

/-- copy_fs.go 125-133: the directories above one entry. -/
def parents (root p : Str) : List Str :=
  let parent := dir (join2 root p)
  if parent = dot then [] else pathFromHead parent

/-- Strip the common beginning of two lists. -/
def stripCommon : List Str → List Str → List Str × List Str
  | a :: as, b :: bs => if a = b then stripCommon as bs else (a :: as, b :: bs)
  | as, bs => (as, bs)

/-- std `filepath.Rel` for two clean relative paths; `none` is an error. -/
def relTo (base targ : Str) : Option Str :=
  let r := stripCommon (comps base) (comps targ)
  if r.1.head? = some dotdot then none
  else some (render false (r.1.map (fun _ => dotdot) ++ r.2))

/-- The permission bits reported for an entry (of a link: not reached, the source is not looked up through links). -/
def modeOf : Ent → Nat
  | .dir m => m
  | .file m _ => m
  | .link _ => 0
  | .other => 0

/-- copy_fs.go 137-160: one directory. -/
def makeDir (e : Env) (src : Node) (root d : Str) : P Unit :=
  if d = dot then pure ()
  else do
    mkdirOrExist e d
    match relTo root d with
    | none => pure ()
    | some r =>
      if r = dot then pure ()
      else do
        call e (.stat r)
        match srcStat src r with
        | none => Prog.fail .notExist
        | some ent => chmod e d (e.mask (modeOf ent))

/-- copy_fs.go 137-160: the loop over the directories. -/
def makeDirs (e : Env) (src : Node) (root : Str) : List Str → P Unit
  | [] => pure ()
  | d :: ds => do
    makeDir e src root d
    makeDirs e src root ds

/-- copy_fs.go 163-169: the loop over the entries. -/
def copyEntries (e : Env) (root : Str) : List (Str × Ent) → P Unit
  | [] => pure ()
  | x :: xs => do
    copyEntry e (join2 root x.1) x.1 x.2
    copyEntries e root xs

/-- copy_fs.go 88-170 `CopyPath`. -/
def copyPath (e : Env) (src : Node) (root : Str) (paths : List Str) : P Unit :=
  let root := clean root
  if isAbs root then Prog.fail .escapes
  else do
    let sources ← gather e src paths
    makeDirs e src root (Tarfs.sortKeys (sources.flatMap (fun x => parents root x.1)).eraseDups)
    copyEntries e root sources

end Verif.Fsutil.Copy
