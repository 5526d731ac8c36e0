import Verif.Tarfs.TreeModel
/-
Model of the other methods of /repo/tarfs/fs.go: `ReadLink`, `Lstat` and `Sub`.
-/
namespace Verif.Tarfs
open Verif.Path

/-- What `ReadLink` and `Lstat` give. -/
inductive Answer (α : Type) where
  | ok (a : α)
  | err (e : Err)
  | notLink      -- EINVAL
  | panic
deriving DecidableEq, Repr

/-- fs.go 138-144 `ReadLink`, with the `readLink` methods entsymlink.go 21-23, entfile.go 27-29, entdir.go 31-33, enthardlink.go 22-24 and 53-55. -/
def readLink (fs : Fsys) (fuel depth : Nat) (name : Str) : Option (Answer Str) :=
  match findFile fs fuel depth name true with
  | none => none
  | some (.error e) => some (.err e)
  | some (.ok (.overlay _ _)) => some .notLink
  | some (.ok (.plain p)) =>
    match fs.t.ent p with
    | some (.symlink h) => some (.ok (clean h.linkname))
    | _ => some .notLink

/-- `direntry.header()`: entdir.go 23-25 (nil for an implicit directory), entfile.go, entsymlink.go 12-14, enthardlink.go 13-15. -/
def entHdr : Ent → Option Hdr
  | .dir h => h
  | .symlink h => some h
  | .hardlink h => some h
  | .file h => some h

/-- fs.go 146-152 `Lstat`; enthardlink.go 35-37: an overlay has the header of the link. -/
def lstat (fs : Fsys) (fuel depth : Nat) (name : Str) : Option (Answer Hdr) :=
  match findFile fs fuel depth name true with
  | none => none
  | some (.error e) => some (.err e)
  | some (.ok (.overlay p _)) | some (.ok (.plain p)) =>
    match (fs.t.ent p).bind entHdr with
    | some h => some (.ok h)
    | none => some .panic

/-- fs.go 156-177 `Sub`. -/
def subFS (fs : Fsys) (fuel depth : Nat) (name : Str) : Option (Except Err Fsys) :=
  if validPath name = false then some (.error .invalid)
  else match findFile fs fuel depth name false with
    | none => none
    | some (.error e) => some (.error e)
    | some (.ok (.overlay _ _)) => some (.error .notExist)
    | some (.ok (.plain p)) =>
      match fs.t.ent p with
      | some (.dir _) => some (.ok { fs with sub := p })
      | _ => some (.error .notExist)

end Verif.Tarfs
